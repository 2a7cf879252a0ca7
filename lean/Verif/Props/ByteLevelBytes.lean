import Verif.Props.BytesRegexp
import Verif.Props.ByteLevel
import Verif.Props.Whole

/-! C125: regular expressions cut without loss on any bytes, and the byte-level transformation needs UTF-8. -/

set_option autoImplicit false

namespace Verif

/-! ## Nothing is lost -/

/-- Captures that follow one another from `a` to `b`. -/
def Adjoining : Int → List Capture → Int → Prop
  | a, [], b => a = b
  | a, c :: cs, b => c.offsets.start = a ∧ Adjoining c.offsets.stop cs b

theorem follow_append {a b c : Int} {xs ys : List Capture} (h1 : Adjoining a xs b) (h2 : Adjoining b ys c) :
    Adjoining a (xs ++ ys) c := by
  induction xs generalizing a with
  | nil => simp only [Adjoining] at h1; subst h1; exact h2
  | cons x xs ih => exact ⟨h1.1, ih h1.2⟩

theorem follow_step {st : Int × List Capture} (h : Adjoining 0 st.2 st.1) (m : Int × Int) :
    Adjoining 0 (regexpStep st m).2 (regexpStep st m).1 := by
  unfold regexpStep
  by_cases he : st.1 = m.1
  · simp only [he, ne_eq, not_true_eq_false, if_false]
    exact follow_append h ⟨he.symm, rfl⟩
  · simp only [he, ne_eq, not_false_eq_true, if_true]
    rw [List.append_assoc]
    exact follow_append h ⟨rfl, rfl, rfl⟩

/-- Whatever matches the engine reports, the captures follow one another from one end of the text to the other. -/
theorem follow_captures (s : Str) (ms : List (Int × Int)) : Adjoining 0 (capturesOfMatches s ms) s.length := by
  have key : ∀ (ms : List (Int × Int)) (st : Int × List Capture), Adjoining 0 st.2 st.1 →
      Adjoining 0 (ms.foldl regexpStep st).2 (ms.foldl regexpStep st).1 := by
    intro ms
    induction ms with
    | nil => intro st h; exact h
    | cons m ms ih => intro st h; exact ih _ (follow_step h m)
  have h := key ms (0, []) rfl
  unfold capturesOfMatches
  generalize ms.foldl regexpStep (0, []) = st at h
  by_cases he : st.1 = (s.length : Int)
  · simp only [he, ne_eq, not_true_eq_false, if_false]
    rw [← he]; exact h
  · simp only [he, ne_eq, not_false_eq_true, if_true]
    exact follow_append h ⟨rfl, rfl⟩

theorem goSlice_parts {s : Str} : ∀ {caps : List Capture} {ts : List Str} {a b : Int},
    All2 (fun c t => goSlice s c.offsets.start c.offsets.stop = .ok t) caps ts → Adjoining a caps b → 0 ≤ a →
    a ≤ b ∧ (caps ≠ [] → b ≤ s.length) ∧ ts.flatten = (s.drop a.toNat).take (b - a).toNat := by
  intro caps
  induction caps with
  | nil =>
    intro ts a b h hf ha
    cases h
    simp only [Adjoining] at hf
    subst hf
    simp
  | cons c caps ih =>
    intro ts a b h hf ha
    cases h with
    | cons h1 h2 =>
      rename_i t ts
      obtain ⟨rfl, hf⟩ := hf
      obtain ⟨⟨k1, k2, k3⟩, rfl⟩ := goSlice_eq_ok.1 h1
      obtain ⟨i1, i2, i3⟩ := ih h2 hf (by omega)
      refine ⟨by omega, ?_, ?_⟩
      · intro _
        cases caps with
        | nil => simp only [Adjoining] at hf; omega
        | cons d ds => exact i2 (by simp)
      · rw [List.flatten_cons, i3]
        have e1 : c.offsets.stop.toNat = c.offsets.start.toNat + (c.offsets.stop - c.offsets.start).toNat := by omega
        have e2 : (b - c.offsets.start).toNat = (c.offsets.stop - c.offsets.start).toNat + (b - c.offsets.stop).toNat := by
          omega
        rw [e1, e2, List.take_add, List.drop_drop]

/-- **C125, no loss.** Whatever the state, its bytes and the matches an engine reports: if isolating the matches of
a regular expression succeeds, the texts of the pieces, joined, are the text. -/
theorem C125_join {ns : NS} {ms : List (Int × Int)} {pat : SplitPattern} {pieces : List NS}
    (hp : pat ns.get = .ok (.ok (capturesOfMatches ns.get ms)))
    (h : ns.split pat .isolated = .ok (.ok pieces)) : (pieces.map NS.get).flatten = ns.get := by
  have h1 := C78_pieces hp h
  have h2 : ∀ (cs : List Capture) (ps : List NS),
      All2 (fun g p => goSlice ns.get (span g).1 (span g).2 = .ok p.get) (cs.map fun c => [c]) ps →
      All2 (fun c t => goSlice ns.get c.offsets.start c.offsets.stop = .ok t) cs (ps.map NS.get) := by
    intro cs
    induction cs with
    | nil => intro ps h; cases h; exact .nil
    | cons c cs ih =>
      intro ps h
      cases h with
      | cons a b => exact .cons a (ih _ b)
  have h3 := (goSlice_parts (h2 _ _ h1) (follow_captures _ _) (by omega)).2.2
  rw [h3]
  simp

theorem C125_regexp {ns : NS} {findAll : Str → List (Int × Int)} {pieces : List NS}
    (h : ns.split (fromRegexp findAll) .isolated = .ok (.ok pieces)) : (pieces.map NS.get).flatten = ns.get := by
  by_cases hne : ns.get.length = 0
  · have hc : capturesOfMatches ns.get [(0, 0)] = [⟨⟨0, 0⟩, true⟩] := by
      simp [capturesOfMatches, regexpStep, hne]
    have h1 := C78_pieces (caps := emptyCaptures) (by simp only [fromRegexp, hne, if_true]) h
    cases h1 with
    | cons a b =>
      cases b with
      | nil =>
        have := (goSlice_eq_ok.1 a).2
        have h0 : ns.get = [] := List.length_eq_zero_iff.1 hne
        simp [this, h0]
  · exact C125_join (ms := findAll ns.get) (by simp only [fromRegexp, hne, if_false]) h

theorem C125_regexp2 {ns : NS} {findAll2 : List Rune → Except Err (List (Nat × Nat))} {pieces : List NS}
    (h : ns.split (fromRegexp2 findAll2) .isolated = .ok (.ok pieces)) : (pieces.map NS.get).flatten = ns.get := by
  by_cases hne : ns.get.length = 0
  · have h1 := C78_pieces (caps := emptyCaptures) (by simp only [fromRegexp2, hne, if_true]) h
    cases h1 with
    | cons a b =>
      cases b with
      | nil =>
        have := (goSlice_eq_ok.1 a).2
        have h0 : ns.get = [] := List.length_eq_zero_iff.1 hne
        simp [this, h0]
  · cases he : findAll2 (runesOf ns.get) with
    | error e =>
      exfalso
      have : fromRegexp2 findAll2 ns.normalized = .ok (.error e) := by
        have hne' : ¬ ns.normalized.length = 0 := hne
        simp only [fromRegexp2, hne', if_false]
        rw [show runesOf ns.normalized = runesOf ns.get from rfl, he]
      simp only [NS.split, this, GoM.bind_ok, GoM.pure_eq] at h
      cases h
    | ok ms =>
      exact C125_join (ms := ms.map (regexp2Bytes (runesOf ns.get))) (by simp only [fromRegexp2, hne, if_false, he]) h

/-! ## The byte-level transformation -/

theorem byteLevelLoop_panics (s : Str) : ∀ (rs : List Rune) (i : Nat), i ≤ s.length →
    s.length < i + (encodeRunes rs).length → byteLevelLoop s rs i = .panic := by
  intro rs
  induction rs with
  | nil => intro i h1 h2; simp at h2; omega
  | cons r rs ih =>
    intro i h1 h2
    rw [encodeRunes_cons, List.length_append] at h2
    simp only [byteLevelLoop]
    by_cases h : i + (encodeRune r).length ≤ s.length
    · have e : ((i : Int) + ((encodeRune r).length : Int)) = ((i + (encodeRune r).length : Nat) : Int) := by simp
      rw [goSlice_of (by omega) (by omega) (by omega), GoM.bind_ok, e, ih _ h (by omega)]
      rfl
    · rw [(goSlice_eq_panic (l := s) (a := (i : Int)) (b := (i : Int) + ((encodeRune r).length : Int))).2 (by omega)]
      rfl

/-- **C125, the transformation.** On any state whose text is not valid UTF-8, the byte-level transformation panics. -/
theorem C125_byteLevelNormalize {ns : NS} (h : ¬ ValidUtf8 ns.get) : byteLevelNormalize ns = .panic := by
  have hl := bad_longer h
  rw [sanitizeText_eq] at hl
  have := byteLevelLoop_panics ns.get (runesOf ns.get) 0 (by omega) (by omega)
  simp only [byteLevelNormalize]
  rw [show ((0 : Nat) : Int) = 0 from rfl] at this
  rw [this]; rfl

/-- On a fresh string, exactly then. -/
theorem C125_byteLevelNormalize_iff (s : Str) : byteLevelNormalize (NS.fromString s) = .panic ↔ ¬ ValidUtf8 s := by
  constructor
  · intro h hv
    obtain ⟨ns', h1, -⟩ := C33_normalize (fromString_repr hv)
    rw [h1] at h; cases h
  · exact C125_byteLevelNormalize (ns := NS.fromString s)

/-! ## The byte-level pre-tokenizer -/

theorem splitLoop_items (f : SplitFunc) : ∀ (ps : List Piece) (i : Nat) (old new : List Piece),
    PTS.splitLoop f i ps = .ok (old, .ok new) →
    ∀ q ∈ ps, q.tokens = none → ∃ j ns' items, f j q.ns = .ok (ns', .ok items)
      ∧ ∀ it ∈ items, it.ns.isEmpty = false → it ∈ new := by
  intro ps
  induction ps with
  | nil => intro i old new _ q hq; cases hq
  | cons p ps ih =>
    intro i old new h q hq ht
    cases hp : p.tokens with
    | some t =>
      simp only [PTS.splitLoop, hp, GoM.bind_eq_ok] at h
      obtain ⟨⟨o, n⟩, h3, h4⟩ := h
      cases n with
      | error e => simp at h4
      | ok n =>
        simp only [GoM.pure_eq, GoM.ok.injEq, Prod.mk.injEq, Except.ok.injEq] at h4
        rcases List.mem_cons.1 hq with rfl | hq
        · rw [hp] at ht; cases ht
        · obtain ⟨j, ns', items, k1, k2⟩ := ih _ _ _ h3 q hq ht
          exact ⟨j, ns', items, k1, fun it hit he => by rw [← h4.2]; exact List.mem_cons_of_mem _ (k2 it hit he)⟩
    | none =>
      simp only [PTS.splitLoop, hp, GoM.bind_eq_ok] at h
      obtain ⟨⟨ns', r⟩, h1, h2⟩ := h
      cases r with
      | error e => simp at h2
      | ok items =>
        simp only [GoM.bind_eq_ok] at h2
        obtain ⟨⟨o, n⟩, h3, h4⟩ := h2
        cases n with
        | error e => simp at h4
        | ok n =>
          simp only [GoM.pure_eq, GoM.ok.injEq, Prod.mk.injEq, Except.ok.injEq] at h4
          rcases List.mem_cons.1 hq with rfl | hq
          · refine ⟨i, ns', items, h1, fun it hit he => ?_⟩
            rw [← h4.2]
            apply List.mem_append_left
            rw [List.mem_filter]
            exact ⟨hit, by simp [he]⟩
          · obtain ⟨j, ns', items', k1, k2⟩ := ih _ _ _ h3 q hq ht
            exact ⟨j, ns', items', k1, fun it hit he => by rw [← h4.2]; exact List.mem_append_right _ (k2 it hit he)⟩

theorem normalizeLoop_each (N : NormalizeFunc) : ∀ (ps new : List Piece), PTS.normalizeLoop N ps = .ok (new, none) →
    ∀ q ∈ ps, q.tokens = none → ∃ ns', N q.ns = .ok (ns', none) := by
  intro ps
  induction ps with
  | nil => intro new _ q hq; cases hq
  | cons p ps ih =>
    intro new h q hq ht
    cases hp : p.tokens with
    | some t =>
      simp only [PTS.normalizeLoop, hp, GoM.bind_eq_ok] at h
      obtain ⟨⟨o, e⟩, h3, h4⟩ := h
      simp only [GoM.pure_eq, GoM.ok.injEq, Prod.mk.injEq] at h4
      rcases List.mem_cons.1 hq with rfl | hq
      · rw [hp] at ht; cases ht
      · exact ih o (by rw [h3, h4.2]) q hq ht
    | none =>
      simp only [PTS.normalizeLoop, hp, GoM.bind_eq_ok] at h
      obtain ⟨⟨ns', e⟩, h1, h2⟩ := h
      cases e with
      | some e => simp at h2
      | none =>
        simp only [GoM.bind_eq_ok] at h2
        obtain ⟨⟨o, e⟩, h3, h4⟩ := h2
        simp only [GoM.pure_eq, GoM.ok.injEq, Prod.mk.injEq] at h4
        rcases List.mem_cons.1 hq with rfl | hq
        · exact ⟨ns', h1⟩
        · exact ih o (by rw [h3, h4.2]) q hq ht

theorem valid_flatten {ts : List Str} (h : ∀ t ∈ ts, ValidUtf8 t) : ValidUtf8 ts.flatten := by
  induction ts with
  | nil => exact ⟨[], by simp, rfl⟩
  | cons t ts ih => exact (h t (by simp)).append (ih fun x hx => h x (by simp [hx]))

/-- **C125, byte level.** Whatever the expression and the engine: if the byte-level pre-tokenizer returns without
an error, every text it had to cut is valid UTF-8, or a space was put before it and it starts with a bad
byte; without the space, always the former. -/
theorem C125_byteLevel {findAll2 : List Rune → Except Err (List (Nat × Nat))} {b : Bool} {p p' : PTS}
    (h : byteLevel findAll2 b p = .ok (p', none)) :
    ∀ q ∈ p.splits, q.tokens = none →
      ValidUtf8 q.ns.get ∨ (b = true ∧ ∃ c cs, chunks q.ns.get = c :: cs ∧ c.isBad = true) := by
  simp only [byteLevel, GoM.bind_eq_ok] at h
  obtain ⟨⟨p1, e⟩, h1, h2⟩ := h
  cases e with
  | some e => simp at h2
  | none =>
    simp only at h2
    intro q hq ht
    obtain ⟨j, ns', items, h3, hin⟩ : ∃ j ns' items, byteLevelSplitFunc findAll2 b j q.ns = .ok (ns', .ok items)
        ∧ ∀ it ∈ items, it.ns.isEmpty = false → it ∈ p1.splits := by
      simp only [PTS.split, GoM.bind_eq_ok] at h1
      obtain ⟨⟨o, n⟩, k1, k2⟩ := h1
      cases n with
      | error e => simp at k2
      | ok n =>
        simp only [GoM.pure_eq, GoM.ok.injEq, Prod.mk.injEq] at k2
        rw [← k2.1]
        exact splitLoop_items _ _ _ _ _ k1 q hq ht
    have hvalid : ∀ it ∈ items, it.tokens = none → ValidUtf8 it.ns.get := by
      intro it hit htk
      cases he : it.ns.isEmpty with
      | true =>
        have : it.ns.normalized = [] := by simpa [NS.isEmpty] using he
        have : it.ns.get = [] := this
        rw [this]; exact ⟨[], by simp, rfl⟩
      | false =>
        simp only [PTS.normalize, GoM.bind_eq_ok] at h2
        obtain ⟨⟨sp, e⟩, k1, k2⟩ := h2
        simp only [GoM.pure_eq, GoM.ok.injEq, Prod.mk.injEq] at k2
        obtain ⟨ns2, k3⟩ := normalizeLoop_each byteLevelNormalize p1.splits sp (by rw [k1, k2.2]) it (hin it hit he) htk
        refine Classical.byContradiction fun hb => ?_
        rw [C125_byteLevelNormalize hb] at k3
        cases k3
    simp only [byteLevelSplitFunc] at h3
    have fin : ∀ (ns1 : NS), (do
        match ← ns1.split (fromRegexp2 findAll2) .isolated with
        | .error e => pure (ns1, .error e)
        | .ok nss => pure (ns1, .ok (splitsFromNormalizedStrings nss)) : GoM (NS × Except Err (List Piece)))
          = .ok (ns', .ok items) → ValidUtf8 ns1.get := by
      intro ns1 h
      simp only [GoM.bind_eq_ok] at h
      obtain ⟨r, h4, h5⟩ := h
      cases r with
      | error e => simp at h5
      | ok nss =>
        simp only [GoM.pure_eq, GoM.ok.injEq, Prod.mk.injEq, Except.ok.injEq] at h5
        rw [← C125_regexp2 h4]
        apply valid_flatten
        intro t ht'
        obtain ⟨n, hn, rfl⟩ := List.mem_map.1 ht'
        refine hvalid ⟨n, none⟩ ?_ rfl
        rw [← h5.2]
        exact List.mem_map.2 ⟨n, hn, rfl⟩
    by_cases hc : b = true ∧ (!startsWithWhitespace q.ns.get) = true
    · rw [if_pos hc, GoM.bind_eq_ok] at h3
      obtain ⟨ns1, h4, h5⟩ := h3
      have hv := fin _ h5
      cases hch : chunks q.ns.get with
      | nil =>
        left
        have := textOf_chunks q.ns.get
        rw [hch] at this
        rw [← this]; exact ⟨[], by simp, rfl⟩
      | cons c cs =>
        cases hb : c.isBad with
        | true => exact Or.inr ⟨hc.1, c, cs, rfl, hb⟩
        | false =>
          left
          rw [(C78_prepend hch h4).2 hb] at hv
          exact validUtf8_of_space hv
    · rw [if_neg hc] at h3
      exact Or.inl (fin _ h3)

/-- An expression that never matches, no space: `"a\xff"` makes the pre-tokenizer panic; for `"aé"` it is fine. -/
example : byteLevel (fun _ => .ok []) false (PTS.fromString [0x61, 0xFF]) = .panic
    ∧ (byteLevel (fun _ => .ok []) false (PTS.fromString b!"aé")).bind (fun r => .ok r.2) = .ok none := by
  decide +kernel

/-- Isolating the first rune of `"a\xffbcd"` succeeds and loses nothing. -/
example : ((NS.fromString [0x61, 0xFF, 0x62, 0x63, 0x64]).split (fromRegexp2 fun _ => .ok [(0, 1)]) .isolated >>= fun r =>
    pure (r.toOption.map (·.map NS.get))) = .ok (some [[0x61], [0xFF, 0x62, 0x63, 0x64]]) := by decide +kernel

end Verif
