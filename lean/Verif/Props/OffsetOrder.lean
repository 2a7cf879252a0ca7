import Verif.Props.OffsetBytes
import Verif.Props.JoinBytes

/-! The splits and the rows of an encoding follow the order of the input, on any bytes (C135). -/

set_option autoImplicit false

namespace Verif

/-! ## Specification -/

/-- Whenever the pattern answers, no capture begins before an earlier one ends. -/
def Orderly (pat : SplitPattern) : Prop :=
  ∀ (s : Str) (caps : List Capture), pat s = .ok (.ok caps) → caps.Pairwise fun c d => c.offsets.stop ≤ d.offsets.start

/-- The strings are runs of bytes of `s` between byte `i` and byte `e`, one after the other. -/
def Laid (s : Str) : Nat → List NS → Nat → Prop
  | i, [], e => i ≤ e
  | i, ns :: rest, e => ∃ j, i ≤ j ∧ PlacedAt s j ns ∧ Laid s (j + ns.normalized.length) rest e

/-- What successive cuts by orderly patterns make of `s`. -/
inductive OrderedRun (s : Str) : PTS → Prop
  | start : OrderedRun s (PTS.fromString s)
  | cut {p p' : PTS} {pat : SplitPattern} {b : Behavior} : OrderedRun s p → Orderly pat →
      p.split (splitByPattern pat b) = .ok (p', none) → OrderedRun s p'

theorem OrderedRun.cutRun {s : Str} {p : PTS} (h : OrderedRun s p) : CutRun s p := by
  induction h with
  | start => exact .start
  | cut _ _ h ih => exact .cut ih h

/-! ## Patterns -/

theorem pairwise_adjoining : ∀ {caps : List Capture} {a e : Int}, Adjoining a caps e → (∀ c ∈ caps, c.offsets.start ≤ c.offsets.stop) →
    (∀ c ∈ caps, a ≤ c.offsets.start) ∧ caps.Pairwise fun c d => c.offsets.stop ≤ d.offsets.start := by
  intro caps
  induction caps with
  | nil => intro a e _ _; exact ⟨by simp, .nil⟩
  | cons c caps ih =>
    intro a e h hf
    obtain ⟨k1, k2⟩ := ih h.2 fun d hd => hf d (by simp [hd])
    refine ⟨?_, .cons k1 k2⟩
    have h0 := h.1
    have h1 := hf c (by simp)
    intro d hd
    rcases List.mem_cons.1 hd with rfl | hd
    · omega
    · have := k1 d hd; omega

theorem chunkCaps_forward : ∀ (t : List (Bool × List Chunk)) (i : Int), ∀ c ∈ chunkCaps i t, c.offsets.start ≤ c.offsets.stop := by
  intro t
  induction t with
  | nil => intro i c hc; simp [chunkCaps] at hc
  | cons x t ih =>
    obtain ⟨b, g⟩ := x
    intro i c hc
    cases t with
    | nil => simp [chunkCaps] at hc; subst hc; simp only; omega
    | cons y t =>
      rw [chunkCaps] at hc
      rcases List.mem_cons.1 hc with rfl | hc
      · simp only; omega
      · exact ih _ c hc

theorem pairwise_emptyCaptures : emptyCaptures.Pairwise fun c d => c.offsets.stop ≤ d.offsets.start := by
  simp [emptyCaptures]

/-- Function patterns that do not take U+FFFD for a delimiter are orderly. -/
theorem orderly_func {f : Rune → Bool} (hf : f 0xFFFD = false) : Orderly (fromFunc f) := by
  intro s caps h
  have h : caps = funcFindMatches f s := by
    have : GoM.ok (Except.ok (funcFindMatches f s)) = GoM.ok (Except.ok caps) := h
    simpa using this.symm
  rw [h, funcFindMatches_chunks f hf]
  by_cases h0 : s = []
  · rw [if_pos h0]; exact pairwise_emptyCaptures
  · rw [if_neg h0]
    obtain ⟨e, -, h2⟩ := adjoining_chunkCaps (chunkSegs f (chunks s)) 0 (goodSegs f s)
    exact (pairwise_adjoining h2 (chunkCaps_forward _ _)).2

theorem orderly_rune {d : Rune} (hd : d ≠ 0xFFFD) : Orderly (fromRune d) :=
  orderly_func (by simpa using fun e => hd e.symm)

theorem orderly_invert {pat : SplitPattern} (h : Orderly pat) : Orderly (invert pat) := by
  intro s caps hc
  unfold invert at hc
  cases hp : pat s with
  | panic => simp [hp] at hc
  | ok r =>
    cases r with
    | error e => simp [hp] at hc
    | ok cs =>
      simp only [hp, GoM.ok.injEq, Except.ok.injEq] at hc
      subst hc
      rw [List.pairwise_map]
      exact h s cs hp

/-- Matches that are the right way round, each beginning no earlier than the one before it ends. -/
def InTurn : Int → List (Int × Int) → Prop
  | _, [] => True
  | a, m :: ms => a ≤ m.1 ∧ m.1 ≤ m.2 ∧ InTurn m.2 ms

theorem inTurn_captures (s : Str) (ms : List (Int × Int)) (h : InTurn 0 ms) :
    (capturesOfMatches s ms).Pairwise fun c d => c.offsets.stop ≤ d.offsets.start := by
  have key : ∀ (ms : List (Int × Int)) (st : Int × List Capture), InTurn st.1 ms → (∀ c ∈ st.2, c.offsets.stop ≤ st.1) →
      (st.2.Pairwise fun c d => c.offsets.stop ≤ d.offsets.start) →
      (∀ c ∈ (ms.foldl regexpStep st).2, c.offsets.stop ≤ (ms.foldl regexpStep st).1)
        ∧ (ms.foldl regexpStep st).2.Pairwise fun c d => c.offsets.stop ≤ d.offsets.start := by
    intro ms
    induction ms with
    | nil => intro st _ h1 h2; exact ⟨h1, h2⟩
    | cons m ms ih =>
      intro st hm h1 h2
      obtain ⟨m1, m2, m3⟩ := hm
      have mid : (∀ c ∈ (if st.1 ≠ m.1 then st.2 ++ [⟨⟨st.1, m.1⟩, false⟩] else st.2), c.offsets.stop ≤ m.1)
          ∧ (if st.1 ≠ m.1 then st.2 ++ [⟨⟨st.1, m.1⟩, false⟩] else st.2).Pairwise fun c d => c.offsets.stop ≤ d.offsets.start := by
        split
        · refine ⟨?_, ?_⟩
          · intro c hc
            rcases List.mem_append.1 hc with hc | hc
            · have := h1 c hc; omega
            · simp at hc; subst hc; simp
          · rw [List.pairwise_append]
            exact ⟨h2, by simp, fun c hc d hd => by simp at hd; subst hd; exact h1 c hc⟩
        · exact ⟨fun c hc => by have := h1 c hc; omega, h2⟩
      refine ih (regexpStep st m) m3 ?_ ?_
      · intro c hc
        rcases List.mem_append.1 hc with hc | hc
        · have := mid.1 c hc
          show _ ≤ m.2
          omega
        · simp at hc; subst hc; exact Int.le_refl _
      · show List.Pairwise _ (_ ++ _)
        rw [List.pairwise_append]
        exact ⟨mid.2, by simp, fun c hc d hd => by simp at hd; subst hd; exact mid.1 c hc⟩
  obtain ⟨k1, k2⟩ := key ms (0, []) h (by simp) .nil
  unfold capturesOfMatches
  simp only
  split
  · rw [List.pairwise_append]
    exact ⟨k2, by simp, fun c hc d hd => by simp at hd; subst hd; exact k1 c hc⟩
  · exact k2

/-- Patterns of package `regexp` are orderly if the engine reports its matches from left to right. -/
theorem orderly_regexp {findAll : Str → List (Int × Int)} (he : ∀ s, InTurn 0 (findAll s)) : Orderly (fromRegexp findAll) := by
  intro s caps h
  simp only [fromRegexp] at h
  split at h
  · simp at h; subst h; exact pairwise_emptyCaptures
  · simp at h; subst h; exact inTurn_captures s _ (he s)

theorem inTurn_regexp2 (rs : List Rune) (n : Nat) : ∀ (ms : List (Nat × Nat)) (i : Nat), Ordered2 ms i n →
    InTurn ((encodeRunes (rs.take i)).length : Int) (ms.map (regexp2Bytes rs)) := by
  intro ms
  induction ms with
  | nil => intro i _; trivial
  | cons m ms ih =>
    intro i h
    have h1 := encodeRunes_take_mono rs h.1
    have e : rs.take (m.1 + m.2) = rs.take m.1 ++ (rs.drop m.1).take m.2 := List.take_add
    have h2 := ih _ h.2
    rw [e, encodeRunes_append, List.length_append] at h2
    refine ⟨?_, ?_, h2⟩
    · simp only [regexp2Bytes]; omega
    · simp only [regexp2Bytes]; omega

/-- Patterns of regexp2 are orderly if the engine reports its matches from left to right. -/
theorem orderly_regexp2 {e : List Rune → Except Err (List (Nat × Nat))} (he : OrderedEngine e) : Orderly (fromRegexp2 e) := by
  intro s caps h
  simp only [fromRegexp2] at h
  split at h
  · simp at h; subst h; exact pairwise_emptyCaptures
  · cases hm : e (runesOf s) with
    | error err => simp [hm] at h
    | ok ms =>
      simp only [hm, GoM.ok.injEq, Except.ok.injEq] at h; subst h
      exact inTurn_captures s _ (by simpa using inTurn_regexp2 (runesOf s) _ ms 0 (he _ _ hm))

/-! ## Splits in order -/

theorem Laid.weaken {s : Str} : ∀ {l : List NS} {i i' e e' : Nat}, Laid s i l e → i' ≤ i → e ≤ e' → Laid s i' l e' := by
  intro l
  induction l with
  | nil => intro i i' e e' h h1 h2; simp only [Laid] at h ⊢; omega
  | cons ns l ih =>
    intro i i' e e' h h1 h2
    obtain ⟨j, k1, k2, k3⟩ := h
    exact ⟨j, by omega, k2, ih k3 (Nat.le_refl _) h2⟩

theorem Laid.le {s : Str} : ∀ {l : List NS} {i e : Nat}, Laid s i l e → i ≤ e := by
  intro l
  induction l with
  | nil => intro i e h; exact h
  | cons ns l ih => intro i e h; obtain ⟨j, k1, -, k3⟩ := h; have := ih k3; omega

theorem Laid.append {s : Str} : ∀ {l l' : List NS} {i j e : Nat}, Laid s i l j → Laid s j l' e → Laid s i (l ++ l') e := by
  intro l
  induction l with
  | nil => intro l' i j e h h'; exact h'.weaken h (Nat.le_refl _)
  | cons ns l ih =>
    intro l' i j e h h'
    obtain ⟨k, k1, k2, k3⟩ := h
    exact ⟨k, k1, k2, ih k3 h'⟩

theorem Laid.sublist {s : Str} : ∀ {l l' : List NS} {i e : Nat}, Laid s i l e → l'.Sublist l → Laid s i l' e := by
  intro l l' i e h hs
  induction hs generalizing i with
  | slnil => exact h
  | cons ns _ ih =>
    obtain ⟨k, k1, k2, k3⟩ := h
    exact (ih k3).weaken (by omega) (Nat.le_refl _)
  | cons_cons ns _ ih =>
    obtain ⟨k, k1, k2, k3⟩ := h
    exact ⟨k, k1, k2, ih k3⟩

theorem laid_slices {s : Str} {i : Nat} {ns : NS} (hp : PlacedAt s i ns) : ∀ {gs : List (List Capture)} {ps : List NS} {x : Int},
    All2 (fun g p => ns.slice (.normalized (span g).1 (span g).2) = .ok (some p)) gs ps →
    (∀ g ∈ gs, x ≤ (span g).1) → (gs.Pairwise fun g g' => (span g).2 ≤ (span g').1) → 0 ≤ x → x ≤ ns.normalized.length →
    Laid s (i + x.toNat) ps (i + ns.normalized.length) := by
  intro gs
  induction gs with
  | nil => intro ps x h _ _ h0 h1; cases h; simp only [Laid]; omega
  | cons g gs ih =>
    intro ps x h hx hg h0 h1
    cases h with
    | cons hs ht =>
      rename_i p ps
      obtain ⟨-, na, nb, -, -, -, k1, -, -, k2, -⟩ := slice_ok hs
      simp only [NS.coerceRangeToNormalized, Option.some.injEq, Prod.mk.injEq] at k1
      rw [← k1.1, ← k1.2] at k2
      have hl := goSlice_length k2
      obtain ⟨⟨a1, a2, a3⟩, -⟩ := goSlice_eq_ok.1 k2
      have hxg := hx g (by simp)
      refine ⟨i + (span g).1.toNat, by omega, placedAt_slice hp hs, ?_⟩
      have := ih ht (List.pairwise_cons.1 hg).1 (List.pairwise_cons.1 hg).2 (by omega) a3
      refine this.weaken ?_ (Nat.le_refl _)
      omega

theorem pairwise_groups {gs : List (List Capture)} (hne : ∀ g ∈ gs, g ≠ [])
    (h : gs.flatten.Pairwise fun c d => c.offsets.stop ≤ d.offsets.start) : gs.Pairwise fun g g' => (span g).2 ≤ (span g').1 := by
  have h2 := (List.pairwise_flatten.1 h).2
  refine List.Pairwise.imp_of_mem ?_ h2
  intro g g' hg hg' hall
  cases g with
  | nil => exact absurd rfl (hne _ hg)
  | cons c cs =>
    cases g' with
    | nil => exact absurd rfl (hne _ hg')
    | cons d ds => exact hall _ (List.getLast_mem _) d (by simp)

theorem laid_split {s : Str} {i : Nat} {ns : NS} (hp : PlacedAt s i ns) {pat : SplitPattern} (ho : Orderly pat) {b : Behavior} {ps : List NS}
    (h : ns.split pat b = .ok (.ok ps)) : Laid s i ps (i + ns.normalized.length) := by
  cases hc : pat ns.normalized with
  | panic => simp only [NS.split, hc, GoM.bind_panic] at h; cases h
  | ok r =>
    cases r with
    | error e => simp only [NS.split, hc, GoM.bind_ok, GoM.pure_eq] at h; cases h
    | ok caps =>
      have h1 := split_inv hc h
      obtain ⟨f1, f2⟩ := splitGroups_flatten b caps
      have hf : (splitGroups b caps).flatten.Pairwise fun c d => c.offsets.stop ≤ d.offsets.start := by
        rw [f1]
        split
        · exact (ho _ _ hc).sublist List.filter_sublist
        · exact ho _ _ hc
      have := laid_slices hp h1 (x := 0) ?_ (pairwise_groups f2 hf) (by omega) (by omega)
      · simpa using this
      · intro g hg
        obtain ⟨p, -, hs⟩ := h1.exists_right hg
        obtain ⟨-, na, nb, -, -, -, k1, -, -, k2, -⟩ := slice_ok hs
        simp only [NS.coerceRangeToNormalized, Option.some.injEq, Prod.mk.injEq] at k1
        rw [← k1.1, ← k1.2] at k2
        exact (goSlice_eq_ok.1 k2).1.1

theorem splitLoop_laid {s : Str} {pat : SplitPattern} (ho : Orderly pat) {b : Behavior} : ∀ (ps : List Piece) (k : Nat) (old l : List Piece)
    (i e : Nat), (∀ sp ∈ ps, sp.tokens = none) → Laid s i (ps.map (·.ns)) e → PTS.splitLoop (splitByPattern pat b) k ps = .ok (old, .ok l) →
    Laid s i (l.map (·.ns)) e := by
  intro ps
  induction ps with
  | nil =>
    intro k old l i e _ hl h
    simp [PTS.splitLoop] at h
    rw [h.2]; exact hl
  | cons p ps ih =>
    intro k old l i e hp hl h
    unfold PTS.splitLoop at h
    simp only [hp p (by simp), GoM.bind_eq_ok] at h
    obtain ⟨⟨ns', r⟩, h0, h⟩ := h
    cases r with
    | error e => simp at h
    | ok items =>
      simp only [GoM.bind_eq_ok] at h
      obtain ⟨⟨old1, new1⟩, h1, h⟩ := h
      cases new1 with
      | error e => simp at h
      | ok l1 =>
        simp only [GoM.pure_eq, GoM.ok.injEq, Prod.mk.injEq, Except.ok.injEq] at h
        obtain ⟨-, rfl⟩ := h
        obtain ⟨j, j1, j2, j3⟩ := hl
        obtain ⟨nss, k1, k2⟩ := splitByPattern_items h0
        have a := laid_split j2 ho k1
        have c := ih (k + 1) old1 l1 _ _ (fun q hq => hp q (by simp [hq])) j3 h1
        rw [List.map_append]
        refine Laid.append (Laid.sublist (a.weaken j1 (Nat.le_refl _)) ?_) c
        have e : nss = items.map (·.ns) := by rw [k2]; simp [Function.comp_def]
        rw [e]
        exact List.filter_sublist.map _

/-- **C135, splits.** After any successful cuts by orderly patterns, on any bytes: the splits are runs of bytes of the input,
one after the other, and do not overlap. -/
theorem C135_splits {s : Str} {p : PTS} (h : OrderedRun s p) : Laid s 0 (p.splits.map (·.ns)) s.length := by
  induction h with
  | start =>
    simp only [PTS.fromString, PTS.fromNormalizedString, List.map_cons, List.map_nil, Laid]
    exact ⟨0, by omega, placedAt_fromString s, by simp [NS.fromString]⟩
  | @cut p p' pat b hr ho h ih =>
    unfold PTS.split at h
    simp only [GoM.bind_eq_ok] at h
    obtain ⟨⟨old, new⟩, h1, h⟩ := h
    cases new with
    | error e => simp at h
    | ok l =>
      simp at h
      rw [← h]
      exact splitLoop_laid ho _ _ _ _ _ _ (fun sp hsp => (C134_places hr.cutRun sp hsp).1) ih h1

/-! ## Rows in order -/

/-- `x` is the number of a byte whose alignment begins where `o` does. -/
def StartsAt (s : Str) (o : ByteOffsets) (x : Nat) : Prop := ∃ a, (NS.fromString s).alignments[x]? = some a ∧ o.start = a.start

theorem startsAt_tokens {s : Str} {j : Nat} {p : Piece} (hp : PlacedAt s j p.ns) (wd : Int) : ∀ (ts : List Token) (os : List ByteOffsets),
    (∀ t ∈ ts, WellPlaced p.ns t) → All2 (fun o (en : Entry) => PTS.tokenOffsets en.piece.ns en.token = .ok o) os (ts.map fun t => ⟨p, wd, t⟩) →
    All2 (StartsAt s) os (ts.map fun t => j + t.offsets.start.toNat) := by
  intro ts
  induction ts with
  | nil => intro os _ h; cases h; exact .nil
  | cons t ts ih =>
    intro os hw h
    cases h with
    | cons h1 h2 =>
      refine .cons ?_ (ih _ (fun t ht => hw t (by simp [ht])) h2)
      obtain ⟨w1, w2, w3⟩ := hw t (by simp)
      obtain ⟨o, ho, a, b, e1, -, e2⟩ := C134_token hp t w1 w2 w3
      simp only at h1
      rw [ho] at h1
      cases h1
      exact ⟨a, e1, by rw [e2]⟩

theorem startsAt_entries {s : Str} (w : Int) : ∀ (ps : List Piece) (k i e : Nat) (os : List ByteOffsets), Laid s i (ps.map (·.ns)) e →
    (∀ sp ∈ ps, ∃ ts, sp.tokens = some ts ∧ (∀ t ∈ ts, WellPlaced sp.ns t) ∧ ts.Pairwise fun t t' => t.offsets.start ≤ t'.offsets.start) →
    All2 (fun o (en : Entry) => PTS.tokenOffsets en.piece.ns en.token = .ok o) os (entries w k ps) →
    ∃ xs : List Nat, All2 (StartsAt s) os xs ∧ xs.Pairwise (· ≤ ·) ∧ ∀ x ∈ xs, i ≤ x := by
  intro ps
  induction ps with
  | nil => intro k i e os _ _ h; cases h; exact ⟨[], .nil, .nil, by simp⟩
  | cons p ps ih =>
    intro k i e os hl ht h
    obtain ⟨j, j1, j2, j3⟩ := hl
    obtain ⟨ts, t1, t2, t3⟩ := ht p (by simp)
    unfold entries at h
    rw [t1, Option.getD_some] at h
    obtain ⟨os1, os2, rfl, h1, h2⟩ := h.append_inv
    obtain ⟨xs, x1, x2, x3⟩ := ih (k + 1) _ e os2 j3 (fun sp hsp => ht sp (by simp [hsp])) h2
    refine ⟨ts.map (fun t => j + t.offsets.start.toNat) ++ xs, (startsAt_tokens j2 _ ts os1 t2 h1).append x1, ?_, ?_⟩
    · rw [List.pairwise_append]
      refine ⟨?_, x2, ?_⟩
      · rw [List.pairwise_map]
        exact t3.imp fun h => by omega
      · intro x hx y hy
        obtain ⟨t, ht, rfl⟩ := List.mem_map.1 hx
        have h1 := x3 y hy
        obtain ⟨w1, w2, w3⟩ := t2 t ht
        have h2 : p.ns.get.length = p.ns.normalized.length := rfl
        simp only at h1
        omega
    · intro x hx
      rcases List.mem_append.1 hx with hx | hx
      · obtain ⟨t, ht, rfl⟩ := List.mem_map.1 hx
        omega
      · have := x3 x hx; omega

theorem startsAt_pairwise {s : Str} : ∀ {os : List ByteOffsets} {xs : List Nat}, All2 (StartsAt s) os xs → xs.Pairwise (· ≤ ·) →
    os.Pairwise fun o o' => o.start ≤ o'.start := by
  intro os
  induction os with
  | nil => intro xs _ _; exact .nil
  | cons o os ih =>
    intro xs h hp
    cases h with
    | cons h1 h2 =>
      obtain ⟨p1, p2⟩ := List.pairwise_cons.1 hp
      refine .cons ?_ (ih h2 p2)
      intro o' ho'
      obtain ⟨x', hx', a', e1, e2⟩ := h2.exists_right ho'
      obtain ⟨a, e3, e4⟩ := h1
      rw [e2, e4]
      exact pairwise_le (tidy_fromString s).mono (p1 x' hx') e3 e1

/-- **C135, rows.** If then every split has tokens in order, on non-empty parts of its text, and the encoding is made, the starts
never go back from one row to the next, through all the splits. -/
theorem C135_rows {s : Str} {p p' : PTS} (h : OrderedRun s p) (hns : p'.splits.map (·.ns) = p.splits.map (·.ns))
    (ht : ∀ sp ∈ p'.splits, ∃ ts, sp.tokens = some ts ∧ (∀ t ∈ ts, WellPlaced sp.ns t)
      ∧ ts.Pairwise fun t t' => t.offsets.start ≤ t'.offsets.start) {w ty : Int} {enc : Encoding}
    (he : p'.intoEncoding w ty = .ok (.ok enc)) : enc.offsets.Pairwise fun o o' => o.start ≤ o'.start := by
  obtain ⟨-, -, -, -, -, -, -, hoff⟩ := (C27_intoEncoding p' w ty).2 enc he
  have hl := C135_splits h
  rw [← hns] at hl
  obtain ⟨xs, x1, x2, -⟩ := startsAt_entries w _ _ _ _ _ hl ht hoff
  exact startsAt_pairwise x1 x2

/-- **C135, WordPiece.** On any bytes, after any successful cuts by orderly patterns: `Tokenize` with a WordPiece model that has its
unknown token, and `IntoEncoding`, succeed; the offsets begin in the input and end at most two bytes beyond it, and their starts
never go back. -/
theorem C135_wordPiece {s : Str} {p : PTS} (h : OrderedRun s p) (m : WordPiece) (hunk : m.vocab.getID m.unknownToken ≠ none)
    (hmax : 0 ≤ m.maxInputCharsPerWord) (w ty : Int) :
    ∃ p' enc, p.tokenize (fun ns => .ok (m.tokenize ns.get)) = .ok (p', none) ∧ p'.intoEncoding w ty = .ok (.ok enc)
      ∧ (∀ o ∈ enc.offsets, 0 ≤ o.start ∧ o.start < o.stop ∧ o.start < s.length ∧ o.stop ≤ s.length + 2)
      ∧ enc.offsets.Pairwise fun o o' => o.start ≤ o'.start := by
  have hpl := C134_places h.cutRun
  obtain ⟨tok, htok⟩ : ∃ tok : Str → List Token, ∀ s, m.tokenize s = .ok (tok s) :=
    ⟨fun s => match m.tokenize s with | .ok ts => ts | _ => [], by
      intro s
      cases h : m.tokenize s with
      | ok ts => simp only [h]
      | error e => exact absurd ((C36_tiles m s).2.1 e h).2.1 hunk⟩
  obtain ⟨p', h1, h2, h3, h4⟩ := encode_panic (fun sp hsp => (hpl sp hsp).1) (fun ns => .ok (m.tokenize ns.get)) (fun ns => tok ns.get)
    (fun sp _ => by simp only [htok]) w ty
  have well : ∀ ns : NS, (∀ t ∈ tok ns.get, WellPlaced ns t) ∧ (tok ns.get).Pairwise fun t t' => NotBefore t.offsets t'.offsets := by
    intro ns
    by_cases hne : ns.get = []
    · have : m.tokenize [] = .ok [] := by
        have e : runesOf [] = [] := by decide +kernel
        simp only [WordPiece.tokenize, e, List.length_nil]
        rw [if_neg (by omega)]
        simp [WordPiece.tokenLoop]
      have e := htok []
      rw [this] at e
      simp only [Except.ok.injEq] at e
      rw [hne, ← e]
      exact ⟨by simp, .nil⟩
    · exact wordPiece_order m hne (htok _)
  have hno : ¬ p'.intoEncoding w ty = .panic := by
    rw [h4]
    rintro ⟨sp, hsp, t, ht, k1, k2⟩
    obtain ⟨i, hi⟩ := (hpl sp hsp).2
    obtain ⟨w1, w2, w3⟩ := (well sp.ns).1 t ht
    obtain ⟨o, ho, -⟩ := C134_token hi t w1 w2 w3
    rw [(tokenOffsets_panic _ _).2 ⟨k1, k2⟩] at ho
    cases ho
  rcases h3 with ⟨enc, h3⟩ | h3
  · have hns : p'.splits.map (·.ns) = p.splits.map (·.ns) := by rw [h2]; simp [Function.comp_def]
    have hts : ∀ sp ∈ p'.splits, sp.tokens = some (tok sp.ns.get) := by
      intro sp hsp
      rw [h2] at hsp
      obtain ⟨q, -, rfl⟩ := List.mem_map.1 hsp
      rfl
    refine ⟨p', enc, h1, h3, ?_, ?_⟩
    · intro o ho
      obtain ⟨en, hen, i, hi, hm⟩ := (C134_rows h.cutRun hns h3).exists_right ho
      obtain ⟨k1, k2⟩ := mem_entries _ _ _ en hen
      rw [hts _ k1, Option.getD_some] at k2
      obtain ⟨w1, w2, w3⟩ := (well en.piece.ns).1 en.token k2
      exact C134_bounds (hm w1 w2 w3) (by omega)
    · exact C135_rows h hns (fun sp hsp => ⟨_, hts sp hsp, (well sp.ns).1, (well sp.ns).2.imp fun h => h.1⟩) h3
  · exact absurd h3 hno

/-! ## Cases -/

/-- The white-space pre-tokenizers, the rune delimiter and the BERT pre-tokenizer cut by orderly patterns. -/
theorem C135_library (u : Uni) (hu : u.isPunct 0xFFFD = false) {d : Rune} (hd : d ≠ 0xFFFD) {e : List Rune → Except Err (List (Nat × Nat))}
    (he : OrderedEngine e) {s : Str} {p p' : PTS} (h : OrderedRun s p) :
    (whiteSpaceSplit p = .ok (p', none) → OrderedRun s p') ∧ (runeDelimiter d p = .ok (p', none) → OrderedRun s p')
    ∧ (whiteSpacePreTokenize e p = .ok (p', none) → OrderedRun s p') ∧ (bertPreTokenize u p = .ok (p', none) → OrderedRun s p') := by
  refine ⟨?_, ?_, ?_, ?_⟩
  · exact fun hc => .cut h (orderly_func (by decide +kernel)) hc
  · exact fun hc => .cut h (orderly_rune hd) hc
  · exact fun hc => .cut h (orderly_invert (orderly_regexp2 he)) hc
  · intro hc
    unfold bertPreTokenize at hc
    simp only [GoM.bind_eq_ok] at hc
    obtain ⟨⟨q, e⟩, k1, k2⟩ := hc
    cases e with
    | some e => simp at k2
    | none => exact .cut (.cut h (orderly_func (by decide +kernel)) k1) (orderly_func hu) k2

/-- **C135, the ends may go back.** The bytes FF, `b`, space, `a`: the first word is said to end at byte 3 and the second at byte 2. -/
theorem C135_counterexample : runSteps (PTS.fromString [0xFF, 0x62, 0x20, 0x61]) [whiteSpaceSplit,
        fun p => p.tokenize fun ns => .ok (loneWord.tokenize ns.get)]
      >>= (fun p => p.intoEncoding (-1) 0)
    = .ok (.ok ⟨[0, 1], [0, 0], [b!"?", b!"a"], [0, 1], [⟨0, 3⟩, ⟨1, 2⟩], [0, 0], [1, 1]⟩) := by decide +kernel

/-- A pattern that takes U+FFFD for a delimiter is not orderly on bad bytes. -/
example : ¬ Orderly (fromRune 0xFFFD) := by
  intro h
  have := h [0xFF, 0xFF] (funcFindMatches (fun r => r == 0xFFFD) [0xFF, 0xFF]) rfl
  revert this
  decide +kernel

end Verif
