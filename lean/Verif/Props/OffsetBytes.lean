import Verif.Props.EncodeBytes

/-! Where encodings say that tokens stand, on any bytes (C134): cutting does not change it. -/

set_option autoImplicit false

namespace Verif

/-! ## Specification -/

/-- `ns` has `i` bytes of `s` before it, consists of the bytes that follow, and these have the alignments that they have
in `FromString(s)`, counted from the shift. -/
structure PlacedAt (s : Str) (i : Nat) (ns : NS) : Prop where
  text : ns.normalized = (s.drop i).take ns.normalized.length
  room : i + ns.normalized.length ≤ s.length
  marks : ∀ k, k < ns.normalized.length → ∃ a, (NS.fromString s).alignments[i + k]? = some a
    ∧ ns.alignments[k]? = some ⟨a.start - ns.originalShift, a.stop - ns.originalShift⟩

/-- What successive cuts by patterns, with any patterns and behaviours, make of `s`. -/
inductive CutRun (s : Str) : PTS → Prop
  | start : CutRun s (PTS.fromString s)
  | cut {p p' : PTS} {pat : SplitPattern} {b : Behavior} : CutRun s p → p.split (splitByPattern pat b) = .ok (p', none) → CutRun s p'

/-- The alignments of `FromString(s)` say `o` about the bytes from `x` to before `y`. -/
def MarkedAs (s : Str) (x y : Nat) (o : ByteOffsets) : Prop :=
  ∃ a b, (NS.fromString s).alignments[x]? = some a ∧ (NS.fromString s).alignments[y - 1]? = some b ∧ o = ⟨a.start, b.stop⟩

/-! ## Cutting -/

theorem placedAt_fromString (s : Str) : PlacedAt s 0 (NS.fromString s) := by
  refine ⟨by simp [NS.fromString], by simp [NS.fromString], ?_⟩
  intro k hk
  have hl := (roomy_fromString s).len
  refine ⟨(NS.fromString s).alignments[k]'(by omega), ?_, ?_⟩
  · rw [Nat.zero_add]; exact List.getElem?_eq_getElem _
  · rw [List.getElem?_eq_getElem (by omega)]
    simp [NS.fromString]

theorem placedAt_slice {s : Str} {i : Nat} {ns ns' : NS} (hp : PlacedAt s i ns) {x y : Int}
    (h : ns.slice (.normalized x y) = .ok (some ns')) : PlacedAt s (i + x.toNat) ns' := by
  unfold NS.slice at h
  split at h
  · cases h
  · simp only [NS.coerceRangeToNormalized, GoM.bind_eq_ok] at h
    obtain ⟨o, -, h⟩ := h
    cases o with
    | none => simp at h
    | some ob =>
      obtain ⟨oa, ob⟩ := ob
      simp only [GoM.bind_eq_ok, GoM.pure_eq, GoM.ok.injEq, Option.some.injEq] at h
      obtain ⟨_, -, nm, h1, als, h2, rfl⟩ := h
      simp only [NS.getRange, NS.coerceRangeToNormalized, GoM.bind_eq_ok, GoM.pure_eq, GoM.ok.injEq] at h1
      obtain ⟨t, h3, rfl⟩ := h1
      obtain ⟨⟨a1, a2, a3⟩, e3⟩ := goSlice_eq_ok.1 h3
      obtain ⟨⟨b1, b2, b3⟩, e2⟩ := goSlice_eq_ok.1 h2
      have hl : t.length = (y - x).toNat := by rw [e3]; simp; omega
      have hroom := hp.room
      refine ⟨?_, ?_, ?_⟩
      · simp only [Option.getD_some]
        rw [hl]
        have ht := hp.text
        rw [e3]
        conv => lhs; rw [ht]
        rw [List.drop_take, List.take_take, List.drop_drop]
        congr 1
        omega
      · simp only [Option.getD_some]; omega
      · simp only [Option.getD_some]
        intro k hk
        obtain ⟨a, k1, k2⟩ := hp.marks (x.toNat + k) (by omega)
        refine ⟨a, by rw [Nat.add_assoc]; exact k1, ?_⟩
        rw [List.getElem?_map, e2, List.getElem?_take, if_pos (by omega), List.getElem?_drop, k2]
        simp only [Option.map_some, Option.some.injEq, Align.mk.injEq]
        omega

theorem placedAt_split {s : Str} {i : Nat} {ns : NS} (hp : PlacedAt s i ns) {pat : SplitPattern} {b : Behavior} {ps : List NS}
    (h : ns.split pat b = .ok (.ok ps)) : ∀ q ∈ ps, ∃ j, PlacedAt s j q := by
  have all : ∀ (ms : List SplitMatch) (ps : List NS), ns.sliceAll ms = .ok (.ok ps) → ∀ q ∈ ps, ∃ j, PlacedAt s j q := by
    intro ms
    induction ms with
    | nil => intro ps h q hq; simp [NS.sliceAll] at h; subst h; simp at hq
    | cons x ms ih =>
      intro ps h
      unfold NS.sliceAll at h
      split at h
      · exact ih ps h
      · rw [GoM.bind_eq_ok] at h
        obtain ⟨o, h1, h⟩ := h
        cases o with
        | none => simp at h
        | some piece =>
          simp only [GoM.bind_eq_ok] at h
          obtain ⟨r, h2, h⟩ := h
          cases r with
          | error e => simp at h
          | ok rest =>
            simp at h
            subst h
            intro q hq
            rcases List.mem_cons.1 hq with rfl | hq
            · exact ⟨_, placedAt_slice hp h1⟩
            · exact ih rest h2 q hq
  unfold NS.split at h
  rw [GoM.bind_eq_ok] at h
  obtain ⟨r, -, h⟩ := h
  cases r with
  | error e => simp at h
  | ok caps => exact all _ _ h

theorem splitByPattern_items {pat : SplitPattern} {b : Behavior} {i : Nat} {ns ns' : NS} {items : List Piece}
    (h : splitByPattern pat b i ns = .ok (ns', .ok items)) : ∃ nss, ns.split pat b = .ok (.ok nss)
      ∧ items = nss.map fun q => ⟨q, none⟩ := by
  unfold splitByPattern at h
  simp only [GoM.bind_eq_ok] at h
  obtain ⟨x, k1, h⟩ := h
  cases x with
  | error e => simp at h
  | ok nss =>
    simp at h
    exact ⟨nss, k1, h.2.symm⟩

theorem splitLoop_placed {s : Str} {pat : SplitPattern} {b : Behavior} : ∀ (ps : List Piece) (i : Nat) (old l : List Piece),
    (∀ sp ∈ ps, sp.tokens = none ∧ ∃ j, PlacedAt s j sp.ns) → PTS.splitLoop (splitByPattern pat b) i ps = .ok (old, .ok l) →
    ∀ sp ∈ l, sp.tokens = none ∧ ∃ j, PlacedAt s j sp.ns := by
  intro ps
  induction ps with
  | nil =>
    intro i old l _ h
    simp [PTS.splitLoop] at h
    rw [h.2]; simp
  | cons p ps ih =>
    intro i old l hp h
    unfold PTS.splitLoop at h
    simp only [(hp p (by simp)).1, GoM.bind_eq_ok] at h
    obtain ⟨⟨ns', r⟩, h0, h⟩ := h
    cases r with
    | error e => simp at h
    | ok items =>
      simp only [GoM.bind_eq_ok] at h
      obtain ⟨⟨old1, new1⟩, h1, h⟩ := h
      cases new1 with
      | error e => simp at h
      | ok l1 =>
        simp only [GoM.pure_eq, GoM.ok.injEq, Prod.mk.injEq, Except.ok.injEq] at h
        obtain ⟨-, rfl⟩ := h
        intro sp hsp
        rcases List.mem_append.1 hsp with hsp | hsp
        · obtain ⟨nss, k1, k2⟩ := splitByPattern_items h0
          obtain ⟨j, hj⟩ := (hp p (by simp)).2
          have hm := (List.mem_filter.1 hsp).1
          rw [k2] at hm
          obtain ⟨q, hq, rfl⟩ := List.mem_map.1 hm
          exact ⟨rfl, placedAt_split hj k1 q hq⟩
        · exact ih (i + 1) old1 l1 (fun q hq => hp q (by simp [hq])) h1 sp hsp

/-- **C134, places.** After any successful cuts, on any bytes: every split is a run of bytes of the input, and these have
kept the alignments that `FromString` gave them. -/
theorem C134_places {s : Str} {p : PTS} (h : CutRun s p) : ∀ sp ∈ p.splits, sp.tokens = none ∧ ∃ i, PlacedAt s i sp.ns := by
  induction h with
  | start =>
    intro sp hsp
    simp [PTS.fromString, PTS.fromNormalizedString] at hsp
    subst hsp
    exact ⟨rfl, 0, placedAt_fromString s⟩
  | @cut p p' pat b _ h ih =>
    unfold PTS.split at h
    simp only [GoM.bind_eq_ok] at h
    obtain ⟨⟨old, new⟩, h1, h⟩ := h
    cases new with
    | error e => simp at h
    | ok l =>
      simp at h
      rw [← h]
      exact splitLoop_placed _ _ _ _ ih h1

/-! ## Offsets -/

/-- **C134, a token.** A token on the bytes `x` to `y` of a split that begins at byte `i` gets the offsets that the
alignments of `FromString` have for the bytes `i + x` to `i + y`: they depend on the bytes and not on the cuts. -/
theorem C134_token {s : Str} {i : Nat} {ns : NS} (hp : PlacedAt s i ns) (t : Token) (h0 : 0 ≤ t.offsets.start)
    (h1 : t.offsets.start < t.offsets.stop) (h2 : t.offsets.stop ≤ ns.normalized.length) :
    ∃ o, PTS.tokenOffsets ns t = .ok o ∧ MarkedAs s (i + t.offsets.start.toNat) (i + t.offsets.stop.toNat) o := by
  obtain ⟨a, ha, ha'⟩ := hp.marks t.offsets.start.toNat (by omega)
  obtain ⟨b, hb, hb'⟩ := hp.marks (t.offsets.stop.toNat - 1) (by omega)
  have hlen : t.offsets.stop.toNat - 1 < ns.alignments.length := (List.getElem?_eq_some_iff.1 hb').1
  generalize hx : t.offsets.start = x at *
  generalize hy : t.offsets.stop = y at *
  have e1 : goSlice ns.alignments x y = .ok ((ns.alignments.drop x.toNat).take (y - x).toNat) :=
    goSlice_of (by omega) (by omega) (by omega)
  have hl : ((ns.alignments.drop x.toNat).take (y - x).toNat).length = (y - x).toNat := by simp; omega
  have e2 : goIndex ((ns.alignments.drop x.toNat).take (y - x).toNat) 0
      = .ok ⟨a.start - ns.originalShift, a.stop - ns.originalShift⟩ := by
    refine goIndex_eq_ok.2 ⟨by omega, ?_⟩
    rw [List.getElem?_take, if_pos (by simp; omega)]
    simpa using ha'
  have e3 : goIndex ((ns.alignments.drop x.toNat).take (y - x).toNat)
      ((((ns.alignments.drop x.toNat).take (y - x).toNat).length : Int) - 1)
      = .ok ⟨b.start - ns.originalShift, b.stop - ns.originalShift⟩ := by
    rw [hl]
    refine goIndex_eq_ok.2 ⟨by omega, ?_⟩
    have e : (((y - x).toNat : Int) - 1).toNat = (y - x).toNat - 1 := by omega
    rw [e, List.getElem?_take, if_pos (by omega), List.getElem?_drop]
    have e : x.toNat + ((y - x).toNat - 1) = y.toNat - 1 := by omega
    rw [e]; exact hb'
  refine ⟨⟨a.start, b.stop⟩, ?_, a, b, ha, ?_, rfl⟩
  · unfold PTS.tokenOffsets NS.coerceRangeToOriginal
    rw [hx, hy]
    have c1 : ¬ (y - x = 0) := by omega
    have c2 : ¬ (x > y) := by omega
    have c3 : ¬ (ns.normalized.length = 0 ∧ x = 0 ∧ y = 0) := by omega
    simp only [if_neg c1, if_neg c2, if_neg c3, e1, e2, e3, GoM.bind_ok, GoM.pure_eq, NS.originalOffsets]
    simp only [GoM.ok.injEq, ByteOffsets.mk.injEq]
    omega
  · rw [← hb]; congr 1; omega

/-- **C134, marks.** What these alignments are: byte `k` has those of the character or bad byte that would stand there if
each bad byte were the three bytes of U+FFFD. -/
theorem C134_marks {s : Str} {p u p' u' : List Chunk} {c c' : Chunk} {x y : Nat} (h : chunks s = p ++ c :: u) (h' : chunks s = p' ++ c' :: u')
    (hx : (encodeRunes (p.map (·.rune))).length ≤ x ∧ x < (encodeRunes (p.map (·.rune))).length + (encodeRune c.rune).length)
    (hy : (encodeRunes (p'.map (·.rune))).length < y ∧ y ≤ (encodeRunes (p'.map (·.rune))).length + (encodeRune c'.rune).length)
    (o : ByteOffsets) : MarkedAs s x y o ↔ o = ⟨(textOf p).length, (textOf p').length + (encodeRune c'.rune).length⟩ := by
  have e1 : (NS.fromString s).alignments[x]? = some ⟨((0 + (textOf p).length : Nat) : Int), ((0 + (textOf p).length + runeLen c.rune : Nat) : Int)⟩ := by
    rw [fromString_aligns, h]; exact chunkAligns_at p (i := 0) hx.1 hx.2
  have e2 : (NS.fromString s).alignments[y - 1]?
      = some ⟨((0 + (textOf p').length : Nat) : Int), ((0 + (textOf p').length + runeLen c'.rune : Nat) : Int)⟩ := by
    rw [fromString_aligns, h']
    exact chunkAligns_at p' (i := 0) (k := y - 1) (c := c') (u := u') (by show (encodeRunes _).length ≤ _; omega)
      (by show _ < (encodeRunes _).length + (encodeRune _).length; omega)
  unfold MarkedAs
  rw [e1, e2]
  constructor
  · rintro ⟨a, b, h1, h2, rfl⟩
    cases h1; cases h2
    simp [runeLen]
  · rintro rfl
    exact ⟨_, _, rfl, rfl, by simp [runeLen]⟩

/-- **C134, bounds.** They lie in the input, except that the end of a bad byte among the last two may be two bytes beyond. -/
theorem C134_bounds {s : Str} {x y : Nat} {o : ByteOffsets} (h : MarkedAs s x y o) (hxy : x < y) :
    0 ≤ o.start ∧ o.start < o.stop ∧ o.start < s.length ∧ o.stop ≤ s.length + 2 := by
  obtain ⟨a, b, h1, h2, rfl⟩ := h
  have hm := pairwise_le (tidy_fromString s).mono (show x ≤ y - 1 by omega) h1 h2
  rw [fromString_aligns] at h1 h2
  have key : ∀ {k : Nat} {al : Align}, (chunkAligns 0 (chunks s))[k]? = some al →
      0 ≤ al.start ∧ al.start < al.stop ∧ al.start < s.length ∧ al.stop ≤ s.length + 2 := by
    intro k al hal
    obtain ⟨p, c, u, e, -, -, rfl⟩ := chunkAligns_get hal
    have ht := textOf_chunks s
    rw [e] at ht
    have hl := congrArg List.length ht
    simp only [textOf_append, textOf_cons, List.length_append] at hl
    obtain ⟨g1, -, g3⟩ := (reads_chunks s).chunk c (by rw [e]; simp)
    have g1 := List.length_pos_iff.2 g1
    have hp := runeLen_pos c.rune
    have h3 : runeLen (0xFFFD : Rune) = 3 := by decide +kernel
    simp only [Nat.zero_add]
    rcases g3 with g | ⟨g, g'⟩
    · have : c.bytes.length = runeLen c.rune := by rw [g]; rfl
      omega
    · rw [g'] at hp ⊢; omega
  have k1 := key h1
  have k2 := key h2
  simp only
  omega

/-- **C134, before the first bad byte.** Characters with only valid UTF-8 before them, whatever follows, get their own place. -/
theorem C134_front (rs ts : List Rune) (hr : ∀ r ∈ rs, ValidRune r) (ht : ∀ r ∈ ts, ValidRune r) (hne : ts ≠ []) (rest : Str) (o : ByteOffsets) :
    MarkedAs (encodeRunes rs ++ encodeRunes ts ++ rest) (encodeRunes rs).length ((encodeRunes rs).length + (encodeRunes ts).length) o
      ↔ o = ⟨(encodeRunes rs).length, (encodeRunes rs).length + (encodeRunes ts).length⟩ := by
  have map_rune : ∀ l : List Rune, (l.map fun r => (⟨encodeRune r, r⟩ : Chunk)).map (·.rune) = l := by
    intro l; simp [Function.comp_def]
  have text : ∀ l : List Rune, textOf (l.map fun r => (⟨encodeRune r, r⟩ : Chunk)) = encodeRunes l := by
    intro l
    induction l with
    | nil => rfl
    | cons r l ih => rw [List.map_cons, textOf_cons, ih]; simp
  have hch : chunks (encodeRunes rs ++ encodeRunes ts ++ rest)
      = rs.map (fun r => ⟨encodeRune r, r⟩) ++ (ts.map (fun r => ⟨encodeRune r, r⟩) ++ chunks rest) := by
    rw [List.append_assoc]
    exact (reads_runes rs hr (reads_runes ts ht (reads_chunks rest))).chunks_eq
  obtain ⟨t, ts1, rfl⟩ := List.exists_cons_of_ne_nil hne
  obtain ⟨ts2, z, e⟩ : ∃ ts2 z, t :: ts1 = ts2 ++ [z] :=
    ⟨(t :: ts1).dropLast, (t :: ts1).getLast (by simp), (List.dropLast_concat_getLast (by simp)).symm⟩
  have hz : (encodeRunes (t :: ts1)).length = (encodeRunes ts2).length + (encodeRune z).length := by
    rw [e]; simp
  have hl := encodeRune_length_pos z
  have hl' := encodeRune_length_pos t
  rw [C134_marks (p := rs.map fun r => ⟨encodeRune r, r⟩) (c := ⟨encodeRune t, t⟩) (u := ts1.map (fun r => ⟨encodeRune r, r⟩) ++ chunks rest)
    (p' := (rs ++ ts2).map fun r => ⟨encodeRune r, r⟩) (c' := ⟨encodeRune z, z⟩) (u' := chunks rest)]
  · rw [text, text, encodeRunes_append, List.length_append, hz]
    simp [Int.add_assoc]
  · exact hch
  · rw [hch, e]; simp
  · rw [map_rune]; simp only; omega
  · rw [map_rune, encodeRunes_append, List.length_append]; simp only; omega

/-- **C134, after a bad byte.** Characters or bad bytes with a bad byte before them are said to begin too early; those
without begin where they do. -/
theorem C134_start {s : Str} {p u : List Chunk} {c : Chunk} (h : chunks s = p ++ c :: u) {y : Nat} {o : ByteOffsets}
    (ho : MarkedAs s (textOf p).length y o) :
    ((∀ d ∈ p, d.isBad = false) → o.start = (textOf p).length)
    ∧ ((∃ d ∈ p, d.isBad = true) → o.start < (textOf p).length) := by
  obtain ⟨a, b, h1, -, rfl⟩ := ho
  rw [fromString_aligns] at h1
  constructor
  · intro hb
    have hw := wide_good hb
    rw [h, chunkAligns_at p (by omega) (by have := runeLen_pos c.rune; omega)] at h1
    cases h1
    simp
  · rintro ⟨d, hd, hb⟩
    have hg : GoodChunks p := fun d hd => goodChunks s d (by rw [h]; simp [hd])
    have hw := wide_bad hg hd hb
    obtain ⟨q, d', v, e, k1, k2, rfl⟩ := chunkAligns_get h1
    rw [h] at e
    simp only [Nat.zero_add]
    rcases List.append_eq_append_iff.1 e with ⟨l, e1, e2⟩ | ⟨l, e1, e2⟩
    · exfalso
      have : wide p ≤ wide q := by rw [e1]; simp [wide]
      omega
    · cases l with
      | nil =>
        exfalso
        have : q = p := by simpa using e1.symm
        rw [this] at k1; omega
      | cons d2 l =>
        have : d2 = d' := by simpa using (List.cons.inj e2).1.symm
        subst this
        have hd2 := List.length_pos_iff.2 ((reads_chunks s).chunk d2 (by rw [h, e1]; simp)).1
        have := congrArg (fun l => (textOf l).length) e1
        simp only [textOf_append, textOf_cons, List.length_append] at this
        omega

/-- **C134, the cuts do not matter.** What is said about the same bytes is the same. -/
theorem C134_same {s : Str} {i j : Nat} {ns ns' : NS} (h : PlacedAt s i ns) (h' : PlacedAt s j ns') (t t' : Token)
    (h0 : 0 ≤ t.offsets.start) (h1 : t.offsets.start < t.offsets.stop) (h2 : t.offsets.stop ≤ ns.normalized.length)
    (k0 : 0 ≤ t'.offsets.start) (k2 : t'.offsets.stop ≤ ns'.normalized.length)
    (e : i + t.offsets.start = j + t'.offsets.start) (e' : i + t.offsets.stop = j + t'.offsets.stop) :
    PTS.tokenOffsets ns t = PTS.tokenOffsets ns' t' := by
  obtain ⟨o, a, b, c, d1, d2, rfl⟩ := C134_token h t h0 h1 h2
  obtain ⟨o', a', b', c', d1', d2', rfl⟩ := C134_token h' t' k0 (by omega) k2
  have e1 : i + t.offsets.start.toNat = j + t'.offsets.start.toNat := by omega
  have e2 : i + t.offsets.stop.toNat = j + t'.offsets.stop.toNat := by omega
  rw [e1, d1'] at d1
  rw [e2, d2'] at d2
  cases d1; cases d2
  rw [a, a']

/-- **C134, rows.** Whatever model gave the tokens, each row of an encoding made after any cuts has for its offsets what the
alignments of `FromString` say about the bytes of its token, if the token stands in its split. -/
theorem C134_rows {s : Str} {p p' : PTS} (h : CutRun s p) (hns : p'.splits.map (·.ns) = p.splits.map (·.ns)) {w ty : Int} {enc : Encoding}
    (he : p'.intoEncoding w ty = .ok (.ok enc)) :
    All2 (fun o (en : Entry) => ∃ i, PlacedAt s i en.piece.ns ∧ (0 ≤ en.token.offsets.start → en.token.offsets.start < en.token.offsets.stop →
          en.token.offsets.stop ≤ en.piece.ns.get.length →
          MarkedAs s (i + en.token.offsets.start.toNat) (i + en.token.offsets.stop.toNat) o)) enc.offsets (entries w 0 p'.splits) := by
  obtain ⟨-, -, -, -, -, -, -, hoff⟩ := (C27_intoEncoding p' w ty).2 enc he
  refine hoff.imp ?_
  intro o en _ hen ho
  have k1 := List.mem_map_of_mem (f := (·.ns)) (mem_entries _ _ _ en hen).1
  rw [hns] at k1
  obtain ⟨sp, hsp, e⟩ := List.mem_map.1 k1
  obtain ⟨i, hi⟩ := (C134_places h sp hsp).2
  rw [e] at hi
  refine ⟨i, hi, fun h0 h1 h2 => ?_⟩
  obtain ⟨o', ho', hm⟩ := C134_token hi en.token h0 h1 h2
  rw [ho'] at ho
  cases ho
  exact hm

/-- **C134.** On any bytes, after any successful cuts, with a WordPiece model that has its unknown token: the encoding is
made, and each of its rows has for its offsets what the alignments of `FromString` say about the bytes of its token. -/
theorem C134_wordPiece {s : Str} {p : PTS} (h : CutRun s p) (m : WordPiece) (hunk : m.vocab.getID m.unknownToken ≠ none) (w ty : Int) :
    ∃ p' enc, p.tokenize (fun ns => .ok (m.tokenize ns.get)) = .ok (p', none) ∧ p'.intoEncoding w ty = .ok (.ok enc)
      ∧ All2 (fun o (en : Entry) => ∃ i, PlacedAt s i en.piece.ns ∧ (en.token.offsets.start < en.token.offsets.stop →
          MarkedAs s (i + en.token.offsets.start.toNat) (i + en.token.offsets.stop.toNat) o)) enc.offsets (entries w 0 p'.splits) := by
  have hpl := C134_places h
  obtain ⟨tok, htok⟩ : ∃ tok : Str → List Token, ∀ s, m.tokenize s = .ok (tok s) :=
    ⟨fun s => match m.tokenize s with | .ok ts => ts | _ => [], by
      intro s
      cases h : m.tokenize s with
      | ok ts => simp only [h]
      | error e => exact absurd ((C36_tiles m s).2.1 e h).2.1 hunk⟩
  obtain ⟨p', h1, h2, h3, h4⟩ := encode_panic (fun sp hsp => (hpl sp hsp).1) (fun ns => .ok (m.tokenize ns.get)) (fun ns => tok ns.get)
    (fun sp _ => by simp only [htok]) w ty
  have hno : ¬ p'.intoEncoding w ty = .panic := by
    rw [h4]
    rintro ⟨sp, hsp, t, ht, k1, k2⟩
    obtain ⟨i, hi⟩ := (hpl sp hsp).2
    have b := Machine.piece_within m (htok sp.ns.get) t ht
    obtain ⟨o, ho, -⟩ := C134_token hi t b.1 k1 b.2.2
    rw [(tokenOffsets_panic _ _).2 ⟨k1, k2⟩] at ho
    cases ho
  rcases h3 with ⟨enc, h3⟩ | h3
  · refine ⟨p', enc, h1, h3, ?_⟩
    refine (C134_rows h (by rw [h2]; simp [Function.comp_def]) h3).imp ?_
    rintro o en - hen ⟨i, hi, ho⟩
    obtain ⟨k1, k2⟩ := mem_entries _ _ _ en hen
    rw [h2] at k1
    obtain ⟨sp, hsp, e⟩ := List.mem_map.1 k1
    rw [← e] at k2 ho
    have b := Machine.piece_within m (htok sp.ns.get) en.token k2
    exact ⟨i, hi, fun hlt => ho b.1 hlt b.2.2⟩
  · exact absurd h3 hno

/-! ## Cases -/

/-- `a`, a space, the byte FF and `bcd`: the first word is where it is said to be. -/
example : runSteps (PTS.fromString [0x61, 0x20, 0xFF, 0x62, 0x63, 0x64]) [whiteSpaceSplit, fun p => p.tokenize fun ns => .ok (loneWord.tokenize ns.get)]
      >>= (fun p => p.intoEncoding (-1) 0)
    = .ok (.ok ⟨[1, 0], [0, 0], [b!"a", b!"?"], [0, 1], [⟨0, 1⟩, ⟨2, 4⟩], [0, 0], [1, 1]⟩) := by decide +kernel

/-- The byte FF, `b`, a space and `a`: the last word stands at byte 3 and is said to stand at byte 1. -/
example : MarkedAs [0xFF, 0x62, 0x20, 0x61] 3 4 ⟨1, 2⟩ := ⟨⟨1, 2⟩, ⟨1, 2⟩, by decide +kernel, by decide +kernel, rfl⟩

/-- **C134, beyond the input.** The byte FF alone is said to end at byte 3. -/
theorem C134_counterexample : runSteps (PTS.fromString [0xFF]) [fun p => p.tokenize fun ns => .ok (loneWord.tokenize ns.get)]
      >>= (fun p => p.intoEncoding (-1) 0)
    = .ok (.ok ⟨[0], [0], [b!"?"], [0], [⟨0, 3⟩], [0], [1]⟩) := by decide +kernel

/-- Cutting at white space is a cut. -/
example (s : Str) (p : PTS) (h : whiteSpaceSplit (PTS.fromString s) = .ok (p, none)) : CutRun s p := .cut .start h

end Verif
