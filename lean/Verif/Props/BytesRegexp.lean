import Verif.Props.Bytes
import Verif.Props.Gpt
import Verif.Props.WhiteSpace

/-! C78: patterns of the `regexp2` engine and the two pre-tokenizers built on them, on
texts that are not valid UTF-8.  The states are arbitrary. -/

set_option autoImplicit false

namespace Verif

/-! ## The positions -/

/-- The runes of a bad text take more bytes than the text has. -/
theorem bad_longer {s : Str} (h : ¬ ValidUtf8 s) : s.length < (sanitizeText s).length := by
  have hle := length_le_encodeRunes_runesOf s
  rw [← sanitizeText_eq] at hle
  refine Nat.lt_of_le_of_ne hle ?_
  intro he
  apply h
  refine ⟨runesOf s, runesOf_valid s, ?_⟩
  have hg := goodChunks s
  rw [sanitizeText_eq, runesOf_chunks] at he
  rw [runesOf_chunks]
  have key : ∀ cs : List Chunk, GoodChunks cs →
      (textOf cs).length ≤ (encodeRunes (cs.map (·.rune))).length
      ∧ ((textOf cs).length = (encodeRunes (cs.map (·.rune))).length → encodeRunes (cs.map (·.rune)) = textOf cs) := by
    intro cs
    induction cs with
    | nil => intro _; exact ⟨Nat.le_refl _, fun _ => rfl⟩
    | cons c cs ih =>
      intro hg
      obtain ⟨i1, i2⟩ := ih fun x hx => hg x (by simp [hx])
      have h1 := isBad_iff (hg c (by simp)).2
      rw [List.map_cons, encodeRunes_cons, textOf_cons, List.length_append, List.length_append]
      cases hb : c.isBad with
      | true =>
        have : c.bytes.length < (encodeRune c.rune).length := h1.1 hb
        exact ⟨by omega, by omega⟩
      | false =>
        have := h1.2 hb
        rw [← this]
        exact ⟨by omega, fun h' => by rw [i2 (by omega)]⟩
  have := (key (chunks s) hg).2
  rw [textOf_chunks] at this
  exact this he

theorem capturesOfMatches_mem (s : Str) (ms : List (Int × Int)) :
    (capturesOfMatches s ms).filter (·.isMatch) = ms.map fun m => ⟨⟨m.1, m.2⟩, true⟩ := by
  have key : ∀ (ms : List (Int × Int)) (st : Int × List Capture),
      (ms.foldl regexpStep st).2.filter (·.isMatch)
        = st.2.filter (·.isMatch) ++ ms.map fun m => (⟨⟨m.1, m.2⟩, true⟩ : Capture) := by
    intro ms
    induction ms with
    | nil => intro st; simp
    | cons m ms ih =>
      intro st
      rw [List.foldl_cons, ih]
      simp only [regexpStep]
      split <;> simp
  unfold capturesOfMatches
  simp only
  split
  · simp [key]
  · simp [key]

/-- **C78, regexp2 positions.** The matches reported by a `regexp2` pattern are those of the
engine, in order, at their places in the text with U+FFFD in the place of every bad byte. -/
theorem C78_regexp2 {findAll2 : List Rune → Except Err (List (Nat × Nat))} {s : Str} {ms : List (Nat × Nat)}
    (hs : s ≠ []) (he : findAll2 (runesOf s) = .ok ms) :
    ∃ caps, fromRegexp2 findAll2 s = .ok (.ok caps)
      ∧ All2 (fun m c => goSlice (sanitizeText s) c.offsets.start c.offsets.stop
            = .ok (encodeRunes (((runesOf s).drop m.1).take m.2))
          ∧ c.offsets.start = ((encodeRunes ((runesOf s).take m.1)).length : Int))
        ms (caps.filter (·.isMatch)) := by
  have h0 : ¬ s.length = 0 := by simpa using hs
  refine ⟨_, by simp [fromRegexp2, h0, he]; rfl, ?_⟩
  rw [capturesOfMatches_mem, sanitizeText_eq]
  clear he
  induction ms with
  | nil => exact .nil
  | cons m ms ih =>
    refine .cons ⟨?_, rfl⟩ ih
    have e : runesOf s = (runesOf s).take m.1 ++ ((runesOf s).drop m.1).take m.2 ++ (runesOf s).drop (m.1 + m.2) := by
      rw [← List.take_add, List.take_append_drop]
    have := goSlice_mid (encodeRunes ((runesOf s).take m.1)) (encodeRunes (((runesOf s).drop m.1).take m.2))
      (encodeRunes ((runesOf s).drop (m.1 + m.2))) (a := (encodeRunes ((runesOf s).take m.1)).length)
      (b := ((encodeRunes ((runesOf s).take m.1)).length + (encodeRunes (((runesOf s).drop m.1).take m.2)).length : Nat))
      rfl (by push_cast; rfl)
    rw [← encodeRunes_append, ← encodeRunes_append, ← e] at this
    exact this

/-! ## Splitting -/

theorem isolated_slices {ns : NS} {pattern : SplitPattern} {caps : List Capture} {pieces : List NS}
    (hp : pattern ns.normalized = .ok (.ok caps)) (h : ns.split pattern .isolated = .ok (.ok pieces)) :
    All2 (fun c p => ns.slice (.normalized c.offsets.start c.offsets.stop) = .ok (some p)) caps pieces := by
  have := split_inv hp h
  simp only [splitGroups] at this
  exact this.map_left (f := fun c : Capture => [c])

/-- **C78, Split at regexp2 matches.** If isolating the matches succeeds, no match ends beyond
the last byte, when every bad byte before counts three. -/
theorem C78_regexp2_isolated {ns : NS} {findAll2 : List Rune → Except Err (List (Nat × Nat))}
    {ms : List (Nat × Nat)} {pieces : List NS} (hne : ns.get ≠ []) (he : findAll2 (runesOf ns.get) = .ok ms)
    (h : ns.split (fromRegexp2 findAll2) .isolated = .ok (.ok pieces)) :
    ∀ m ∈ ms, (encodeRunes ((runesOf ns.get).take (m.1 + m.2))).length ≤ ns.get.length := by
  have h0 : ¬ ns.normalized.length = 0 := fun h' => hne (List.length_eq_zero_iff.1 h')
  have hs := isolated_slices (caps := capturesOfMatches ns.normalized (ms.map (regexp2Bytes (runesOf ns.normalized))))
    (by simp only [fromRegexp2, h0, if_false]; rw [show runesOf ns.normalized = runesOf ns.get from rfl, he]) h
  intro m hm
  have hc : (⟨⟨(regexp2Bytes (runesOf ns.get) m).1, (regexp2Bytes (runesOf ns.get) m).2⟩, true⟩ : Capture)
      ∈ (capturesOfMatches ns.normalized (ms.map (regexp2Bytes (runesOf ns.normalized)))).filter (·.isMatch) := by
    rw [capturesOfMatches_mem, List.map_map]
    exact List.mem_map.2 ⟨m, hm, rfl⟩
  obtain ⟨p, -, hp⟩ := hs.exists_right (List.mem_filter.1 hc).1
  have hv := (slice_ok hp).1
  simp only [NS.rangeIsValid, Bool.and_eq_true] at hv
  have := (isRuneBoundary_bounds hv.2).2
  rw [List.take_add, encodeRunes_append, List.length_append]
  simp only [regexp2Bytes, Rng.stop, NS.get] at this ⊢
  omega

/-- **C78, the pieces.** For every pattern and behaviour: if `Split` succeeds, the pieces are the bytes at the places of the groups. -/
theorem C78_pieces {ns : NS} {pattern : SplitPattern} {b : Behavior} {caps : List Capture} {pieces : List NS}
    (hp : pattern ns.get = .ok (.ok caps)) (h : ns.split pattern b = .ok (.ok pieces)) :
    All2 (fun g p => goSlice ns.get (span g).1 (span g).2 = .ok p.get) (splitGroups b caps) pieces := by
  refine (split_inv hp h).imp ?_
  intro g p _ _ hs
  obtain ⟨-, na, nb, -, -, -, h1, -, -, h2, -⟩ := slice_ok hs
  simp only [NS.coerceRangeToNormalized, Option.some.injEq, Prod.mk.injEq] at h1
  rw [← h1.1, ← h1.2] at h2
  exact h2

theorem groupPrev_last (x : Capture) (hx : x.isMatch = false) (n : Nat) : ∀ pre : List Capture, pre.length ≤ n →
    [x] ∈ groupPrev (pre ++ [x]) := by
  induction n with
  | zero =>
    intro pre hl
    obtain rfl : pre = [] := List.length_eq_zero_iff.1 (by omega)
    simp [groupPrev]
  | succ n ih =>
    intro pre hl
    match pre with
    | [] => simp [groupPrev]
    | [a] =>
      simp only [List.singleton_append, groupPrev, hx, Bool.and_false, Bool.false_eq_true, if_false]
      simp
    | a :: c :: rest =>
      simp only [List.cons_append, groupPrev]
      simp only [List.length_cons] at hl
      split
      · exact List.mem_cons_of_mem _ (ih rest (by omega))
      · have := ih (c :: rest) (by simp only [List.length_cons]; omega)
        rw [List.cons_append] at this
        exact List.mem_cons_of_mem _ this

theorem groupRuns_last (y x : Capture) (h : y.isMatch ≠ x.isMatch) : ∀ pre : List Capture,
    ∃ g gs, groupRuns (pre ++ [y, x]) = g :: (gs ++ [[x]])
  | [] => by simp [groupRuns, h]
  | a :: pre => by
    obtain ⟨g, gs, e⟩ := groupRuns_last y x h pre
    rw [List.cons_append, groupRuns, e]
    cases g with
    | nil => exact ⟨[a], [] :: gs, rfl⟩
    | cons b g =>
      dsimp only
      split
      · exact ⟨_, gs, rfl⟩
      · exact ⟨[a], (b :: g) :: gs, rfl⟩

/-- **C78, Split at regexp2 matches, every behaviour but one.** If the engine's matches come in the order of their ends and
`Split` succeeds, no match ends beyond the last byte.  (`MergedWithNext` puts the last match and what is left, from its end
back to the end of the text, into one piece.) -/
theorem C78_regexp2_end {ns : NS} {findAll2 : List Rune → Except Err (List (Nat × Nat))} {b : Behavior}
    {ms : List (Nat × Nat)} {pieces : List NS} (hb : b ≠ .mergedWithNext) (hne : ns.get ≠ [])
    (he : findAll2 (runesOf ns.get) = .ok ms) (ho : ms.Pairwise fun a b => a.1 + a.2 ≤ b.1 + b.2)
    (h : ns.split (fromRegexp2 findAll2) b = .ok (.ok pieces)) :
    ∀ m ∈ ms, (encodeRunes ((runesOf ns.get).take (m.1 + m.2))).length ≤ ns.get.length := by
  have h0 : ¬ ns.normalized.length = 0 := fun h' => hne (List.length_eq_zero_iff.1 h')
  have hs := split_inv (caps := capturesOfMatches ns.normalized (ms.map (regexp2Bytes (runesOf ns.normalized))))
    (by simp only [fromRegexp2, h0, if_false]; rw [show runesOf ns.normalized = runesOf ns.get from rfl, he]) h
  have hend : ∀ m : Nat × Nat, (regexp2Bytes (runesOf ns.get) m).2 = ((encodeRunes ((runesOf ns.get).take (m.1 + m.2))).length : Int) := by
    intro m
    rw [List.take_add, encodeRunes_append, List.length_append]
    simp [regexp2Bytes]
  -- the last match
  have hlast : ∀ ms' m, ms = ms' ++ [m] → (encodeRunes ((runesOf ns.get).take (m.1 + m.2))).length ≤ ns.get.length := by
    intro ms' m e
    subst e
    refine Classical.byContradiction fun hgt => ?_
    have hcaps : ∃ pre y x, capturesOfMatches ns.normalized ((ms' ++ [m]).map (regexp2Bytes (runesOf ns.normalized))) = pre ++ [y, x]
        ∧ y.isMatch = true ∧ x.isMatch = false ∧ x.offsets.start = (regexp2Bytes (runesOf ns.get) m).2 := by
      unfold capturesOfMatches
      rw [List.map_append, List.map_singleton, List.foldl_append]
      generalize (ms'.map (regexp2Bytes (runesOf ns.normalized))).foldl regexpStep (0, []) = st
      simp only [List.foldl_cons, List.foldl_nil, regexpStep]
      have hc : (regexp2Bytes (runesOf ns.normalized) m).2 ≠ (ns.normalized.length : Int) := by
        have := hend m
        simp only [NS.get] at this hgt
        omega
      refine ⟨_, _, _, (if_pos hc).trans (List.append_assoc _ _ _), rfl, rfl, rfl⟩
    obtain ⟨pre, y, x, ec, hy, hx, hxs⟩ := hcaps
    rw [ec] at hs
    have hg : [x] ∈ splitGroups b (pre ++ [y, x]) := by
      cases b with
      | removed => simp [splitGroups, hx]
      | isolated => simp [splitGroups]
      | mergedWithPrevious =>
        have := groupPrev_last x hx _ (pre ++ [y]) (Nat.le_refl _)
        simpa [splitGroups] using this
      | mergedWithNext => exact absurd rfl hb
      | contiguous =>
        obtain ⟨g, gs, e⟩ := groupRuns_last y x (by rw [hy, hx]; simp) pre
        simp [splitGroups, e]
    obtain ⟨p, -, hp⟩ := hs.exists_right hg
    have hv := (slice_ok hp).1
    simp only [NS.rangeIsValid, Bool.and_eq_true, span, List.getLast_singleton, Rng.start] at hv
    have := isRuneBoundary_bounds hv.1
    rw [hxs, hend m] at this
    simp only [NS.get] at this hgt
    omega
  intro m hm
  obtain ⟨ms', l, e⟩ : ∃ ms' l, ms = ms' ++ [l] := by
    have hne' : ms ≠ [] := by intro e; rw [e] at hm; cases hm
    exact ⟨ms.dropLast, ms.getLast hne', (List.dropLast_concat_getLast hne').symm⟩
  have hl := hlast ms' l e
  have hle : m.1 + m.2 ≤ l.1 + l.2 := by
    rw [e] at hm ho
    rcases List.mem_append.1 hm with hm | hm
    · exact (List.pairwise_append.1 ho).2.2 m hm l (by simp)
    · rw [List.mem_singleton.1 hm]; exact Nat.le_refl _
  have : (encodeRunes ((runesOf ns.get).take (m.1 + m.2))).length ≤ (encodeRunes ((runesOf ns.get).take (l.1 + l.2))).length := by
    obtain ⟨d, hd⟩ := Nat.le.dest hle
    rw [← hd, List.take_add (i := m.1 + m.2), encodeRunes_append, List.length_append]
    omega
  omega

/-- `MergedWithNext` may succeed: with one alignment for the bad byte, the match of U+FFFD and the rest are put together. -/
theorem C78_mergedWithNext : ((⟨[0xFF], [0xFF], [⟨0, 1⟩], 0⟩ : NS).split (fromRegexp2 fun _ => .ok [(0, 1)]) .mergedWithNext >>= fun r =>
    pure (r.toOption.map (·.map NS.get))) = .ok (some [[0xFF]]) := by decide +kernel

/-- **C78, Split at what is between regexp2 matches** (as the white space pre-tokenizer does): if it
succeeds, the pieces are the bytes at those positions, and none lies beyond the last byte. -/
theorem C78_regexp2_inverted {ns : NS} {findAll2 : List Rune → Except Err (List (Nat × Nat))}
    {ms : List (Nat × Nat)} {pieces : List NS} (hne : ns.get ≠ []) (he : findAll2 (runesOf ns.get) = .ok ms)
    (h : ns.split (invert (fromRegexp2 findAll2)) .removed = .ok (.ok pieces)) :
    All2 (fun m p => goSlice ns.get (encodeRunes ((runesOf ns.get).take m.1)).length
        (encodeRunes ((runesOf ns.get).take (m.1 + m.2))).length = .ok p.get) ms pieces := by
  have h0 : ¬ ns.normalized.length = 0 := fun h' => hne (List.length_eq_zero_iff.1 h')
  have hs := split_inv (caps := (capturesOfMatches ns.normalized (ms.map (regexp2Bytes (runesOf ns.normalized)))).map
      fun c => { c with isMatch := !c.isMatch })
    (by simp only [invert, fromRegexp2, h0, if_false]; rw [show runesOf ns.normalized = runesOf ns.get from rfl, he]) h
  have hf : ((capturesOfMatches ns.normalized (ms.map (regexp2Bytes (runesOf ns.normalized)))).map
      fun c => ({ c with isMatch := !c.isMatch } : Capture)).filter (fun c => !c.isMatch)
      = ms.map fun m => ⟨⟨(regexp2Bytes (runesOf ns.get) m).1, (regexp2Bytes (runesOf ns.get) m).2⟩, false⟩ := by
    rw [List.filter_map]
    have : ((fun c : Capture => !c.isMatch) ∘ fun c : Capture => ({ c with isMatch := !c.isMatch } : Capture))
        = fun c => c.isMatch := by funext c; simp
    rw [this, capturesOfMatches_mem, List.map_map, List.map_map]
    rfl
  simp only [splitGroups] at hs
  rw [hf, List.map_map] at hs
  refine hs.map_left.imp ?_
  intro m p _ _ hp
  obtain ⟨-, na, nb, -, -, -, h1, -, -, h2, -⟩ := slice_ok hp
  simp only [NS.coerceRangeToNormalized, Option.some.injEq, Prod.mk.injEq] at h1
  rw [← h1.1, ← h1.2] at h2
  rw [List.take_add, encodeRunes_append, List.length_append]
  exact h2

/-- A match that ends with the text makes isolating fail on bad bytes. -/
theorem isolated_bad {ns : NS} {findAll2 : List Rune → Except Err (List (Nat × Nat))}
    {ms : List (Nat × Nat)} {pieces : List NS} (hne : ns.get ≠ []) (he : findAll2 (runesOf ns.get) = .ok ms)
    (hm : ∃ m ∈ ms, m.1 + m.2 = (runesOf ns.get).length)
    (h : ns.split (fromRegexp2 findAll2) .isolated = .ok (.ok pieces)) : ValidUtf8 ns.get := by
  obtain ⟨m, hm, e⟩ := hm
  have := C78_regexp2_isolated hne he h m hm
  rw [e, List.take_length, ← sanitizeText_eq] at this
  exact Classical.byContradiction fun hb => by have := bad_longer hb; omega

theorem inverted_bad {ns : NS} {findAll2 : List Rune → Except Err (List (Nat × Nat))}
    {ms : List (Nat × Nat)} {pieces : List NS} (hne : ns.get ≠ []) (he : findAll2 (runesOf ns.get) = .ok ms)
    (hm : ∃ m ∈ ms, m.1 + m.2 = (runesOf ns.get).length)
    (h : ns.split (invert (fromRegexp2 findAll2)) .removed = .ok (.ok pieces)) : ValidUtf8 ns.get := by
  obtain ⟨m, hm, e⟩ := hm
  obtain ⟨p, -, hp⟩ := (C78_regexp2_inverted hne he h).exists_right hm
  rw [goSlice_eq_ok] at hp
  have := hp.1.2.2
  rw [e, List.take_length, ← sanitizeText_eq] at this
  exact Classical.byContradiction fun hb => by have := bad_longer hb; omega

/-- An expression that matches no empty text, and the last rune on its own, matches up to the end. -/
theorem scan_reaches_end {re : Re} (h0 : ∀ rs, re.first rs ≠ some 0) (last : Rune) (h1 : re.first [last] ≠ none)
    (n : Nat) : ∀ (rs : List Rune), rs.length ≤ n → ∀ (i : Nat), rs.getLast? = some last →
    ∃ m ∈ re.scan rs i 0, m.1 + m.2 = i + rs.length := by
  induction n with
  | zero =>
    intro rs h i hl
    have : rs = [] := List.length_eq_zero_iff.1 (by omega)
    subst this; cases hl
  | succ n ih =>
    intro rs h i hl
    cases rs with
    | nil => cases hl
    | cons r rs =>
      cases hf : re.first (r :: rs) with
      | none =>
        rw [Re.scan_no_match hf]
        cases rs with
        | nil =>
          simp only [List.getLast?_singleton, Option.some.injEq] at hl
          subst hl; exact absurd hf h1
        | cons r' rs =>
          simp only [List.length_cons] at h
          obtain ⟨m, hm, e⟩ := ih (r' :: rs) (by simp; omega) (i + 1) (by simpa using hl)
          exact ⟨m, hm, by simp only [List.length_cons] at e ⊢; omega⟩
      | some k =>
        have hk : 0 < k := by
          rcases Nat.eq_zero_or_pos k with e | e
          · subst e; exact absurd hf (h0 _)
          · exact e
        have hle := Re.first_le hf
        rw [Re.scan_match hf hk]
        by_cases he : k = (r :: rs).length
        · exact ⟨(i, k), by simp, by simp [he]⟩
        · have hlen : ((r :: rs).drop k).length = (r :: rs).length - k := List.length_drop
          have hdl : ((r :: rs).drop k).getLast? = some last := by
            rw [List.getLast?_drop, if_neg (by omega), hl]
          obtain ⟨m, hm, e⟩ := ih _ (by rw [hlen]; simp only [List.length_cons] at *; omega) (i + k) hdl
          exact ⟨m, by simp [hm], by rw [hlen] at e; omega⟩

theorem runesOf_ne {s : Str} (h : s ≠ []) : runesOf s ≠ [] := by
  cases s with
  | nil => exact absurd rfl h
  | cons b bs => simp [runesOf, rangeStr, rangeAux]

/-! ## The default byte-level pre-tokenizer -/

/-- **C78, byte level, splitting.** The default expression matches all of every text, so isolating
its matches succeeds on no text that is not valid UTF-8. -/
theorem C78_byteLevel_split {u : RxUni} (hu : SaneTables u) {ns : NS} {pieces : List NS}
    (h : ns.split (fromRegexp2 (splittingRegexp u).findAll) .isolated = .ok (.ok pieces)) : ValidUtf8 ns.get := by
  by_cases hne : ns.get = []
  · rw [hne]; exact ⟨[], by simp, rfl⟩
  have hr := runesOf_ne hne
  refine isolated_bad hne (ms := (splittingRegexp u).scan (runesOf ns.get) 0 0) rfl ?_ h
  have h0 : ∀ rs, (splittingRegexp u).first rs ≠ some 0 := by
    intro rs he
    by_cases hrs : rs = []
    · subst hrs; rw [splittingRegexp_nil] at he; cases he
    · obtain ⟨k, hk, hpos, -⟩ := splittingRegexp_first hu hrs
      rw [hk, Option.some.injEq] at he
      omega
  obtain ⟨m, hm, e⟩ := scan_reaches_end h0 ((runesOf ns.get).getLast hr) (by
    obtain ⟨k, hk, -, -⟩ := splittingRegexp_first hu (rs := [(runesOf ns.get).getLast hr]) (by simp)
    rw [hk]; simp) _ (runesOf ns.get) (Nat.le_refl _) 0 (List.getLast?_eq_some_getLast hr)
  exact ⟨m, hm, by simpa using e⟩

/-- **C78, Prepend.** On any state with a text: if `Prepend` does not panic, the new text is the
added text, the first rune read, and the bytes after as many bytes as that rune takes; after a bad
first byte these are not the bytes that follow it. -/
theorem C78_prepend {ns ns' : NS} {s : Str} {c : Chunk} {cs : List Chunk} (hc : chunks ns.get = c :: cs)
    (h : ns.prepend s = .ok ns') :
    ns'.get = sanitizeText s ++ encodeRune c.rune ++ ns.get.drop (encodeRune c.rune).length
    ∧ (c.isBad = false → ns'.get = sanitizeText s ++ ns.get) := by
  have hne : ¬ ns.normalized.length = 0 := by
    intro h0
    have : ns.get = [] := List.length_eq_zero_iff.1 h0
    rw [this] at hc; cases hc
  have hr : runesOf ns.normalized = c.rune :: cs.map (·.rune) := by
    have := runesOf_chunks ns.get
    rw [hc] at this; exact this
  have hcv : ValidRune c.rune := runesOf_valid ns.normalized c.rune (by rw [hr]; simp)
  simp only [NS.prepend, hne, if_false, hr, GoM.bind_eq_ok] at h
  obtain ⟨r, hi, h⟩ := h
  have : r = c.rune := by
    have hi' : goIndex (c.rune :: cs.map (·.rune)) 0 = .ok c.rune := rfl
    rw [hi', GoM.ok.injEq] at hi; exact hi.symm
  subst this
  simp only [NS.transformRange, NS.coerceRangeToNormalized] at h
  obtain ⟨nPre, nInit, nTail, nPost, aPre, aPost, ks, h1, h2, -, h3, -, -, -, -, -, -, -, h4⟩ :=
    transformNormalized_ok h
  have e1 : nPre = [] := List.length_eq_zero_iff.1 (by omega)
  subst e1
  have hchg : ((NS.prependChanges s ++ [(⟨c.rune, 1⟩ : RuneChange)]).map fun rc : RuneChange => sanitize rc.rune)
      = (runesOf s).map sanitize ++ [c.rune] := by
    have : (NS.prependChanges s).map (fun rc => rc.rune) = runesOf s := by
      simp only [NS.prependChanges, runesOf, List.map_map]
      rfl
    rw [List.map_append, List.map_singleton, sanitize_of_valid hcv, ← this, List.map_map]
    rfl
  have hdrop : nPost = ns.get.drop (encodeRune c.rune).length := by
    have : (encodeRune c.rune).length = (nInit ++ nTail).length := by
      simp only [List.length_nil] at h3; omega
    rw [this]
    show nPost = ns.normalized.drop _
    rw [h1]; simp
  have hget : ns'.get = sanitizeText s ++ encodeRune c.rune ++ ns.get.drop (encodeRune c.rune).length := by
    subst h4
    show [] ++ encodeRunes _ ++ nPost = _
    rw [hchg, hdrop, encodeRunes_append, encodeRunes_sanitize, sanitizeText_eq]
    simp [encodeRunes]
  refine ⟨hget, ?_⟩
  intro hb
  rw [hget]
  have hx := (isBad_iff (goodChunks ns.get c (by rw [hc]; simp)).2).2 hb
  have hy : ns.get = encodeRune c.rune ++ textOf cs := by
    conv => lhs; rw [← textOf_chunks ns.get, hc, textOf_cons]
    rw [hx]
  rw [List.append_assoc]
  congr 1
  conv => lhs; rw [hy]
  conv => rhs; rw [hy]
  simp

theorem splitLoop_each (f : SplitFunc) : ∀ (ps : List Piece) (i : Nat) (old new : List Piece),
    PTS.splitLoop f i ps = .ok (old, .ok new) →
    ∀ q ∈ ps, q.tokens = none → ∃ j ns' items, f j q.ns = .ok (ns', .ok items) := by
  intro ps
  induction ps with
  | nil => intro i old new _ q hq; cases hq
  | cons p ps ih =>
    intro i old new h q hq ht
    cases hp : p.tokens with
    | some t =>
      simp only [PTS.splitLoop, hp, GoM.bind_eq_ok] at h
      obtain ⟨⟨o, n⟩, h3, h4⟩ := h
      cases n with
      | error e => simp at h4
      | ok n =>
        rcases List.mem_cons.1 hq with rfl | hq
        · rw [hp] at ht; cases ht
        · exact ih _ _ _ h3 q hq ht
    | none =>
      simp only [PTS.splitLoop, hp, GoM.bind_eq_ok] at h
      obtain ⟨⟨ns', r⟩, h1, h2⟩ := h
      cases r with
      | error e => simp at h2
      | ok items =>
        simp only [GoM.bind_eq_ok] at h2
        obtain ⟨⟨o, n⟩, h3, h4⟩ := h2
        cases n with
        | error e => simp at h4
        | ok n =>
          rcases List.mem_cons.1 hq with rfl | hq
          · exact ⟨i, ns', items, h1⟩
          · exact ih _ _ _ h3 q hq ht

theorem split_each {f : SplitFunc} {p p' : PTS} (h : p.split f = .ok (p', none)) :
    ∀ q ∈ p.splits, q.tokens = none → ∃ j ns' items, f j q.ns = .ok (ns', .ok items) := by
  simp only [PTS.split, GoM.bind_eq_ok] at h
  obtain ⟨⟨o, n⟩, h1, h2⟩ := h
  cases n with
  | error e => simp at h2
  | ok n => exact splitLoop_each f _ _ _ _ h1

theorem validUtf8_of_space {s : Str} (h : ValidUtf8 (32 :: s)) : ValidUtf8 s := by
  obtain ⟨rs, hv, e⟩ := h
  cases rs with
  | nil => cases e
  | cons r rs =>
    have h1 := decodeRune_encodeRune (hv r (by simp)) (encodeRunes rs)
    rw [encodeRunes_cons] at e
    rw [e] at h1
    have h2 : decodeRune (32 :: s) = (32, 1) := by simp [decodeRune]
    rw [h2] at h1
    have h3 : r = 32 := by
      have := congrArg Prod.fst h1
      exact this.symm
    subst h3
    have h4 : encodeRune 32 = [32] := by decide +kernel
    rw [h4] at e
    simp only [List.singleton_append, List.cons.injEq, true_and] at e
    exact ⟨rs, fun x hx => hv x (by simp [hx]), e⟩

/-- **C78, byte level.** If the default byte-level pre-tokenizer succeeds, every text it had to cut
is valid UTF-8, or a space was put before it and it starts with a bad byte. -/
theorem C78_byteLevel {u : RxUni} (hu : SaneTables u) {b : Bool} {p p' : PTS}
    (h : byteLevel (splittingRegexp u).findAll b p = .ok (p', none)) :
    ∀ q ∈ p.splits, q.tokens = none →
      ValidUtf8 q.ns.get ∨ (b = true ∧ ∃ c cs, chunks q.ns.get = c :: cs ∧ c.isBad = true) := by
  simp only [byteLevel, GoM.bind_eq_ok] at h
  obtain ⟨⟨p1, e⟩, h1, h2⟩ := h
  cases e with
  | some e => simp at h2
  | none =>
    intro q hq ht
    obtain ⟨j, ns', items, h3⟩ := split_each h1 q hq ht
    simp only [byteLevelSplitFunc] at h3
    have fin : ∀ (ns1 : NS), (do
        match ← ns1.split (fromRegexp2 (splittingRegexp u).findAll) .isolated with
        | .error e => pure (ns1, .error e)
        | .ok nss => pure (ns1, .ok (splitsFromNormalizedStrings nss)) : GoM (NS × Except Err (List Piece)))
          = .ok (ns', .ok items) → ValidUtf8 ns1.get := by
      intro ns1 h
      simp only [GoM.bind_eq_ok] at h
      obtain ⟨r, h4, h5⟩ := h
      cases r with
      | error e => simp at h5
      | ok nss => exact C78_byteLevel_split hu h4
    by_cases hc : b = true ∧ (!startsWithWhitespace q.ns.get) = true
    · rw [if_pos hc, GoM.bind_eq_ok] at h3
      obtain ⟨ns1, h4, h5⟩ := h3
      have hv := fin _ h5
      cases hch : chunks q.ns.get with
      | nil =>
        left
        have := textOf_chunks q.ns.get
        rw [hch] at this
        rw [← this]; exact ⟨[], by simp, rfl⟩
      | cons c cs =>
        cases hb : c.isBad with
        | true => exact Or.inr ⟨hc.1, c, cs, rfl, hb⟩
        | false =>
          left
          rw [(C78_prepend hch h4).2 hb] at hv
          exact validUtf8_of_space hv
    · rw [if_neg hc] at h3
      exact Or.inl (fin _ h3)

/-! ## The default white space pre-tokenizer -/

/-- **C78, white space.** If the default white space pre-tokenizer succeeds, every text it had to
cut is valid UTF-8 or ends in white space. -/
theorem C78_whiteSpace {u : RxUni} {p p' : PTS} (h : whiteSpaceDefault u p = .ok (p', none)) :
    ∀ q ∈ p.splits, q.tokens = none →
      ValidUtf8 q.ns.get ∨ ∃ r, (runesOf q.ns.get).getLast? = some r ∧ wordKind u r = none := by
  intro q hq ht
  obtain ⟨j, ns', items, h3⟩ := split_each h q hq ht
  simp only [splitByPattern, GoM.bind_eq_ok] at h3
  obtain ⟨r, h4, h5⟩ := h3
  cases r with
  | error e => simp at h5
  | ok nss =>
    by_cases hne : q.ns.get = []
    · rw [hne]; exact Or.inl ⟨[], by simp, rfl⟩
    have hr := runesOf_ne hne
    cases hk : wordKind u ((runesOf q.ns.get).getLast hr) with
    | none => exact Or.inr ⟨_, List.getLast?_eq_some_getLast hr, hk⟩
    | some k =>
      left
      refine inverted_bad hne (ms := (wordRegexp u).scan (runesOf q.ns.get) 0 0) rfl ?_ h4
      have h0 : ∀ rs, (wordRegexp u).first rs ≠ some 0 := by
        intro rs he
        cases rs with
        | nil => simp [Re.first, wordRegexp, Re.matches'] at he
        | cons r rs =>
          rw [wordRegexp_first] at he
          unfold wordKind at he
          cases h1 : u.word r <;> cases h2 : u.space r <;> simp [h1, h2, RxUni.symbol] at he
      obtain ⟨m, hm, e⟩ := scan_reaches_end h0 ((runesOf q.ns.get).getLast hr) (by
        rw [wordRegexp_first, hk]; cases k <;> simp) _ (runesOf q.ns.get) (Nat.le_refl _) 0
        (List.getLast?_eq_some_getLast hr)
      exact ⟨m, hm, by simpa using e⟩

/-! ## What goes wrong -/

/-- With a space put before it, a text that starts with a bad byte loses the two bytes after it:
`"\xffab"` becomes one piece, `" \uFFFD"` in the byte-level table, said to be bytes 0 to 3. -/
theorem C78_byteLevel_lost :
    (byteLevelDefault Tests.asciiUni (PTS.fromString [0xFF, 0x61, 0x62])).bind
      (fun r => .ok (r.1.getOriginalByteSplits, r.2))
      = .ok ([⟨b!"Ġï¿½", ⟨0, 3⟩, none⟩], none) := by decide +kernel

/-- Without it the same text is refused. -/
theorem C78_byteLevel_refused :
    (byteLevel (splittingRegexp Tests.asciiUni).findAll false (PTS.fromString [0xFF, 0x61, 0x62])).bind
      (fun r => .ok r.2) = .ok (some .badSplit) := by decide +kernel

/-- A text that ends in white space is cut, at wrong places: `"a \xff b   "` gives `"a"`, `"\xff b"`
and `" "`. -/
theorem C78_whiteSpace_wrong :
    (whiteSpaceDefault Tests.asciiUni (PTS.fromString [0x61, 0x20, 0xFF, 0x20, 0x62, 0x20, 0x20, 0x20])).bind
      (fun r => .ok (r.1.getOriginalByteSplits.map (·.string), r.2))
      = .ok ([[0x61], [0xFF, 0x20, 0x62], [0x20]], none) := by decide +kernel

end Verif
