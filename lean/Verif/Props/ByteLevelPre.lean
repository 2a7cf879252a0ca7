import Verif.Props.WhiteSpace
import Verif.Props.Tokenize
import Verif.Props.ByteLevel

/-! Property C60: the byte-level pre-tokenizer, for any engine and for its own expression. -/

set_option autoImplicit false

namespace Verif

/-! ## Any state, any engine -/

/-- The characters with the added space: it takes the alignment of the first character and is
added only if that is not white space. -/
def spaced (prefixSpace : Bool) (cs : List Ch) : List Ch :=
  match cs with
  | [] => []
  | c :: cs => if prefixSpace && !isWhiteSpace c.1 then (32, c.2) :: c :: cs else c :: cs

/-- The byte split of some characters of a state. -/
def byteSplitOf (ns : NS) (B : List Ch) : ByteSplit :=
  ⟨encodeRunes ((text B).map byteToRune),
    ⟨ns.originalShift + (firstAlign B).start, ns.originalShift + (lastAlign B).stop⟩, none⟩

theorem runesOf_space : runesOf [32] = [32] := by decide +kernel

theorem byteLevel_prefix {ns : NS} (hwf : WF ns) {cs : List Ch} (h : Repr ns cs) (hne : cs ≠ []) (b : Bool) :
    ∃ ns1, (if b = true ∧ (!startsWithWhitespace ns.get) = true then ns.prepend [32] else pure ns) = GoM.ok ns1
      ∧ Repr ns1 (spaced b cs) ∧ WF ns1 ∧ ns1.original = ns.original ∧ ns1.originalShift = ns.originalShift := by
  cases cs with
  | nil => exact absurd rfl hne
  | cons c cs =>
    have hw : startsWithWhitespace ns.get = isWhiteSpace c.1 := by
      have : runesOf ns.get = (c :: cs).map (·.1) := h.runes
      simp [startsWithWhitespace, this]
    rw [hw]
    by_cases hc : b = true ∧ (!isWhiteSpace c.1) = true
    · rw [if_pos hc]
      obtain ⟨ns1, k1, k2, k3, k4⟩ := C08_prepend_partial h [32] (by simp)
      rw [runesOf_space] at k2
      refine ⟨ns1, k1, ?_, (prepend_wf hwf k1).1, k3, k4⟩
      simp only [spaced, hc.1, hc.2, Bool.and_self, if_true]
      simpa using k2
    · rw [if_neg hc]
      refine ⟨ns, rfl, ?_, hwf, rfl, rfl⟩
      have : (b && !isWhiteSpace c.1) = false := by
        cases b <;> simp at hc ⊢
        exact hc
      simp only [spaced, this]
      simpa using h

theorem byteLevelSplitFunc_eq {findAll2 : List Rune → Except Err (List (Nat × Nat))} {b : Bool} {j : Nat} {ns ns1 : NS}
    (h : (if b = true ∧ (!startsWithWhitespace ns.get) = true then ns.prepend [32] else pure ns) = GoM.ok ns1)
    {r : Except Err (List NS)} (hs : ns1.split (fromRegexp2 findAll2) .isolated = .ok r) :
    byteLevelSplitFunc findAll2 b j ns = .ok (ns1, r.map splitsFromNormalizedStrings) := by
  simp only [byteLevelSplitFunc]
  split
  · rename_i hc
    rw [if_pos hc] at h
    rw [h, GoM.bind_ok, hs]
    cases r <;> rfl
  · rename_i hc
    rw [if_neg hc] at h
    rw [h, GoM.bind_ok, hs]
    cases r <;> rfl

/-- The normalized form of a piece. -/
def byteLevelText (ns : NS) : NS :=
  match byteLevelNormalize ns with
  | .ok (n, none) => n
  | _ => ns

theorem pieceOf_byteSplit {ns : NS} (hwf : WF ns) {A B C : List Ch} (h : Repr ns (A ++ B ++ C)) (hB : B ≠ []) :
    byteLevelNormalize (pieceOf ns B) = .ok (byteLevelText (pieceOf ns B), none)
      ∧ (byteLevelText (pieceOf ns B)).get = (byteSplitOf ns B).string
      ∧ (byteLevelText (pieceOf ns B)).originalOffsets = (byteSplitOf ns B).offsets := by
  have hr := pieceOf_repr ns (B := B) (fun c hc => h.valid c (by simp [hc]))
  obtain ⟨n', k1, k2, k3, k4⟩ := C33_normalize hr
  have e : byteLevelText (pieceOf ns B) = n' := by simp [byteLevelText, k1]
  rw [e]
  refine ⟨k1, ?_, ?_⟩
  · have := k2.text_eq
    rw [NS.get, this, text, byteChars_runes]
    simp [byteSplitOf, text, moveLeft_runes]
  · obtain ⟨⟨b1, b2, b3⟩, -⟩ := slice_chars_bounds hwf h hB
    simp only [NS.originalOffsets, NS.originalLen, k3, k4, byteSplitOf, pieceOf, sub,
      List.length_take, List.length_drop]
    congr 1
    omega

/-- The splits the byte-level pre-tokenizer makes, as states. -/
theorem byteLevel_splits (findAll2 : List Rune → Except Err (List (Nat × Nat))) (b : Bool) (o : Str)
    {ns : NS} (hwf : WF ns) {cs : List Ch} (h : Repr ns cs) (hne : cs ≠ []) {ms : List (Nat × Nat)}
    (he : findAll2 ((spaced b cs).map (·.1)) = .ok ms) (ho : Ordered2 ms 0 (spaced b cs).length)
    (hp : ∀ m ∈ ms, 0 < m.2) :
    ∃ pts ns1, byteLevel findAll2 b ⟨o, [⟨ns, none⟩]⟩ = .ok (pts, none) ∧ pts.original = o
      ∧ pts.splits = ((matchSegs 0 ms (spaced b cs)).map fun x => ⟨byteLevelText (pieceOf ns1 x.2), none⟩)
      ∧ Repr ns1 (spaced b cs) ∧ WF ns1 ∧ ns1.originalShift = ns.originalShift
      ∧ (∀ x ∈ matchSegs 0 ms (spaced b cs), x.2 ≠ [])
      ∧ (matchSegs 0 ms (spaced b cs)).flatMap (·.2) = spaced b cs := by
  obtain ⟨ns1, k1, k2, k3, k4, k5⟩ := byteLevel_prefix hwf h hne b
  have hsne : spaced b cs ≠ [] := by
    cases cs with
    | nil => exact absurd rfl hne
    | cons c cs => unfold spaced; simp only; split <;> simp
  generalize hcs : spaced b cs = sc at *
  have hseg : ∀ x ∈ matchSegs 0 ms sc, x.2 ≠ [] := matchSegs_ne_nil ms 0 sc hp (by simpa using ho)
  have hfl : (matchSegs 0 ms sc).flatMap (·.2) = sc := by
    rcases matchSegs_flatten ms 0 sc with h | h
    · exact h
    · exact absurd (by simpa using ho) h
  have hsp := split_chars k3 true (pattern := fromRegexp2 findAll2) (t := matchSegs 0 ms sc) hseg (by rwa [hfl])
    (by
      have := fromRegexp2_caps findAll2 (rs := sc.map (·.1))
        (by intro r hr; obtain ⟨c, hc, rfl⟩ := List.mem_map.1 hr; exact k2.valid c hc)
        (by simpa using hsne) he (by simpa using ho)
      rw [k2.text_eq, text, this, ← matchSegs_map]
      rfl)
  have hkept : (matchSegs 0 ms sc).filter (kept true) = matchSegs 0 ms sc :=
    List.filter_eq_self.2 fun x _ => by simp [kept]
  rw [hkept] at hsp
  simp only [if_true] at hsp
  -- every piece
  have hpc : ∀ x ∈ matchSegs 0 ms sc, byteLevelNormalize (pieceOf ns1 x.2) = .ok (byteLevelText (pieceOf ns1 x.2), none) := by
    intro x hx
    obtain ⟨P, Q, hPQ⟩ := List.append_of_mem hx
    refine (pieceOf_byteSplit k3 (A := P.flatMap (·.2)) (C := Q.flatMap (·.2)) ?_ (hseg x hx)).1
    rw [← hfl, hPQ] at k2
    simpa using k2
  have hS := split_pieces o [⟨ns, none⟩] (byteLevelSplitFunc findAll2 b) (fun _ => ns1)
    (fun _ => splitsFromNormalizedStrings ((matchSegs 0 ms sc).map fun x => pieceOf ns1 x.2)) (by
      intro p hp
      simp at hp; subst hp
      refine ⟨rfl, fun j => ?_⟩
      exact byteLevelSplitFunc_eq k1 hsp)
  simp only [List.flatMap_cons, List.flatMap_nil, List.append_nil] at hS
  have hfil : (splitsFromNormalizedStrings ((matchSegs 0 ms sc).map fun x => pieceOf ns1 x.2)).filter
      (fun q => decide (q.ns.get ≠ [])) = (matchSegs 0 ms sc).map fun x => ⟨pieceOf ns1 x.2, none⟩ := by
    rw [List.filter_eq_self.2]
    · simp [splitsFromNormalizedStrings]
    · intro q hq
      simp only [splitsFromNormalizedStrings, List.map_map, List.mem_map] at hq
      obtain ⟨x, hx, rfl⟩ := hq
      have := hseg x hx
      exact decide_eq_true fun h => this (text_eq_nil.1 h)
  rw [hfil] at hS
  have hN := C59_normalize_ok ⟨o, (matchSegs 0 ms sc).map fun x => ⟨pieceOf ns1 x.2, none⟩⟩ byteLevelNormalize
    byteLevelText (by
      intro sp hsp _
      obtain ⟨x, hx, rfl⟩ := List.mem_map.1 hsp
      exact hpc x hx)
  refine ⟨_, ns1, by simp only [byteLevel, hS, GoM.bind_ok]; exact hN, rfl, ?_, k2, k3, k5, hseg, hfl⟩
  simp [withText, Function.comp_def]

/-- **C60, any state and engine.** On every valid state with some text, and for every engine that
returns matches of at least one rune each, in order and in bounds, the byte-level pre-tokenizer
succeeds: the text, with a space in front if that is asked for and the text does not start with
white space, is cut at the matches; every piece has one table rune per byte, and its offsets go
from the start of the original range of its first character to the end of that of its last. -/
theorem C60_state (findAll2 : List Rune → Except Err (List (Nat × Nat))) (b : Bool) (o : Str)
    {ns : NS} (hwf : WF ns) {cs : List Ch} (h : Repr ns cs) (hne : cs ≠ []) {ms : List (Nat × Nat)}
    (he : findAll2 ((spaced b cs).map (·.1)) = .ok ms) (ho : Ordered2 ms 0 (spaced b cs).length)
    (hp : ∀ m ∈ ms, 0 < m.2) :
    ∃ pts, byteLevel findAll2 b ⟨o, [⟨ns, none⟩]⟩ = .ok (pts, none) ∧ pts.original = o
      ∧ pts.getOriginalByteSplits = (matchSegs 0 ms (spaced b cs)).map fun x => byteSplitOf ns x.2 := by
  obtain ⟨pts, ns1, h1, h2, h3, k2, k3, k5, hseg, hfl⟩ := byteLevel_splits findAll2 b o hwf h hne he ho hp
  refine ⟨pts, h1, h2, ?_⟩
  simp only [PTS.getOriginalByteSplits, h3, List.map_map]
  apply List.map_congr_left
  intro x hx
  obtain ⟨P, Q, hPQ⟩ := List.append_of_mem hx
  obtain ⟨-, q2, q3⟩ := pieceOf_byteSplit k3 (A := P.flatMap (·.2)) (B := x.2) (C := Q.flatMap (·.2))
    (by rw [← hfl, hPQ] at k2; simpa using k2) (hseg x hx)
  simp only [Function.comp_apply, q2, q3]
  simp only [byteSplitOf, k5]

/-- Without text there is nothing to split. -/
theorem C60_empty (findAll2 : List Rune → Except Err (List (Nat × Nat))) (b : Bool) :
    ∃ pts, byteLevel findAll2 b (PTS.fromString []) = .ok (pts, none) ∧ pts.splits = [] := by
  cases b <;> exact ⟨⟨[], []⟩, rfl, rfl⟩

/-- An engine error is the error of the pre-tokenizer. -/
theorem C60_engine_error (findAll2 : List Rune → Except Err (List (Nat × Nat))) (b : Bool) (o : Str)
    {ns : NS} (hwf : WF ns) {cs : List Ch} (h : Repr ns cs) (hne : cs ≠ []) {e : Err}
    (he : findAll2 ((spaced b cs).map (·.1)) = .error e) :
    ∃ pts, byteLevel findAll2 b ⟨o, [⟨ns, none⟩]⟩ = .ok (pts, some e) := by
  obtain ⟨ns1, k1, k2, -, -, -⟩ := byteLevel_prefix hwf h hne b
  have hsne : spaced b cs ≠ [] := by
    cases cs with
    | nil => exact absurd rfl hne
    | cons c cs => unfold spaced; simp only; split <;> simp
  have h0 : ¬ (text (spaced b cs)).length = 0 := by
    intro h'; exact hsne (text_eq_nil.1 (List.length_eq_zero_iff.1 h'))
  have hs : ns1.split (fromRegexp2 findAll2) .isolated = .ok (.error e) := by
    simp only [NS.split]
    rw [show fromRegexp2 findAll2 ns1.normalized = .ok (.error e) by
      have := k2.runes
      rw [← k2.text_eq] at h0
      simp [fromRegexp2, h0, this, he]]
    rfl
  have hf : byteLevelSplitFunc findAll2 b 0 ns = .ok (ns1, .error e) := byteLevelSplitFunc_eq k1 hs
  exact ⟨_, by simp [byteLevel, PTS.split, PTS.splitLoop, hf]; rfl⟩

end Verif
