import Verif.Model.AnyRange
import Verif.Model.Notation
import Verif.Model.Defaults

/-! C112: ranges of other types, nil, and numbers that are no `SplitDelimiterBehavior`. -/

set_option autoImplicit false

namespace Verif

namespace NS

theorem coerceN_own (ns : NS) (r : Rng) : ns.coerceRangeToNormalizedI (.own r) = .ok (ns.coerceRangeToNormalized r) := by
  cases r with
  | normalized s e => simp [coerceRangeToNormalizedI, coerceRangeToNormalized, AnyRange.own]
  | original s e =>
    simp only [coerceRangeToNormalizedI, coerceRangeToNormalized, AnyRange.own, reduceCtorEq, if_false]
    repeat' split
    all_goals first | rfl | contradiction | simp_all

theorem coerceO_own (ns : NS) (r : Rng) : ns.coerceRangeToOriginalI (.own r) = ns.coerceRangeToOriginal r := by
  cases r <;> simp [coerceRangeToOriginalI, coerceRangeToOriginal, AnyRange.own]

theorem getRangeI_of {ns : NS} {i : AnyRange} {r : Rng} (h : ns.coerceRangeToNormalizedI i = .ok (ns.coerceRangeToNormalized r)) :
    ns.getRangeI i = ns.getRange r := by
  rw [getRangeI, getRange, h]
  cases ns.coerceRangeToNormalized r <;> rfl

theorem getOriginalRangeI_of {ns : NS} {i : AnyRange} {r : Rng} (h : ns.coerceRangeToOriginalI i = ns.coerceRangeToOriginal r) :
    ns.getOriginalRangeI i = ns.getOriginalRange r := by
  rw [getOriginalRangeI, getOriginalRange, h]
  rfl

theorem transformRangeI_of {ns : NS} {i : AnyRange} {r : Rng} (h : ns.coerceRangeToNormalizedI i = .ok (ns.coerceRangeToNormalized r))
    (dest : List RuneChange) (n : Int) : ns.transformRangeI i dest n = ns.transformRange r dest n := by
  rw [transformRangeI, transformRange, h]
  cases ns.coerceRangeToNormalized r <;> rfl

end NS

open NS

/-- What the calls with a range give, one for each of the six functions. -/
structure LikeRange (ns : NS) (i : AnyRange) (toNormalized toOriginal : Rng) : Prop where
  normalized : ns.coerceRangeToNormalizedI i = .ok (ns.coerceRangeToNormalized toNormalized)
  original : ns.coerceRangeToOriginalI i = ns.coerceRangeToOriginal toOriginal
  getRange : ns.getRangeI i = ns.getRange toNormalized
  getOriginalRange : ns.getOriginalRangeI i = ns.getOriginalRange toOriginal
  transformRange : ∀ dest n, ns.transformRangeI i dest n = ns.transformRange toNormalized dest n

/-- **C112, the two types.** On ranges of the two types of the package the functions are those of the other properties. -/
theorem C112_own (ns : NS) (r : Rng) : LikeRange ns (.own r) r r ∧ ns.sliceI (.own r) = ns.slice r := by
  have h1 := coerceN_own ns r
  have h2 := coerceO_own ns r
  refine ⟨⟨h1, h2, getRangeI_of h1, getOriginalRangeI_of h2, transformRangeI_of h1⟩, ?_⟩
  have hv : ns.rangeIsValidI (.own r) = .ok (ns.rangeIsValid r) := by cases r <;> rfl
  rw [sliceI, slice, hv, h1, h2, getRangeI_of h1, getOriginalRangeI_of h2]
  simp only [GoM.bind_ok]
  cases ns.rangeIsValid r with
  | false => rfl
  | true => cases ns.coerceRangeToNormalized r <;> rfl

/-- **C112, another type.** A range of another type whose length is the difference of its ends, as of a pointer, is taken as a range of the
original where a normalized range is wanted, and as a range of the normalized text where an original range is wanted.  `Slice` panics. -/
theorem C112_other (ns : NS) (s e : Int) :
    LikeRange ns (some ⟨.other, s, e, e - s⟩) (.original s e) (.normalized s e) ∧ ns.sliceI (some ⟨.other, s, e, e - s⟩) = .panic := by
  have h1 : ns.coerceRangeToNormalizedI (some ⟨.other, s, e, e - s⟩) = .ok (ns.coerceRangeToNormalized (.original s e)) := by
    rw [← coerceN_own]
    simp [coerceRangeToNormalizedI, AnyRange.own]
  have h2 : ns.coerceRangeToOriginalI (some ⟨.other, s, e, e - s⟩) = ns.coerceRangeToOriginal (.normalized s e) := by
    rw [← coerceO_own]
    simp [coerceRangeToOriginalI, AnyRange.own]
  exact ⟨⟨h1, h2, getRangeI_of h1, getOriginalRangeI_of h2, transformRangeI_of h1⟩, rfl⟩

/-- **C112, pointers.** So a pointer to a normalized range is not taken as that range, nor a pointer to an original range. -/
theorem C112_pointer (ns : NS) (r : Rng) :
    LikeRange ns (.pointer r) (.original r.start r.stop) (.normalized r.start r.stop) ∧ ns.sliceI (.pointer r) = .panic := by
  cases r <;> exact C112_other ns _ _

/-- "ab" with "xy" put in front of "b": the pointer selects and changes another part of the text. -/
theorem C112_pointer_counterexample : ∃ ns : NS,
    (fromString b!"ab").transform [⟨u!"a", 0⟩, ⟨u!"x", 1⟩, ⟨u!"y", 1⟩, ⟨u!"b", 0⟩] 0 = .ok ns
    ∧ ns.getRangeI (.own (.normalized 1 2)) = .ok (some b!"x") ∧ ns.getRangeI (.pointer (.normalized 1 2)) = .ok (some b!"b")
    ∧ ns.getOriginalRangeI (.own (.original 1 2)) = .ok (some b!"b") ∧ ns.getOriginalRangeI (.pointer (.original 1 2)) = .ok (some b!"a")
    ∧ (NS.normalized <$> ns.transformRangeI (.own (.normalized 1 2)) [⟨u!"z", 0⟩] 0) = .ok b!"azyb"
    ∧ (NS.normalized <$> ns.transformRangeI (.pointer (.normalized 1 2)) [⟨u!"z", 0⟩] 0) = .ok b!"axyz" := by
  refine ⟨_, rfl, ?_⟩
  decide +kernel

/-- **C112, a length of its own.** With a length of zero the ends are given back unseen; with another length the ends count, and equal ends
are no longer an empty range: the empty text at (0,0) then expands to all that it stands for (which it never does with the two types, C69),
and every other one panics in `CoerceRangeToOriginal`. -/
theorem C112_length (ns : NS) (s e l : Int) :
    (l = 0 → ns.coerceRangeToNormalizedI (some ⟨.other, s, e, l⟩) = .ok (some (s, e))
      ∧ ns.coerceRangeToOriginalI (some ⟨.other, s, e, l⟩) = .ok (some (s, e)))
    ∧ (l ≠ 0 → s ≠ e → LikeRange ns (some ⟨.other, s, e, l⟩) (.original s e) (.normalized s e))
    ∧ (l ≠ 0 → ns.original = [] → ns.coerceRangeToNormalizedI (some ⟨.other, 0, 0, l⟩) = .ok (some (0, ns.len)))
    ∧ (l ≠ 0 → ns.normalized = [] → ns.coerceRangeToOriginalI (some ⟨.other, 0, 0, l⟩) = .ok (some (0, ns.originalLen)))
    ∧ (l ≠ 0 → ¬(ns.normalized = [] ∧ s = 0) → ns.coerceRangeToOriginalI (some ⟨.other, s, s, l⟩) = .panic) := by
  refine ⟨?_, ?_, ?_, ?_, ?_⟩
  · rintro rfl
    simp [coerceRangeToNormalizedI, coerceRangeToOriginalI]
  · intro hl hne
    have hd : e - s ≠ 0 := by omega
    obtain ⟨a, -⟩ := C112_other ns s e
    have h1 : ns.coerceRangeToNormalizedI (some ⟨.other, s, e, l⟩) = .ok (ns.coerceRangeToNormalized (.original s e)) := by
      rw [← a.normalized]
      simp [coerceRangeToNormalizedI, hl, hd]
    have h2 : ns.coerceRangeToOriginalI (some ⟨.other, s, e, l⟩) = ns.coerceRangeToOriginal (.normalized s e) := by
      rw [← a.original]
      simp [coerceRangeToOriginalI, hl, hd]
    exact ⟨h1, h2, getRangeI_of h1, getOriginalRangeI_of h2, transformRangeI_of h1⟩
  · intro hl h
    simp [coerceRangeToNormalizedI, hl, h]
  · intro hl h
    simp [coerceRangeToOriginalI, hl, h]
  · intro hl h
    have h' : ¬(ns.normalized.length = 0 ∧ s = 0 ∧ s = 0) := by
      rintro ⟨x, y, -⟩
      exact h ⟨List.length_eq_zero_iff.1 x, y⟩
    simp only [coerceRangeToOriginalI, reduceCtorEq, if_false, hl, Int.lt_irrefl, gt_iff_lt, h']
    rw [goSlice]
    split
    · simp [GoM.bind_ok, goIndex]
    · rfl

/-- **C112, nil.** With nil every function panics. -/
theorem C112_nil (ns : NS) (dest : List RuneChange) (n : Int) :
    ns.coerceRangeToNormalizedI none = .panic ∧ ns.coerceRangeToOriginalI none = .panic ∧ ns.getRangeI none = .panic
    ∧ ns.getOriginalRangeI none = .panic ∧ ns.transformRangeI none dest n = .panic ∧ ns.sliceI none = .panic :=
  ⟨rfl, rfl, rfl, rfl, rfl, rfl⟩

/-- The numbers of the behaviours (normalizedstring.go:489-495). -/
def Behavior.number : Behavior → UInt8
  | .removed => 0 | .isolated => 1 | .mergedWithPrevious => 2 | .mergedWithNext => 3 | .contiguous => 4

/-- **C112, behaviours.** `Split` with one of the five is the function of the other properties; with any other number it panics, unless the
pattern fails first: then its error is returned.  The pattern is asked in either case. -/
theorem C112_behaviour (ns : NS) (pattern : SplitPattern) :
    (∀ b : Behavior, ns.splitI pattern b.number = ns.split pattern b)
    ∧ ∀ b : UInt8, (∀ b' : Behavior, b ≠ b'.number) → ns.splitI pattern b =
        match pattern ns.normalized with
        | .ok (.error e) => .ok (.error e)
        | _ => .panic := by
  constructor
  · intro b
    cases b <;> rfl
  · intro b hb
    have h0 := hb .removed
    have h1 := hb .isolated
    have h2 := hb .mergedWithPrevious
    have h3 := hb .mergedWithNext
    have h4 := hb .contiguous
    simp only [Behavior.number] at h0 h1 h2 h3 h4
    rw [splitI]
    cases pattern ns.normalized with
    | panic => rfl
    | ok r =>
      cases r with
      | error e => rfl
      | ok cs => simp [GoM.bind_ok, h0, h1, h2, h3, h4]

example : ∀ b' : Behavior, (5 : UInt8) ≠ b'.number := by intro b'; cases b' <;> decide +kernel

end Verif
