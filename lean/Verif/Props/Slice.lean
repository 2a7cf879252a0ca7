import Verif.Props.Convert
import Verif.Props.StrUtils

/-! C13 and C14: `Slice`, and conversions of out-of-range ranges. -/

set_option autoImplicit false

namespace Verif

/-! ## C13 -/

/-- Any range of a slice converts to the same absolute original offsets as the corresponding
range of the parent, whatever kind of range the slice was taken with. -/
theorem C13_consistent {ns p : NS} {r : Rng} (h : ns.slice r = .ok (some p)) {na nb : Int}
    (hn : ns.coerceRangeToNormalized r = some (na, nb)) {c d : Int} (h0 : 0 ≤ c) (hcd : c < d)
    (hd : d ≤ nb - na) :
    ∃ x y X Y, p.coerceRangeToOriginal (.normalized c d) = .ok (some (x, y))
      ∧ ns.coerceRangeToOriginal (.normalized (na + c) (na + d)) = .ok (some (X, Y))
      ∧ p.originalShift + x = ns.originalShift + X
      ∧ p.originalShift + y = ns.originalShift + Y := by
  obtain ⟨-, na', nb', oa, ob, als, hn', -, -, -, h3, h4, h5⟩ := slice_ok h
  rw [hn, Option.some.injEq, Prod.mk.injEq] at hn'
  obtain ⟨rfl, rfl⟩ := hn'
  have hlen := goSlice_length h3
  rw [goSlice_eq_ok] at h3
  obtain ⟨g0, g1, g2, rfl⟩ := h3
  have hpl : p.alignments.length = (nb - na).toNat := by rw [h4]; simp; omega
  obtain ⟨f, l, e1, e2, e3⟩ := coerceRangeToOriginal_normalized (ns := p) h0 hcd (by omega)
  obtain ⟨F, L, E1, E2, E3⟩ := coerceRangeToOriginal_normalized (ns := ns) (s := na + c) (e := na + d)
    (by omega) (by omega) (by omega)
  refine ⟨_, _, _, _, e3, E3, ?_, ?_⟩
  · rw [h4, List.getElem?_map, List.getElem?_take_of_lt (by omega), List.getElem?_drop] at e1
    have : na.toNat + c.toNat = (na + c).toNat := by omega
    rw [this, E1] at e1
    simp at e1
    rw [← e1, h5]; simp; omega
  · rw [h4, List.getElem?_map, List.getElem?_take_of_lt (by omega), List.getElem?_drop] at e2
    have : na.toNat + (d - 1).toNat = (na + d - 1).toNat := by omega
    rw [this, E2] at e2
    simp at e2
    rw [← e2, h5]; simp; omega

/-- What a non-empty `NormalizedRange` on rune boundaries slices to, on any well-formed state. -/
theorem slice_normalized {ns : NS} (hwf : WF ns) {a b : Int}
    (ha : isRuneBoundary ns.normalized a = true) (hb : isRuneBoundary ns.normalized b = true) (hab : a < b) :
    ∃ f l, ns.alignments[a.toNat]? = some f ∧ ns.alignments[(b - 1).toNat]? = some l
      ∧ 0 ≤ f.start ∧ f.start ≤ l.stop ∧ l.stop ≤ ns.original.length
      ∧ ns.coerceRangeToOriginal (.normalized a b) = .ok (some (f.start, l.stop))
      ∧ ns.slice (.normalized a b) = .ok (some
        ⟨(ns.original.drop f.start.toNat).take (l.stop - f.start).toNat,
          (ns.normalized.drop a.toNat).take (b - a).toNat,
          ((ns.alignments.drop a.toNat).take (b - a).toNat).map
            (fun al => ⟨al.start - f.start, al.stop - f.start⟩),
          ns.originalShift + f.start⟩) := by
  have hlen := hwf.len
  have ba := isRuneBoundary_bounds ha
  have bb := isRuneBoundary_bounds hb
  obtain ⟨f, l, e1, e2, e3⟩ := coerceRangeToOriginal_normalized (ns := ns) ba.1 hab (by rw [hlen]; exact bb.2)
  obtain ⟨k1, k2⟩ := List.getElem?_eq_some_iff.1 e1
  obtain ⟨k3, k4⟩ := List.getElem?_eq_some_iff.1 e2
  have hbf := hwf.bounds f (k2 ▸ List.getElem_mem k1)
  have hbl := hwf.bounds l (k4 ▸ List.getElem_mem k3)
  have r : AlignLE f l := by rw [← k2, ← k4]; exact hwf.getElem_le (by omega) k3
  have h1 := r.start_le hbf.2.1
  refine ⟨f, l, e1, e2, hbf.1, by omega, hbl.2.2, e3, ?_⟩
  apply slice_of (na := a) (nb := b) (ob := l.stop)
  · simp [NS.rangeIsValid, Rng.start, Rng.stop, ha, hb]
  · rfl
  · exact e3
  · exact goSlice_of hbf.1 (by omega) hbl.2.2
  · exact goSlice_of ba.1 (by omega) bb.2
  · exact goSlice_of ba.1 (by omega) (by rw [hlen]; exact bb.2)

/-- **C13.** On every reachable state and every non-empty `NormalizedRange` on rune
boundaries `Slice` succeeds, its text is the sub-text, its original is the original text the
range converts to, and any range of the slice converts to the same absolute original
offsets as the corresponding range of the parent. -/
theorem C13_slice {ns : NS} (hr : Reachable ns) {a b : Int} (ha : IsBoundary ns.normalized a)
    (hb : IsBoundary ns.normalized b) (hab : a < b) :
    ∃ p oa ob, ns.slice (.normalized a b) = .ok (some p)
      ∧ ns.coerceRangeToOriginal (.normalized a b) = .ok (some (oa, ob))
      ∧ p.get = (ns.get.drop a.toNat).take (b - a).toNat
      ∧ p.getOriginal = (ns.getOriginal.drop oa.toNat).take (ob - oa).toNat
      ∧ p.originalOffsets = ⟨ns.originalShift + oa, ns.originalShift + ob⟩
      ∧ ∀ c d, 0 ≤ c → c < d → d ≤ b - a →
        ∃ x y X Y, p.coerceRangeToOriginal (.normalized c d) = .ok (some (x, y))
          ∧ ns.coerceRangeToOriginal (.normalized (a + c) (a + d)) = .ok (some (X, Y))
          ∧ p.originalShift + x = ns.originalShift + X
          ∧ p.originalShift + y = ns.originalShift + Y := by
  obtain ⟨f, l, e1, e2, g0, g1, g2, e3, e4⟩ :=
    slice_normalized hr.wf (isRuneBoundary_of ha) (isRuneBoundary_of hb) hab
  refine ⟨_, _, _, e4, e3, rfl, rfl, ?_, ?_⟩
  · simp [NS.originalOffsets, NS.originalLen]; omega
  · intro c d h0 hcd hd
    exact C13_consistent e4 rfl h0 hcd hd

example : ∃ p, exConv.slice (.normalized 1 4) = .ok (some p) ∧ p.get = b!"éy" ∧ p.getOriginal = b!"b"
    ∧ p.originalOffsets = ⟨1, 2⟩ :=
  ⟨⟨b!"b", b!"éy", [⟨0, 1⟩, ⟨0, 1⟩, ⟨0, 1⟩], 1⟩, by decide +kernel⟩

/-- `Slice` with a non-empty `OriginalRange` on boundaries: the original is that sub-text,
the text is the part selected by `CoerceRangeToNormalized` (see C15). -/
theorem C13_slice_original {ns : NS} (hr : Reachable ns) {a b : Int}
    (ha : IsBoundary ns.original a) (hb : IsBoundary ns.original b) (hab : a < b) {s e : Int}
    (hc : ns.coerceRangeToNormalized (.original a b) = some (s, e)) :
    ∃ p, ns.slice (.original a b) = .ok (some p)
      ∧ p.getOriginal = (ns.getOriginal.drop a.toNat).take (b - a).toNat
      ∧ p.get = (ns.get.drop s.toNat).take (e - s).toNat
      ∧ p.originalOffsets = ⟨ns.originalShift + a, ns.originalShift + b⟩ := by
  have hwf := hr.wf
  obtain ⟨s0, s1, s2, -⟩ := (C15_original_to_normalized hr hab).2 s e hc
  have ba := ha.bounds
  have bb := hb.bounds
  have := slice_of (ns := ns) (r := .original a b) (oa := a) (ob := b)
    (by simp [NS.rangeIsValid, Rng.start, Rng.stop, isRuneBoundary_of ha, isRuneBoundary_of hb]) hc rfl
    (goSlice_of ba.1 (by omega) bb.2) (goSlice_of s0 s1 s2) (goSlice_of s0 s1 (by rw [hwf.len]; exact s2))
  refine ⟨_, this, rfl, rfl, ?_⟩
  simp [NS.originalOffsets, NS.originalLen]; omega

/-! ## C14 -/

/-- **C14 is false.** `CoerceRangeToOriginal` and `GetOriginalRange` panic on a
`NormalizedRange` beyond the text; `GetRange` and `Slice` panic on an empty range beyond the
*other* text ("abc" with everything filtered out; "a" followed by three inserted runes). -/
theorem C14_counterexample :
    (∃ ns, Reachable ns ∧ ns.coerceRangeToOriginal (.normalized 0 4) = .panic
      ∧ ns.getOriginalRange (.normalized 0 4) = .panic)
    ∧ (∃ ns, Reachable ns ∧ ns.getRange (.original 3 3) = .panic ∧ ns.slice (.original 3 3) = .panic)
    ∧ (∃ ns, Reachable ns ∧ ns.getOriginalRange (.normalized 4 4) = .panic
      ∧ ns.slice (.normalized 4 4) = .panic) := by
  refine ⟨⟨NS.fromString b!"abc", .of_ops (s := b!"abc") (ops := []) (by decide +kernel) rfl, by decide +kernel⟩,
    ⟨⟨b!"abc", [], [], 0⟩, .of_ops (s := b!"abc") (ops := [.filter fun _ => false]) (by decide +kernel) (by decide +kernel),
      by decide +kernel⟩,
    ⟨⟨b!"a", b!"axyz", [⟨0, 1⟩, ⟨0, 1⟩, ⟨0, 1⟩, ⟨0, 1⟩], 0⟩,
      .of_ops (s := b!"a") (ops := [.append b!"xyz"]) (by decide +kernel) (by decide +kernel), by decide +kernel⟩⟩

/-- Exactly when `CoerceRangeToOriginal` panics: a non-empty `NormalizedRange` that is not
inside the text. -/
theorem coerceRangeToOriginal_panic {ns : NS} (hwf : WF ns) {a b : Int} :
    ns.coerceRangeToOriginal (.normalized a b) = .panic ↔ a < b ∧ ¬ (0 ≤ a ∧ b ≤ ns.len) := by
  have hlen := hwf.len
  have hl : ns.len = ns.alignments.length := by rw [hlen]; rfl
  constructor
  · intro h
    apply Classical.byContradiction
    intro hn
    by_cases hab : a < b
    · obtain ⟨f, l, -, -, e⟩ := coerceRangeToOriginal_normalized (ns := ns) (s := a) (e := b)
        (by omega) hab (by omega)
      rw [e] at h; simp at h
    · simp only [NS.coerceRangeToOriginal] at h
      split at h
      · simp at h
      · rw [if_pos (by omega)] at h; simp at h
  · rintro ⟨hab, hn⟩
    simp only [NS.coerceRangeToOriginal]
    rw [if_neg (by omega), if_neg (by omega), if_neg (by omega)]
    have : goSlice ns.alignments a b = .panic := goSlice_eq_panic.2 (by omega)
    rw [this]; rfl

/-- **C14 (partial).** The parts that do hold on every reachable state:
1. a reversed range is always reported as a failure;
2. `CoerceRangeToOriginal` panics only for a non-empty `NormalizedRange` outside the text;
3. `GetRange` never panics on a non-empty `OriginalRange`, in range or not;
4. `Slice` never panics on a non-empty range of either kind, and reports failure when the
   range is outside the text it refers to.
Missing: the panics of `C14_counterexample` (`CoerceRangeToNormalized` cannot panic at all:
its model is a total function). -/
theorem C14_no_panic_partial {ns : NS} (hr : Reachable ns) {a b : Int} :
    (b < a → ns.coerceRangeToOriginal (.normalized a b) = .ok none
      ∧ ns.coerceRangeToNormalized (.original a b) = none
      ∧ ns.getRange (.original a b) = .ok none ∧ ns.getOriginalRange (.normalized a b) = .ok none)
    ∧ (ns.coerceRangeToOriginal (.normalized a b) = .panic ↔ a < b ∧ ¬ (0 ≤ a ∧ b ≤ ns.len))
    ∧ (a ≠ b → ns.getRange (.original a b) ≠ .panic)
    ∧ (a ≠ b → ns.slice (.normalized a b) ≠ .panic ∧ ns.slice (.original a b) ≠ .panic)
    ∧ (¬ (0 ≤ a ∧ b ≤ ns.len) → a ≠ b → ns.slice (.normalized a b) = .ok none)
    ∧ (¬ (0 ≤ a ∧ b ≤ ns.originalLen) → a ≠ b → ns.slice (.original a b) = .ok none) := by
  have hwf := hr.wf
  have hlen := hwf.len
  have hN : b < a → ns.coerceRangeToNormalized (.original a b) = none := by
    intro h
    simp only [NS.coerceRangeToNormalized]
    rw [if_neg (by omega), if_pos (by omega)]
  have hO : b < a → ns.coerceRangeToOriginal (.normalized a b) = .ok none := by
    intro h
    simp only [NS.coerceRangeToOriginal]
    rw [if_neg (by omega), if_pos (by omega)]
  refine ⟨fun h => ⟨hO h, hN h, ?_, ?_⟩, coerceRangeToOriginal_panic hwf, ?_, ?_, ?_, ?_⟩
  · simp [NS.getRange, hN h]
  · simp [NS.getOriginalRange, hO h]
  · intro hne
    by_cases hab : a < b
    · cases hc : ns.coerceRangeToNormalized (.original a b) with
      | none => simp [NS.getRange, hc]
      | some q =>
        obtain ⟨s, e⟩ := q
        obtain ⟨s0, s1, s2, -⟩ := (C15_original_to_normalized hr hab).2 s e hc
        simp [NS.getRange, hc, goSlice_of s0 s1 s2]
    · simp [NS.getRange, hN (by omega)]
  · intro hne
    constructor
    · by_cases hv : ns.rangeIsValid (.normalized a b) = true
      · simp only [NS.rangeIsValid, Rng.start, Rng.stop, Bool.and_eq_true] at hv
        by_cases hab : a < b
        · obtain ⟨f, l, -, -, -, -, -, -, e⟩ := slice_normalized hwf hv.1 hv.2 hab
          rw [e]; simp
        · unfold NS.slice
          split
          · simp
          · rw [hO (by omega)]; simp [NS.coerceRangeToNormalized]
      · simp [NS.slice, hv]
    · by_cases hv : ns.rangeIsValid (.original a b) = true
      · by_cases hab : a < b
        · cases hc : ns.coerceRangeToNormalized (.original a b) with
          | none => simp [NS.slice, hc]
          | some q =>
            obtain ⟨s, e⟩ := q
            obtain ⟨s0, s1, s2, -⟩ := (C15_original_to_normalized hr hab).2 s e hc
            have hv' := hv
            simp only [NS.rangeIsValid, Rng.start, Rng.stop, Bool.and_eq_true] at hv'
            have b1 := isRuneBoundary_bounds hv'.1
            have b2 := isRuneBoundary_bounds hv'.2
            rw [slice_of hv hc rfl (goSlice_of b1.1 (by omega) b2.2) (goSlice_of s0 s1 s2)
              (goSlice_of s0 s1 (by rw [hlen]; exact s2))]
            simp
        · simp [NS.slice, hN (by omega)]
      · simp [NS.slice, hv]
  · intro hout hne
    by_cases hv : ns.rangeIsValid (.normalized a b) = true
    · have hv' := hv
      simp only [NS.rangeIsValid, Rng.start, Rng.stop, Bool.and_eq_true] at hv'
      have b1 := isRuneBoundary_bounds hv'.1
      have b2 := isRuneBoundary_bounds hv'.2
      exact absurd ⟨b1.1, b2.2⟩ hout
    · simp [NS.slice, hv]
  · intro hout hne
    by_cases hv : ns.rangeIsValid (.original a b) = true
    · have hv' := hv
      simp only [NS.rangeIsValid, Rng.start, Rng.stop, Bool.and_eq_true] at hv'
      have b1 := isRuneBoundary_bounds hv'.1
      have b2 := isRuneBoundary_bounds hv'.2
      exact absurd ⟨b1.1, b2.2⟩ hout
    · simp [NS.slice, hv]

example : exConv.slice (.normalized 1 9) = .ok none ∧ exConv.slice (.original 2 9) = .ok none
    ∧ exConv.getRange (.original (-5) 9) = .ok (some b!"aéy") := by decide +kernel

end Verif
