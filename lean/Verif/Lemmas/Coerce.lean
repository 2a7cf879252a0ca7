import Verif.Lemmas.Chars

set_option autoImplicit false

namespace Verif

theorem AlignLE.refl (a : Align) : AlignLE a a := Or.inl rfl

theorem AlignLE.start_le {a b : Align} (h : AlignLE a b) (ha : a.start ≤ a.stop) : a.start ≤ b.start := by
  rcases h with rfl | h <;> omega

theorem AlignLE.stop_le {a b : Align} (h : AlignLE a b) (hb : b.start ≤ b.stop) : a.stop ≤ b.stop := by
  rcases h with rfl | h <;> omega

/-- The test by which the loop of `CoerceRangeToNormalized` sets `start`. -/
def startTest (rs : Int) (al : Align) : Bool := decide (rs ≤ al.start) && decide (al.start ≠ al.stop)

theorem coerceLoop_eq (rs re : Int) (als : List Align) (i start stop : Int) (hi : 0 ≤ i) :
    NS.coerceLoop rs re als i start stop =
      let pre := als.takeWhile fun al => decide (al.stop ≤ re)
      ((if start = -1 then
          match pre.findIdx? (startTest rs) with
          | some j => i + (j : Int)
          | none => -1
        else start),
       if pre = [] then stop else i + (pre.length : Int)) := by
  induction als generalizing i start stop with
  | nil => simp [NS.coerceLoop]
  | cons al rest ih =>
    simp only [NS.coerceLoop, List.takeWhile_cons]
    by_cases hc : al.stop ≤ re
    · rw [if_neg (by omega)]
      simp only [hc, decide_true, if_true]
      rw [ih _ _ _ (by omega)]
      simp only [List.findIdx?_cons]
      ext
      · simp only
        by_cases hs : start = -1
        · subst hs
          by_cases ht : startTest rs al = true
          · simp only [ht, if_true]
            simp only [startTest, Bool.and_eq_true, decide_eq_true_eq] at ht
            simp [ht.1, ht.2]
            omega
          · have : (if (-1 : Int) = -1 ∧ al.start ≥ rs then (if al.start ≠ al.stop then i else -1) else -1) = -1 := by
              split
              · split
                · exfalso; apply ht
                  simp only [startTest, Bool.and_eq_true, decide_eq_true_eq]
                  constructor <;> omega
                · rfl
              · rfl
            rw [this]
            simp only [ht, if_true]
            cases hf : (rest.takeWhile fun al => decide (al.stop ≤ re)).findIdx? (startTest rs) with
            | none => simp
            | some j => simp; show i + 1 + (j : Int) = i + ((j : Int) + 1); omega
        · simp [hs]
      · simp only
        by_cases hp : (rest.takeWhile fun al => decide (al.stop ≤ re)) = []
        · simp [hp]
        · simp only [hp, if_false]
          simp
          omega
    · rw [if_pos (by omega)]
      simp [hc]

/-- `CoerceRangeToNormalized` on a non-empty original range: the first wide alignment
starting in range, up to the last alignment before the first one ending after the range. -/
theorem coerceRangeToNormalized_original {ns : NS} {s e : Int} (h : s < e) :
    ns.coerceRangeToNormalized (.original s e) =
      let pre := ns.alignments.takeWhile fun al => decide (al.stop ≤ e)
      if pre = [] then none
      else match pre.findIdx? (startTest s) with
        | some j => some ((j : Int), (pre.length : Int))
        | none => some ((pre.length : Int), (pre.length : Int)) := by
  simp only [NS.coerceRangeToNormalized]
  rw [if_neg (by omega), if_neg (by omega), if_neg (by omega)]
  rw [coerceLoop_eq _ _ _ _ _ _ (by omega)]
  simp only [if_true, Int.zero_add]
  generalize (ns.alignments.takeWhile fun al => decide (al.stop ≤ e)) = pre
  by_cases hp : pre = []
  · simp [hp]
  · simp only [hp, if_false]
    cases hf : pre.findIdx? (startTest s) with
    | none => simp
    | some j => simp

theorem coerceRangeToNormalized_original_le {ns : NS} {s e a b : Int}
    (h : ns.coerceRangeToNormalized (.original s e) = some (a, b)) : s ≤ e := by
  simp only [NS.coerceRangeToNormalized] at h
  split at h
  · omega
  · split at h
    · simp at h
    · omega

/-- Everything a successful `Slice` computes. -/
theorem slice_ok {ns ns' : NS} {r : Rng} (h : ns.slice r = .ok (some ns')) :
    ns.rangeIsValid r = true ∧ ∃ na nb oa ob als,
      ns.coerceRangeToNormalized r = some (na, nb)
      ∧ ns.coerceRangeToOriginal r = .ok (some (oa, ob))
      ∧ goSlice ns.original oa ob = .ok ns'.original
      ∧ goSlice ns.normalized na nb = .ok ns'.normalized
      ∧ goSlice ns.alignments na nb = .ok als
      ∧ ns'.alignments = als.map (fun al => ⟨al.start - oa, al.stop - oa⟩)
      ∧ ns'.originalShift = ns.originalShift + oa := by
  unfold NS.slice at h
  split at h
  · simp at h
  · rename_i hv
    refine ⟨by simpa using hv, ?_⟩
    cases hn : ns.coerceRangeToNormalized r with
    | none => simp [hn] at h
    | some p =>
      obtain ⟨na, nb⟩ := p
      simp only [hn] at h
      rw [GoM.bind_eq_ok] at h
      obtain ⟨o, ho, h⟩ := h
      cases o with
      | none => simp at h
      | some q =>
        obtain ⟨oa, ob⟩ := q
        simp only [GoM.bind_eq_ok] at h
        obtain ⟨orig, h1, norm, h2, als, h3, h4⟩ := h
        simp only [NS.getOriginalRange, ho, GoM.bind_ok, GoM.bind_eq_ok] at h1
        obtain ⟨o1, h1a, h1b⟩ := h1
        simp only [NS.getRange, hn, GoM.bind_eq_ok] at h2
        obtain ⟨n1, h2a, h2b⟩ := h2
        simp at h1b h2b h4
        subst h1b h2b h4
        exact ⟨na, nb, oa, ob, als, rfl, ho, h1a, h2a, h3, rfl, rfl⟩

/-- `Slice` succeeds when every step of it does. -/
theorem slice_of {ns : NS} {r : Rng} {na nb oa ob : Int} {o n : Str} {als : List Align}
    (hv : ns.rangeIsValid r = true)
    (hn : ns.coerceRangeToNormalized r = some (na, nb))
    (ho : ns.coerceRangeToOriginal r = .ok (some (oa, ob)))
    (h1 : goSlice ns.original oa ob = .ok o)
    (h2 : goSlice ns.normalized na nb = .ok n)
    (h3 : goSlice ns.alignments na nb = .ok als) :
    ns.slice r = .ok (some ⟨o, n, als.map (fun al => ⟨al.start - oa, al.stop - oa⟩),
      ns.originalShift + oa⟩) := by
  simp [NS.slice, hv, hn, ho, NS.getOriginalRange, NS.getRange, h1, h2, h3]

/-- `CoerceRangeToOriginal` on a non-empty in-range normalized range. -/
theorem coerceRangeToOriginal_normalized {ns : NS} {s e : Int} (h0 : 0 ≤ s) (h1 : s < e)
    (h2 : e ≤ (ns.alignments.length : Int)) :
    ∃ f l, ns.alignments[s.toNat]? = some f ∧ ns.alignments[(e - 1).toNat]? = some l
      ∧ ns.coerceRangeToOriginal (.normalized s e) = .ok (some (f.start, l.stop)) := by
  have hs : s.toNat < ns.alignments.length := by omega
  have he : (e - 1).toNat < ns.alignments.length := by omega
  refine ⟨ns.alignments[s.toNat], ns.alignments[(e - 1).toNat], by simp [hs], by simp, ?_⟩
  simp only [NS.coerceRangeToOriginal]
  rw [if_neg (by omega), if_neg (by omega), if_neg (by omega), goSlice_of h0 (by omega) h2]
  simp only [GoM.bind_ok]
  obtain ⟨n, hn⟩ : ∃ n, (e - s).toNat = n + 1 := ⟨(e - s).toNat - 1, by omega⟩
  have hlen : ((ns.alignments.drop s.toNat).take (e - s).toNat).length = n + 1 := by
    simp; omega
  have g1 : goIndex ((ns.alignments.drop s.toNat).take (e - s).toNat) 0
      = .ok ns.alignments[s.toNat] := by
    apply goIndex_of_getElem? (by omega)
    simp [hn, hs]
  have g2 : goIndex ((ns.alignments.drop s.toNat).take (e - s).toNat)
      ((((ns.alignments.drop s.toNat).take (e - s).toNat).length : Int) - 1)
      = .ok ns.alignments[(e - 1).toNat] := by
    apply goIndex_of_getElem? (by rw [hlen]; omega)
    have e1 : (((((ns.alignments.drop s.toNat).take (e - s).toNat).length : Int)) - 1).toNat = n := by
      rw [hlen]; omega
    rw [e1, hn, List.getElem?_take_of_succ, List.getElem?_drop]
    have : s.toNat + n = (e - 1).toNat := by omega
    rw [this]; simp
  rw [g1, g2]; rfl

end Verif
