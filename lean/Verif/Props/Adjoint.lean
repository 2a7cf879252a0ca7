import Verif.Props.ConvertExact

/-! C110: the two conversions of ranges keep inclusion, and each is the best answer to the other. -/

set_option autoImplicit false

namespace Verif

/-- `(c,d)` lies in `(a,b)`. -/
def Within (i o : Int × Int) : Prop := o.1 ≤ i.1 ∧ i.2 ≤ o.2

instance (i o : Int × Int) : Decidable (Within i o) := by unfold Within; infer_instance

theorem toOriginal_cases {ns : NS} (hr : Reachable ns) {a b : Int} {o : Int × Int} (hab : a < b)
    (h : ns.coerceRangeToOriginal (.normalized a b) = .ok (some o)) :
    0 ≤ a ∧ b ≤ ns.len ∧ ∃ f l, ns.alignments[a.toNat]? = some f ∧ ns.alignments[(b - 1).toNat]? = some l ∧ o = (f.start, l.stop) := by
  by_cases hin : 0 ≤ a ∧ b ≤ ns.len
  · obtain ⟨f, l, h1, h2, h3⟩ := (C16_all hr a b).2.2.1 hab hin.1 hin.2
    rw [h] at h3
    simp only [GoM.ok.injEq, Option.some.injEq] at h3
    exact ⟨hin.1, hin.2, f, l, h1, h2, h3⟩
  · rw [(C16_all hr a b).2.2.2.1 hab hin] at h
    cases h

/-- Starts and ends of alignments are in order. -/
theorem aligns_mono {ns : NS} (hr : Reachable ns) {i j : Nat} {x y : Align} (hij : i ≤ j)
    (hx : ns.alignments[i]? = some x) (hy : ns.alignments[j]? = some y) : x.start ≤ y.start ∧ x.stop ≤ y.stop := by
  obtain ⟨h1, rfl⟩ := List.getElem?_eq_some_iff.1 hx
  obtain ⟨h2, rfl⟩ := List.getElem?_eq_some_iff.1 hy
  have r := hr.wf.getElem_le hij h2
  exact ⟨r.start_le (hr.wf.bounds _ (List.getElem_mem h1)).2.1, r.stop_le (hr.wf.bounds _ (List.getElem_mem h2)).2.1⟩

/-- **C110, to the original.** A range inside another stands for a range inside what the other stands for, and two neighbouring
ranges together stand for the range from the start of what the first stands for to the end of what the second stands for, these two
being in order. -/
theorem C110_to_original {ns : NS} (hr : Reachable ns) :
    (∀ {i o i' o' : Int × Int}, i.1 < i.2 → Within i o → ns.coerceRangeToOriginal (.normalized i.1 i.2) = .ok (some i') →
      ns.coerceRangeToOriginal (.normalized o.1 o.2) = .ok (some o') → Within i' o')
    ∧ ∀ {a b c : Int} {x y : Int × Int}, a < b → b < c → ns.coerceRangeToOriginal (.normalized a b) = .ok (some x) →
      ns.coerceRangeToOriginal (.normalized b c) = .ok (some y) →
      ns.coerceRangeToOriginal (.normalized a c) = .ok (some (x.1, y.2)) ∧ x.1 ≤ y.1 ∧ x.2 ≤ y.2 := by
  constructor
  · rintro ⟨c, d⟩ ⟨a, b⟩ i' o' hcd ⟨w1, w2⟩ h1 h2
    simp only at hcd w1 w2 h1 h2
    obtain ⟨-, -, f, l, e1, e2, rfl⟩ := toOriginal_cases hr hcd h1
    obtain ⟨k1, -, f', l', e3, e4, rfl⟩ := toOriginal_cases hr (by omega) h2
    exact ⟨(aligns_mono hr (by omega) e3 e1).1, (aligns_mono hr (by omega) e2 e4).2⟩
  · intro a b c x y hab hbc h1 h2
    obtain ⟨k1, k2, f, l, e1, e2, rfl⟩ := toOriginal_cases hr hab h1
    obtain ⟨k3, k4, f', l', e3, e4, rfl⟩ := toOriginal_cases hr hbc h2
    obtain ⟨f2, l2, g1, g2, g3⟩ := (C16_all hr a c).2.2.1 (by omega) k1 k4
    rw [e1, Option.some.injEq] at g1
    rw [e4, Option.some.injEq] at g2
    subst g1 g2
    exact ⟨g3, (aligns_mono hr (by omega) e1 e3).1, (aligns_mono hr (by omega) e2 e4).2⟩

/-- **C110, to the normalized text.** A range of the original inside another one stands for a range inside what the other stands for,
and neighbouring ranges stand for ranges that are in order and do not overlap. -/
theorem C110_to_normalized {ns : NS} (hr : Reachable ns) :
    (∀ {i o i' : Int × Int}, i.1 < i.2 → Within i o → ns.coerceRangeToNormalized (.original i.1 i.2) = some i' → i'.1 < i'.2 →
      ∃ o', ns.coerceRangeToNormalized (.original o.1 o.2) = some o' ∧ Within i' o')
    ∧ ∀ {a b c : Int} {x y : Int × Int}, a < b → b < c → ns.coerceRangeToNormalized (.original a b) = some x →
      ns.coerceRangeToNormalized (.original b c) = some y → x.1 < x.2 → y.1 < y.2 → x.2 ≤ y.1 := by
  constructor
  · rintro ⟨c, d⟩ ⟨a, b⟩ ⟨s', e'⟩ hcd ⟨w1, w2⟩ h hse
    simp only at hcd w1 w2 h hse ⊢
    have hab : a < b := by omega
    obtain ⟨s0, s1, s2, s3, s4, s5, s6⟩ := (C15_original_to_normalized hr hcd).2 s' e' h
    obtain ⟨al, g1, g2⟩ := s5 hse
    have g3 := s3 s'.toNat al g1 (by omega) (by omega)
    obtain ⟨k1, k2⟩ := C15_original_to_normalized hr hab
    cases hc : ns.coerceRangeToNormalized (.original a b) with
    | none => have := k1 hc _ _ g1; omega
    | some p =>
      obtain ⟨s, e⟩ := p
      obtain ⟨t0, t1, t2, t3, t4, t5, t6⟩ := k2 s e hc
      have q1 := t4 s'.toNat al g1 g2 (by omega) (by omega)
      refine ⟨_, rfl, by simp only; omega, ?_⟩
      simp only
      apply Classical.byContradiction
      intro hn
      have he : e.toNat < ns.alignments.length := by rw [hr.wf.len]; simp [NS.len] at s2; omega
      have u1 := t6 ns.alignments[e.toNat] (List.getElem?_eq_getElem he)
      have u2 := s3 e.toNat ns.alignments[e.toNat] (List.getElem?_eq_getElem he) (by omega) (by omega)
      omega
  · rintro a b c ⟨s, e⟩ ⟨s', e'⟩ hab hbc h1 h2 hse hse'
    simp only at hse hse' ⊢
    obtain ⟨s0, s1, s2, s3, s4, s5, s6⟩ := (C15_original_to_normalized hr hab).2 s e h1
    obtain ⟨t0, t1, t2, t3, t4, t5, t6⟩ := (C15_original_to_normalized hr hbc).2 s' e' h2
    obtain ⟨al, g1, g2⟩ := t5 hse'
    have g3 := t3 s'.toNat al g1 (by omega) (by omega)
    apply Classical.byContradiction
    intro hn
    have he : (e - 1).toNat < ns.alignments.length := by rw [hr.wf.len]; simp [NS.len] at s2; omega
    have u1 := s3 (e - 1).toNat ns.alignments[(e - 1).toNat] (List.getElem?_eq_getElem he) (by omega) (by omega)
    have u2 := (aligns_mono hr (i := s'.toNat) (j := (e - 1).toNat) (by omega) g1 (List.getElem?_eq_getElem he)).2
    omega

/-- **C110, the two together.** A non-empty range `(c,d)` of the normalized text whose first byte stands for something stands for a range
inside `(a,b)` exactly if it lies in the range that `(a,b)` stands for. -/
theorem C110_adjoint {ns : NS} (hr : Reachable ns) {a b c d : Int} {x : Int × Int} (hab : a < b) (hcd : c < d)
    (hx : ns.coerceRangeToOriginal (.normalized c d) = .ok (some x))
    (hf : ∀ f, ns.alignments[c.toNat]? = some f → f.start < f.stop) :
    Within x (a, b) ↔ ∃ y, ns.coerceRangeToNormalized (.original a b) = some y ∧ Within (c, d) y := by
  obtain ⟨k1, k2, f, l, e1, e2, rfl⟩ := toOriginal_cases hr hcd hx
  obtain ⟨j1, j2⟩ := C15_original_to_normalized hr hab
  have hfl := aligns_mono hr (i := c.toNat) (j := (d - 1).toNat) (by omega) e1 e2
  have hf := hf f e1
  simp only [Within]
  constructor
  · rintro ⟨w1, w2⟩
    cases hc : ns.coerceRangeToNormalized (.original a b) with
    | none => have := j1 hc _ _ e1; omega
    | some p =>
      obtain ⟨s, e⟩ := p
      obtain ⟨t0, t1, t2, t3, t4, t5, t6⟩ := j2 s e hc
      have q1 := t4 c.toNat f e1 hf (by omega) (by omega)
      refine ⟨_, rfl, by simp only; omega, ?_⟩
      simp only
      apply Classical.byContradiction
      intro hn
      have he : e.toNat < ns.alignments.length := by rw [hr.wf.len]; simp [NS.len] at k2; omega
      have u1 := t6 ns.alignments[e.toNat] (List.getElem?_eq_getElem he)
      have u2 := (aligns_mono hr (i := e.toNat) (j := (d - 1).toNat) (by omega) (List.getElem?_eq_getElem he) e2).2
      omega
  · rintro ⟨⟨s, e⟩, hc, w1, w2⟩
    simp only at w1 w2
    obtain ⟨t0, t1, t2, t3, t4, t5, t6⟩ := j2 s e hc
    have q1 := t3 c.toNat f e1 (by omega) (by omega)
    have q2 := t3 (d - 1).toNat l e2 (by omega) (by omega)
    omega

/-- **C110, back and forth.** What a range of the original stands for, if anything, stands for a part of the range; and converting this
part gives the same again. -/
theorem C110_back {ns : NS} (hr : Reachable ns) {a b : Int} {y : Int × Int} (hab : a < b)
    (h : ns.coerceRangeToNormalized (.original a b) = some y) (hy : y.1 < y.2) :
    ∃ x, ns.coerceRangeToOriginal (.normalized y.1 y.2) = .ok (some x) ∧ Within x (a, b) ∧ x.1 < x.2
      ∧ ns.coerceRangeToNormalized (.original x.1 x.2) = some y := by
  obtain ⟨s, e⟩ := y
  simp only at hy ⊢
  obtain ⟨s0, s1, s2, s3, s4, s5, s6⟩ := (C15_original_to_normalized hr hab).2 s e h
  obtain ⟨f, l, e1, e2, e3⟩ := (C16_all hr s e).2.2.1 hy s0 s2
  obtain ⟨f', g1, g2⟩ := s5 hy
  rw [e1, Option.some.injEq] at g1; subst g1
  have hfl := aligns_mono hr (i := s.toNat) (j := (e - 1).toNat) (by omega) e1 e2
  have q1 := s3 s.toNat f e1 (by omega) (by omega)
  have q2 := s3 (e - 1).toNat l e2 (by omega) (by omega)
  refine ⟨_, e3, ⟨by simp only; omega, by simp only; omega⟩, by simp only; omega, ?_⟩
  simp only
  have hw : Within (f.start, l.stop) (f.start, l.stop) := ⟨by simp, by simp⟩
  obtain ⟨⟨s', e'⟩, h1, w1, w2⟩ := (C110_adjoint hr (a := f.start) (b := l.stop) (by omega) hy e3 (by
    intro f' hf'; rw [e1, Option.some.injEq] at hf'; subst hf'; exact g2)).1 hw
  simp only at w1 w2
  obtain ⟨p, h2, w3, w4⟩ := (C110_to_normalized hr).1 (i := (f.start, l.stop)) (o := (a, b)) (i' := (s', e')) (by simp only; omega)
    ⟨by simp only; omega, by simp only; omega⟩ h1 (by simp only; omega)
  simp only at h2
  rw [h, Option.some.injEq] at h2
  subst h2
  simp only at w3 w4
  rw [h1]
  congr 2 <;> omega

/-- "abc" where 'b' became "éy" and 'c' was dropped: the byte range (1,2) of the text lies in (1,4), which (1,3) stands for, and
stands for (1,2), which lies in (1,3); (1,3) is not all needed. -/
example : exConv.coerceRangeToOriginal (.normalized 1 2) = .ok (some (1, 2))
    ∧ exConv.coerceRangeToNormalized (.original 1 3) = some (1, 4)
    ∧ exConv.coerceRangeToOriginal (.normalized 1 4) = .ok (some (1, 2))
    ∧ exConv.coerceRangeToNormalized (.original 0 1) = some (0, 1) := by decide +kernel

example : Within (1, 2) (1, 3) ↔ ∃ y, exConv.coerceRangeToNormalized (.original 1 3) = some y ∧ Within (1, 2) y :=
  C110_adjoint exConv_reachable (by omega) (by omega) (by decide +kernel) (by decide +kernel)

/-- A text with something inserted in front, which stands for nothing. -/
def inserted : NS := ⟨b!"b", b!"ab", [⟨0, 0⟩, ⟨0, 1⟩], 0⟩

theorem inserted_reachable : Reachable inserted :=
  .of_ops (s := b!"b") (ops := [.transform [⟨u!"a", 1⟩, ⟨u!"b", 0⟩] 0]) (by decide +kernel) (by decide +kernel)

/-- **C110, why the first byte must stand for something.** -/
theorem C110_counterexample : ¬ ∀ (ns : NS), Reachable ns → ∀ (a b c d : Int) (x : Int × Int), a < b → c < d →
    ns.coerceRangeToOriginal (.normalized c d) = .ok (some x) →
    (Within x (a, b) ↔ ∃ y, ns.coerceRangeToNormalized (.original a b) = some y ∧ Within (c, d) y) := by
  intro h
  have := (h inserted inserted_reachable 0 1 0 2 (0, 1) (by omega) (by omega) (by decide +kernel)).1 (by decide)
  obtain ⟨y, h1, h2⟩ := this
  have e : inserted.coerceRangeToNormalized (.original 0 1) = some (1, 2) := by decide +kernel
  rw [e, Option.some.injEq] at h1
  subst h1
  revert h2
  decide

end Verif
