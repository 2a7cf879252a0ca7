import Verif.Props.Slice
import Verif.Model.Notation

/-!
Properties C15 and C16, on all ranges: what the two conversions return for empty, reversed
and out-of-range arguments, and the exact bounds of a converted normalized range.
-/

set_option autoImplicit false

namespace Verif

/-- **C16, all normalized ranges.** An empty range is returned as it is, also for an empty text
(the special case for that in the code is never reached); a reversed one is refused; a
non-empty one inside the text goes from the start of its first byte's alignment to the end of
its last byte's; any other panics. -/
theorem C16_all {ns : NS} (hr : Reachable ns) (a b : Int) :
    (a = b → ns.coerceRangeToOriginal (.normalized a b) = .ok (some (a, b)))
    ∧ (b < a → ns.coerceRangeToOriginal (.normalized a b) = .ok none)
    ∧ (a < b → 0 ≤ a → b ≤ ns.len → ∃ f l, ns.alignments[a.toNat]? = some f ∧ ns.alignments[(b - 1).toNat]? = some l
        ∧ ns.coerceRangeToOriginal (.normalized a b) = .ok (some (f.start, l.stop)))
    ∧ (a < b → ¬(0 ≤ a ∧ b ≤ ns.len) → ns.coerceRangeToOriginal (.normalized a b) = .panic)
    ∧ ns.coerceRangeToOriginal (.original a b) = .ok (some (a, b)) := by
  have hl : ns.len = ns.alignments.length := by rw [hr.wf.len]; rfl
  refine ⟨?_, ?_, ?_, ?_, rfl⟩
  · rintro rfl
    simp [NS.coerceRangeToOriginal]
  · intro h
    simp only [NS.coerceRangeToOriginal]
    rw [if_neg (by omega), if_pos (by omega)]
  · intro h h0 h1
    obtain ⟨f, l, e1, e2, e3⟩ := coerceRangeToOriginal_normalized (ns := ns) h0 h (by omega)
    exact ⟨f, l, e1, e2, e3⟩
  · intro h h1
    exact (coerceRangeToOriginal_panic hr.wf).2 ⟨h, h1⟩

/-- **C15, empty and reversed original ranges**, and normalized ones. -/
theorem C15_all {ns : NS} (a b : Int) :
    (a = b → ns.coerceRangeToNormalized (.original a b) = some (a, b))
    ∧ (b < a → ns.coerceRangeToNormalized (.original a b) = none)
    ∧ ns.coerceRangeToNormalized (.normalized a b) = some (a, b) := by
  refine ⟨?_, ?_, rfl⟩
  · rintro rfl
    simp [NS.coerceRangeToNormalized]
  · intro h
    simp only [NS.coerceRangeToNormalized]
    rw [if_neg (by omega), if_pos (by omega)]

/-- The first byte of a converted original range is the first byte that stands for something
at or after the start of the range. -/
theorem C15_first {ns : NS} (hr : Reachable ns) {a b s e : Int} (hab : a < b)
    (h : ns.coerceRangeToNormalized (.original a b) = some (s, e)) (hse : s < e) :
    ∃ al, ns.alignments[s.toNat]? = some al ∧ al.start < al.stop ∧ a ≤ al.start ∧ al.stop ≤ b
      ∧ ∀ (i : Nat) (al' : Align), ns.alignments[i]? = some al' → (i : Int) < s → al'.start < al'.stop → al'.start < a := by
  obtain ⟨h0, h1, h2, h3, h4, h5, h6⟩ := (C15_original_to_normalized hr hab).2 s e h
  obtain ⟨al, g1, g2⟩ := h5 hse
  have g3 := h3 s.toNat al g1 (by omega) (by omega)
  refine ⟨al, g1, g2, g3.1, g3.2, ?_⟩
  intro i al' hi his hw
  apply Classical.byContradiction
  intro hn
  have hlt : al'.stop ≤ b := by
    obtain ⟨p1, p2⟩ := List.getElem?_eq_some_iff.1 hi
    obtain ⟨q1, q2⟩ := List.getElem?_eq_some_iff.1 g1
    have hb := hr.wf.bounds al (q2 ▸ List.getElem_mem q1)
    have r1 : AlignLE al' al := by rw [← p2, ← q2]; exact hr.wf.getElem_le (by omega) q1
    have := r1.stop_le hb.2.1
    omega
  have := h4 i al' hi hw (by omega) hlt
  omega

/-! ## C69 -/

/-- **C69 is false of the code**: the empty range comes back as it is, because the test for
empty ranges precedes the one that would expand it. -/
theorem C69_counterexample :
    ¬ ∀ ns : NS, Reachable ns → ns.normalized = [] →
      ns.coerceRangeToOriginal (.normalized 0 0) = .ok (some (0, ns.originalLen)) := by
  intro h
  have := h ⟨b!"abc", [], [], 0⟩ (.of_ops (s := b!"abc") (ops := [.filter fun _ => false]) (by decide +kernel) (by decide +kernel)) rfl
  revert this
  decide +kernel

/-- **C69, exactly.** The expansion takes place iff there is nothing to expand to. -/
theorem C69_exact (ns : NS) :
    (ns.coerceRangeToOriginal (.normalized 0 0) = .ok (some (0, ns.originalLen)) ↔ ns.original = [])
    ∧ (ns.coerceRangeToNormalized (.original 0 0) = some (0, ns.len) ↔ ns.normalized = []) := by
  have h1 : ns.coerceRangeToOriginal (.normalized 0 0) = .ok (some (0, 0)) := by simp [NS.coerceRangeToOriginal]
  have h2 : ns.coerceRangeToNormalized (.original 0 0) = some (0, 0) := by simp [NS.coerceRangeToNormalized]
  rw [h1, h2]
  constructor
  · simp only [NS.originalLen, GoM.ok.injEq, Option.some.injEq, Prod.mk.injEq, true_and]
    rw [← List.length_eq_zero_iff]; omega
  · simp only [NS.len, Option.some.injEq, Prod.mk.injEq, true_and]
    rw [← List.length_eq_zero_iff]; omega

example : ∃ ns, Reachable ns ∧ ns.normalized = [] ∧ ns.coerceRangeToOriginal (.normalized 0 0) = .ok (some (0, 0)) :=
  ⟨⟨b!"abc", [], [], 0⟩, (.of_ops (s := b!"abc") (ops := [.filter fun _ => false]) (by decide +kernel) (by decide +kernel)), rfl, by decide +kernel⟩

end Verif
