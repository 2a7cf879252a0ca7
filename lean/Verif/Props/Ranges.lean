import Verif.Props.History
import Verif.Model.Notation

/-! C02 and C03 with direct calls of `TransformRange` in the history. -/

set_option autoImplicit false

namespace Verif

/-- So it is when the part of the range behind the initial offset is valid text. -/
theorem staysInside_of_valid {ns : NS} {r : Rng} {io : Int}
    (h : ∀ a b tail, ns.coerceRangeToNormalized r = some (a, b) → goSlice ns.normalized (a + io) b = .ok tail → ValidUtf8 tail)
    (dest : List RuneChange) : StaysInside ns r dest io := by
  intro a b tail h1 h2
  obtain ⟨rs, hv, e⟩ := h a b tail h1 h2
  rw [← e, runesOf_encodeRunes _ hv]
  conv => rhs; rw [← List.take_append_drop (consumed dest) rs, encodeRunes_append, List.length_append]
  omega

/-- **C02, TransformRange.** -/
theorem C02_transformRange {ns ns' : NS} (hwf : WF ns) {r : Rng} {dest : List RuneChange} {io : Int}
    (hin : StaysInside ns r dest io) (h : ns.transformRange r dest io = .ok ns') : WF ns' := by
  unfold NS.transformRange at h
  split at h
  · simp at h; subst h; exact hwf
  · next a b hc =>
    refine (transformNormalized_wf hwf h (Or.inr fun tail ht => ?_)).1
    have := hin a b tail hc ht
    have hl := goSlice_length ht
    omega

/-- **C02 and C03, histories with TransformRange.** -/
theorem C02_ranges {s : Str} (hs : ValidUtf8 s) {ns : NS} (h : RangeHistory (NS.fromString s) ns) :
    WF ns ∧ goSlice s ns.originalOffsets.start ns.originalOffsets.stop = .ok ns.getOriginal := by
  have key : ∀ n m, RangeHistory n m → n = NS.fromString s → WF m ∧ PartOf s m := by
    intro n m hh
    induction hh with
    | none => rintro rfl; exact ⟨fromString_wf hs, partOf_fromString s⟩
    | call _ hr ih => intro e; exact ⟨Op.run_wf (ih e).1 hr, Op.run_partOf (ih e).2 hr⟩
    | range _ hi hr ih =>
      intro e
      obtain ⟨k1, k2⟩ := transformRange_keeps hr
      refine ⟨C02_transformRange (ih e).1 hi hr, ?_⟩
      have := (ih e).2
      unfold PartOf at *
      rw [k1, k2]; exact this
  obtain ⟨h1, pre, post, e1, e2⟩ := key _ _ h rfl
  refine ⟨h1, ?_⟩
  conv => lhs; arg 1; rw [e1]
  exact goSlice_mid _ _ _ e2 (by simp [NS.originalOffsets, NS.originalLen, e2])

theorem rangeHistory_of_ops {ns₀ ns : NS} {ops : List Op} (h : runOps ns₀ ops = .ok ns) : RangeHistory ns₀ ns :=
  goFor_inv (P := RangeHistory ns₀) ops ns₀ ns _ .none (fun _ _ _ _ hs hx => .call hs hx) h

theorem Reachable.of_ops {s : Str} {ops : List Op} {ns : NS} (hs : ValidUtf8 s) (h : runOps (NS.fromString s) ops = .ok ns) :
    Reachable ns := ⟨s, hs, rangeHistory_of_ops h⟩

theorem Reachable.wf {ns : NS} (h : Reachable ns) : WF ns := by
  obtain ⟨s, hs, hr⟩ := h
  exact (C02_ranges hs hr).1

/-- Without the condition the order can be lost: the range ends inside `é`, its one byte is read as U+FFFD, and the
inserted rune is aligned to a byte behind the range. -/
theorem C02_range_counterexample :
    (NS.fromString b!"éa").transformRange (.normalized 0 1) [⟨u!"x", 0⟩, ⟨u!"y", 1⟩] 0
      = .ok ⟨b!"éa", b!"xy" ++ [0xA9, 0x61], [⟨0, 2⟩, ⟨2, 3⟩, ⟨0, 2⟩, ⟨2, 3⟩], 0⟩
    ∧ ¬ WF ⟨b!"éa", b!"xy" ++ [0xA9, 0x61], [⟨0, 2⟩, ⟨2, 3⟩, ⟨0, 2⟩, ⟨2, 3⟩], 0⟩ := by
  refine ⟨by decide +kernel, fun h => ?_⟩
  have := h.ordered
  simp [AlignLE] at this

/-- A history with a direct call. -/
example : RangeHistory (NS.fromString b!"aéb") ⟨b!"aéb", b!"axyb", [⟨0, 1⟩, ⟨1, 3⟩, ⟨1, 3⟩, ⟨3, 4⟩], 0⟩ :=
  .range (r := .original 1 3) (dest := [⟨u!"x", 0⟩, ⟨u!"y", 1⟩]) (io := 0) .none
    (staysInside_of_valid (by
      intro a b tail h1 h2
      have : (NS.fromString b!"aéb").coerceRangeToNormalized (.original 1 3) = some (1, 3) := by decide +kernel
      rw [this] at h1
      obtain ⟨rfl, rfl⟩ := by simpa using h1
      have : goSlice (NS.fromString b!"aéb").normalized (1 + 0) 3 = .ok b!"é" := by decide +kernel
      rw [this] at h2
      cases h2
      exact ⟨[u!"é"], by simp [ValidRune], by decide +kernel⟩) _)
    (by decide +kernel)

end Verif
