import Verif.Props.TransformAnyState

/-! `Replace` in any state whatever, exactly (C141). -/

set_option autoImplicit false

namespace Verif

/-! ## Specification -/

/-- A place that a capture gives, moved; not before the front. -/
def movedPlace (x off : Int) : Int := if x + off < 0 then 0 else x + off

/-- The alignment that the new runes get: (0,0) for an empty part at the front; otherwise the one before the byte which is as many bytes
behind the start as the part has runes. -/
def newAlign (ns : NS) (a b : Int) : Align :=
  if b = 0 then ⟨0, 0⟩ else ns.alignments.getD ((a + (runesOf (sub ns.normalized a b)).length) - 1).toNat ⟨0, 0⟩

/-- The bytes from `a` to `b` replaced by `content` (U+FFFD for its bad bytes). -/
def withContent (ns : NS) (content : Str) (a b : Int) : NS :=
  { ns with
    normalized := ns.normalized.take a.toNat ++ encodeRunes (runesOf content) ++ ns.normalized.drop b.toNat
    alignments := ns.alignments.take a.toNat
      ++ List.replicate (encodeRunes (runesOf content)).length (newAlign ns a b) ++ ns.alignments.drop b.toNat }

/-- The matches replaced one after the other; each moves the ones behind it by the length of `content` less its own. -/
inductive Replacing (content : Str) : NS → Int → List Capture → NS → Prop
  | done (ns : NS) (off : Int) : Replacing content ns off [] ns
  | skip {ns ns' : NS} {off : Int} {c : Capture} {cs : List Capture} :
      c.isMatch = false → Replacing content ns off cs ns' → Replacing content ns off (c :: cs) ns'
  | put {ns ns' : NS} {off : Int} {c : Capture} {cs : List Capture} : c.isMatch = true →
      FitsIn ns.normalized (movedPlace c.offsets.start off) (movedPlace c.offsets.stop off) →
      movedPlace c.offsets.stop off ≤ (ns.alignments.length : Int) →
      Replacing content (withContent ns content (movedPlace c.offsets.start off) (movedPlace c.offsets.stop off))
        (off + (content.length - (c.offsets.stop - c.offsets.start))) cs ns' →
      Replacing content ns off (c :: cs) ns'

/-! ## Proofs -/

theorem placeOf_added (rs : List Rune) (p : Int) (new : List Rune) (k : Nat) : placeOf rs p (new.map fun r => ⟨r, 1⟩) k = p := by
  have : consumed ((new.map fun r => (⟨r, 1⟩ : RuneChange)).take k) = 0 := by
    rw [← List.map_take, consumed_ones]
  simp [placeOf, this, encodeRunes]

theorem replaceStep_any (ns : NS) (content : Str) (off : Int) (c : Capture) (hc : c.isMatch = true) :
    (FitsIn ns.normalized (movedPlace c.offsets.start off) (movedPlace c.offsets.stop off) ∧
      movedPlace c.offsets.stop off ≤ (ns.alignments.length : Int) →
      NS.replaceStep content (ns, off) c = .ok
        (withContent ns content (movedPlace c.offsets.start off) (movedPlace c.offsets.stop off),
          off + (content.length - (c.offsets.stop - c.offsets.start))))
    ∧ (¬ (FitsIn ns.normalized (movedPlace c.offsets.start off) (movedPlace c.offsets.stop off) ∧
      movedPlace c.offsets.stop off ≤ (ns.alignments.length : Int)) → NS.replaceStep content (ns, off) c = .panic) := by
  have hdef : NS.replaceStep content (ns, off) c = (goSlice ns.normalized (movedPlace c.offsets.start off) (movedPlace c.offsets.stop off)).bind
      fun seg => (ns.transformRange (.normalized (movedPlace c.offsets.start off) (movedPlace c.offsets.stop off))
        ((runesOf content).map fun r => ⟨r, 1⟩) (runesOf seg).length).bind fun ns' =>
          .ok (ns', off + ((content.length : Int) - (c.offsets.stop - c.offsets.start))) := by
    unfold NS.replaceStep
    simp only [hc, Bool.not_true, Bool.false_eq_true, if_false]
    rfl
  rw [hdef]
  generalize movedPlace c.offsets.start off = a
  generalize movedPlace c.offsets.stop off = b
  obtain ⟨t1, t2⟩ := C138_exact ns a b ((runesOf content).map fun r => ⟨r, 1⟩) (runesOf (sub ns.normalized a b)).length
  by_cases hf : FitsIn ns.normalized a b
  · rw [show goSlice ns.normalized a b = .ok (sub ns.normalized a b) from goSlice_eq_ok.2 ⟨hf, rfl⟩]
    simp only [GoM.bind]
    obtain ⟨f1, f2, f3⟩ := hf
    have hlen : (sub ns.normalized a b).length = (b - a).toNat := by
      simp only [sub, List.length_take, List.length_drop]; omega
    have hle := runesOf_length_le (sub ns.normalized a b)
    constructor
    · rintro ⟨-, hb⟩
      have hq : ∀ rc ∈ (runesOf content).map (fun r => (⟨r, 1⟩ : RuneChange)),
          alignFor ns.alignments rc (a + (runesOf (sub ns.normalized a b)).length) = some (newAlign ns a b) := by
        intro rc hrc
        obtain ⟨r, -, rfl⟩ := List.mem_map.1 hrc
        simp only [alignFor, newAlign, Int.le_refl, if_true]
        by_cases h0 : b = 0
        · have : sub ns.normalized a b = [] := List.eq_nil_of_length_eq_zero (by omega)
          rw [if_pos h0, this, if_pos (by simp [runesOf, rangeStr, rangeAux]; omega)]
        · have h1 : ¬ a + ((runesOf (sub ns.normalized a b)).length : Int) < 1 := by
            by_cases ha : a = 0
            · have : sub ns.normalized a b ≠ [] := by
                intro h
                rw [h] at hlen
                simp at hlen
                omega
              have := List.length_pos_iff.2 fun h => this (runesOf_eq_nil.1 h)
              omega
            · omega
          rw [if_neg h0, if_neg h1, List.getD_eq_getElem?_getD, List.getElem?_eq_getElem (by omega), Option.getD_some]
      rw [t1 (List.replicate (runesOf content).length (newAlign ns a b))]
      · simp only [changed, withContent, GoM.ok.injEq, Prod.mk.injEq, and_true]
        congr 1
        · rw [List.map_map]
          congr 2
          simp [Function.comp_def]
        · congr 2
          generalize runesOf content = rs
          generalize newAlign ns a b = q
          induction rs with
          | nil => simp [encodeRunes]
          | cons r rs ih =>
            rw [List.length_cons, List.replicate_succ, List.map_cons, List.zip_cons_cons, List.flatMap_cons, ih]
            simp [encodeRunes, List.replicate_append_replicate]
      · refine ⟨⟨f1, f2, f3⟩, ⟨by omega, by omega⟩, hb, ?_, by simp, ?_⟩
        · rw [consumed_ones]; exact Nat.zero_le _
        · intro k rc hk
          rw [placeOf_added, hq rc (List.mem_of_getElem? hk), List.getElem?_eq_getElem]
          · rw [List.getElem_replicate]
          · have := (List.getElem?_eq_some_iff.1 hk).1
            simpa using this
    · intro hn
      rw [t2]
      rintro ⟨ps, hp⟩
      exact hn ⟨⟨f1, f2, f3⟩, hp.behind⟩
  · refine ⟨fun h => absurd h.1 hf, fun _ => ?_⟩
    rw [show goSlice ns.normalized a b = .panic from goSlice_eq_panic.2 hf]
    rfl

theorem replaceLoop_any (content : Str) : ∀ (caps : List Capture) (ns : NS) (off : Int),
    (∀ ns', Replacing content ns off caps ns' → ∃ off', goFor caps (ns, off) (NS.replaceStep content) = .ok (ns', off'))
    ∧ ((¬ ∃ ns', Replacing content ns off caps ns') → goFor caps (ns, off) (NS.replaceStep content) = .panic) := by
  intro caps
  induction caps with
  | nil =>
    intro ns off
    refine ⟨?_, fun h => absurd ⟨ns, .done ns off⟩ h⟩
    intro ns' h
    cases h
    exact ⟨off, rfl⟩
  | cons c caps ih =>
    intro ns off
    rw [goFor_cons]
    by_cases hc : c.isMatch = true
    · obtain ⟨s1, s2⟩ := replaceStep_any ns content off c hc
      constructor
      · intro ns' h
        cases h with
        | skip h1 => rw [hc] at h1; cases h1
        | put _ h1 h2 h3 =>
          rw [s1 ⟨h1, h2⟩]
          exact (ih _ _).1 ns' h3
      · intro h
        by_cases hx : FitsIn ns.normalized (movedPlace c.offsets.start off) (movedPlace c.offsets.stop off) ∧
            movedPlace c.offsets.stop off ≤ (ns.alignments.length : Int)
        · rw [s1 hx]
          exact (ih _ _).2 fun ⟨ns', hn⟩ => h ⟨ns', .put hc hx.1 hx.2 hn⟩
        · rw [s2 hx]; rfl
    · have hc' : c.isMatch = false := by simpa using hc
      have hs : NS.replaceStep content (ns, off) c = .ok (ns, off) := by simp [NS.replaceStep, hc']
      rw [hs]
      constructor
      · intro ns' h
        cases h with
        | skip _ h1 => exact (ih _ _).1 ns' h1
        | put h1 => exact absurd h1 hc
      · intro h
        exact (ih _ _).2 fun ⟨ns', hn⟩ => h ⟨ns', .skip hc' hn⟩

/-- **C141.** `Replace` in any state, with any pattern whatever captures it gives and any content. -/
theorem C141_exact (ns : NS) (pattern : SplitPattern) (content : Str) :
    (∀ caps, pattern ns.normalized = .ok (.ok caps) →
      (∀ ns', Replacing content ns 0 caps ns' → ns.replace pattern content = .ok (.ok ns'))
      ∧ ((¬ ∃ ns', Replacing content ns 0 caps ns') → ns.replace pattern content = .panic))
    ∧ (∀ e, pattern ns.normalized = .ok (.error e) → ns.replace pattern content = .ok (.error e))
    ∧ (pattern ns.normalized = .panic → ns.replace pattern content = .panic) := by
  refine ⟨?_, ?_, ?_⟩
  · intro caps hp
    obtain ⟨h1, h2⟩ := replaceLoop_any content caps ns 0
    constructor
    · intro ns' h
      obtain ⟨off', h'⟩ := h1 ns' h
      simp [NS.replace, hp, h']
    · intro h
      simp [NS.replace, hp, h2 h]
  · intro e hp
    simp [NS.replace, hp]
  · intro hp
    simp [NS.replace, hp]

/-- **C141, one match.** It works in any state with an alignment for every byte up to its end. -/
theorem C141_single (ns : NS) {pattern : SplitPattern} {c : Capture} (content : Str) (hc : c.isMatch = true)
    (hp : pattern ns.normalized = .ok (.ok [c])) (hf : FitsIn ns.normalized c.offsets.start c.offsets.stop) :
    ns.replace pattern content = if c.offsets.stop ≤ (ns.alignments.length : Int)
      then .ok (.ok (withContent ns content c.offsets.start c.offsets.stop)) else .panic := by
  obtain ⟨h1, h2⟩ := (C141_exact ns pattern content).1 [c] hp
  have e1 : movedPlace c.offsets.start 0 = c.offsets.start := by
    have := hf.1; simp only [movedPlace]; split <;> omega
  have e2 : movedPlace c.offsets.stop 0 = c.offsets.stop := by
    have := hf.1; have := hf.2.1; simp only [movedPlace]; split <;> omega
  split
  · rename_i hb
    refine h1 _ (.put hc (by rw [e1, e2]; exact hf) (by rw [e2]; exact hb) ?_)
    rw [e1, e2]
    exact .done _ _
  · rename_i hb
    refine h2 fun ⟨ns', hn⟩ => ?_
    cases hn with
    | skip h => rw [hc] at h; cases h
    | put _ _ h => rw [e2] at h; exact hb h

/-! ## Concrete -/

/-- Two letters replaced by a bad byte: the new text is two bytes longer than `Replace` counts, so the second replacement hits the last
byte of the first. Without an alignment it panics; captures before the front are put at the front. -/
theorem C141_example :
    (NS.fromString b!"aXbX").replace (fun _ => .ok (.ok [⟨⟨0, 1⟩, false⟩, ⟨⟨1, 2⟩, true⟩, ⟨⟨2, 3⟩, false⟩, ⟨⟨3, 4⟩, true⟩])) [0xFF]
      = .ok (.ok ⟨b!"aXbX", [0x61, 0xEF, 0xBF, 0xEF, 0xBF, 0xBD, 0x62, 0x58],
        [⟨0, 1⟩, ⟨1, 2⟩, ⟨1, 2⟩, ⟨1, 2⟩, ⟨1, 2⟩, ⟨1, 2⟩, ⟨2, 3⟩, ⟨3, 4⟩], 0⟩)
    ∧ (⟨b!"ab", b!"ab", [⟨0, 1⟩], 0⟩ : NS).replace (fun _ => .ok (.ok [⟨⟨1, 2⟩, true⟩])) b!"x" = .panic
    ∧ (NS.fromString b!"ab").replace (fun _ => .ok (.ok [⟨⟨-3, -2⟩, true⟩, ⟨⟨1, 2⟩, true⟩])) b!"x"
      = .ok (.ok ⟨b!"ab", b!"xxb", [⟨0, 0⟩, ⟨0, 1⟩, ⟨1, 2⟩], 0⟩) := by
  decide +kernel

end Verif
