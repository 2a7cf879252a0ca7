import Verif.Props.RangesAnyState

/-! `Slice` and `Split` in any state whatever, exactly (C139). -/

set_option autoImplicit false

namespace Verif

/-! ## Specification -/

/-- An end of the text, or a byte that is not a continuation byte. -/
def CutPoint (s : Str) (i : Int) : Prop :=
  i = 0 ∨ i = s.length ∨ (0 ≤ i ∧ ∃ x, s[i.toNat]? = some x ∧ (x.toNat < 0x80 ∨ 0xC0 ≤ x.toNat))

/-- A part of the text between two such places. -/
def CutRange (s : Str) (a b : Int) : Prop := CutPoint s a ∧ CutPoint s b ∧ a ≤ b

/-- The alignments reach to `b`, and tell a part of the original (for an empty part, its own place is one of the original). -/
def CanCut (ns : NS) (a b : Int) : Prop :=
  b ≤ (ns.alignments.length : Int) ∧ (a = b → a ≤ ns.originalLen) ∧ (a < b → NamesPart ns a b)

/-- The part of the original that belongs to the bytes from `a` to `b`. -/
def Source (ns : NS) (a b : Int) (o : Int × Int) : Prop :=
  (a = b → o = (a, b)) ∧ (a < b → ∃ f l, ns.alignments[a.toNat]? = some f ∧ ns.alignments[(b - 1).toNat]? = some l ∧ o = (f.start, l.stop))

/-! ## Proofs -/

theorem isRuneBoundary_any (s : Str) (i : Int) : isRuneBoundary s i = true ↔ CutPoint s i := by
  unfold isRuneBoundary CutPoint
  by_cases h1 : i = 0 ∨ i = (s.length : Int)
  · rw [if_pos h1]
    simp only [true_iff]
    rcases h1 with h | h
    · exact .inl h
    · exact .inr (.inl h)
  · rw [if_neg h1]
    by_cases h2 : i < 0 ∨ i > (s.length : Int)
    · rw [if_pos h2]
      simp only [Bool.false_eq_true, false_iff]
      rintro (h | h | ⟨h, x, hx, -⟩)
      · exact h1 (.inl h)
      · exact h1 (.inr h)
      · have := (List.getElem?_eq_some_iff.1 hx).1
        omega
    · rw [if_neg h2]
      have hl : i.toNat < s.length := by omega
      rw [List.getElem?_eq_getElem hl]
      simp only [decide_eq_true_eq, Option.some.injEq]
      constructor
      · intro h
        refine .inr (.inr ⟨by omega, _, rfl, ?_⟩)
        split at h <;> omega
      · rintro (h | h | ⟨-, x, rfl, h⟩)
        · exact absurd (.inl h) h1
        · exact absurd (.inr h) h1
        · split <;> omega

/-- **C139, Slice.** In any state, for any normalized range. -/
theorem C139_slice (ns : NS) (a b : Int) :
    (ns.slice (.normalized a b) = .ok none ↔ ¬ CutRange ns.get a b)
    ∧ (ns.slice (.normalized a b) = .panic ↔ CutRange ns.get a b ∧ ¬ CanCut ns a b)
    ∧ ((∃ p, ns.slice (.normalized a b) = .ok (some p)) ↔ CutRange ns.get a b ∧ CanCut ns a b)
    ∧ ∀ p, ns.slice (.normalized a b) = .ok (some p) → p.get = sub ns.get a b
      ∧ ∃ o, Source ns a b o ∧ p.getOriginal = sub ns.getOriginal o.1 o.2 ∧ p.originalOffsets.start = ns.originalOffsets.start + o.1
        ∧ p.alignments = (sub ns.alignments a b).map fun al => ⟨al.start - o.1, al.stop - o.1⟩ := by
  have hp : ns.slice (.normalized a b) = .panic ↔ CutRange ns.get a b ∧ ¬ CanCut ns a b := by
    rw [(C137_slice ns a b).1, isRuneBoundary_any, isRuneBoundary_any]
    simp only [CutRange, NS.get, CanCut]
    constructor
    · rintro ⟨h1, h2, h3, h4⟩
      refine ⟨⟨h1, h2, h3⟩, ?_⟩
      rintro ⟨c1, c2, c3⟩
      rcases h4 with h | ⟨h, h'⟩ | ⟨h, h'⟩
      · omega
      · have := c2 h; omega
      · exact h' (c3 h)
    · rintro ⟨⟨h1, h2, h3⟩, h4⟩
      refine ⟨h1, h2, h3, ?_⟩
      by_cases c1 : (ns.alignments.length : Int) < b
      · exact .inl c1
      · right
        by_cases c2 : a = b
        · left
          refine ⟨c2, Classical.byContradiction fun hn => h4 ⟨by omega, fun _ => by omega, fun h => by omega⟩⟩
        · right
          exact ⟨by omega, fun hn => h4 ⟨by omega, fun h => absurd h c2, fun _ => hn⟩⟩
  have hn : ns.slice (.normalized a b) = .ok none ↔ ¬ CutRange ns.get a b := by
    constructor
    · intro h hc
      obtain ⟨h1, h2, h3⟩ := hc
      unfold NS.slice at h
      have hv : ns.rangeIsValid (.normalized a b) = true := by
        simp only [NS.rangeIsValid, Rng.start, Rng.stop, Bool.and_eq_true]
        exact ⟨(isRuneBoundary_any _ _).2 h1, (isRuneBoundary_any _ _).2 h2⟩
      simp only [hv, Bool.not_true, Bool.false_eq_true, if_false] at h
      simp only [NS.coerceRangeToNormalized, GoM.bind_eq_ok] at h
      obtain ⟨o, ho, h⟩ := h
      cases o with
      | some q =>
        simp only [GoM.bind_eq_ok, GoM.pure_eq, GoM.ok.injEq] at h
        obtain ⟨_, -, _, -, _, -, h⟩ := h
        simp at h
      | none =>
        simp only [NS.coerceRangeToOriginal] at ho
        by_cases h4 : b - a = 0
        · rw [if_pos h4] at ho; simp at ho
        · rw [if_neg h4, if_neg (by omega), if_neg (by omega)] at ho
          simp only [GoM.bind_eq_ok, GoM.pure_eq, GoM.ok.injEq] at ho
          obtain ⟨_, -, _, -, _, -, ho⟩ := ho
          simp at ho
    · intro hc
      unfold NS.slice
      by_cases hv : ns.rangeIsValid (.normalized a b) = true
      · simp only [hv, Bool.not_true, Bool.false_eq_true, if_false]
        simp only [NS.rangeIsValid, Rng.start, Rng.stop, Bool.and_eq_true, isRuneBoundary_any] at hv
        have hab : a > b := by
          apply Classical.byContradiction
          intro h
          exact hc ⟨hv.1, hv.2, by omega⟩
        have : ns.coerceRangeToOriginal (.normalized a b) = .ok none := by
          simp only [NS.coerceRangeToOriginal]
          rw [if_neg (by omega), if_pos hab]
        simp only [NS.coerceRangeToNormalized, this, GoM.bind_ok, GoM.pure_eq]
      · simp [hv]
  refine ⟨hn, hp, ?_, ?_⟩
  · constructor
    · rintro ⟨p, h⟩
      have h1 : CutRange ns.get a b := Classical.byContradiction fun hc => by rw [hn.2 hc] at h; simp at h
      refine ⟨h1, Classical.byContradiction fun hc => by rw [hp.2 ⟨h1, hc⟩] at h; cases h⟩
    · rintro ⟨h1, h2⟩
      cases h : ns.slice (.normalized a b) with
      | panic => exact absurd h2 (hp.1 h).2
      | ok o =>
        cases o with
        | none => exact absurd h1 (hn.1 h)
        | some p => exact ⟨p, rfl⟩
  · intro p h
    refine ⟨slice_get h, ?_⟩
    obtain ⟨-, na, nb, oa, ob, als, e1, e2, e3, -, e5, e6, e7⟩ := slice_ok h
    simp only [NS.coerceRangeToNormalized, Option.some.injEq, Prod.mk.injEq] at e1
    obtain ⟨rfl, rfl⟩ := e1
    refine ⟨(oa, ob), ⟨?_, ?_⟩, (goSlice_eq_ok.1 e3).2, ?_, ?_⟩
    · rintro rfl
      simp [NS.coerceRangeToOriginal] at e2
      rw [← e2.1, ← e2.2]
    · intro hab
      have hb := (goSlice_eq_ok.1 e5).1
      obtain ⟨f, l, f1, f2, f3⟩ := coerceRangeToOriginal_normalized (ns := ns) hb.1 hab hb.2.2
      rw [f3] at e2
      simp only [GoM.ok.injEq, Option.some.injEq, Prod.mk.injEq] at e2
      exact ⟨f, l, f1, f2, by rw [e2.1, e2.2]⟩
    · simp only [NS.originalOffsets, e7]
    · rw [e6, (goSlice_eq_ok.1 e5).2]; rfl

/-- **C139, Split.** In any state, for every pattern and whatever its captures: `Split` cuts the text at the groups of the captures; the
first group that cannot be sliced decides whether it returns an error or panics. -/
theorem C139_split (ns : NS) {pattern : SplitPattern} {caps : List Capture} (hp : pattern ns.normalized = .ok (.ok caps)) (b : Behavior) :
    ((∀ g ∈ splitGroups b caps, CutRange ns.get (span g).1 (span g).2 ∧ CanCut ns (span g).1 (span g).2)
      ∧ ∃ pieces, ns.split pattern b = .ok (.ok pieces)
        ∧ All2 (fun (p : NS) (g : List Capture) => ns.slice (.normalized (span g).1 (span g).2) = .ok (some p)) pieces (splitGroups b caps))
    ∨ ∃ pre g post, splitGroups b caps = pre ++ g :: post
      ∧ (∀ x ∈ pre, CutRange ns.get (span x).1 (span x).2 ∧ CanCut ns (span x).1 (span x).2)
      ∧ ((¬ CutRange ns.get (span g).1 (span g).2 ∧ ns.split pattern b = .ok (.error .badSplit))
        ∨ (CutRange ns.get (span g).1 (span g).2 ∧ ¬ CanCut ns (span g).1 (span g).2 ∧ ns.split pattern b = .panic)) := by
  have hs : ns.split pattern b = ns.sliceAll ((splitGroups b caps).map spanMatch) := by
    rw [← splitMatches_groups, ← sliceAll_removed]
    simp [NS.split, hp]
  rw [hs]
  generalize splitGroups b caps = gs
  clear hs hp
  induction gs with
  | nil => left; exact ⟨by simp, [], rfl, .nil⟩
  | cons g gs ih =>
    obtain ⟨o1, o2, o3, -⟩ := C139_slice ns (span g).1 (span g).2
    have hstep : ns.sliceAll ((g :: gs).map spanMatch) = (ns.slice (.normalized (span g).1 (span g).2)).bind fun r =>
        match r with
        | none => pure (.error .badSplit)
        | some piece => (ns.sliceAll (gs.map spanMatch)).bind fun r =>
          match r with
          | .error e => pure (.error e)
          | .ok rest => pure (.ok (piece :: rest)) := rfl
    rw [hstep]
    by_cases hon : CutRange ns.get (span g).1 (span g).2
    · by_cases hf : CanCut ns (span g).1 (span g).2
      · obtain ⟨p, hp⟩ := o3.2 ⟨hon, hf⟩
        rw [hp]
        simp only [GoM.bind]
        rcases ih with ⟨hall, pieces, e1, e2⟩ | ⟨pre, g', post, e1, e2, e3⟩
        · left
          refine ⟨?_, p :: pieces, by rw [e1]; rfl, .cons hp e2⟩
          intro x hx
          rcases List.mem_cons.1 hx with rfl | hx
          · exact ⟨hon, hf⟩
          · exact hall x hx
        · right
          refine ⟨g :: pre, g', post, by simp [e1], ?_, ?_⟩
          · intro x hx
            rcases List.mem_cons.1 hx with rfl | hx
            · exact ⟨hon, hf⟩
            · exact e2 x hx
          · rcases e3 with ⟨h1, h2⟩ | ⟨h1, h2, h3⟩
            · exact .inl ⟨h1, by rw [h2]; rfl⟩
            · exact .inr ⟨h1, h2, by rw [h3]⟩
      · right
        refine ⟨[], g, gs, rfl, by simp, .inr ⟨hon, hf, ?_⟩⟩
        rw [o2.2 ⟨hon, hf⟩]
        rfl
    · right
      refine ⟨[], g, gs, rfl, by simp, .inl ⟨hon, ?_⟩⟩
      rw [o1.2 hon]
      rfl

/-! ## Concrete -/

/-- A bad byte, a letter, a continuation byte: cut before the letter the first part works; before the continuation byte `Slice` fails;
with too few alignments it panics. -/
theorem C139_example :
    (∃ p, (NS.fromString [0xFF, 0x61, 0x80]).slice (.normalized 0 1) = .ok (some p) ∧ p.alignments = [⟨0, 3⟩] ∧ p.get = [0xFF])
    ∧ (NS.fromString [0xFF, 0x61, 0x80]).slice (.normalized 0 2) = .ok none
    ∧ (NS.fromString [0x61, 0xFF]).slice (.normalized 1 2) = .panic
    ∧ (⟨b!"ab", b!"ab", [⟨0, 1⟩], 0⟩ : NS).slice (.normalized 1 2) = .panic := by
  refine ⟨⟨_, rfl, ?_⟩, ?_⟩ <;> decide +kernel

end Verif
