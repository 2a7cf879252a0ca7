import Verif.Props.ReplaceShort
import Verif.Props.PrependAnyState
import Verif.Props.SplitAnyState

/-! The meta-space pre-tokenizer in any state (C153). -/

set_option autoImplicit false

namespace Verif

/-! ## Specification -/

/-- The string after the mark `R` is put before it, if that is asked for and its text does not begin with the mark. -/
def Marked (R : Rune) (prefixSpace : Bool) (ns : NS) (r : GoM NS) : Prop :=
  (prefixSpace = true ∧ ¬ encodeRune R <+: ns.get → r = ns.prepend (encodeRune R))
  ∧ (prefixSpace = false ∨ encodeRune R <+: ns.get → r = .ok ns)

/-- Every space is the mark, aligned as the space was. -/
def spacesMarked (R : Rune) (ns : NS) : NS :=
  { ns with
    normalized := replaceRune 32 (encodeRune R) (chunks ns.get)
    alignments := replaceAligns 32 (encodeRune R).length (chunks ns.get) ns.alignments }

/-! ## Proofs -/

/-- What comes after the mark in front. -/
def metaRest (R : Rune) (ns : NS) : GoM (NS × Except Err (List Piece)) := do
  match ← ns.replace (fromRune 32) (encodeRune R) with
  | .error e => pure (ns, .error e)
  | .ok ns =>
    match ← ns.split (fromRune R) .mergedWithNext with
    | .error e => pure (ns, .error e)
    | .ok nss => pure (ns, .ok (splitsFromNormalizedStrings nss))

/-- **C153.**  `m` is the string with the mark in front.  The call panics if that fails, or if a space has no alignment, or if the first
group of marks and text that cannot be cut has no alignments; if that group does not begin and end at runes, it returns an error; otherwise
it returns the groups.  In the last two cases the string is left with the spaces replaced. -/
theorem C153_metaSpace {R : Rune} (hR : ValidRune R) (prefixSpace : Bool) (i : Nat) (ns : NS) {r : GoM NS} (hr : Marked R prefixSpace ns r) :
    (r = .panic → metaSpaceSplitFunc R prefixSpace i ns = .panic)
    ∧ ∀ m, r = .ok m →
      (¬ EndsWithin 32 m.alignments.length 0 (chunks m.get) → metaSpaceSplitFunc R prefixSpace i ns = .panic)
      ∧ (EndsWithin 32 m.alignments.length 0 (chunks m.get) → ∀ t, t = spacesMarked R m →
        ∀ gs, gs = splitGroups .mergedWithNext (funcFindMatches (fun other => other == R) t.get) →
        ((∀ g ∈ gs, CutRange t.get (span g).1 (span g).2 ∧ CanCut t (span g).1 (span g).2)
          ∧ ∃ pieces, metaSpaceSplitFunc R prefixSpace i ns = .ok (t, .ok (splitsFromNormalizedStrings pieces))
            ∧ All2 (fun (p : NS) (g : List Capture) => t.slice (.normalized (span g).1 (span g).2) = .ok (some p)) pieces gs)
        ∨ ∃ pre g post, gs = pre ++ g :: post
          ∧ (∀ x ∈ pre, CutRange t.get (span x).1 (span x).2 ∧ CanCut t (span x).1 (span x).2)
          ∧ ((¬ CutRange t.get (span g).1 (span g).2 ∧ metaSpaceSplitFunc R prefixSpace i ns = .ok (t, .error .badSplit))
            ∨ (CutRange t.get (span g).1 (span g).2 ∧ ¬ CanCut t (span g).1 (span g).2
                ∧ metaSpaceSplitFunc R prefixSpace i ns = .panic))) := by
  have hv : ValidUtf8 (encodeRune R) := ⟨[R], by simpa using hR, by simp⟩
  have h1 : metaSpaceSplitFunc R prefixSpace i ns = (r >>= metaRest R) := by
    have hpre : (!(encodeRune R).isPrefixOf ns.get) = true ↔ ¬ encodeRune R <+: ns.get := by
      rw [← List.isPrefixOf_iff_prefix]
      cases (encodeRune R).isPrefixOf ns.get <;> simp
    unfold metaSpaceSplitFunc
    by_cases hc : prefixSpace = true ∧ ¬ encodeRune R <+: ns.get
    · rw [hr.1 hc]
      simp only
      rw [if_pos ⟨hc.1, hpre.2 hc.2⟩]
      rfl
    · have hc' : prefixSpace = false ∨ encodeRune R <+: ns.get := by
        cases prefixSpace with
        | false => exact .inl rfl
        | true => exact .inr (Decidable.not_not.1 fun h => hc ⟨rfl, h⟩)
      rw [hr.2 hc']
      simp only
      rw [if_neg (by
        intro h
        exact hc ⟨h.1, hpre.1 h.2⟩)]
      rfl
  refine ⟨?_, ?_⟩
  · intro h
    rw [h1, h]; rfl
  · intro m hm
    rw [h1, hm, GoM.bind_ok]
    unfold metaRest
    obtain ⟨k1, k2⟩ := C152_replace m (d := 32) (by decide) hv
    refine ⟨fun h => by rw [k2 h]; rfl, fun h t ht gs hgs => ?_⟩
    have hk : m.replace (fromRune 32) (encodeRune R) = .ok (.ok t) := by rw [ht]; exact k1 h
    rw [hk, GoM.bind_ok]
    simp only
    have hs := C139_split t (pattern := fromRune R) (caps := funcFindMatches (fun other => other == R) t.get) rfl .mergedWithNext
    rw [← hgs] at hs
    rcases hs with ⟨a, pieces, b, c⟩ | ⟨pre, g, post, a, b, ⟨c, d⟩ | ⟨c, c', d⟩⟩
    · exact .inl ⟨a, pieces, by rw [b]; rfl, c⟩
    · exact .inr ⟨pre, g, post, a, b, .inl ⟨c, by rw [d]; rfl⟩⟩
    · exact .inr ⟨pre, g, post, a, b, .inr ⟨c, c', by rw [d]; rfl⟩⟩

/-- A space without alignment; a string with an alignment for the space but not for the letter after it; one with all alignments. -/
theorem C153_example :
    metaSpaceSplitFunc 95 true 0 ⟨b!"a b", b!"a b", [⟨0, 1⟩], 0⟩ = .panic
    ∧ metaSpaceSplitFunc 95 true 0 ⟨b!"a b", b!"a b", [⟨0, 1⟩, ⟨1, 2⟩], 0⟩ = .panic
    ∧ metaSpaceSplitFunc 95 true 0 ⟨b!"a b", b!"a ", [⟨0, 1⟩, ⟨1, 2⟩], 0⟩
      = .ok (⟨b!"a b", b!"_a_", [⟨0, 1⟩, ⟨0, 1⟩, ⟨1, 2⟩], 0⟩,
        .ok [⟨⟨b!"a", b!"_a", [⟨0, 1⟩, ⟨0, 1⟩], 0⟩, none⟩, ⟨⟨b!" ", b!"_", [⟨0, 1⟩], 1⟩, none⟩])
    ∧ metaSpaceSplitFunc 95 false 0 ⟨b!"a b", [0x80], [⟨0, 1⟩], 0⟩ = .ok (⟨b!"a b", [0x80], [⟨0, 1⟩], 0⟩, .error .badSplit) := by
  decide +kernel

end Verif
