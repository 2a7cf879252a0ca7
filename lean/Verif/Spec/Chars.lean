import Verif.Model.NormalizedString
import Verif.Spec.Utf8

/-!
Rune-level view of a `NormalizedString`: a list of characters, each a rune
with the range of the original text it is aligned to.
-/

set_option autoImplicit false

namespace Verif

/-- A character of the normalized text: its rune and its alignment. -/
abbrev Ch := Int × Align

/-- The text spelled by a list of characters. -/
def text (cs : List Ch) : Str := encodeRunes (cs.map (·.1))

/-- One alignment per byte: every byte of a rune has the alignment of its rune. -/
def aligns (cs : List Ch) : List Align := cs.flatMap fun c => List.replicate (runeLen c.1) c.2

/-- All runes are Unicode scalar values. -/
def ValidChars (cs : List Ch) : Prop := ∀ c ∈ cs, ValidRune c.1

/-- `ns` holds exactly the characters `cs`. -/
structure Repr (ns : NS) (cs : List Ch) : Prop where
  text_eq : ns.normalized = text cs
  aligns_eq : ns.alignments = aligns cs
  valid : ValidChars cs

/-- Alignments are ordered: equal, or one entirely before the other. -/
def AlignLE (a b : Align) : Prop := a = b ∨ a.stop ≤ b.start

/-- The byte-level well-formedness of alignments. -/
structure WF (ns : NS) : Prop where
  /-- one alignment per normalized byte -/
  len : ns.alignments.length = ns.normalized.length
  /-- any two alignments are equal, or ordered and disjoint -/
  ordered : ns.alignments.Pairwise AlignLE
  /-- every alignment is a range of the original -/
  bounds : ∀ a ∈ ns.alignments, 0 ≤ a.start ∧ a.start ≤ a.stop ∧ a.stop ≤ (ns.original.length : Int)

/-- `ns` is a view of the part of `root` its shift and length say. -/
def PartOf (root : Str) (ns : NS) : Prop :=
  ∃ pre post : Str, root = pre ++ ns.original ++ post ∧ ns.originalShift = (pre.length : Int)

end Verif
