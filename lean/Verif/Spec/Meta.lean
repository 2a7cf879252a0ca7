import Verif.Spec.Chars
import Verif.Model.PreTokenizedString

/-! Specification vocabulary for the meta-space pre-tokenizer and for replacing runes. -/

set_option autoImplicit false

namespace Verif

/-- The text the meta-space pre-tokenizer cuts: every space replaced, and the replacement in
front if it is enabled, the text is not empty and does not already begin with it. -/
def metaText (R : Rune) (prefixSpace : Bool) (rs : List Rune) : List Rune :=
  (if prefixSpace = true ∧ rs ≠ [] ∧ rs.head? ≠ some R then [R] else [])
    ++ rs.map fun r => if r = 32 then R else r

/-- The pieces of a text cut in front of every `R`. -/
structure CutBefore (R : Rune) (rs : List Rune) (ps : List (List Rune)) : Prop where
  /-- nothing is lost, added or moved -/
  flatten : ps.flatten = rs
  /-- no piece is empty, and `R` is nowhere but at the start of a piece -/
  inside : ∀ p ∈ ps, p ≠ [] ∧ R ∉ p.tail
  /-- every piece but the first starts with `R` -/
  starts : ∀ p ∈ ps.tail, p.head? = some R

/-- What stands for one character when the runes that satisfy `f` are replaced by `cont`. -/
def replaceChar (f : Rune → Bool) (cont : List Rune) (c : Ch) : List Ch :=
  if f c.1 then cont.map fun r => (r, c.2) else [c]

/-- The characters the meta-space pre-tokenizer cuts: every space replaced where it stands, and the
replacement in front, aligned like the first character, if it is enabled and the text is not empty
and does not already begin with it. -/
def metaChars (R : Rune) (prefixSpace : Bool) (cs : List Ch) : List Ch :=
  (match cs with
    | [] => []
    | c :: _ => if prefixSpace = true ∧ c.1 ≠ R then [(R, c.2)] else [])
  ++ cs.map fun c => (if c.1 = 32 then R else c.1, c.2)

/-- Spaces replaced. -/
def spacesTo (R : Rune) (rs : List Rune) : List Rune := rs.map fun r => if r = 32 then R else r

/-- The input at the offsets is a run of characters that the group of runes stands for: the same with
the spaces replaced, or at the very start with the replacement in front; the replacement in front,
alone, has the offsets of the first character. -/
def MetaSource (R : Rune) (rs : List Rune) (o : ByteOffsets) (G : List Rune) : Prop :=
  ∃ a h b, rs = a ++ h ++ b ∧ h ≠ [] ∧ o = ⟨(encodeRunes a).length, (encodeRunes (a ++ h)).length⟩
    ∧ (G = spacesTo R h ∨ (a = [] ∧ G = R :: spacesTo R h) ∨ (a = [] ∧ G = [R] ∧ h.length = 1))

/-- The way back: the replacement in front, if it is enabled, is dropped, and the others become spaces. -/
def fromMeta (R : Rune) (prefixSpace : Bool) (rs : List Rune) : List Rune :=
  (if prefixSpace then rs.drop 1 else rs).map fun r => if r = R then 32 else r

end Verif
