import Verif.Spec.Transform
import Verif.Spec.Pipeline

/-! Specification vocabulary for the pieces a state is cut into, character by character. -/

set_option autoImplicit false

namespace Verif

/-- The alignment of the first character. -/
def firstAlign (cs : List Ch) : Align := match cs with
  | [] => ⟨0, 0⟩
  | c :: _ => c.2

/-- The piece of `ns` made of the characters `B`. -/
def pieceOf (ns : NS) (B : List Ch) : NS :=
  ⟨sub ns.original (firstAlign B).start (lastAlign B).stop, text B,
    (aligns B).map (fun al => ⟨al.start - (firstAlign B).start, al.stop - (firstAlign B).start⟩),
    ns.originalShift + (firstAlign B).start⟩

/-- Untokenized splits of `ns`, one for every word `(A, B)`: the characters `B` standing after `A`. -/
def charPieces (ns : NS) (L : List (List Ch × List Ch)) : List Piece := L.map fun x => ⟨pieceOf ns x.2, none⟩

/-- The runes of words of characters. -/
def wordRunes (L : List (List Ch × List Ch)) : List (List Rune × List Rune) :=
  L.map fun x => (x.1.map (·.1), x.2.map (·.1))

/-- Every word is not empty and stands in the text after its prefix. -/
def StandsIn (cs : List Ch) (L : List (List Ch × List Ch)) : Prop :=
  ∀ x ∈ L, x.2 ≠ [] ∧ ∃ C, cs = x.1 ++ x.2 ++ C

end Verif
