import Verif.Model.SplitPattern

/-! Specification of the segments a rune predicate cuts a text into. -/

set_option autoImplicit false

namespace Verif

/-- The segments of a rune sequence: each rune satisfying `f` on its own (`true`), and the
maximal runs of runes not satisfying it (`false`), in order. -/
def segs (f : Rune → Bool) : List Rune → List (Bool × List Rune)
  | [] => []
  | r :: rs =>
    if f r then (true, [r]) :: segs f rs
    else match segs f rs with
      | (false, g) :: t => (false, r :: g) :: t
      | t => (false, [r]) :: t

/-- Lay segments out one after the other from byte `i`. -/
def capsOf : Int → List (Bool × List Rune) → List Capture
  | _, [] => []
  | i, (b, g) :: t =>
    ⟨⟨i, i + (encodeRunes g).length⟩, b⟩ :: capsOf (i + (encodeRunes g).length) t

/-- The maximal runs of runes that do not satisfy `f`. -/
def runs (f : Rune → Bool) (rs : List Rune) : List (List Rune) :=
  ((segs f rs).filter fun p => !p.1).map (·.2)

end Verif
