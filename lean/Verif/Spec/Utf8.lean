import Verif.Model.Utf8

/-! Specification vocabulary for UTF-8 text. -/

set_option autoImplicit false

namespace Verif

/-- A string is valid UTF-8 iff it is the encoding of some sequence of Unicode
scalar values. -/
def ValidUtf8 (s : Str) : Prop := ∃ rs : List Rune, (∀ r ∈ rs, ValidRune r) ∧ encodeRunes rs = s

/-- `i` is a rune boundary of `s`: `s` is a whole number of encoded runes on
both sides of `i`. -/
def IsBoundary (s : Str) (i : Int) : Prop :=
  ∃ u v : Str, ValidUtf8 u ∧ ValidUtf8 v ∧ s = u ++ v ∧ i = (u.length : Int)

end Verif
