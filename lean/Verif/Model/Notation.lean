import Verif.Model.Utf8

/-!
Notation for examples: `b!"é"` is the list of UTF-8 bytes of a literal, spelled out
at elaboration time, and `u!"é"` the code point of its first character.
-/

namespace Verif
open Lean

macro:max "b!" s:str : term => do
  let bytes := s.getString.toUTF8.toList.toArray
  let elems : Array (TSyntax `term) := bytes.map fun b => Syntax.mkNumLit (toString b.toNat)
  `(([$elems,*] : Str))

macro:max "u!" s:str : term => do
  let n := Syntax.mkNumLit (toString (s.getString.toList.headD 'x').toNat)
  `(($n : Rune))

end Verif
