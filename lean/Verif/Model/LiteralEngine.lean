import Verif.Model.SplitPattern

/-!
# The engine of package `regexp` on a literal

`splitpattern.FromString(p)` (splitpattern/string.go:19-25) compiles the literal `p` with package
`regexp`.  The engine of that package reads its input rune by rune, as `utf8.DecodeRuneInString` does: a
byte that starts no encoding is read as U+FFFD and is one byte wide.  Here the engine is followed
on any bytes.  `litFindAll` in `Model/SplitPattern.lean` looks for the bytes of the pattern instead;
`C91_bytes` says when the two agree.
-/

set_option autoImplicit false

namespace Verif

/-- The byte index at which the runes left to read start; `n` is the length of the text. -/
def stopAt (n : Nat) (l : List (Nat × Rune)) : Nat :=
  match l with
  | [] => n
  | p :: _ => p.1

/-- Worker of `litRunesFindAll`: `skip` runes still belong to the match found last. -/
def litRunesAux (ps : List Rune) (n : Nat) : List (Nat × Rune) → Nat → List (Int × Int)
  | [], _ => []
  | _ :: l, k + 1 => litRunesAux ps n l k
  | p :: l, 0 =>
    if ps.isPrefixOf ((p :: l).map (·.2)) then
      ((p.1 : Int), (stopAt n ((p :: l).drop ps.length) : Int)) :: litRunesAux ps n l (ps.length - 1)
    else litRunesAux ps n l 0

/-- `regexp.MustCompile(regexp.QuoteMeta(p)).FindAllStringIndex(s, -1)` for the non-empty pattern
whose runes are `ps` and any bytes `s`. -/
def litRunesFindAll (ps : List Rune) (s : Str) : List (Int × Int) := litRunesAux ps s.length (rangeStr s) 0

/-- `splitpattern.FromString(p).FindMatches` (splitpattern/string.go:27-37) for the pattern whose
runes are `ps`, on any bytes. -/
def fromStringAny (ps : List Rune) : SplitPattern := fun s =>
  if ps = [] then .ok (.ok [⟨⟨0, ((runesOf s).length : Nat)⟩, false⟩])
  else fromRegexp (litRunesFindAll ps) s

end Verif
