import Verif.Spec.Chars

set_option autoImplicit false

namespace Verif

/-- Alignment of the last character, `(0,0)` if there is none. -/
def lastAlign (cs : List Ch) : Align :=
  match cs.getLast? with
  | some c => c.2
  | none => ⟨0, 0⟩

/-- What a list of rune changes means, as documented at
`normalizedstring.go:126-152`.  `prev` is the alignment of the last character
passed so far and `cs` are the characters still to be replaced.

* `Change ≥ 1`: the rune is inserted and aligned like the last character passed;
* `Change = 0`: the rune replaces the next character and takes its alignment;
* `Change = -N`: as 0, and the `N` characters after the replaced one are dropped.

`none`: the list consumes more characters than there are. -/
def specTransform (prev : Align) : List RuneChange → List Ch → Option (List Ch)
  | [], _ => some []
  | rc :: rest, cs =>
    if 1 ≤ rc.change then
      (specTransform prev rest cs).map ((sanitize rc.rune, prev) :: ·)
    else
      match cs with
      | [] => none
      | c :: cs' =>
        let n := (-rc.change).toNat
        if cs'.length < n then none
        else
          (specTransform (lastAlign (c :: cs'.take n)) rest (cs'.drop n)).map
            ((sanitize rc.rune, c.2) :: ·)

end Verif
