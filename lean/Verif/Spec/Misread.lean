import Verif.Spec.Chars

/-! What `Filter` and `TrimLeftRight` do when a character of more than one byte is dropped at the
front: the position at which alignments are read is behind by the difference between its bytes and
its runes. -/

set_option autoImplicit false

namespace Verif

/-- Runes to keep (`true`) or to drop, and the runes `R` that the code takes for them.  The
alignment of a kept rune is the one at position `o`; the position advances by the encoded length
of the rune in `R`.  `none`: a position past the alignments. -/
def misread (als : List Align) : Nat → List Rune → List (Rune × Bool) → Option (List Ch)
  | _, _, [] => some []
  | o, R, (r, keep) :: l =>
    match misread als (o + (encodeRunes (R.take 1)).length) (R.drop 1) l with
    | none => none
    | some out =>
      if keep then
        match als[o]? with
        | some a => some ((r, a) :: out)
        | none => none
      else some out

/-- The runes the code sees after skipping, in place of the dropped text `lead`, as many bytes as it
has characters. -/
def seenRunes (lead rest : List Ch) : List Rune :=
  runesOf ((text lead).drop lead.length) ++ rest.map fun c => c.1

/-- `Filter`: the characters before the first kept one are `lead`. -/
def filterActual (keep : Rune → Bool) (cs : List Ch) : Option (List Ch) :=
  let lead := cs.takeWhile fun c => !keep c.1
  let rest := cs.dropWhile fun c => !keep c.1
  misread (aligns cs) lead.length (seenRunes lead rest) (rest.map fun c => (c.1, keep c.1))

/-- `TrimLeftRight`: `lead`, what stays, and the white space at the end. -/
def trimActual (left right : Bool) (cs : List Ch) : Option (List Ch) :=
  let lead := if left then cs.takeWhile fun c => isWhiteSpace c.1 else []
  let rest := if left then cs.dropWhile fun c => isWhiteSpace c.1 else cs
  let core := if right then (rest.reverse.dropWhile fun c => isWhiteSpace c.1).reverse else rest
  let trail := if right then (rest.reverse.takeWhile fun c => isWhiteSpace c.1).reverse else []
  misread (aligns cs) lead.length (seenRunes lead rest)
    ((core.map fun c => (c.1, true)) ++ trail.map fun c => (c.1, false))

end Verif
