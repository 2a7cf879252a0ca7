import Verif.Model.Go

/-!
# Go strings and UTF-8

Go strings are arbitrary byte sequences.  `for i, r := range s` and `[]rune(s)`
decode UTF-8; a byte that does not start a well-formed sequence yields
U+FFFD with width 1.  `string(r)` (and `strings.Builder.WriteRune`) encode a
rune; a value that is not a Unicode scalar yields the encoding of U+FFFD.
These are the semantics of the Go specification ("For statements with range
clause", "Conversions to and from a string type") and of `unicode/utf8`.
-/

namespace Verif

/-- Go `string` / `[]byte`. -/
abbrev Str := List UInt8

/-- Go `rune` (an `int32`; modelled as an unbounded integer).  A macro and not a
definition so that arithmetic tactics see `Int`. -/
macro "Rune" : term => `(Int)

/-- U+FFFD, `unicode.ReplacementChar` / `utf8.RuneError`. -/
def runeError : Rune := 0xFFFD

/-- Unicode scalar values: what `utf8.ValidRune` accepts. -/
def ValidRune (r : Rune) : Prop := (0 ≤ r ∧ r < 0xD800) ∨ (0xDFFF < r ∧ r ≤ 0x10FFFF)

instance (r : Rune) : Decidable (ValidRune r) := by unfold ValidRune; infer_instance

/-- The rune that is actually written when Go encodes `r`. -/
def sanitize (r : Rune) : Rune := if ValidRune r then r else runeError

/-- UTF-8 encoding of a code point given as a natural number. -/
def encodeNat (c : Nat) : Str :=
  if c < 0x80 then [UInt8.ofNat c]
  else if c < 0x800 then
    [UInt8.ofNat (0xC0 + c / 64), UInt8.ofNat (0x80 + c % 64)]
  else if c < 0x10000 then
    [UInt8.ofNat (0xE0 + c / 4096), UInt8.ofNat (0x80 + c / 64 % 64), UInt8.ofNat (0x80 + c % 64)]
  else
    [UInt8.ofNat (0xF0 + c / 262144), UInt8.ofNat (0x80 + c / 4096 % 64),
     UInt8.ofNat (0x80 + c / 64 % 64), UInt8.ofNat (0x80 + c % 64)]

/-- Go `string(r)`, also what `strings.Builder.WriteRune(r)` appends. -/
def encodeRune (r : Rune) : Str := encodeNat (sanitize r).toNat

/-- Go `len(string(r))`. -/
def runeLen (r : Rune) : Nat := (encodeRune r).length

/-- Go `string(runes)` for `runes []rune`. -/
def encodeRunes (rs : List Rune) : Str := rs.flatMap encodeRune

/-- Continuation byte `10xxxxxx`. -/
def isCont (b : UInt8) : Bool := 0x80 ≤ b.toNat && b.toNat ≤ 0xBF

/-- `utf8.DecodeRuneInString`: rune and width of the first rune of `s`. -/
def decodeRune (s : Str) : Rune × Nat :=
  match s with
  | [] => (runeError, 0)
  | b0 :: t =>
    let n0 := b0.toNat
    if n0 < 0x80 then ((n0 : Int), 1)
    else if n0 < 0xC2 then (runeError, 1)
    else if n0 < 0xE0 then
      match t with
      | b1 :: _ =>
        if isCont b1 then ((((n0 - 0xC0) * 64 + (b1.toNat - 0x80) : Nat) : Int), 2)
        else (runeError, 1)
      | [] => (runeError, 1)
    else if n0 < 0xF0 then
      match t with
      | b1 :: b2 :: _ =>
        if isCont b1 && isCont b2
            && (n0 != 0xE0 || 0xA0 ≤ b1.toNat) && (n0 != 0xED || b1.toNat ≤ 0x9F) then
          ((((n0 - 0xE0) * 4096 + (b1.toNat - 0x80) * 64 + (b2.toNat - 0x80) : Nat) : Int), 3)
        else (runeError, 1)
      | _ => (runeError, 1)
    else if n0 < 0xF5 then
      match t with
      | b1 :: b2 :: b3 :: _ =>
        if isCont b1 && isCont b2 && isCont b3
            && (n0 != 0xF0 || 0x90 ≤ b1.toNat) && (n0 != 0xF4 || b1.toNat ≤ 0x8F) then
          ((((n0 - 0xF0) * 262144 + (b1.toNat - 0x80) * 4096 + (b2.toNat - 0x80) * 64
              + (b3.toNat - 0x80) : Nat) : Int), 4)
        else (runeError, 1)
      | _ => (runeError, 1)
    else (runeError, 1)

/-- Worker of `rangeStr`: `i` is the byte index of the head of the list, `skip`
the number of bytes still belonging to the rune decoded last. -/
def rangeAux : Str → Nat → Nat → List (Nat × Rune)
  | [], _, _ => []
  | b :: bs, i, 0 => (i, (decodeRune (b :: bs)).1) :: rangeAux bs (i + 1) ((decodeRune (b :: bs)).2 - 1)
  | _ :: bs, i, k + 1 => rangeAux bs (i + 1) k

/-- Go `for i, r := range s`: the sequence of (byte index, rune). -/
def rangeStr (s : Str) : List (Nat × Rune) := rangeAux s 0 0

/-- Go `[]rune(s)`. -/
def runesOf (s : Str) : List Rune := (rangeStr s).map (·.2)

end Verif
