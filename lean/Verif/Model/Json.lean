import Verif.Model.Vocabulary
import Verif.Model.Machine

/-!
# `json.Unmarshal` into a `map[string]int`

`FromJSONFile` (vocabulary/vocabulary.go:27-45) reads a file and decodes it with `encoding/json`.  The library
checks the syntax of the whole input first (scanner.go) and then stores values, keeping the first type error for
the end (decode.go).  Here both passes work on one value parsed by recursive descent.
-/

set_option autoImplicit false

namespace Verif
namespace Json

/-- A JSON value; strings are unquoted, numbers are kept as they are written. -/
inductive Val where
  | null
  | bool (b : Bool)
  | num (lit : Str)
  | str (s : Str)
  | arr (vs : List Val)
  | obj (ms : List (Str × Val))

/-- `isSpace` (scanner.go). -/
def isSpace (b : UInt8) : Bool := b == 0x20 || b == 0x09 || b == 0x0D || b == 0x0A

def skipSpace : Str → Str
  | [] => []
  | b :: s => if isSpace b then skipSpace s else b :: s

def isDigit (b : UInt8) : Bool := 0x30 ≤ b && b ≤ 0x39

/-- The value of a hexadecimal digit. -/
def hexVal (b : UInt8) : Option Nat :=
  if 0x30 ≤ b ∧ b ≤ 0x39 then some (b.toNat - 0x30)
  else if 0x61 ≤ b ∧ b ≤ 0x66 then some (b.toNat - 0x61 + 10)
  else if 0x41 ≤ b ∧ b ≤ 0x46 then some (b.toNat - 0x41 + 10)
  else none

/-- Four hexadecimal digits at the start of the text, and what follows. -/
def hex4 : Str → Option (Nat × Str)
  | a :: b :: c :: d :: s => do
    let a ← hexVal a
    let b ← hexVal b
    let c ← hexVal c
    let d ← hexVal d
    pure (((a * 16 + b) * 16 + c) * 16 + d, s)
  | _ => none

/-- What a backslash and this byte stand for (`unquoteBytes`); `\'` is refused by the scanner. -/
def escape (c : UInt8) : Option UInt8 :=
  if c = 0x22 then some 0x22
  else if c = 0x5C then some 0x5C
  else if c = 0x2F then some 0x2F
  else if c = 0x62 then some 0x08
  else if c = 0x66 then some 0x0C
  else if c = 0x6E then some 0x0A
  else if c = 0x72 then some 0x0D
  else if c = 0x74 then some 0x09
  else none

/-- The scanner inside a string (`stateInString`, `stateInStringEsc`, …): the bytes up to the closing quote, and
what follows it. -/
def scanString : Str → Option (Str × Str)
  | [] => none
  | b :: s =>
    if b = 0x22 then some ([], s)
    else if b = 0x5C then
      match s with
      | [] => none
      | c :: s =>
        if (escape c).isSome then (scanString s).map fun p => (b :: c :: p.1, p.2)
        else if c = 0x75 then
          match s with
          | h1 :: h2 :: h3 :: h4 :: s =>
            if (hexVal h1).isSome ∧ (hexVal h2).isSome ∧ (hexVal h3).isSome ∧ (hexVal h4).isSome then
              (scanString s).map fun p => (b :: c :: h1 :: h2 :: h3 :: h4 :: p.1, p.2)
            else none
          | _ => none
        else none
    else if b < 0x20 then none
    else (scanString s).map fun p => (b :: p.1, p.2)

/-- `getu4`: `\uXXXX` at the start of the text. -/
def getu4 : Str → Option (Nat × Str)
  | 0x5C :: 0x75 :: s => hex4 s
  | _ => none

/-- `utf16.IsSurrogate`. -/
def isSurrogate (n : Nat) : Bool := 0xD800 ≤ n && n < 0xE000

/-- `utf16.DecodeRune`; `none` for U+FFFD. -/
def decodePair (hi lo : Nat) : Option Nat :=
  if 0xD800 ≤ hi ∧ hi < 0xDC00 ∧ 0xDC00 ≤ lo ∧ lo < 0xE000 then
    some ((hi - 0xD800) * 0x400 + (lo - 0xDC00) + 0x10000)
  else none

/-- `unquoteBytes` on a text the scanner has accepted. -/
def unquote : Nat → Str → Str
  | 0, _ => []
  | _ + 1, [] => []
  | fuel + 1, b :: s =>
    if b = 0x5C then
      match s with
      | [] => []
      | c :: t =>
        match escape c with
        | some x => x :: unquote fuel t
        | none =>
          match getu4 (b :: s) with
          | none => []
          | some (rr, t) =>
            if isSurrogate rr then
              match getu4 t with
              | some (rr1, t') =>
                match decodePair rr rr1 with
                | some dec => encodeRune dec ++ unquote fuel t'
                | none => encodeRune runeError ++ unquote fuel t
              | none => encodeRune runeError ++ unquote fuel t
            else encodeRune rr ++ unquote fuel t
    else if b < 0x80 then b :: unquote fuel s
    else encodeRune (decodeRune (b :: s)).1 ++ unquote fuel ((b :: s).drop (decodeRune (b :: s)).2)

/-- A string after its opening quote. -/
def parseString (s : Str) : Option (Str × Str) :=
  (scanString s).map fun p => (unquote p.1.length p.1, p.2)

/-- The digits at the start of the text, and what follows. -/
def digits : Str → Str × Str
  | [] => ([], [])
  | b :: s => if isDigit b then (b :: (digits s).1, (digits s).2) else ([], b :: s)

/-- The integer part of a number after the sign (`stateNeg`, `state0`, `state1`). -/
def scanInt : Str → Option (Str × Str)
  | [] => none
  | b :: s =>
    if b = 0x30 then some ([b], s)
    else if isDigit b then some (digits (b :: s))
    else none

/-- The fraction (`stateDot`, `stateDot0`). -/
def scanFrac : Str → Option (Str × Str)
  | 0x2E :: s => if (digits s).1 = [] then none else some (0x2E :: (digits s).1, (digits s).2)
  | s => some ([], s)

/-- The sign of an exponent. -/
def scanSign : Str → Str × Str
  | 0x2B :: s => ([0x2B], s)
  | 0x2D :: s => ([0x2D], s)
  | s => ([], s)

/-- The exponent (`stateE`, `stateESign`, `stateE0`). -/
def scanExp : Str → Option (Str × Str)
  | [] => some ([], [])
  | b :: s =>
    if b = 0x65 ∨ b = 0x45 then
      let p := scanSign s
      let q := digits p.2
      if q.1 = [] then none else some (b :: p.1 ++ q.1, q.2)
    else some ([], b :: s)

/-- The sign of a number. -/
def scanMinus : Str → Str × Str
  | 0x2D :: s => ([0x2D], s)
  | s => ([], s)

/-- A number, and what follows. -/
def scanNumber (s : Str) : Option (Str × Str) := do
  let (i, s') ← scanInt (scanMinus s).2
  let (f, s') ← scanFrac s'
  let (e, s') ← scanExp s'
  pure ((scanMinus s).1 ++ i ++ f ++ e, s')

mutual

/-- A value at the start of the text, and what follows (`stateBeginValue`).  `depth` is how many arrays and objects may still
be opened (`maxNestingDepth`). -/
def parseValue (fuel depth : Nat) (s : Str) : Option (Val × Str) :=
  match fuel with
  | 0 => none
  | fuel + 1 =>
    match s with
    | 0x6E :: 0x75 :: 0x6C :: 0x6C :: s => some (.null, s)
    | 0x74 :: 0x72 :: 0x75 :: 0x65 :: s => some (.bool true, s)
    | 0x66 :: 0x61 :: 0x6C :: 0x73 :: 0x65 :: s => some (.bool false, s)
    | 0x22 :: s => (parseString s).map fun p => (.str p.1, p.2)
    | 0x5B :: s =>
      match depth with
      | 0 => none
      | depth + 1 =>
        match skipSpace s with
        | 0x5D :: s => some (.arr [], s)
        | s => (parseElems fuel depth s).map fun p => (.arr p.1, p.2)
    | 0x7B :: s =>
      match depth with
      | 0 => none
      | depth + 1 =>
        match skipSpace s with
        | 0x7D :: s => some (.obj [], s)
        | s => (parseMembers fuel depth s).map fun p => (.obj p.1, p.2)
    | s => (scanNumber s).map fun p => (.num p.1, p.2)

/-- The elements of an array that is not empty, up to the closing bracket. -/
def parseElems (fuel depth : Nat) (s : Str) : Option (List Val × Str) :=
  match fuel with
  | 0 => none
  | fuel + 1 => do
    let (v, s) ← parseValue fuel depth (skipSpace s)
    match skipSpace s with
    | 0x2C :: s =>
      let (vs, s) ← parseElems fuel depth s
      pure (v :: vs, s)
    | 0x5D :: s => pure ([v], s)
    | _ => none

/-- The members of an object that is not empty, up to the closing brace. -/
def parseMembers (fuel depth : Nat) (s : Str) : Option (List (Str × Val) × Str) :=
  match fuel with
  | 0 => none
  | fuel + 1 => do
    match skipSpace s with
    | 0x22 :: s =>
      let (key, s) ← parseString s
      match skipSpace s with
      | 0x3A :: s =>
        let (v, s) ← parseValue fuel depth (skipSpace s)
        match skipSpace s with
        | 0x2C :: s =>
          let (ms, s) ← parseMembers fuel depth s
          pure ((key, v) :: ms, s)
        | 0x7D :: s => pure ([(key, v)], s)
        | _ => none
      | _ => none
    | _ => none

end

/-- `checkValid` and the value of the input; `none` is a syntax error. -/
def parse (s : Str) : Option Val :=
  match parseValue (2 * s.length + 1) 10000 (skipSpace s) with
  | some (v, r) => if skipSpace r = [] then some v else none
  | none => none

/-- The errors of `json.Unmarshal`. -/
inductive Error where
  | syntax
  | type
deriving DecidableEq, Repr

/-- The digits of `strconv.ParseInt(s, 10, 64)`: a sign and digits, nothing else. -/
def parseNat : Str → Nat → Option Nat
  | [], n => some n
  | b :: s, n => if isDigit b then parseNat s (n * 10 + (b.toNat - 0x30)) else none

/-- `strconv.ParseInt(s, 10, 64)` without the range check. -/
def parseInt : Str → Option Int
  | 0x2D :: s => (parseNat s 0).map fun n : Nat => -(n : Int)
  | s => (parseNat s 0).map fun n : Nat => (n : Int)

/-- `literalStore` into an `int` that is zero: `null` leaves it; an error is reported for any other value than an integer
in range. -/
def storeInt (m : Machine) : Val → Int × Bool
  | .null => (0, true)
  | .num lit =>
    match parseInt lit with
    | some i => if -(m.half : Int) ≤ i ∧ i < (m.half : Int) then (i, true) else (0, false)
    | none => (0, false)
  | _ => (0, false)

/-- `object` (decode.go) into a `map[string]int`: the entries, and whether no error was kept. -/
def storeMembers (m : Machine) : List (Str × Val) → GoMap Str Int × Bool → GoMap Str Int × Bool
  | [], st => st
  | (k, v) :: ms, st => storeMembers m ms (st.1.set k (storeInt m v).1, st.2 && (storeInt m v).2)

/-- `json.Unmarshal(rawData, &termToID)`; `null` leaves the nil map. -/
def unmarshal (m : Machine) (content : Str) : Except Error (Option (GoMap Str Int)) :=
  match parse content with
  | none => .error .syntax
  | some .null => .ok none
  | some (.obj ms) =>
    let r := storeMembers m ms ([], true)
    if r.2 then .ok (some r.1) else .error .type
  | some _ => .error .type

end Json

/-- `FromJSONFile` (vocabulary/vocabulary.go:27-45) on a file with this content; `order` is the order in which Go iterates
over the decoded map. -/
def Vocab.fromJSONFile (m : Machine) (content : Str) (order : GoMap Str Int → List (Str × Int)) : Except Json.Error Vocab :=
  match Json.unmarshal m content with
  | .error e => .error e
  | .ok decoded => .ok (Vocab.fromJSON decoded (order (decoded.getD [])))

end Verif
