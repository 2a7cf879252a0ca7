import Verif.Model.Json
import Verif.Model.Notation

/-! The grammar of JSON (RFC 8259), with the value each text stands for. -/

set_option autoImplicit false

namespace Verif
namespace Json

/-- Insignificant white space: blanks, tabs, line feeds and carriage returns. -/
def Ws (w : Str) : Prop := ∀ b ∈ w, b ∈ b!" \t\n\r"

/-- Decimal digits. -/
def Digits (ds : Str) : Prop := ∀ b ∈ ds, b ∈ b!"0123456789"

/-- `b` is the hexadecimal digit with value `n`, in lower or upper case. -/
def HexDigit (b : UInt8) (n : Nat) : Prop :=
  b!"0123456789abcdef"[n]? = some b ∨ b!"0123456789ABCDEF"[n]? = some b

/-- `h` are the four hexadecimal digits of `n`. -/
def Hex4 (h : Str) (n : Nat) : Prop :=
  ∃ b1 b2 b3 b4 n1 n2 n3 n4, h = [b1, b2, b3, b4] ∧ HexDigit b1 n1 ∧ HexDigit b2 n2 ∧ HexDigit b3 n3 ∧ HexDigit b4 n4
    ∧ n = 4096 * n1 + 256 * n2 + 16 * n3 + n4

/-- The short escapes: the byte after the backslash, and the byte it stands for. -/
def shortEscapes : List (UInt8 × UInt8) :=
  [(0x22, 0x22), (0x5C, 0x5C), (0x2F, 0x2F), (0x62, 0x08), (0x66, 0x0C), (0x6E, 0x0A), (0x72, 0x0D), (0x74, 0x09)]

/-- `t` starts with the escape of a low surrogate. -/
def StartsLow (t : Str) : Prop := ∃ h n t', t = b!"\\u" ++ h ++ t' ∧ Hex4 h n ∧ 0xDC00 ≤ n ∧ n < 0xE000

/-- The text between the quotes of a string, and the string.  Bytes that are not UTF-8 and surrogates that are not paired
stand for U+FFFD. -/
inductive Body : Str → Str → Prop
  | nil : Body [] []
  | char {r : Rune} {t s : Str} : ValidRune r → 0x20 ≤ r → r ≠ u!"\"" → r ≠ u!"\\" → Body t s →
      Body (encodeRune r ++ t) (encodeRune r ++ s)
  | bad {b : UInt8} {t s : Str} : (∀ (r : Rune) (t' : Str), ValidRune r → b :: t ≠ encodeRune r ++ t') → Body t s →
      Body (b :: t) (encodeRune 0xFFFD ++ s)
  | short {c x : UInt8} {t s : Str} : (c, x) ∈ shortEscapes → Body t s → Body (b!"\\" ++ c :: t) (x :: s)
  | unicode {h t s : Str} {n : Nat} : Hex4 h n → n < 0xD800 ∨ 0xE000 ≤ n → Body t s →
      Body (b!"\\u" ++ h ++ t) (encodeRune n ++ s)
  | pair {h h' t s : Str} {hi lo : Nat} : Hex4 h hi → Hex4 h' lo → 0xD800 ≤ hi → hi < 0xDC00 → 0xDC00 ≤ lo → lo < 0xE000 →
      Body t s → Body (b!"\\u" ++ h ++ b!"\\u" ++ h' ++ t) (encodeRune (0x10000 + 0x400 * (hi - 0xD800) + (lo - 0xDC00)) ++ s)
  | lone {h t s : Str} {n : Nat} : Hex4 h n → 0xD800 ≤ n → n < 0xE000 → ¬(n < 0xDC00 ∧ StartsLow t) → Body t s →
      Body (b!"\\u" ++ h ++ t) (encodeRune 0xFFFD ++ s)

/-- The integer part of a number. -/
def IntPart (t : Str) : Prop := t = b!"0" ∨ (Digits t ∧ t ≠ [] ∧ t.head? ≠ some 0x30)

/-- A number: sign, integer part, fraction, exponent. -/
def Number (t : Str) : Prop :=
  ∃ sign i f e : Str, t = sign ++ i ++ f ++ e ∧ (sign = [] ∨ sign = b!"-") ∧ IntPart i
    ∧ (f = [] ∨ ∃ ds, f = b!"." ++ ds ∧ Digits ds ∧ ds ≠ [])
    ∧ (e = [] ∨ ∃ x y ds, e = x ++ y ++ ds ∧ (x = b!"e" ∨ x = b!"E") ∧ (y = [] ∨ y = b!"+" ∨ y = b!"-") ∧ Digits ds ∧ ds ≠ [])

mutual

/-- `Value d t v`: the text `t`, without white space around it, is the value `v`, with arrays and objects at most `d` deep. -/
inductive Value : Nat → Str → Val → Prop
  | null {d : Nat} : Value d b!"null" .null
  | boolTrue {d : Nat} : Value d b!"true" (.bool true)
  | boolFalse {d : Nat} : Value d b!"false" (.bool false)
  | num {d : Nat} {t : Str} : Number t → Value d t (.num t)
  | str {d : Nat} {t s : Str} : Body t s → Value d (b!"\"" ++ t ++ b!"\"") (.str s)
  | arr0 {d : Nat} {w : Str} : Ws w → Value (d + 1) (b!"[" ++ w ++ b!"]") (.arr [])
  | arr {d : Nat} {t : Str} {vs : List Val} : Elems d t vs → Value (d + 1) (b!"[" ++ t ++ b!"]") (.arr vs)
  | obj0 {d : Nat} {w : Str} : Ws w → Value (d + 1) (b!"{" ++ w ++ b!"}") (.obj [])
  | obj {d : Nat} {t : Str} {ms : List (Str × Val)} : Members d t ms → Value (d + 1) (b!"{" ++ t ++ b!"}") (.obj ms)

/-- Values separated by commas. -/
inductive Elems : Nat → Str → List Val → Prop
  | one {d : Nat} {w t w' : Str} {v : Val} : Ws w → Value d t v → Ws w' → Elems d (w ++ t ++ w') [v]
  | cons {d : Nat} {w t w' u : Str} {v : Val} {vs : List Val} : Ws w → Value d t v → Ws w' → Elems d u vs →
      Elems d (w ++ t ++ w' ++ b!"," ++ u) (v :: vs)

/-- Keys and values separated by commas. -/
inductive Members : Nat → Str → List (Str × Val) → Prop
  | one {d : Nat} {w k w1 w2 t w' key : Str} {v : Val} : Ws w → Body k key → Ws w1 → Ws w2 → Value d t v → Ws w' →
      Members d (w ++ (b!"\"" ++ k ++ b!"\"") ++ w1 ++ b!":" ++ w2 ++ t ++ w') [(key, v)]
  | cons {d : Nat} {w k w1 w2 t w' u key : Str} {v : Val} {ms : List (Str × Val)} : Ws w → Body k key → Ws w1 → Ws w2 →
      Value d t v → Ws w' → Members d u ms →
      Members d (w ++ (b!"\"" ++ k ++ b!"\"") ++ w1 ++ b!":" ++ w2 ++ t ++ w' ++ b!"," ++ u) ((key, v) :: ms)

end

/-- The file is the JSON value `v`, at most 10000 deep, with white space around it. -/
def Document (content : Str) (v : Val) : Prop :=
  ∃ w t w', content = w ++ t ++ w' ∧ Ws w ∧ Value 10000 t v ∧ Ws w'

/-- The integer that digits stand for, continuing `n`. -/
def digitsVal (n : Nat) (ds : Str) : Nat := ds.foldl (fun n b => 10 * n + (b.toNat - 48)) n

/-- The number is written without fraction and exponent, and is `i`. -/
def IntText (t : Str) (i : Int) : Prop :=
  ∃ ds, IntPart ds ∧ ((t = ds ∧ i = digitsVal 0 ds) ∨ (t = b!"-" ++ ds ∧ i = -(digitsVal 0 ds : Int)))

/-- The id that a value gives to its term: an integer of type `int`, or `null` for 0. -/
def IdOf (m : Machine) (v : Val) (i : Int) : Prop :=
  (v = .null ∧ i = 0) ∨ ∃ t, v = .num t ∧ IntText t i ∧ -(m.half : Int) ≤ i ∧ i < m.half

/-- The last of the members with this key gives the id. -/
def LastId (m : Machine) (ms : List (Str × Val)) (term : Str) (i : Int) : Prop :=
  ∃ pre v post, ms = pre ++ (term, v) :: post ∧ (∀ e ∈ post, e.1 ≠ term) ∧ IdOf m v i

/-! A writer: terms with the necessary escapes, ids in decimal, no white space. -/

/-- A hexadecimal digit. -/
def hexDigit (n : Nat) : UInt8 := b!"0123456789abcdef"[n]?.getD 0

/-- A byte of a term. -/
def writeByte (b : UInt8) : Str :=
  if b = 0x22 ∨ b = 0x5C then [0x5C, b]
  else if b < 0x20 then b!"\\u00" ++ [hexDigit (b.toNat / 16), hexDigit (b.toNat % 16)]
  else [b]

/-- A number in decimal; `fuel` bounds the number of its digits. -/
def decimalAux : Nat → Nat → Str
  | 0, n => [UInt8.ofNat (48 + n % 10)]
  | fuel + 1, n => if n < 10 then [UInt8.ofNat (48 + n)] else decimalAux fuel (n / 10) ++ [UInt8.ofNat (48 + n % 10)]

def writeInt (i : Int) : Str := if i < 0 then b!"-" ++ decimalAux i.natAbs i.natAbs else decimalAux i.natAbs i.natAbs

def writeMember (e : Str × Int) : Str := b!"\"" ++ e.1.flatMap writeByte ++ b!"\":" ++ writeInt e.2

def writeMembers : List (Str × Int) → Str
  | [] => []
  | [e] => writeMember e
  | e :: es => writeMember e ++ b!"," ++ writeMembers es

/-- A vocabulary as a JSON object. -/
def writeVocab (es : List (Str × Int)) : Str := b!"{" ++ writeMembers es ++ b!"}"

end Json
end Verif
