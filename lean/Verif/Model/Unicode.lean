import Verif.Model.UnicodeTables
import Verif.Model.Regexp

/-! The parameters that stand for Go's package `unicode`, filled in with the tables of one version of Unicode. -/

set_option autoImplicit false

namespace Verif.Unicode

/-- `unicode.Is` for a table of ranges. -/
def inTable (t : List (Nat × Nat)) (r : Rune) : Bool :=
  decide (0 ≤ r) && t.any fun x => Nat.ble x.1 r.toNat && Nat.ble r.toNat x.2

/-- The entry `(first, last, step, image)` is about `n`. -/
def applies (e : Nat × Nat × Nat × Nat) (n : Nat) : Bool :=
  Nat.ble e.1 n && Nat.ble n e.2.1 && Nat.beq ((n - e.1) % e.2.2.1) 0

def lowerNat : List (Nat × Nat × Nat × Nat) → Nat → Nat
  | [], n => n
  | e :: t, n => if applies e n then e.2.2.2 + (n - e.1) else lowerNat t n

/-- `unicode.ToLower`. -/
def toLower (r : Rune) : Rune := if 0 ≤ r then (lowerNat tableLower r.toNat : Int) else r

/-- The classes of regexp2: `\p{L}`, `\p{N}`, `\s` (`unicode.IsSpace`), `\w` (L, Mn, Nd, Pc and the two joiners). -/
def rx : RxUni where
  lower := toLower
  isLetter := inTable tableL
  isNumber := inTable tableN
  isSpace := isWhiteSpace
  isWord := fun r => inTable tableL r || inTable tableMn r || inTable tableNd r || inTable tablePc r || r == 0x200C || r == 0x200D

/-- The tables used by `BertNormalizer`, `BertPreTokenizer` and `ToLower`. -/
def uni : Uni where
  isOther := inTable tableC
  isMn := inTable tableMn
  isPunct := inTable tableP
  toLower := toLower

end Verif.Unicode
