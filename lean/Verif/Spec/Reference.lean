import Verif.Spec.Utf8
import Verif.Model.Notation

/-!
BPE by texts, without ids, ranks, queues and linked symbols: merge rules in order of priority, as the lines of a
merges file.  `onePass` merges one pair at a time; `everyPass` is the `bpe` function of the GPT-2 reference
implementation, which merges all occurrences of a pair before it looks for the next rule.
-/

set_option autoImplicit false

namespace Verif.Ref

/-- The neighbours in a list of pieces. -/
def neighbours : List Str → List (Str × Str)
  | a :: b :: l => (a, b) :: neighbours (b :: l)
  | _ => []

/-- The rules without those that come again later: the last line with a rule counts. -/
def lastOnly : List (Str × Str) → List (Str × Str)
  | [] => []
  | r :: l => if r ∈ l then lastOnly l else r :: lastOnly l

/-- The first rule that applies. -/
def firstRule (rules : List (Str × Str)) (w : List Str) : Option (Str × Str) :=
  (lastOnly rules).find? fun r => decide (r ∈ neighbours w)

/-- Merges the leftmost occurrence of a pair. -/
def mergeFirst (a b : Str) : List Str → List Str
  | x :: y :: l => if x = a ∧ y = b then (x ++ y) :: l else x :: mergeFirst a b (y :: l)
  | l => l

/-- Merges every occurrence of a pair, from left to right. -/
def mergeEvery (a b : Str) : List Str → List Str
  | x :: y :: l => if x = a ∧ y = b then (x ++ y) :: mergeEvery a b l else x :: mergeEvery a b (y :: l)
  | l => l

/-- Rounds of: find the first rule that applies, merge its leftmost occurrence. -/
def onePass (rules : List (Str × Str)) : Nat → List Str → List Str
  | 0, w => w
  | n + 1, w =>
    match firstRule rules w with
    | none => w
    | some (a, b) => onePass rules n (mergeFirst a b w)

/-- Rounds of: find the first rule that applies, merge all its occurrences. -/
def everyPass (rules : List (Str × Str)) : Nat → List Str → List Str
  | 0, w => w
  | n + 1, w =>
    match firstRule rules w with
    | none => w
    | some (a, b) => everyPass rules n (mergeEvery a b w)

/-- BPE with one merge at a time. -/
def bpe (rules : List (Str × Str)) (w : List Str) : List Str := onePass rules w.length w

/-- BPE as in the GPT-2 reference implementation. -/
def gptBpe (rules : List (Str × Str)) (w : List Str) : List Str := everyPass rules w.length w

/-- A rule that uses the product of another rule comes after it. -/
def InOrder (rules : List (Str × Str)) : Prop :=
  ∀ (i j : Nat) (a b c d : Str), rules[i]? = some (a, b) → rules[j]? = some (c, d) → c = a ++ b ∨ d = a ++ b → i < j

/-- Rules as training makes them: the parts of a rule are characters or products of earlier rules, and no product comes
twice. -/
def Trained (rules : List (Str × Str)) : Prop :=
  (rules.map fun r => r.1 ++ r.2).Nodup ∧
  ∀ (j : Nat) (c d : Str), rules[j]? = some (c, d) → ∀ p ∈ [c, d],
    (∃ r : Rune, ValidRune r ∧ p = encodeRune r) ∨ ∃ (i : Nat) (a b : Str), i < j ∧ rules[i]? = some (a, b) ∧ p = a ++ b

/-- A merges file: a version line, then one rule per line. -/
def writeRules (rules : List (Str × Str)) : Str :=
  b!"#version: 0.2\n" ++ rules.flatMap fun r => r.1 ++ b!" " ++ r.2 ++ b!"\n"

/-- What a merges file can hold: no blanks and line feeds inside a part, no carriage return at the end of the line, no line
that looks like a version line, and no line of 64 KiB. -/
def Writable (r : Str × Str) : Prop :=
  (∀ b ∈ r.1 ++ r.2, b ≠ 0x20 ∧ b ≠ 0x0A) ∧ r.2.getLast? ≠ some 0x0D ∧ ¬ b!"#version" <+: r.1 ∧ r.1.length + r.2.length + 1 < 64 * 1024

/-- The pieces with the places where they start and end. -/
def placed : Int → List Str → List (Str × Int × Int)
  | _, [] => []
  | a, x :: l => (x, a, a + x.length) :: placed (a + x.length) l

end Verif.Ref
