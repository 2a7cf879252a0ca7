import Verif.Model.PreTokenizers

/-! The two regular expressions the repository defines, run by a backtracking matcher.

`github.com/dlclark/regexp2` is an external engine; this is the part of it that the two
expressions use: literals, classes of runes, sequence, ordered alternatives, greedy `?` and
`+`, and a negative look-ahead for one class.  Both expressions are compiled with
`IgnoreCase|Multiline`: every rune of the text is lower-cased before it is compared with a
literal or a class; `Multiline` has no effect without anchors. -/

namespace Verif

/-- Regular expressions over runes. -/
inductive Re where
  /-- one rune of a class -/
  | chr (p : Rune → Bool)
  | seq (a b : Re)
  /-- the first alternative is preferred -/
  | alt (a b : Re)
  /-- greedy `a?` -/
  | opt (a : Re)
  /-- greedy `p+` for one class -/
  | plus (p : Rune → Bool)
  /-- `(?!p)` for one class -/
  | notAhead (p : Rune → Bool)

namespace Re

/-- The lengths of the matches at the start of the text, in the order in which a backtracking
engine tries them. -/
def matches' : Re → List Rune → List Nat
  | chr _, [] => []
  | chr p, r :: _ => if p r then [1] else []
  | seq a b, rs => (matches' a rs).flatMap fun k => (matches' b (rs.drop k)).map (k + ·)
  | alt a b, rs => matches' a rs ++ matches' b rs
  | opt a, rs => matches' a rs ++ [0]
  | plus p, rs => (List.range (rs.takeWhile p).length).reverse.map (· + 1)
  | notAhead _, [] => [0]
  | notAhead p, r :: _ => if p r then [] else [0]

/-- The match the engine reports at the start of the text: the first it finds. -/
def first (re : Re) (rs : List Rune) : Option Nat := (re.matches' rs).head?

/-- The matches from rune index `i` on, after passing over `skip` runes: `FindStringMatch`
then `FindNextMatch` until nil.  Each search starts where the last match ended, one rune
later if that match was empty. -/
def scan (re : Re) : List Rune → Nat → Nat → List (Nat × Nat)
  | [], i, 0 => match re.first [] with
    | some k => [(i, k)]
    | none => []
  | [], _, _ + 1 => []
  | r :: rs, i, 0 => match re.first (r :: rs) with
    | some k => (i, k) :: scan re rs (i + 1) (k - 1)
    | none => scan re rs (i + 1) 0
  | _ :: rs, i, skip + 1 => scan re rs (i + 1) skip

/-- All matches, as `Regexp2SplitPattern` collects them (splitpattern/regexp2.go:33-66). The
engine has no time limit set, so it reports no error. -/
def findAll (re : Re) (rs : List Rune) : Except Err (List (Nat × Nat)) := .ok (scan re rs 0 0)

/-- A literal. -/
def lit (lower : Rune → Rune) : List Rune → Re
  | [] => notAhead fun _ => false
  | [c] => chr fun r => lower r == c
  | c :: cs => seq (chr fun r => lower r == c) (lit lower cs)

end Re

/-- The character classes of the engine: lower-casing, `\p{L}`, `\p{N}`, `\s` and `\w`. -/
structure RxUni where
  lower : Rune → Rune
  isLetter : Rune → Bool
  isNumber : Rune → Bool
  isSpace : Rune → Bool
  isWord : Rune → Bool

namespace RxUni

def letter (u : RxUni) (r : Rune) : Bool := u.isLetter (u.lower r)
def number (u : RxUni) (r : Rune) : Bool := u.isNumber (u.lower r)
def space (u : RxUni) (r : Rune) : Bool := u.isSpace (u.lower r)
def word (u : RxUni) (r : Rune) : Bool := u.isWord (u.lower r)
/-- `[^\s\p{L}\p{N}]` -/
def other (u : RxUni) (r : Rune) : Bool := !(u.space r || u.letter r || u.number r)
/-- `[^\w\s]` -/
def symbol (u : RxUni) (r : Rune) : Bool := !(u.word r || u.space r)

end RxUni

open Re in
/-- `DefaultWordRegexp` (pretokenizers/whitespacepretokenizer/whitespacepretokenizer.go:24):
`\w+|[^\w\s]+`. -/
def wordRegexp (u : RxUni) : Re := alt (plus u.word) (plus u.symbol)

open Re in
/-- ` ?` followed by one or more runes of a class. -/
def spacedRun (u : RxUni) (p : Rune → Bool) : Re := seq (opt (lit u.lower [32])) (plus p)

open Re in
/-- `DefaultSplittingRegexp`
(pretokenizers/bytelevelpretokenizer/bytelevelpretokenizer.go:41-43):
`'s|'t|'re|'ve|'m|'ll|'d| ?\p{L}+| ?\p{N}+| ?[^\s\p{L}\p{N}]+|\s+(?!\S)|\s+`. -/
def splittingRegexp (u : RxUni) : Re :=
  alt (lit u.lower [39, 115]) <| alt (lit u.lower [39, 116]) <| alt (lit u.lower [39, 114, 101]) <|
  alt (lit u.lower [39, 118, 101]) <| alt (lit u.lower [39, 109]) <| alt (lit u.lower [39, 108, 108]) <|
  alt (lit u.lower [39, 100]) <| alt (spacedRun u u.letter) <| alt (spacedRun u u.number) <|
  alt (spacedRun u u.other) <| alt (seq (plus u.space) (notAhead fun r => !u.space r)) (plus u.space)

/-- `WhiteSpacePreTokenizer` as `NewDefault` makes it (whitespacepretokenizer.go:33-35). -/
def whiteSpaceDefault (u : RxUni) : PreTokenizer := whiteSpacePreTokenize (wordRegexp u).findAll

/-- `ByteLevelPreTokenizer` as `NewDefault` makes it (bytelevelpretokenizer.go:60-62). -/
def byteLevelDefault (u : RxUni) : PreTokenizer := byteLevel (splittingRegexp u).findAll true

end Verif
