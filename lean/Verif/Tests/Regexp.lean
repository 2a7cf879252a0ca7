import Verif.Model.Regexp
import Verif.Tests.Others

/-! The unit tests of the two pre-tokenizers with regular expressions, with the expressions
themselves instead of their matches. -/

namespace Verif.Tests
open Verif

/-- Enough of the character tables for the tests. -/
def asciiUni : RxUni where
  lower r := if 65 ≤ r ∧ r ≤ 90 then r + 32 else r
  isLetter r := decide (97 ≤ r ∧ r ≤ 122)
  isNumber r := decide (48 ≤ r ∧ r ≤ 57)
  isSpace := isWhiteSpace
  isWord r := decide (97 ≤ r ∧ r ≤ 122) || decide (48 ≤ r ∧ r ≤ 57) || r == 95

example : origSplits (whiteSpaceDefault asciiUni) b!"Hey man!"
  = .ok ([(b!"Hey",0,3),(b!"man",4,7),(b!"!",7,8)], none) := by decide +kernel
example : origSplits (whiteSpaceDefault asciiUni) b!"How are you doing?"
  = .ok ([(b!"How",0,3),(b!"are",4,7),(b!"you",8,11),(b!"doing",12,17),(b!"?",17,18)], none) := by decide +kernel

def plain := byteLevel (splittingRegexp asciiUni).findAll false
example : origSplits plain b!"Hello my friend, how is your day going?"
  = .ok ([(b!"Hello",0,5),(b!"Ġmy",5,8),(b!"Ġfriend",8,15),(b!",",15,16),(b!"Ġhow",16,20),(b!"Ġis",20,23),
      (b!"Ġyour",23,28),(b!"Ġday",28,32),(b!"Ġgoing",32,38),(b!"?",38,39)], none) := by decide +kernel
def spaced : GoM (List (Str × Int × Int) × Option Err) :=
  .ok ([(b!"ĠHello",0,7),(b!"Ġmy",7,11),(b!"Ġfriend",11,19),(b!",",19,20),(b!"Ġhow",20,25),(b!"Ġis",25,29),
      (b!"Ġyour",29,35),(b!"Ġday",35,40),(b!"Ġgoing",40,47),(b!"?",47,48)], none)
example : normSplits (byteLevelDefault asciiUni) b!"Hello my friend, how is your day going?" = spaced := by decide +kernel
example : normSplits (byteLevelDefault asciiUni) b!" Hello my friend, how is your day going?" = spaced := by decide +kernel
example : origSplits plain b!"Hello there\nHello there"
  = .ok ([(b!"Hello",0,5),(b!"Ġthere",5,11),(b!"Ċ",11,12),(b!"Hello",12,17),(b!"Ġthere",17,23)], none) := by
  decide +kernel
example : origSplits plain b!"Hello there       dear"
  = .ok ([(b!"Hello",0,5),(b!"Ġthere",5,11),(b!"ĠĠĠĠĠĠ",11,17),(b!"Ġdear",17,22)], none) := by decide +kernel
example : origSplits plain b!"i⭢j" = .ok ([(b!"i",0,1),(b!"âŃ¢",1,4),(b!"j",4,5)], none) := by decide +kernel
example : normSplits plain b!"i⭢j" = .ok ([(b!"i",0,1),(b!"âŃ¢",1,7),(b!"j",7,8)], none) := by decide +kernel
example : origSplits plain b!"I'LL they've ''s" = .ok ([(b!"I",0,1),(b!"'LL",1,4),(b!"Ġthey",4,9),(b!"'ve",9,12),
  (b!"Ġ''",12,15),(b!"s",15,16)], none) := by decide +kernel

end Verif.Tests
