import Verif.Spec.Utf8

/-!
The tokenizers of the BERT reference implementation as functions on texts: words are cut at white space, punctuation
marks are words of their own, and a word is cut into the longest known pieces from left to right.
-/

set_option autoImplicit false

namespace Verif.Ref

/-- The words of a text, `cur` being the runes of the word read so far. -/
def cutWords (isSep isSolo : Rune → Bool) : List Rune → List Rune → List (List Rune)
  | cur, [] => if cur = [] then [] else [cur]
  | cur, r :: rs =>
    if isSep r then (if cur = [] then [] else [cur]) ++ cutWords isSep isSolo [] rs
    else if isSolo r then (if cur = [] then [] else [cur]) ++ [r] :: cutWords isSep isSolo [] rs
    else cutWords isSep isSolo (cur ++ [r]) rs

/-- The largest number, at most `n`, of runes at the front that are known as a piece after `mark`.  `look` says whether the
search looks at a boundary, given the runes after it. -/
def longestKnown (known : Str → Bool) (look : List Rune → Bool) (mark : Str) (rs : List Rune) : Nat → Option Nat
  | 0 => none
  | n + 1 =>
    if look (rs.drop (n + 1)) && known (mark ++ encodeRunes (rs.take (n + 1))) then some (n + 1)
    else longestKnown known look mark rs n

/-- The longest known piece, then the same with the rest, where pieces are marked; `none` when nothing is known. -/
def longestPieces (known : Str → Bool) (look : List Rune → Bool) (mark : Str) : Nat → Bool → List Rune → Option (List Str)
  | _, _, [] => some []
  | 0, _, _ :: _ => none
  | fuel + 1, first, r :: rs =>
    match longestKnown known look (if first then [] else mark) (r :: rs) (rs.length + 1) with
    | none => none
    | some n =>
      (longestPieces known look mark fuel false ((r :: rs).drop n)).map
        (((if first then [] else mark) ++ encodeRunes ((r :: rs).take n)) :: ·)

/-- The pieces of a word; the unknown token if it is too long or cannot be cut. -/
def wordPieces (known : Str → Bool) (look : List Rune → Bool) (unk mark : Str) (max : Int) (rs : List Rune) : List Str :=
  if (rs.length : Int) > max then [unk] else (longestPieces known look mark rs.length true rs).getD [unk]

end Verif.Ref
