import Verif.Model.PreTokenizedString
import Verif.Spec.Tiling

/-! Specification vocabulary for whole pipelines: pre-tokenizer, model, encoding. -/

set_option autoImplicit false

namespace Verif

/-- The words `(pre, g)`: `g` stands after `pre` in the text.  They are not empty, come in the
order of the text without overlap and hold exactly the runes satisfying `keep`. -/
structure WordsOf (keep : Rune → Bool) (rs : List Rune) (L : List (List Rune × List Rune)) : Prop where
  located : ∀ x ∈ L, x.2 ≠ [] ∧ ∃ post, rs = x.1 ++ x.2 ++ post
  ordered : L.Pairwise fun x y => (x.1 ++ x.2).length ≤ y.1.length
  complete : L.flatMap (·.2) = rs.filter keep

/-- The encoding has exactly these rows: parallel arrays, masks 0 and 1. -/
structure HasRows (enc : Encoding) (rows : List EncodableToken) : Prop where
  ids : enc.ids = rows.map (·.id)
  typeIDs : enc.typeIDs = rows.map (·.typeID)
  tokens : enc.tokens = rows.map (·.token)
  words : enc.words = rows.map (·.wordIndex)
  offsets : enc.offsets = rows.map (·.offsets)
  special : enc.specialTokensMask = rows.map fun _ => 0
  attention : enc.attentionMask = rows.map fun _ => 1

/-- One row for every token of every word, in order; the offsets are the token's own, moved by
the number of bytes in front of the word; word number `i` counts from the given number, unless a
word index is given. -/
def rowsOf (T : List Rune × List Rune → List Token) (wordIndex typeID : Int) :
    Nat → List (List Rune × List Rune) → List EncodableToken
  | _, [] => []
  | i, x :: L =>
    (T x).map (fun t => ⟨t.id, t.value,
      ⟨(encodeRunes x.1).length + t.offsets.start, (encodeRunes x.1).length + t.offsets.stop⟩,
      if 0 ≤ wordIndex then wordIndex else i, typeID⟩) ++ rowsOf T wordIndex typeID (i + 1) L

/-- Tokens that cover the runes of a word one after the other, each a non-empty run of whole
runes; `pre` is what has been covered before. -/
inductive RuneTiles : List Rune → List Rune → List Token → Prop
  | nil {pre : List Rune} : RuneTiles pre [] []
  | cons {pre hd tl : List Rune} {t : Token} {ts : List Token} : hd ≠ [] →
      t.offsets = ⟨(encodeRunes pre).length, (encodeRunes (pre ++ hd)).length⟩ →
      RuneTiles (pre ++ hd) tl ts → RuneTiles pre (hd ++ tl) (t :: ts)

/-- The offsets select non-empty parts of the input, in order and without overlap; put together
they are `covered`. -/
structure OffsetsCover (input : Str) (os : List ByteOffsets) (covered : Str) : Prop where
  parts : ∀ o ∈ os, ∃ y, goSlice input o.start o.stop = .ok y ∧ y ≠ []
  ordered : os.Pairwise fun o o' => o.stop ≤ o'.start
  text : ∃ ys, All2 (fun o y => goSlice input o.start o.stop = .ok y) os ys ∧ ys.flatten = covered

end Verif
