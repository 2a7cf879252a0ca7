import Verif.Model.WordPiece
import Verif.Spec.ByteRows

/-! Specification vocabulary for tokens over the characters of a state. -/

set_option autoImplicit false

namespace Verif

/-- The offsets of a group of characters: from the start of the range of the first one to the end
of that of the last, moved by `shift`. -/
def groupOffsets (shift : Int) (G : List Ch) : ByteOffsets :=
  ⟨shift + (firstAlign G).start, shift + (lastAlign G).stop⟩

/-- One group per token; each token has its own offsets over the text of its group, `pre` being the
characters in front. -/
def OverGroups : List Ch → List (List Ch) → List Token → Prop
  | _, [], [] => True
  | pre, G :: Gs, t :: ts => t.offsets = ⟨(text pre).length, (text (pre ++ G)).length⟩ ∧ OverGroups (pre ++ G) Gs ts
  | _, _, _ => False

/-- What the encoding says when the words, with the characters `W`, have the tokens `T`: one row per
token, in order.  The characters of each word are cut into one group per token, none empty, and the
offsets are those of the groups. -/
structure EncodesChars (shift w ty : Int) (W : List (List Ch)) (T : List (List Token))
    (Gss : List (List (List Ch))) (enc : Encoding) : Prop where
  ids : enc.ids = T.flatten.map (·.id)
  typeIDs : enc.typeIDs = T.flatten.map fun _ => ty
  tokens : enc.tokens = T.flatten.map (·.value)
  words : enc.words = wordsFrom w 0 T
  special : enc.specialTokensMask = T.flatten.map fun _ => 0
  attention : enc.attentionMask = T.flatten.map fun _ => 1
  groups : All2 (fun B Gs => Gs.flatten = B ∧ ∀ G ∈ Gs, G ≠ []) W Gss
  perToken : All2 (fun (ts : List Token) Gs => OverGroups [] Gs ts) T Gss
  offsets : enc.offsets = Gss.flatten.map (groupOffsets shift)

/-- The values of the WordPiece tokens of one word: the text of the groups, after the prefix except
for the first one; the vocabulary has them all. -/
def PieceValues (m : WordPiece) : Bool → List (List Ch) → List Token → Prop
  | _, [], [] => True
  | first, G :: Gs, t :: ts => t.value = (if first then text G else m.continuingSubwordPrefix ++ text G)
      ∧ m.vocab.getID t.value = some t.id ∧ PieceValues m false Gs ts
  | _, _, _ => False

/-- The word is unknown as a whole, or spelled by its tokens. -/
def WordPieceWord (m : WordPiece) (Gs : List (List Ch)) (ts : List Token) : Prop :=
  (∃ G t, Gs = [G] ∧ ts = [t] ∧ t.value = m.unknownToken ∧ m.vocab.getID m.unknownToken = some t.id)
    ∨ PieceValues m true Gs ts

end Verif
