import Verif.Spec.Pieces

/-! Specification vocabulary for tokens over the bytes of a text. -/

set_option autoImplicit false

namespace Verif

/-- `G` are the characters of the text that have a byte among the bytes `a` to `e`: the first one
holds byte `a`, the last one byte `e - 1`. -/
def CoversBytes (cs : List Ch) (a e : Nat) (G : List Ch) : Prop :=
  ∃ A C, cs = A ++ G ++ C ∧ (text A).length ≤ a ∧ a < (text (A ++ G.take 1)).length
    ∧ (text (A ++ G.dropLast)).length < e ∧ e ≤ (text (A ++ G)).length

/-- The byte strings `ys` stand one after the other in the text from byte `a` on, none is empty, and
each has the offsets, moved by `shift`, from the start of the original range of the first
character it touches to the end of that of the last. -/
def ByteRows (cs : List Ch) (shift : Int) : Nat → List Str → List ByteOffsets → Prop
  | a, [], [] => a = (text cs).length
  | a, y :: ys, o :: os => y ≠ [] ∧ ((text cs).drop a).take y.length = y
      ∧ (∃ G, CoversBytes cs a (a + y.length) G
        ∧ o = ⟨shift + (firstAlign G).start, shift + (lastAlign G).stop⟩)
      ∧ ByteRows cs shift (a + y.length) ys os
  | _, _, _ => False

/-- The word number of every token, `T` being the tokens of each piece: the number of the piece,
counting from the given number, unless a word index is given. -/
def wordsFrom (wordIndex : Int) : Nat → List (List Token) → List Int
  | _, [] => []
  | i, ts :: T => (ts.map fun _ => if 0 ≤ wordIndex then wordIndex else (i : Int)) ++ wordsFrom wordIndex (i + 1) T

/-- What the encoding says when the pieces, with the bytes `pieces`, have the tokens `T`: one row
per token, in order.  The bytes of each piece are cut into one part `y` per token, and the offsets
are those of the characters of the whole text `cs` that the part touches. -/
structure EncodesBytes (cs : List Ch) (shift w ty : Int) (pieces : List Str) (T : List (List Token))
    (yss : List (List Str)) (enc : Encoding) : Prop where
  ids : enc.ids = T.flatten.map (·.id)
  typeIDs : enc.typeIDs = T.flatten.map fun _ => ty
  tokens : enc.tokens = T.flatten.map (·.value)
  words : enc.words = wordsFrom w 0 T
  special : enc.specialTokensMask = T.flatten.map fun _ => 0
  attention : enc.attentionMask = T.flatten.map fun _ => 1
  parts : All2 (fun p ys => ys.flatten = p) pieces yss
  perToken : All2 (fun (ts : List Token) (ys : List Str) => ts.length = ys.length) T yss
  offsets : ByteRows cs shift 0 yss.flatten enc.offsets

/-- The part `y` of the text `g` starts in the first and ends in the last of these characters. -/
def Touches (g : List Rune) (y : Str) : Prop :=
  ∃ pre post, encodeRunes g = pre ++ y ++ post ∧ pre.length < (encodeRunes (g.take 1)).length
    ∧ (encodeRunes g.dropLast).length + post.length < (encodeRunes g).length

/-- The offsets select the characters of the input that `y` touches. -/
def SelectsTouched (input : Str) (y : Str) (o : ByteOffsets) : Prop :=
  ∃ g, goSlice input o.start o.stop = .ok (encodeRunes g) ∧ Touches g y

end Verif
