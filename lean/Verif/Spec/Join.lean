import Verif.Model.Regexp

/-! What it means to read ids back, and to join two encodings. -/

set_option autoImplicit false

namespace Verif

/-- The term written with an id in a vocabulary file. -/
def termFor (es : List (Str × Int)) (i : Int) : Str := ((es.find? fun e => e.2 == i).map (·.1)).getD []

/-- The encoding of two texts, the first of which has `len` bytes and is cut into words with `wordIndex` given or numbered. -/
def joinEncodings (len : Nat) (wordIndex : Int) (A B : Encoding) : Encoding where
  ids := A.ids ++ B.ids
  typeIDs := A.typeIDs ++ B.typeIDs
  tokens := A.tokens ++ B.tokens
  words := A.words ++ B.words.map fun i => if 0 ≤ wordIndex then i else i + (A.words.getLast?.map (· + 1)).getD 0
  offsets := A.offsets ++ B.offsets.map fun o => ⟨o.start + len, o.stop + len⟩
  specialTokensMask := A.specialTokensMask ++ B.specialTokensMask
  attentionMask := A.attentionMask ++ B.attentionMask

end Verif
