import Verif.Model.Go
import Verif.Model.Utf8

namespace Verif

/-- `encodings.Encoding` (encodings/encodings.go:10-28).  `Overflowing`, which
no function fills, is in `Model/EncodingMemory.lean`. -/
structure Encoding where
  ids : List Int
  typeIDs : List Int
  tokens : List Str
  words : List Int
  offsets : List ByteOffsets
  specialTokensMask : List Int
  attentionMask : List Int
deriving DecidableEq, Repr

/-- `encodings.EncodableToken` (encodings/encodings.go:32-39). -/
structure EncodableToken where
  id : Int
  token : Str
  offsets : ByteOffsets
  wordIndex : Int
  typeID : Int
deriving DecidableEq, Repr

namespace Encoding

/-- `NewDefaultEncoding` and `NewEncodingWithCapacity` (encodings/encodings.go:65-81). -/
def default : Encoding := ⟨[], [], [], [], [], [], []⟩

/-- Loop body of `EncodingFromEncodableTokens` (encodings/encodings.go:85-93). -/
def appendToken (e : Encoding) (t : EncodableToken) : Encoding :=
  { ids := e.ids ++ [t.id]
    tokens := e.tokens ++ [t.token]
    offsets := e.offsets ++ [t.offsets]
    typeIDs := e.typeIDs ++ [t.typeID]
    words := e.words ++ [t.wordIndex]
    specialTokensMask := e.specialTokensMask ++ [0]
    attentionMask := e.attentionMask ++ [1] }

/-- `EncodingFromEncodableTokens` (encodings/encodings.go:83-95). -/
def fromEncodableTokens (ts : List EncodableToken) : Encoding := ts.foldl appendToken default

/-- `IsEmpty` (encodings/encodings.go:98-100). -/
def isEmpty (e : Encoding) : Bool := e.ids.length == 0

/-- `Len` (encodings/encodings.go:103-105). -/
def len (e : Encoding) : Int := e.ids.length

end Encoding
end Verif
