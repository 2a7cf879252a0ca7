import Verif.Model.Bpe

namespace Verif

/-- `wordpiecemodel.WordPieceModel` (models/wordpiecemodel/wordpiecemodel.go:19-28). -/
structure WordPiece where
  vocab : Vocab
  unknownToken : Str
  continuingSubwordPrefix : Str
  maxInputCharsPerWord : Int
deriving DecidableEq, Repr

namespace WordPiece

/-- `sequence[start:end]` with the prefix when `start > 0` (wordpiecemodel.go:78-82);
`start < end ≤ len` there, so slicing cannot panic. -/
def subStr (m : WordPiece) (sequence : Str) (start stop : Nat) : Str :=
  let t := (sequence.drop start).take (stop - start)
  if start > 0 then m.continuingSubwordPrefix ++ t else t

/-- `len(string(b))` for a byte `b` (wordpiecemodel.go:95): the byte is converted to
a rune first, so it is 1 below 0x80 and 2 otherwise. -/
def byteStringLen (b : UInt8) : Nat := (encodeRune (b.toNat : Int)).length

/-- Inner loop (wordpiecemodel.go:77-99): shrink `stop` until the substring is in
the vocabulary.  Returns the token and the final `end`.  `fuel` bounds the
iterations; `stop` decreases, so `fuel = stop` is enough.  `stop` may drop
below `start` (an `int` in the code), hence `Int`. -/
def findToken (m : WordPiece) (sequence : Str) (start : Nat) : Nat → Int → Option Token
  | 0, _ => none
  | fuel + 1, stop =>
    if (start : Int) < stop then
      let sub := m.subStr sequence start stop.toNat
      match m.vocab.getID sub with
      | some id => some ⟨id, sub, ⟨start, stop⟩⟩
      | none =>
        match sub.getLast? with
        | some b => findToken m sequence start fuel (stop - byteStringLen b)
        | none => findToken m sequence start fuel (stop - 1)
    else none

/-- Outer loop (wordpiecemodel.go:72-108): `none` is `isBad`.  Each token advances
`start`, so `fuel = len(sequence)` is enough. -/
def tokenLoop (m : WordPiece) (sequence : Str) : Nat → Nat → Option (List Token)
  | fuel, start =>
    if start < sequence.length then
      match fuel with
      | 0 => none
      | fuel + 1 =>
        match m.findToken sequence start sequence.length sequence.length with
        | none => none
        | some t =>
          match tokenLoop m sequence fuel t.offsets.stop.toNat with
          | none => none
          | some ts => some (t :: ts)
    else some []

/-- The single unknown token over the whole sequence (wordpiecemodel.go:57-65, 111-119). -/
def unknown (m : WordPiece) (sequence : Str) : Except Err (List Token) :=
  match m.vocab.getID m.unknownToken with
  | none => .error .unkOutOfVocab
  | some id => .ok [⟨id, m.unknownToken, ⟨0, sequence.length⟩⟩]

/-- `Tokenize` (wordpiecemodel.go:55-123). -/
def tokenize (m : WordPiece) (sequence : Str) : Except Err (List Token) :=
  if ((runesOf sequence).length : Int) > m.maxInputCharsPerWord then m.unknown sequence
  else
    match m.tokenLoop sequence sequence.length 0 with
    | none => m.unknown sequence
    | some ts => .ok ts

end WordPiece
end Verif
