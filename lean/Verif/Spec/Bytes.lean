import Verif.Model.Utf8

/-! How an arbitrary byte string is read: vocabulary for texts that need not be valid UTF-8. -/

set_option autoImplicit false

namespace Verif

/-- One step of reading a byte string: the bytes read and the rune seen. -/
structure Chunk where
  bytes : Str
  rune : Rune
deriving DecidableEq, Repr

/-- `Reads s cs`: reading `s` from left to right gives the chunks `cs`.  Where the encoding of a
Unicode scalar value starts, it is read whole; where none starts, one byte is read and U+FFFD is
seen (the Go specification on `range` over a string). -/
inductive Reads : Str → List Chunk → Prop
  | nil : Reads [] []
  | rune {r : Rune} {t : Str} {cs : List Chunk} : ValidRune r → Reads t cs →
      Reads (encodeRune r ++ t) (⟨encodeRune r, r⟩ :: cs)
  | bad {b : UInt8} {t : Str} {cs : List Chunk} :
      (∀ (r : Rune) (t' : Str), ValidRune r → b :: t ≠ encodeRune r ++ t') → Reads t cs →
      Reads (b :: t) (⟨[b], 0xFFFD⟩ :: cs)

/-- Worker of `chunks`: `skip` bytes still belong to the chunk read last. -/
def chunksAux : Str → Nat → List Chunk
  | [], _ => []
  | b :: bs, 0 =>
    ⟨(b :: bs).take (decodeRune (b :: bs)).2, (decodeRune (b :: bs)).1⟩
      :: chunksAux bs ((decodeRune (b :: bs)).2 - 1)
  | _ :: bs, k + 1 => chunksAux bs k

/-- The chunks of a byte string (the only `cs` with `Reads s cs`: `reads_chunks`, `Reads.unique`). -/
def chunks (s : Str) : List Chunk := chunksAux s 0

/-- The bytes of a list of chunks. -/
def textOf (cs : List Chunk) : Str := cs.flatMap (·.bytes)

/-- A byte that starts no encoding was read here. -/
def Chunk.isBad (c : Chunk) : Bool := c.bytes != encodeRune c.rune

/-- The segments of a list of chunks: each chunk whose rune satisfies `f` on its own (`true`), and
the maximal runs of the others (`false`), in order. -/
def chunkSegs (f : Rune → Bool) : List Chunk → List (Bool × List Chunk)
  | [] => []
  | c :: cs =>
    if f c.rune then (true, [c]) :: chunkSegs f cs
    else match chunkSegs f cs with
      | (false, g) :: t => (false, c :: g) :: t
      | t => (false, [c]) :: t

/-- The pieces left after cutting at the chunks whose rune satisfies `f`: with `keep` these chunks
are pieces of their own, otherwise they are dropped. -/
def chunkPieces (keep : Bool) (f : Rune → Bool) (cs : List Chunk) : List (List Chunk) :=
  ((chunkSegs f cs).filter fun p => keep || !p.1).map (·.2)

/-- The text with every bad byte replaced by the three bytes of U+FFFD. -/
def sanitizeText (s : Str) : Str := encodeRunes ((chunks s).map (·.rune))

end Verif
