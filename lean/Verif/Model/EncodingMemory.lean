import Verif.Model.Encoding
import Verif.Model.Memory
import Verif.Model.Literal

/-!
# Encodings in memory

`Model/Encoding.lean` has an encoding as seven lists.  In Go it is a struct of eight slices: `NewEncoding` keeps the slices it is
given, `NewEncodingWithCapacity` allocates arrays, `append` writes into them or moves to larger ones, and `Overflowing` holds
pointers to encodings.  This file has encodings/encodings.go over an explicit memory.  The capacity `append` chooses is a parameter
(`grow`), and so are the size of a machine word in bytes and the largest allocation.
-/
set_option autoImplicit false

namespace Verif.EncodingMemory

open Memory (Slc)

/-- `encodings.Encoding` (encodings/encodings.go:10-28). -/
structure Obj where
  ids : Slc
  typeIDs : Slc
  tokens : Slc
  words : Slc
  offsets : Slc
  specialTokensMask : Slc
  attentionMask : Slc
  overflowing : Slc
deriving DecidableEq

/-- The arrays allocated so far, by type of element, and the encodings; an address is a position in the list. -/
structure EMem where
  ints : List (List Int)
  strs : List (List Str)
  offs : List (List ByteOffsets)
  ptrs : List (List (Option Nat))
  objs : List Obj
deriving DecidableEq

/-- The machine: bytes in an `int`, and in the largest allocation. -/
structure Mach where
  word : Nat
  maxAlloc : Nat

/-- `make([]T, 0, c)` with elements of `words` machine words: panics if `c` is negative or the array is too large. -/
def mk {α : Type} (k : Mach) (words : Nat) (zero : α) (m : List (List α)) (c : Int) : GoM (List (List α) × Slc) :=
  if 0 ≤ c ∧ c * (words * k.word : Nat) ≤ k.maxAlloc then
    .ok (m ++ [List.replicate c.toNat zero], ⟨m.length, 0, 0, c.toNat⟩)
  else .panic

/-- The elements of a slice. -/
def elems {α : Type} (m : List (List α)) (s : Slc) : List α := (((m[s.arr]?).getD []).drop s.off).take s.len

/-- `append(s, x)`. -/
def push {α : Type} (grow : Nat → Nat → Nat) (zero : α) (m : List (List α)) (s : Slc) (x : α) : List (List α) × Slc :=
  if s.len + 1 ≤ s.cap then
    (m.modify s.arr fun a => a.set (s.off + s.len) x, { s with len := s.len + 1 })
  else
    let c := max (s.len + 1) (grow s.cap (s.len + 1))
    (m ++ [elems m s ++ [x] ++ List.replicate (c - (s.len + 1)) zero], ⟨m.length, 0, s.len + 1, c⟩)

/-- `NewEncoding` (encodings/encodings.go:42-62). -/
def newEncoding (m : EMem) (ids typeIDs tokens words offsets specialTokensMask attentionMask overflowing : Slc) : EMem × Nat :=
  ({ m with objs := m.objs ++ [⟨ids, typeIDs, tokens, words, offsets, specialTokensMask, attentionMask, overflowing⟩] },
    m.objs.length)

/-- The struct literal of `NewEncodingWithCapacity` (encodings/encodings.go:71-80). -/
def withCapacityObj (k : Mach) (m : EMem) (c : Int) : GoM (EMem × Obj) := do
  let (is, ids) ← mk k 1 0 m.ints c
  let (is, typeIDs) ← mk k 1 0 is c
  let (ss, tokens) ← mk k 2 [] m.strs c
  let (is, words) ← mk k 1 0 is c
  let (os, offsets) ← mk k 2 ⟨0, 0⟩ m.offs c
  let (is, specialTokensMask) ← mk k 1 0 is c
  let (is, attentionMask) ← mk k 1 0 is c
  let (ps, overflowing) ← mk k 1 none m.ptrs 0
  pure ({ m with ints := is, strs := ss, offs := os, ptrs := ps },
    ⟨ids, typeIDs, tokens, words, offsets, specialTokensMask, attentionMask, overflowing⟩)

/-- `NewEncodingWithCapacity` (encodings/encodings.go:70-81). -/
def newEncodingWithCapacity (k : Mach) (m : EMem) (c : Int) : GoM (EMem × Nat) := do
  let (m, o) ← withCapacityObj k m c
  pure ({ m with objs := m.objs ++ [o] }, m.objs.length)

/-- `NewDefaultEncoding` (encodings/encodings.go:65-67). -/
def newDefaultEncoding (k : Mach) (m : EMem) : GoM (EMem × Nat) := newEncodingWithCapacity k m 0

/-- Loop body of `EncodingFromEncodableTokens` (encodings/encodings.go:86-92), on the struct behind the pointer. -/
def appendToken (grow : Nat → Nat → Nat) (st : EMem × Obj) (t : EncodableToken) : EMem × Obj :=
  let (m, o) := st
  let (is, ids) := push grow 0 m.ints o.ids t.id
  let (ss, tokens) := push grow [] m.strs o.tokens t.token
  let (os, offsets) := push grow ⟨0, 0⟩ m.offs o.offsets t.offsets
  let (is, typeIDs) := push grow 0 is o.typeIDs t.typeID
  let (is, words) := push grow 0 is o.words t.wordIndex
  let (is, specialTokensMask) := push grow 0 is o.specialTokensMask 0
  let (is, attentionMask) := push grow 0 is o.attentionMask 1
  ({ m with ints := is, strs := ss, offs := os },
    ⟨ids, typeIDs, tokens, words, offsets, specialTokensMask, attentionMask, o.overflowing⟩)

/-- `EncodingFromEncodableTokens` (encodings/encodings.go:83-95). -/
def fromEncodableTokens (k : Mach) (grow : Nat → Nat → Nat) (m : EMem) (ts : List EncodableToken) : GoM (EMem × Nat) := do
  let (m, p) ← newEncodingWithCapacity k m ts.length
  let o ← goIndex m.objs p
  let (m, o) := ts.foldl (appendToken grow) (m, o)
  let objs ← goSet m.objs p o
  pure ({ m with objs := objs }, p)

/-- `IsEmpty` (encodings/encodings.go:98-100). -/
def isEmpty (m : EMem) (p : Nat) : GoM Bool := do
  let o ← goIndex m.objs p
  pure (o.ids.len == 0)

/-- `Len` (encodings/encodings.go:103-105). -/
def len (m : EMem) (p : Nat) : GoM Int := do
  let o ← goIndex m.objs p
  pure o.ids.len

/-- What an encoding holds, `Overflowing` left out. -/
def view (m : EMem) (o : Obj) : Encoding :=
  ⟨elems m.ints o.ids, elems m.ints o.typeIDs, elems m.strs o.tokens, elems m.ints o.words, elems m.offs o.offsets,
    elems m.ints o.specialTokensMask, elems m.ints o.attentionMask⟩

end Verif.EncodingMemory
