import Verif.Model.WordPiece
import Verif.Model.Literal

/-! Counting: how often WordPiece looks up a string in the vocabulary, and the queue with a limit on its rounds. -/

set_option autoImplicit false

namespace Verif
namespace WordPiece

/-- The inner loop (wordpiecemodel.go:77-99) together with the number of its lookups. -/
def findTokenCount (m : WordPiece) (sequence : Str) (start : Nat) : Nat → Int → Option Token × Nat
  | 0, _ => (none, 0)
  | fuel + 1, stop =>
    if (start : Int) < stop then
      let sub := m.subStr sequence start stop.toNat
      match m.vocab.getID sub with
      | some id => (some ⟨id, sub, ⟨start, stop⟩⟩, 1)
      | none =>
        match sub.getLast? with
        | some b =>
          let r := findTokenCount m sequence start fuel (stop - byteStringLen b)
          (r.1, r.2 + 1)
        | none =>
          let r := findTokenCount m sequence start fuel (stop - 1)
          (r.1, r.2 + 1)
    else (none, 0)

/-- The outer loop (wordpiecemodel.go:72-108) together with the number of lookups. -/
def tokenLoopCount (m : WordPiece) (sequence : Str) : Nat → Nat → Option (List Token) × Nat
  | fuel, start =>
    if start < sequence.length then
      match fuel with
      | 0 => (none, 0)
      | fuel + 1 =>
        let r := m.findTokenCount sequence start sequence.length sequence.length
        match r.1 with
        | none => (none, r.2)
        | some t =>
          let r' := tokenLoopCount m sequence fuel t.offsets.stop.toNat
          match r'.1 with
          | none => (none, r.2 + r'.2)
          | some ts => (some (t :: ts), r.2 + r'.2)
    else (some [], 0)

/-- `Tokenize` (wordpiecemodel.go:55-123) together with the number of lookups; the unknown token is looked
up once when it is needed. -/
def tokenizeCount (m : WordPiece) (sequence : Str) : Except Err (List Token) × Nat :=
  if ((runesOf sequence).length : Int) > m.maxInputCharsPerWord then (m.unknown sequence, 1)
  else
    let r := m.tokenLoopCount sequence sequence.length 0
    match r.1 with
    | none => (m.unknown sequence, r.2 + 1)
    | some ts => (.ok ts, r.2)

end WordPiece

namespace WMHeap

/-- `heap.Push`, given up after `k` rounds of the loop of `up`. -/
def pushWithin (k : Nat) (h : WMHeap) (x : WordMerge) : GoM (Option WMHeap) :=
  upL k (h ++ [x]) h.length

/-- `heap.Pop`, given up after `k` rounds of the loop of `down`. -/
def popWithin (k : Nat) (h : WMHeap) : GoM (Option (WordMerge × WMHeap)) := do
  let h' ← goSwap h 0 ((h.length : Int) - 1)
  match ← downL k h' 0 ((h.length : Int) - 1) with
  | none => pure none
  | some h' =>
    let r ← popLast h'
    pure (some r)

end WMHeap
end Verif
