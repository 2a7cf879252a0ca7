import Verif.Model.WordMemory

/-!
Programs that hold many words at once.  A `*Word` is a number: the position of the slice variable it points to.
`World` runs them in memory, `Lists` on plain lists of symbols.
-/
set_option autoImplicit false

namespace Verif.WordMemory

open Memory (Slc)

/-- The calls a program can make. -/
inductive Call where
  /-- `NewWordWithCapacity(cap)`, or `NewWord()` with `cap = 0` -/
  | newWord (cap : Int)
  /-- `w.Add(id, len)` -/
  | add (k : Nat) (id len : Int)
  /-- `w.MergeAll(merges, dropout)` -/
  | mergeAll (k : Nat) (fuel : Nat) (merges : MergeMap) (hasDropout : Bool) (rnd : Nat → Bool)
  /-- `m.mergeWord(s)`; the word is a new one -/
  | mergeWord (b : BPE) (rnd : Nat → Bool) (s : Str)
  /-- `m.wordToTokens(w)` -/
  | tokens (k : Nat) (vocab : Vocab)

/-- Words in memory, and the results returned so far. -/
structure World where
  mem : WMem
  words : List Slc
  out : List (Except Err (List Token))

/-- Words as lists of symbols. -/
structure Lists where
  words : List Word
  out : List (Except Err (List Token))

/-- The symbols of a word. -/
def symbolsOf (m : WMem) (w : Slc) : List (Option WordSymbol) := (ptrs m w).map fun p => p.bind fun p => m.syms[p]?

/-- A call in memory; a number that is no word is no call. -/
def Call.run (grow : Nat → Nat → Nat) (W : World) : Call → GoM (Option World)
  | .newWord cap => do
    let (m, w) ← WordMemory.newWord W.mem cap
    pure (some { W with mem := m, words := W.words ++ [w] })
  | .add k id len =>
    match W.words[k]? with
    | none => pure (some W)
    | some w => do
      let (m, w) ← WordMemory.add grow W.mem w id len
      pure (some { W with mem := m, words := W.words.set k w })
  | .mergeAll k fuel merges hd rnd =>
    match W.words[k]? with
    | none => pure (some W)
    | some w => do
      match ← WordMemory.mergeAll grow fuel merges hd rnd W.mem w with
      | none => pure none
      | some (m, w) => pure (some { W with mem := m, words := W.words.set k w })
  | .mergeWord b rnd s => do
    match ← WordMemory.mergeWord grow b rnd W.mem s with
    | none => pure none
    | some (m, .ok w) => pure (some { W with mem := m, words := W.words ++ [w] })
    | some (m, .error e) => pure (some { W with mem := m, out := W.out ++ [.error e] })
  | .tokens k vocab =>
    match W.words[k]? with
    | none => pure (some W)
    | some w => do
      let r ← wordToTokens vocab W.mem w
      pure (some { W with out := W.out ++ [r] })

/-- The same call on lists. -/
def Call.runL (L : Lists) : Call → GoM (Option Lists)
  | .newWord cap => if 0 ≤ cap then pure (some { L with words := L.words ++ [[]] }) else .panic
  | .add k id len =>
    match L.words[k]? with
    | none => pure (some L)
    | some v => pure (some { L with words := L.words.set k (v.add id len) })
  | .mergeAll k fuel merges hd rnd =>
    match L.words[k]? with
    | none => pure (some L)
    | some v => do
      match ← v.mergeAllFuel fuel merges hd rnd with
      | none => pure none
      | some v => pure (some { L with words := L.words.set k v })
  | .mergeWord b rnd s => do
    match ← b.mergeWord rnd s with
    | .error e => pure (some { L with out := L.out ++ [.error e] })
    | .ok none => pure none
    | .ok (some v) => pure (some { L with words := L.words ++ [v] })
  | .tokens k vocab =>
    match L.words[k]? with
    | none => pure (some L)
    | some v => pure (some { L with out := L.out ++ [BPE.wordToTokens vocab v 0] })

/-- A program in memory. -/
def runAll (grow : Nat → Nat → Nat) : List Call → World → GoM (Option World)
  | [], W => pure (some W)
  | c :: cs, W => do
    match ← c.run grow W with
    | none => pure none
    | some W => runAll grow cs W

/-- The same program on lists. -/
def runAllL : List Call → Lists → GoM (Option Lists)
  | [], L => pure (some L)
  | c :: cs, L => do
    match ← c.runL L with
    | none => pure none
    | some L => runAllL cs L

end Verif.WordMemory
