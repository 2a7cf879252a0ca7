import Verif.Model.Dropout
import Verif.Model.WordPiece

/-!
Goroutines that share a vocabulary and a merge map.  A call is a program that reads and writes the shared maps and draws random
numbers; between two accesses other goroutines may run.
-/

set_option autoImplicit false

namespace Verif.Conc

/-- A program with accesses to the shared maps; `fail` is a panic. -/
inductive Prog (α : Type) where
  | ret (a : α)
  | fail
  /-- `v.termToID[term]` read. -/
  | getID (term : Str) (k : Option Int → Prog α)
  /-- `len(v.termToID)`. -/
  | size (k : Int → Prog α)
  /-- `v.idToTerm[id]` read. -/
  | getString (id : Int) (k : Option Str → Prog α)
  /-- `m[pair]` of a merge map read. -/
  | getMerge (a b : Int) (k : Option MergeValue → Prog α)
  /-- `rand.Float64()`. -/
  | draw (k : F64 → Prog α)
  /-- `v.termToID[term] = id`. -/
  | setID (term : Str) (id : Int) (k : Prog α)
  /-- `v.idToTerm[id] = term`. -/
  | setTerm (id : Int) (term : Str) (k : Prog α)
  /-- `m[pair] = value` of a merge map. -/
  | setMerge (a b : Int) (value : MergeValue) (k : Prog α)

namespace Prog

def bind {α β : Type} : Prog α → (α → Prog β) → Prog β
  | ret a, f => f a
  | fail, _ => fail
  | getID s k, f => getID s fun x => (k x).bind f
  | size k, f => size fun x => (k x).bind f
  | getString i k, f => getString i fun x => (k x).bind f
  | getMerge a b k, f => getMerge a b fun x => (k x).bind f
  | draw k, f => draw fun x => (k x).bind f
  | setID s i k, f => setID s i (k.bind f)
  | setTerm i s k, f => setTerm i s (k.bind f)
  | setMerge a b v k, f => setMerge a b v (k.bind f)

instance : Monad Prog where
  pure := ret
  bind := bind

/-- Code that does not touch shared memory. -/
def lift {α : Type} : GoM α → Prog α
  | .ok a => ret a
  | .panic => fail

end Prog

open Prog

/-! ## The methods as programs -/

/-- `GetID` (vocabulary/vocabulary.go:67-70). -/
def lookID (term : Str) : Prog (Option Int) := getID term ret

/-- `GetString` (vocabulary.go:74-77). -/
def lookString (id : Int) : Prog (Option Str) := getString id ret

/-- `MergeMap.Get` (models/bpemodel/mergemap.go:93-96). -/
def lookMerge (a b : Int) : Prog (Option MergeValue) := getMerge a b ret

/-- `AddTerm` (vocabulary.go:51-58). -/
def addTerm (term : Str) : Prog Unit := do
  match ← lookID term with
  | some _ => pure ()
  | none => size fun id => setID term id (setTerm id term (ret ()))

/-- `MergeMap.Set` (mergemap.go:98-100). -/
def setPair (a b : Int) (v : MergeValue) : Prog Unit := setMerge a b v (ret ())

/-- The initial queue of `MergeAll` (word.go:94-99). -/
def initQueue : Word → Nat → WMHeap → Prog WMHeap
  | a :: b :: rest, index, q => do
    match ← lookMerge a.id b.id with
    | some m => initQueue (b :: rest) (index + 1) (q.push ⟨m, index⟩)
    | none => initQueue (b :: rest) (index + 1) q
  | _, _, q => pure q

/-- Lines 140-146 of `MergeAll`. -/
def pushPrev (w : Word) (queue : WMHeap) (current : WordSymbol) : Prog WMHeap :=
  if current.hasPrev then do
    let prevSymbol ← lift (goIndex w current.prev)
    match ← lookMerge prevSymbol.id current.id with
    | some m => pure (queue.push ⟨m, current.prev⟩)
    | none => pure queue
  else pure queue

/-- Lines 148-154 of `MergeAll`. -/
def pushNext (w : Word) (queue : WMHeap) (current : WordSymbol) (pos : Int) : Prog WMHeap :=
  if current.hasNext ∧ current.next < (w.length : Int) then do
    let nextSymbol ← lift (goIndex w current.next)
    match ← lookMerge current.id nextSymbol.id with
    | some m => pure (queue.push ⟨m, pos⟩)
    | none => pure queue
  else pure queue

/-- Lines 116-154 of `MergeAll`. -/
def process (w : Word) (queue : WMHeap) (top : WordMerge) : Prog (Word × WMHeap) := do
  let cur ← lift (goIndex w top.pos)
  if cur.length = 0 ∨ !cur.hasNext then pure (w, queue)
  else
    let nextPos := cur.next
    let right ← lift (goIndex w nextPos)
    match ← lookMerge cur.id right.id with
    | none => pure (w, queue)
    | some m =>
      if m.id ≠ top.value.id then pure (w, queue)
      else
        let current := cur.mergeWith right top.value.id
        let w := w.setAt top.pos current
        let right ← lift (goIndex w nextPos)
        let right := { right with length := 0 }
        let w := w.setAt nextPos right
        let w ← lift (Word.relink w right top.pos)
        let current ← lift (goIndex w top.pos)
        let queue ← pushPrev w queue current
        let queue ← pushNext w queue current top.pos
        pure (w, queue)

/-- The state of the loop of `MergeAll`: word, queue, skipped entries. -/
abbrev LoopState := Word × WMHeap × List WordMerge

/-- One turn of the loop of `MergeAll` (word.go:102-155). -/
def mergeStep (dropout : F64) (st : LoopState) : Prog LoopState :=
  let (top, queue) := st.2.1.pop
  let go : Prog LoopState := do
    let (w, queue) ← process st.1 (st.2.2.foldl (fun q s => WMHeap.push q s) queue) top
    pure (w, queue, [])
  if F64.lt (.fin 0) dropout then
    draw fun x => if F64.lt x dropout then pure (st.1, queue, st.2.2 ++ [top]) else go
  else go

/-- The loop of `MergeAll`; `none` if the turns do not suffice. -/
def mergeLoop (dropout : F64) : Nat → LoopState → Prog (Option LoopState)
  | fuel, st =>
    if st.2.1.length = 0 then pure (some st)
    else
      match fuel with
      | 0 => pure none
      | fuel + 1 => do
        let st ← mergeStep dropout st
        mergeLoop dropout fuel st

/-- `MergeAll` (word.go:89-165). -/
def mergeAll (dropout : F64) (w : Word) : Prog (Option Word) := do
  let queue ← initQueue w 0 []
  match ← mergeLoop dropout (Word.mergeFuel w.length) (w, queue, []) with
  | none => pure none
  | some st => pure (some (st.1.filter fun s => s.length != 0))

/-- A BPE model without its maps, which are shared (models/bpemodel/bpemodel.go:19-45). -/
structure BpeOpts where
  cache : WordCache
  dropout : F64
  unknownToken : Str
  continuingSubwordPrefix : Str
  endOfWordSuffix : Str
  unknownFusionEnabled : Bool

/-- The maps that the goroutines share. -/
structure Shared where
  vocab : Vocab
  merges : MergeMap

/-- The model with the maps. -/
def BpeOpts.model (o : BpeOpts) (s : Shared) : BPE :=
  ⟨s.vocab, s.merges, o.cache, F64.lt (.fin 0) o.dropout, o.unknownToken, o.continuingSubwordPrefix, o.endOfWordSuffix, o.unknownFusionEnabled⟩

/-- The string looked up for a rune (bpemodel.go:139-147). -/
def lookupKey (o : BpeOpts) (i lastRuneIndex : Nat) (r : Rune) : Str :=
  let s := encodeRune r
  let s := if i = 0 ∧ o.continuingSubwordPrefix.length ≠ 0 then o.continuingSubwordPrefix ++ s else s
  if i = lastRuneIndex ∧ o.endOfWordSuffix.length ≠ 0 then s ++ o.endOfWordSuffix else s

/-- The loop of `mergeWord` (bpemodel.go:138-174). -/
def symbols (o : BpeOpts) (unkTokenID : Int) (lastRuneIndex : Nat) : List (Nat × Rune) → Word → Option (Int × Int) → Prog (Word × Option (Int × Int))
  | [], word, unk => pure (word, unk)
  | (i, r) :: rest, word, unk => do
    let byteLen : Int := (encodeRune r).length
    match ← lookID (lookupKey o i lastRuneIndex r) with
    | some id =>
      match unk with
      | some (uid, ulen) => symbols o unkTokenID lastRuneIndex rest ((word.add uid ulen).add id byteLen) none
      | none => symbols o unkTokenID lastRuneIndex rest (word.add id byteLen) none
    | none =>
      if o.unknownToken.length ≠ 0 then
        match unk with
        | some (uid, ulen) =>
          if o.unknownFusionEnabled then symbols o unkTokenID lastRuneIndex rest word (some (uid, ulen + byteLen))
          else symbols o unkTokenID lastRuneIndex rest (word.add uid ulen) (some (unkTokenID, byteLen))
        | none => symbols o unkTokenID lastRuneIndex rest word (some (unkTokenID, byteLen))
      else symbols o unkTokenID lastRuneIndex rest word unk

/-- `mergeWord` from line 131 on, with the id of the unknown token. -/
def mergeSymbols (o : BpeOpts) (w : Str) (unkTokenID : Int) : Prog (Except Err (Option Word)) := do
  let runes := runesOf w
  let (word, unk) ← symbols o unkTokenID (runes.length - 1) (BPE.indexed runes) [] none
  let word := match unk with
    | some (uid, ulen) => word.add uid ulen
    | none => word
  let r ← mergeAll o.dropout word
  pure (.ok r)

/-- `mergeWord` (bpemodel.go:120-183). -/
def mergeWord (o : BpeOpts) (w : Str) : Prog (Except Err (Option Word)) :=
  if o.unknownToken.length ≠ 0 then do
    match ← lookID o.unknownToken with
    | none => pure (.error .unkOutOfVocab)
    | some id => mergeSymbols o w id
  else mergeSymbols o w 0

/-- `wordToTokens` (bpemodel.go:185-205). -/
def wordToTokens : Word → Int → Prog (Except Err (List Token))
  | [], _ => pure (.ok [])
  | s :: rest, offsetStart => do
    match ← lookString s.id with
    | none => pure (.error (.idNotFound s.id))
    | some value =>
      match ← wordToTokens rest (offsetStart + s.length) with
      | .error e => pure (.error e)
      | .ok ts => pure (.ok (⟨s.id, value, ⟨offsetStart, offsetStart + s.length⟩⟩ :: ts))

/-- `Tokenize` of a BPE model (bpemodel.go:85-118); the cache finds and keeps nothing. -/
def bpeTokenize (o : BpeOpts) (sequence : Str) : Prog (Except Err (Option (List Token))) :=
  if sequence.length = 0 then pure (.ok (some []))
  else do
    match ← mergeWord o sequence with
    | .error e => pure (.error e)
    | .ok none => pure (.ok none)
    | .ok (some word) =>
      match ← wordToTokens word 0 with
      | .error e => pure (.error e)
      | .ok ts => pure (.ok (some ts))

/-- A WordPiece model without its vocabulary (models/wordpiecemodel/wordpiecemodel.go:19-28). -/
structure WpOpts where
  unknownToken : Str
  continuingSubwordPrefix : Str
  maxInputCharsPerWord : Int

/-- The model with the vocabulary. -/
def WpOpts.model (o : WpOpts) (s : Shared) : WordPiece := ⟨s.vocab, o.unknownToken, o.continuingSubwordPrefix, o.maxInputCharsPerWord⟩

/-- The inner loop of `Tokenize` (wordpiecemodel.go:77-99). -/
def findToken (o : WpOpts) (sequence : Str) (start : Nat) : Nat → Int → Prog (Option Token)
  | 0, _ => pure none
  | fuel + 1, stop =>
    if (start : Int) < stop then do
      let t := (sequence.drop start).take (stop.toNat - start)
      let sub := if start > 0 then o.continuingSubwordPrefix ++ t else t
      match ← lookID sub with
      | some id => pure (some ⟨id, sub, ⟨start, stop⟩⟩)
      | none =>
        match sub.getLast? with
        | some b => findToken o sequence start fuel (stop - WordPiece.byteStringLen b)
        | none => findToken o sequence start fuel (stop - 1)
    else pure none

/-- The outer loop (wordpiecemodel.go:72-108). -/
def tokenLoop (o : WpOpts) (sequence : Str) : Nat → Nat → Prog (Option (List Token))
  | fuel, start =>
    if start < sequence.length then
      match fuel with
      | 0 => pure none
      | fuel + 1 => do
        match ← findToken o sequence start sequence.length sequence.length with
        | none => pure none
        | some t =>
          match ← tokenLoop o sequence fuel t.offsets.stop.toNat with
          | none => pure none
          | some ts => pure (some (t :: ts))
    else pure (some [])

/-- The unknown token (wordpiecemodel.go:57-65, 111-119). -/
def unknown (o : WpOpts) (sequence : Str) : Prog (Except Err (List Token)) := do
  match ← lookID o.unknownToken with
  | none => pure (.error .unkOutOfVocab)
  | some id => pure (.ok [⟨id, o.unknownToken, ⟨0, sequence.length⟩⟩])

/-- `Tokenize` of a WordPiece model (wordpiecemodel.go:55-123). -/
def wpTokenize (o : WpOpts) (sequence : Str) : Prog (Except Err (List Token)) :=
  if ((runesOf sequence).length : Int) > o.maxInputCharsPerWord then unknown o sequence
  else do
    match ← tokenLoop o sequence sequence.length 0 with
    | none => unknown o sequence
    | some ts => pure (.ok ts)

/-! ## Goroutines -/

/-- A call of a method by a goroutine. -/
inductive Call where
  | bpe (o : BpeOpts) (sequence : Str)
  | wordPiece (o : WpOpts) (sequence : Str)
  | addTerm (term : Str)
  | setPair (a b : Int) (v : MergeValue)

/-- What a call returns. -/
inductive Res where
  | bpe (r : Except Err (Option (List Token)))
  | wordPiece (r : Except Err (List Token))
  | unit

/-- The call as a program. -/
def Call.prog : Call → Prog Res
  | .bpe o s => do let r ← bpeTokenize o s; pure (.bpe r)
  | .wordPiece o s => do let r ← wpTokenize o s; pure (.wordPiece r)
  | .addTerm t => do Conc.addTerm t; pure .unit
  | .setPair a b v => do Conc.setPair a b v; pure .unit

/-- A goroutine that makes calls and keeps what they return. -/
def calls : List Call → Prog (List Res)
  | [] => pure []
  | c :: cs => do
    let r ← c.prog
    let rs ← calls cs
    pure (r :: rs)

/-- The next access of a program, with `x` as the next random number; `none` when it has ended.  Also says whether it drew. -/
def Prog.step {α : Type} (s : Shared) (x : F64) : Prog α → Option (Prog α × Shared × Bool)
  | ret _ => none
  | fail => none
  | getID t k => some (k (s.vocab.getID t), s, false)
  | size k => some (k s.vocab.size, s, false)
  | getString i k => some (k (s.vocab.getString i), s, false)
  | getMerge a b k => some (k (s.merges.get a b), s, false)
  | draw k => some (k x, s, true)
  | setID t i k =>
    match s.vocab.termToID with
    | none => some (fail, s, false)
    | some m => some (k, { s with vocab := { s.vocab with termToID := some (m.set t i) } }, false)
  | setTerm i t k => some (k, { s with vocab := { s.vocab with idToTerm := s.vocab.idToTerm.set i t } }, false)
  | setMerge a b v k => some (k, { s with merges := s.merges.set a b v }, false)

/-- The shared maps, the goroutines, and which goroutine made each draw so far. -/
structure Config where
  shared : Shared
  threads : List (Prog (List Res))
  log : List Nat

/-- Goroutine `i` makes its next access; `source` are the random numbers. -/
def Config.step (source : Nat → F64) (c : Config) (i : Nat) : Option Config :=
  match c.threads[i]? with
  | none => none
  | some p =>
    match p.step c.shared (source c.log.length) with
    | none => none
    | some (p', s', drew) => some ⟨s', c.threads.set i p', if drew then c.log ++ [i] else c.log⟩

/-- The goroutines take turns in the order `schedule`; a turn of one that has ended does nothing. -/
def Config.run (source : Nat → F64) : Config → List Nat → Config
  | c, [] => c
  | c, i :: schedule => run source ((c.step source i).getD c) schedule

/-- Goroutines that start with these calls. -/
def Config.start (s : Shared) (gs : List (List Call)) : Config := ⟨s, gs.map calls, []⟩

/-! ## Data races -/

/-- The three maps. -/
inductive Loc where
  | termToID
  | idToTerm
  | merges
deriving DecidableEq

/-- The map that a program accesses next, and whether it writes. -/
def Prog.access {α : Type} : Prog α → Option (Loc × Bool)
  | ret _ => none
  | fail => none
  | draw _ => none
  | getID _ _ => some (.termToID, false)
  | size _ => some (.termToID, false)
  | getString _ _ => some (.idToTerm, false)
  | getMerge _ _ _ => some (.merges, false)
  | setID _ _ _ => some (.termToID, true)
  | setTerm _ _ _ => some (.idToTerm, true)
  | setMerge _ _ _ _ => some (.merges, true)

/-- Two goroutines are about to access one map and one of them writes: Go leaves open what happens, or ends the program. -/
def Config.Race (c : Config) : Prop :=
  ∃ (i j : Nat) (p q : Prog (List Res)) (l : Loc) (wp wq : Bool), i ≠ j ∧ c.threads[i]? = some p ∧ c.threads[j]? = some q ∧ p.access = some (l, wp) ∧ q.access = some (l, wq)
    ∧ (wp = true ∨ wq = true)

end Verif.Conc
