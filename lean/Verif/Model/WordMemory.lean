import Verif.Model.Bpe
import Verif.Model.Literal
import Verif.Model.Memory

/-!
# Words in memory

`Model/Word.lean`, `Model/Literal.lean` and `Model/Bpe.lean` treat `bpemodel.Word` as a list of symbols.  In Go it is a slice of pointers:
the symbols live elsewhere, `right` and `current` in `MergeAll` are pointers that see later writes, `removeSymbol` moves pointers
inside the array, and `Add` may move the word to another array.  This file has word.go and its uses in bpemodel.go over an explicit
memory of symbols and of arrays of pointers.  The capacity `append` chooses is a parameter (`grow`).
-/
set_option autoImplicit false

namespace Verif.WordMemory

open Memory (Slc)

/-- The symbols and the arrays of pointers allocated so far; an address is a position in the list.  `none` is `nil`. -/
structure WMem where
  syms : List WordSymbol
  arrs : List (List (Option Nat))
deriving DecidableEq, Repr

/-- The pointers of a slice. -/
def ptrs (m : WMem) (w : Slc) : List (Option Nat) := (((m.arrs[w.arr]?).getD []).drop w.off).take w.len

/-- `(*w)[i]` where the result is dereferenced at once: `nil` panics. -/
def at' (m : WMem) (w : Slc) (i : Int) : GoM Nat := do
  match ← goIndex (ptrs m w) i with
  | some p => pure p
  | none => .panic

/-- `*p`. -/
def load (m : WMem) (p : Nat) : GoM WordSymbol := goIndex m.syms p

/-- `*p = s`. -/
def store (m : WMem) (p : Nat) (s : WordSymbol) : GoM WMem := do
  let syms ← goSet m.syms p s
  pure { m with syms := syms }

/-- `make(Word, 0, cap)` (word.go:54-63): `NewWord` has `cap` 0. -/
def newWord (m : WMem) (cap : Int) : GoM (WMem × Slc) :=
  if 0 ≤ cap then .ok ({ m with arrs := m.arrs ++ [List.replicate cap.toNat none] }, ⟨m.arrs.length, 0, 0, cap.toNat⟩)
  else .panic

/-- `append(w, xs...)`. -/
def append (grow : Nat → Nat → Nat) (m : WMem) (w : Slc) (xs : List (Option Nat)) : WMem × Slc :=
  let n := w.len + xs.length
  if n ≤ w.cap then
    ({ m with arrs := m.arrs.modify w.arr fun a => a.take (w.off + w.len) ++ xs ++ a.drop (w.off + n) }, { w with len := n })
  else
    let c := max n (grow w.cap n)
    ({ m with arrs := m.arrs ++ [ptrs m w ++ xs ++ List.replicate (c - n) none] }, ⟨m.arrs.length, 0, n, c⟩)

/-- `Add` (word.go:74-87). -/
def add (grow : Nat → Nat → Nat) (m : WMem) (w : Slc) (symbolID byteLen : Int) : GoM (WMem × Slc) := do
  let prev : Int := (w.len : Int) - 1
  let sym := m.syms.length
  let m := { m with syms := m.syms ++ [⟨symbolID, byteLen, prev, -1⟩] }
  let m ← if prev ≠ -1 then do
      let p ← at' m w prev
      let s ← load m p
      store m p { s with next := w.len }
    else pure m
  pure (append grow m w [some sym])

/-- `removeSymbol` (word.go:167-169): `append((*w)[:index], (*w)[index+1:]...)`. -/
def removeSymbol (grow : Nat → Nat → Nat) (m : WMem) (w : Slc) (index : Int) : GoM (WMem × Slc) := do
  let a ← w.reslice 0 index
  let b ← w.reslice (index + 1) w.len
  pure (append grow m a (ptrs m b))

/-- The removal loop (word.go:157-164). -/
def removeLoop (grow : Nat → Nat → Nat) : Nat → WMem → Slc → Int → GoM (Option (WMem × Slc))
  | fuel, m, w, i =>
    if i < (w.len : Int) then
      match fuel with
      | 0 => .ok none
      | fuel + 1 => do
        let p ← at' m w i
        let s ← load m p
        if s.length = 0 then do
          let (m, w) ← removeSymbol grow m w i
          removeLoop grow fuel m w i
        else removeLoop grow fuel m w (i + 1)
    else .ok (some (m, w))

/-- `getSymbolID` (word.go:69-71). -/
def getSymbolID (m : WMem) (w : Slc) (i : Int) : GoM Int := do
  let p ← at' m w i
  let s ← load m p
  pure s.id

/-- The initial queue filling (word.go:94-99). -/
def initLoop (merges : MergeMap) (m : WMem) (w : Slc) : Nat → Int → WMHeap → GoM (Option WMHeap)
  | 0, _, q => .ok (some q)
  | n + 1, index, q => do
    let a ← getSymbolID m w index
    let b ← getSymbolID m w (index + 1)
    match merges.get a b with
    | none => initLoop merges m w n (index + 1) q
    | some mv =>
      match ← q.pushL ⟨mv, index⟩ with
      | none => pure none
      | some q => initLoop merges m w n (index + 1) q

/-- `s.MergeWith(other, newSymbolID)` (word.go:36-40), field by field. -/
def mergeWith (m : WMem) (s other : Nat) (newSymbolID : Int) : GoM WMem := do
  let x ← load m s
  let m ← store m s { x with id := newSymbolID }
  let o ← load m other
  let x ← load m s
  let m ← store m s { x with length := x.length + o.length }
  let o ← load m other
  let x ← load m s
  store m s { x with next := o.next }

/-- Lines 135-137 of `MergeAll`. -/
def relink (m : WMem) (w : Slc) (right : Nat) (pos : Int) : GoM WMem := do
  let r ← load m right
  if r.hasNext ∧ r.next < (w.len : Int) then do
    let n ← at' m w r.next
    let nn ← load m n
    store m n { nn with prev := pos }
  else pure m

/-- Lines 140-146 of `MergeAll`. -/
def pushPrev (merges : MergeMap) (m : WMem) (w : Slc) (queue : WMHeap) (current : Nat) : GoM (Option WMHeap) := do
  let c ← load m current
  if c.hasPrev then do
    let p ← at' m w c.prev
    let prevSymbol ← load m p
    match merges.get prevSymbol.id c.id with
    | some mv => queue.pushL ⟨mv, c.prev⟩
    | none => pure (some queue)
  else pure (some queue)

/-- Lines 148-154 of `MergeAll`. -/
def pushNext (merges : MergeMap) (m : WMem) (w : Slc) (queue : WMHeap) (current : Nat) (pos : Int) : GoM (Option WMHeap) := do
  let c ← load m current
  if c.hasNext ∧ c.next < (w.len : Int) then do
    let n ← at' m w c.next
    let nextSymbol ← load m n
    match merges.get c.id nextSymbol.id with
    | some mv => queue.pushL ⟨mv, pos⟩
    | none => pure (some queue)
  else pure (some queue)

/-- word.go:116-154; `right` and `current` are pointers. -/
def process (merges : MergeMap) (m : WMem) (w : Slc) (queue : WMHeap) (top : WordMerge) : GoM (Option (WMem × WMHeap)) := do
  let p ← at' m w top.pos
  let cur ← load m p
  if cur.length = 0 ∨ !cur.hasNext then pure (some (m, queue))
  else
    let nextPos := cur.next
    let right ← at' m w nextPos
    let r ← load m right
    match merges.get cur.id r.id with
    | none => pure (some (m, queue))
    | some mv =>
      if mv.id ≠ top.value.id then pure (some (m, queue))
      else
        let p ← at' m w top.pos
        let m ← mergeWith m p right top.value.id
        let n ← at' m w nextPos
        let x ← load m n
        let m ← store m n { x with length := 0 }
        let m ← relink m w right top.pos
        let current ← at' m w top.pos
        match ← pushPrev merges m w queue current with
        | none => pure none
        | some queue =>
          match ← pushNext merges m w queue current top.pos with
          | none => pure none
          | some queue => pure (some (m, queue))

/-- State of the main loop; the word itself does not move. -/
structure PState where
  mem : WMem
  queue : WMHeap
  skip : List WordMerge
  draws : Nat
deriving DecidableEq, Repr

/-- One iteration of the main loop (word.go:102-155). -/
def mergeStep (merges : MergeMap) (hasDropout : Bool) (rnd : Nat → Bool) (w : Slc) (st : PState) : GoM (Option PState) := do
  match ← st.queue.popL with
  | none => pure none
  | some (top, queue) =>
    if hasDropout ∧ rnd st.draws then
      pure (some { st with queue := queue, skip := st.skip ++ [top], draws := st.draws + 1 })
    else
      let draws := if hasDropout then st.draws + 1 else st.draws
      match ← Word.pushAll st.skip queue with
      | none => pure none
      | some queue =>
        match ← process merges st.mem w queue top with
        | none => pure none
        | some (m, queue) => pure (some { mem := m, queue := queue, skip := [], draws := draws })

/-- The main loop (word.go:102-155). -/
def mergeLoop (merges : MergeMap) (hasDropout : Bool) (rnd : Nat → Bool) (w : Slc) : Nat → PState → GoM (Option PState)
  | fuel, st =>
    if st.queue.length = 0 then .ok (some st)
    else
      match fuel with
      | 0 => .ok none
      | fuel + 1 => do
        match ← mergeStep merges hasDropout rnd w st with
        | none => pure none
        | some st' => mergeLoop merges hasDropout rnd w fuel st'

/-- `MergeAll` (word.go:89-165). -/
def mergeAll (grow : Nat → Nat → Nat) (fuel : Nat) (merges : MergeMap) (hasDropout : Bool) (rnd : Nat → Bool)
    (m : WMem) (w : Slc) : GoM (Option (WMem × Slc)) := do
  match ← initLoop merges m w (w.len - 1) 0 [] with
  | none => pure none
  | some queue =>
    match ← mergeLoop merges hasDropout rnd w fuel ⟨m, queue, [], 0⟩ with
    | none => pure none
    | some st => removeLoop grow w.len st.mem w 0

/-- Loop body of `mergeWord` (bpemodel.go:138-174); `unk` is the pending unknown symbol, which only this loop sees. -/
def symbolStep (grow : Nat → Nat → Nat) (b : BPE) (unkTokenID : Int) (lastRuneIndex : Nat) (m : WMem) (w : Slc)
    (unk : Option (Int × Int)) (ir : Nat × Rune) : GoM (WMem × Slc × Option (Int × Int)) :=
  let byteLen : Int := (encodeRune ir.2).length
  match b.vocab.getID (b.lookupKey ir.1 lastRuneIndex ir.2) with
  | some id => do
    let (m, w) ← match unk with
      | some (uid, ulen) => add grow m w uid ulen
      | none => pure (m, w)
    let (m, w) ← add grow m w id byteLen
    pure (m, w, none)
  | none =>
    if b.hasUnknownToken then
      match unk with
      | some (uid, ulen) =>
        if b.unknownFusionEnabled then pure (m, w, some (uid, ulen + byteLen))
        else do
          let (m, w) ← add grow m w uid ulen
          pure (m, w, some (unkTokenID, byteLen))
      | none => pure (m, w, some (unkTokenID, byteLen))
    else pure (m, w, unk)

/-- The loop of `mergeWord` (bpemodel.go:138-174). -/
def symbolLoop (grow : Nat → Nat → Nat) (b : BPE) (unkTokenID : Int) (lastRuneIndex : Nat) :
    List (Nat × Rune) → WMem → Slc → Option (Int × Int) → GoM (WMem × Slc × Option (Int × Int))
  | [], m, w, unk => pure (m, w, unk)
  | ir :: rest, m, w, unk => do
    let (m, w, unk) ← symbolStep grow b unkTokenID lastRuneIndex m w unk ir
    symbolLoop grow b unkTokenID lastRuneIndex rest m w unk

/-- The part of `mergeWord` after the look-up of the unknown token (bpemodel.go:132-180). -/
def buildWord (grow : Nat → Nat → Nat) (b : BPE) (rnd : Nat → Bool) (m : WMem) (word : Slc) (w : Str) (unkTokenID : Int) :
    GoM (Option (WMem × Slc)) := do
  let runes := runesOf w
  let (m, word, unk) ← symbolLoop grow b unkTokenID (runes.length - 1) (BPE.indexed runes) m word none
  let (m, word) ← match unk with
    | some (uid, ulen) => add grow m word uid ulen
    | none => pure (m, word)
  mergeAll grow (Word.mergeFuel word.len) b.merges b.hasDropout rnd m word

/-- `mergeWord` (bpemodel.go:120-183). -/
def mergeWord (grow : Nat → Nat → Nat) (b : BPE) (rnd : Nat → Bool) (m : WMem) (w : Str) :
    GoM (Option (WMem × Except Err Slc)) := do
  let (m, word) ← newWord m w.length
  if b.hasUnknownToken then
    match b.vocab.getID b.unknownToken with
    | none => pure (some (m, .error .unkOutOfVocab))
    | some id => do
      let r ← buildWord grow b rnd m word w id
      pure (r.map fun (m, word) => (m, .ok word))
  else do
    let r ← buildWord grow b rnd m word w 0
    pure (r.map fun (m, word) => (m, .ok word))

/-- The loop of `wordToTokens` (bpemodel.go:188-203). -/
def tokensLoop (vocab : Vocab) (m : WMem) : List (Option Nat) → Int → GoM (Except Err (List Token))
  | [], _ => pure (.ok [])
  | none :: _, _ => .panic
  | some p :: rest, offsetStart => do
    let s ← load m p
    match vocab.getString s.id with
    | none => pure (.error (.idNotFound s.id))
    | some value =>
      match ← tokensLoop vocab m rest (offsetStart + s.length) with
      | .error e => pure (.error e)
      | .ok ts => pure (.ok (⟨s.id, value, ⟨offsetStart, offsetStart + s.length⟩⟩ :: ts))

/-- `wordToTokens` (bpemodel.go:185-205). -/
def wordToTokens (vocab : Vocab) (m : WMem) (w : Slc) : GoM (Except Err (List Token)) := tokensLoop vocab m (ptrs m w) 0

end Verif.WordMemory
