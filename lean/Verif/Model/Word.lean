import Verif.Model.Heap

namespace Verif

/-- `bpemodel.WordSymbol` with its embedded `Symbol` (models/bpemodel/word.go:13-31). -/
structure WordSymbol where
  id : Int
  length : Int
  prev : Int
  next : Int
deriving DecidableEq, Repr

/-- `bpemodel.Word` (word.go:51): a slice of pointers; the pointers are never
shared between positions, so they are modelled by value (C85). -/
abbrev Word := List WordSymbol

namespace WordSymbol

/-- `MergeWith` (word.go:36-40). -/
def mergeWith (s other : WordSymbol) (newSymbolID : Int) : WordSymbol :=
  { s with id := newSymbolID, length := s.length + other.length, next := other.next }

/-- `HasPrev` (word.go:42-44). -/
def hasPrev (s : WordSymbol) : Bool := s.prev != -1

/-- `HasNext` (word.go:46-48). -/
def hasNext (s : WordSymbol) : Bool := s.next != -1

end WordSymbol

namespace Word

/-- `(*w)[i] = s` after a successful read of index `i`. -/
def setAt (w : Word) (i : Int) (s : WordSymbol) : Word := w.set i.toNat s

/-- `Add` (word.go:74-87). -/
def add (w : Word) (symbolID byteLen : Int) : Word :=
  let prev : Int := (w.length : Int) - 1
  let w :=
    if prev ≠ -1 then
      match w[prev.toNat]? with
      | some s => w.setAt prev { s with next := w.length }
      | none => w
    else w
  w ++ [⟨symbolID, byteLen, prev, -1⟩]

/-- The initial queue filling of `MergeAll` (word.go:94-99): pairs
`(index, index+1)` for `index < len-1`. -/
def initQueue (merges : MergeMap) : Word → Nat → WMHeap → WMHeap
  | a :: b :: rest, index, q =>
    let q := match merges.get a.id b.id with
      | some m => q.push ⟨m, index⟩
      | none => q
    initQueue merges (b :: rest) (index + 1) q
  | _, _, q => q

/-- State of the main loop of `MergeAll`: the word, `queue`, `skip`, and the number
of random draws made so far. -/
structure MState where
  word : Word
  queue : WMHeap
  skip : List WordMerge
  draws : Nat
deriving DecidableEq, Repr

/-- Lines 135-137 of `MergeAll`: make the symbol after `right` point back to `pos`. -/
def relink (w : Word) (right : WordSymbol) (pos : Int) : GoM Word :=
  if right.hasNext ∧ right.next < (w.length : Int) then do
    let nn ← goIndex w right.next
    pure (w.setAt right.next { nn with prev := pos })
  else pure w

/-- Lines 140-146 of `MergeAll`: insert the new pair formed with the previous symbol. -/
def pushPrev (merges : MergeMap) (w : Word) (queue : WMHeap) (current : WordSymbol) : GoM WMHeap :=
  if current.hasPrev then do
    let prevSymbol ← goIndex w current.prev
    match merges.get prevSymbol.id current.id with
    | some m => pure (queue.push ⟨m, current.prev⟩)
    | none => pure queue
  else pure queue

/-- Lines 148-154 of `MergeAll`: insert the new pair formed with the next symbol. -/
def pushNext (merges : MergeMap) (w : Word) (queue : WMHeap) (current : WordSymbol) (pos : Int) : GoM WMHeap :=
  if current.hasNext ∧ current.next < (w.length : Int) then do
    let nextSymbol ← goIndex w current.next
    match merges.get current.id nextSymbol.id with
    | some m => pure (queue.push ⟨m, pos⟩)
    | none => pure queue
  else pure queue

/-- The part of the loop body that runs when the popped entry is not dropped
(word.go:116-154), given the popped `top` and the queue after re-insertion of
the skipped entries. -/
def process (merges : MergeMap) (w : Word) (queue : WMHeap) (top : WordMerge) :
    GoM (Word × WMHeap) := do
  let cur ← goIndex w top.pos
  if cur.length = 0 ∨ !cur.hasNext then pure (w, queue)
  else
    let nextPos := cur.next
    let right ← goIndex w nextPos
    match merges.get cur.id right.id with
    | none => pure (w, queue)
    | some m =>
      if m.id ≠ top.value.id then pure (w, queue)
      else
        -- lines 130-132
        let current := cur.mergeWith right top.value.id
        let w := w.setAt top.pos current
        let right ← goIndex w nextPos -- `right` is a pointer: it may be `current`
        let right := { right with length := 0 }
        let w := w.setAt nextPos right
        let w ← relink w right top.pos
        let current ← goIndex w top.pos -- line 139
        let queue ← pushPrev merges w queue current
        let queue ← pushNext merges w queue current top.pos
        pure (w, queue)

/-- One iteration of the main loop of `MergeAll` (word.go:102-155) on a non-empty
queue.  `rnd n` is whether the `n`-th random draw is below the dropout. -/
def mergeStep (merges : MergeMap) (hasDropout : Bool) (rnd : Nat → Bool) (st : MState) :
    GoM MState := do
  let (top, queue) := st.queue.pop
  if hasDropout ∧ rnd st.draws then
    pure { st with queue := queue, skip := st.skip ++ [top], draws := st.draws + 1 }
  else
    let draws := if hasDropout then st.draws + 1 else st.draws
    let queue := st.skip.foldl (fun q s => WMHeap.push q s) queue
    let (w, queue) ← process merges st.word queue top
    pure { word := w, queue := queue, skip := [], draws := draws }

/-- The main loop of `MergeAll` (word.go:102-155).  `none` means that `fuel`
iterations were not enough (see the termination theorem). -/
def mergeLoop (merges : MergeMap) (hasDropout : Bool) (rnd : Nat → Bool) :
    Nat → MState → GoM (Option MState)
  | fuel, st =>
    if st.queue.length = 0 then .ok (some st)
    else
      match fuel with
      | 0 => .ok none
      | fuel + 1 =>
        match mergeStep merges hasDropout rnd st with
        | .panic => .panic
        | .ok st' => mergeLoop merges hasDropout rnd fuel st'

/-- Number of loop iterations that is always enough for a word of `n` symbols. -/
def mergeFuel (n : Nat) : Nat := (4 * n + 1) * (4 * n + 1)

/-- `MergeAll` (word.go:89-165) with an explicit bound on the iterations. -/
def mergeAllFuel (fuel : Nat) (merges : MergeMap) (hasDropout : Bool) (rnd : Nat → Bool)
    (w : Word) : GoM (Option Word) := do
  let queue := initQueue merges w 0 []
  match ← mergeLoop merges hasDropout rnd fuel ⟨w, queue, [], 0⟩ with
  | none => pure none
  | some st => pure (some (st.word.filter fun s => s.length != 0))

/-- `MergeAll` (word.go:89-165).  The removal loop of lines 157-164 is `filter`. -/
def mergeAll (merges : MergeMap) (hasDropout : Bool) (rnd : Nat → Bool) (w : Word) :
    GoM (Option Word) :=
  mergeAllFuel (mergeFuel w.length) merges hasDropout rnd w

end Word
end Verif
