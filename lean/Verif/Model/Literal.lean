import Verif.Model.Word
import Verif.Model.NormalizedString

/-!
Loops that the model states in a shorter form, written here as in the Go code: with indices,
checked accesses and in-place updates.  `Props/Literal.lean` shows that they agree with the model.
A loop that is not bounded by its own counter takes `fuel`; `none` means it was not enough.
-/

namespace Verif

/-- `l[i] = x`; panics unless `0 ≤ i < len(l)`. -/
def goSet {α : Type} (l : List α) (i : Int) (x : α) : GoM (List α) :=
  if 0 ≤ i ∧ i < (l.length : Int) then .ok (l.set i.toNat x) else .panic

/-- `l[i], l[j] = l[j], l[i]`. -/
def goSwap {α : Type} (l : List α) (i j : Int) : GoM (List α) := do
  let a ← goIndex l j
  let b ← goIndex l i
  let l ← goSet l i a
  goSet l j b

/-- `for i := n - 1; i >= 0; i-- { opp := len(splits) - 1 - i; swap }` (normalizedstring.go:559-562). -/
def reverseLoop {α : Type} : Nat → List α → GoM (List α)
  | 0, l => .ok l
  | i + 1, l => do
    let opp : Int := (l.length : Int) - 1 - i
    let l ← goSwap l i opp
    reverseLoop i l

/-- The reversal of `splits` (normalizedstring.go:558-562). -/
def reverseInPlace {α : Type} (l : List α) : GoM (List α) := reverseLoop (l.length / 2) l

/-- `countLeadingSpaces` (normalizedstring.go:837-844); `i` is the loop index. -/
def countLeadingLoop (runes : List Rune) : List Rune → Nat → Nat
  | [], _ => runes.length
  | r :: rs, i => if !isWhiteSpace r then i else countLeadingLoop runes rs (i + 1)

/-- The loop of `countTrailingSpaces` (normalizedstring.go:857-861) for the indices below `n`. -/
def countTrailingLoop (runes : List Rune) (lastIndex : Int) : Nat → GoM Int
  | 0 => .ok runes.length
  | i + 1 => do
    let r ← goIndex runes i
    if !isWhiteSpace r then .ok (lastIndex - i) else countTrailingLoop runes lastIndex i

/-- `countTrailingSpaces` (normalizedstring.go:848-864). -/
def countTrailingSpacesL (runes : List Rune) : GoM Int :=
  let runesLen := runes.length
  if runesLen = 0 then .ok 0
  else do
    let lastIndex : Int := (runesLen : Int) - 1
    let _ ← goIndex runes lastIndex
    countTrailingLoop runes lastIndex runesLen

/-- The loop of `TrimLeftRight` (normalizedstring.go:805-814) from index `i` on, `n` iterations. -/
def trimLoop (runes : List Rune) (lastIndex trailing : Int) : Nat → Int → List RuneChange → GoM (List RuneChange)
  | 0, _, out => .ok out
  | n + 1, i, out => do
    let change := if i = lastIndex then -trailing else 0
    let r ← goIndex runes i
    trimLoop runes lastIndex trailing n (i + 1) (out ++ [⟨r, change⟩])

/-- `TrimLeftRight` (normalizedstring.go:784-816); `make` with a negative capacity panics. -/
def NS.trimLeftRightL (ns : NS) (left right : Bool) : GoM NS := do
  let runes := runesOf ns.normalized
  let lenRunes : Int := runes.length
  let leading : Int := if left then countLeadingLoop runes runes 0 else 0
  let trailing ← (if right ∧ leading < lenRunes then countTrailingSpacesL runes else pure 0)
  if leading = 0 ∧ trailing = 0 then .ok ns
  else
    let lastIndex := lenRunes - trailing - 1
    let n := lastIndex - leading + 1
    if n < 0 then .panic
    else do
      let changes ← trimLoop runes lastIndex trailing n.toNat leading []
      ns.transform changes leading

namespace WMHeap

/-- `WordMergeHeap.Less` (wordmerge.go:22-29). -/
def lessL (h : WMHeap) (i j : Int) : GoM Bool := do
  let a ← goIndex h i
  let b ← goIndex h j
  if a.value.rank ≠ b.value.rank then pure (decide (a.value.rank < b.value.rank))
  else pure (decide (a.pos < b.pos))

/-- `up` of `container/heap`; Go's integer division truncates. -/
def upL : Nat → WMHeap → Int → GoM (Option WMHeap)
  | 0, _, _ => .ok none
  | fuel + 1, h, j => do
    let i := Int.tdiv (j - 1) 2
    if i = j then .ok (some h)
    else if !(← lessL h j i) then .ok (some h)
    else do
      let h ← goSwap h i j
      upL fuel h i

/-- `down` of `container/heap`. -/
def downL : Nat → WMHeap → Int → Int → GoM (Option WMHeap)
  | 0, _, _, _ => .ok none
  | fuel + 1, h, i, n => do
    let j1 := 2 * i + 1
    if j1 ≥ n ∨ j1 < 0 then .ok (some h)
    else do
      let j2 := j1 + 1
      let right ← (if j2 < n then lessL h j2 j1 else pure false)
      let j := if right then j2 else j1
      if !(← lessL h j i) then .ok (some h)
      else do
        let h ← goSwap h i j
        downL fuel h j n

/-- `heap.Push`. -/
def pushL (h : WMHeap) (x : WordMerge) : GoM (Option WMHeap) :=
  let h := h ++ [x]
  upL h.length h ((h.length : Int) - 1)

/-- `WordMergeHeap.Pop` (wordmerge.go:39-44). -/
def popLast (h : WMHeap) : GoM (WordMerge × WMHeap) := do
  let lastIndex : Int := (h.length : Int) - 1
  let x ← goIndex h lastIndex
  let h ← goSlice h 0 lastIndex
  pure (x, h)

/-- `heap.Pop`. -/
def popL (h : WMHeap) : GoM (Option (WordMerge × WMHeap)) := do
  let n : Int := (h.length : Int) - 1
  let h' ← goSwap h 0 n
  match ← downL h.length h' 0 n with
  | none => pure none
  | some h' =>
    let r ← popLast h'
    pure (some r)

end WMHeap

namespace Word

/-- `Add` (word.go:74-87). -/
def addL (w : Word) (symbolID byteLen : Int) : GoM Word := do
  let prev : Int := (w.length : Int) - 1
  let w ← if prev ≠ -1 then do
      let s ← goIndex w prev
      goSet w prev { s with next := w.length }
    else pure w
  pure (w ++ [⟨symbolID, byteLen, prev, -1⟩])

/-- `removeSymbol` (word.go:167-169). -/
def removeSymbol (w : Word) (index : Int) : GoM Word := do
  let a ← goSlice w 0 index
  let b ← goSlice w (index + 1) w.length
  pure (a ++ b)

/-- The removal loop (word.go:157-164). -/
def removeLoop : Nat → Word → Int → GoM (Option Word)
  | fuel, w, i =>
    if i < (w.length : Int) then
      match fuel with
      | 0 => .ok none
      | fuel + 1 => do
        let s ← goIndex w i
        if s.length = 0 then do
          let w ← removeSymbol w i
          removeLoop fuel w i
        else removeLoop fuel w (i + 1)
    else .ok (some w)

/-- The initial queue filling (word.go:94-99) from `index` on, `n` iterations. -/
def initLoop (merges : MergeMap) (w : Word) : Nat → Int → WMHeap → GoM (Option WMHeap)
  | 0, _, q => .ok (some q)
  | n + 1, index, q => do
    let a ← goIndex w index
    let b ← goIndex w (index + 1)
    match merges.get a.id b.id with
    | none => initLoop merges w n (index + 1) q
    | some m =>
      match ← q.pushL ⟨m, index⟩ with
      | none => pure none
      | some q => initLoop merges w n (index + 1) q

/-- `for _, s := range skip { heap.Push(&queue, s) }` (word.go:111-113). -/
def pushAll : List WordMerge → WMHeap → GoM (Option WMHeap)
  | [], q => .ok (some q)
  | s :: ss, q => do
    match ← q.pushL s with
    | none => pure none
    | some q => pushAll ss q

/-- Lines 140-146 of `MergeAll`. -/
def pushPrevL (merges : MergeMap) (w : Word) (queue : WMHeap) (current : WordSymbol) : GoM (Option WMHeap) :=
  if current.hasPrev then do
    let prevSymbol ← goIndex w current.prev
    match merges.get prevSymbol.id current.id with
    | some m => queue.pushL ⟨m, current.prev⟩
    | none => pure (some queue)
  else pure (some queue)

/-- Lines 148-154 of `MergeAll`. -/
def pushNextL (merges : MergeMap) (w : Word) (queue : WMHeap) (current : WordSymbol) (pos : Int) : GoM (Option WMHeap) :=
  if current.hasNext ∧ current.next < (w.length : Int) then do
    let nextSymbol ← goIndex w current.next
    match merges.get current.id nextSymbol.id with
    | some m => queue.pushL ⟨m, pos⟩
    | none => pure (some queue)
  else pure (some queue)

/-- word.go:116-154. -/
def processL (merges : MergeMap) (w : Word) (queue : WMHeap) (top : WordMerge) :
    GoM (Option (Word × WMHeap)) := do
  let cur ← goIndex w top.pos
  if cur.length = 0 ∨ !cur.hasNext then pure (some (w, queue))
  else
    let nextPos := cur.next
    let right ← goIndex w nextPos
    match merges.get cur.id right.id with
    | none => pure (some (w, queue))
    | some m =>
      if m.id ≠ top.value.id then pure (some (w, queue))
      else
        let w ← goSet w top.pos (cur.mergeWith right top.value.id)
        let right ← goIndex w nextPos
        let right := { right with length := 0 }
        let w ← goSet w nextPos right
        let w ← relink w right top.pos
        let current ← goIndex w top.pos
        match ← pushPrevL merges w queue current with
        | none => pure none
        | some queue =>
          match ← pushNextL merges w queue current top.pos with
          | none => pure none
          | some queue => pure (some (w, queue))

/-- One iteration of the main loop (word.go:102-155). -/
def mergeStepL (merges : MergeMap) (hasDropout : Bool) (rnd : Nat → Bool) (st : MState) :
    GoM (Option MState) := do
  match ← st.queue.popL with
  | none => pure none
  | some (top, queue) =>
    if hasDropout ∧ rnd st.draws then
      pure (some { st with queue := queue, skip := st.skip ++ [top], draws := st.draws + 1 })
    else
      let draws := if hasDropout then st.draws + 1 else st.draws
      match ← pushAll st.skip queue with
      | none => pure none
      | some queue =>
        match ← processL merges st.word queue top with
        | none => pure none
        | some (w, queue) => pure (some { word := w, queue := queue, skip := [], draws := draws })

/-- The main loop (word.go:102-155). -/
def mergeLoopL (merges : MergeMap) (hasDropout : Bool) (rnd : Nat → Bool) :
    Nat → MState → GoM (Option MState)
  | fuel, st =>
    if st.queue.length = 0 then .ok (some st)
    else
      match fuel with
      | 0 => .ok none
      | fuel + 1 => do
        match ← mergeStepL merges hasDropout rnd st with
        | none => pure none
        | some st' => mergeLoopL merges hasDropout rnd fuel st'

/-- `MergeAll` (word.go:89-165). -/
def mergeAllL (fuel : Nat) (merges : MergeMap) (hasDropout : Bool) (rnd : Nat → Bool)
    (w : Word) : GoM (Option Word) := do
  match ← initLoop merges w (w.length - 1) 0 [] with
  | none => pure none
  | some queue =>
    match ← mergeLoopL merges hasDropout rnd fuel ⟨w, queue, [], 0⟩ with
    | none => pure none
    | some st => removeLoop st.word.length st.word 0

end Word
end Verif
