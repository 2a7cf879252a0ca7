import Verif.Model.Machine
import Verif.Model.PreTokenizedString
import Verif.Model.WordPiece

/-!
The rest of the code with the integers of a machine (see `Model/Machine.lean`): split patterns, `Split`,
offset conversion, byte splits, encodings, merges files and the two models.  Loops are written with
indices, checked accesses and the order of the Go statements.  A loop that is not bounded by its own
counter takes `fuel`; `none` means it was not enough.  `Props/MachineRest.lean` shows when all this makes
no difference.
-/

namespace Verif
namespace Machine

variable (m : Machine)

/-! ## Split patterns -/

/-- Loop body of `FuncSplitPattern.FindMatches` (splitpattern/func.go:32-52); state is
(lastOffset, lastSeen, splits). -/
def funcStep (f : Rune → Bool) (st : Int × Int × List Capture) (ir : Nat × Rune) : Int × Int × List Capture :=
  let lastSeen := m.wrap ((ir.1 : Int) + (encodeRune ir.2).length)
  if !f ir.2 then (st.1, lastSeen, st.2.2)
  else
    let splits := if st.1 < (ir.1 : Int) then st.2.2 ++ [⟨⟨st.1, ir.1⟩, false⟩] else st.2.2
    (lastSeen, lastSeen, splits ++ [⟨⟨ir.1, lastSeen⟩, true⟩])

/-- `FuncSplitPattern.FindMatches` (splitpattern/func.go:19-63). -/
def fromFunc (f : Rune → Bool) : SplitPattern := fun s =>
  if s.length = 0 then .ok (.ok emptyCaptures)
  else
    let st := (rangeStr s).foldl (m.funcStep f) (0, 0, [])
    if st.2.1 > st.1 then .ok (.ok (st.2.2 ++ [⟨⟨st.1, st.2.1⟩, false⟩]))
    else .ok (.ok st.2.2)

/-- Loop body of `Regexp2SplitPattern.FindMatches` (splitpattern/regexp2.go:39-53); `match.String()` is the
text of the matched runes. -/
def regexp2Step (runes : List Rune) (st : Int × List Capture) (mt : Nat × Nat) : GoM (Int × List Capture) := do
  let before ← goSlice runes 0 (mt.1 : Int)
  let startByte : Int := (encodeRunes before).length
  let endByte := m.wrap (startByte + (encodeRunes ((runes.drop mt.1).take mt.2)).length)
  pure (regexpStep st (startByte, endByte))

/-- `Regexp2SplitPattern.FindMatches` (splitpattern/regexp2.go:22-69). -/
def fromRegexp2 (findAll2 : List Rune → Except Err (List (Nat × Nat))) : SplitPattern := fun s =>
  if s.length = 0 then .ok (.ok emptyCaptures)
  else
    match findAll2 (runesOf s) with
    | .error e => .ok (.error e)
    | .ok ms => do
      let st ← goFor ms (0, []) (m.regexp2Step (runesOf s))
      pure (.ok (if st.1 ≠ (s.length : Int) then st.2 ++ [⟨⟨st.1, s.length⟩, false⟩] else st.2))

/-- The loop of `InvertedPattern.FindMatches` (splitpattern/invertedpattern.go:22-24) for the captures that
the range statement yields from index `i` on: it writes to the slice it ranges over. -/
def invertLoop : Nat → Int → List Capture → GoM (List Capture)
  | 0, _, cs => .ok cs
  | n + 1, i, cs => do
    let c ← goIndex cs i
    let old ← goIndex cs i
    let cs ← goSet cs i { old with isMatch := !c.isMatch }
    invertLoop n (m.wrap (i + 1)) cs

/-- `InvertedPattern.FindMatches` (splitpattern/invertedpattern.go:17-26). -/
def invert (sp : SplitPattern) : SplitPattern := fun s => do
  match ← sp s with
  | .error e => pure (.error e)
  | .ok cs =>
    let cs ← m.invertLoop cs.length 0 cs
    pure (.ok cs)

/-! ## `Split` -/

/-- `splits[len(splits)-1].Offsets = f(...)` (normalizedstring.go:535, 549, 568). -/
def setLast (splits : List SplitMatch) (f : ByteOffsets → ByteOffsets) : GoM (List SplitMatch) := do
  let i := m.wrap ((splits.length : Int) - 1)
  let x ← goIndex splits i
  goSet splits i { x with offsets := f x.offsets }

/-- Loop body of the MergedWithPrevious case (normalizedstring.go:532-542). -/
def mergePrevStep (st : List SplitMatch × Bool) (c : Capture) : GoM (List SplitMatch × Bool) :=
  if c.isMatch ∧ !st.2 ∧ st.1.length > 0 then do
    let splits ← m.setLast st.1 fun o => { o with stop := c.offsets.stop }
    pure (splits, c.isMatch)
  else pure (st.1 ++ [⟨c.offsets, false⟩], c.isMatch)

/-- Loop of the MergedWithNext case (normalizedstring.go:545-557): index `n - 1` down to 0. -/
def mergeNextLoop (captures : List Capture) : Nat → List SplitMatch × Bool → GoM (List SplitMatch × Bool)
  | 0, st => .ok st
  | i + 1, st => do
    let c ← goIndex captures (i : Int)
    if c.isMatch ∧ !st.2 ∧ st.1.length > 0 then do
      let splits ← m.setLast st.1 fun o => { o with start := c.offsets.start }
      mergeNextLoop captures i (splits, c.isMatch)
    else mergeNextLoop captures i (st.1 ++ [⟨c.offsets, false⟩], c.isMatch)

/-- The reversal (normalizedstring.go:559-562), index `n - 1` down to 0. -/
def reverseLoop : Nat → List SplitMatch → GoM (List SplitMatch)
  | 0, l => .ok l
  | i + 1, l => do
    let opp : Int := m.wrap (m.wrap ((l.length : Int) - 1) - i)
    let l ← goSwap l i opp
    reverseLoop i l

/-- Loop body of the Contiguous case (normalizedstring.go:565-575). -/
def contiguousStep (st : List SplitMatch × Bool) (c : Capture) : GoM (List SplitMatch × Bool) :=
  if c.isMatch = st.2 ∧ st.1.length > 0 then do
    let splits ← m.setLast st.1 fun o => { o with stop := c.offsets.stop }
    pure (splits, c.isMatch)
  else pure (st.1 ++ [⟨c.offsets, false⟩], c.isMatch)

/-- The `switch behaviour` of `Split` (normalizedstring.go:515-578). -/
def splitMatches (b : Behavior) (captures : List Capture) : GoM (List SplitMatch) :=
  match b with
  | .removed => goFor captures [] fun l c => pure (l ++ [⟨c.offsets, c.isMatch⟩])
  | .isolated => goFor captures [] fun l c => pure (l ++ [⟨c.offsets, false⟩])
  | .mergedWithPrevious => do
    let st ← goFor captures ([], false) m.mergePrevStep
    pure st.1
  | .mergedWithNext => do
    let st ← m.mergeNextLoop captures captures.length ([], false)
    m.reverseLoop (st.1.length / 2) st.1
  | .contiguous => do
    let st ← goFor captures ([], false) m.contiguousStep
    pure st.1

/-- The final loop of `Split` (normalizedstring.go:582-593); `result` is what was appended so far. -/
def sliceAll (ns : NS) : List SplitMatch → List NS → GoM (Except Err (List NS))
  | [], result => .ok (.ok result)
  | sm :: rest, result =>
    if sm.shouldRemove then sliceAll ns rest result
    else do
      match ← m.slice ns (.normalized sm.offsets.start sm.offsets.stop) with
      | none => pure (.error .badSplit)
      | some piece => sliceAll ns rest (result ++ [piece])

/-- `Split` (normalizedstring.go:498-594). -/
def split (ns : NS) (pattern : SplitPattern) (b : Behavior) : GoM (Except Err (List NS)) := do
  match ← pattern ns.normalized with
  | .error e => pure (.error e)
  | .ok captures =>
    let splits ← m.splitMatches b captures
    m.sliceAll ns splits []

/-! ## Offsets, byte splits, encodings -/

/-- `(*BytesToRuneOffsetConverter).Convert` (strutils/strutils.go:63-78). -/
def convertOffsets (mapping : List Int) (offsets : ByteOffsets) : GoM RuneOffsets :=
  if mapping.length = 0 then .ok ⟨0, 0⟩
  else do
    let start ← goIndex mapping offsets.start
    let stop ←
      if offsets.stop = (mapping.length : Int) then do
        let x ← goIndex mapping (m.wrap (offsets.stop - 1))
        pure (m.wrap (x + 1))
      else goIndex mapping offsets.stop
    pure ⟨start, stop⟩

/-- `GetOriginalByteSplits` (pretokenizedstring.go:126-136). -/
def getOriginalByteSplits (p : PTS) : List ByteSplit :=
  p.splits.map fun sp => ⟨sp.ns.get, m.originalOffsets sp.ns, sp.tokens⟩

/-- Loop of `GetNormalizedByteSplits` (pretokenizedstring.go:142-154): it writes to `result[i]`. -/
def normalizedByteSplitsLoop : List Piece → Int → Int → List ByteSplit → GoM (List ByteSplit)
  | [], _, _, result => .ok result
  | sp :: sps, i, offset, result => do
    let start := offset
    let offset := m.wrap (offset + sp.ns.len)
    let result ← goSet result i ⟨sp.ns.get, ⟨start, offset⟩, sp.tokens⟩
    normalizedByteSplitsLoop sps (m.wrap (i + 1)) offset result

/-- `GetNormalizedByteSplits` (pretokenizedstring.go:139-156); `make` gives zero values. -/
def getNormalizedByteSplits (p : PTS) : GoM (List ByteSplit) :=
  m.normalizedByteSplitsLoop p.splits 0 0 (List.replicate p.splits.length ⟨[], ⟨0, 0⟩, none⟩)

/-- The offsets computed for one token (pretokenizedstring.go:183, 191-202). -/
def tokenOffsets (ns : NS) (t : Token) : GoM ByteOffsets := do
  let nsOffsets := m.originalOffsets ns
  match ← m.coerceRangeToOriginal ns (.normalized t.offsets.start t.offsets.stop) with
  | some (a, b) => pure ⟨m.wrap (nsOffsets.start + a), m.wrap (nsOffsets.start + b)⟩
  | none => pure t.offsets

/-- Inner loop of `IntoEncoding` (pretokenizedstring.go:190-211), appending to `sequence`. -/
def encodeTokens (ns : NS) (wordIndex typeID : Int) : List Token → List EncodableToken → GoM (List EncodableToken)
  | [], sequence => .ok sequence
  | t :: ts, sequence => do
    let o ← m.tokenOffsets ns t
    encodeTokens ns wordIndex typeID ts (sequence ++ [⟨t.id, t.value, o, wordIndex, typeID⟩])

/-- Outer loop of `IntoEncoding` (pretokenizedstring.go:182-212). -/
def encodeSplits (wordIndex typeID : Int) : List Piece → Int → List EncodableToken → GoM (List EncodableToken)
  | [], _, sequence => .ok sequence
  | sp :: sps, splitIndex, sequence => do
    let actual := if wordIndex < 0 then splitIndex else wordIndex
    let sequence ← m.encodeTokens sp.ns actual typeID (sp.tokens.getD []) sequence
    encodeSplits wordIndex typeID sps (m.wrap (splitIndex + 1)) sequence

/-- `IntoEncoding` (pretokenizedstring.go:172-215). -/
def intoEncoding (p : PTS) (wordIndex typeID : Int) : GoM (Except Err Encoding) :=
  if p.splits.length = 0 then .ok (.ok Encoding.default)
  else if !p.allSplitsHaveTokens then .ok (.error .notTokenized)
  else do
    let sequence ← m.encodeSplits wordIndex typeID p.splits 0 []
    pure (.ok (Encoding.fromEncodableTokens sequence))

/-! ## Merges files -/

/-- The loop of `MergeMapFromFile` (mergemap.go:55-83); the number of the line is part of messages only. -/
def mergeMapLoop (vocab : Vocab) (prefixLength : Int) : List Str → Nat → Int → MergeMap → GoM (Except Err MergeMap)
  | [], _, _, mm => .ok (.ok mm)
  | line :: rest, lineCount, rank, mm =>
    if versionPrefix.isPrefixOf line then mergeMapLoop vocab prefixLength rest (lineCount + 1) rank mm
    else
      match parseMergeLine vocab prefixLength lineCount rank line with
      | .panic => .panic
      | .ok (.error e) => .ok (.error e)
      | .ok (.ok (k, v)) =>
        mergeMapLoop vocab prefixLength rest (lineCount + 1) (m.wrap (rank + 1)) (MergeMap.set mm k.1 k.2 v)

/-- `MergeMapFromFile` (mergemap.go:37-89) on the file's content. -/
def mergeMapFromFile (content : Str) (vocab : Vocab) (prefixLength : Int) : GoM (Except Err MergeMap) :=
  match m.mergeMapLoop vocab prefixLength (scanLines content) 1 0 [] with
  | .ok (.ok mm) => if scanTooLong content then .ok (.error .tokenTooLong) else .ok (.ok mm)
  | r => r

/-! ## The queue -/

/-- `up` of `container/heap`. -/
def heapUp : Nat → WMHeap → Int → GoM (Option WMHeap)
  | 0, _, _ => .ok none
  | fuel + 1, h, j => do
    let i := Int.tdiv (m.wrap (j - 1)) 2
    if i = j then .ok (some h)
    else if !(← WMHeap.lessL h j i) then .ok (some h)
    else do
      let h ← goSwap h i j
      heapUp fuel h i

/-- `down` of `container/heap`; `j1 < 0` after an overflow ends the loop. -/
def heapDown : Nat → WMHeap → Int → Int → GoM (Option WMHeap)
  | 0, _, _, _ => .ok none
  | fuel + 1, h, i, n => do
    let j1 := m.wrap (m.wrap (2 * i) + 1)
    if j1 ≥ n ∨ j1 < 0 then .ok (some h)
    else do
      let j2 := m.wrap (j1 + 1)
      let right ← (if j2 < n then WMHeap.lessL h j2 j1 else pure false)
      let j := if right then j2 else j1
      if !(← WMHeap.lessL h j i) then .ok (some h)
      else do
        let h ← goSwap h i j
        heapDown fuel h j n

/-- `heap.Push`. -/
def heapPush (h : WMHeap) (x : WordMerge) : GoM (Option WMHeap) :=
  let h := h ++ [x]
  m.heapUp h.length h (m.wrap ((h.length : Int) - 1))

/-- `WordMergeHeap.Pop` (wordmerge.go:39-44). -/
def heapPopLast (h : WMHeap) : GoM (WordMerge × WMHeap) := do
  let lastIndex : Int := m.wrap ((h.length : Int) - 1)
  let x ← goIndex h lastIndex
  let h ← goSlice h 0 lastIndex
  pure (x, h)

/-- `heap.Pop`. -/
def heapPop (h : WMHeap) : GoM (Option (WordMerge × WMHeap)) := do
  let n : Int := m.wrap ((h.length : Int) - 1)
  let h' ← goSwap h 0 n
  match ← m.heapDown h.length h' 0 n with
  | none => pure none
  | some h' =>
    let r ← m.heapPopLast h'
    pure (some r)

/-! ## Words -/

/-- `MergeWith` (word.go:36-40). -/
def mergeWith (s other : WordSymbol) (newSymbolID : Int) : WordSymbol :=
  { s with id := newSymbolID, length := m.wrap (s.length + other.length), next := other.next }

/-- `Add` (word.go:74-87). -/
def wordAdd (w : Word) (symbolID byteLen : Int) : GoM Word := do
  let prev : Int := m.wrap ((w.length : Int) - 1)
  let w ← if prev ≠ -1 then do
      let s ← goIndex w prev
      goSet w prev { s with next := w.length }
    else pure w
  pure (w ++ [⟨symbolID, byteLen, prev, -1⟩])

/-- `removeSymbol` (word.go:167-169). -/
def removeSymbol (w : Word) (index : Int) : GoM Word := do
  let a ← goSlice w 0 index
  let b ← goSlice w (m.wrap (index + 1)) w.length
  pure (a ++ b)

/-- The removal loop (word.go:157-164). -/
def removeLoop : Nat → Word → Int → GoM (Option Word)
  | fuel, w, i =>
    if i < (w.length : Int) then
      match fuel with
      | 0 => .ok none
      | fuel + 1 => do
        let s ← goIndex w i
        if s.length = 0 then do
          let w ← m.removeSymbol w i
          removeLoop fuel w i
        else removeLoop fuel w (m.wrap (i + 1))
    else .ok (some w)

/-- The initial queue filling (word.go:94-99) from `index` on, `n` iterations. -/
def initLoop (merges : MergeMap) (w : Word) : Nat → Int → WMHeap → GoM (Option WMHeap)
  | 0, _, q => .ok (some q)
  | n + 1, index, q => do
    let a ← goIndex w index
    let b ← goIndex w (m.wrap (index + 1))
    match merges.get a.id b.id with
    | none => initLoop merges w n (m.wrap (index + 1)) q
    | some mv =>
      match ← m.heapPush q ⟨mv, index⟩ with
      | none => pure none
      | some q => initLoop merges w n (m.wrap (index + 1)) q

/-- `for _, s := range skip { heap.Push(&queue, s) }` (word.go:111-113). -/
def pushAll : List WordMerge → WMHeap → GoM (Option WMHeap)
  | [], q => .ok (some q)
  | s :: ss, q => do
    match ← m.heapPush q s with
    | none => pure none
    | some q => pushAll ss q

/-- Lines 140-146 of `MergeAll`. -/
def pushPrev (merges : MergeMap) (w : Word) (queue : WMHeap) (current : WordSymbol) : GoM (Option WMHeap) :=
  if current.hasPrev then do
    let prevSymbol ← goIndex w current.prev
    match merges.get prevSymbol.id current.id with
    | some mv => m.heapPush queue ⟨mv, current.prev⟩
    | none => pure (some queue)
  else pure (some queue)

/-- Lines 148-154 of `MergeAll`. -/
def pushNext (merges : MergeMap) (w : Word) (queue : WMHeap) (current : WordSymbol) (pos : Int) : GoM (Option WMHeap) :=
  if current.hasNext ∧ current.next < (w.length : Int) then do
    let nextSymbol ← goIndex w current.next
    match merges.get current.id nextSymbol.id with
    | some mv => m.heapPush queue ⟨mv, pos⟩
    | none => pure (some queue)
  else pure (some queue)

/-- word.go:116-154. -/
def process (merges : MergeMap) (w : Word) (queue : WMHeap) (top : WordMerge) : GoM (Option (Word × WMHeap)) := do
  let cur ← goIndex w top.pos
  if cur.length = 0 ∨ !cur.hasNext then pure (some (w, queue))
  else
    let nextPos := cur.next
    let right ← goIndex w nextPos
    match merges.get cur.id right.id with
    | none => pure (some (w, queue))
    | some mv =>
      if mv.id ≠ top.value.id then pure (some (w, queue))
      else
        let w ← goSet w top.pos (m.mergeWith cur right top.value.id)
        let right ← goIndex w nextPos
        let right := { right with length := 0 }
        let w ← goSet w nextPos right
        let w ← Word.relink w right top.pos
        let current ← goIndex w top.pos
        match ← m.pushPrev merges w queue current with
        | none => pure none
        | some queue =>
          match ← m.pushNext merges w queue current top.pos with
          | none => pure none
          | some queue => pure (some (w, queue))

/-- One iteration of the main loop (word.go:102-155). -/
def mergeStep (merges : MergeMap) (hasDropout : Bool) (rnd : Nat → Bool) (st : Word.MState) :
    GoM (Option Word.MState) := do
  match ← m.heapPop st.queue with
  | none => pure none
  | some (top, queue) =>
    if hasDropout ∧ rnd st.draws then
      pure (some { st with queue := queue, skip := st.skip ++ [top], draws := st.draws + 1 })
    else
      let draws := if hasDropout then st.draws + 1 else st.draws
      match ← m.pushAll st.skip queue with
      | none => pure none
      | some queue =>
        match ← m.process merges st.word queue top with
        | none => pure none
        | some (w, queue) => pure (some { word := w, queue := queue, skip := [], draws := draws })

/-- The main loop (word.go:102-155). -/
def mergeLoop (merges : MergeMap) (hasDropout : Bool) (rnd : Nat → Bool) :
    Nat → Word.MState → GoM (Option Word.MState)
  | fuel, st =>
    if st.queue.length = 0 then .ok (some st)
    else
      match fuel with
      | 0 => .ok none
      | fuel + 1 => do
        match ← m.mergeStep merges hasDropout rnd st with
        | none => pure none
        | some st' => mergeLoop merges hasDropout rnd fuel st'

/-- `MergeAll` (word.go:89-165). -/
def mergeAll (fuel : Nat) (merges : MergeMap) (hasDropout : Bool) (rnd : Nat → Bool) (w : Word) : GoM (Option Word) := do
  let lastSymbolIndex := m.wrap ((w.length : Int) - 1)
  match ← m.initLoop merges w lastSymbolIndex.toNat 0 [] with
  | none => pure none
  | some queue =>
    match ← m.mergeLoop merges hasDropout rnd fuel ⟨w, queue, [], 0⟩ with
    | none => pure none
    | some st => m.removeLoop st.word.length st.word 0

/-! ## BPE -/

/-- Loop body of `mergeWord` (bpemodel.go:138-174). -/
def symbolStep (b : BPE) (unkTokenID lastRuneIndex : Int) (st : Word × Option (Int × Int)) (ir : Nat × Rune) :
    GoM (Word × Option (Int × Int)) := do
  let (word, unk) := st
  let s := encodeRune ir.2
  let byteLen : Int := s.length
  let s := if ir.1 = 0 ∧ b.hasContinuingSubwordPrefix then b.continuingSubwordPrefix ++ s else s
  let s := if (ir.1 : Int) = lastRuneIndex ∧ b.hasEndOfWordSuffix then s ++ b.endOfWordSuffix else s
  match b.vocab.getID s with
  | some id =>
    match unk with
    | some (uid, ulen) => do
      let word ← m.wordAdd word uid ulen
      let word ← m.wordAdd word id byteLen
      pure (word, none)
    | none => do
      let word ← m.wordAdd word id byteLen
      pure (word, none)
  | none =>
    if b.hasUnknownToken then
      match unk with
      | some (uid, ulen) =>
        if b.unknownFusionEnabled then pure (word, some (uid, m.wrap (ulen + byteLen)))
        else do
          let word ← m.wordAdd word uid ulen
          pure (word, some (unkTokenID, byteLen))
      | none => pure (word, some (unkTokenID, byteLen))
    else pure (word, unk)

/-- `mergeWord` (bpemodel.go:120-183). -/
def mergeWord (fuel : Nat) (b : BPE) (rnd : Nat → Bool) (w : Str) : GoM (Except Err (Option Word)) :=
  let go (unkTokenID : Int) : GoM (Except Err (Option Word)) := do
    let runes := runesOf w
    let lastRuneIndex := m.wrap ((runes.length : Int) - 1)
    let (word, unk) ← goFor (BPE.indexed runes) ([], none) (m.symbolStep b unkTokenID lastRuneIndex)
    let word ← match unk with
      | some (uid, ulen) => m.wordAdd word uid ulen
      | none => pure word
    let r ← m.mergeAll fuel b.merges b.hasDropout rnd word
    pure (.ok r)
  if b.hasUnknownToken then
    match b.vocab.getID b.unknownToken with
    | none => .ok (.error .unkOutOfVocab)
    | some id => go id
  else go 0

/-- Loop of `wordToTokens` (bpemodel.go:188-203): it writes to `tokens[i]`. -/
def wordToTokensLoop (vocab : Vocab) : Word → Int → Int → List Token → GoM (Except Err (List Token))
  | [], _, _, tokens => .ok (.ok tokens)
  | s :: rest, i, offsetStart, tokens =>
    match vocab.getString s.id with
    | none => .ok (.error (.idNotFound s.id))
    | some value => do
      let offsetEnd := m.wrap (offsetStart + s.length)
      let tokens ← goSet tokens i ⟨s.id, value, ⟨offsetStart, offsetEnd⟩⟩
      wordToTokensLoop vocab rest (m.wrap (i + 1)) offsetEnd tokens

/-- `wordToTokens` (bpemodel.go:185-205); `make` gives zero values. -/
def wordToTokens (vocab : Vocab) (w : Word) : GoM (Except Err (List Token)) :=
  m.wordToTokensLoop vocab w 0 0 (List.replicate w.length ⟨0, [], ⟨0, 0⟩⟩)

/-- `Tokenize` (bpemodel.go:85-118); the cache of the code never has a hit. -/
def bpeTokenize (fuel : Nat) (b : BPE) (rnd : Nat → Bool) (sequence : Str) : GoM (Except Err (Option (List Token))) :=
  if sequence.length = 0 then .ok (.ok (some []))
  else do
    match ← m.mergeWord fuel b rnd sequence with
    | .error e => pure (.error e)
    | .ok none => pure (.ok none)
    | .ok (some word) =>
      match ← m.wordToTokens b.vocab word with
      | .error e => pure (.error e)
      | .ok ts => pure (.ok (some ts))

/-! ## WordPiece -/

/-- Inner loop (wordpiecemodel.go:77-99): the token, if any. -/
def pieceInner (wp : WordPiece) (sequence : Str) (start : Int) : Nat → Int → GoM (Option (Option Token))
  | fuel, stop =>
    if start < stop then
      match fuel with
      | 0 => .ok none
      | fuel + 1 => do
        let t ← goSlice sequence start stop
        let subStr := if start > 0 then wp.continuingSubwordPrefix ++ t else t
        match wp.vocab.getID subStr with
        | some id => pure (some (some ⟨id, subStr, ⟨start, stop⟩⟩))
        | none =>
          if subStr.length > 0 then do
            let b ← goIndex subStr (m.wrap ((subStr.length : Int) - 1))
            pieceInner wp sequence start fuel (m.wrap (stop - WordPiece.byteStringLen b))
          else pieceInner wp sequence start fuel (m.wrap (stop - 1))
    else .ok (some none)

/-- Outer loop (wordpiecemodel.go:72-108); the inner `none` is `isBad`. -/
def pieceOuter (wp : WordPiece) (sequence : Str) : Nat → Int → List Token → GoM (Option (Option (List Token)))
  | fuel, start, subTokens =>
    if start < (sequence.length : Int) then
      match fuel with
      | 0 => .ok none
      | fuel + 1 => do
        match ← m.pieceInner wp sequence start sequence.length sequence.length with
        | none => pure none
        | some none => pure (some none)
        | some (some t) => pieceOuter wp sequence fuel t.offsets.stop (subTokens ++ [t])
    else .ok (some (some subTokens))

/-- `Tokenize` (wordpiecemodel.go:55-123). -/
def pieceTokenize (wp : WordPiece) (sequence : Str) : GoM (Option (Except Err (List Token))) :=
  if ((runesOf sequence).length : Int) > wp.maxInputCharsPerWord then .ok (some (wp.unknown sequence))
  else do
    match ← m.pieceOuter wp sequence sequence.length 0 [] with
    | none => pure none
    | some none => pure (some (wp.unknown sequence))
    | some (some ts) => pure (some (.ok ts))

end Machine
end Verif
