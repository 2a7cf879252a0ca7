import Verif.Model.SplitPattern

namespace Verif

/-- `normalizedstring.AlignmentRange` (normalizedstring/normalizedstring.go:40-47). -/
structure Align where
  start : Int
  stop : Int
deriving DecidableEq, Repr

/-- `normalizedstring.NormalizedString` (normalizedstring/normalizedstring.go:26-38). -/
structure NS where
  original : Str
  normalized : Str
  alignments : List Align
  originalShift : Int
deriving DecidableEq, Repr

/-- `normalizedstring.Range` with its two implementations `OriginalRange` and
`NormalizedRange` (normalizedstring/range.go:12-69). -/
inductive Rng where
  | original (start stop : Int)
  | normalized (start stop : Int)
deriving DecidableEq, Repr

namespace Rng
/-- `Range.Start` (range.go:34-36, 59-61). -/
def start : Rng → Int
  | original s _ => s
  | normalized s _ => s
/-- `Range.End` (range.go:38-40, 63-65). -/
def stop : Rng → Int
  | original _ e => e
  | normalized _ e => e
/-- `Range.Len` (range.go:42-44, 67-69). -/
def len (r : Rng) : Int := r.stop - r.start
end Rng

/-- `alignmentsFromString` (normalizedstring.go:74-89). -/
def alignmentsFromString (s : Str) : List Align :=
  (rangeStr s).flatMap fun (runeIndex, r) =>
    let bytesLen := (encodeRune r).length
    List.replicate bytesLen ⟨(runeIndex : Int), ((runeIndex + bytesLen : Nat) : Int)⟩

namespace NS

/-- `normalizedstring.FromString` (normalizedstring.go:64-72). -/
def fromString (s : Str) : NS := ⟨s, s, alignmentsFromString s, 0⟩

/-- `Get` (normalizedstring.go:92-94). -/
def get (ns : NS) : Str := ns.normalized

/-- `GetOriginal` (normalizedstring.go:97-99). -/
def getOriginal (ns : NS) : Str := ns.original

/-- `Len` (normalizedstring.go:102-104). -/
def len (ns : NS) : Int := ns.normalized.length

/-- `OriginalLen` (normalizedstring.go:107-109). -/
def originalLen (ns : NS) : Int := ns.original.length

/-- `IsEmpty` (normalizedstring.go:112-114). -/
def isEmpty (ns : NS) : Bool := ns.normalized.length == 0

/-- `OriginalOffsets` (normalizedstring.go:117-122). -/
def originalOffsets (ns : NS) : ByteOffsets :=
  ⟨ns.originalShift, ns.originalShift + ns.originalLen⟩

/-- The loop of `CoerceRangeToNormalized` (normalizedstring.go:367-382): `i` is
the loop index, `start`/`stop` the variables `start`/`end`, -1 meaning unset. -/
def coerceLoop (rStart rStop : Int) : List Align → Int → Int → Int → Int × Int
  | [], _, start, stop => (start, stop)
  | al :: rest, i, start, stop =>
    if al.stop > rStop then (start, stop)
    else
      let start' :=
        if start = -1 ∧ al.start ≥ rStart then
          (if al.start ≠ al.stop then i else start)
        else start
      let stop' := if al.stop ≤ rStop then i + 1 else stop
      coerceLoop rStart rStop rest (i + 1) start' stop'

/-- `CoerceRangeToNormalized` (normalizedstring.go:343-394).  `none` is the
`false` flag (the range returned with it is always (0,0)). -/
def coerceRangeToNormalized (ns : NS) (r : Rng) : Option (Int × Int) :=
  match r with
  | .normalized s e => some (s, e)
  | .original s e =>
    if e - s = 0 then some (s, e)
    else if s > e then none
    else if ns.original.length = 0 ∧ s = 0 ∧ e = 0 then some (0, ns.len)
    else
      let (start, stop) := coerceLoop s e ns.alignments 0 (-1) (-1)
      if start ≠ -1 ∧ stop ≠ -1 then some (start, stop)
      else if start ≠ -1 then some (start, start)
      else if stop ≠ -1 then some (stop, stop)
      else none

/-- `CoerceRangeToOriginal` (normalizedstring.go:402-427).  `none` is the
`false` flag; slicing the alignments out of range panics. -/
def coerceRangeToOriginal (ns : NS) (r : Rng) : GoM (Option (Int × Int)) :=
  match r with
  | .original s e => .ok (some (s, e))
  | .normalized s e =>
    if e - s = 0 then .ok (some (s, e))
    else if s > e then .ok none
    else if ns.normalized.length = 0 ∧ s = 0 ∧ e = 0 then .ok (some (0, ns.originalLen))
    else do
      let als ← goSlice ns.alignments s e
      let first ← goIndex als 0
      let last ← goIndex als ((als.length : Int) - 1)
      pure (some (first.start, last.stop))

/-- `GetRange` (normalizedstring.go:319-325). -/
def getRange (ns : NS) (r : Rng) : GoM (Option Str) :=
  match ns.coerceRangeToNormalized r with
  | none => .ok none
  | some (a, b) => do
    let t ← goSlice ns.normalized a b
    pure (some t)

/-- `GetOriginalRange` (normalizedstring.go:329-335). -/
def getOriginalRange (ns : NS) (r : Rng) : GoM (Option Str) := do
  match ← ns.coerceRangeToOriginal r with
  | none => pure none
  | some (a, b) =>
    let t ← goSlice ns.original a b
    pure (some t)

end NS

/-- `RuneChange` (normalizedstring.go:126-141). -/
structure RuneChange where
  rune : Rune
  change : Int
deriving DecidableEq, Repr

/-- Loop state of `TransformRange`: the variables `offset`,
`replacedNormalizedRunes`, `alignments` and the builder's content. -/
structure TState where
  offset : Int
  repl : List Rune
  aligns : List Align
  out : Str
deriving DecidableEq, Repr

/-- Loop body of `TransformRange` (normalizedstring.go:174-216); `als` is
`ns.alignments`. -/
def transformStep (als : List Align) (st : TState) (rc : RuneChange) : GoM TState := do
  let idx := st.offset
  -- lines 176-188
  let align ←
    if rc.change ≥ 1 then
      (if idx < 1 then pure ⟨0, 0⟩ else goIndex als (idx - 1))
    else goIndex als idx
  -- lines 190-196
  let (replacedRuneSize, repl) ←
    if rc.change ≤ 0 then do
      let replacedRune ← goIndex st.repl 0
      pure ((encodeRune replacedRune).length, st.repl.drop 1)
    else pure (0, st.repl)
  -- lines 198-203
  let (totalBytesToRemove, repl) ←
    if rc.change ≤ -1 then do
      let removed ← goSlice repl 0 (-rc.change)
      let rest ← goSlice repl (-rc.change) repl.length
      pure ((encodeRunes removed).length, rest)
    else pure (0, repl)
  -- lines 205-215
  let newBytesCount := (encodeRune rc.rune).length
  pure {
    offset := st.offset + replacedRuneSize + totalBytesToRemove
    repl := repl
    aligns := st.aligns ++ List.replicate newBytesCount align
    out := st.out ++ encodeRune rc.rune }

namespace NS

/-- `TransformRange` (normalizedstring.go:152-229), on the already coerced
normalized range `(a, b)`. -/
def transformNormalized (ns : NS) (a b : Int) (dest : List RuneChange) (initialOffset : Int) :
    GoM NS := do
  let replaced ← goSlice ns.normalized a b
  let initial ← goSlice replaced 0 initialOffset
  let tail ← goSlice replaced initialOffset replaced.length
  let st ← goFor dest
    { offset := (initial.length : Int) + a, repl := runesOf tail, aligns := [], out := [] }
    (transformStep ns.alignments)
  let alPre ← goSlice ns.alignments 0 a
  let alPost ← goSlice ns.alignments b ns.alignments.length
  let sPre ← goSlice ns.normalized 0 a
  let sPost ← goSlice ns.normalized b ns.normalized.length
  pure { ns with
    alignments := alPre ++ st.aligns ++ alPost
    normalized := sPre ++ st.out ++ sPost }

/-- `TransformRange` (normalizedstring.go:152-229). -/
def transformRange (ns : NS) (r : Rng) (dest : List RuneChange) (initialOffset : Int) : GoM NS :=
  match ns.coerceRangeToNormalized r with
  | none => .ok ns
  | some (a, b) => ns.transformNormalized a b dest initialOffset

/-- `Transform` (normalizedstring.go:235-237). -/
def transform (ns : NS) (dest : List RuneChange) (initialOffset : Int) : GoM NS :=
  ns.transformRange (.normalized 0 ns.len) dest initialOffset

/-- Loop of `OriginalAlignments` (normalizedstring.go:260-292): state is
`last`, `offset`, `length` and the output so far. -/
def origAlignLoop : List Align → Align → Int → Int → List Align →
    GoM (Align × Int × Int × List Align)
  | [], last, offset, length, out => .ok (last, offset, length, out)
  | al :: rest, last, offset, length, out =>
    if last = al then origAlignLoop rest al offset (length + 1) out
    else if al.start < last.stop then .panic
    else
      let out := out ++ List.replicate (last.stop - last.start).toNat ⟨offset, offset + length⟩
      let offset := offset + length
      let out := out ++ List.replicate (al.start - last.stop).toNat ⟨offset, offset⟩
      origAlignLoop rest al offset 1 out

/-- `OriginalAlignments` (normalizedstring.go:240-315). -/
def originalAlignments (ns : NS) : GoM (List Align) := do
  let first ← goIndex ns.alignments 0
  let out0 := List.replicate first.start.toNat (⟨0, 0⟩ : Align)
  let (last, offset, length, out) ← origAlignLoop ns.alignments first 0 0 out0
  let out := out ++ List.replicate (last.stop - last.start).toNat ⟨offset, offset + length⟩
  let offset := offset + length
  let gap := (ns.original.length : Int) - out.length
  pure (out ++ List.replicate gap.toNat ⟨offset, offset⟩)

/-- The changes `Prepend` builds for the runes of `s` (normalizedstring.go:439-445). -/
def prependChanges (s : Str) : List RuneChange :=
  (rangeStr s).map fun (i, r) => ⟨r, if i > 0 then 1 else 0⟩

/-- `Prepend` (normalizedstring.go:432-452). -/
def prepend (ns : NS) (s : Str) : GoM NS :=
  if ns.normalized.length = 0 then .ok ns
  else do
    let firstRune ← goIndex (runesOf ns.normalized) 0
    let firstRuneBytesLen := (encodeRune firstRune).length
    ns.transformRange (.normalized 0 firstRuneBytesLen) (prependChanges s ++ [⟨firstRune, 1⟩]) 0

/-- `Append` (normalizedstring.go:457-476).  The range starts at the *rune* index
of the last rune (see the FIXME at line 474). -/
def append (ns : NS) (s : Str) : GoM NS :=
  if ns.normalized.length = 0 then .ok ns
  else do
    let runes := runesOf ns.normalized
    let lastRuneIndex : Int := (runes.length : Int) - 1
    let lastRune ← goIndex runes lastRuneIndex
    let changes : List RuneChange := ⟨lastRune, 0⟩ :: (runesOf s).map fun r => ⟨r, 1⟩
    ns.transformRange (.normalized lastRuneIndex ns.len) changes 0

/-- `rangeIsValid` (normalizedstring.go:819-833); the panic on a third
`Range` implementation is in `Model/AnyRange.lean`. -/
def rangeIsValid (ns : NS) (r : Rng) : Bool :=
  let s := match r with
    | .original _ _ => ns.original
    | .normalized _ _ => ns.normalized
  isRuneBoundary s r.start && isRuneBoundary s r.stop

/-- `Slice` (normalizedstring.go:640-671); `none` is the `false` flag. -/
def slice (ns : NS) (r : Rng) : GoM (Option NS) :=
  if !ns.rangeIsValid r then .ok none
  else
    match ns.coerceRangeToNormalized r with
    | none => .ok none
    | some (na, nb) => do
      match ← ns.coerceRangeToOriginal r with
      | none => pure none
      | some (oa, _) =>
        let original ← ns.getOriginalRange r
        let normalized ← ns.getRange r
        let als ← goSlice ns.alignments na nb
        pure (some {
          original := original.getD []
          normalized := normalized.getD []
          alignments := als.map fun al => ⟨al.start - oa, al.stop - oa⟩
          originalShift := ns.originalShift + oa })

end NS

/-- `SplitDelimiterBehavior` (normalizedstring.go:487-495). -/
inductive Behavior where
  | removed | isolated | mergedWithPrevious | mergedWithNext | contiguous
deriving DecidableEq, Repr

/-- The local `SplitMatch` of `Split` (normalizedstring.go:507-510). -/
structure SplitMatch where
  offsets : ByteOffsets
  shouldRemove : Bool
deriving DecidableEq, Repr

/-- `splits[len(splits)-1].Offsets.End = e` (normalizedstring.go:534, 567). -/
def setLastStop (splits : List SplitMatch) (e : Int) : List SplitMatch :=
  match splits.getLast? with
  | none => splits
  | some m => splits.dropLast ++ [{ m with offsets := { m.offsets with stop := e } }]

/-- `splits[len(splits)-1].Offsets.Start = b` (normalizedstring.go:549). -/
def setLastStart (splits : List SplitMatch) (b : Int) : List SplitMatch :=
  match splits.getLast? with
  | none => splits
  | some m => splits.dropLast ++ [{ m with offsets := { m.offsets with start := b } }]

/-- Loop body of the MergedWithPrevious case (normalizedstring.go:532-542); state is
(splits, previousMatch). -/
def mergePrevStep (st : List SplitMatch × Bool) (c : Capture) : List SplitMatch × Bool :=
  if c.isMatch ∧ !st.2 ∧ st.1.length > 0 then (setLastStop st.1 c.offsets.stop, c.isMatch)
  else (st.1 ++ [⟨c.offsets, false⟩], c.isMatch)

/-- Loop body of the MergedWithNext case (normalizedstring.go:545-557). -/
def mergeNextStep (st : List SplitMatch × Bool) (c : Capture) : List SplitMatch × Bool :=
  if c.isMatch ∧ !st.2 ∧ st.1.length > 0 then (setLastStart st.1 c.offsets.start, c.isMatch)
  else (st.1 ++ [⟨c.offsets, false⟩], c.isMatch)

/-- Loop body of the Contiguous case (normalizedstring.go:565-575). -/
def contiguousStep (st : List SplitMatch × Bool) (c : Capture) : List SplitMatch × Bool :=
  if c.isMatch = st.2 ∧ st.1.length > 0 then (setLastStop st.1 c.offsets.stop, c.isMatch)
  else (st.1 ++ [⟨c.offsets, false⟩], c.isMatch)

/-- The `switch behaviour` of `Split` (normalizedstring.go:515-578).  The in-place
reversal of lines 559-562 is `List.reverse`. -/
def splitMatches (b : Behavior) (captures : List Capture) : List SplitMatch :=
  match b with
  | .removed => captures.map fun c => ⟨c.offsets, c.isMatch⟩
  | .isolated => captures.map fun c => ⟨c.offsets, false⟩
  | .mergedWithPrevious => (captures.foldl mergePrevStep ([], false)).1
  | .mergedWithNext => (captures.reverse.foldl mergeNextStep ([], false)).1.reverse
  | .contiguous => (captures.foldl contiguousStep ([], false)).1

namespace NS

/-- The final loop of `Split` (normalizedstring.go:582-593). -/
def sliceAll (ns : NS) : List SplitMatch → GoM (Except Err (List NS))
  | [] => .ok (.ok [])
  | m :: ms =>
    if m.shouldRemove then sliceAll ns ms
    else do
      match ← ns.slice (.normalized m.offsets.start m.offsets.stop) with
      | none => pure (.error .badSplit)
      | some piece =>
        match ← sliceAll ns ms with
        | .error e => pure (.error e)
        | .ok rest => pure (.ok (piece :: rest))

/-- `Split` (normalizedstring.go:498-594). -/
def split (ns : NS) (pattern : SplitPattern) (b : Behavior) : GoM (Except Err (List NS)) := do
  match ← pattern ns.normalized with
  | .error e => pure (.error e)
  | .ok captures => ns.sliceAll (splitMatches b captures)

/-- Loop body of `Replace` (normalizedstring.go:607-633); state is (ns, offset). -/
def replaceStep (content : Str) (st : NS × Int) (c : Capture) : GoM (NS × Int) :=
  if !c.isMatch then .ok st
  else do
    let (ns, offset) := st
    let rStart := if c.offsets.start + offset < 0 then 0 else c.offsets.start + offset
    let rEnd := if c.offsets.stop + offset < 0 then 0 else c.offsets.stop + offset
    let changes : List RuneChange := (runesOf content).map fun r => ⟨r, 1⟩
    let seg ← goSlice ns.normalized rStart rEnd
    let removedRunes := (runesOf seg).length
    let ns' ← ns.transformRange (.normalized rStart rEnd) changes removedRunes
    pure (ns', offset + ((content.length : Int) - (c.offsets.stop - c.offsets.start)))

/-- `Replace` (normalizedstring.go:597-636).  A pattern error is returned before any
modification. -/
def replace (ns : NS) (pattern : SplitPattern) (content : Str) : GoM (Except Err NS) := do
  match ← pattern ns.normalized with
  | .error e => pure (.error e)
  | .ok captures =>
    let st ← goFor captures (ns, (0 : Int)) (replaceStep content)
    pure (.ok st.1)

end NS

/-- Loop state of `Filter` (normalizedstring.go:675-680). -/
structure FilterState where
  removed : Nat
  removedStart : Nat
  transforms : List RuneChange
  lastRune : Option Rune
deriving DecidableEq, Repr

/-- Loop body of `Filter` (normalizedstring.go:682-700). -/
def filterStep (keep : Rune → Bool) (st : FilterState) (r : Rune) : FilterState :=
  if !keep r then { st with removed := st.removed + 1 }
  else
    match st.lastRune with
    | some lr =>
      { removed := 0, removedStart := st.removedStart,
        transforms := st.transforms ++ [⟨lr, -(st.removed : Int)⟩], lastRune := some r }
    | none =>
      { removed := 0, removedStart := st.removed, transforms := st.transforms, lastRune := some r }

/-- Unicode property `White_Space`, i.e. `unicode.In(r, unicode.White_Space)`. -/
def isWhiteSpace (r : Rune) : Bool :=
  (0x09 ≤ r && r ≤ 0x0D) || r == 0x20 || r == 0x85 || r == 0xA0 || r == 0x1680
    || (0x2000 ≤ r && r ≤ 0x200A) || r == 0x2028 || r == 0x2029 || r == 0x202F
    || r == 0x205F || r == 0x3000

/-- `countLeadingSpaces` (normalizedstring.go:837-844). -/
def countLeadingSpaces : List Rune → Nat
  | [] => 0
  | r :: rs => if isWhiteSpace r then countLeadingSpaces rs + 1 else 0

/-- `countTrailingSpaces` (normalizedstring.go:848-864): scans from the end, so it
is the leading count of the reversed runes. -/
def countTrailingSpaces (runes : List Rune) : Nat := countLeadingSpaces runes.reverse

namespace NS

/-- The changes `Filter` passes to `Transform`, with the initial offset
(normalizedstring.go:674-708). -/
def filterChanges (keep : Rune → Bool) (runes : List Rune) : List RuneChange × Nat :=
  let st := runes.foldl (filterStep keep) ⟨0, 0, [], none⟩
  match st.lastRune with
  | some lr => (st.transforms ++ [⟨lr, -(st.removed : Int)⟩], st.removedStart)
  | none => (st.transforms, st.removedStart)

/-- `Filter` (normalizedstring.go:674-709). -/
def filter (ns : NS) (keep : Rune → Bool) : GoM NS :=
  let (changes, removedStart) := filterChanges keep (runesOf ns.normalized)
  ns.transform changes removedStart

/-- `Map` (normalizedstring.go:712-721).  `mapFunc` is assumed not to panic. -/
def map (ns : NS) (mapFunc : Rune → Rune) : GoM NS :=
  ns.transform ((runesOf ns.normalized).map fun r => ⟨mapFunc r, 0⟩) 0

/-- `ToUpper` (normalizedstring.go:756-758); `unicode.ToUpper` is a parameter. -/
def toUpper (uniToUpper : Rune → Rune) (ns : NS) : GoM NS := ns.map uniToUpper

/-- `ToLower` (normalizedstring.go:763-765); `unicode.ToLower` is a parameter. -/
def toLower (uniToLower : Rune → Rune) (ns : NS) : GoM NS := ns.map uniToLower

/-- The changes built by `TrimLeftRight` (normalizedstring.go:802-814): runes
`leading..lastIndex`, the last one carrying `-trailing`. -/
def trimChanges (runes : List Rune) (leading trailing : Nat) : List RuneChange :=
  let kept := (runes.drop leading).take (runes.length - trailing - leading)
  kept.mapIdx fun i r => ⟨r, if i + 1 = kept.length then -(trailing : Int) else 0⟩

/-- `TrimLeftRight` (normalizedstring.go:784-816).  The capacity of line 804,
`lastIndex-leadingSpaces+1 = lenRunes-trailing-leading`, is never negative. -/
def trimLeftRight (ns : NS) (left right : Bool) : GoM NS :=
  let runes := runesOf ns.normalized
  let leading := if left then countLeadingSpaces runes else 0
  let trailing := if right ∧ leading < runes.length then countTrailingSpaces runes else 0
  if leading = 0 ∧ trailing = 0 then .ok ns
  else ns.transform (trimChanges runes leading trailing) leading

end NS

end Verif
