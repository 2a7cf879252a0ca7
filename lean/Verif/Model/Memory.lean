import Verif.Model.NormalizedString

/-!
# Alignments in memory

`Model/NormalizedString.lean` treats `[]AlignmentRange` as a list: a value with a length.
In Go it is a window on an array that other slices may share, with a capacity up to
which it can be re-sliced and into which `append` writes.  This file is the part of
normalizedstring.go that touches alignments, over an explicit memory of arrays:
`make`, `append`, `s[i]`, `s[i] = x` and `s[a:b]` are the operations of the Go
specification.  The capacity `append` chooses when it has to move is a parameter
(`grow`), as is the spare capacity of a `[]rune(s)` (`slack`).
-/
set_option autoImplicit false

namespace Verif.Memory

/-- The arrays of alignments allocated so far; an address is a position in this list, and
each array is as long as it was allocated. -/
abbrev Mem := List (List Align)

/-- A Go slice header: array, first element, length and capacity. -/
structure Slc where
  arr : Nat
  off : Nat
  len : Nat
  cap : Nat
deriving DecidableEq, Repr

/-- What the two unspecified choices of the Go implementation are. -/
structure Rt where
  /-- capacity `append` asks for, from the old capacity and the length needed -/
  grow : Nat → Nat → Nat
  /-- capacity of `[]rune(s)` beyond its length -/
  slack : List Rune → Nat

/-- The zero value of `AlignmentRange`. -/
def zeroAlign : Align := ⟨0, 0⟩

namespace Slc

/-- The elements of a slice, as `range` and `append(…, s...)` read them. -/
def val (m : Mem) (s : Slc) : List Align := (((m[s.arr]?).getD []).drop s.off).take s.len

/-- `make([]AlignmentRange, len, cap)`; panics unless `0 ≤ len ≤ cap`. -/
def make (m : Mem) (len cap : Int) : GoM (Mem × Slc) :=
  if 0 ≤ len ∧ len ≤ cap then
    .ok (m ++ [List.replicate cap.toNat zeroAlign], ⟨m.length, 0, len.toNat, cap.toNat⟩)
  else .panic

/-- `append(s, xs...)`: in place when the capacity allows it, otherwise in a new array. -/
def append (rt : Rt) (m : Mem) (s : Slc) (xs : List Align) : Mem × Slc :=
  let n := s.len + xs.length
  if n ≤ s.cap then
    (m.modify s.arr fun a => a.take (s.off + s.len) ++ xs ++ a.drop (s.off + n),
      { s with len := n })
  else
    let c := max n (rt.grow s.cap n)
    (m ++ [s.val m ++ xs ++ List.replicate (c - n) zeroAlign], ⟨m.length, 0, n, c⟩)

/-- `s[i]`. -/
def get (m : Mem) (s : Slc) (i : Int) : GoM Align := goIndex (s.val m) i

/-- `s[i] = x`. -/
def set (m : Mem) (s : Slc) (i : Int) (x : Align) : GoM Mem :=
  if 0 ≤ i ∧ i < s.len then .ok (m.modify s.arr fun a => a.set (s.off + i.toNat) x)
  else .panic

/-- `s[a:b]`; panics unless `0 ≤ a ≤ b ≤ cap(s)`. -/
def reslice (s : Slc) (a b : Int) : GoM Slc :=
  if 0 ≤ a ∧ a ≤ b ∧ b ≤ s.cap then
    .ok ⟨s.arr, s.off + a.toNat, (b - a).toNat, s.cap - a.toNat⟩
  else .panic

end Slc

/-- `NormalizedString` (normalizedstring.go:26-38) with its slice of alignments. -/
structure MNS where
  original : Str
  normalized : Str
  alignments : Slc
  originalShift : Int
deriving DecidableEq, Repr

/-- The string as `Model/NormalizedString.lean` sees it. -/
def MNS.view (m : Mem) (ns : MNS) : NS :=
  ⟨ns.original, ns.normalized, ns.alignments.val m, ns.originalShift⟩

/-- Inner loop of `alignmentsFromString`, and of `TransformRange` (normalizedstring.go:80-85,
210-212): `n` times `alignments = append(alignments, x)`. -/
def appendN (rt : Rt) (x : Align) : Nat → Mem × Slc → Mem × Slc
  | 0, st => st
  | n + 1, st => appendN rt x n (st.2.append rt st.1 [x])

/-- `alignmentsFromString` (normalizedstring.go:74-89). -/
def alignmentsFromStringM (rt : Rt) (m : Mem) (s : Str) : GoM (Mem × Slc) := do
  let st ← Slc.make m 0 s.length
  pure ((rangeStr s).foldl (fun st (p : Nat × Rune) =>
    let bytesLen := (encodeRune p.2).length
    appendN rt ⟨(p.1 : Int), ((p.1 + bytesLen : Nat) : Int)⟩ bytesLen st) st)

/-- `FromString` (normalizedstring.go:64-72). -/
def fromStringM (rt : Rt) (m : Mem) (s : Str) : GoM (Mem × MNS) := do
  let (m, al) ← alignmentsFromStringM rt m s
  pure (m, ⟨s, s, al, 0⟩)

/-- `New` (normalizedstring.go:49-61): the caller's slice is kept, not copied. -/
def newM (original normalized : Str) (alignments : Slc) (originalShift : Int) : MNS :=
  ⟨original, normalized, alignments, originalShift⟩

/-- Loop state of `TransformRange`, with the memory. -/
structure MState where
  mem : Mem
  offset : Int
  repl : List Rune
  aligns : Slc
  out : Str

/-- `l[:n]` of a slice with `slack` zero elements between its length and its capacity. -/
def goSliceCap (l : List Rune) (slack : Nat) (n : Int) : GoM (List Rune) :=
  goSlice (l ++ List.replicate slack 0) 0 n

/-- Loop body of `TransformRange` (normalizedstring.go:174-216). -/
def transformStepM (rt : Rt) (slack : Nat) (als : Slc) (st : MState) (rc : RuneChange) :
    GoM MState := do
  let idx := st.offset
  let align ←
    if rc.change ≥ 1 then
      (if idx < 1 then pure ⟨0, 0⟩ else als.get st.mem (idx - 1))
    else als.get st.mem idx
  let (replacedRuneSize, repl) ←
    if rc.change ≤ 0 then do
      let replacedRune ← goIndex st.repl 0
      pure ((encodeRune replacedRune).length, st.repl.drop 1)
    else pure (0, st.repl)
  let (totalBytesToRemove, repl) ←
    if rc.change ≤ -1 then do
      let removed ← goSliceCap repl slack (-rc.change)
      let rest ← goSlice repl (-rc.change) repl.length
      pure ((encodeRunes removed).length, rest)
    else pure (0, repl)
  let newBytesCount := (encodeRune rc.rune).length
  let (mem, aligns) := appendN rt align newBytesCount (st.mem, st.aligns)
  pure ⟨mem, st.offset + replacedRuneSize + totalBytesToRemove, repl, aligns,
    st.out ++ encodeRune rc.rune⟩

/-- `TransformRange` (normalizedstring.go:164-229), on the coerced range. -/
def transformNormalizedM (rt : Rt) (m : Mem) (ns : MNS) (a b : Int) (dest : List RuneChange)
    (initialOffset : Int) : GoM (Mem × MNS) := do
  let replaced ← goSlice ns.normalized a b
  let initial ← goSlice replaced 0 initialOffset
  let tail ← goSlice replaced initialOffset replaced.length
  let (m, aligns) ← Slc.make m 0 (b - a)
  let st ← goFor dest
    ⟨m, (initial.length : Int) + a, runesOf tail, aligns, []⟩
    (transformStepM rt (rt.slack (runesOf tail)) ns.alignments)
  -- lines 218-222
  let (m, al) ← Slc.make st.mem 0 ((ns.alignments.len : Int) - (b - a) + st.aligns.len)
  let pre ← ns.alignments.reslice 0 a
  let (m, al) := al.append rt m (pre.val m)
  let (m, al) := al.append rt m (st.aligns.val m)
  let post ← if b ≤ ns.alignments.len then ns.alignments.reslice b ns.alignments.len else .panic
  let (m, al) := al.append rt m (post.val m)
  -- lines 224-228
  let sPre ← goSlice ns.normalized 0 a
  let sPost ← goSlice ns.normalized b ns.normalized.length
  pure (m, { ns with alignments := al, normalized := sPre ++ st.out ++ sPost })

/-- `TransformRange` (normalizedstring.go:152-229).  `CoerceRangeToNormalized` only reads. -/
def transformRangeM (rt : Rt) (m : Mem) (ns : MNS) (r : Rng) (dest : List RuneChange)
    (initialOffset : Int) : GoM (Mem × MNS) :=
  match (ns.view m).coerceRangeToNormalized r with
  | none => .ok (m, ns)
  | some (a, b) => transformNormalizedM rt m ns a b dest initialOffset

/-- `Transform` (normalizedstring.go:235-237). -/
def transformM (rt : Rt) (m : Mem) (ns : MNS) (dest : List RuneChange) (initialOffset : Int) :
    GoM (Mem × MNS) :=
  transformRangeM rt m ns (.normalized 0 ns.normalized.length) dest initialOffset

/-- `CoerceRangeToOriginal` (normalizedstring.go:402-427): line 423 re-slices up to the
capacity. -/
def coerceRangeToOriginalM (m : Mem) (ns : MNS) (r : Rng) : GoM (Option (Int × Int)) :=
  match r with
  | .original s e => .ok (some (s, e))
  | .normalized s e =>
    if e - s = 0 then .ok (some (s, e))
    else if s > e then .ok none
    else if ns.normalized.length = 0 ∧ s = 0 ∧ e = 0 then
      .ok (some (0, (ns.original.length : Int)))
    else do
      let als ← ns.alignments.reslice s e
      let first ← als.get m 0
      let last ← als.get m ((als.len : Int) - 1)
      pure (some (first.start, last.stop))

/-- `GetOriginalRange` (normalizedstring.go:329-335). -/
def getOriginalRangeM (m : Mem) (ns : MNS) (r : Rng) : GoM (Option Str) := do
  match ← coerceRangeToOriginalM m ns r with
  | none => pure none
  | some (a, b) =>
    let t ← goSlice ns.original a b
    pure (some t)

/-- `OriginalAlignments` (normalizedstring.go:240-315): reads the alignments and appends to
a slice of its own. -/
def originalAlignmentsM (rt : Rt) (m : Mem) (ns : MNS) : GoM (Mem × Slc) := do
  let (m, out) ← Slc.make m 0 ns.original.length
  let l ← (ns.view m).originalAlignments
  pure (l.foldl (fun st x => st.2.append rt st.1 [x]) (m, out))

/-- The loop of `Slice` (normalizedstring.go:660-665): `n` iterations left, at index `i`. -/
def shiftLoop (src dst : Slc) (nShift : Int) : Nat → Nat → Mem → GoM Mem
  | 0, _, m => .ok m
  | n + 1, i, m => do
    let al ← src.get m i
    let m ← dst.set m i ⟨al.start - nShift, al.stop - nShift⟩
    shiftLoop src dst nShift n (i + 1) m

/-- `Slice` (normalizedstring.go:640-671). -/
def sliceM (m : Mem) (ns : MNS) (r : Rng) : GoM (Mem × Option MNS) :=
  if !(ns.view m).rangeIsValid r then .ok (m, none)
  else
    match (ns.view m).coerceRangeToNormalized r with
    | none => .ok (m, none)
    | some (na, nb) => do
      match ← coerceRangeToOriginalM m ns r with
      | none => pure (m, none)
      | some (oa, _) =>
        let original ← getOriginalRangeM m ns r
        let normalized ← (ns.view m).getRange r
        let (m, al) ← Slc.make m (nb - na) (nb - na)
        let src ← ns.alignments.reslice na nb
        let m ← shiftLoop src al oa src.len 0 m
        pure (m, some (newM (original.getD []) (normalized.getD []) al (ns.originalShift + oa)))

/-- `Filter` (normalizedstring.go:674-709). -/
def filterM (rt : Rt) (m : Mem) (ns : MNS) (keep : Rune → Bool) : GoM (Mem × MNS) :=
  let (changes, removedStart) := NS.filterChanges keep (runesOf ns.normalized)
  transformM rt m ns changes removedStart

/-- `Map` (normalizedstring.go:712-721). -/
def mapM (rt : Rt) (m : Mem) (ns : MNS) (f : Rune → Rune) : GoM (Mem × MNS) :=
  transformM rt m ns ((runesOf ns.normalized).map fun r => ⟨f r, 0⟩) 0

/-- `TrimLeftRight` (normalizedstring.go:784-816). -/
def trimLeftRightM (rt : Rt) (m : Mem) (ns : MNS) (left right : Bool) : GoM (Mem × MNS) :=
  let runes := runesOf ns.normalized
  let leading := if left then countLeadingSpaces runes else 0
  let trailing := if right ∧ leading < runes.length then countTrailingSpaces runes else 0
  if leading = 0 ∧ trailing = 0 then .ok (m, ns)
  else transformM rt m ns (NS.trimChanges runes leading trailing) leading

/-- `Prepend` (normalizedstring.go:432-452). -/
def prependM (rt : Rt) (m : Mem) (ns : MNS) (s : Str) : GoM (Mem × MNS) :=
  if ns.normalized.length = 0 then .ok (m, ns)
  else do
    let firstRune ← goIndex (runesOf ns.normalized) 0
    transformRangeM rt m ns (.normalized 0 (encodeRune firstRune).length)
      (NS.prependChanges s ++ [⟨firstRune, 1⟩]) 0

/-- `Append` (normalizedstring.go:457-476). -/
def appendM (rt : Rt) (m : Mem) (ns : MNS) (s : Str) : GoM (Mem × MNS) :=
  if ns.normalized.length = 0 then .ok (m, ns)
  else do
    let runes := runesOf ns.normalized
    let lastRuneIndex : Int := (runes.length : Int) - 1
    let lastRune ← goIndex runes lastRuneIndex
    let changes : List RuneChange := ⟨lastRune, 0⟩ :: (runesOf s).map fun r => ⟨r, 1⟩
    transformRangeM rt m ns (.normalized lastRuneIndex ns.normalized.length) changes 0

/-- Loop body of `Replace` (normalizedstring.go:607-633). -/
def replaceStepM (rt : Rt) (content : Str) (st : Mem × MNS × Int) (c : Capture) :
    GoM (Mem × MNS × Int) :=
  if !c.isMatch then .ok st
  else do
    let (m, ns, offset) := st
    let rStart := if c.offsets.start + offset < 0 then 0 else c.offsets.start + offset
    let rEnd := if c.offsets.stop + offset < 0 then 0 else c.offsets.stop + offset
    let changes : List RuneChange := (runesOf content).map fun r => ⟨r, 1⟩
    let seg ← goSlice ns.normalized rStart rEnd
    let removedRunes := (runesOf seg).length
    let (m', ns') ← transformRangeM rt m ns (.normalized rStart rEnd) changes removedRunes
    pure (m', ns', offset + ((content.length : Int) - (c.offsets.stop - c.offsets.start)))

/-- `Replace` (normalizedstring.go:597-636). -/
def replaceM (rt : Rt) (m : Mem) (ns : MNS) (pattern : SplitPattern) (content : Str) :
    GoM (Mem × Except Err MNS) := do
  match ← pattern ns.normalized with
  | .error e => pure (m, .error e)
  | .ok captures =>
    let st ← goFor captures (m, ns, (0 : Int)) (replaceStepM rt content)
    pure (st.1, .ok st.2.1)

/-- The final loop of `Split` (normalizedstring.go:582-593). -/
def sliceAllM (ns : MNS) : Mem → List SplitMatch → GoM (Mem × Except Err (List MNS))
  | m, [] => .ok (m, .ok [])
  | m, x :: xs =>
    if x.shouldRemove then sliceAllM ns m xs
    else do
      let (m, piece) ← sliceM m ns (.normalized x.offsets.start x.offsets.stop)
      match piece with
      | none => pure (m, .error .badSplit)
      | some piece =>
        let (m, rest) ← sliceAllM ns m xs
        match rest with
        | .error e => pure (m, .error e)
        | .ok rest => pure (m, .ok (piece :: rest))

/-- `Split` (normalizedstring.go:498-594). -/
def splitM (m : Mem) (ns : MNS) (pattern : SplitPattern) (b : Behavior) :
    GoM (Mem × Except Err (List MNS)) := do
  match ← pattern ns.normalized with
  | .error e => pure (m, .error e)
  | .ok captures => sliceAllM ns m (splitMatches b captures)

end Verif.Memory
