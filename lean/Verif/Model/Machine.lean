import Verif.Model.NormalizedString
import Verif.Model.Literal

/-!
`NormalizedString` once more, with the integers of a machine: every sum, difference and negation of
the Go code wraps around, and `make` with a negative length or capacity panics.  A machine also says
what `strings.Builder.WriteRune` writes: before Go 1.17 (go.mod asks for 1.15) a negative rune was
written as one byte.  `Props/Machine.lean` shows when this makes no difference.
-/

namespace Verif

/-- `int` has the values from `-half` to `half - 1`. -/
structure Machine where
  half : Nat
  writeRune : Rune → Str

namespace Machine

/-- The value an `int` holds after a sum, difference or negation that is `x` in the integers. -/
def wrap (m : Machine) (x : Int) : Int := Int.bmod x (2 * m.half)

/-- 64 bits, `WriteRune` since Go 1.17. -/
def go64 : Machine := ⟨2 ^ 63, encodeRune⟩
/-- 32 bits, `WriteRune` since Go 1.17. -/
def go32 : Machine := ⟨2 ^ 31, encodeRune⟩
/-- `WriteRune` before Go 1.17: `if r < utf8.RuneSelf { append(b.buf, byte(r)) }`. -/
def writeRuneOld (r : Rune) : Str := if r < 0x80 then [UInt8.ofNat (r % 256).toNat] else encodeRune r
/-- 64 bits, `WriteRune` before Go 1.17. -/
def go64Old : Machine := ⟨2 ^ 63, writeRuneOld⟩

variable (m : Machine)

/-- `make` of length or capacity `n`. -/
def make (n : Int) : GoM Unit := if n < 0 then .panic else .ok ()

/-- `alignmentsFromString` (normalizedstring.go:74-89). -/
def alignmentsFromString (s : Str) : List Align :=
  (rangeStr s).flatMap fun (runeIndex, r) =>
    let bytesLen := (encodeRune r).length
    List.replicate bytesLen ⟨(runeIndex : Int), m.wrap ((runeIndex : Int) + bytesLen)⟩

/-- `FromString` (normalizedstring.go:64-72). -/
def fromString (s : Str) : NS := ⟨s, s, m.alignmentsFromString s, 0⟩

/-- `OriginalOffsets` (normalizedstring.go:117-122). -/
def originalOffsets (ns : NS) : ByteOffsets :=
  ⟨ns.originalShift, m.wrap (ns.originalShift + ns.originalLen)⟩

/-- `Range.Len` (range.go:42-44, 67-69). -/
def rngLen (s e : Int) : Int := m.wrap (e - s)

/-- The loop of `CoerceRangeToNormalized` (normalizedstring.go:367-382). -/
def coerceLoop (rStart rStop : Int) : List Align → Int → Int → Int → Int × Int
  | [], _, start, stop => (start, stop)
  | al :: rest, i, start, stop =>
    if al.stop > rStop then (start, stop)
    else
      let start' :=
        if start = -1 ∧ al.start ≥ rStart then
          (if al.start ≠ al.stop then i else start)
        else start
      let stop' := if al.stop ≤ rStop then m.wrap (i + 1) else stop
      coerceLoop rStart rStop rest (m.wrap (i + 1)) start' stop'

/-- `CoerceRangeToNormalized` (normalizedstring.go:343-394). -/
def coerceRangeToNormalized (ns : NS) (r : Rng) : Option (Int × Int) :=
  match r with
  | .normalized s e => some (s, e)
  | .original s e =>
    if m.rngLen s e = 0 then some (s, e)
    else if s > e then none
    else if ns.original.length = 0 ∧ s = 0 ∧ e = 0 then some (0, ns.len)
    else
      let (start, stop) := m.coerceLoop s e ns.alignments 0 (-1) (-1)
      if start ≠ -1 ∧ stop ≠ -1 then some (start, stop)
      else if start ≠ -1 then some (start, start)
      else if stop ≠ -1 then some (stop, stop)
      else none

/-- `CoerceRangeToOriginal` (normalizedstring.go:402-427). -/
def coerceRangeToOriginal (ns : NS) (r : Rng) : GoM (Option (Int × Int)) :=
  match r with
  | .original s e => .ok (some (s, e))
  | .normalized s e =>
    if m.rngLen s e = 0 then .ok (some (s, e))
    else if s > e then .ok none
    else if ns.normalized.length = 0 ∧ s = 0 ∧ e = 0 then .ok (some (0, ns.originalLen))
    else do
      let als ← goSlice ns.alignments s e
      let first ← goIndex als 0
      let last ← goIndex als (m.wrap ((als.length : Int) - 1))
      pure (some (first.start, last.stop))

/-- `GetRange` (normalizedstring.go:319-325). -/
def getRange (ns : NS) (r : Rng) : GoM (Option Str) :=
  match m.coerceRangeToNormalized ns r with
  | none => .ok none
  | some (a, b) => do
    let t ← goSlice ns.normalized a b
    pure (some t)

/-- `GetOriginalRange` (normalizedstring.go:329-335). -/
def getOriginalRange (ns : NS) (r : Rng) : GoM (Option Str) := do
  match ← m.coerceRangeToOriginal ns r with
  | none => pure none
  | some (a, b) =>
    let t ← goSlice ns.original a b
    pure (some t)

/-- Loop body of `TransformRange` (normalizedstring.go:174-216). -/
def transformStep (als : List Align) (st : TState) (rc : RuneChange) : GoM TState := do
  let idx := st.offset
  let align ←
    if rc.change ≥ 1 then
      (if idx < 1 then pure ⟨0, 0⟩ else goIndex als (m.wrap (idx - 1)))
    else goIndex als idx
  let (replacedRuneSize, repl) ←
    if rc.change ≤ 0 then do
      let replacedRune ← goIndex st.repl 0
      pure ((encodeRune replacedRune).length, st.repl.drop 1)
    else pure (0, st.repl)
  let (totalBytesToRemove, repl) ←
    if rc.change ≤ -1 then do
      let removed ← goSlice repl 0 (m.wrap (-rc.change))
      let rest ← goSlice repl (m.wrap (-rc.change)) repl.length
      pure ((encodeRunes removed).length, rest)
    else pure (0, repl)
  let newBytesCount := (encodeRune rc.rune).length
  pure {
    offset := m.wrap (m.wrap (st.offset + replacedRuneSize) + totalBytesToRemove)
    repl := repl
    aligns := st.aligns ++ List.replicate newBytesCount align
    out := st.out ++ m.writeRune rc.rune }

/-- `TransformRange` (normalizedstring.go:152-229), on the coerced range. -/
def transformNormalized (ns : NS) (a b : Int) (dest : List RuneChange) (initialOffset : Int) :
    GoM NS := do
  let replaced ← goSlice ns.normalized a b
  let initial ← goSlice replaced 0 initialOffset
  let tail ← goSlice replaced initialOffset replaced.length
  make (m.rngLen a b)
  let st ← goFor dest
    { offset := m.wrap ((initial.length : Int) + a), repl := runesOf tail, aligns := [], out := [] }
    (m.transformStep ns.alignments)
  make (m.wrap (m.wrap (ns.alignments.length - m.rngLen a b) + st.aligns.length))
  let alPre ← goSlice ns.alignments 0 a
  let alPost ← goSlice ns.alignments b ns.alignments.length
  let sPre ← goSlice ns.normalized 0 a
  let sPost ← goSlice ns.normalized b ns.normalized.length
  pure { ns with
    alignments := alPre ++ st.aligns ++ alPost
    normalized := sPre ++ st.out ++ sPost }

/-- `TransformRange` (normalizedstring.go:152-229). -/
def transformRange (ns : NS) (r : Rng) (dest : List RuneChange) (initialOffset : Int) : GoM NS :=
  match m.coerceRangeToNormalized ns r with
  | none => .ok ns
  | some (a, b) => m.transformNormalized ns a b dest initialOffset

/-- `Transform` (normalizedstring.go:235-237). -/
def transform (ns : NS) (dest : List RuneChange) (initialOffset : Int) : GoM NS :=
  m.transformRange ns (.normalized 0 ns.len) dest initialOffset

/-- Loop of `OriginalAlignments` (normalizedstring.go:260-292). -/
def origAlignLoop : List Align → Align → Int → Int → List Align →
    GoM (Align × Int × Int × List Align)
  | [], last, offset, length, out => .ok (last, offset, length, out)
  | al :: rest, last, offset, length, out =>
    if last = al then origAlignLoop rest al offset (m.wrap (length + 1)) out
    else if al.start < last.stop then .panic
    else
      let out := out ++ List.replicate (m.wrap (last.stop - last.start)).toNat
        ⟨offset, m.wrap (offset + length)⟩
      let offset := m.wrap (offset + length)
      let out := out ++ List.replicate (m.wrap (al.start - last.stop)).toNat ⟨offset, offset⟩
      origAlignLoop rest al offset 1 out

/-- `OriginalAlignments` (normalizedstring.go:240-315). -/
def originalAlignments (ns : NS) : GoM (List Align) := do
  let first ← goIndex ns.alignments 0
  let out0 := List.replicate first.start.toNat (⟨0, 0⟩ : Align)
  let (last, offset, length, out) ← m.origAlignLoop ns.alignments first 0 0 out0
  let out := out ++ List.replicate (m.wrap (last.stop - last.start)).toNat
    ⟨offset, m.wrap (offset + length)⟩
  let offset := m.wrap (offset + length)
  let gap := m.wrap ((ns.original.length : Int) - out.length)
  pure (out ++ List.replicate gap.toNat ⟨offset, offset⟩)

/-- `Prepend` (normalizedstring.go:432-452). -/
def prepend (ns : NS) (s : Str) : GoM NS :=
  if ns.normalized.length = 0 then .ok ns
  else do
    let firstRune ← goIndex (runesOf ns.normalized) 0
    let firstRuneBytesLen := (encodeRune firstRune).length
    m.transformRange ns (.normalized 0 firstRuneBytesLen) (NS.prependChanges s ++ [⟨firstRune, 1⟩]) 0

/-- `Append` (normalizedstring.go:457-476). -/
def append (ns : NS) (s : Str) : GoM NS :=
  if ns.normalized.length = 0 then .ok ns
  else do
    let runes := runesOf ns.normalized
    let lastRuneIndex : Int := m.wrap ((runes.length : Int) - 1)
    let lastRune ← goIndex runes lastRuneIndex
    let changes : List RuneChange := ⟨lastRune, 0⟩ :: (runesOf s).map fun r => ⟨r, 1⟩
    m.transformRange ns (.normalized lastRuneIndex ns.len) changes 0

/-- `Slice` (normalizedstring.go:640-671). -/
def slice (ns : NS) (r : Rng) : GoM (Option NS) :=
  if !ns.rangeIsValid r then .ok none
  else
    match m.coerceRangeToNormalized ns r with
    | none => .ok none
    | some (na, nb) => do
      match ← m.coerceRangeToOriginal ns r with
      | none => pure none
      | some (oa, _) =>
        let original ← m.getOriginalRange ns r
        let normalized ← m.getRange ns r
        make (m.rngLen na nb)
        let als ← goSlice ns.alignments na nb
        pure (some {
          original := original.getD []
          normalized := normalized.getD []
          alignments := als.map fun al => ⟨m.wrap (al.start - oa), m.wrap (al.stop - oa)⟩
          originalShift := m.wrap (ns.originalShift + oa) })

/-- Loop body of `Replace` (normalizedstring.go:607-633). -/
def replaceStep (content : Str) (st : NS × Int) (c : Capture) : GoM (NS × Int) :=
  if !c.isMatch then .ok st
  else do
    let (ns, offset) := st
    let rStart := m.wrap (c.offsets.start + offset)
    let rStart := if rStart < 0 then 0 else rStart
    let rEnd := m.wrap (c.offsets.stop + offset)
    let rEnd := if rEnd < 0 then 0 else rEnd
    let changes : List RuneChange := (runesOf content).map fun r => ⟨r, 1⟩
    let seg ← goSlice ns.normalized rStart rEnd
    let removedRunes := (runesOf seg).length
    let ns' ← m.transformRange ns (.normalized rStart rEnd) changes removedRunes
    let oldLen := m.wrap (c.offsets.stop - c.offsets.start)
    pure (ns', m.wrap (offset + m.wrap ((content.length : Int) - oldLen)))

/-- `Replace` (normalizedstring.go:597-636). -/
def replace (ns : NS) (pattern : SplitPattern) (content : Str) : GoM (Except Err NS) := do
  match ← pattern ns.normalized with
  | .error e => pure (.error e)
  | .ok captures =>
    let st ← goFor captures (ns, (0 : Int)) (m.replaceStep content)
    pure (.ok st.1)

/-- Loop state of `Filter` (normalizedstring.go:675-680). -/
structure FState where
  removed : Int
  removedStart : Int
  transforms : List RuneChange
  lastRune : Option Rune

/-- Loop body of `Filter` (normalizedstring.go:682-700). -/
def filterStep (keep : Rune → Bool) (st : FState) (r : Rune) : FState :=
  if !keep r then { st with removed := m.wrap (st.removed + 1) }
  else
    match st.lastRune with
    | some lr =>
      { removed := 0, removedStart := st.removedStart,
        transforms := st.transforms ++ [⟨lr, m.wrap (-st.removed)⟩], lastRune := some r }
    | none =>
      { removed := 0, removedStart := st.removed, transforms := st.transforms, lastRune := some r }

/-- `Filter` (normalizedstring.go:674-709). -/
def filter (ns : NS) (keep : Rune → Bool) : GoM NS :=
  let st := (runesOf ns.normalized).foldl (m.filterStep keep) ⟨0, 0, [], none⟩
  match st.lastRune with
  | some lr => m.transform ns (st.transforms ++ [⟨lr, m.wrap (-st.removed)⟩]) st.removedStart
  | none => m.transform ns st.transforms st.removedStart

/-- `Map` (normalizedstring.go:712-721). -/
def map (ns : NS) (mapFunc : Rune → Rune) : GoM NS :=
  m.transform ns ((runesOf ns.normalized).map fun r => ⟨mapFunc r, 0⟩) 0

/-- The loop of `countTrailingSpaces` (normalizedstring.go:857-861) for the indices below `n`. -/
def countTrailingLoop (runes : List Rune) (lastIndex : Int) : Nat → GoM Int
  | 0 => .ok runes.length
  | i + 1 => do
    let r ← goIndex runes i
    if !isWhiteSpace r then .ok (m.wrap (lastIndex - i)) else countTrailingLoop runes lastIndex i

/-- `countTrailingSpaces` (normalizedstring.go:848-864). -/
def countTrailingSpaces (runes : List Rune) : GoM Int :=
  if runes.length = 0 then .ok 0
  else do
    let lastIndex : Int := m.wrap ((runes.length : Int) - 1)
    let _ ← goIndex runes lastIndex
    m.countTrailingLoop runes lastIndex runes.length

/-- The loop of `TrimLeftRight` (normalizedstring.go:805-814) from index `i` on, `n` iterations. -/
def trimLoop (runes : List Rune) (lastIndex trailing : Int) :
    Nat → Int → List RuneChange → GoM (List RuneChange)
  | 0, _, out => .ok out
  | n + 1, i, out => do
    let change := if i = lastIndex then m.wrap (-trailing) else 0
    let r ← goIndex runes i
    trimLoop runes lastIndex trailing n (m.wrap (i + 1)) (out ++ [⟨r, change⟩])

/-- `TrimLeftRight` (normalizedstring.go:784-816). -/
def trimLeftRight (ns : NS) (left right : Bool) : GoM NS := do
  let runes := runesOf ns.normalized
  let lenRunes : Int := runes.length
  let leading : Int := if left then countLeadingLoop runes runes 0 else 0
  let trailing ← (if right ∧ leading < lenRunes then m.countTrailingSpaces runes else pure 0)
  if leading = 0 ∧ trailing = 0 then .ok ns
  else
    let lastIndex := m.wrap (m.wrap (lenRunes - trailing) - 1)
    let n := m.wrap (m.wrap (lastIndex - leading) + 1)
    make n
    let changes ← m.trimLoop runes lastIndex trailing n.toNat leading []
    m.transform ns changes leading

end Machine
end Verif
