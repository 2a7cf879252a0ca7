import Verif.Model.Utf8

namespace Verif

/-- `strutils.IsRuneBoundary` (strutils/strutils.go:19-31).
`int8(s[index]) >= -0x40` is written as the equivalent
`s[index] < 128 || s[index] >= 192` on the unsigned value; indexing cannot
panic there because `0 < index < len(s)`. -/
def isRuneBoundary (s : Str) (index : Int) : Bool :=
  if index = 0 ∨ index = (s.length : Int) then true
  else if index < 0 ∨ index > (s.length : Int) then false
  else
    match s[index.toNat]? with
    | some b => decide (((if b.toNat < 128 then (b.toNat : Int) else (b.toNat : Int) - 256)) ≥ -0x40)
    | none => false

/-- `strutils.NewBytesToRuneOffsetConverter` (strutils/strutils.go:53-61); the
converter is its `mapping` slice.  The loop variable called `runeIndex` in the
code is the *byte* index that `range` yields. -/
def newBytesToRuneOffsetConverter (sequence : Str) : List Int :=
  (rangeStr sequence).flatMap fun (runeIndex, r) =>
    List.replicate (encodeRune r).length (runeIndex : Int)

/-- `(*BytesToRuneOffsetConverter).Convert` (strutils/strutils.go:63-78). -/
def convertOffsets (mapping : List Int) (offsets : ByteOffsets) : GoM RuneOffsets :=
  if mapping.length = 0 then .ok ⟨0, 0⟩
  else do
    let start ← goIndex mapping offsets.start
    let stop ←
      if offsets.stop = (mapping.length : Int) then do
        let m ← goIndex mapping (offsets.stop - 1)
        pure (m + 1)
      else goIndex mapping offsets.stop
    pure ⟨start, stop⟩

end Verif
