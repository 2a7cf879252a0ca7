import Verif.Model.NormalizedString

/-!
The functions of `normalizedstring` on values of the interface `Range` (normalizedstring/range.go:12-19) that need not be of one of the two
types of the package.  A pointer to an `OriginalRange` or `NormalizedRange` has the methods of the interface too and is of a third type.
-/

set_option autoImplicit false

namespace Verif

/-- The type of a `Range`, as a type switch sees it. -/
inductive RangeKind where
  | original | normalized | other
deriving DecidableEq, Repr

/-- A `Range`: its type and what its methods give. -/
structure IRange where
  kind : RangeKind
  start : Int
  stop : Int
  len : Int
deriving DecidableEq, Repr

/-- The interface value; `none` is nil, or a nil pointer: calling a method panics. -/
abbrev AnyRange := Option IRange

namespace AnyRange

/-- A value of one of the two types (range.go:23-71). -/
def own : Rng → AnyRange
  | .original s e => some ⟨.original, s, e, e - s⟩
  | .normalized s e => some ⟨.normalized, s, e, e - s⟩

/-- A pointer to a value of one of the two types. -/
def pointer : Rng → AnyRange
  | .original s e => some ⟨.other, s, e, e - s⟩
  | .normalized s e => some ⟨.other, s, e, e - s⟩

end AnyRange

namespace NS

/-- `CoerceRangeToNormalized` (normalizedstring.go:343-394). -/
def coerceRangeToNormalizedI (ns : NS) (r : AnyRange) : GoM (Option (Int × Int)) :=
  match r with
  | none => .panic
  | some r =>
    if r.kind = .normalized then .ok (some (r.start, r.stop))
    else if r.len = 0 then .ok (some (r.start, r.stop))
    else if r.start > r.stop then .ok none
    else if ns.original.length = 0 ∧ r.start = 0 ∧ r.stop = 0 then .ok (some (0, ns.len))
    else
      let (start, stop) := coerceLoop r.start r.stop ns.alignments 0 (-1) (-1)
      if start ≠ -1 ∧ stop ≠ -1 then .ok (some (start, stop))
      else if start ≠ -1 then .ok (some (start, start))
      else if stop ≠ -1 then .ok (some (stop, stop))
      else .ok none

/-- `CoerceRangeToOriginal` (normalizedstring.go:402-427). -/
def coerceRangeToOriginalI (ns : NS) (r : AnyRange) : GoM (Option (Int × Int)) :=
  match r with
  | none => .panic
  | some r =>
    if r.kind = .original then .ok (some (r.start, r.stop))
    else if r.len = 0 then .ok (some (r.start, r.stop))
    else if r.start > r.stop then .ok none
    else if ns.normalized.length = 0 ∧ r.start = 0 ∧ r.stop = 0 then .ok (some (0, ns.originalLen))
    else do
      let als ← goSlice ns.alignments r.start r.stop
      let first ← goIndex als 0
      let last ← goIndex als ((als.length : Int) - 1)
      pure (some (first.start, last.stop))

/-- `GetRange` (normalizedstring.go:319-325). -/
def getRangeI (ns : NS) (r : AnyRange) : GoM (Option Str) := do
  match ← ns.coerceRangeToNormalizedI r with
  | none => pure none
  | some (a, b) =>
    let t ← goSlice ns.normalized a b
    pure (some t)

/-- `GetOriginalRange` (normalizedstring.go:329-335). -/
def getOriginalRangeI (ns : NS) (r : AnyRange) : GoM (Option Str) := do
  match ← ns.coerceRangeToOriginalI r with
  | none => pure none
  | some (a, b) =>
    let t ← goSlice ns.original a b
    pure (some t)

/-- `TransformRange` (normalizedstring.go:152-229). -/
def transformRangeI (ns : NS) (r : AnyRange) (dest : List RuneChange) (initialOffset : Int) : GoM NS := do
  match ← ns.coerceRangeToNormalizedI r with
  | none => pure ns
  | some (a, b) => ns.transformNormalized a b dest initialOffset

/-- `rangeIsValid` (normalizedstring.go:819-833), with the panic for a third type. -/
def rangeIsValidI (ns : NS) (r : AnyRange) : GoM Bool :=
  match r with
  | none => .panic
  | some r =>
    match r.kind with
    | .original => .ok (isRuneBoundary ns.original r.start && isRuneBoundary ns.original r.stop)
    | .normalized => .ok (isRuneBoundary ns.normalized r.start && isRuneBoundary ns.normalized r.stop)
    | .other => .panic

/-- `Slice` (normalizedstring.go:640-671). -/
def sliceI (ns : NS) (r : AnyRange) : GoM (Option NS) := do
  let valid ← ns.rangeIsValidI r
  if !valid then pure none
  else
    match ← ns.coerceRangeToNormalizedI r with
    | none => pure none
    | some (na, nb) =>
      match ← ns.coerceRangeToOriginalI r with
      | none => pure none
      | some (oa, _) =>
        let original ← ns.getOriginalRangeI r
        let normalized ← ns.getRangeI r
        let als ← goSlice ns.alignments na nb
        pure (some {
          original := original.getD []
          normalized := normalized.getD []
          alignments := als.map fun al => ⟨al.start - oa, al.stop - oa⟩
          originalShift := ns.originalShift + oa })

/-- `Split` (normalizedstring.go:498-594) with the behaviour as the `uint8` that it is (lines 487-495); the `default` of the switch panics,
after the matches have been found. -/
def splitI (ns : NS) (pattern : SplitPattern) (b : UInt8) : GoM (Except Err (List NS)) := do
  match ← pattern ns.normalized with
  | .error e => pure (.error e)
  | .ok captures =>
    if b = 0 then ns.sliceAll (splitMatches .removed captures)
    else if b = 1 then ns.sliceAll (splitMatches .isolated captures)
    else if b = 2 then ns.sliceAll (splitMatches .mergedWithPrevious captures)
    else if b = 3 then ns.sliceAll (splitMatches .mergedWithNext captures)
    else if b = 4 then ns.sliceAll (splitMatches .contiguous captures)
    else .panic

end NS
end Verif
