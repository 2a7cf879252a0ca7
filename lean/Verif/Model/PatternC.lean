import Verif.Model.Closures

/-!
# Split patterns with a memory of their own

`SplitPattern` is an interface (splitpattern/splitpattern.go:11-17), so that a caller may give `Split` and `Replace` a pattern of their own.  Its
`FindMatches` may answer differently each time, change other things, change the very string that is being split, or panic.
-/

set_option autoImplicit false

namespace Verif

variable {σ : Type}

/-- A pattern of the caller's own. -/
abbrev PatternC (σ : Type) := Str → Left σ (Except Err (List Capture))

/-- `InvertedPattern.FindMatches` (splitpattern/invertedpattern.go:17-26).  That it changes the slice of the inner pattern is seen only by a
pattern that keeps its slice (C92). -/
def invertC (p : PatternC σ) : PatternC σ := fun s => do
  match ← p s with
  | .error e => pure (.error e)
  | .ok caps => pure (.ok (caps.map fun c => { c with isMatch := !c.isMatch }))

namespace NS

/-- `Split` (normalizedstring.go:498-594).  The pattern gets the text as it is before the call; `Slice` cuts the string as the call leaves it. -/
def splitC (p : PatternC (NS × σ)) (b : Behavior) : Left (NS × σ) (Except Err (List NS)) := do
  let w ← Left.get
  match ← p w.1.normalized with
  | .error e => pure (.error e)
  | .ok caps => do
    let w' ← Left.get
    Left.lift (w'.1.sliceAll (splitMatches b caps))

/-- `Replace` (normalizedstring.go:597-636). -/
def replaceC (p : PatternC (NS × σ)) (content : Str) : Left (NS × σ) (Option Err) := do
  let w ← Left.get
  match ← p w.1.normalized with
  | .error e => pure (some e)
  | .ok caps => do
    let _ ← onString (Left.forEach caps (0 : Int) (replaceStepL content))
    pure none

end NS

end Verif
