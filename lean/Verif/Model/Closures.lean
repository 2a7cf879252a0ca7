import Verif.Model.Recover

/-!
# Functions with a memory of their own

A Go function given to `Filter`, `Map` or `splitpattern.FromFunc` may answer differently each time it is asked, change other things,
change the very string that is being filtered, or panic.  Here these methods are written with such functions: `σ` is all that the function
can see and change besides the string.
-/

set_option autoImplicit false

namespace Verif

variable {σ : Type}

/-- A call on the string that leaves the rest alone. -/
def onString {α : Type} (x : Left NS α) : Left (NS × σ) α := fun w => ((((x w.1).1), w.2), (x w.1).2)

namespace NS

/-- `Filter` (normalizedstring.go:674-709).  `range` takes the text as it is before the first call of `keep`; `Transform` works on the
string as the calls leave it. -/
def filterC (keep : Rune → Left (NS × σ) Bool) : Left (NS × σ) Unit := do
  let w ← Left.get
  let st ← Left.forEach (runesOf w.1.normalized) (⟨0, 0, [], none⟩ : FilterState) fun st r => do
    let k ← keep r
    pure (filterStep (fun _ => k) st r)
  match st.lastRune with
  | some lr => onString (transformL (st.transforms ++ [⟨lr, -(st.removed : Int)⟩]) st.removedStart)
  | none => onString (transformL st.transforms st.removedStart)

/-- `Map` (normalizedstring.go:712-721). -/
def mapC (f : Rune → Left (NS × σ) Rune) : Left (NS × σ) Unit := do
  let w ← Left.get
  let changes ← Left.forEach (runesOf w.1.normalized) ([] : List RuneChange) fun acc r => do
    let r' ← f r
    pure (acc ++ [⟨r', 0⟩])
  onString (transformL changes 0)

end NS

/-- `FuncSplitPattern.FindMatches` (splitpattern/func.go:19-63). -/
def funcFindMatchesC (f : Rune → Left σ Bool) (s : Str) : Left σ (List Capture) :=
  if s.length = 0 then pure emptyCaptures
  else do
    let st ← Left.forEach (rangeStr s) (⟨0, 0, []⟩ : FuncState) fun st ir => do
      let b ← f ir.2
      pure (funcStep (fun _ => b) st ir)
    if st.lastSeen > st.lastOffset then pure (st.splits ++ [⟨⟨st.lastOffset, st.lastSeen⟩, false⟩])
    else pure st.splits

end Verif
