import Verif.Model.SplitPattern

/-!
# Slices of captures in memory

`InvertedPattern.FindMatches` (splitpattern/invertedpattern.go:17-26) changes the slice it was given by
the pattern it wraps; it makes no copy.  In `Model/SplitPattern.lean` a pattern is a function to lists and nothing can be
shared.  Here the captures live in arrays, and a pattern returns a slice of one of them.
-/

set_option autoImplicit false

namespace Verif

namespace PatternMemory

/-- The arrays of captures of a program. -/
abbrev Mem := List (List Capture)

/-- A slice: `len` elements of the array `arr` from the index `off` on. -/
structure Slice where
  arr : Nat
  off : Nat
  len : Nat
deriving DecidableEq, Repr

/-- The elements of a slice; `none` if it is not one of an array of the memory. -/
def read (σ : Mem) (r : Slice) : Option (List Capture) :=
  match σ[r.arr]? with
  | none => none
  | some a => if r.off + r.len ≤ a.length then some ((a.drop r.off).take r.len) else none

/-- A pattern: it may make arrays, may change those it knows, and returns a slice or an error. -/
abbrev Pattern := Str → Mem → GoM (Mem × Except Err Slice)

/-- `captures[i].IsMatch = !capture.IsMatch` (invertedpattern.go:23). -/
def flipAt (r : Slice) (σ : Mem) (i : Nat) : GoM Mem :=
  if i < r.len then
    match σ[r.arr]? with
    | none => .panic
    | some a =>
      match a[r.off + i]? with
      | none => .panic
      | some c => .ok (σ.set r.arr (a.set (r.off + i) { c with isMatch := !c.isMatch }))
  else .panic

/-- `InvertedPattern.FindMatches` (invertedpattern.go:17-26). -/
def invert (p : Pattern) : Pattern := fun s σ =>
  match p s σ with
  | .panic => .panic
  | .ok (σ', .error e) => .ok (σ', .error e)
  | .ok (σ', .ok r) =>
    match goFor (List.range r.len) σ' (flipAt r) with
    | .panic => .panic
    | .ok σ'' => .ok (σ'', .ok r)

/-- A pattern of the package: the captures are put into a new array (func.go:21, 27, regexp.go:24, 31,
regexp2.go:24, 31, string.go:30). -/
def alloc (q : SplitPattern) : Pattern := fun s σ =>
  match q s with
  | .panic => .panic
  | .ok (.error e) => .ok (σ, .error e)
  | .ok (.ok cs) => .ok (σ ++ [cs], .ok ⟨σ.length, 0, cs.length⟩)

/-- A pattern that returns a slice it keeps, whatever the text. -/
def kept (r : Slice) : Pattern := fun _ σ => .ok (σ, .ok r)

/-- Calls one after the other, and what each returned. -/
def runAll : List (Pattern × Str) → Mem → GoM (Mem × List (Except Err Slice))
  | [], σ => .ok (σ, [])
  | (p, s) :: cs, σ =>
    match p s σ with
    | .panic => .panic
    | .ok (σ', x) =>
      match runAll cs σ' with
      | .panic => .panic
      | .ok (σ'', xs) => .ok (σ'', x :: xs)

end PatternMemory

end Verif
