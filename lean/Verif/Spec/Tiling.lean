import Verif.Model.NormalizedString
import Verif.Spec.Utf8

/-! Specification vocabulary for split patterns: captures that tile a text, and the groups of
captures that make the pieces of `Split`. -/

set_option autoImplicit false

namespace Verif

/-- The captures follow each other without gap or overlap from `i` to `n` (the "MUST" of the
`SplitPattern` interface, splitpattern/splitpattern.go:10-16). -/
def Tiles : List Capture → Int → Int → Prop
  | [], i, n => i = n
  | c :: cs, i, n => c.offsets.start = i ∧ i ≤ c.offsets.stop ∧ Tiles cs c.offsets.stop n

instance instDecidableTiles : (cs : List Capture) → (i n : Int) → Decidable (Tiles cs i n)
  | [], i, n => inferInstanceAs (Decidable (i = n))
  | c :: cs, _, n =>
    have : Decidable (Tiles cs c.offsets.stop n) := instDecidableTiles cs _ n
    inferInstanceAs (Decidable (_ ∧ _ ∧ _))

/-- Two lists of the same length, related element by element. -/
inductive All2 {α β : Type} (R : α → β → Prop) : List α → List β → Prop
  | nil : All2 R [] []
  | cons {a : α} {b : β} {as : List α} {bs : List β} : R a b → All2 R as bs → All2 R (a :: as) (b :: bs)

/-- `l[a:b]` for in-range bounds. -/
def sub {α : Type} (l : List α) (a b : Int) : List α := (l.drop a.toNat).take (b - a).toNat

/-- From the start of the first capture of a group to the end of its last one. -/
def span (g : List Capture) : Int × Int :=
  match g with
  | [] => (0, 0)
  | c :: cs => (c.offsets.start, ((c :: cs).getLast (by simp)).offsets.stop)

/-- A delimiter is grouped with the piece it follows. -/
def groupPrev : List Capture → List (List Capture)
  | [] => []
  | [a] => [[a]]
  | a :: b :: rest =>
    if !a.isMatch && b.isMatch then [a, b] :: groupPrev rest else [a] :: groupPrev (b :: rest)

/-- A delimiter is grouped with the piece it precedes. -/
def groupNext : List Capture → List (List Capture)
  | [] => []
  | [a] => [[a]]
  | a :: b :: rest =>
    if a.isMatch && !b.isMatch then [a, b] :: groupNext rest else [a] :: groupNext (b :: rest)

/-- Maximal runs of captures of the same kind. -/
def groupRuns : List Capture → List (List Capture)
  | [] => []
  | a :: rest =>
    match groupRuns rest with
    | (b :: g) :: gs => if a.isMatch = b.isMatch then (a :: b :: g) :: gs else [a] :: (b :: g) :: gs
    | gs => [a] :: gs

/-- The groups of captures that become the pieces of `Split`, as documented on
`SplitDelimiterBehavior` (normalizedstring.go:478-495). -/
def splitGroups : Behavior → List Capture → List (List Capture)
  | .removed, cs => (cs.filter fun c => !c.isMatch).map fun c => [c]
  | .isolated, cs => cs.map fun c => [c]
  | .mergedWithPrevious, cs => groupPrev cs
  | .mergedWithNext, cs => groupNext cs
  | .contiguous, cs => groupRuns cs

end Verif
