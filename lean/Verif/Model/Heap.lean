import Verif.Model.MergeMap

/-!
`container/heap` of the Go standard library, specialised to
`bpemodel.WordMergeHeap`.  Element access is total here (`getD`): the standard
library only touches in-range indices on these paths, which the heap theorems
rely on and never exceed.
-/

namespace Verif

/-- `bpemodel.WordMerge` (models/bpemodel/wordmerge.go:9-12). -/
structure WordMerge where
  value : MergeValue
  pos : Int
deriving DecidableEq, Repr

instance : Inhabited WordMerge := ⟨⟨⟨0, 0⟩, 0⟩⟩

/-- `WordMergeHeap.Less` on the two elements (wordmerge.go:22-29). -/
def WordMerge.less (a b : WordMerge) : Bool :=
  if a.value.rank ≠ b.value.rank then decide (a.value.rank < b.value.rank)
  else decide (a.pos < b.pos)

/-- `WordMergeHeap` (wordmerge.go:14). -/
abbrev WMHeap := List WordMerge

namespace WMHeap

/-- `(*h)[i]` for an in-range `i`. -/
def at' (h : WMHeap) (i : Nat) : WordMerge := h.getD i default

/-- `WordMergeHeap.Less` (wordmerge.go:22-29). -/
def less (h : WMHeap) (i j : Nat) : Bool := (h.at' i).less (h.at' j)

/-- `WordMergeHeap.Swap` (wordmerge.go:31-33). -/
def swap (h : WMHeap) (i j : Nat) : WMHeap := (h.set i (h.at' j)).set j (h.at' i)

/-- `heap.up` (Go `container/heap`): sift the element at `j` up.  `fuel` bounds
the iterations; `j` halves each time, so `fuel = j` is enough. -/
def up : Nat → WMHeap → Nat → WMHeap
  | 0, h, _ => h
  | fuel + 1, h, j =>
    let i := (j - 1) / 2
    if i = j ∨ !(h.less j i) then h
    else up fuel (h.swap i j) i

/-- `heap.down` (Go `container/heap`): sift the element at `i` down among the
first `n`.  `fuel = n` is enough. -/
def down : Nat → WMHeap → Nat → Nat → WMHeap
  | 0, h, _, _ => h
  | fuel + 1, h, i, n =>
    let j1 := 2 * i + 1
    if j1 ≥ n then h
    else
      let j2 := j1 + 1
      let j := if j2 < n ∧ h.less j2 j1 then j2 else j1
      if !(h.less j i) then h
      else down fuel (h.swap i j) j n

/-- `heap.Push` (Go `container/heap`) with `WordMergeHeap.Push` (wordmerge.go:35-37). -/
def push (h : WMHeap) (x : WordMerge) : WMHeap :=
  up (h.length) (h ++ [x]) (h.length)

/-- `heap.Pop` (Go `container/heap`) with `WordMergeHeap.Pop` (wordmerge.go:39-44),
on a non-empty heap: the popped element and the remaining heap. -/
def pop (h : WMHeap) : WordMerge × WMHeap :=
  let n := h.length - 1
  let h := h.swap 0 n
  let h := down n h 0 n
  (h.at' n, h.take n)

end WMHeap
end Verif
