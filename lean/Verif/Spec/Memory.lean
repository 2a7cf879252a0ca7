import Verif.Model.Memory
import Verif.Spec.History

/-!
Programs that hold several `NormalizedString`s and slices of alignments at once, run on the
shared memory and run with every string owning a list of its own.
-/
set_option autoImplicit false

namespace Verif.Memory

/-- One call on one string, on the memory; the result is the string it leaves (for `slice`,
the new string). -/
def runOpM (rt : Rt) (m : Mem) (ns : MNS) : Op → GoM (Mem × MNS)
  | .transform dest io => transformM rt m ns dest io
  | .filter keep => filterM rt m ns keep
  | .map f => mapM rt m ns f
  | .trim l r => trimLeftRightM rt m ns l r
  | .prepend s => prependM rt m ns s
  | .append s => appendM rt m ns s
  | .replace p content => do
    let (m, res) ← replaceM rt m ns p content
    match res with
    | .ok ns' => pure (m, ns')
    | .error _ => pure (m, ns)
  | .slice r => do
    let (m, res) ← sliceM m ns r
    match res with
    | some ns' => pure (m, ns')
    | none => pure (m, ns)

/-- What a program does next, with the strings and slices it holds named by number.  The
last four are calls on string `i`; `call i (.slice r)` keeps string `i` and adds the new
one. -/
inductive Act where
  /-- `FromString(s)` -/
  | fromString (s : Str)
  /-- the program's own `make([]AlignmentRange, len, cap)` -/
  | make (len extra : Nat)
  /-- the program's own `t[a:a+n]`, within the length of `t` -/
  | sub (j a n : Nat)
  /-- `New(original, normalized, t, shift)` -/
  | new (original normalized : Str) (j : Nat) (shift : Int)
  | call (i : Nat) (op : Op)
  | transformRange (i : Nat) (r : Rng) (dest : List RuneChange) (initialOffset : Int)
  | originalAlignments (i : Nat)
  | split (i : Nat) (p : SplitPattern) (b : Behavior)

/-- The program's state on the shared memory. -/
structure World where
  mem : Mem
  objs : List MNS
  slices : List Slc

/-- The program's state if nothing were shared. -/
structure Lists where
  objs : List NS
  slices : List (List Align)

def World.view (w : World) : Lists :=
  ⟨w.objs.map (·.view w.mem), w.slices.map (·.val w.mem)⟩

def isSlice : Op → Bool
  | .slice _ => true
  | _ => false

/-- One step on the shared memory; a name that is not there does nothing. -/
def World.step (rt : Rt) (w : World) : Act → GoM World
  | .fromString s => do
    let (m, ns) ← fromStringM rt w.mem s
    pure { w with mem := m, objs := w.objs ++ [ns] }
  | .make len extra => do
    let (m, t) ← Slc.make w.mem len (len + extra : Nat)
    pure { w with mem := m, slices := w.slices ++ [t] }
  | .sub j a n =>
    match w.slices[j]? with
    | none => .ok w
    | some t =>
      let a := min a t.len
      .ok { w with slices := w.slices ++ [⟨t.arr, t.off + a, min n (t.len - a), t.cap - a⟩] }
  | .new o n j shift =>
    match w.slices[j]? with
    | none => .ok w
    | some t => .ok { w with objs := w.objs ++ [newM o n t shift] }
  | .call i op =>
    match w.objs[i]? with
    | none => .ok w
    | some ns => do
      let (m, ns') ← runOpM rt w.mem ns op
      pure { w with mem := m, objs := if isSlice op then w.objs ++ [ns'] else w.objs.set i ns' }
  | .transformRange i r dest io =>
    match w.objs[i]? with
    | none => .ok w
    | some ns => do
      let (m, ns') ← transformRangeM rt w.mem ns r dest io
      pure { w with mem := m, objs := w.objs.set i ns' }
  | .originalAlignments i =>
    match w.objs[i]? with
    | none => .ok w
    | some ns => do
      let (m, t) ← originalAlignmentsM rt w.mem ns
      pure { w with mem := m, slices := w.slices ++ [t] }
  | .split i p b =>
    match w.objs[i]? with
    | none => .ok w
    | some ns => do
      let (m, res) ← splitM w.mem ns p b
      match res with
      | .error _ => pure { w with mem := m }
      | .ok pieces => pure { w with mem := m, objs := w.objs ++ pieces }

/-- The same step with lists for values. -/
def Lists.step (w : Lists) : Act → GoM Lists
  | .fromString s => .ok { w with objs := w.objs ++ [NS.fromString s] }
  | .make len _ => .ok { w with slices := w.slices ++ [List.replicate len ⟨0, 0⟩] }
  | .sub j a n =>
    match w.slices[j]? with
    | none => .ok w
    | some t => .ok { w with slices := w.slices ++ [(t.drop a).take n] }
  | .new o n j shift =>
    match w.slices[j]? with
    | none => .ok w
    | some t => .ok { w with objs := w.objs ++ [⟨o, n, t, shift⟩] }
  | .call i op =>
    match w.objs[i]? with
    | none => .ok w
    | some ns => do
      let ns' ← op.run ns
      pure { w with objs := if isSlice op then w.objs ++ [ns'] else w.objs.set i ns' }
  | .transformRange i r dest io =>
    match w.objs[i]? with
    | none => .ok w
    | some ns => do
      let ns' ← ns.transformRange r dest io
      pure { w with objs := w.objs.set i ns' }
  | .originalAlignments i =>
    match w.objs[i]? with
    | none => .ok w
    | some ns => do
      let t ← ns.originalAlignments
      pure { w with slices := w.slices ++ [t] }
  | .split i p b =>
    match w.objs[i]? with
    | none => .ok w
    | some ns => do
      match ← ns.split p b with
      | .error _ => pure w
      | .ok pieces => pure { w with objs := w.objs ++ pieces }

/-- `New` is given at least as many alignments as the normalized text has bytes. -/
def Act.Fits (w : Lists) : Act → Prop
  | .new _ n j _ => ∀ t, w.slices[j]? = some t → n.length ≤ t.length
  | _ => True

/-- Every `New` of the program fits, on the way the program goes. -/
def AllFit : Lists → List Act → Prop
  | _, [] => True
  | w, act :: acts => act.Fits w ∧ ∀ w', w.step act = .ok w' → AllFit w' acts

/-- The strings come from `FromString` on valid UTF-8 only. -/
def Act.Lib : Act → Prop
  | .fromString s => ValidUtf8 s
  | .new _ _ _ _ => False
  | _ => True

/-- A program that starts with nothing. -/
def World.empty : World := ⟨[], [], []⟩

end Verif.Memory
