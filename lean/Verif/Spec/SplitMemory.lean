import Verif.Model.SplitMemory

/-! Programs on several `PreTokenizedString`s, in memory and on values, with slices kept from `Splits`. -/
set_option autoImplicit false

namespace Verif.SplitMemory

/-- A call.  The callbacks keep to the strings. -/
inductive Call where
  | fromString (s : Str)
  | fromNormalizedString (a : Nat)
  | split (k : Nat) (F : RefSplitFunc)
  | normalize (k : Nat) (N : RefNormalizeFunc)
  | tokenize (k : Nat) (t : NS → GoM (Except Err (List Token)))
  | splits (k : Nat)
  | intoEncoding (k : Nat) (wordIndex typeID : Int)
  | originalByteSplits (k : Nat)
  | normalizedByteSplits (k : Nat)

/-- What a call returns. -/
inductive Out where
  | err (e : Option Err)
  | encoding (x : Except Err Encoding)
  | byteSplits (l : List ByteSplit)

/-- A program so far: the memory, the slices that `Splits` returned, what the calls returned. -/
structure Run where
  world : World
  kept : List Slc
  out : List Out

def Call.run (c : Call) (R : Run) : GoM Run :=
  match c with
  | .fromString s => do
    let W ← SplitMemory.fromString R.world s
    pure { R with world := W }
  | .fromNormalizedString a => do
    let W ← SplitMemory.fromNormalizedString R.world a
    pure { R with world := W }
  | .split k F => do
    let (W, e) ← SplitMemory.split k (onStrings F) R.world
    pure { R with world := W, out := R.out ++ [.err e] }
  | .normalize k N => do
    let (W, e) ← SplitMemory.normalize k (normalizeOnStrings N) R.world
    pure { R with world := W, out := R.out ++ [.err e] }
  | .tokenize k t => do
    let (W, e) ← SplitMemory.tokenize k (tokenizeOnStrings t) R.world
    pure { R with world := W, out := R.out ++ [.err e] }
  | .splits k => do
    let s ← SplitMemory.splits k R.world
    pure { R with kept := R.kept ++ [s] }
  | .intoEncoding k w ty => do
    let x ← SplitMemory.intoEncoding k w ty R.world
    pure { R with out := R.out ++ [.encoding x] }
  | .originalByteSplits k => do
    let l ← SplitMemory.getOriginalByteSplits k R.world
    pure { R with out := R.out ++ [.byteSplits l] }
  | .normalizedByteSplits k => do
    let l ← SplitMemory.getNormalizedByteSplits k R.world
    pure { R with out := R.out ++ [.byteSplits l] }

def runAll : List Call → Run → GoM Run
  | [], R => .ok R
  | c :: cs, R => do
    let R ← c.run R
    runAll cs R

/-- What a slice kept from `Splits` shows: the splits of the object as they are, or those it had when a call of `Split` gave it new
ones. -/
inductive Kept where
  | live (k : Nat)
  | past (splits : List Ref)
deriving DecidableEq, Repr

/-- The same program on values: each object has its own list of splits. -/
structure VRun where
  strs : Store
  objs : List RefPTS
  kept : List Kept
  out : List Out

/-- A slice of the object `k`, when the object gets new splits. -/
def Kept.leave (k : Nat) (old : List Ref) : Kept → Kept
  | .live j => if j = k then .past old else .live j
  | .past rs => .past rs

def Call.runV (c : Call) (V : VRun) : GoM VRun :=
  match c with
  | .fromString s =>
    let (σ, p) := RefPTS.fromString V.strs s
    .ok { V with strs := σ, objs := V.objs ++ [p] }
  | .fromNormalizedString a => do
    let p ← RefPTS.fromNormalizedString V.strs a
    pure { V with objs := V.objs ++ [p] }
  | .split k F => do
    let p ← goIndex V.objs k
    let (σ, p', e) ← RefPTS.split F V.strs p
    pure ⟨σ, V.objs.set k p', if e = none then V.kept.map (Kept.leave k p.splits) else V.kept, V.out ++ [.err e]⟩
  | .normalize k N => do
    let p ← goIndex V.objs k
    let (σ, p', e) ← RefPTS.normalize N V.strs p
    pure ⟨σ, V.objs.set k p', V.kept, V.out ++ [.err e]⟩
  | .tokenize k t => do
    let p ← goIndex V.objs k
    let (σ, p', e) ← RefPTS.tokenize t V.strs p
    pure ⟨σ, V.objs.set k p', V.kept, V.out ++ [.err e]⟩
  | .splits k => do
    let _ ← goIndex V.objs k
    pure { V with kept := V.kept ++ [.live k] }
  | .intoEncoding k w ty => do
    let p ← goIndex V.objs k
    let x ← p.intoEncoding V.strs w ty
    pure { V with out := V.out ++ [.encoding x] }
  | .originalByteSplits k => do
    let p ← goIndex V.objs k
    let l ← p.getOriginalByteSplits V.strs
    pure { V with out := V.out ++ [.byteSplits l] }
  | .normalizedByteSplits k => do
    let p ← goIndex V.objs k
    let l ← p.getNormalizedByteSplits V.strs
    pure { V with out := V.out ++ [.byteSplits l] }

def runAllV : List Call → VRun → GoM VRun
  | [], V => .ok V
  | c :: cs, V => do
    let V ← c.runV V
    runAllV cs V

/-- What a kept slice shows on values. -/
def Kept.shows (V : VRun) : Kept → List Ref
  | .live k => (V.objs[k]?.map (·.splits)).getD []
  | .past rs => rs

/-- Both panic, or both return and `R` holds of the results. -/
def Agree {α β : Type} (R : α → β → Prop) : GoM α → GoM β → Prop
  | .panic, .panic => True
  | .ok a, .ok b => R a b
  | _, _ => False

/-- The pointers to tokens in the splits of all objects. -/
def pointers (W : World) : List Nat := W.objs.flatMap fun p => (cells W p.splits).filterMap (·.tokens)

end Verif.SplitMemory
