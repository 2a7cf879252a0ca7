import Verif.Model.Concurrent

/-!
The methods on nil pointers.  The programs of `Model/Concurrent.lean` say which accesses a method makes; here they go through the pointers
`vocab *vocabulary.Vocabulary` and `merges *MergeMap` of a model (models/bpemodel/bpemodel.go:21-23,
models/wordpiecemodel/wordpiecemodel.go:20), which `New` takes as they are.
-/

set_option autoImplicit false

namespace Verif.Conc

open Prog

/-- The pointers: `none` is nil.  A `*MergeMap` that is not nil may point to a nil map (`new(MergeMap)`): reading it finds nothing, writing panics. -/
structure Tables where
  vocab : Option Vocab
  merges : Option (Option MergeMap)
deriving DecidableEq, Repr

/-- What a program gives through the pointers, when nothing else runs. -/
def Prog.through {α : Type} (source : Nat → F64) : Prog α → Tables → Nat → GoM (α × Tables × Nat)
  | ret a, s, n => .ok (a, s, n)
  | fail, _, _ => .panic
  | getID t k, s, n =>
    match s.vocab with
    | none => .panic
    | some v => (k (v.getID t)).through source s n
  | size k, s, n =>
    match s.vocab with
    | none => .panic
    | some v => (k v.size).through source s n
  | getString i k, s, n =>
    match s.vocab with
    | none => .panic
    | some v => (k (v.getString i)).through source s n
  | getMerge a b k, s, n =>
    match s.merges with
    | none => .panic
    | some none => (k none).through source s n
    | some (some m) => (k (m.get a b)).through source s n
  | draw k, s, n => (k (source n)).through source s (n + 1)
  | setID t i k, s, n =>
    match s.vocab with
    | none => .panic
    | some v =>
      match v.termToID with
      | none => .panic
      | some m => k.through source { s with vocab := some { v with termToID := some (m.set t i) } } n
  | setTerm i t k, s, n =>
    match s.vocab with
    | none => .panic
    | some v => k.through source { s with vocab := some { v with idToTerm := v.idToTerm.set i t } } n
  | setMerge a b x k, s, n =>
    match s.merges with
    | none => .panic
    | some none => .panic
    | some (some m) => k.through source { s with merges := some (some (m.set a b x)) } n

/-- The result of a call. -/
def Prog.result {α : Type} (source : Nat → F64) (p : Prog α) (s : Tables) : GoM α := do
  let r ← p.through source s 0
  pure r.1

end Verif.Conc
