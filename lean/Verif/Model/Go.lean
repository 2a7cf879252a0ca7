/-!
# Go run-time fragment used by the model

`GoM α` is the outcome of a piece of Go code: it returned a value, or it
panicked.  `error` results are ordinary values (`Except Err α`).
-/

namespace Verif

/-- Outcome of running Go code: a value or a run-time panic. -/
inductive GoM (α : Type) where
  | ok : α → GoM α
  | panic : GoM α
deriving DecidableEq, Repr

namespace GoM

@[inline] def bind {α β : Type} (x : GoM α) (f : α → GoM β) : GoM β :=
  match x with
  | ok a => f a
  | panic => panic

instance : Monad GoM where
  pure := GoM.ok
  bind := GoM.bind

@[simp] theorem pure_eq {α : Type} (a : α) : (pure a : GoM α) = ok a := rfl
@[simp] theorem bind_ok {α β : Type} (a : α) (f : α → GoM β) : (ok a >>= f) = f a := rfl
@[simp] theorem bind_panic {α β : Type} (f : α → GoM β) : ((panic : GoM α) >>= f) = panic := rfl
@[simp] theorem map_ok {α β : Type} (a : α) (f : α → β) : (f <$> (ok a : GoM α)) = ok (f a) := rfl
@[simp] theorem map_panic {α β : Type} (f : α → β) : (f <$> (panic : GoM α)) = panic := rfl

theorem bind_eq_ok {α β : Type} {x : GoM α} {f : α → GoM β} {b : β} :
    (x >>= f) = ok b ↔ ∃ a, x = ok a ∧ f a = ok b := by
  cases x <;> simp

instance : LawfulMonad GoM := LawfulMonad.mk'
  (id_map := fun x => by cases x <;> rfl)
  (pure_bind := fun _ _ => rfl)
  (bind_assoc := fun x _ _ => by cases x <;> rfl)

end GoM

/-- The `error` values the modelled code can return. -/
inductive Err where
  /-- any error produced by user code or by an external engine -/
  | ext (n : Nat)
  /-- normalizedstring.go:589 "NormalizedString bad split" -/
  | badSplit
  /-- pretokenizedstring.go:177 "splits have not been tokenized, …" -/
  | notTokenized
  /-- bpemodel.go:14, wordpiecemodel.go:14 -/
  | unkOutOfVocab
  /-- bpemodel.go:191 "ID %d not found in vocabulary" -/
  | idNotFound (id : Int)
  /-- mergemap.go:63 "line %d: malformed merges" -/
  | malformedMerges (line : Nat)
  /-- mergemap.go:68 -/
  | leftOutOfVocab (line : Nat)
  /-- mergemap.go:72 -/
  | rightOutOfVocab (line : Nat)
  /-- mergemap.go:78 -/
  | mergedOutOfVocab (line : Nat)
  /-- `bufio.ErrTooLong` "bufio.Scanner: token too long" -/
  | tokenTooLong
deriving DecidableEq, Repr

deriving instance DecidableEq for Except

/-- Go slicing `l[a:b]` of a slice or string; panics unless `0 ≤ a ≤ b ≤ len(l)`.
(For slices Go allows `b ≤ cap(l)`; Props/Memory.lean shows where
that makes a difference.) -/
def goSlice {α : Type} (l : List α) (a b : Int) : GoM (List α) :=
  if 0 ≤ a ∧ a ≤ b ∧ b ≤ (l.length : Int) then
    .ok ((l.drop a.toNat).take (b - a).toNat)
  else .panic

/-- Go indexing `l[i]`; panics unless `0 ≤ i < len(l)`. -/
def goIndex {α : Type} (l : List α) (i : Int) : GoM α :=
  if 0 ≤ i then
    match l[i.toNat]? with
    | some a => .ok a
    | none => .panic
  else .panic

/-- `for _, x := range l { s = f(s, x) }` where the body may panic. -/
def goFor {α σ : Type} (l : List α) (s : σ) (f : σ → α → GoM σ) : GoM σ :=
  match l with
  | [] => .ok s
  | x :: xs =>
    match f s x with
    | .ok s' => goFor xs s' f
    | .panic => .panic

@[simp] theorem goFor_nil {α σ : Type} (s : σ) (f : σ → α → GoM σ) : goFor [] s f = .ok s := rfl

theorem goFor_cons {α σ : Type} (x : α) (xs : List α) (s : σ) (f : σ → α → GoM σ) :
    goFor (x :: xs) s f = (f s x >>= fun s' => goFor xs s' f) := by
  simp only [goFor]; cases f s x <;> rfl

/-- `strutils.ByteOffsets`  (strutils/strutils.go:33-39). -/
structure ByteOffsets where
  start : Int
  stop : Int
deriving DecidableEq, Repr

/-- `strutils.RuneOffsets`  (strutils/strutils.go:41-47). -/
structure RuneOffsets where
  start : Int
  stop : Int
deriving DecidableEq, Repr

end Verif
