import Verif.Model.Bpe

/-! The dropout value of a BPE model as a floating-point number. -/

set_option autoImplicit false

namespace Verif

/-- A `float64`: not a number, an infinity, or a number (both zeros are 0).  Only comparison is used. -/
inductive F64 where
  | nan
  | inf (negative : Bool)
  | fin (value : Rat)
deriving DecidableEq

/-- `a < b`. -/
def F64.lt : F64 → F64 → Bool
  | nan, _ => false
  | _, nan => false
  | inf true, inf true => false
  | inf true, _ => true
  | inf false, _ => false
  | fin _, inf n => !n
  | fin a, fin b => decide (a < b)

/-- `MergeAll` (models/bpemodel/word.go:89-165) with its dropout value; `draws` are the successive results of
`rand.Float64()` (word.go:101-105). -/
def Word.mergeAllF (merges : MergeMap) (dropout : F64) (draws : Nat → F64) (w : Word) : GoM (Option Word) :=
  w.mergeAll merges (F64.lt (.fin 0) dropout) fun k => F64.lt (draws k) dropout

/-- `Tokenize` (models/bpemodel/bpemodel.go:85-99) of the model with this dropout value (`hasDropout`, bpemodel.go:207-209). -/
def BPE.tokenizeF (m : BPE) (dropout : F64) (draws : Nat → F64) (sequence : Str) : GoM (Except Err (Option (List Token))) :=
  { m with hasDropout := F64.lt (.fin 0) dropout }.tokenize (fun k => F64.lt (draws k) dropout) sequence

end Verif
