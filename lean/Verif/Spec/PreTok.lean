import Verif.Model.PreTokenizers

/-! Specification vocabulary for `PreTokenizedString`. -/

set_option autoImplicit false

namespace Verif

/-- The split list where the untokenized split number `i` is replaced by the non-empty pieces
among `results i`, and the tokenized ones stay. -/
def replaced (results : Nat → List Piece) : Nat → List Piece → List Piece
  | _, [] => []
  | i, p :: ps =>
    (match p.tokens with
     | some _ => [p]
     | none => (results i).filter fun q => decide (q.ns.get ≠ [])) ++ replaced results (i + 1) ps

/-- The old split list after the split function has touched the untokenized splits with
number below `k`. -/
def touched (after : Nat → NS) (k : Nat) : Nat → List Piece → List Piece
  | _, [] => []
  | i, p :: ps =>
    (match p.tokens with
     | some _ => p
     | none => if i < k then ⟨after i, none⟩ else p) :: touched after k (i + 1) ps

/-- The byte splits follow each other without gap from `i` to `n`, each as long as its text. -/
def SplitsTile : List ByteSplit → Int → Int → Prop
  | [], i, n => i = n
  | b :: bs, i, n => b.offsets.start = i ∧ b.offsets.stop = i + b.string.length ∧ SplitsTile bs b.offsets.stop n

/-- One expected encoding entry: the split it comes from, the word number and the token. -/
structure Entry where
  piece : Piece
  word : Int
  token : Token

/-- The tokens of all the splits in order, with the word number each gets. -/
def entries (wordIndex : Int) : Nat → List Piece → List Entry
  | _, [] => []
  | i, p :: ps =>
    (p.tokens.getD []).map (fun t => ⟨p, if 0 ≤ wordIndex then wordIndex else i, t⟩)
      ++ entries wordIndex (i + 1) ps

end Verif
