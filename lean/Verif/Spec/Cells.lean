import Verif.Model.Bpe
import Verif.Spec.Tiling

/-! Specification for the values of BPE tokens: each character, or run of unknown characters,
stands for a text in the sequence and shows some text in the vocabulary. -/

set_option autoImplicit false

namespace Verif

/-- A part of the sequence and what stands for it in the vocabulary. -/
abbrev Cell := Str × Str

/-- The part of the sequence that the cells cover. -/
def covered (cs : List Cell) : Str := cs.flatMap fun c => c.1

/-- What the cells show. -/
def shown (cs : List Cell) : Str := cs.flatMap fun c => c.2

/-- The character at index `i` of `n` with the affixes the code gives it: the prefix goes to the
first, the suffix to the last. -/
def BPE.affixed (m : BPE) (n i : Nat) (r : Rune) : Str :=
  (if i = 0 then m.continuingSubwordPrefix else []) ++ encodeRune r
    ++ (if i + 1 = n then m.endOfWordSuffix else [])

/-- The characters of a sequence, with their affixed form if the vocabulary has it. -/
def BPE.items (m : BPE) (s : Str) : List (Str × Option Str) :=
  (runesOf s).mapIdx fun i r =>
    (encodeRune r, if (m.vocab.getID (m.affixed (runesOf s).length i r)).isSome
      then some (m.affixed (runesOf s).length i r) else none)

/-- A known character shows its affixed form; an unknown one, or with `fuse` a maximal run of
them, shows the unknown token. -/
inductive Cells (unk : Str) (fuse : Bool) : List (Str × Option Str) → List Cell → Prop
  | nil : Cells unk fuse [] []
  | known {x key : Str} {items : List (Str × Option Str)} {cells : List Cell} :
      Cells unk fuse items cells → Cells unk fuse ((x, some key) :: items) ((x, key) :: cells)
  | single {x : Str} {items : List (Str × Option Str)} {cells : List Cell} : fuse = false →
      Cells unk fuse items cells → Cells unk fuse ((x, none) :: items) ((x, unk) :: cells)
  | run {run items : List (Str × Option Str)} {cells : List Cell} : fuse = true → run ≠ [] →
      (∀ c ∈ run, c.2 = none) → (∀ c ∈ items.head?, c.2 ≠ none) →
      Cells unk fuse items cells → Cells unk fuse (run ++ items) ((run.flatMap (fun c => c.1), unk) :: cells)

/-- The tokens, from offset `a` on, are the groups of cells: each has the offsets of what its
group covers, and the value its group shows. -/
def Shows : Int → List Token → List (List Cell) → Prop
  | _, [], [] => True
  | a, t :: ts, g :: gs => g ≠ [] ∧ t.offsets = ⟨a, a + (covered g).length⟩ ∧ t.value = shown g
      ∧ Shows (a + (covered g).length) ts gs
  | _, _, _ => False

end Verif
