import Verif.Model.Regexp
import Verif.Spec.Utf8

/-! The pieces the byte-level pre-tokenizer is meant to make (those of GPT-2), described without
regular expressions. -/

set_option autoImplicit false

namespace Verif

/-- What the character tables must agree on. -/
structure SaneTables (u : RxUni) : Prop where
  /-- the engine's `\s` is `unicode.IsSpace` -/
  space : ∀ r, u.space r = isWhiteSpace r
  /-- only the space lower-cases to the space -/
  lower32 : ∀ r, u.lower r = 32 ↔ r = 32
  letter_number : ∀ r, u.letter r = true → u.number r = false
  letter_space : ∀ r, u.letter r = true → u.space r = false
  number_space : ∀ r, u.number r = true → u.space r = false

/-- The four sorts of runes. -/
inductive Sort4 | letter | number | white | other
deriving DecidableEq

def sort4 (u : RxUni) (r : Rune) : Sort4 :=
  if u.letter r then .letter else if u.number r then .number else if u.space r then .white else .other

/-- The English contractions that are pieces of their own. -/
def contractions : List (List Rune) :=
  [[39, 115], [39, 116], [39, 114, 101], [39, 118, 101], [39, 109], [39, 108, 108], [39, 100]]

/-- The text starts with a contraction, in any case. -/
def StartsContraction (u : RxUni) (rs : List Rune) : Prop :=
  ∃ c ∈ contractions, (rs.take c.length).map u.lower = c

/-- `g` is the piece to be made when the text goes on with `g ++ post`. -/
inductive GptPiece (u : RxUni) : List Rune → List Rune → Prop
  /-- a contraction -/
  | contraction {g post : List Rune} : g.map u.lower ∈ contractions → GptPiece u g post
  /-- all the runes of one sort that follow, with one space before them if there is one -/
  | run {sp g post : List Rune} {k : Sort4} : (sp = [] ∨ sp = [32]) → g ≠ [] → k ≠ .white →
      (∀ r ∈ g, sort4 u r = k) → (∀ r ∈ post.head?, sort4 u r ≠ k) →
      ¬ StartsContraction u (sp ++ g ++ post) → GptPiece u (sp ++ g) post
  /-- the white space at the end of the text -/
  | atEnd {g : List Rune} : g ≠ [] → (∀ r ∈ g, sort4 u r = .white) → ¬ StartsContraction u g → GptPiece u g []
  /-- the white space before something, except its last rune -/
  | before {g post : List Rune} {w : Rune} : g ≠ [] → (∀ r ∈ g, sort4 u r = .white) → sort4 u w = .white →
      post ≠ [] → (∀ r ∈ post.head?, sort4 u r ≠ .white) → ¬ StartsContraction u (g ++ w :: post) →
      GptPiece u g (w :: post)
  /-- one rune of white space other than the space, before something -/
  | single {w : Rune} {post : List Rune} : sort4 u w = .white → w ≠ 32 → post ≠ [] →
      (∀ r ∈ post.head?, sort4 u r ≠ .white) → ¬ StartsContraction u (w :: post) → GptPiece u [w] post

/-- `rest`, standing after `pre`, is cut into pieces, each given with the runes in front of it. -/
inductive GptPieces (u : RxUni) : List Rune → List Rune → List (List Rune × List Rune) → Prop
  | nil {pre : List Rune} : GptPieces u pre [] []
  | cons {pre g post : List Rune} {L : List (List Rune × List Rune)} : g ≠ [] → GptPiece u g post →
      GptPieces u (pre ++ g) post L → GptPieces u pre (g ++ post) ((pre, g) :: L)

end Verif
