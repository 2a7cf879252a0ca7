import Verif.Props.WordPieceBytes

/-! Words all of whose characters are in the vocabulary (C88). -/

set_option autoImplicit false

namespace Verif
namespace WordPiece

/-- Every character of the word is in the vocabulary: the first as it is, the others after the prefix. -/
def KnowsCharacters (m : WordPiece) (rs : List Rune) : Prop :=
  ∀ pre x tl, rs = pre ++ x :: tl →
    ∃ id, m.vocab.getID ((if pre = [] then [] else m.continuingSubwordPrefix) ++ encodeRune x) = some id

/-- No two or more neighbouring characters of the word are in the vocabulary as one term. -/
def KnowsNoMore (m : WordPiece) (rs : List Rune) : Prop :=
  ∀ pre hd tl, rs = pre ++ hd ++ tl → 2 ≤ hd.length →
    m.vocab.getID ((if pre = [] then [] else m.continuingSubwordPrefix) ++ encodeRunes hd) = none

theorem tried_no_three (tl : List Rune) (h : ∀ r ∈ tl, runeLen r ≠ 3) : tried tl = true := by
  induction tl with
  | nil => rfl
  | cons r tl ih =>
    have h1 := h r (by simp)
    have h2 := ih fun x hx => h x (by simp [hx])
    unfold tried
    by_cases h3 : runeLen r = 1
    · simp [h3]
    · simp [h3, h1, h2]

theorem StuckTried.not_known {m : WordPiece} {pre rest : List Rune} (h : StuckTried m pre rest)
    (h3 : ∀ r ∈ rest.drop 1, runeLen r ≠ 3) (hk : KnowsCharacters m (pre ++ rest)) : False := by
  induction h with
  | @here pre rest hne hn =>
    cases rest with
    | nil => exact hne rfl
    | cons x tl =>
      obtain ⟨id, hid⟩ := hk pre x tl rfl
      have := hn [x] tl rfl (by simp) (tried_no_three tl h3)
      simp only [key, encodeRunes_cons, encodeRunes_nil, List.append_nil] at this
      rw [hid] at this; simp at this
  | @later pre hd tl id hne ht hg hl hs ih =>
    refine ih ?_ (by simpa using hk)
    intro r hr
    apply h3
    cases hd with
    | nil => exact absurd rfl hne
    | cons x hd => simpa using .inr (List.mem_of_mem_drop hr)

theorem GreedyTried.no_three {m : WordPiece} {pre rest : List Rune} {ts : List Token} (h : GreedyTried m pre rest ts)
    (hn : KnowsNoMore m (pre ++ rest)) :
    (∀ r ∈ rest.drop 1, runeLen r ≠ 3) ∧ ts.length = rest.length ∧ ∀ x tl, rest = x :: tl → tried tl = true := by
  induction h with
  | nil => simp
  | @cons pre hd tl id ts hne ht hg hl hG ih =>
    have hone : ∃ x, hd = [x] := by
      cases hd with
      | nil => exact absurd rfl hne
      | cons x hd =>
        cases hd with
        | nil => exact ⟨x, rfl⟩
        | cons y hd =>
          have := hn pre (x :: y :: hd) tl (by simp) (by simp)
          simp only [key] at hg
          rw [this] at hg; simp at hg
    obtain ⟨x, rfl⟩ := hone
    obtain ⟨i1, i2, i3⟩ := ih (by simpa using hn)
    refine ⟨?_, by simpa using i2, ?_⟩
    · intro r hr
      simp only [List.cons_append, List.nil_append, List.drop_one, List.tail_cons] at hr
      cases tl with
      | nil => simp at hr
      | cons y tl =>
        rcases List.mem_cons.1 hr with rfl | hr
        · intro h3
          have := i3 _ _ rfl
          simp [tried, h3, this] at ht
        · exact i1 r (by simpa using hr)
    · intro x' tl' e
      simp at e
      rw [← e.2]; exact ht

end WordPiece

open WordPiece in
/-- **C88 (partial).** A valid word within the limit whose characters are all in a vocabulary of valid terms is not
unknown, if no character but the first takes three bytes: its tokens are terms that tile it.  Missing: the words
with a later three-byte character (`C88_counterexample`). -/
theorem C88_known_partial (m : WordPiece) (hval : m.vocab.AllValid) (rs : List Rune) (hv : ∀ r ∈ rs, ValidRune r)
    (hl : (rs.length : Int) ≤ m.maxInputCharsPerWord) (hk : KnowsCharacters m rs)
    (h3 : ∀ r ∈ rs.drop 1, runeLen r ≠ 3) :
    ∃ ts, m.tokenize (encodeRunes rs) = .ok ts ∧ Tiles m (encodeRunes rs) 0 ts := by
  rcases tokenize_cases m (encodeRunes rs) with ⟨h, -⟩ | ⟨-, ho, h⟩ | ⟨-, ts, ho, h⟩
  · rw [runesOf_encodeRunes rs hv] at h; omega
  · exact absurd (ho.greedyTried hval [] rs (by simp) (by simp)) (fun hs => hs.not_known h3 (by simpa using hk))
  · exact ⟨ts, h, ho.tiles (by omega) ts rfl⟩

open WordPiece in
/-- **C88, exactly, for the vocabularies that know only single characters.** A valid word within the limit whose
characters are all in the vocabulary, and no two of them together, gives one token for each character if no
character but the first takes three bytes, and is unknown otherwise. -/
theorem C88_exact (m : WordPiece) (hval : m.vocab.AllValid) (rs : List Rune) (hv : ∀ r ∈ rs, ValidRune r)
    (hl : (rs.length : Int) ≤ m.maxInputCharsPerWord) (hk : KnowsCharacters m rs) (hn : KnowsNoMore m rs) :
    ((∀ r ∈ rs.drop 1, runeLen r ≠ 3) →
      ∃ ts, m.tokenize (encodeRunes rs) = .ok ts ∧ ts.length = rs.length ∧ Tiles m (encodeRunes rs) 0 ts)
    ∧ ((∃ r ∈ rs.drop 1, runeLen r = 3) → m.tokenize (encodeRunes rs) = m.unknown (encodeRunes rs)) := by
  rcases tokenize_cases m (encodeRunes rs) with ⟨h, -⟩ | ⟨-, ho, h⟩ | ⟨-, ts, ho, h⟩
  · rw [runesOf_encodeRunes rs hv] at h; omega
  · have hs := ho.greedyTried hval [] rs (by simp) (by simp)
    exact ⟨fun h3 => (hs.not_known h3 (by simpa using hk)).elim, fun _ => h⟩
  · have hg := ho.greedyTried hval [] rs (by simp) (by simp)
    obtain ⟨g1, g2, -⟩ := hg.no_three (by simpa using hn)
    exact ⟨fun _ => ⟨ts, h, g2, ho.tiles (by omega) ts rfl⟩, fun ⟨r, hr, h3⟩ => absurd h3 (g1 r hr)⟩

/-- **C88 is false** for words with a later three-byte character: all characters of "カナ" are in the vocabulary, as
first and as later characters, and the word is unknown; "éa" is not. -/
theorem C88_counterexample :
    let m : WordPiece := ⟨Vocab.fromJSON (some [(b!"[UNK]", 0), (b!"カ", 1), (b!"ナ", 2), (b!"##カ", 3), (b!"##ナ", 4),
      (b!"é", 5), (b!"##a", 6)]) [], b!"[UNK]", b!"##", 100⟩
    m.tokenize b!"カナ" = .ok [⟨0, b!"[UNK]", ⟨0, 6⟩⟩] ∧ m.tokenize b!"カ" = .ok [⟨1, b!"カ", ⟨0, 3⟩⟩]
    ∧ m.tokenize b!"éa" = .ok [⟨5, b!"é", ⟨0, 2⟩⟩, ⟨6, b!"##a", ⟨2, 3⟩⟩] := by decide +kernel

end Verif
