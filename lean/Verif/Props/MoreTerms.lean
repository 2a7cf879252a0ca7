import Verif.Props.WordPieceParts
import Verif.Props.Rename

/-! C115: WordPiece with further terms in the vocabulary. -/

set_option autoImplicit false

namespace Verif
namespace WordPiece

/-- `m'` is `m` with further terms: those of `m` have the ids they had. -/
structure MoreTerms (m m' : WordPiece) : Prop where
  unknownToken : m'.unknownToken = m.unknownToken
  prefix_eq : m'.continuingSubwordPrefix = m.continuingSubwordPrefix
  limit : m'.maxInputCharsPerWord = m.maxInputCharsPerWord
  terms : ∀ t id, m.vocab.getID t = some id → m'.vocab.getID t = some id

theorem MoreTerms.piece {m m' : WordPiece} (h : MoreTerms m m') (s : Str) (i j : Nat) : m'.piece s i j = m.piece s i j := by
  simp [WordPiece.piece, h.prefix_eq]

/-- Not among the further terms: not there, or as before. -/
theorem MoreTerms.old {m m' : WordPiece} (h : MoreTerms m m') {t : Str} (ho : m.vocab.getID t ≠ none) : m'.vocab.getID t = m.vocab.getID t := by
  cases hg : m.vocab.getID t with
  | none => exact absurd hg ho
  | some id => exact h.terms t id hg

theorem MoreTerms.none {m m' : WordPiece} (h : MoreTerms m m') {t : Str} (hn : m'.vocab.getID t = none) : m.vocab.getID t = none := by
  cases hg : m.vocab.getID t with
  | none => rfl
  | some id => rw [h.terms t id hg] at hn; cases hn

/-- Where the larger vocabulary finds a term of the smaller one, or nothing, the smaller finds the same. -/
theorem Inner.fewer {m m' : WordPiece} (h : MoreTerms m m') {s : Str} {start : Nat} {stop : Int} {r : Option Token}
    (hi : Inner m' s start stop r) (ho : ∀ t, r = some t → m.vocab.getID t.value ≠ none) : Inner m s start stop r := by
  induction hi with
  | stop h => exact .stop h
  | @hit stop id hlt hg =>
    have h1 := ho _ rfl
    simp only [h.piece] at h1 hg ⊢
    rw [h.old h1] at hg
    exact .hit hlt hg
  | @step stop b r hlt hg hb _ ih =>
    rw [h.piece] at hg hb
    exact .step hlt (h.none hg) hb (ih ho)

/-- Where the smaller vocabulary finds a term, the larger finds the same or a new one that is longer. -/
theorem Inner.more {m m' : WordPiece} (h : MoreTerms m m') {s : Str} {start : Nat} {stop : Int} {r : Option Token}
    (hi : Inner m s start stop r) (t : Token) (ht : r = some t) : Inner m' s start stop (some t)
      ∨ ∃ t', Inner m' s start stop (some t') ∧ m.vocab.getID t'.value = none ∧ t.offsets.stop < t'.offsets.stop := by
  induction hi with
  | stop => cases ht
  | @hit stop id hlt hg =>
    cases ht
    left
    have := Inner.hit (m := m') hlt (by rw [h.piece]; exact h.terms _ _ hg)
    rw [h.piece] at this
    exact this
  | @step stop b r hlt hg hb hr ih =>
    obtain ⟨e, h1, -, h3, -⟩ := hr.sound t ht
    have hpos := byteStringLen_pos b
    cases hg' : m'.vocab.getID (m.piece s start stop.toNat) with
    | some id =>
      right
      have := Inner.hit (m := m') (s := s) (start := start) (stop := stop) (id := id) hlt (by rw [h.piece]; exact hg')
      rw [h.piece] at this
      refine ⟨_, this, hg, ?_⟩
      rw [h1]
      simp only
      omega
    | none =>
      rcases ih ht with h2 | ⟨t', h2, h4⟩
      · exact .inl (.step hlt (by rw [h.piece]; exact hg') (by rw [h.piece]; exact hb) h2)
      · exact .inr ⟨t', .step hlt (by rw [h.piece]; exact hg') (by rw [h.piece]; exact hb) h2, h4⟩

theorem Outer.fewer {m m' : WordPiece} (h : MoreTerms m m') {s : Str} {start : Nat} {r : Option (List Token)}
    (ho : Outer m' s start r) (ts : List Token) (ht : r = some ts) (hold : ∀ t ∈ ts, m.vocab.getID t.value ≠ none) :
    Outer m s start (some ts) := by
  induction ho generalizing ts with
  | done h => cases ht; exact .done h
  | bad => cases ht
  | @token start t r hlt hi _ ih =>
    cases r with
    | none => cases ht
    | some ts' =>
      simp only [Option.map_some, Option.some.injEq] at ht
      subst ht
      exact .token hlt (hi.fewer h (by rintro _ ⟨⟩; exact hold t (by simp))) (ih ts' rfl fun t ht => hold t (by simp [ht]))

/-- The first token that differs is a new one and longer. -/
theorem Outer.more {m m' : WordPiece} (h : MoreTerms m m') {s : Str} {start : Nat} {r : Option (List Token)}
    (ho : Outer m s start r) (ts : List Token) (ht : r = some ts) : Outer m' s start (some ts)
      ∨ ∃ (P : List Token) (t : Token) (A : List Token) (t' : Token) (r' : Option (List Token)), ts = P ++ t :: A
        ∧ t'.offsets.start = t.offsets.start ∧ t.offsets.stop < t'.offsets.stop
        ∧ m.vocab.getID t'.value = none ∧ m'.vocab.getID t'.value = some t'.id
        ∧ t'.value = m'.piece s t'.offsets.start.toNat t'.offsets.stop.toNat
        ∧ Outer m' s start (r'.map fun B => P ++ t' :: B) := by
  induction ho generalizing ts with
  | done h => cases ht; exact .inl (.done h)
  | bad => cases ht
  | @token start t r hlt hi _ ih =>
    cases r with
    | none => cases ht
    | some ts' =>
      simp only [Option.map_some, Option.some.injEq] at ht
      subst ht
      rcases hi.more h t rfl with h1 | ⟨t', h1, h2, h3⟩
      · rcases ih ts' rfl with h4 | ⟨P, x, A, x', r', e, g1, g2, g3, g4, g5, g6⟩
        · exact .inl (.token hlt h1 h4)
        · refine .inr ⟨t :: P, x, A, x', r', by rw [e]; rfl, g1, g2, g3, g4, g5, ?_⟩
          have := Outer.token hlt h1 g6
          rw [Option.map_map] at this
          exact this
      · obtain ⟨e, e1, -, -, e4, e5⟩ := h1.sound t' rfl
        obtain ⟨f, f1, -⟩ := hi.sound t rfl
        refine .inr ⟨[], t, ts', t', m'.tokenLoop s s.length t'.offsets.stop.toNat, rfl, by rw [e1, f1], h3, h2, e5, ?_, ?_⟩
        · rw [e1]; exact e4
        · exact .token hlt h1 (tokenLoop_outer m' s s.length _ (by omega))

/-- Without the unknown token over everything. -/
theorem known_outer {m : WordPiece} {s : Str} {ts : List Token} (h : m.tokenize s = .ok ts) (hk : ¬ IsUnknown m s ts) :
    ((runesOf s).length : Int) ≤ m.maxInputCharsPerWord ∧ Outer m s 0 (some ts) := by
  have hu : m.unknown s = .ok ts → IsUnknown m s ts := by
    intro h
    unfold unknown at h
    cases hg : m.vocab.getID m.unknownToken with
    | none => rw [hg] at h; cases h
    | some id => rw [hg] at h; simp at h; exact ⟨id, hg, h.symm⟩
  rcases tokenize_cases m s with ⟨-, e⟩ | ⟨-, -, e⟩ | ⟨hl, ts', ho, e⟩
  · exact absurd (hu (e ▸ h)) hk
  · exact absurd (hu (e ▸ h)) hk
  · rw [e] at h; cases h; exact ⟨hl, ho⟩

end WordPiece

open WordPiece

/-- **C115, terms that are not used.** If the tokens with the larger vocabulary are all terms of the smaller one, they are the tokens with
the smaller one. -/
theorem C115_unused {m m' : WordPiece} (h : MoreTerms m m') {s : Str} {ts : List Token} (ht : m'.tokenize s = .ok ts)
    (hk : ¬ IsUnknown m' s ts) (hold : ∀ t ∈ ts, m.vocab.getID t.value ≠ none) : m.tokenize s = .ok ts := by
  obtain ⟨hl, ho⟩ := known_outer ht hk
  exact (C36_terminates m s).2 _ (ho.fewer h ts rfl hold) (by rw [← h.limit]; exact hl)

/-- **C115, the first difference.** A word that is not unknown has the same tokens with further terms, or the first different token is a
new term that begins where the old token does and is longer; the rest is cut anew, or the word becomes unknown. -/
theorem C115_first {m m' : WordPiece} (h : MoreTerms m m') {s : Str} {ts : List Token} (ht : m.tokenize s = .ok ts)
    (hk : ¬ IsUnknown m s ts) : m'.tokenize s = .ok ts
      ∨ ∃ (P : List Token) (t : Token) (A : List Token) (t' : Token), ts = P ++ t :: A
        ∧ t'.offsets.start = t.offsets.start ∧ t.offsets.stop < t'.offsets.stop
        ∧ m.vocab.getID t'.value = none ∧ m'.vocab.getID t'.value = some t'.id
        ∧ t'.value = m'.piece s t'.offsets.start.toNat t'.offsets.stop.toNat
        ∧ ((∃ B, m'.tokenize s = .ok (P ++ t' :: B)) ∨ m'.tokenize s = m'.unknown s) := by
  obtain ⟨hl, ho⟩ := known_outer ht hk
  have hl' : ((runesOf s).length : Int) ≤ m'.maxInputCharsPerWord := by rw [h.limit]; exact hl
  rcases ho.more h ts rfl with h1 | ⟨P, t, A, t', r', e, g1, g2, g3, g4, g5, g6⟩
  · exact .inl ((C36_terminates m' s).2 _ h1 hl')
  · refine .inr ⟨P, t, A, t', e, g1, g2, g3, g4, g5, ?_⟩
    have := (C36_terminates m' s).2 _ g6 hl'
    cases r' with
    | none => exact .inr this
    | some B => exact .inl ⟨B, this⟩

/-- **C115, words that become known.** A word within the limit that is unknown has a new term among its tokens if it is not unknown with
further terms. -/
theorem C115_unknown {m m' : WordPiece} (h : MoreTerms m m') {s : Str} (hu : ∀ ts, m.tokenize s = .ok ts → IsUnknown m s ts)
    {ts : List Token} (ht : m'.tokenize s = .ok ts) (hk : ¬ IsUnknown m' s ts) : ∃ t ∈ ts, m.vocab.getID t.value = none := by
  apply Classical.byContradiction
  intro hn
  have hm := C115_unused h ht hk fun t ht e => hn ⟨t, ht, e⟩
  obtain ⟨id, e1, e2⟩ := hu ts hm
  exact hk ⟨id, by rw [h.unknownToken]; exact h.terms _ _ e1, by rw [h.unknownToken]; exact e2⟩

/-- **C115, AddTerm.** `AddTerm` of a new term gives such a vocabulary, and then the new token is this term. -/
theorem C115_addTerm {m : WordPiece} {v' : Vocab} {x : Str} (hx : m.vocab.getID x = none) (ha : m.vocab.addTerm x = .ok v') :
    MoreTerms m { m with vocab := v' } ∧ ∀ t, m.vocab.getID t = none → v'.getID t ≠ none → t = x := by
  refine ⟨⟨rfl, rfl, rfl, ?_⟩, ?_⟩
  · intro t id ht
    simp only
    rw [Rename.addTerm_getID ha (by rintro rfl; rw [hx] at ht; cases ht)]
    exact ht
  · intro t h1 h2
    apply Classical.byContradiction
    intro hne
    exact h2 (by rw [Rename.addTerm_getID ha hne]; exact h1)

/-- With "a" and "##bc", and then "ab" and "##c" added one after the other: the word becomes unknown, and known again. -/
def moreTerms (n : Nat) : WordPiece :=
  ⟨Vocab.fromJSON (some ([(b!"[UNK]", 0), (b!"a", 1), (b!"##bc", 2), (b!"ab", 3), (b!"##c", 4)].take n)) [], b!"[UNK]", b!"##", 100⟩

theorem get?_append_some {l l' : GoMap Str Int} {t : Str} {id : Int} (h : GoMap.get? l t = some id) : GoMap.get? (l ++ l') t = some id := by
  induction l with
  | nil => cases h
  | cons x l ih =>
    obtain ⟨k, v⟩ := x
    show (if k = t then some v else GoMap.get? (l ++ l') t) = some id
    rw [show GoMap.get? ((k, v) :: l) t = if k = t then some v else GoMap.get? l t from rfl] at h
    split
    · rename_i hx; rw [if_pos hx] at h; exact h
    · rename_i hx; rw [if_neg hx] at h; exact ih h

/-- **C115, further terms can make a word unknown.** -/
theorem C115_counterexample : ¬ ∀ (m m' : WordPiece) (s : Str) (ts : List Token), MoreTerms m m' → m.tokenize s = .ok ts → ¬ IsUnknown m s ts →
    ∃ ts', m'.tokenize s = .ok ts' ∧ ¬ IsUnknown m' s ts' := by
  intro h
  obtain ⟨ts', h1, h2⟩ := h (moreTerms 3) (moreTerms 4) b!"abc" [⟨1, b!"a", ⟨0, 1⟩⟩, ⟨2, b!"##bc", ⟨1, 3⟩⟩]
    ⟨rfl, rfl, rfl, by
      intro t id ht
      rw [show (moreTerms 4).vocab.getID t = GoMap.get? (([(b!"[UNK]", (0 : Int)), (b!"a", 1), (b!"##bc", 2)] : GoMap Str Int) ++ [(b!"ab", 3)]) t from rfl]
      rw [show (moreTerms 3).vocab.getID t = GoMap.get? ([(b!"[UNK]", (0 : Int)), (b!"a", 1), (b!"##bc", 2)] : GoMap Str Int) t from rfl] at ht
      exact get?_append_some ht⟩
    (by decide +kernel) (by rintro ⟨id, -, e⟩; simp at e)
  have e : (moreTerms 4).tokenize b!"abc" = .ok [⟨0, b!"[UNK]", ⟨0, 3⟩⟩] := by decide +kernel
  rw [e] at h1
  cases h1
  exact h2 ⟨0, by decide +kernel, rfl⟩

example : (moreTerms 5).tokenize b!"abc" = .ok [⟨3, b!"ab", ⟨0, 2⟩⟩, ⟨4, b!"##c", ⟨2, 3⟩⟩] := by decide +kernel

end Verif
