import Verif.Spec.BertReference
import Verif.Props.BertPipeline
import Verif.Props.WordPieceExact
import Verif.Props.Unique
import Verif.Props.GptFiles

/-! Property C84: the BERT tokenizer, from its vocabulary file to the encoding. -/

set_option autoImplicit false

namespace Verif

open Ref Json

/-! ## Words -/

/-- The words with what stands before them. -/
def locWords (isSep isSolo : Rune → Bool) : List Rune → List Rune → List Rune → List (List Rune × List Rune)
  | pre, cur, [] => if cur = [] then [] else [(pre, cur)]
  | pre, cur, r :: rs =>
    if isSep r then (if cur = [] then [] else [(pre, cur)]) ++ locWords isSep isSolo (pre ++ cur ++ [r]) [] rs
    else if isSolo r then
      (if cur = [] then [] else [(pre, cur)]) ++ (pre ++ cur, [r]) :: locWords isSep isSolo (pre ++ cur ++ [r]) [] rs
    else locWords isSep isSolo pre (cur ++ [r]) rs

theorem locWords_words (isSep isSolo : Rune → Bool) (pre cur rs : List Rune) :
    (locWords isSep isSolo pre cur rs).map (·.2) = cutWords isSep isSolo cur rs := by
  induction rs generalizing pre cur with
  | nil => unfold locWords cutWords; split <;> rfl
  | cons r rs ih =>
    unfold locWords cutWords
    by_cases hc : cur = []
    · split
      · simp [hc, ih]
      · split <;> simp [hc, ih]
    · split
      · simp [ih]
      · split <;> simp [ih]

/-- What holds of a word of the whole text. -/
def LocatedIn (isSep isSolo : Rune → Bool) (text : List Rune) (x : List Rune × List Rune) : Prop :=
  ∃ post, text = x.1 ++ x.2 ++ post
    ∧ ((∃ r, x.2 = [r] ∧ isSep r = false ∧ isSolo r = true)
      ∨ (x.2 ≠ [] ∧ (∀ r ∈ x.2, isSep r = false ∧ isSolo r = false)
          ∧ (∀ r ∈ x.1.getLast?, isSep r = true ∨ isSolo r = true)
          ∧ (∀ r ∈ post.head?, isSep r = true ∨ isSolo r = true)))

theorem locWords_spec (isSep isSolo : Rune → Bool) (pre cur rs : List Rune)
    (hp : ∀ r ∈ pre.getLast?, isSep r = true ∨ isSolo r = true) (hc : ∀ r ∈ cur, isSep r = false ∧ isSolo r = false) :
    (∀ x ∈ locWords isSep isSolo pre cur rs, LocatedIn isSep isSolo (pre ++ cur ++ rs) x ∧ pre.length ≤ x.1.length)
    ∧ (locWords isSep isSolo pre cur rs).Pairwise (fun x y => (x.1 ++ x.2).length ≤ y.1.length)
    ∧ (locWords isSep isSolo pre cur rs).flatMap (·.2) = cur ++ rs.filter fun r => !isSep r := by
  induction rs generalizing pre cur with
  | nil =>
    unfold locWords
    by_cases h : cur = []
    · subst h; simp
    · rw [if_neg h]
      refine ⟨?_, by simp, by simp⟩
      intro x hx
      simp only [List.mem_singleton] at hx
      subst hx
      exact ⟨⟨[], rfl, .inr ⟨h, hc, hp, by simp⟩⟩, Nat.le_refl _⟩
  | cons r rs ih =>
    have e : pre ++ cur ++ r :: rs = pre ++ cur ++ [r] ++ [] ++ rs := by simp
    have flush : (isSep r = true ∨ isSolo r = true) → ∀ x ∈ (if cur = [] then [] else [(pre, cur)]),
        LocatedIn isSep isSolo (pre ++ cur ++ r :: rs) x ∧ pre.length ≤ x.1.length ∧ (x.1 ++ x.2).length ≤ (pre ++ cur).length := by
      intro hr x hx
      split at hx
      · cases hx
      · rename_i h
        simp only [List.mem_singleton] at hx
        subst hx
        exact ⟨⟨r :: rs, rfl, .inr ⟨h, hc, hp, by simpa using hr⟩⟩, Nat.le_refl _, Nat.le_refl _⟩
    have fpair : (if cur = [] then [] else [(pre, cur)]).Pairwise
        (fun x y : List Rune × List Rune => (x.1 ++ x.2).length ≤ y.1.length) := by split <;> simp
    have fflat : (if cur = [] then [] else [(pre, cur)]).flatMap (·.2) = cur := by
      split
      · rename_i h; simp [h]
      · simp
    unfold locWords
    by_cases h1 : isSep r = true
    · rw [if_pos h1]
      obtain ⟨i1, i2, i3⟩ := ih (pre ++ cur ++ [r]) [] (by simp [h1]) (by simp)
      rw [← e] at i1
      have hf := flush (.inl h1)
      refine ⟨?_, ?_, ?_⟩
      · intro x hx
        rcases List.mem_append.1 hx with hx | hx
        · exact ⟨(hf x hx).1, (hf x hx).2.1⟩
        · have := (i1 x hx).2
          exact ⟨(i1 x hx).1, by simp at this; omega⟩
      · rw [List.pairwise_append]
        refine ⟨fpair, i2, ?_⟩
        intro x hx y hy
        have := (hf x hx).2.2
        have := (i1 y hy).2
        simp at *; omega
      · rw [List.flatMap_append, fflat, i3]; simp [h1]
    · rw [if_neg h1]
      have h1' : isSep r = false := by simpa using h1
      by_cases h2 : isSolo r = true
      · rw [if_pos h2]
        obtain ⟨i1, i2, i3⟩ := ih (pre ++ cur ++ [r]) [] (by simp [h2]) (by simp)
        rw [← e] at i1
        have hf := flush (.inr h2)
        refine ⟨?_, ?_, ?_⟩
        · intro x hx
          rcases List.mem_append.1 hx with hx | hx
          · exact ⟨(hf x hx).1, (hf x hx).2.1⟩
          · rcases List.mem_cons.1 hx with rfl | hx
            · exact ⟨⟨rs, by simp, .inl ⟨r, rfl, h1', h2⟩⟩, by simp⟩
            · have := (i1 x hx).2
              exact ⟨(i1 x hx).1, by simp at this; omega⟩
        · rw [List.pairwise_append]
          refine ⟨fpair, ?_, ?_⟩
          · refine List.Pairwise.cons ?_ i2
            intro y hy
            have := (i1 y hy).2
            simp at *; omega
          · intro x hx y hy
            have h3 := (hf x hx).2.2
            rcases List.mem_cons.1 hy with rfl | hy
            · exact h3
            · have := (i1 y hy).2
              simp at *; omega
        · rw [List.flatMap_append, fflat, List.flatMap_cons, i3]; simp [h1']
      · rw [if_neg h2]
        have h2' : isSolo r = false := by simpa using h2
        obtain ⟨i1, i2, i3⟩ := ih pre (cur ++ [r]) hp (by
          intro x hx
          rcases List.mem_append.1 hx with hx | hx
          · exact hc x hx
          · simp at hx; subst hx; exact ⟨h1', h2'⟩)
        refine ⟨?_, i2, ?_⟩
        · intro x hx
          have := i1 x hx
          simpa using this
        · rw [i3]; simp [h1']

/-- The described words are those that the function cuts. -/
theorem TokenizedBy.cutWords {isSep isSolo : Rune → Bool} {rs : List Rune} {L : List (List Rune × List Rune)}
    (h : TokenizedBy isSep isSolo rs L) : L.map (·.2) = Ref.cutWords isSep isSolo [] rs := by
  obtain ⟨h1, h2, h3⟩ := locWords_spec isSep isSolo [] [] rs (by simp) (by simp)
  have : L = locWords isSep isSolo [] [] rs := h.unique ⟨fun x hx => by
    have := (h1 x hx).1
    exact this, h2, by simpa using h3⟩
  rw [this, locWords_words]

/-! ## Pieces -/

namespace WordPiece

theorem longestKnown_some (known : Str → Bool) (look : List Rune → Bool) (mark : Str) (hd tl : List Rune) (hne : hd ≠ [])
    (hk : known (mark ++ encodeRunes hd) = true) (hl : look tl = true)
    (hlong : ∀ hd' tl', hd ++ tl = hd' ++ tl' → hd.length < hd'.length → look tl' = true →
      known (mark ++ encodeRunes hd') = false)
    (n : Nat) (h1 : hd.length ≤ n) (h2 : n ≤ (hd ++ tl).length) :
    longestKnown known look mark (hd ++ tl) n = some hd.length := by
  induction n with
  | zero =>
    have : hd.length = 0 := by omega
    exact absurd (List.length_eq_zero_iff.1 this) hne
  | succ n ih =>
    unfold longestKnown
    by_cases e : hd.length = n + 1
    · rw [← e]
      simp [hk, hl]
    · have hlt : hd.length < n + 1 := by omega
      rw [if_neg, ih (by omega) (by omega)]
      intro hc
      rw [Bool.and_eq_true] at hc
      have := hlong ((hd ++ tl).take (n + 1)) ((hd ++ tl).drop (n + 1)) (List.take_append_drop _ _).symm
        (by rw [List.length_take]; omega) hc.1
      rw [this] at hc
      exact absurd hc.2 (by simp)

theorem longestKnown_none (known : Str → Bool) (look : List Rune → Bool) (mark : Str) (rs : List Rune)
    (h : ∀ hd tl, rs = hd ++ tl → hd ≠ [] → look tl = true → known (mark ++ encodeRunes hd) = false)
    (n : Nat) (hn : n ≤ rs.length) : longestKnown known look mark rs n = none := by
  induction n with
  | zero => rfl
  | succ n ih =>
    unfold longestKnown
    rw [if_neg, ih (by omega)]
    intro hc
    rw [Bool.and_eq_true] at hc
    have := h (rs.take (n + 1)) (rs.drop (n + 1)) (List.take_append_drop _ _).symm (by
      intro h0
      have := congrArg List.length h0
      rw [List.length_take, List.length_nil] at this
      omega) hc.1
    rw [this] at hc
    exact absurd hc.2 (by simp)

/-- The strings that have an id. -/
def known (m : WordPiece) (s : Str) : Bool := (m.vocab.getID s).isSome

theorem known_none {m : WordPiece} {s : Str} (h : m.vocab.getID s = none) : m.known s = false := by simp [known, h]
theorem known_some {m : WordPiece} {s : Str} {i : Int} (h : m.vocab.getID s = some i) : m.known s = true := by simp [known, h]

theorem key_mark (m : WordPiece) (pre hd : List Rune) :
    m.key pre hd = (if decide (pre = []) then [] else m.continuingSubwordPrefix) ++ encodeRunes hd := by
  unfold key; simp

theorem cons_of_ne_nil {hd tl : List Rune} (h : hd ≠ []) : ∃ r rs, hd ++ tl = r :: rs := by
  cases hd with
  | nil => exact absurd rfl h
  | cons r rs => exact ⟨r, rs ++ tl, rfl⟩

theorem longestPieces_cons (known : Str → Bool) (look : List Rune → Bool) (mark : Str) (fuel : Nat) (first : Bool)
    (hd tl : List Rune) (hne : hd ≠ [])
    (h : longestKnown known look (if first then [] else mark) (hd ++ tl) (hd ++ tl).length = some hd.length) :
    longestPieces known look mark (fuel + 1) first (hd ++ tl)
      = (longestPieces known look mark fuel false tl).map (((if first then [] else mark) ++ encodeRunes hd) :: ·) := by
  obtain ⟨r, rs, e⟩ := cons_of_ne_nil (tl := tl) hne
  have h' := h
  rw [e, List.length_cons] at h'
  rw [e]
  rw [longestPieces, h']
  simp only
  rw [← e]
  simp

theorem GreedyTried.pieces {m : WordPiece} {pre rs : List Rune} {ts : List Token} (h : GreedyTried m pre rs ts)
    (fuel : Nat) (hf : rs.length ≤ fuel) :
    longestPieces m.known tried m.continuingSubwordPrefix fuel (decide (pre = [])) rs = some (ts.map (·.value)) := by
  induction h generalizing fuel with
  | nil => cases fuel <;> rfl
  | @cons pre hd tl id ts hne ht hk hlong hg ih =>
    have hl : 0 < hd.length := List.length_pos_iff.2 hne
    rw [List.length_append] at hf
    cases fuel with
    | zero => omega
    | succ fuel =>
      rw [longestPieces_cons _ _ _ _ _ _ _ hne]
      · have := ih fuel (by omega)
        rw [show decide (pre ++ hd = []) = false by simp [hne]] at this
        rw [this]
        simp [key_mark]
      · rw [key_mark] at hk
        refine longestKnown_some _ _ _ _ _ hne (known_some hk) ht ?_ _ (by simp) (Nat.le_refl _)
        intro hd' tl' e hl ht'
        have := hlong hd' tl' e hl ht'
        rw [key_mark] at this
        exact known_none this

theorem StuckTried.pieces {m : WordPiece} {pre rs : List Rune} (h : StuckTried m pre rs)
    (fuel : Nat) (hf : rs.length ≤ fuel) :
    longestPieces m.known tried m.continuingSubwordPrefix fuel (decide (pre = [])) rs = none := by
  induction h generalizing fuel with
  | @here pre rest hne hall =>
    cases rest with
    | nil => exact absurd rfl hne
    | cons r rs =>
      cases fuel with
      | zero => simp at hf
      | succ fuel =>
        unfold longestPieces
        rw [longestKnown_none]
        · intro hd tl e hn ht
          have := hall hd tl e hn ht
          rw [key_mark] at this
          exact known_none this
        · simp
  | @later pre hd tl id hne ht hk hlong hg ih =>
    have hl : 0 < hd.length := List.length_pos_iff.2 hne
    rw [List.length_append] at hf
    cases fuel with
    | zero => omega
    | succ fuel =>
      rw [longestPieces_cons _ _ _ _ _ _ _ hne]
      · have := ih fuel (by omega)
        rw [show decide (pre ++ hd = []) = false by simp [hne]] at this
        rw [this]
        rfl
      · rw [key_mark] at hk
        refine longestKnown_some _ _ _ _ _ hne (known_some hk) ht ?_ _ (by simp) (Nat.le_refl _)
        intro hd' tl' e hl ht'
        have := hlong hd' tl' e hl ht'
        rw [key_mark] at this
        exact known_none this

theorem GreedyTried.ids {m : WordPiece} {pre rs : List Rune} {ts : List Token} (h : GreedyTried m pre rs ts) :
    ∀ t ∈ ts, m.vocab.getID t.value = some t.id := by
  induction h with
  | nil => simp
  | cons _ _ hk _ _ ih =>
    intro t ht
    rcases List.mem_cons.1 ht with rfl | ht
    · exact hk
    · exact ih t ht

/-- The values of the tokens of any valid word. -/
theorem tokenize_wordPieces (m : WordPiece) (hval : m.vocab.AllValid) (hunk : m.vocab.getID m.unknownToken ≠ none)
    (rs : List Rune) (hv : ∀ r ∈ rs, ValidRune r) :
    ∃ ts, m.tokenize (encodeRunes rs) = .ok ts
      ∧ ts.map (·.value) = wordPieces m.known tried m.unknownToken m.continuingSubwordPrefix m.maxInputCharsPerWord rs
      ∧ ∀ t ∈ ts, m.vocab.getID t.value = some t.id := by
  obtain ⟨i, hi⟩ := Option.ne_none_iff_exists'.1 hunk
  have hu : ∀ s, m.unknown s = .ok [⟨i, m.unknownToken, ⟨0, s.length⟩⟩] := by
    intro s; unfold unknown; rw [hi]
  unfold wordPieces
  by_cases hl : (rs.length : Int) ≤ m.maxInputCharsPerWord
  · rw [if_neg (by omega)]
    rcases C37_exact m hval rs hv hl with ⟨ts, h1, h2⟩ | ⟨h1, h2⟩
    · refine ⟨ts, h1, ?_, h2.ids⟩
      have := h2.pieces rs.length (Nat.le_refl _)
      simp only [decide_true] at this
      rw [this]; rfl
    · refine ⟨_, h1.trans (hu _), ?_, by simpa using hi⟩
      have := h2.pieces rs.length (Nat.le_refl _)
      simp only [decide_true] at this
      rw [this]; rfl
  · rw [if_pos (by omega)]
    refine ⟨[⟨i, m.unknownToken, ⟨0, (encodeRunes rs).length⟩⟩], ?_, rfl, by simpa using hi⟩
    unfold tokenize
    rw [runesOf_encodeRunes rs hv, if_pos (by omega), hu]

/-! ### All boundaries -/

theorem tried_of_no_three {tl : List Rune} (h : ∀ r ∈ tl, runeLen r ≠ 3) : tried tl = true := by
  induction tl with
  | nil => rfl
  | cons r tl ih =>
    unfold tried
    have := h r (by simp)
    simp [this, ih fun x hx => h x (by simp [hx])]

theorem longestKnown_look {known : Str → Bool} {look look' : List Rune → Bool} {mark : Str} {rs : List Rune}
    (h : ∀ k, look (rs.drop (k + 1)) = look' (rs.drop (k + 1))) (n : Nat) :
    longestKnown known look mark rs n = longestKnown known look' mark rs n := by
  induction n with
  | zero => rfl
  | succ n ih => unfold longestKnown; rw [h n, ih]

theorem longestKnown_pos {known : Str → Bool} {look : List Rune → Bool} {mark : Str} {rs : List Rune} {n k : Nat}
    (h : longestKnown known look mark rs n = some k) : 0 < k := by
  induction n with
  | zero => cases h
  | succ n ih =>
    unfold longestKnown at h
    split at h
    · cases h; omega
    · exact ih h

theorem longestPieces_look (known : Str → Bool) (mark : Str) (fuel : Nat) (first : Bool) (rs : List Rune)
    (h : ∀ r ∈ rs.drop 1, runeLen r ≠ 3) :
    longestPieces known tried mark fuel first rs = longestPieces known (fun _ => true) mark fuel first rs := by
  induction fuel generalizing first rs with
  | zero => cases rs <;> rfl
  | succ fuel ih =>
    cases rs with
    | nil => rfl
    | cons r rs =>
      unfold longestPieces
      rw [longestKnown_look (look' := fun _ => true)]
      · split
        · rfl
        · rename_i k hk
          have hp := longestKnown_pos hk
          rw [ih]
          intro x hx
          apply h
          rw [List.drop_drop] at hx
          obtain ⟨k', rfl⟩ : ∃ k', k = k' + 1 := ⟨k - 1, by omega⟩
          rw [show k' + 1 + 1 = (k' + 1) + 1 from rfl, List.drop_succ_cons] at hx
          simpa using List.mem_of_mem_drop hx
      · intro k
        rw [List.drop_succ_cons]
        exact tried_of_no_three fun x hx => h x (by simpa using List.mem_of_mem_drop hx)

theorem wordPieces_look (known : Str → Bool) (unk mark : Str) (max : Int) (rs : List Rune)
    (h : ∀ r ∈ rs.drop 1, runeLen r ≠ 3) :
    wordPieces known tried unk mark max rs = wordPieces known (fun _ => true) unk mark max rs := by
  unfold wordPieces
  rw [longestPieces_look _ _ _ _ _ h]

end WordPiece

/-! ## C84 -/

theorem bertText_valid (u : Uni) (c : BertCfg) (rs : List Rune) (hv : ∀ r ∈ rs, ValidRune r) :
    ∀ r ∈ bertText u c rs, ValidRune r := by
  have h20 : ValidRune 0x20 := by decide
  unfold bertText
  dsimp only
  have s1 : ∀ r ∈ (if c.textCleaning then
      (rs.filter fun r => !bertDropped u r).map fun r => if isWhiteSpace r then 0x20 else r else rs), ValidRune r := by
    split
    · intro r hr
      obtain ⟨x, hx, rfl⟩ := List.mem_map.1 hr
      split
      · exact h20
      · exact hv x (List.mem_filter.1 hx).1
    · exact hv
  generalize (if c.textCleaning then
      (rs.filter fun r => !bertDropped u r).map fun r => if isWhiteSpace r then 0x20 else r else rs) = r1 at s1
  have s2 : ∀ r ∈ (if c.chineseCharsHandling then r1.flatMap fun r => if isChinese r then [0x20, r, 0x20] else [r] else r1),
      ValidRune r := by
    split
    · intro r hr
      obtain ⟨x, hx, hr⟩ := List.mem_flatMap.1 hr
      split at hr
      · simp only [List.mem_cons, List.not_mem_nil, or_false] at hr
        rcases hr with rfl | rfl | rfl
        · exact h20
        · exact s1 _ hx
        · exact h20
      · simp only [List.mem_singleton] at hr
        subst hr; exact s1 _ hx
    · exact s1
  generalize (if c.chineseCharsHandling then r1.flatMap fun r => if isChinese r then [0x20, r, 0x20] else [r] else r1) = r2 at s2
  have s3 : ∀ r ∈ (if c.accentsStripping then r2.filter fun r => !u.isMn r else r2), ValidRune r := by
    split
    · intro r hr; exact s2 r (List.mem_filter.1 hr).1
    · exact s2
  generalize (if c.accentsStripping then r2.filter fun r => !u.isMn r else r2) = r3 at s3
  show ∀ r ∈ (if c.lowerCaseEnabled then r3.map fun r => sanitize (u.toLower r) else r3), ValidRune r
  split
  · intro r hr
    obtain ⟨x, -, rfl⟩ := List.mem_map.1 hr
    exact sanitize_valid _
  · exact s3

theorem all2_of_index {α β : Type} {R : α → β → Prop} : ∀ {l : List α} {l' : List β}, l.length = l'.length →
    (∀ (i : Nat) (a : α) (b : β), l[i]? = some a → l'[i]? = some b → R a b) → All2 R l l'
  | [], [], _, _ => .nil
  | a :: l, b :: l', hl, h =>
    .cons (h 0 a b rfl rfl) (all2_of_index (by simpa using hl) fun i x y hx hy => h (i + 1) x y (by simpa using hx) (by simpa using hy))

/-- Whether a string is one of the terms. -/
def termOf (es : List (Str × Int)) (s : Str) : Bool := decide (s ∈ es.map (·.1))

theorem loaded_known {es : List (Str × Int)} {v : Vocab} (h : ∀ t i, v.getID t = some i ↔ (t, i) ∈ es) (unk mark : Str) (max : Int) :
    (WordPiece.mk v unk mark max).known = termOf es := by
  funext s
  unfold WordPiece.known termOf
  rw [Bool.eq_iff_iff, Option.isSome_iff_exists, decide_eq_true_iff]
  constructor
  · rintro ⟨i, hi⟩; exact List.mem_map.2 ⟨_, (h s i).1 hi, rfl⟩
  · intro hs
    obtain ⟨e, he, rfl⟩ := List.mem_map.1 hs
    exact ⟨e.2, (h _ _).2 he⟩

theorem loaded_valid {es : List (Str × Int)} {v : Vocab} (h : ∀ t i, v.getID t = some i ↔ (t, i) ∈ es)
    (hv : ∀ e ∈ es, ValidUtf8 e.1) : v.AllValid := by
  intro t ht
  obtain ⟨i, hi⟩ := Option.ne_none_iff_exists'.1 ht
  exact hv _ ((h t i).1 hi)

theorem loaded_unk {es : List (Str × Int)} {v : Vocab} (h : ∀ t i, v.getID t = some i ↔ (t, i) ∈ es) {unk : Str}
    (hu : unk ∈ es.map (·.1)) : v.getID unk ≠ none := by
  obtain ⟨e, he, rfl⟩ := List.mem_map.1 hu
  rw [(h _ _).2 he]; simp

/-- **C84, a word.** A vocabulary is written to a file and loaded.  On every valid word the values of the WordPiece tokens
are the longest known pieces from left to right, among the boundaries the search looks at; all boundaries, if no rune after
the first takes three bytes.  The ids are those of the file. -/
theorem C84_word (m : Machine) (es : List (Str × Int)) (order : GoMap Str Int → List (Str × Int))
    (hv : ∀ e ∈ es, ValidUtf8 e.1) (hi : ∀ e ∈ es, -(m.half : Int) ≤ e.2 ∧ e.2 < m.half) (hk : (es.map (·.1)).Nodup) :
    ∃ v, Vocab.fromJSONFile m (writeVocab es) order = .ok v
      ∧ ∀ (unk mark : Str) (_ : unk ∈ es.map (·.1)) (max : Int) (rs : List Rune) (_ : ∀ r ∈ rs, ValidRune r),
        ∃ ts, (WordPiece.mk v unk mark max).tokenize (encodeRunes rs) = .ok ts
          ∧ ts.map (·.value) = wordPieces (termOf es) WordPiece.tried unk mark max rs
          ∧ (∀ t ∈ ts, (t.value, t.id) ∈ es)
          ∧ ((∀ r ∈ rs.drop 1, runeLen r ≠ 3) →
              ts.map (·.value) = wordPieces (termOf es) (fun _ => true) unk mark max rs) := by
  obtain ⟨v, h1, h2, -, -⟩ := C81_roundtrip m es order hv hi hk
  refine ⟨v, h1, ?_⟩
  intro unk mark hu max rs hrs
  obtain ⟨ts, t1, t2, t3⟩ := (WordPiece.mk v unk mark max).tokenize_wordPieces (loaded_valid h2 hv) (loaded_unk h2 hu) rs hrs
  rw [loaded_known h2] at t2
  refine ⟨ts, t1, t2, fun t ht => (h2 _ _).1 (t3 t ht), ?_⟩
  intro h3
  rw [t2]
  exact WordPiece.wordPieces_look _ _ _ _ _ h3

/-- **C84.** A vocabulary is written to a file and loaded.  Then every valid input is encoded by the BERT normalizer, the BERT
pre-tokenizer, WordPiece and IntoEncoding, if no multi-byte rune is dropped at the very front: the tokens are the pieces of
the words of the normalized text, as the reference implementation cuts them (where a rune takes three bytes, among the
boundaries that the search looks at); the ids are those of the file, the words are numbered, and the input at the offsets of a token
normalizes to the characters that it stands for. -/
theorem C84_bert (m : Machine) (es : List (Str × Int)) (order : GoMap Str Int → List (Str × Int))
    (hv : ∀ e ∈ es, ValidUtf8 e.1) (hi : ∀ e ∈ es, -(m.half : Int) ≤ e.2 ∧ e.2 < m.half) (hk : (es.map (·.1)).Nodup) :
    ∃ v, Vocab.fromJSONFile m (writeVocab es) order = .ok v
      ∧ ∀ (unk mark : Str) (_ : unk ∈ es.map (·.1)) (max : Int) (u : Uni) (_ : u.toLower 0x20 = 0x20) (c : BertCfg)
          (rs : List Rune) (_ : ∀ r ∈ rs, ValidRune r) (_ : c.textCleaning = true → GoodStart (bertDropped u) rs)
          (_ : c.accentsStripping = true → GoodStart u.isMn (bertText u (spacesOnly c) rs)) (w ty : Int),
        let words := cutWords isWhiteSpace u.isPunct [] (bertText u c rs)
        ∃ p0 p1 p2 enc, (PTS.fromString (encodeRunes rs)).normalize (bertNormalize u c) = .ok (p0, none)
          ∧ bertPreTokenize u p0 = .ok (p1, none)
          ∧ p1.tokenize (fun ns => .ok ((WordPiece.mk v unk mark max).tokenize ns.get)) = .ok (p2, none)
          ∧ p2.intoEncoding w ty = .ok (.ok enc)
          ∧ enc.tokens = words.flatMap (wordPieces (termOf es) WordPiece.tried unk mark max)
          ∧ ((∀ x ∈ words, ∀ r ∈ x.drop 1, runeLen r ≠ 3) →
              enc.tokens = words.flatMap (wordPieces (termOf es) (fun _ => true) unk mark max))
          ∧ All2 (fun t i => (t, i) ∈ es) enc.tokens enc.ids
          ∧ enc.words = wordNumbers w 0 (words.map fun x => (wordPieces (termOf es) WordPiece.tried unk mark max x).length)
          ∧ All2 (fun t o => ∃ h, goSlice (encodeRunes rs) o.start o.stop = .ok (encodeRunes h) ∧ bertVisible u c h ≠ []
              ∧ (t = unk ∨ t = encodeRunes (bertVisible u c h) ∨ t = mark ++ encodeRunes (bertVisible u c h))) enc.tokens enc.offsets
          ∧ enc.offsets.Pairwise (fun o o' => o.stop ≤ o'.start) := by
  obtain ⟨v, h1, h2, -, -⟩ := C81_roundtrip m es order hv hi hk
  refine ⟨v, h1, ?_⟩
  intro unk mark hunk max u hu c rs hrs g1 g2 w ty words
  have hval := loaded_valid h2 hv
  have hunk' := loaded_unk h2 hunk
  obtain ⟨p0, p1, p2, enc, L, T, Gf, k1, k2, k3, k4, k5, k6, k7, k8, k9, k10⟩ :=
    C68_bert hu c (WordPiece.mk v unk mark max) hval hunk' rs hrs g1 g2 w ty
  have hw : L.map (fun x => x.2.map (·.1)) = words := by
    have := k5.cutWords
    rw [wordRunes, List.map_map] at this
    exact this
  have hvw : ∀ x ∈ L, ∀ r ∈ x.2.map (·.1), ValidRune r := by
    intro x hx r hr
    have hc := k5.complete
    have hm : r ∈ (wordRunes L).flatMap (·.2) :=
      List.mem_flatMap.2 ⟨_, List.mem_map.2 ⟨x, hx, rfl⟩, hr⟩
    rw [hc] at hm
    exact bertText_valid u c rs hrs r (List.mem_filter.1 hm).1
  have hT : ∀ x ∈ L, (T x).map (·.value) = wordPieces (termOf es) WordPiece.tried unk mark max (x.2.map (·.1))
      ∧ ∀ t ∈ T x, (t.value, t.id) ∈ es := by
    intro x hx
    obtain ⟨ts, t1, t2, t3⟩ := (WordPiece.mk v unk mark max).tokenize_wordPieces hval hunk' _ (hvw x hx)
    have e := (k6 x hx).1
    rw [show text x.2 = encodeRunes (x.2.map (·.1)) from rfl, t1] at e
    simp only [Except.ok.injEq] at e
    subst e
    rw [loaded_known h2] at t2
    exact ⟨t2, fun t ht => (h2 _ _).1 (t3 t ht)⟩
  have htok : enc.tokens = words.flatMap (wordPieces (termOf es) WordPiece.tried unk mark max) := by
    rw [k7.tokens, ← hw]
    clear k5 k6 k7 k8 k9 k10 hw hvw
    induction L with
    | nil => rfl
    | cons x L ih =>
      simp only [List.map_cons, List.flatten_cons, List.map_append, List.flatMap_cons]
      rw [ih (fun y hy => hT y (by simp [hy])), (hT x (by simp)).1]
  refine ⟨p0, p1, p2, enc, k1, k2, k3, k4, htok, ?_, ?_, ?_, ?_, k10⟩
  · intro h3
    rw [htok]
    clear htok hw
    clear_value words
    induction words with
    | nil => rfl
    | cons x l ih =>
      simp only [List.flatMap_cons]
      rw [ih (fun y hy => h3 y (by simp [hy])), WordPiece.wordPieces_look _ _ _ _ _ (h3 x (by simp))]
  · rw [k7.tokens, k7.ids]
    have : ∀ t ∈ (L.map T).flatten, (t.value, t.id) ∈ es := by
      intro t ht
      obtain ⟨ts, hts, ht⟩ := List.mem_flatten.1 ht
      obtain ⟨x, hx, rfl⟩ := List.mem_map.1 hts
      exact (hT x hx).2 t ht
    generalize (L.map T).flatten = l at this
    induction l with
    | nil => exact .nil
    | cons t l ih => exact .cons (this t (by simp)) (ih fun t ht => this t (by simp [ht]))
  · rw [k7.words, wordsFrom_numbers, ← hw, List.map_map, List.map_map]
    congr 1
    apply List.map_congr_left
    intro x hx
    have := congrArg List.length (hT x hx).1
    simpa using this
  · obtain ⟨q0, q1, q2, enc', l1, l2, l3, l4, l5, l6, l7, -⟩ :=
      C68_rows hu c (WordPiece.mk v unk mark max) hval hunk' rs hrs g1 g2 w ty
    rw [k1] at l1
    simp only [GoM.ok.injEq, Prod.mk.injEq, and_true] at l1
    subst l1
    rw [k2] at l2
    simp only [GoM.ok.injEq, Prod.mk.injEq, and_true] at l2
    subst l2
    rw [k3] at l3
    simp only [GoM.ok.injEq, Prod.mk.injEq, and_true] at l3
    subst l3
    rw [k4] at l4
    simp only [GoM.ok.injEq, Except.ok.injEq] at l4
    subst l4
    refine all2_of_index l5 ?_
    intro i t o ht ho
    have hlt : i < enc.ids.length := by
      have := (List.getElem?_eq_some_iff.1 ho).1
      omega
    obtain ⟨h, r1, r2, -, r3⟩ := l7 i o t _ ho ht (List.getElem?_eq_getElem hlt)
    exact ⟨h, r1, r2, r3⟩

/-- A small BERT vocabulary. -/
def bertTerms : List (Str × Int) :=
  [(b!"[UNK]", 100), (b!"un", 1), (b!"##aff", 2), (b!"##able", 3), (b!"##a", 4), (b!"世", 5), (b!"##é", 6), (b!"!", 7)]

-- the longest pieces win, three-byte runes after the first are looked at where the search passes
example : cutWords isWhiteSpace (fun r => r == u!"!") [] [u!"a", u!"!", 32, 32, u!"b", u!"c"] = [[u!"a"], [u!"!"], [u!"b", u!"c"]]
    ∧ wordPieces (termOf bertTerms) (fun _ => true) b!"[UNK]" b!"##" 100 (runesOf b!"unaffable") = [b!"un", b!"##aff", b!"##able"]
    ∧ wordPieces (termOf bertTerms) (fun _ => true) b!"[UNK]" b!"##" 100 (runesOf b!"世é") = [b!"世", b!"##é"]
    ∧ wordPieces (termOf bertTerms) (fun _ => true) b!"[UNK]" b!"##" 100 (runesOf b!"unknown") = [b!"[UNK]"]
    ∧ wordPieces (termOf bertTerms) (fun _ => true) b!"[UNK]" b!"##" 2 (runesOf b!"una") = [b!"[UNK]"]
    ∧ wordPieces (termOf bertTerms) WordPiece.tried b!"[UNK]" b!"##" 100 (runesOf b!"un世") = [b!"[UNK]"] := by decide +kernel

-- the hypotheses hold of this vocabulary
example : (∀ e ∈ bertTerms, encodeRunes (runesOf e.1) = e.1) ∧ (bertTerms.map (·.1)).Nodup
    ∧ (∀ e ∈ bertTerms, -(Machine.go32.half : Int) ≤ e.2 ∧ e.2 < Machine.go32.half) := by decide +kernel

end Verif
