import Verif.Props.BertFiles
import Verif.Props.Join
import Verif.Props.JoinChars
import Verif.Model.Notation

/-!
C98: the ids of the BERT tokenizer give back the words of the text.  A reader that knows only the vocabulary file and the mark of
continuing pieces looks the ids up, glues the marked pieces to what stands before them, and has the words of the normalized text,
provided that no word came out as the unknown token.  The mark has to begin with a punctuation mark and have two runes or more, as
`##` does; otherwise a word may itself begin with the mark.
-/

set_option autoImplicit false

namespace Verif

open Ref Json

/-- The words spelled by pieces, `cur` being the word so far: a piece with the mark continues it. -/
def spell (mark : Str) : Str → List Str → List Str
  | cur, [] => [cur]
  | cur, t :: ts => if mark.isPrefixOf t then spell mark (cur ++ t.drop mark.length) ts else cur :: spell mark t ts

/-- The words spelled by pieces. -/
def spellWords (mark : Str) : List Str → List Str
  | [] => []
  | t :: ts => spell mark t ts

/-! ## Prefixes of encoded runes -/

theorem encodeRunes_prefix : ∀ {as bs : List Rune}, (∀ r ∈ as, ValidRune r) → (∀ r ∈ bs, ValidRune r) →
    encodeRunes as <+: encodeRunes bs → as <+: bs := by
  intro as
  induction as with
  | nil => intro bs _ _ _; exact List.nil_prefix
  | cons a as ih =>
    intro bs ha hb ⟨t, ht⟩
    cases bs with
    | nil =>
      have := encodeRune_length_pos a
      have h := congrArg List.length ht
      rw [encodeRunes_cons, List.length_append, List.length_append, show encodeRunes [] = [] from rfl, List.length_nil] at h
      omega
    | cons b bs =>
      rw [encodeRunes_cons, encodeRunes_cons, List.append_assoc] at ht
      have h1 := decodeRune_encodeRune (ha a (by simp)) (encodeRunes as ++ t)
      have h2 := decodeRune_encodeRune (hb b (by simp)) (encodeRunes bs)
      rw [ht, h2] at h1
      have hab : b = a := congrArg Prod.fst h1
      subst hab
      have := ih (fun r hr => ha r (by simp [hr])) (fun r hr => hb r (by simp [hr])) ⟨t, List.append_cancel_left ht⟩
      exact List.cons_prefix_cons.2 ⟨rfl, this⟩

/-! ## The words of a text -/

/-- A word has runes; it is one rune or has no punctuation marks. -/
theorem cutWords_shape (isSep isSolo : Rune → Bool) : ∀ (rs cur : List Rune), (∀ r ∈ cur, isSolo r = false) →
    ∀ x ∈ cutWords isSep isSolo cur rs, x ≠ [] ∧ (x.length = 1 ∨ ∀ r ∈ x, isSolo r = false) := by
  intro rs
  induction rs with
  | nil =>
    intro cur hc x hx
    unfold cutWords at hx
    split at hx
    · cases hx
    · rename_i hne
      rw [List.mem_singleton] at hx
      subst hx
      exact ⟨hne, Or.inr hc⟩
  | cons r rs ih =>
    intro cur hc x hx
    have hcur : ∀ y ∈ (if cur = [] then [] else [cur]), y ≠ [] ∧ (y.length = 1 ∨ ∀ r ∈ y, isSolo r = false) := by
      intro y hy
      split at hy
      · cases hy
      · rename_i hne
        rw [List.mem_singleton] at hy
        subst hy
        exact ⟨hne, Or.inr hc⟩
    unfold cutWords at hx
    split at hx
    · rcases List.mem_append.1 hx with h | h
      · exact hcur x h
      · exact ih [] (by simp) x h
    · split at hx
      · rcases List.mem_append.1 hx with h | h
        · exact hcur x h
        · rcases List.mem_cons.1 h with rfl | h
          · simp
          · exact ih [] (by simp) x h
      · rename_i hs
        refine ih (cur ++ [r]) ?_ x hx
        intro y hy
        rcases List.mem_append.1 hy with h | h
        · exact hc y h
        · rw [List.mem_singleton] at h
          subst h
          simpa using hs

theorem cutWords_valid (isSep isSolo : Rune → Bool) : ∀ (rs cur : List Rune) (P : Rune → Prop), (∀ r ∈ cur, P r) → (∀ r ∈ rs, P r) →
    ∀ x ∈ cutWords isSep isSolo cur rs, ∀ r ∈ x, P r := by
  intro rs
  induction rs with
  | nil =>
    intro cur P hc _ x hx
    unfold cutWords at hx
    split at hx
    · cases hx
    · rw [List.mem_singleton] at hx; subst hx; exact hc
  | cons r rs ih =>
    intro cur P hc hr x hx
    have hcur : ∀ y ∈ (if cur = [] then [] else [cur]), ∀ r ∈ y, P r := by
      intro y hy
      split at hy
      · cases hy
      · rw [List.mem_singleton] at hy; subst hy; exact hc
    have hrs : ∀ r ∈ rs, P r := fun r h => hr r (by simp [h])
    unfold cutWords at hx
    split at hx
    · rcases List.mem_append.1 hx with h | h
      · exact hcur x h
      · exact ih [] P (by simp) hrs x h
    · split at hx
      · rcases List.mem_append.1 hx with h | h
        · exact hcur x h
        · rcases List.mem_cons.1 h with rfl | h
          · intro y hy; rw [List.mem_singleton] at hy; subst hy; exact hr _ (by simp)
          · exact ih [] P (by simp) hrs x h
      · refine ih (cur ++ [r]) P ?_ hrs x hx
        intro y hy
        rcases List.mem_append.1 hy with h | h
        · exact hc y h
        · rw [List.mem_singleton] at h; subst h; exact hr _ (by simp)

/-! ## The pieces of a word -/

theorem longestKnown_pos {known : Str → Bool} {look : List Rune → Bool} {mark : Str} {rs : List Rune} :
    ∀ {k n : Nat}, longestKnown known look mark rs k = some n → 0 < n := by
  intro k
  induction k with
  | zero => intro n h; cases h
  | succ k ih =>
    intro n h
    unfold longestKnown at h
    split at h
    · cases h; omega
    · exact ih h

/-- Pieces after the first carry the mark; without it they are the rest of the word. -/
theorem spell_rest {known : Str → Bool} {look : List Rune → Bool} {mark : Str} : ∀ (fuel : Nat) (rs : List Rune) (ps : List Str),
    longestPieces known look mark fuel false rs = some ps →
    ∀ (cur : Str) (more : List Str), spell mark cur (ps ++ more) = spell mark (cur ++ encodeRunes rs) more := by
  intro fuel
  induction fuel with
  | zero =>
    intro rs ps h cur more
    cases rs with
    | nil => simp [longestPieces] at h; subst h; simp
    | cons r rs => simp [longestPieces] at h
  | succ fuel ih =>
    intro rs ps h cur more
    cases rs with
    | nil => simp [longestPieces] at h; subst h; simp
    | cons r rs =>
      unfold longestPieces at h
      split at h
      · cases h
      · rename_i n hn
        rw [Option.map_eq_some_iff] at h
        obtain ⟨qs, hq, rfl⟩ := h
        have hp : mark.isPrefixOf (mark ++ encodeRunes ((r :: rs).take n)) = true :=
          List.isPrefixOf_iff_prefix.2 (List.prefix_append _ _)
        simp only [Bool.false_eq_true, if_false, List.cons_append]
        rw [spell, if_pos hp, List.drop_left, ih _ _ hq, List.append_assoc, ← encodeRunes_append, List.take_append_drop]

/-- The pieces of a word that was cut spell it, whatever comes before and after. -/
theorem spell_word {known : Str → Bool} {look : List Rune → Bool} {mark : Str} {mk x : List Rune} {isSolo : Rune → Bool}
    (hmk : mark = encodeRunes mk) (hmv : ∀ r ∈ mk, ValidRune r) (hm2 : 2 ≤ mk.length) (hms : ∀ r ∈ mk.head?, isSolo r = true)
    (hx : ∀ r ∈ x, ValidRune r) (hne : x ≠ []) (hsh : x.length = 1 ∨ ∀ r ∈ x, isSolo r = false)
    {ps : List Str} (h : longestPieces known look mark x.length true x = some ps) :
    ∃ p qs, ps = p :: qs ∧ mark.isPrefixOf p = false ∧ ∀ more, spell mark p (qs ++ more) = spell mark (encodeRunes x) more := by
  cases x with
  | nil => exact absurd rfl hne
  | cons r rs =>
    rw [List.length_cons, longestPieces] at h
    split at h
    · cases h
    · rename_i n hn
      rw [Option.map_eq_some_iff] at h
      obtain ⟨qs, hq, rfl⟩ := h
      refine ⟨_, qs, rfl, ?_, ?_⟩
      · simp only [if_true, List.nil_append]
        rw [Bool.eq_false_iff]
        intro hp
        rw [List.isPrefixOf_iff_prefix, hmk] at hp
        have hp := (encodeRunes_prefix hmv (fun y hy => hx y (List.mem_of_mem_take hy)) hp).trans (List.take_prefix _ _)
        rcases hsh with h1 | h1
        · have := hp.length_le; omega
        · cases mk with
          | nil => simp at hm2
          | cons k mk =>
            have e1 := hms k (by simp)
            have e2 := h1 k (hp.subset (by simp))
            rw [e1] at e2; cases e2
      · intro more
        simp only [if_true, List.nil_append]
        rw [spell_rest _ _ _ hq, ← encodeRunes_append, List.take_append_drop]

/-- What can be read back of a word: the word, or the unknown token if that is all its pieces. -/
def readBack (pieces : List Rune → List Str) (unk : Str) (x : List Rune) : Str := if pieces x = [unk] then unk else encodeRunes x

theorem spell_words {known : Str → Bool} {look : List Rune → Bool} {unk mark : Str} {max : Int} {mk : List Rune} {isSolo : Rune → Bool}
    (hmk : mark = encodeRunes mk) (hmv : ∀ r ∈ mk, ValidRune r) (hm2 : 2 ≤ mk.length) (hms : ∀ r ∈ mk.head?, isSolo r = true) :
    ∀ (ws : List (List Rune)), (∀ x ∈ ws, ∀ r ∈ x, ValidRune r) → (∀ x ∈ ws, x ≠ [] ∧ (x.length = 1 ∨ ∀ r ∈ x, isSolo r = false)) →
    (mark.isPrefixOf unk = false ∨ unk ∉ ws.flatMap (wordPieces known look unk mark max)) →
    spellWords mark (ws.flatMap (wordPieces known look unk mark max)) = ws.map (readBack (wordPieces known look unk mark max) unk)
      ∧ ∀ cur, spell mark cur (ws.flatMap (wordPieces known look unk mark max))
          = cur :: ws.map (readBack (wordPieces known look unk mark max) unk) := by
  intro ws
  induction ws with
  | nil => intro _ _ _; exact ⟨rfl, fun _ => rfl⟩
  | cons x ws ih =>
    intro hv hs hu
    rw [List.flatMap_cons, List.mem_append, not_or] at hu
    obtain ⟨-, i2⟩ := ih (fun y hy => hv y (by simp [hy])) (fun y hy => hs y (by simp [hy])) (hu.imp_right And.right)
    have hx : (∃ ps, longestPieces known look mark x.length true x = some ps ∧ wordPieces known look unk mark max x = ps)
        ∨ wordPieces known look unk mark max x = [unk] := by
      unfold wordPieces
      split
      · exact Or.inr rfl
      · cases hp : longestPieces known look mark x.length true x with
        | none => exact Or.inr rfl
        | some ps => exact Or.inl ⟨ps, rfl, rfl⟩
    rw [List.flatMap_cons, List.map_cons]
    rcases hx with ⟨ps, e1, e2⟩ | e2
    · obtain ⟨p, qs, rfl, e3, e4⟩ := spell_word hmk hmv hm2 hms (hv x (by simp)) (hs x (by simp)).1 (hs x (by simp)).2 e1
      have hr : readBack (wordPieces known look unk mark max) unk x = encodeRunes x := by
        unfold readBack
        rw [e2]
        split
        · rename_i h
          obtain ⟨rfl, rfl⟩ : p = unk ∧ qs = [] := by simpa using h
          have := e4 []
          simpa [spell] using this
        · rfl
      rw [e2, List.cons_append, hr]
      refine ⟨?_, fun cur => ?_⟩
      · rw [spellWords, e4, i2]
      · rw [spell, if_neg (by rw [e3]; simp), e4, i2]
    · have hm : mark.isPrefixOf unk = false := by
        rcases hu with h | h
        · exact h
        · rw [e2] at h; simp at h
      have hr : readBack (wordPieces known look unk mark max) unk x = unk := by unfold readBack; rw [if_pos e2]
      rw [e2, List.cons_append, List.nil_append, hr]
      refine ⟨?_, fun cur => ?_⟩
      · rw [spellWords, i2]
      · rw [spell, if_neg (by rw [hm]; simp), i2]

/-! ## C98 -/

theorem All2.map_termFor {es : List (Str × Int)} (hid : (es.map (·.2)).Nodup) :
    ∀ {ts : List Str} {is : List Int}, All2 (fun t i => (t, i) ∈ es) ts is → is.map (termFor es) = ts := by
  intro ts is h
  induction h with
  | nil => rfl
  | cons h _ ih => rw [List.map_cons, ih, termFor_eq hid h]

/-- The words of the normalized text. -/
def bertWords (u : Uni) (c : BertCfg) (rs : List Rune) : List (List Rune) := cutWords isWhiteSpace u.isPunct [] (bertText u c rs)

theorem nodup_keys_eq {es : List (Str × Int)} (hk : (es.map (·.1)).Nodup) {t : Str} {i j : Int} (h : (t, i) ∈ es) (h' : (t, j) ∈ es) :
    i = j := by
  induction es with
  | nil => cases h
  | cons e es ih =>
    rw [List.map_cons, List.nodup_cons] at hk
    rcases List.mem_cons.1 h with rfl | g <;> rcases List.mem_cons.1 h' with h' | h'
    · cases h'; rfl
    · have hm : t ∈ es.map (·.1) := List.mem_map.2 ⟨(t, j), h', rfl⟩
      exact absurd hm hk.1
    · subst h'
      have hm : t ∈ es.map (·.1) := List.mem_map.2 ⟨(t, i), g, rfl⟩
      exact absurd hm hk.1
    · exact ih hk.2 g h'

theorem encoded_words_inj : ∀ (xs ys : List (List Rune)), (∀ x ∈ xs, ∀ r ∈ x, ValidRune r) → (∀ x ∈ ys, ∀ r ∈ x, ValidRune r) →
    xs.map encodeRunes = ys.map encodeRunes → xs = ys := by
  intro xs
  induction xs with
  | nil => intro ys _ _ h; cases ys with
    | nil => rfl
    | cons y ys => cases h
  | cons x xs ih =>
    intro ys hx hy h
    cases ys with
    | nil => cases h
    | cons y ys =>
      rw [List.map_cons, List.map_cons] at h
      injection h with h1 h2
      rw [encodeRunes_inj (hx x (by simp)) (hy y (by simp)) h1, ih ys (fun z hz => hx z (by simp [hz])) (fun z hz => hy z (by simp [hz])) h2]

theorem All2.ids_eq {es : List (Str × Int)} (hk : (es.map (·.1)).Nodup) :
    ∀ {ts : List Str} {is js : List Int}, All2 (fun t i => (t, i) ∈ es) ts is → All2 (fun t i => (t, i) ∈ es) ts js → is = js := by
  intro ts is js h
  induction h generalizing js with
  | nil => intro h'; cases h'; rfl
  | cons h _ ih =>
    intro h'
    cases h' with
    | cons h1 h2 => rw [ih h2, nodup_keys_eq hk h h1]

/-- C98: looked up in the vocabulary and glued at the marks, the ids are the words. -/
theorem C98_words (m : Machine) (es : List (Str × Int)) (order : GoMap Str Int → List (Str × Int))
    (hv : ∀ e ∈ es, ValidUtf8 e.1) (hi : ∀ e ∈ es, -(m.half : Int) ≤ e.2 ∧ e.2 < m.half) (hk : (es.map (·.1)).Nodup)
    (hid : (es.map (·.2)).Nodup) :
    ∃ v, Vocab.fromJSONFile m (writeVocab es) order = .ok v
      ∧ ∀ (unk : Str) (_ : unk ∈ es.map (·.1)) (max : Int) (u : Uni) (_ : u.toLower 0x20 = 0x20) (mk : List Rune)
          (_ : ∀ r ∈ mk, ValidRune r) (_ : 2 ≤ mk.length) (_ : ∀ r ∈ mk.head?, u.isPunct r = true) (c : BertCfg)
          (rs : List Rune) (_ : ∀ r ∈ rs, ValidRune r) (_ : BertStart u c rs) (w ty : Int),
        ∃ enc, BertEncodes u c (WordPiece.mk v unk (encodeRunes mk) max) w ty (encodeRunes rs) enc
          ∧ (unk ∉ enc.tokens →
              spellWords (encodeRunes mk) (enc.ids.map (termFor es)) = (bertWords u c rs).map encodeRunes)
          ∧ ((encodeRunes mk).isPrefixOf unk = false →
              spellWords (encodeRunes mk) (enc.ids.map (termFor es))
                = (bertWords u c rs).map (readBack (wordPieces (termOf es) WordPiece.tried unk (encodeRunes mk) max) unk)) := by
  obtain ⟨v, h1, h2⟩ := C84_bert m es order hv hi hk
  refine ⟨v, h1, ?_⟩
  intro unk hunk max u hu mk hmv hm2 hms c rs hrs hst w ty
  obtain ⟨p0, p1, p2, enc, k1, k2, k3, k4, k5, -, k7, -⟩ := h2 unk (encodeRunes mk) hunk max u hu c rs hrs hst.1 hst.2 w ty
  have hval : ∀ x ∈ bertWords u c rs, ∀ r ∈ x, ValidRune r :=
    cutWords_valid _ _ _ _ _ (by simp) (bertText_valid u c rs hrs)
  have hsh := cutWords_shape isWhiteSpace u.isPunct (bertText u c rs) [] (by simp)
  refine ⟨enc, ⟨p0, k1, p1, p2, k2, k3, k4⟩, fun hn => ?_, fun hn => ?_⟩
  · rw [k7.map_termFor hid]
    rw [k5] at hn ⊢
    refine (spell_words rfl hmv hm2 hms _ hval hsh (Or.inr hn)).1.trans ?_
    refine List.map_congr_left fun x hx => ?_
    unfold readBack
    rw [if_neg]
    intro h
    exact hn (List.mem_flatMap.2 ⟨x, hx, by rw [h]; simp⟩)
  · rw [k7.map_termFor hid, k5]
    exact (spell_words rfl hmv hm2 hms _ hval hsh (Or.inl hn)).1

/-- C98: texts of known words have the same ids exactly when they have the same words. -/
theorem C98_same (m : Machine) (es : List (Str × Int)) (order : GoMap Str Int → List (Str × Int))
    (hv : ∀ e ∈ es, ValidUtf8 e.1) (hi : ∀ e ∈ es, -(m.half : Int) ≤ e.2 ∧ e.2 < m.half) (hk : (es.map (·.1)).Nodup)
    (hid : (es.map (·.2)).Nodup) :
    ∃ v, Vocab.fromJSONFile m (writeVocab es) order = .ok v
      ∧ ∀ (unk : Str) (_ : unk ∈ es.map (·.1)) (max : Int) (u : Uni) (_ : u.toLower 0x20 = 0x20) (mk : List Rune)
          (_ : ∀ r ∈ mk, ValidRune r) (_ : 2 ≤ mk.length) (_ : ∀ r ∈ mk.head?, u.isPunct r = true) (c : BertCfg)
          (rs rs' : List Rune) (_ : ∀ r ∈ rs, ValidRune r) (_ : ∀ r ∈ rs', ValidRune r) (_ : BertStart u c rs) (_ : BertStart u c rs')
          (w ty : Int),
        ∃ enc enc', BertEncodes u c (WordPiece.mk v unk (encodeRunes mk) max) w ty (encodeRunes rs) enc
          ∧ BertEncodes u c (WordPiece.mk v unk (encodeRunes mk) max) w ty (encodeRunes rs') enc'
          ∧ (bertWords u c rs = bertWords u c rs' → enc.ids = enc'.ids ∧ enc.tokens = enc'.tokens ∧ enc.words = enc'.words)
          ∧ (unk ∉ enc.tokens → enc.ids = enc'.ids → bertWords u c rs = bertWords u c rs') := by
  obtain ⟨v, h1, h2⟩ := C84_bert m es order hv hi hk
  refine ⟨v, h1, ?_⟩
  intro unk hunk max u hu mk hmv hm2 hms c rs rs' hrs hrs' hst hst' w ty
  obtain ⟨p0, p1, p2, enc, k1, k2, k3, k4, k5, -, k7, k8, -⟩ := h2 unk (encodeRunes mk) hunk max u hu c rs hrs hst.1 hst.2 w ty
  obtain ⟨p0', p1', p2', enc', l1, l2, l3, l4, l5, -, l7, l8, -⟩ := h2 unk (encodeRunes mk) hunk max u hu c rs' hrs' hst'.1 hst'.2 w ty
  refine ⟨enc, enc', ⟨p0, k1, p1, p2, k2, k3, k4⟩, ⟨p0', l1, p1', p2', l2, l3, l4⟩, fun h => ?_, fun hn h => ?_⟩
  · unfold bertWords at h
    have ht : enc.tokens = enc'.tokens := by rw [k5, l5, h]
    rw [← ht] at l7
    exact ⟨k7.ids_eq hk l7, ht, by rw [k8, l8, h]⟩
  · have ht : enc.tokens = enc'.tokens := by rw [← k7.map_termFor hid, ← l7.map_termFor hid, h]
    have key : ∀ qs : List Rune, (∀ r ∈ qs, ValidRune r) → ∀ ts, unk ∉ ts →
        ts = (bertWords u c qs).flatMap (wordPieces (termOf es) WordPiece.tried unk (encodeRunes mk) max) →
        spellWords (encodeRunes mk) ts = (bertWords u c qs).map encodeRunes ∧ ∀ x ∈ bertWords u c qs, ∀ r ∈ x, ValidRune r := by
      intro qs hqs ts hts e
      have hval : ∀ x ∈ bertWords u c qs, ∀ r ∈ x, ValidRune r :=
        cutWords_valid _ _ _ _ _ (by simp) (bertText_valid u c qs hqs)
      have hsh := cutWords_shape isWhiteSpace u.isPunct (bertText u c qs) [] (by simp)
      subst e
      refine ⟨(spell_words rfl hmv hm2 hms _ hval hsh (Or.inr hts)).1.trans ?_, hval⟩
      refine List.map_congr_left fun x hx => ?_
      unfold readBack
      rw [if_neg]
      intro h
      exact hts (List.mem_flatMap.2 ⟨x, hx, by rw [h]; simp⟩)
    obtain ⟨a1, a2⟩ := key rs hrs _ hn k5
    obtain ⟨b1, b2⟩ := key rs' hrs' _ (by rw [← ht]; exact hn) l5
    rw [ht, b1] at a1
    exact (encoded_words_inj _ _ b2 a2 a1).symm

-- what is looked up is glued at the marks
example : spellWords b!"##" [b!"un", b!"##aff", b!"##able", b!"!", b!"世", b!"##é"] = [b!"unaffable", b!"!", b!"世é"]
    ∧ [1, 2, 3, 7, 5, 6].map (termFor bertTerms) = [b!"un", b!"##aff", b!"##able", b!"!", b!"世", b!"##é"]
    ∧ spellWords b!"##" ([100, 7, 1, 4].map (termFor bertTerms)) = [b!"[UNK]", b!"!", b!"una"] := by decide +kernel

-- the hypotheses hold of this vocabulary and the usual mark
example : (bertTerms.map (·.2)).Nodup ∧ (b!"##").isPrefixOf b!"[UNK]" = false ∧ runesOf b!"##" = [u!"#", u!"#"] := by decide +kernel

-- a mark of one rune can be a word: `a #` would read back as `a`
example : cutWords isWhiteSpace (fun r => r == u!"#") [] (runesOf b!"a #b") = [[u!"a"], [u!"#"], [u!"b"]]
    ∧ spellWords b!"#" [b!"a", b!"#", b!"b"] = [b!"a", b!"b"] := by decide +kernel

-- a mark of letters can begin a word
example : cutWords isWhiteSpace (fun r => r == u!"#") [] (runesOf b!"to xxy") = [runesOf b!"to", runesOf b!"xxy"]
    ∧ spellWords b!"xx" [b!"to", b!"xxy"] = [b!"toy"] := by decide +kernel

end Verif
