import Verif.Props.WordPiece

/-! What the WordPiece search does on every valid word, three-byte runes included (C37). -/

set_option autoImplicit false

namespace Verif
namespace WordPiece

/-- Whether the search that steps back from the end of the word looks at the boundary in front
of the runes `tl`.  It steps by one byte after a byte below 0x80 and by two bytes otherwise, so a
three-byte rune moves it on or off the boundaries, and a one-byte rune puts it back on them. -/
def tried : List Rune → Bool
  | [] => true
  | r :: tl => if runeLen r = 1 then true else if runeLen r = 3 then !tried tl else tried tl

/-- The longest run of runes at the front of `a` that is in the vocabulary, among those in front of a
boundary that is tried; `b` follows `a`. -/
def LongestTried (m : WordPiece) (pre a b : List Rune) (r : Option Token) : Prop :=
  (r = none ∧ ∀ hd tl, a = hd ++ tl → hd ≠ [] → tried (tl ++ b) = true → m.vocab.getID (m.key pre hd) = none)
  ∨ ∃ hd tl id, a = hd ++ tl ∧ hd ≠ [] ∧ tried (tl ++ b) = true ∧ m.vocab.getID (m.key pre hd) = some id
      ∧ r = some ⟨id, m.key pre hd, ⟨(encodeRunes pre).length, (encodeRunes (pre ++ hd)).length⟩⟩
      ∧ ∀ hd' tl', a = hd' ++ tl' → hd.length < hd'.length → tried (tl' ++ b) = true →
          m.vocab.getID (m.key pre hd') = none

theorem LongestTried.snoc {m : WordPiece} {pre a b : List Rune} {x : Rune} {r : Option Token}
    (h : LongestTried m pre a (x :: b) r)
    (hn : tried b = true → m.vocab.getID (m.key pre (a ++ [x])) = none) :
    LongestTried m pre (a ++ [x]) b r := by
  have key : ∀ hd tl, a ++ [x] = hd ++ tl → (hd = a ++ [x] ∧ tl = []) ∨ ∃ tl', tl = tl' ++ [x] ∧ a = hd ++ tl' := by
    intro hd tl e
    rcases List.eq_nil_or_concat tl with rfl | ⟨tl', y, rfl⟩
    · left; exact ⟨by simpa using e.symm, rfl⟩
    · right
      rw [List.concat_eq_append, ← List.append_assoc] at e
      obtain ⟨e1, e2⟩ := List.append_inj' e rfl
      simp at e2; subst e2
      exact ⟨tl', by simp, e1⟩
  rcases h with ⟨rfl, h⟩ | ⟨hd, tl, id, rfl, h2, ht, h3, h4, h5⟩
  · refine .inl ⟨rfl, ?_⟩
    intro hd tl e hne htr
    rcases key hd tl e with ⟨rfl, rfl⟩ | ⟨tl', rfl, rfl⟩
    · exact hn htr
    · exact h hd tl' rfl hne (by simpa using htr)
  · refine .inr ⟨hd, tl ++ [x], id, by simp, h2, by simpa using ht, h3, h4, ?_⟩
    intro hd' tl' e hl htr
    rcases key hd' tl' e with ⟨rfl, rfl⟩ | ⟨tl'', rfl, e'⟩
    · exact hn htr
    · exact h5 hd' tl'' e' hl (by simpa using htr)

/-- At a position inside a rune nothing is found and the search goes on. -/
theorem Inner.mid {m : WordPiece} (hval : m.vocab.AllValid) {pre a b : List Rune} {x : Rune} {w v : Str}
    (e : encodeRune x = w ++ v) (hw : w ≠ []) (hv : v ≠ []) {stop : Int} {r : Option Token}
    (hs : stop = ((encodeRunes pre).length + (encodeRunes a).length + w.length : Nat))
    (h : Inner m (encodeRunes (pre ++ (a ++ [x]) ++ b)) (encodeRunes pre).length stop r) :
    ∃ y, w.getLast? = some y
      ∧ Inner m (encodeRunes (pre ++ (a ++ [x]) ++ b)) (encodeRunes pre).length (stop - byteStringLen y) r := by
  have hp := m.piece_split (encodeRunes pre) (encodeRunes a ++ w) (v ++ encodeRunes b)
  rw [show encodeRunes pre ++ (encodeRunes a ++ w) ++ (v ++ encodeRunes b)
    = encodeRunes (pre ++ (a ++ [x]) ++ b) by
      simp only [encodeRunes_append, encodeRunes_cons, encodeRunes_nil, e]; simp] at hp
  rw [List.length_append, ← Nat.add_assoc] at hp
  have hpos : 0 < w.length := List.length_pos_iff.2 hw
  cases h with
  | stop h => omega
  | hit _ hg =>
    subst hs
    rw [Int.toNat_natCast, hp, ← List.append_assoc] at hg
    exact absurd (hval _ (by rw [hg]; simp)) (not_valid_mid e hw hv)
  | @step _ y _ _ _ hl hr =>
    refine ⟨y, ?_, hr⟩
    subst hs
    rw [Int.toNat_natCast, hp, ← List.append_assoc, List.getLast?_append] at hl
    cases hw' : w.getLast? with
    | none => exact absurd (List.getLast?_eq_none_iff.1 hw') hw
    | some z => rw [hw'] at hl; simpa using hl

theorem Inner.longestTried {m : WordPiece} (hval : m.vocab.AllValid) (pre : List Rune) (n : Nat) :
    ∀ (a b : List Rune), a.length = n → ∀ (stop : Int) (r : Option Token),
    stop = (encodeRunes pre).length + (encodeRunes a).length - (if tried b = true then 0 else 1) →
    Inner m (encodeRunes (pre ++ a ++ b)) (encodeRunes pre).length stop r → LongestTried m pre a b r := by
  induction n with
  | zero =>
    intro a b ha stop r hs h
    have : a = [] := List.length_eq_zero_iff.1 ha
    subst this
    have hs' : stop ≤ (encodeRunes pre).length := by simp at hs; split at hs <;> omega
    cases h with
    | stop => exact .inl ⟨rfl, by intro hd tl e hne; simp at e; exact absurd e.1 hne⟩
    | hit h => omega
    | step h => omega
  | succ n ih =>
    intro a b ha stop r hs h
    rcases List.eq_nil_or_concat a with rfl | ⟨a', x, rfl⟩
    · simp at ha
    · rw [List.concat_eq_append] at *
      have hla : (encodeRunes (a' ++ [x])).length = (encodeRunes a').length + (encodeRune x).length := by
        simp [encodeRunes]
      have e2 : pre ++ (a' ++ [x]) ++ b = pre ++ a' ++ (x :: b) := by simp
      have hx := encodeRune_length_pos x
      -- arriving at or just before the boundary in front of `x`
      have cont : ∀ (st : Int), st = (encodeRunes pre).length + (encodeRunes a').length - (if tried (x :: b) = true then 0 else 1) →
          (tried b = true → m.vocab.getID (m.key pre (a' ++ [x])) = none) →
          Inner m (encodeRunes (pre ++ (a' ++ [x]) ++ b)) (encodeRunes pre).length st r →
          LongestTried m pre (a' ++ [x]) b r := by
        intro st hst hg hr
        rw [e2] at hr
        exact LongestTried.snoc (ih a' (x :: b) (by simpa using ha) st r hst hr) hg
      by_cases hb : tried b = true
      · rw [if_pos hb] at hs
        have hst : stop = ((encodeRunes (pre ++ (a' ++ [x]))).length : Nat) := by
          rw [encodeRunes_append, List.length_append, hs]; push_cast; omega
        have hpk := m.piece_key pre (a' ++ [x]) b
        cases h with
        | stop h => omega
        | @hit _ id h hg =>
          subst hst
          simp only [Int.toNat_natCast] at hg ⊢
          rw [hpk] at hg ⊢
          refine .inr ⟨a' ++ [x], [], id, by simp, by simp, by simpa using hb, hg, rfl, ?_⟩
          intro hd' tl' e hl
          have := congrArg List.length e
          simp at this hl; omega
        | @step _ y _ h hg hy hr =>
          have hg' : m.vocab.getID (m.key pre (a' ++ [x])) = none := by
            rw [hst, Int.toNat_natCast, hpk] at hg; exact hg
          have hys : (encodeRune x).getLast? = some y := by
            rw [hst, Int.toNat_natCast, hpk] at hy
            unfold key at hy
            rw [encodeRunes_append, ← List.append_assoc, List.getLast?_append] at hy
            have : encodeRunes [x] = encodeRune x := by simp [encodeRunes]
            rw [this] at hy
            cases hl : (encodeRune x).getLast? with
            | none => exact absurd (List.getLast?_eq_none_iff.1 hl) (encodeRune_ne_nil x)
            | some z => rw [hl] at hy; exact hy
          rcases encodeRune_shape x with ⟨c0, e, g⟩ | ⟨c0, c1, e, g3, g4, g5⟩ | ⟨c0, c1, c2, e, g3, g4, g5, g6⟩
            | ⟨c0, c1, c2, c3, e, g3, g5, g6, g7⟩
          · rw [e] at hys hla
            simp at hys; subst hys
            simp only [List.length_cons, List.length_nil] at hla
            rw [byteStringLen_ascii g] at hr
            refine cont _ ?_ (fun _ => hg') hr
            simp only [tried, runeLen, e, List.length_cons, List.length_nil]
            simp; omega
          · rw [e] at hys hla
            simp at hys; subst hys
            simp only [List.length_cons, List.length_nil] at hla
            rw [byteStringLen_high (isCont_range g5).1] at hr
            refine cont _ ?_ (fun _ => hg') hr
            simp only [tried, runeLen, e, List.length_cons, List.length_nil, hb]
            simp; omega
          · rw [e] at hys hla
            simp at hys; subst hys
            simp only [List.length_cons, List.length_nil] at hla
            rw [byteStringLen_high (isCont_range g6).1] at hr
            obtain ⟨y, hy1, hr2⟩ := Inner.mid hval (w := [c0]) (v := [c1, c2]) (by rw [e]; rfl) (by simp) (by simp)
              (by simp; omega) hr
            simp at hy1; subst hy1
            rw [byteStringLen_high (by omega)] at hr2
            refine cont _ ?_ (fun _ => hg') hr2
            simp only [tried, runeLen, e, List.length_cons, List.length_nil, hb]
            simp; omega
          · rw [e] at hys hla
            simp at hys; subst hys
            simp only [List.length_cons, List.length_nil] at hla
            rw [byteStringLen_high (isCont_range g7).1] at hr
            obtain ⟨y, hy1, hr2⟩ := Inner.mid hval (w := [c0, c1]) (v := [c2, c3]) (by rw [e]; rfl) (by simp) (by simp)
              (by simp; omega) hr
            simp at hy1; subst hy1
            rw [byteStringLen_high (isCont_range g5).1] at hr2
            refine cont _ ?_ (fun _ => hg') hr2
            simp only [tried, runeLen, e, List.length_cons, List.length_nil, hb]
            simp; omega
      · rw [if_neg hb] at hs
        have hg' : tried b = true → m.vocab.getID (m.key pre (a' ++ [x])) = none := fun h => absurd h hb
        have hb' : tried b = false := by simpa using hb
        rcases encodeRune_shape x with ⟨c0, e, g⟩ | ⟨c0, c1, e, g3, g4, g5⟩ | ⟨c0, c1, c2, e, g3, g4, g5, g6⟩
          | ⟨c0, c1, c2, c3, e, g3, g5, g6, g7⟩
        · rw [e] at hla
          refine cont _ ?_ hg' h
          simp only [tried, runeLen, e, List.length_cons, List.length_nil]
          simp only [List.length_cons, List.length_nil] at hla
          simp; omega
        · rw [e] at hla
          simp only [List.length_cons, List.length_nil] at hla
          obtain ⟨y, hy1, hr2⟩ := Inner.mid hval (w := [c0]) (v := [c1]) (by rw [e]; rfl) (by simp) (by simp)
            (by simp; omega) h
          simp at hy1; subst hy1
          rw [byteStringLen_high (by omega)] at hr2
          refine cont _ ?_ hg' hr2
          simp only [tried, runeLen, e, List.length_cons, List.length_nil, hb']
          simp; omega
        · rw [e] at hla
          simp only [List.length_cons, List.length_nil] at hla
          obtain ⟨y, hy1, hr2⟩ := Inner.mid hval (w := [c0, c1]) (v := [c2]) (by rw [e]; rfl) (by simp) (by simp)
            (by simp; omega) h
          simp at hy1; subst hy1
          rw [byteStringLen_high (isCont_range g5).1] at hr2
          refine cont _ ?_ hg' hr2
          simp only [tried, runeLen, e, List.length_cons, List.length_nil, hb']
          simp; omega
        · rw [e] at hla
          simp only [List.length_cons, List.length_nil] at hla
          obtain ⟨y, hy1, hr2⟩ := Inner.mid hval (w := [c0, c1, c2]) (v := [c3]) (by rw [e]; rfl) (by simp) (by simp)
            (by simp; omega) h
          simp at hy1; subst hy1
          rw [byteStringLen_high (isCont_range g6).1] at hr2
          obtain ⟨y, hy1, hr3⟩ := Inner.mid hval (w := [c0]) (v := [c1, c2, c3]) (by rw [e]; rfl) (by simp) (by simp)
            (by simp; omega) hr2
          simp at hy1; subst hy1
          rw [byteStringLen_high (by omega)] at hr3
          refine cont _ ?_ hg' hr3
          simp only [tried, runeLen, e, List.length_cons, List.length_nil, hb']
          simp; omega

/-! ## What the code computes -/

/-- The longest-match-first segmentation among the boundaries that are tried. -/
inductive GreedyTried (m : WordPiece) : List Rune → List Rune → List Token → Prop
  | nil {pre : List Rune} : GreedyTried m pre [] []
  | cons {pre hd tl : List Rune} {id : Int} {ts : List Token} : hd ≠ [] → tried tl = true →
      m.vocab.getID (m.key pre hd) = some id →
      (∀ hd' tl', hd ++ tl = hd' ++ tl' → hd.length < hd'.length → tried tl' = true →
        m.vocab.getID (m.key pre hd') = none) →
      GreedyTried m (pre ++ hd) tl ts →
      GreedyTried m pre (hd ++ tl)
        (⟨id, m.key pre hd, ⟨(encodeRunes pre).length, (encodeRunes (pre ++ hd)).length⟩⟩ :: ts)

/-- That segmentation reaches a position where nothing is found. -/
inductive StuckTried (m : WordPiece) : List Rune → List Rune → Prop
  | here {pre rest : List Rune} : rest ≠ [] →
      (∀ hd tl, rest = hd ++ tl → hd ≠ [] → tried tl = true → m.vocab.getID (m.key pre hd) = none) →
      StuckTried m pre rest
  | later {pre hd tl : List Rune} {id : Int} : hd ≠ [] → tried tl = true → m.vocab.getID (m.key pre hd) = some id →
      (∀ hd' tl', hd ++ tl = hd' ++ tl' → hd.length < hd'.length → tried tl' = true →
        m.vocab.getID (m.key pre hd') = none) →
      StuckTried m (pre ++ hd) tl → StuckTried m pre (hd ++ tl)

theorem Outer.greedyTried {m : WordPiece} (hval : m.vocab.AllValid) {s : Str} {start : Nat} {r : Option (List Token)}
    (h : Outer m s start r) (pre rest : List Rune) (hs : s = encodeRunes (pre ++ rest))
    (hst : start = (encodeRunes pre).length) :
    match r with
    | some ts => GreedyTried m pre rest ts
    | none => StuckTried m pre rest := by
  have hlen : ∀ (pre rest : List Rune), (((encodeRunes (pre ++ rest)).length : Nat) : Int)
      = (encodeRunes pre).length + (encodeRunes rest).length - (if tried [] = true then 0 else 1) := by
    intro pre rest
    rw [encodeRunes_append, List.length_append]
    simp [tried]
  induction h generalizing pre rest with
  | @done start h =>
    subst hs hst
    have : rest = [] := by
      rw [encodeRunes_append, List.length_append] at h
      have := length_le_encodeRunes rest
      exact List.length_eq_zero_iff.1 (by omega)
    subst this
    exact .nil
  | @bad start h hi =>
    subst hs hst
    have hl := Inner.longestTried hval pre rest.length rest [] rfl _ _ (hlen _ _) (by simpa using hi)
    rcases hl with ⟨-, hn⟩ | ⟨hd, tl, id, -, -, -, -, he, -⟩
    · refine .here ?_ (fun hd tl e hne ht => hn hd tl e hne (by simpa using ht))
      rintro rfl
      simp at h
    · simp at he
  | @token start t r h hi ho ih =>
    subst hs hst
    have hl := Inner.longestTried hval pre rest.length rest [] rfl _ _ (hlen _ _) (by simpa using hi)
    rcases hl with ⟨he, -⟩ | ⟨hd, tl, id, rfl, h1, ht, h2, he, h4⟩
    · simp at he
    · injection he with he
      subst he
      have := ih (pre ++ hd) tl (by simp) (Int.toNat_natCast _)
      have h4' : ∀ hd' tl', hd ++ tl = hd' ++ tl' → hd.length < hd'.length → tried tl' = true →
          m.vocab.getID (m.key pre hd') = none := fun hd' tl' e hl ht => h4 hd' tl' e hl (by simpa using ht)
      cases r with
      | none => exact .later h1 (by simpa using ht) h2 h4' this
      | some ts => exact .cons h1 (by simpa using ht) h2 h4' this

end WordPiece

open WordPiece in
/-- **C37, exactly.** For every vocabulary of valid UTF-8 terms and every valid word within the limit:
the tokens are the longest-match-first segmentation among the boundaries the search tries, or that
segmentation gets stuck and the result is the unknown token. -/
theorem C37_exact (m : WordPiece) (hval : m.vocab.AllValid) (rs : List Rune)
    (hv : ∀ r ∈ rs, ValidRune r) (hl : (rs.length : Int) ≤ m.maxInputCharsPerWord) :
    (∃ ts, m.tokenize (encodeRunes rs) = .ok ts ∧ GreedyTried m [] rs ts)
    ∨ (m.tokenize (encodeRunes rs) = m.unknown (encodeRunes rs) ∧ StuckTried m [] rs) := by
  rcases tokenize_cases m (encodeRunes rs) with ⟨h, -⟩ | ⟨-, ho, h⟩ | ⟨-, ts, ho, h⟩
  · rw [runesOf_encodeRunes rs hv] at h; omega
  · exact .inr ⟨h, ho.greedyTried hval [] rs (by simp) (by simp)⟩
  · exact .inl ⟨ts, h, ho.greedyTried hval [] rs (by simp) (by simp)⟩

open WordPiece in
/-- The two outcomes exclude each other and the segmentation is unique. -/
theorem C37_exact_unique (m : WordPiece) {pre rs : List Rune} {ts : List Token} (h : GreedyTried m pre rs ts) :
    (∀ ts', GreedyTried m pre rs ts' → ts' = ts) ∧ ¬StuckTried m pre rs := by
  have same : ∀ {pre hd tl hd' tl' : List Rune} {id id' : Int}, hd ++ tl = hd' ++ tl' →
      tried tl = true → tried tl' = true →
      m.vocab.getID (m.key pre hd) = some id → m.vocab.getID (m.key pre hd') = some id' →
      (∀ a b, hd ++ tl = a ++ b → hd.length < a.length → tried b = true → m.vocab.getID (m.key pre a) = none) →
      (∀ a b, hd' ++ tl' = a ++ b → hd'.length < a.length → tried b = true → m.vocab.getID (m.key pre a) = none) →
      hd = hd' ∧ tl = tl' := by
    intro pre hd tl hd' tl' id id' e t1 t2 h1 h2 l1 l2
    have hlen : hd.length = hd'.length := by
      rcases Nat.lt_trichotomy hd.length hd'.length with h | h | h
      · rw [l1 hd' tl' e h t2] at h2; simp at h2
      · exact h
      · rw [l2 hd tl e.symm h t1] at h1; simp at h1
    exact List.append_inj e hlen
  induction h with
  | nil =>
    refine ⟨?_, ?_⟩
    · intro ts' h'
      generalize hr : ([] : List Rune) = rest at h'
      cases h' with
      | nil => rfl
      | cons hne => exact absurd (List.append_eq_nil_iff.1 hr.symm).1 hne
    · intro h'
      generalize hr : ([] : List Rune) = rest at h'
      cases h' with
      | here hne => exact hne hr.symm
      | later hne => exact hne (List.append_eq_nil_iff.1 hr.symm).1
  | @cons pre hd tl id ts hne ht hk hlong hg ih =>
    refine ⟨?_, ?_⟩
    · intro ts' h'
      generalize hr : hd ++ tl = rest at h'
      cases h' with
      | nil => exact absurd (List.append_eq_nil_iff.1 hr).1 hne
      | cons hne' ht' hk' hlong' hg' =>
        obtain ⟨rfl, rfl⟩ := same hr ht ht' hk hk' hlong hlong'
        rw [hk] at hk'; simp at hk'; subst hk'
        rw [ih.1 _ hg']
    · intro h'
      generalize hr : hd ++ tl = rest at h'
      cases h' with
      | here hne' hall => subst hr; rw [hall hd tl rfl hne ht] at hk; simp at hk
      | later hne' ht' hk' hlong' hg' =>
        obtain ⟨rfl, rfl⟩ := same hr ht ht' hk hk' hlong hlong'
        exact ih.2 hg'

open WordPiece in
/-- A boundary is tried exactly if an even number of three-byte runes stands between it and the next
one-byte rune, or the end. -/
theorem C37_tried (tl : List Rune) :
    tried tl = true ↔ ((tl.takeWhile fun r => runeLen r != 1).filter fun r => runeLen r == 3).length % 2 = 0 := by
  induction tl with
  | nil => simp [tried]
  | cons r tl ih =>
    unfold tried
    by_cases h1 : runeLen r = 1
    · simp [h1]
    · by_cases h3 : runeLen r = 3
      · have hf : (tried tl = false) ↔ ¬ (tried tl = true) := by simp
        simp only [h3, List.takeWhile_cons]
        simp only [show ((3 : Nat) = 1) = False by simp, if_false, if_true, Bool.not_eq_true', hf, ih]
        simp [h3]; omega
      · simp only [h1, h3, if_false, ih, List.takeWhile_cons]
        simp [h1, h3]

/-- In "世界中a" the boundaries after "世" and "世界中" are tried, the one after "世界" is not: with all four
characters in the vocabulary the word is unknown, with "##界中" it is found. -/
example : WordPiece.tried [u!"界", u!"中", u!"a"] = true ∧ WordPiece.tried [u!"中", u!"a"] = false
    ∧ WordPiece.tried [u!"a"] = true := by decide +kernel
example :
    let m : WordPiece := ⟨Vocab.fromJSON (some [(b!"[UNK]", 0), (b!"世", 1), (b!"##界", 2), (b!"##中", 3), (b!"##a", 4)]) [],
      b!"[UNK]", b!"##", 100⟩
    m.tokenize b!"世界中a" = .ok [⟨0, b!"[UNK]", ⟨0, 10⟩⟩] := by decide +kernel
example :
    let m : WordPiece := ⟨Vocab.fromJSON (some [(b!"[UNK]", 0), (b!"世", 1), (b!"##界", 2), (b!"##界中", 3), (b!"##a", 4)]) [],
      b!"[UNK]", b!"##", 100⟩
    m.tokenize b!"世界中a" = .ok [⟨1, b!"世", ⟨0, 3⟩⟩, ⟨3, b!"##界中", ⟨3, 9⟩⟩, ⟨4, b!"##a", ⟨9, 10⟩⟩] := by decide +kernel

end Verif
