import Verif.Lemmas.Utf8
import Verif.Model.WordPiece
import Verif.Model.Notation

/-! Properties C36 and C37: the WordPiece model. -/

set_option autoImplicit false

namespace Verif

namespace WordPiece

/-! ## Specification -/

/-- What is looked up for `sequence[start:stop]`. -/
def piece (m : WordPiece) (s : Str) (start stop : Nat) : Str :=
  (if start = 0 then [] else m.continuingSubwordPrefix) ++ (s.drop start).take (stop - start)

/-- `ts` are tokens with contiguous non-empty offsets from `start` to the end, each with its
text (prefixed unless at the very start) and that text's id. -/
def Tiles (m : WordPiece) (s : Str) : Nat → List Token → Prop
  | start, [] => start = s.length
  | start, t :: ts => ∃ stop : Nat, t.offsets = ⟨start, stop⟩ ∧ start < stop ∧ stop ≤ s.length
      ∧ t.value = m.piece s start stop ∧ m.vocab.getID t.value = some t.id ∧ Tiles m s stop ts

/-- The single unknown token. -/
def IsUnknown (m : WordPiece) (s : Str) (ts : List Token) : Prop :=
  ∃ id, m.vocab.getID m.unknownToken = some id ∧ ts = [⟨id, m.unknownToken, ⟨0, s.length⟩⟩]

/-! ## The loops as relations, without fuel -/

theorem subStr_eq (m : WordPiece) (s : Str) (start stop : Nat) : m.subStr s start stop = m.piece s start stop := by
  unfold subStr piece
  by_cases h : start = 0
  · simp [h]
  · simp [h, Nat.pos_of_ne_zero h]

/-- The inner loop as a relation: one constructor per way through the body. -/
inductive Inner (m : WordPiece) (s : Str) (start : Nat) : Int → Option Token → Prop
  | stop {stop : Int} : ¬(start : Int) < stop → Inner m s start stop none
  | hit {stop : Int} {id : Int} : (start : Int) < stop → m.vocab.getID (m.piece s start stop.toNat) = some id →
      Inner m s start stop (some ⟨id, m.piece s start stop.toNat, ⟨start, stop⟩⟩)
  | step {stop : Int} {b : UInt8} {r : Option Token} : (start : Int) < stop →
      m.vocab.getID (m.piece s start stop.toNat) = none → (m.piece s start stop.toNat).getLast? = some b →
      Inner m s start (stop - byteStringLen b) r → Inner m s start stop r

/-- The outer loop as a relation; `none` is `isBad`. -/
inductive Outer (m : WordPiece) (s : Str) : Nat → Option (List Token) → Prop
  | done {start : Nat} : ¬start < s.length → Outer m s start (some [])
  | bad {start : Nat} : start < s.length → Inner m s start s.length none → Outer m s start none
  | token {start : Nat} {t : Token} {r : Option (List Token)} : start < s.length →
      Inner m s start s.length (some t) → Outer m s t.offsets.stop.toNat r →
      Outer m s start (r.map fun ts => t :: ts)

theorem byteStringLen_pos (b : UInt8) : 1 ≤ byteStringLen b := encodeRune_length_pos _

theorem piece_last {m : WordPiece} {s : Str} {start stop : Nat} (h : start < stop) (hl : stop ≤ s.length) :
    (m.piece s start stop).getLast? = s[stop - 1]? := by
  have hn : ((s.drop start).take (stop - start)).getLast? = s[stop - 1]? := by
    rw [List.getLast?_eq_getElem?]
    simp only [List.length_take, List.length_drop]
    rw [show min (stop - start) (s.length - start) - 1 = stop - start - 1 by omega]
    rw [List.getElem?_take_of_lt (by omega), List.getElem?_drop]
    congr 1; omega
  unfold piece
  rw [List.getLast?_append, hn]
  rw [List.getElem?_eq_getElem (by omega)]
  rfl

theorem findToken_inner (m : WordPiece) (s : Str) (start fuel : Nat) (stop : Int)
    (hf : stop ≤ start + fuel) (hl : stop ≤ s.length) :
    Inner m s start stop (m.findToken s start fuel stop) := by
  induction fuel generalizing stop with
  | zero => exact .stop (by omega)
  | succ fuel ih =>
    simp only [findToken]
    by_cases h : (start : Int) < stop
    · rw [if_pos h, subStr_eq]
      cases hg : m.vocab.getID (m.piece s start stop.toNat) with
      | some id => exact .hit h hg
      | none =>
        simp only
        have hla := piece_last (m := m) (s := s) (start := start) (stop := stop.toNat) (by omega) (by omega)
        rw [List.getElem?_eq_getElem (by omega)] at hla
        rw [hla]
        have := byteStringLen_pos s[stop.toNat - 1]
        exact .step h hg hla (ih _ (by omega) (by omega))
    · rw [if_neg h]; exact .stop h

theorem Inner.sound {m : WordPiece} {s : Str} {start : Nat} {stop : Int} {r : Option Token}
    (h : Inner m s start stop r) (t : Token) (ht : r = some t) :
    ∃ e : Nat, t.offsets = ⟨start, e⟩ ∧ start < e ∧ (e : Int) ≤ stop
      ∧ t.value = m.piece s start e ∧ m.vocab.getID t.value = some t.id := by
  induction h with
  | stop => simp at ht
  | @hit stop id h hg =>
    simp at ht; subst ht
    exact ⟨stop.toNat, by simp; omega, by omega, by omega, rfl, hg⟩
  | @step stop b r h hg hb hr ih =>
    obtain ⟨e, h1, h2, h3, h4⟩ := ih ht
    have := byteStringLen_pos b
    exact ⟨e, h1, h2, by omega, h4⟩

theorem tokenLoop_outer (m : WordPiece) (s : Str) (fuel start : Nat) (hf : s.length ≤ start + fuel) :
    Outer m s start (m.tokenLoop s fuel start) := by
  induction fuel generalizing start with
  | zero =>
    unfold tokenLoop
    rw [if_neg (by omega)]
    exact .done (by omega)
  | succ fuel ih =>
    unfold tokenLoop
    by_cases h : start < s.length
    · rw [if_pos h]
      have hi := findToken_inner m s start s.length s.length (by omega) (by omega)
      cases ht : m.findToken s start s.length s.length with
      | none => rw [ht] at hi; exact .bad h hi
      | some t =>
        rw [ht] at hi
        simp only
        obtain ⟨e, h1, h2, h3, -⟩ := hi.sound t rfl
        have := ih t.offsets.stop.toNat (by rw [h1]; simp; omega)
        have := Outer.token h hi this
        cases hr : m.tokenLoop s fuel t.offsets.stop.toNat with
        | none => rw [hr] at this; exact this
        | some ts => rw [hr] at this; exact this
    · rw [if_neg h]; exact .done h

theorem Inner.det {m : WordPiece} {s : Str} {start : Nat} {stop : Int} {r r' : Option Token}
    (h : Inner m s start stop r) (h' : Inner m s start stop r') : r = r' := by
  induction h with
  | stop h =>
    cases h' with
    | stop => rfl
    | hit g => exact absurd g h
    | step g => exact absurd g h
  | hit h hg =>
    cases h' with
    | stop g => exact absurd h g
    | hit g gg => rw [hg] at gg; simp at gg; subst gg; rfl
    | step g gg => rw [hg] at gg; simp at gg
  | step h hg hb hr ih =>
    cases h' with
    | stop g => exact absurd h g
    | hit g gg => rw [hg] at gg; simp at gg
    | step g gg gb gr => rw [hb] at gb; simp at gb; subst gb; exact ih gr

theorem Outer.det {m : WordPiece} {s : Str} {start : Nat} {r r' : Option (List Token)}
    (h : Outer m s start r) (h' : Outer m s start r') : r = r' := by
  induction h generalizing r' with
  | done h =>
    cases h' with
    | done => rfl
    | bad g => exact absurd g h
    | token g => exact absurd g h
  | bad h hi =>
    cases h' with
    | done g => exact absurd h g
    | bad => rfl
    | token g gi => have := hi.det gi; simp at this
  | token h hi ho ih =>
    cases h' with
    | done g => exact absurd h g
    | bad g gi => have := hi.det gi; simp at this
    | token g gi go =>
      have := hi.det gi
      simp at this; subst this
      rw [ih go]

theorem Outer.tiles {m : WordPiece} {s : Str} {start : Nat} {r : Option (List Token)}
    (h : Outer m s start r) (hs : start ≤ s.length) (ts : List Token) (ht : r = some ts) :
    Tiles m s start ts := by
  induction h generalizing ts with
  | done h => simp at ht; subst ht; simp only [Tiles]; omega
  | bad => simp at ht
  | @token start t r h hi ho ih =>
    cases r with
    | none => simp at ht
    | some ts' =>
      simp at ht; subst ht
      obtain ⟨e, h1, h2, h3, h4, h5⟩ := hi.sound t rfl
      rw [h1] at ih
      simp at ih
      exact ⟨e, h1, h2, by omega, h4, h5, ih (by omega)⟩

/-- Text and ids of one greedy run, and where it got stuck. -/
theorem tokenize_cases (m : WordPiece) (s : Str) :
    (((runesOf s).length : Int) > m.maxInputCharsPerWord ∧ m.tokenize s = m.unknown s)
    ∨ (((runesOf s).length : Int) ≤ m.maxInputCharsPerWord ∧ Outer m s 0 none ∧ m.tokenize s = m.unknown s)
    ∨ (((runesOf s).length : Int) ≤ m.maxInputCharsPerWord ∧ ∃ ts, Outer m s 0 (some ts) ∧ m.tokenize s = .ok ts) := by
  unfold tokenize
  by_cases h : ((runesOf s).length : Int) > m.maxInputCharsPerWord
  · exact .inl ⟨h, by rw [if_pos h]⟩
  · right
    rw [if_neg h]
    have ho := tokenLoop_outer m s s.length 0 (by omega)
    cases hr : m.tokenLoop s s.length 0 with
    | none => rw [hr] at ho; exact .inl ⟨by omega, ho, rfl⟩
    | some ts => rw [hr] at ho; exact .inr ⟨by omega, ts, ho, rfl⟩

end WordPiece

open WordPiece in
/-- **C36, termination.** The two loops of `Tokenize`, written as fuel-free relations, always
have exactly one outcome, and it is the one `Tokenize` uses. -/
theorem C36_terminates (m : WordPiece) (s : Str) :
    (∃ r, Outer m s 0 r ∧ ∀ r', Outer m s 0 r' → r' = r)
    ∧ ∀ r, Outer m s 0 r → ((runesOf s).length : Int) ≤ m.maxInputCharsPerWord →
        m.tokenize s = match r with
          | some ts => .ok ts
          | none => m.unknown s := by
  refine ⟨⟨_, tokenLoop_outer m s s.length 0 (by omega), fun r' h' =>
    h'.det (tokenLoop_outer m s s.length 0 (by omega))⟩, ?_⟩
  intro r hr hl
  rcases tokenize_cases m s with ⟨h, -⟩ | ⟨-, ho, h⟩ | ⟨-, ts, ho, h⟩
  · omega
  · rw [hr.det ho]; exact h
  · rw [hr.det ho]; exact h

open WordPiece in
/-- **C36.** For every vocabulary, prefix, limit and byte string: a successful `Tokenize`
returns one unknown token over the whole sequence, or tokens that tile it with the right
values and ids; a sequence over the limit gives the unknown token; the only error is
"unknown token out of vocabulary", and only when the unknown token is missing. -/
theorem C36_tiles (m : WordPiece) (s : Str) :
    (∀ ts, m.tokenize s = .ok ts → IsUnknown m s ts
      ∨ (((runesOf s).length : Int) ≤ m.maxInputCharsPerWord ∧ Tiles m s 0 ts))
    ∧ (∀ e, m.tokenize s = .error e → e = .unkOutOfVocab ∧ m.vocab.getID m.unknownToken = none
        ∧ (((runesOf s).length : Int) > m.maxInputCharsPerWord ∨ Outer m s 0 none))
    ∧ (m.vocab.getID m.unknownToken = none →
        (((runesOf s).length : Int) > m.maxInputCharsPerWord ∨ Outer m s 0 none) →
        m.tokenize s = .error .unkOutOfVocab) := by
  have hu : ∀ ts, m.unknown s = .ok ts → IsUnknown m s ts := by
    intro ts h
    unfold unknown at h
    cases hg : m.vocab.getID m.unknownToken with
    | none => rw [hg] at h; simp at h
    | some id => rw [hg] at h; simp at h; exact ⟨id, hg, h.symm⟩
  have hue : ∀ e, m.unknown s = .error e → e = .unkOutOfVocab ∧ m.vocab.getID m.unknownToken = none := by
    intro e h
    unfold unknown at h
    cases hg : m.vocab.getID m.unknownToken with
    | none => rw [hg] at h; simp at h; exact ⟨h.symm, rfl⟩
    | some id => rw [hg] at h; simp at h
  have hun : m.vocab.getID m.unknownToken = none → m.unknown s = .error .unkOutOfVocab := by
    intro h; simp [unknown, h]
  rcases tokenize_cases m s with ⟨h1, h2⟩ | ⟨h1, h2, h3⟩ | ⟨h1, ts, h2, h3⟩
  · rw [h2]
    exact ⟨fun ts h => .inl (hu ts h), fun e h => ⟨(hue e h).1, (hue e h).2, .inl h1⟩, fun h _ => hun h⟩
  · rw [h3]
    exact ⟨fun ts h => .inl (hu ts h), fun e h => ⟨(hue e h).1, (hue e h).2, .inr h2⟩, fun h _ => hun h⟩
  · rw [h3]
    refine ⟨?_, by intro e h; simp at h, ?_⟩
    · intro ts' h
      simp at h; subst h
      exact .inr ⟨h1, h2.tiles (by omega) ts rfl⟩
    · rintro - (h | h)
      · omega
      · have := h.det h2; simp at this

/-! ## Whole runes -/

/-- All terms of the vocabulary are valid UTF-8 (as after loading from JSON). -/
def Vocab.AllValid (v : Vocab) : Prop := ∀ t, v.getID t ≠ none → ValidUtf8 t

theorem encodeNat_four {c : Nat} : (encodeNat c).length = 4 ↔ 0x10000 ≤ c := by
  unfold encodeNat
  split
  · simp; omega
  · split
    · simp; omega
    · split
      · simp; omega
      · simp; omega

/-- Byte classes. -/
theorem encodeRune_shape (r : Rune) :
    (∃ a, encodeRune r = [a] ∧ a.toNat < 0x80)
    ∨ (∃ a b, encodeRune r = [a, b] ∧ 0xC0 ≤ a.toNat ∧ a.toNat < 0xE0 ∧ isCont b = true)
    ∨ (∃ a b c, encodeRune r = [a, b, c] ∧ 0xE0 ≤ a.toNat ∧ a.toNat < 0xF0 ∧ isCont b = true ∧ isCont c = true)
    ∨ (∃ a b c d, encodeRune r = [a, b, c, d] ∧ 0xF0 ≤ a.toNat ∧ isCont b = true ∧ isCont c = true ∧ isCont d = true) := by
  have hv := sanitize_valid r
  have hlt : (sanitize r).toNat < 0x110000 := by rcases hv with h | h <;> omega
  unfold encodeRune
  generalize (sanitize r).toNat = c at hlt
  unfold encodeNat
  have cont : ∀ n : Nat, isCont (UInt8.ofNat (0x80 + n % 64)) = true := by
    intro n
    unfold isCont
    simp only [UInt8.toNat_ofNat', Bool.and_eq_true, decide_eq_true_eq]
    omega
  split
  · left; exact ⟨_, rfl, by simp only [UInt8.toNat_ofNat']; omega⟩
  · split
    · right; left
      exact ⟨_, _, rfl, by simp only [UInt8.toNat_ofNat']; omega, by simp only [UInt8.toNat_ofNat']; omega, cont _⟩
    · split
      · right; right; left
        exact ⟨_, _, _, rfl, by simp only [UInt8.toNat_ofNat']; omega, by simp only [UInt8.toNat_ofNat']; omega, cont _, cont _⟩
      · right; right; right
        exact ⟨_, _, _, _, rfl, by simp only [UInt8.toNat_ofNat']; omega, cont _, cont _, cont _⟩

theorem isCont_range {b : UInt8} (h : isCont b = true) : 0x80 ≤ b.toNat ∧ b.toNat ≤ 0xBF := by
  unfold isCont at h
  simp only [Bool.and_eq_true, decide_eq_true_eq] at h
  exact h

theorem byteStringLen_ascii {b : UInt8} (h : b.toNat < 0x80) : WordPiece.byteStringLen b = 1 := by
  show runeLen (b.toNat : Int) = 1
  rw [runeLen_eq_one]
  omega

theorem byteStringLen_high {b : UInt8} (h : 0x80 ≤ b.toNat) : WordPiece.byteStringLen b = 2 := by
  have hb := b.toNat_lt
  have hs : sanitize (b.toNat : Int) = (b.toNat : Int) := sanitize_of_valid (.inl ⟨by omega, by omega⟩)
  have : ∀ c : Nat, ¬c < 0x80 → c < 0x800 → (encodeNat c).length = 2 := by
    intro c h1 h2
    unfold encodeNat
    rw [if_neg h1, if_pos h2]
    rfl
  unfold WordPiece.byteStringLen encodeRune
  rw [hs]
  exact this _ (by omega) (by omega)

/-- A string that ends inside a rune is not valid UTF-8, whatever precedes. -/
theorem not_valid_mid {u w v : Str} {r : Rune} (he : encodeRune r = w ++ v) (hw : w ≠ []) (hv : v ≠ []) :
    ¬ValidUtf8 (u ++ w) := by
  rintro ⟨xs, -, hx⟩
  rcases List.eq_nil_or_concat xs with rfl | ⟨ys, q, rfl⟩
  · simp at hx; exact hw hx.2
  · rw [List.concat_eq_append, encodeRunes_append] at hx
    have hq : encodeRunes [q] = encodeRune q := by simp [encodeRunes]
    rw [hq] at hx
    -- compare the last bytes
    have hrev := congrArg List.reverse hx
    simp only [List.reverse_append] at hrev
    have h1 := encodeRune_shape q
    have h2 := encodeRune_shape r
    cases w with
    | nil => exact hw rfl
    | cons w0 w =>
    cases v with
    | nil => exact hv rfl
    | cons v0 v =>
    rcases h2 with ⟨a, e, -⟩ | ⟨a, b, e, h3, h4, h5⟩ | ⟨a, b, c, e, h3, h4, h5, h6⟩ | ⟨a, b, c, d, e, h3, h5, h6, h7⟩
    · rw [he] at e; simp at e
    · rw [he] at e
      cases w with
      | cons w1 w => simp at e
      | nil =>
        simp at e
        obtain ⟨rfl, rfl, rfl⟩ := e
        rcases h1 with ⟨x, e, g⟩ | ⟨x, y, e, g3, g4, g5⟩ | ⟨x, y, z, e, g3, g4, g5, g6⟩ | ⟨x, y, z, t, e, g3, g5, g6, g7⟩ <;>
          (rw [e] at hrev; simp at hrev; obtain ⟨rfl, -⟩ := hrev; simp only [isCont, Bool.and_eq_true, decide_eq_true_eq] at *; omega)
    · rw [he] at e
      cases w with
      | nil =>
        simp at e
        obtain ⟨rfl, e⟩ := e
        clear e
        rcases h1 with ⟨x, e, g⟩ | ⟨x, y, e, g3, g4, g5⟩ | ⟨x, y, z, e, g3, g4, g5, g6⟩ | ⟨x, y, z, t, e, g3, g5, g6, g7⟩ <;>
          (rw [e] at hrev; simp at hrev; obtain ⟨rfl, -⟩ := hrev; simp only [isCont, Bool.and_eq_true, decide_eq_true_eq] at *; omega)
      | cons w1 w =>
      cases w with
      | cons w2 w => simp at e
      | nil =>
        simp at e
        obtain ⟨rfl, rfl, rfl, rfl⟩ := e
        rcases h1 with ⟨x, e, g⟩ | ⟨x, y, e, g3, g4, g5⟩ | ⟨x, y, z, e, g3, g4, g5, g6⟩ | ⟨x, y, z, t, e, g3, g5, g6, g7⟩ <;>
          (rw [e] at hrev; simp at hrev; simp only [isCont, Bool.and_eq_true, decide_eq_true_eq] at *)
        · obtain ⟨rfl, -⟩ := hrev; omega
        · obtain ⟨rfl, rfl, -⟩ := hrev; omega
        · obtain ⟨rfl, rfl, -⟩ := hrev; omega
        · obtain ⟨rfl, rfl, -⟩ := hrev; omega
    · rw [he] at e
      cases w with
      | nil =>
        simp at e
        obtain ⟨rfl, e⟩ := e
        clear e
        rcases h1 with ⟨x, e, g⟩ | ⟨x, y, e, g3, g4, g5⟩ | ⟨x, y, z, e, g3, g4, g5, g6⟩ | ⟨x, y, z, t, e, g3, g5, g6, g7⟩ <;>
          (rw [e] at hrev; simp at hrev; obtain ⟨rfl, -⟩ := hrev; simp only [isCont, Bool.and_eq_true, decide_eq_true_eq] at *; omega)
      | cons w1 w =>
      cases w with
      | nil =>
        simp at e
        obtain ⟨rfl, rfl, e⟩ := e
        clear e
        rcases h1 with ⟨x, e, g⟩ | ⟨x, y, e, g3, g4, g5⟩ | ⟨x, y, z, e, g3, g4, g5, g6⟩ | ⟨x, y, z, t, e, g3, g5, g6, g7⟩ <;>
          (rw [e] at hrev; simp at hrev; simp only [isCont, Bool.and_eq_true, decide_eq_true_eq] at *)
        · obtain ⟨rfl, -⟩ := hrev; omega
        · obtain ⟨rfl, rfl, -⟩ := hrev; omega
        · obtain ⟨rfl, rfl, -⟩ := hrev; omega
        · obtain ⟨rfl, rfl, -⟩ := hrev; omega
      | cons w2 w =>
      cases w with
      | cons w3 w => simp at e
      | nil =>
        simp at e
        obtain ⟨rfl, rfl, rfl, rfl, rfl⟩ := e
        rcases h1 with ⟨x, e, g⟩ | ⟨x, y, e, g3, g4, g5⟩ | ⟨x, y, z, e, g3, g4, g5, g6⟩ | ⟨x, y, z, t, e, g3, g5, g6, g7⟩ <;>
          (rw [e] at hrev; simp at hrev; simp only [isCont, Bool.and_eq_true, decide_eq_true_eq] at *)
        · obtain ⟨rfl, -⟩ := hrev; omega
        · obtain ⟨rfl, rfl, -⟩ := hrev; omega
        · obtain ⟨rfl, rfl, rfl, -⟩ := hrev; omega
        · obtain ⟨rfl, rfl, rfl, -⟩ := hrev; omega

namespace WordPiece

theorem piece_split (m : WordPiece) (p t q : Str) :
    m.piece (p ++ t ++ q) p.length (p.length + t.length)
      = (if p = [] then [] else m.continuingSubwordPrefix) ++ t := by
  unfold piece
  rw [show p.length + t.length - p.length = t.length by omega, List.append_assoc, List.drop_left, List.take_left]
  cases p <;> simp

/-- The string looked up for the runes `hd` after the runes `pre`. -/
def key (m : WordPiece) (pre hd : List Rune) : Str :=
  (if pre = [] then [] else m.continuingSubwordPrefix) ++ encodeRunes hd

theorem piece_key (m : WordPiece) (pre hd tl : List Rune) :
    m.piece (encodeRunes (pre ++ hd ++ tl)) (encodeRunes pre).length (encodeRunes (pre ++ hd)).length
      = m.key pre hd := by
  have := m.piece_split (encodeRunes pre) (encodeRunes hd) (encodeRunes tl)
  simp only [encodeRunes_append, List.length_append] at this ⊢
  rw [this]
  unfold key
  by_cases h : pre = []
  · simp [h]
  · simp [h, encodeRunes_eq_nil]

/-- The result of one search among the prefixes of `a`: the longest that is in the vocabulary,
or none. -/
def Longest (m : WordPiece) (pre a : List Rune) (r : Option Token) : Prop :=
  (r = none ∧ ∀ hd tl, a = hd ++ tl → hd ≠ [] → m.vocab.getID (m.key pre hd) = none)
  ∨ ∃ hd tl id, a = hd ++ tl ∧ hd ≠ [] ∧ m.vocab.getID (m.key pre hd) = some id
      ∧ r = some ⟨id, m.key pre hd, ⟨(encodeRunes pre).length, (encodeRunes (pre ++ hd)).length⟩⟩
      ∧ ∀ hd' tl', a = hd' ++ tl' → hd.length < hd'.length → m.vocab.getID (m.key pre hd') = none

theorem Longest.snoc {m : WordPiece} {pre a : List Rune} {x : Rune} {r : Option Token}
    (h : Longest m pre a r) (hn : m.vocab.getID (m.key pre (a ++ [x])) = none) :
    Longest m pre (a ++ [x]) r := by
  have key : ∀ hd tl, a ++ [x] = hd ++ tl → hd = a ++ [x] ∨ ∃ tl', a = hd ++ tl' := by
    intro hd tl e
    rcases List.eq_nil_or_concat tl with rfl | ⟨tl', y, rfl⟩
    · left; simpa using e.symm
    · right
      rw [List.concat_eq_append, ← List.append_assoc] at e
      exact ⟨tl', (List.append_inj_left' e rfl)⟩
  rcases h with ⟨rfl, h⟩ | ⟨hd, tl, id, rfl, h2, h3, h4, h5⟩
  · refine .inl ⟨rfl, ?_⟩
    intro hd tl e hne
    rcases key hd tl e with rfl | ⟨tl', rfl⟩
    · exact hn
    · exact h hd tl' rfl hne
  · refine .inr ⟨hd, tl ++ [x], id, by simp, h2, h3, h4, ?_⟩
    intro hd' tl' e hl
    rcases key hd' tl' e with rfl | ⟨tl'', e'⟩
    · exact hn
    · exact h5 hd' tl'' e' hl

theorem Inner.longest {m : WordPiece} (hval : m.vocab.AllValid) (pre : List Rune) (n : Nat) :
    ∀ (a b : List Rune), a.length = n → (∀ x ∈ a.drop 1, runeLen x ≠ 3) → ∀ (stop : Int) (r : Option Token),
    stop = ((encodeRunes (pre ++ a)).length : Nat) →
    Inner m (encodeRunes (pre ++ a ++ b)) (encodeRunes pre).length stop r → Longest m pre a r := by
  induction n with
  | zero =>
    intro a b ha _ stop r hs h
    have : a = [] := List.length_eq_zero_iff.1 ha
    subst this
    simp only [List.append_nil] at hs
    cases h with
    | stop => exact .inl ⟨rfl, by intro hd tl e hne; simp at e; exact absurd e.1 hne⟩
    | hit h => omega
    | step h => omega
  | succ n ih =>
    intro a b ha h3 stop r hs h
    rcases List.eq_nil_or_concat a with rfl | ⟨a', x, rfl⟩
    · simp at ha
    · rw [List.concat_eq_append] at *
      have hst : ((encodeRunes (pre ++ (a' ++ [x]))).length : Int)
          = (encodeRunes pre).length + (encodeRunes a').length + (encodeRune x).length := by
        simp [encodeRunes]; omega
      have hpk := m.piece_key pre (a' ++ [x]) b
      have hx := encodeRune_length_pos x
      have e1 : encodeRunes (pre ++ (a' ++ [x]) ++ b) = encodeRunes pre ++ (encodeRunes a' ++ encodeRune x) ++ encodeRunes b := by
        simp [encodeRunes]
      -- what is visited inside the last rune is no valid text
      have mid : ∀ (w v : Str), encodeRune x = w ++ v → w ≠ [] → v ≠ [] →
          m.vocab.getID (m.piece (encodeRunes (pre ++ (a' ++ [x]) ++ b)) (encodeRunes pre).length
            ((encodeRunes pre).length + (encodeRunes a').length + w.length)) = none
          ∧ (m.piece (encodeRunes (pre ++ (a' ++ [x]) ++ b)) (encodeRunes pre).length
            ((encodeRunes pre).length + (encodeRunes a').length + w.length)).getLast? = w.getLast? := by
        intro w v e hw hv
        have := m.piece_split (encodeRunes pre) (encodeRunes a' ++ w) (v ++ encodeRunes b)
        rw [show encodeRunes pre ++ (encodeRunes a' ++ w) ++ (v ++ encodeRunes b)
          = encodeRunes (pre ++ (a' ++ [x]) ++ b) by rw [e1, e]; simp] at this
        rw [List.length_append, ← Nat.add_assoc] at this
        rw [this]
        constructor
        · cases hg : m.vocab.getID ((if encodeRunes pre = [] then [] else m.continuingSubwordPrefix) ++ (encodeRunes a' ++ w)) with
          | none => rfl
          | some id =>
            have h1 := hval _ (by rw [hg]; simp)
            rw [← List.append_assoc] at h1
            exact absurd h1 (not_valid_mid e hw hv)
        · rw [← List.append_assoc, List.getLast?_append]
          cases hl : w.getLast? with
          | none => exact absurd (List.getLast?_eq_none_iff.1 hl) hw
          | some z => rfl
      cases h with
      | stop h => omega
      | @hit _ id h hg =>
        subst hs
        simp only [Int.toNat_natCast] at hg ⊢
        rw [hpk] at hg ⊢
        refine .inr ⟨a' ++ [x], [], id, by simp, by simp, hg, rfl, ?_⟩
        intro hd' tl' e hl
        have := congrArg List.length e
        simp at this hl; omega
      | @step _ y _ h hg hy hr =>
        subst hs
        simp only [Int.toNat_natCast] at hg hy
        rw [hpk] at hg hy
        have hys : (encodeRune x).getLast? = some y := by
          unfold key at hy
          rw [encodeRunes_append, ← List.append_assoc, List.getLast?_append] at hy
          have : encodeRunes [x] = encodeRune x := by simp [encodeRunes]
          rw [this] at hy
          cases hl : (encodeRune x).getLast? with
          | none => exact absurd (List.getLast?_eq_none_iff.1 hl) (encodeRune_ne_nil x)
          | some z => rw [hl] at hy; exact hy
        have e2 : pre ++ (a' ++ [x]) ++ b = pre ++ a' ++ (x :: b) := by simp
        have cont : ∀ r', Inner m (encodeRunes (pre ++ (a' ++ [x]) ++ b)) (encodeRunes pre).length
            ((encodeRunes pre).length + (encodeRunes a').length) r' → Longest m pre (a' ++ [x]) r' := by
          intro r' hr'
          refine Longest.snoc ?_ hg
          rw [e2] at hr'
          refine ih a' (x :: b) (by simpa using ha) ?_ _ r' ?_ hr'
          · intro z hz
            apply h3
            cases a' with
            | nil => simp at hz
            | cons c a' => simp at hz ⊢; exact .inl hz
          · simp [encodeRunes]
        rw [hst] at hr
        rcases encodeRune_shape x with ⟨c0, e, g⟩ | ⟨c0, c1, e, g3, g4, g5⟩ | ⟨c0, c1, c2, e, g3, g4, g5, g6⟩
          | ⟨c0, c1, c2, c3, e, g3, g5, g6, g7⟩
        · rw [e] at hys hr
          simp at hys; subst hys
          rw [byteStringLen_ascii g] at hr
          apply cont
          have : ((encodeRunes pre).length : Int) + (encodeRunes a').length + ([c0] : Str).length - (1 : Nat)
              = (encodeRunes pre).length + (encodeRunes a').length := by simp
          rw [this] at hr; exact hr
        · rw [e] at hys hr
          simp at hys; subst hys
          rw [byteStringLen_high (isCont_range g5).1] at hr
          apply cont
          have : ((encodeRunes pre).length : Int) + (encodeRunes a').length + ([c0, c1] : Str).length - (2 : Nat)
              = (encodeRunes pre).length + (encodeRunes a').length := by simp
          rw [this] at hr; exact hr
        · -- a three-byte rune can only be the first of `a`
          have ha' : a' = [] := by
            cases a' with
            | nil => rfl
            | cons c a' =>
              have := h3 x (by simp)
              exact absurd (show runeLen x = 3 by unfold runeLen; rw [e]; rfl) this
          subst ha'
          obtain ⟨m1, m2⟩ := mid [c0] [c1, c2] (by rw [e]; rfl) (by simp) (by simp)
          rw [e] at hys hr
          simp at hys; subst hys
          rw [byteStringLen_high (isCont_range g6).1] at hr
          have h1 : ((encodeRunes pre).length : Int) + (encodeRunes ([] : List Rune)).length + ([c0, c1, c2] : Str).length - (2 : Nat)
              = ((encodeRunes pre).length + (encodeRunes ([] : List Rune)).length + ([c0] : Str).length : Nat) := by
            simp; omega
          rw [h1] at hr
          have hnone : r = none := by
            cases hr with
            | stop => rfl
            | hit _ hg' => rw [Int.toNat_natCast, m1] at hg'; simp at hg'
            | step _ _ hl hr' =>
              rw [Int.toNat_natCast, m2] at hl
              simp at hl; subst hl
              rw [byteStringLen_high (by omega)] at hr'
              cases hr' with
              | stop => rfl
              | hit hlt => simp at hlt; omega
              | step hlt => simp at hlt; omega
          subst hnone
          refine .inl ⟨rfl, ?_⟩
          intro hd tl e' hne
          cases hd with
          | nil => exact absurd rfl hne
          | cons d hd =>
            simp only [List.nil_append, List.cons_append, List.cons.injEq] at e'
            obtain ⟨rfl, e'⟩ := e'
            have : hd = [] := by
              have := congrArg List.length e'
              simp at this
              exact List.length_eq_zero_iff.1 (by omega)
            subst this
            exact hg
        · obtain ⟨m1, m2⟩ := mid [c0, c1] [c2, c3] (by rw [e]; rfl) (by simp) (by simp)
          rw [e] at hys hr
          simp at hys; subst hys
          rw [byteStringLen_high (isCont_range g7).1] at hr
          have h1 : ((encodeRunes pre).length : Int) + (encodeRunes a').length + ([c0, c1, c2, c3] : Str).length - (2 : Nat)
              = ((encodeRunes pre).length + (encodeRunes a').length + ([c0, c1] : Str).length : Nat) := by
            simp; omega
          rw [h1] at hr
          cases hr with
          | stop hlt => simp at hlt; omega
          | hit _ hg' => rw [Int.toNat_natCast, m1] at hg'; simp at hg'
          | step _ _ hl hr' =>
            rw [Int.toNat_natCast, m2] at hl
            simp at hl; subst hl
            rw [byteStringLen_high (isCont_range g5).1] at hr'
            apply cont
            have h2 : ((encodeRunes pre).length + (encodeRunes a').length + ([c0, c1] : Str).length : Nat) - ((2 : Nat) : Int)
                = (encodeRunes pre).length + (encodeRunes a').length := by simp
            rw [h2] at hr'
            exact hr'

/-! ## Greedy longest match -/

/-- Greedy longest-match-first segmentation of the runes `rest` (after `pre`): at each
position the longest non-empty run of runes whose looked-up string is in the vocabulary. -/
inductive Greedy (m : WordPiece) : List Rune → List Rune → List Token → Prop
  | nil {pre : List Rune} : Greedy m pre [] []
  | cons {pre hd tl : List Rune} {id : Int} {ts : List Token} : hd ≠ [] →
      m.vocab.getID (m.key pre hd) = some id →
      (∀ hd' tl', hd ++ tl = hd' ++ tl' → hd.length < hd'.length → m.vocab.getID (m.key pre hd') = none) →
      Greedy m (pre ++ hd) tl ts →
      Greedy m pre (hd ++ tl)
        (⟨id, m.key pre hd, ⟨(encodeRunes pre).length, (encodeRunes (pre ++ hd)).length⟩⟩ :: ts)

/-- The greedy segmentation reaches a position where no run of runes is in the vocabulary. -/
inductive Stuck (m : WordPiece) : List Rune → List Rune → Prop
  | here {pre rest : List Rune} : rest ≠ [] →
      (∀ hd tl, rest = hd ++ tl → hd ≠ [] → m.vocab.getID (m.key pre hd) = none) → Stuck m pre rest
  | later {pre hd tl : List Rune} {id : Int} : hd ≠ [] → m.vocab.getID (m.key pre hd) = some id →
      (∀ hd' tl', hd ++ tl = hd' ++ tl' → hd.length < hd'.length → m.vocab.getID (m.key pre hd') = none) →
      Stuck m (pre ++ hd) tl → Stuck m pre (hd ++ tl)

theorem Outer.greedy {m : WordPiece} (hval : m.vocab.AllValid) {s : Str} {start : Nat} {r : Option (List Token)}
    (h : Outer m s start r) (pre rest : List Rune) (hs : s = encodeRunes (pre ++ rest))
    (hst : start = (encodeRunes pre).length) (h3 : ∀ x ∈ rest.drop 1, runeLen x ≠ 3) :
    match r with
    | some ts => Greedy m pre rest ts
    | none => Stuck m pre rest := by
  induction h generalizing pre rest with
  | @done start h =>
    subst hs hst
    have : rest = [] := by
      rw [encodeRunes_append, List.length_append] at h
      have := length_le_encodeRunes rest
      exact List.length_eq_zero_iff.1 (by omega)
    subst this
    exact .nil
  | @bad start h hi =>
    subst hs hst
    have hl := Inner.longest hval pre rest.length rest [] rfl h3 _ _ rfl (by simpa using hi)
    rcases hl with ⟨-, hn⟩ | ⟨hd, tl, id, -, -, -, he, -⟩
    · refine .here ?_ hn
      rintro rfl
      simp at h
    · simp at he
  | @token start t r h hi ho ih =>
    subst hs hst
    have hl := Inner.longest hval pre rest.length rest [] rfl h3 _ _ rfl (by simpa using hi)
    rcases hl with ⟨he, -⟩ | ⟨hd, tl, id, rfl, h1, h2, he, h4⟩
    · simp at he
    · injection he with he
      subst he
      have := ih (pre ++ hd) tl (by simp) (Int.toNat_natCast _) (by
        intro x hx
        apply h3
        cases hd with
        | nil => exact absurd rfl h1
        | cons c hd =>
          have := List.mem_of_mem_drop hx
          simp [this])
      cases r with
      | none => exact .later h1 h2 h4 this
      | some ts => exact .cons h1 h2 h4 this

end WordPiece

open WordPiece in
/-- **C37 (partial).** For every vocabulary of valid UTF-8 terms and every valid word within
the limit in which no rune except possibly the first takes three bytes: the tokens are the
greedy longest-match-first segmentation, or that segmentation gets stuck and the result is
the unknown token.  Missing: later three-byte runes, whose boundary the code skips
(`C37_counterexample`). -/
theorem C37_greedy_partial (m : WordPiece) (hval : m.vocab.AllValid) (rs : List Rune)
    (hv : ∀ r ∈ rs, ValidRune r) (h3 : ∀ r ∈ rs.drop 1, runeLen r ≠ 3)
    (hl : (rs.length : Int) ≤ m.maxInputCharsPerWord) :
    (∃ ts, m.tokenize (encodeRunes rs) = .ok ts ∧ Greedy m [] rs ts)
    ∨ (m.tokenize (encodeRunes rs) = m.unknown (encodeRunes rs) ∧ Stuck m [] rs) := by
  rcases tokenize_cases m (encodeRunes rs) with ⟨h, -⟩ | ⟨-, ho, h⟩ | ⟨-, ts, ho, h⟩
  · rw [runesOf_encodeRunes rs hv] at h; omega
  · exact .inr ⟨h, ho.greedy hval [] rs (by simp) (by simp) h3⟩
  · exact .inl ⟨ts, h, ho.greedy hval [] rs (by simp) (by simp) h3⟩

open WordPiece in
/-- The two outcomes exclude each other and the greedy segmentation is unique. -/
theorem C37_greedy_unique (m : WordPiece) {pre rs : List Rune} {ts : List Token} (h : Greedy m pre rs ts) :
    (∀ ts', Greedy m pre rs ts' → ts' = ts) ∧ ¬Stuck m pre rs := by
  have same : ∀ {pre hd tl hd' tl' : List Rune} {id id' : Int}, hd ++ tl = hd' ++ tl' →
      m.vocab.getID (m.key pre hd) = some id → m.vocab.getID (m.key pre hd') = some id' →
      (∀ a b, hd ++ tl = a ++ b → hd.length < a.length → m.vocab.getID (m.key pre a) = none) →
      (∀ a b, hd' ++ tl' = a ++ b → hd'.length < a.length → m.vocab.getID (m.key pre a) = none) →
      hd = hd' ∧ tl = tl' := by
    intro pre hd tl hd' tl' id id' e h1 h2 l1 l2
    have hlen : hd.length = hd'.length := by
      rcases Nat.lt_trichotomy hd.length hd'.length with h | h | h
      · rw [l1 hd' tl' e h] at h2; simp at h2
      · exact h
      · rw [l2 hd tl e.symm h] at h1; simp at h1
    exact List.append_inj e hlen
  induction h with
  | nil =>
    refine ⟨?_, ?_⟩
    · intro ts' h'
      generalize hr : ([] : List Rune) = rest at h'
      cases h' with
      | nil => rfl
      | cons hne => exact absurd (List.append_eq_nil_iff.1 hr.symm).1 hne
    · intro h'
      generalize hr : ([] : List Rune) = rest at h'
      cases h' with
      | here hne => exact hne hr.symm
      | later hne => exact hne (List.append_eq_nil_iff.1 hr.symm).1
  | @cons pre hd tl id ts hne hk hlong hg ih =>
    refine ⟨?_, ?_⟩
    · intro ts' h'
      generalize hr : hd ++ tl = rest at h'
      cases h' with
      | nil => exact absurd (List.append_eq_nil_iff.1 hr).1 hne
      | cons hne' hk' hlong' hg' =>
        obtain ⟨rfl, rfl⟩ := same hr hk hk' hlong hlong'
        rw [hk] at hk'; simp at hk'; subst hk'
        rw [ih.1 _ hg']
    · intro h'
      generalize hr : hd ++ tl = rest at h'
      cases h' with
      | here hne' hall => subst hr; rw [hall hd tl rfl hne] at hk; simp at hk
      | later hne' hk' hlong' hg' =>
        obtain ⟨rfl, rfl⟩ := same hr hk hk' hlong hlong'
        exact ih.2 hg'

/-- **C37 is false** for later three-byte runes: "a世" with "a" and "##世" in the vocabulary
is unknown, because the boundary between them is never tried. -/
theorem C37_counterexample :
    let v := Vocab.fromJSON (some [(b!"[UNK]", 0), (b!"a", 1), (b!"##世", 2)]) []
    let m : WordPiece := ⟨v, b!"[UNK]", b!"##", 100⟩
    v.AllValid ∧ m.tokenize b!"a世" = .ok [⟨0, b!"[UNK]", ⟨0, 4⟩⟩]
      ∧ m.Greedy [] [u!"a", u!"世"] [⟨1, b!"a", ⟨0, 1⟩⟩, ⟨2, b!"##世", ⟨1, 4⟩⟩] := by
  refine ⟨?_, by decide +kernel, ?_⟩
  · intro t ht
    simp only [Vocab.getID, Vocab.fromJSON, Option.getD_some, GoMap.get?] at ht
    by_cases h1 : (b!"[UNK]" : Str) = t
    · subst h1; decide +kernel
    · by_cases h2 : (b!"a" : Str) = t
      · subst h2; decide +kernel
      · by_cases h3 : (b!"##世" : Str) = t
        · subst h3; decide +kernel
        · simp [h1, h2, h3] at ht
  · refine WordPiece.Greedy.cons (hd := [u!"a"]) (tl := [u!"世"]) (by simp) (by decide +kernel) ?_ ?_
    · intro hd' tl' e hl
      have : hd' = [u!"a", u!"世"] := by
        have := congrArg List.length e
        have ht : tl' = [] := List.length_eq_zero_iff.1 (by simp at this hl; omega)
        subst ht; simpa using e.symm
      subst this
      decide +kernel
    · refine WordPiece.Greedy.cons (hd := [u!"世"]) (tl := []) (by simp) (by decide +kernel) ?_ .nil
      intro hd' tl' e hl
      have := congrArg List.length e
      simp at this hl; omega

/-- Non-vacuity of the greedy case, with two- and four-byte runes. -/
example :
    let m : WordPiece := ⟨Vocab.fromJSON (some [(b!"[UNK]", 0), (b!"é", 1), (b!"éa", 2), (b!"##😀", 3), (b!"##b", 4)]) [],
      b!"[UNK]", b!"##", 100⟩
    m.tokenize b!"éa😀b" = .ok [⟨2, b!"éa", ⟨0, 3⟩⟩, ⟨3, b!"##😀", ⟨3, 7⟩⟩, ⟨4, b!"##b", ⟨7, 8⟩⟩]
    ∧ m.tokenize b!"éc" = .ok [⟨0, b!"[UNK]", ⟨0, 3⟩⟩] := by decide +kernel

/-! ## Tokens never cut a rune -/

theorem split_pos (rs : List Rune) (n : Nat) (h : n ≤ (encodeRunes rs).length) :
    (∃ a b, rs = a ++ b ∧ n = (encodeRunes a).length)
    ∨ ∃ a x b w v, rs = a ++ x :: b ∧ encodeRune x = w ++ v ∧ w ≠ [] ∧ v ≠ []
        ∧ n = (encodeRunes a).length + w.length := by
  induction rs generalizing n with
  | nil => exact .inl ⟨[], [], rfl, by simpa using h⟩
  | cons r rs ih =>
    by_cases h0 : n = 0
    · exact .inl ⟨[], r :: rs, rfl, by simpa using h0⟩
    · by_cases hr : n < (encodeRune r).length
      · refine .inr ⟨[], r, rs, (encodeRune r).take n, (encodeRune r).drop n, rfl, by simp, ?_, ?_, by simp; omega⟩
        · apply List.ne_nil_of_length_pos; simp; omega
        · apply List.ne_nil_of_length_pos; simp; omega
      · simp only [encodeRunes_cons, List.length_append] at h
        rcases ih (n - (encodeRune r).length) (by omega) with ⟨a, b, rfl, e⟩ | ⟨a, x, b, w, v, rfl, e1, e2, e3, e4⟩
        · exact .inl ⟨r :: a, b, rfl, by simp; omega⟩
        · exact .inr ⟨r :: a, x, b, w, v, rfl, e1, e2, e3, by simp; omega⟩

namespace WordPiece

/-- Tokens made of whole runes. -/
inductive WholeTokens (m : WordPiece) : List Rune → List Rune → List Token → Prop
  | nil {pre : List Rune} : WholeTokens m pre [] []
  | cons {pre hd tl : List Rune} {id : Int} {ts : List Token} : hd ≠ [] →
      m.vocab.getID (m.key pre hd) = some id → WholeTokens m (pre ++ hd) tl ts →
      WholeTokens m pre (hd ++ tl)
        (⟨id, m.key pre hd, ⟨(encodeRunes pre).length, (encodeRunes (pre ++ hd)).length⟩⟩ :: ts)

theorem Tiles.whole {m : WordPiece} (hval : m.vocab.AllValid) (ts : List Token) (pre rest : List Rune)
    (h : Tiles m (encodeRunes (pre ++ rest)) (encodeRunes pre).length ts) : WholeTokens m pre rest ts := by
  induction ts generalizing pre rest with
  | nil =>
    simp only [Tiles, encodeRunes_append, List.length_append] at h
    have := length_le_encodeRunes rest
    have : rest = [] := List.length_eq_zero_iff.1 (by omega)
    subst this
    exact .nil
  | cons t ts ih =>
    obtain ⟨stop, h1, h2, h3, h4, h5, h6⟩ := h
    have hle : stop - (encodeRunes pre).length ≤ (encodeRunes rest).length := by
      simp only [encodeRunes_append, List.length_append] at h3; omega
    rcases split_pos rest _ hle with ⟨a, b, rfl, e⟩ | ⟨a, x, b, w, v, rfl, e1, e2, e3, e4⟩
    · have hst : stop = (encodeRunes (pre ++ a)).length := by
        rw [encodeRunes_append, List.length_append]; omega
      subst hst
      rw [← List.append_assoc, piece_key] at h4
      rw [← List.append_assoc] at h6
      have ha : a ≠ [] := by rintro rfl; simp at h2
      have := WholeTokens.cons (m := m) (pre := pre) (hd := a) (tl := b) (id := t.id) ha (by rw [← h4]; exact h5) (ih _ _ h6)
      obtain ⟨tid, tv, toff⟩ := t
      simp only at h1 h4 this
      rw [h1, h4]
      exact this
    · exfalso
      have := m.piece_split (encodeRunes pre) (encodeRunes a ++ w) (v ++ encodeRunes b)
      rw [show encodeRunes pre ++ (encodeRunes a ++ w) ++ (v ++ encodeRunes b) = encodeRunes (pre ++ (a ++ x :: b)) by
        simp [encodeRunes_append, e1]] at this
      rw [List.length_append, show (encodeRunes pre).length + ((encodeRunes a).length + w.length) = stop by omega, ← h4] at this
      have hv := hval t.value (by rw [h5]; simp)
      rw [this, ← List.append_assoc] at hv
      exact not_valid_mid e1 e2 e3 hv

end WordPiece

open WordPiece in
/-- **C37, soundness.** For every vocabulary of valid UTF-8 terms and every valid word (no
restriction on its runes): the result is one unknown token over the word, or tokens each
covering a non-empty run of whole runes, in order and without gaps, with the looked-up
string as value. -/
theorem C37_whole_runes (m : WordPiece) (hval : m.vocab.AllValid) (rs : List Rune) (ts : List Token)
    (h : m.tokenize (encodeRunes rs) = .ok ts) :
    IsUnknown m (encodeRunes rs) ts ∨ WholeTokens m [] rs ts := by
  rcases (C36_tiles m (encodeRunes rs)).1 ts h with h | ⟨-, h⟩
  · exact .inl h
  · exact .inr (Tiles.whole hval ts [] rs h)

end Verif
