import Verif.Props.WordPieceExact

/-! What the WordPiece search does on every byte string and with every vocabulary (C37). -/

set_option autoImplicit false

namespace Verif
namespace WordPiece

/-- Whether the search that steps back from the end of the word, by one byte after a byte below 0x80 and by two
bytes otherwise, looks at the position in front of these last bytes: an even number of them stands before the
first one below 0x80. -/
def triedBytes (tl : Str) : Bool :=
  (tl.takeWhile fun b => decide (0x80 ≤ b.toNat)).length % 2 == 0

/-- Whether `stop` is a position the search for a piece from `start` on looks at. -/
def Looks (s : Str) (start stop : Nat) : Prop :=
  start < stop ∧ stop ≤ s.length ∧ triedBytes (s.drop stop) = true

/-- `stop` ends the longest known piece from `start` on, among the positions that are looked at. -/
def LongestBytes (m : WordPiece) (s : Str) (start stop : Nat) : Prop :=
  Looks s start stop ∧ (∃ id, m.vocab.getID (m.piece s start stop) = some id)
    ∧ ∀ e, Looks s start e → stop < e → m.vocab.getID (m.piece s start e) = none

/-- The longest known pieces, from left to right, up to the end of the word. -/
inductive GreedyBytes (m : WordPiece) (s : Str) : Nat → List Token → Prop
  | nil : GreedyBytes m s s.length []
  | cons {start stop : Nat} {t : Token} {ts : List Token} : LongestBytes m s start stop →
      t.offsets = ⟨start, stop⟩ → t.value = m.piece s start stop → m.vocab.getID t.value = some t.id →
      GreedyBytes m s stop ts → GreedyBytes m s start (t :: ts)

/-- Taking the longest known pieces from left to right leads to a position where none is known. -/
inductive StuckBytes (m : WordPiece) (s : Str) : Nat → Prop
  | here {start : Nat} : start < s.length →
      (∀ e, Looks s start e → m.vocab.getID (m.piece s start e) = none) → StuckBytes m s start
  | later {start stop : Nat} : LongestBytes m s start stop → StuckBytes m s stop → StuckBytes m s start

/-! ## Proofs -/

@[simp] theorem triedBytes_nil : triedBytes [] = true := rfl

theorem triedBytes_low {b : UInt8} (tl : Str) (hb : b.toNat < 0x80) : triedBytes (b :: tl) = true := by
  have : ¬0x80 ≤ b.toNat := by omega
  simp [triedBytes, this]

theorem triedBytes_high {b : UInt8} (tl : Str) (hb : 0x80 ≤ b.toNat) : triedBytes (b :: tl) = !triedBytes tl := by
  unfold triedBytes
  rw [List.takeWhile_cons_of_pos (by simpa using hb), List.length_cons]
  generalize (List.takeWhile _ tl).length = n
  rcases Nat.mod_two_eq_zero_or_one n with h | h
  · simp [h, show (n + 1) % 2 = 1 by omega]
  · simp [h, show (n + 1) % 2 = 0 by omega]

theorem byteStringLen_cases (b : UInt8) : byteStringLen b = if b.toNat < 0x80 then 1 else 2 := by
  by_cases h : b.toNat < 0x80
  · rw [if_pos h, byteStringLen_ascii h]
  · rw [if_neg h, byteStringLen_high (by omega)]

theorem Inner.bytes {m : WordPiece} {s : Str} {start : Nat} {stop : Int} {r : Option Token}
    (h : Inner m s start stop r) (hl : stop ≤ s.length)
    (ht : (start : Int) < stop → triedBytes (s.drop stop.toNat) = true)
    (hn : ∀ e, Looks s start e → stop < (e : Int) → m.vocab.getID (m.piece s start e) = none) :
    (r = none → ∀ e, Looks s start e → m.vocab.getID (m.piece s start e) = none)
    ∧ ∀ t, r = some t → ∃ e : Nat, LongestBytes m s start e ∧ t.offsets = ⟨start, e⟩ ∧ t.value = m.piece s start e
        ∧ m.vocab.getID t.value = some t.id := by
  induction h with
  | stop h =>
    exact ⟨fun _ e he => hn e he (by have := he.1; omega), by simp⟩
  | @hit stop id h hg =>
    refine ⟨by simp, ?_⟩
    intro t he
    simp at he; subst he
    refine ⟨stop.toNat, ⟨⟨by omega, by omega, ht h⟩, ⟨id, hg⟩, ?_⟩, by simp; omega, rfl, hg⟩
    intro e he hlt
    exact hn e he (by omega)
  | @step stop b r h hg hb hr ih =>
    rw [piece_last (by omega) (by omega)] at hb
    obtain ⟨n, hn'⟩ : ∃ n : Nat, stop = (n + 1 : Nat) := ⟨stop.toNat - 1, by omega⟩
    subst hn'
    simp only [Int.toNat_natCast, Nat.add_sub_cancel] at hb ht hg
    have hlt : n < s.length := by omega
    have hd : s.drop n = b :: s.drop (n + 1) := by
      rw [List.getElem?_eq_getElem hlt] at hb
      rw [List.drop_eq_getElem_cons hlt, Option.some.inj hb]
    have ht' := ht h
    rw [byteStringLen_cases] at ih
    by_cases hlow : b.toNat < 0x80
    · rw [if_pos hlow] at ih
      refine ih (by omega) ?_ ?_
      · intro _
        rw [show (((n + 1 : Nat) : Int) - (1 : Nat)).toNat = n by omega, hd]
        exact triedBytes_low _ hlow
      · intro e he hlt'
        rcases (by omega : e = n + 1 ∨ n + 1 < e) with rfl | h'
        · exact hg
        · exact hn e he (by omega)
    · rw [if_neg hlow] at ih
      refine ih (by omega) ?_ ?_
      · intro hpos
        obtain ⟨k, rfl⟩ : ∃ k, n = k + 1 := ⟨n - 1, by omega⟩
        rw [show (((k + 1 + 1 : Nat) : Int) - (2 : Nat)).toNat = k by omega]
        rw [List.drop_eq_getElem_cons (by omega), hd]
        by_cases hk : (s[k]'(by omega)).toNat < 0x80
        · exact triedBytes_low _ hk
        · rw [triedBytes_high _ (by omega), triedBytes_high _ (by omega), ht']; rfl
      · intro e he hlt'
        rcases (by omega : e = n ∨ e = n + 1 ∨ n + 1 < e) with rfl | rfl | h'
        · have := he.2.2
          rw [hd, triedBytes_high _ (by omega), ht'] at this
          exact absurd this (by simp)
        · exact hg
        · exact hn e he (by omega)

theorem Outer.bytes {m : WordPiece} {s : Str} {start : Nat} {r : Option (List Token)} (h : Outer m s start r)
    (hs : start ≤ s.length) :
    (r = none → StuckBytes m s start) ∧ ∀ ts, r = some ts → GreedyBytes m s start ts := by
  have hend : ∀ st : Nat, (st : Int) < (s.length : Int) → triedBytes (s.drop (s.length : Int).toNat) = true := by
    intro st _; simp [triedBytes]
  induction h with
  | @done start h =>
    have : start = s.length := by omega
    subst this
    exact ⟨by simp, by rintro _ ⟨⟩; exact .nil⟩
  | @bad start h hi =>
    exact ⟨fun _ => .here h ((hi.bytes (by omega) (hend _) (fun e he hlt => by have := he.2.1; omega)).1 rfl), by simp⟩
  | @token start t r h hi ho ih =>
    obtain ⟨e, h1, h2, h3, h4⟩ := hi.bytes (by omega) (hend _) (fun e he hlt => by have := he.2.1; omega) |>.2 t rfl
    rw [h2] at ih
    have := ih (by simpa using h1.1.2.1)
    simp only [Int.toNat_natCast] at this
    refine ⟨?_, ?_⟩
    · intro hr
      exact .later h1 (this.1 (by simpa using hr))
    · intro ts hr
      obtain ⟨ts', hr', rfl⟩ := Option.map_eq_some_iff.1 hr
      exact .cons h1 h2 h3 h4 (this.2 _ hr')

theorem LongestBytes.unique {m : WordPiece} {s : Str} {start e e' : Nat} (h : LongestBytes m s start e)
    (h' : LongestBytes m s start e') : e = e' := by
  obtain ⟨a, ⟨i, b⟩, c⟩ := h
  obtain ⟨a', ⟨i', b'⟩, c'⟩ := h'
  rcases Nat.lt_trichotomy e e' with g | g | g
  · rw [c e' a' g] at b'; simp at b'
  · exact g
  · rw [c' e a g] at b; simp at b

end WordPiece

open WordPiece in
/-- **C37, on any bytes.** For every vocabulary and every byte string within the limit, valid UTF-8 or not: the
tokens are the longest known pieces from left to right, among the positions the search looks at, or this gets
stuck and the result is the unknown token. -/
theorem C37_bytes (m : WordPiece) (s : Str) (hl : ((runesOf s).length : Int) ≤ m.maxInputCharsPerWord) :
    (∃ ts, m.tokenize s = .ok ts ∧ GreedyBytes m s 0 ts) ∨ (m.tokenize s = m.unknown s ∧ StuckBytes m s 0) := by
  rcases tokenize_cases m s with ⟨h, -⟩ | ⟨-, ho, h⟩ | ⟨-, ts, ho, h⟩
  · omega
  · exact .inr ⟨h, (ho.bytes (by omega)).1 rfl⟩
  · exact .inl ⟨ts, h, (ho.bytes (by omega)).2 _ rfl⟩

open WordPiece in
/-- The two outcomes exclude each other and the tokens are determined. -/
theorem C37_bytes_unique (m : WordPiece) (s : Str) {start : Nat} {ts : List Token} (h : GreedyBytes m s start ts) :
    (∀ ts', GreedyBytes m s start ts' → ts' = ts) ∧ ¬StuckBytes m s start := by
  induction h with
  | nil =>
    refine ⟨?_, ?_⟩
    · intro ts' h'
      cases h' with
      | nil => rfl
      | cons hl => exact absurd hl.1.1 (by have := hl.1.2.1; omega)
    · intro h'
      cases h' with
      | here h => omega
      | later hl => exact absurd hl.1.1 (by have := hl.1.2.1; omega)
  | @cons start stop t ts hl ho hv hi hg ih =>
    refine ⟨?_, ?_⟩
    · intro ts' h'
      cases h' with
      | nil => exact absurd hl.1.1 (by have := hl.1.2.1; omega)
      | @cons _ stop' t' ts' hl' ho' hv' hi' hg' =>
        have := hl.unique hl'
        subst this
        have ht : t' = t := by
          cases t; cases t'
          simp only at ho hv hi ho' hv' hi'
          subst ho hv ho' hv'
          rw [hi] at hi'; simp at hi'; subst hi'; rfl
        rw [ht, ih.1 _ hg']
    · intro h'
      cases h' with
      | here _ hn =>
        obtain ⟨h1, ⟨i, h2⟩, -⟩ := hl
        rw [hn _ h1] at h2; simp at h2
      | later hl' hs =>
        have := hl.unique hl'
        subst this
        exact ih.2 hs

open WordPiece in
/-- On the bytes of valid runes the positions looked at that lie between two runes are those of `C37_tried`. -/
theorem C37_bytes_tried (tl : List Rune) : triedBytes (encodeRunes tl) = tried tl := by
  induction tl with
  | nil => rfl
  | cons r tl ih =>
    rw [encodeRunes_cons]
    rcases encodeRune_shape r with ⟨c0, e, g⟩ | ⟨c0, c1, e, g3, g4, g5⟩ | ⟨c0, c1, c2, e, g3, g4, g5, g6⟩
      | ⟨c0, c1, c2, c3, e, g3, g5, g6, g7⟩
    · simp only [tried, runeLen, e, List.length_cons, List.length_nil, List.cons_append, List.nil_append]
      rw [triedBytes_low _ g]; rfl
    · have := isCont_range g5
      simp only [tried, runeLen, e, List.length_cons, List.length_nil, List.cons_append, List.nil_append]
      rw [triedBytes_high _ (by omega), triedBytes_high _ (by omega), ih]; simp
    · have := isCont_range g5
      have := isCont_range g6
      simp only [tried, runeLen, e, List.length_cons, List.length_nil, List.cons_append, List.nil_append]
      rw [triedBytes_high _ (by omega), triedBytes_high _ (by omega), triedBytes_high _ (by omega), ih]; simp
    · have := isCont_range g5
      have := isCont_range g6
      have := isCont_range g7
      simp only [tried, runeLen, e, List.length_cons, List.length_nil, List.cons_append, List.nil_append]
      rw [triedBytes_high _ (by omega), triedBytes_high _ (by omega), triedBytes_high _ (by omega),
        triedBytes_high _ (by omega), ih]; simp

/-- On bytes that are not UTF-8, with terms that are not either: of `\xff\xffa` the terms `\xff\xff` and `##a` are found,
of `a\xff` the term `a` is not, since the search looks only at the end. -/
example :
    let m : WordPiece := ⟨Vocab.fromJSON (some [(b!"[UNK]", 0), (b!"a", 1), ([0xff, 0xff], 2), (b!"##a", 3),
      (b!"##" ++ [0xff], 4)]) [], b!"[UNK]", b!"##", 100⟩
    m.tokenize [0xff, 0xff, 0x61] = .ok [⟨2, [0xff, 0xff], ⟨0, 2⟩⟩, ⟨3, b!"##a", ⟨2, 3⟩⟩]
    ∧ m.tokenize [0x61, 0xff] = .ok [⟨0, b!"[UNK]", ⟨0, 2⟩⟩] := by decide +kernel

end Verif
