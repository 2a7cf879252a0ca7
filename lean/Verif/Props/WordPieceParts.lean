import Verif.Props.WordPieceExact
import Verif.Props.Offsets

/-! Parts of a word that WordPiece has cut (C107). -/

set_option autoImplicit false

namespace Verif
namespace WordPiece

/-- The ends that a search in `s` looks at, from one down to another. -/
inductive Walk (s : Str) : Int → Int → Prop
  | refl (e : Int) : Walk s e e
  | step {stop e : Int} {b : UInt8} : 0 < stop → stop ≤ s.length → s[stop.toNat - 1]? = some b →
      Walk s (stop - byteStringLen b) e → Walk s stop e

theorem Walk.le {s : Str} {stop e : Int} (h : Walk s stop e) : e ≤ stop := by
  induction h with
  | refl => omega
  | @step stop e b _ _ _ _ ih => have := byteStringLen_pos b; omega

theorem Inner.walk {m : WordPiece} {s : Str} {start : Nat} {stop : Int} {r : Option Token} (h : Inner m s start stop r)
    (hl : stop ≤ s.length) {t : Token} (ht : r = some t) : Walk s stop t.offsets.stop := by
  induction h with
  | stop => simp at ht
  | hit => simp at ht; subst ht; exact .refl _
  | @step stop b r h hg hb hr ih =>
    have := byteStringLen_pos b
    rw [piece_last (by omega) (by omega)] at hb
    exact .step (by omega) hl hb (ih (by omega) ht)

theorem piece_take {m : WordPiece} {s : Str} {start stop e : Nat} (h : stop ≤ e) : m.piece (s.take e) start stop = m.piece s start stop := by
  unfold piece
  congr 1
  rw [List.drop_take, List.take_take]
  congr 1
  omega

/-- A search that starts at the end of the front part finds what it finds in the whole. -/
theorem Inner.take {m : WordPiece} {s : Str} {start e : Nat} {stop : Int} {r : Option Token} (h : Inner m s start stop r)
    (hl : stop ≤ e) : Inner m (s.take e) start stop r := by
  induction h with
  | stop h => exact .stop h
  | @hit stop id h hg =>
    have e := piece_take (m := m) (s := s) (start := start) (show stop.toNat ≤ e by omega)
    rw [← e] at hg ⊢
    exact .hit h hg
  | @step stop b r h hg hb hr ih =>
    have := byteStringLen_pos b
    have e := piece_take (m := m) (s := s) (start := start) (show stop.toNat ≤ e by omega)
    rw [← e] at hg hb
    exact .step h hg hb (ih (by omega))

theorem Inner.front {m : WordPiece} {s : Str} {start e : Nat} {stop e' : Int} (hw : Walk s stop e') (he : e' = e) {t : Token}
    (h : Inner m s start stop (some t)) (ht : t.offsets.stop ≤ e) : Inner m (s.take e) start e (some t) := by
  induction hw with
  | refl => subst he; exact h.take (Int.le_refl _)
  | @step stop e' b h0 hl hb hw ih =>
    have hb0 := byteStringLen_pos b
    have hle := hw.le
    generalize hr : some t = r at h
    cases h with
    | stop => simp at hr
    | hit => simp at hr; subst hr; simp at ht; omega
    | step h1 h2 h3 h4 =>
      subst hr
      rw [piece_last (by omega) (by omega), hb] at h3
      simp at h3
      subst h3
      exact ih he h4

theorem Outer.front {m : WordPiece} {s : Str} : ∀ (A : List Token) {B : List Token} {start : Nat} {t : Token},
    Outer m s start (some (A ++ B)) → start ≤ s.length → A.getLast? = some t →
      Walk s s.length t.offsets.stop ∧ (start : Int) < t.offsets.stop ∧ t.offsets.stop ≤ s.length
        ∧ Outer m (s.take t.offsets.stop.toNat) start (some A)
  | [], B, start, t, _, _, ht => by simp at ht
  | a :: A, B, start, t, h, hs, ht => by
    generalize hr : some (a :: A ++ B) = r at h
    cases h with
    | done => simp at hr
    | bad => simp at hr
    | @token _ x r h1 hi ho =>
      cases r with
      | none => simp at hr
      | some ts =>
        simp only [List.cons_append, Option.map_some, Option.some.injEq, List.cons.injEq] at hr
        obtain ⟨rfl, rfl⟩ := hr
        obtain ⟨e, k1, k2, k3, -⟩ := hi.sound a rfl
        have hstop : a.offsets.stop = e := by rw [k1]
        cases A with
        | nil =>
          simp at ht
          subst ht
          have hw := hi.walk (Int.le_refl _) rfl
          refine ⟨hw, by omega, by omega, ?_⟩
          have hlen : (s.take a.offsets.stop.toNat).length = e := by rw [List.length_take, hstop]; omega
          have := Outer.token (m := m) (s := s.take a.offsets.stop.toNat) (start := start) (t := a) (r := some []) (by omega)
            (by
              rw [hlen]
              have := hi.front hw hstop (by omega)
              rwa [hstop, Int.toNat_natCast])
            (.done (by omega))
          simpa using this
        | cons y A =>
          rw [List.getLast?_cons_cons] at ht
          obtain ⟨hw, q1, q2, q3⟩ := Outer.front (y :: A) (t := t) ho (by omega) ht
          have q1' : a.offsets.stop < t.offsets.stop := by omega
          refine ⟨hw, by omega, q2, ?_⟩
          obtain ⟨f, hf⟩ : ∃ f : Nat, t.offsets.stop = f := ⟨t.offsets.stop.toNat, by omega⟩
          have hlen : (s.take t.offsets.stop.toNat).length = f := by rw [List.length_take]; omega
          have := Outer.token (m := m) (s := s.take t.offsets.stop.toNat) (start := start) (t := a) (r := some (y :: A)) (by omega)
            (by
              rw [hlen]
              have := hi.front hw hf (by omega)
              rwa [hf, Int.toNat_natCast])
            q3
          simpa using this

/-! ## What comes after a boundary -/

theorem piece_shift (m : WordPiece) {p p' q : Str} (hp : p ≠ []) (hp' : p' ≠ []) (k l : Nat) :
    m.piece (p' ++ q) (p'.length + k) (p'.length + l) = m.piece (p ++ q) (p.length + k) (p.length + l) := by
  have h0 := List.length_pos_iff.2 hp
  have h0' := List.length_pos_iff.2 hp'
  unfold piece
  rw [if_neg (by omega), if_neg (by omega), List.drop_append_of_le_length' p' q k, List.drop_append_of_le_length' p q k]
  congr 2
  omega
where
  List.drop_append_of_le_length' (p q : Str) (k : Nat) : (p ++ q).drop (p.length + k) = q.drop k := by
    rw [← List.drop_drop, List.drop_left]

theorem Inner.shift {m : WordPiece} {p p' q : Str} (hp : p ≠ []) (hp' : p' ≠ []) {k : Nat} {stop : Int} {r : Option Token}
    (h : Inner m (p ++ q) (p.length + k) stop r) {stop' : Int} (hs : stop' = stop + ((p'.length : Int) - p.length)) :
    Inner m (p' ++ q) (p'.length + k) stop' (r.map (Token.moved ((p'.length : Int) - p.length))) := by
  induction h generalizing stop' with
  | stop h => exact .stop (by omega)
  | @hit stop id h hg =>
    have e : m.piece (p' ++ q) (p'.length + k) stop'.toNat = m.piece (p ++ q) (p.length + k) stop.toNat := by
      have := piece_shift m (q := q) hp hp' k (stop.toNat - p.length)
      rwa [show p'.length + (stop.toNat - p.length) = stop'.toNat by omega, show p.length + (stop.toNat - p.length) = stop.toNat by omega] at this
    rw [← e] at hg
    have := Inner.hit (m := m) (s := p' ++ q) (start := p'.length + k) (stop := stop') (by omega) hg
    rw [e] at this
    simp only [Option.map_some, Token.moved]
    rw [show ((p'.length : Int) - p.length + ((p.length + k : Nat) : Int)) = ((p'.length + k : Nat) : Int) by omega,
      show ((p'.length : Int) - p.length + stop) = stop' by omega]
    exact this
  | @step stop b r h hg hb hr ih =>
    have e : m.piece (p' ++ q) (p'.length + k) stop'.toNat = m.piece (p ++ q) (p.length + k) stop.toNat := by
      have := piece_shift m (q := q) hp hp' k (stop.toNat - p.length)
      rwa [show p'.length + (stop.toNat - p.length) = stop'.toNat by omega, show p.length + (stop.toNat - p.length) = stop.toNat by omega] at this
    rw [← e] at hg hb
    exact .step (by omega) hg hb (ih (by omega))

theorem Outer.shift {m : WordPiece} {p p' q : Str} (hp : p ≠ []) (hp' : p' ≠ []) {start : Nat} {r : Option (List Token)}
    (h : Outer m (p ++ q) start r) (k : Nat) (hk : start = p.length + k) :
    Outer m (p' ++ q) (p'.length + k) (r.map fun ts => ts.map (Token.moved ((p'.length : Int) - p.length))) := by
  induction h generalizing k with
  | done h => subst hk; exact .done (by simp at h ⊢; omega)
  | bad h hi =>
    subst hk
    exact .bad (by simp at h ⊢; omega) (hi.shift hp hp' (by simp; omega))
  | @token start t r h hi ho ih =>
    subst hk
    obtain ⟨e, k1, k2, k3, -⟩ := hi.sound t rfl
    have hstop : t.offsets.stop = e := by rw [k1]
    have := ih (e - p.length) (by rw [hstop]; omega)
    have := Outer.token (m := m) (s := p' ++ q) (start := p'.length + k) (t := Token.moved ((p'.length : Int) - p.length) t)
      (by simp at h ⊢; omega) (hi.shift hp hp' (by simp; omega)) (by
        rw [show (Token.moved ((p'.length : Int) - p.length) t).offsets.stop.toNat = p'.length + (e - p.length) by
          show ((p'.length : Int) - p.length + t.offsets.stop).toNat = _
          omega]
        exact this)
    cases r with
    | none => exact this
    | some ts => exact this

theorem Outer.rest {m : WordPiece} {s : Str} : ∀ (A : List Token) {B : List Token} {start : Nat} {t : Token},
    Outer m s start (some (A ++ B)) → A.getLast? = some t → Outer m s t.offsets.stop.toNat (some B)
  | [], B, start, t, _, ht => by simp at ht
  | a :: A, B, start, t, h, ht => by
    generalize hr : some (a :: A ++ B) = r at h
    cases h with
    | done => simp at hr
    | bad => simp at hr
    | @token _ x r h1 hi ho =>
      cases r with
      | none => simp at hr
      | some ts =>
        simp only [List.cons_append, Option.map_some, Option.some.injEq, List.cons.injEq] at hr
        obtain ⟨rfl, rfl⟩ := hr
        cases A with
        | nil => simp at ht; subst ht; exact ho
        | cons y A =>
          rw [List.getLast?_cons_cons] at ht
          exact Outer.rest (y :: A) ho ht

end WordPiece

open WordPiece

/-- What the result is, if it is more than the unknown token over everything. -/
theorem tokenize_outer {m : WordPiece} {s : Str} {ts : List Token} (h : m.tokenize s = .ok ts) :
    Outer m s 0 (some ts) ∨ ∃ id, ts = [⟨id, m.unknownToken, ⟨0, s.length⟩⟩] := by
  have hu : m.tokenize s = m.unknown s → ∃ id, ts = [⟨id, m.unknownToken, ⟨0, s.length⟩⟩] := by
    intro e
    rw [e] at h
    unfold unknown at h
    cases hg : m.vocab.getID m.unknownToken with
    | none => rw [hg] at h; simp at h
    | some id => rw [hg] at h; simp at h; exact ⟨id, h.symm⟩
  rcases tokenize_cases m s with ⟨-, e⟩ | ⟨-, -, e⟩ | ⟨-, ts', ho, e⟩
  · exact .inr (hu e)
  · exact .inr (hu e)
  · rw [e] at h
    simp at h
    subst h
    exact .inl ho

/-- **C107, the front.** If a word is cut into tokens, then the text up to the end of any token, if it is within the limit, gives
the tokens up to there. -/
theorem C107_front (m : WordPiece) (s : Str) (A B : List Token) (t : Token) (h : m.tokenize s = .ok (A ++ B)) (ht : A.getLast? = some t)
    (hl : ((runesOf (s.take t.offsets.stop.toNat)).length : Int) ≤ m.maxInputCharsPerWord) :
    m.tokenize (s.take t.offsets.stop.toNat) = .ok A := by
  rcases tokenize_outer h with ho | ⟨id, e⟩
  · obtain ⟨-, -, -, q⟩ := Outer.front A ho (Nat.zero_le _) ht
    exact (C36_terminates m _).2 _ q hl
  · obtain ⟨rfl, rfl⟩ : A = [⟨id, m.unknownToken, ⟨0, s.length⟩⟩] ∧ B = [] := by
      cases A with
      | nil => simp at ht
      | cons a A =>
        simp only [List.cons_append, List.cons.injEq, List.append_eq_nil_iff] at e
        exact ⟨by rw [e.1, e.2.1], e.2.2⟩
    simp at ht
    subst ht
    simpa using h

/-- The places of tokens that are made of whole characters. -/
theorem whole_stop {m : WordPiece} {pre rest : List Rune} {A B : List Token} {t : Token} (h : WholeTokens m pre rest (A ++ B))
    (ht : A.getLast? = some t) : ∃ a b, rest = a ++ b ∧ t.offsets.stop = (encodeRunes (pre ++ a)).length := by
  induction A generalizing pre rest with
  | nil => simp at ht
  | cons x A ih =>
    generalize hr : x :: A ++ B = ts at h
    cases h with
    | nil => simp at hr
    | @cons _ hd tl id ts hne hk hg =>
      simp only [List.cons_append, List.cons.injEq] at hr
      obtain ⟨rfl, rfl⟩ := hr
      cases A with
      | nil => simp at ht; subst ht; exact ⟨hd, tl, rfl, by simp⟩
      | cons y A =>
        rw [List.getLast?_cons_cons] at ht
        obtain ⟨a, b, rfl, e⟩ := ih hg ht
        exact ⟨hd ++ a, b, by simp, by rw [e, List.append_assoc]⟩

/-- **C107, the front of a valid word.** With a vocabulary of valid terms the limit needs no condition. -/
theorem C107_valid (m : WordPiece) (hval : m.vocab.AllValid) (rs : List Rune) (hv : ∀ r ∈ rs, ValidRune r) (A B : List Token) (t : Token)
    (h : m.tokenize (encodeRunes rs) = .ok (A ++ B)) (ht : A.getLast? = some t) :
    ∃ rs1 rs2, rs = rs1 ++ rs2 ∧ t.offsets.stop = (encodeRunes rs1).length ∧ m.tokenize (encodeRunes rs1) = .ok A := by
  rcases tokenize_outer h with ho | ⟨id, e⟩
  · have hw := Tiles.whole hval (A ++ B) [] rs (ho.tiles (Nat.zero_le _) _ rfl)
    obtain ⟨a, b, rfl, e⟩ := whole_stop hw ht
    rw [List.nil_append] at e
    refine ⟨a, b, rfl, e, ?_⟩
    have hmax : ((a ++ b).length : Int) ≤ m.maxInputCharsPerWord ∨ B = [] := by
      rcases tokenize_cases m (encodeRunes (a ++ b)) with ⟨-, e'⟩ | ⟨-, h2, -⟩ | ⟨h1, -⟩
      · right
        rw [e'] at h
        unfold unknown at h
        cases hg : m.vocab.getID m.unknownToken with
        | none => rw [hg] at h; simp at h
        | some id =>
          rw [hg] at h
          simp only [Except.ok.injEq] at h
          cases A with
          | nil => simp at ht
          | cons x A =>
            simp only [List.cons_append, List.cons.injEq] at h
            exact (List.append_eq_nil_iff.1 h.2.symm).2
      · exact absurd (h2.det ho) (by simp)
      · rw [runesOf_encodeRunes _ hv] at h1
        exact .inl h1
    have htake : (encodeRunes (a ++ b)).take t.offsets.stop.toNat = encodeRunes a := by
      rw [e, encodeRunes_append, Int.toNat_natCast, List.take_left]
    rcases hmax with hmax | rfl
    · rw [← htake]
      refine C107_front m _ A B t h ht ?_
      rw [htake, runesOf_encodeRunes a fun r hr => hv r (by simp [hr])]
      simp at hmax
      omega
    · -- the last token ends at the end
      have hfr := Outer.front A ho (Nat.zero_le _) ht
      have hr := Outer.rest A ho ht
      generalize hx : some ([] : List Token) = r at hr
      cases hr with
      | done hd =>
        have : (encodeRunes (a ++ b)).length = (encodeRunes a).length := by
          have := hfr.2.2.1
          omega
        have hb : b = [] := by
          rw [encodeRunes_append, List.length_append] at this
          have := length_le_encodeRunes b
          exact List.length_eq_zero_iff.1 (by omega)
        subst hb
        simpa using h
      | bad => simp at hx
      | @token _ _ r => cases r <;> simp at hx
  · obtain ⟨rfl, rfl⟩ : A = [⟨id, m.unknownToken, ⟨0, (encodeRunes rs).length⟩⟩] ∧ B = [] := by
      cases A with
      | nil => simp at ht
      | cons a A =>
        simp only [List.cons_append, List.cons.injEq, List.append_eq_nil_iff] at e
        exact ⟨by rw [e.1, e.2.1], e.2.2⟩
    simp at ht
    subst ht
    exact ⟨rs, [], by simp, rfl, by simpa using h⟩

/-- **C107, the rest.** The tokens after the end of a token depend only on the text after it: two words that go on in the same way
have there the same tokens, at places moved by the difference. -/
theorem C107_rest (m : WordPiece) (p p' q : Str) (A B A' B' : List Token) (t t' : Token)
    (h : m.tokenize (p ++ q) = .ok (A ++ B)) (h' : m.tokenize (p' ++ q) = .ok (A' ++ B'))
    (ht : A.getLast? = some t) (ht' : A'.getLast? = some t') (hp : t.offsets.stop = p.length) (hp' : t'.offsets.stop = p'.length) :
    B' = B.map (Token.moved ((p'.length : Int) - p.length)) := by
  have single : ∀ {p : Str} {A B : List Token} {t : Token}, (∃ id, A ++ B = [⟨id, m.unknownToken, ⟨0, (p ++ q).length⟩⟩]) → A.getLast? = some t →
      t.offsets.stop = p.length → B = [] ∧ q = [] := by
    rintro p A B t ⟨id, e⟩ ht hp
    cases A with
    | nil => simp at ht
    | cons a A =>
      simp only [List.cons_append, List.cons.injEq, List.append_eq_nil_iff] at e
      obtain ⟨rfl, rfl, rfl⟩ := e
      simp at ht
      subst ht
      simp at hp
      exact ⟨rfl, List.length_eq_zero_iff.1 (by omega)⟩
  have ended : ∀ {p : Str} {A B : List Token} {t : Token}, q = [] → Outer m (p ++ q) 0 (some (A ++ B)) → A.getLast? = some t →
      t.offsets.stop = p.length → B = [] := by
    rintro p A B t rfl ho ht hp
    have hr := Outer.rest A ho ht
    rw [hp] at hr
    generalize hx : some B = r at hr
    cases hr with
    | done => simpa using hx
    | bad hd => simp at hd
    | token hd => simp at hd
  rcases tokenize_outer h with ho | hu <;> rcases tokenize_outer h' with ho' | hu'
  · obtain ⟨-, q1, -, -⟩ := Outer.front A ho (Nat.zero_le _) ht
    obtain ⟨-, q1', -, -⟩ := Outer.front A' ho' (Nat.zero_le _) ht'
    have n1 : p ≠ [] := List.length_pos_iff.1 (by omega)
    have n1' : p' ≠ [] := List.length_pos_iff.1 (by omega)
    have hr := (Outer.rest A ho ht).shift (p' := p') n1 n1' 0 (by omega)
    have hr' := Outer.rest A' ho' ht'
    rw [show t'.offsets.stop.toNat = p'.length + 0 by omega] at hr'
    have := hr'.det hr
    simpa using this
  · obtain ⟨e1, e2⟩ := single hu' ht' hp'
    rw [e1, ended e2 ho ht hp]; rfl
  · obtain ⟨e1, e2⟩ := single hu ht hp
    rw [e1, ended e2 ho' ht' hp']; rfl
  · rw [(single hu ht hp).1, (single hu' ht' hp').1]; rfl

/-- **C107, a longer vocabulary.** Unlike with BPE (C105), a further term can make a word unknown. -/
theorem C107_counterexample :
    let es := [(b!"[UNK]", (0 : Int)), (b!"a", 1), (b!"##bc", 2)]
    (WordPiece.mk (Vocab.fromJSON (some es) []) b!"[UNK]" b!"##" 100).tokenize b!"abc" = .ok [⟨1, b!"a", ⟨0, 1⟩⟩, ⟨2, b!"##bc", ⟨1, 3⟩⟩]
    ∧ (WordPiece.mk (Vocab.fromJSON (some (es ++ [(b!"ab", 3)])) []) b!"[UNK]" b!"##" 100).tokenize b!"abc" = .ok [⟨0, b!"[UNK]", ⟨0, 3⟩⟩] := by
  decide +kernel

/-- The front of "世界中a" up to a token. -/
example :
    let m : WordPiece := ⟨Vocab.fromJSON (some [(b!"[UNK]", 0), (b!"世", 1), (b!"##界", 2), (b!"##界中", 3), (b!"##a", 4)]) [],
      b!"[UNK]", b!"##", 100⟩
    m.tokenize b!"世界中a" = .ok [⟨1, b!"世", ⟨0, 3⟩⟩, ⟨3, b!"##界中", ⟨3, 9⟩⟩, ⟨4, b!"##a", ⟨9, 10⟩⟩]
    ∧ m.tokenize b!"世界中" = .ok [⟨1, b!"世", ⟨0, 3⟩⟩, ⟨3, b!"##界中", ⟨3, 9⟩⟩] ∧ m.tokenize b!"世" = .ok [⟨1, b!"世", ⟨0, 3⟩⟩] := by decide +kernel

end Verif
