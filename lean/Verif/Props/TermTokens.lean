import Verif.Props.MergeCut
import Verif.Props.WordPieceParts

/-! C111: which terms of a vocabulary are ever tokens. -/

set_option autoImplicit false

namespace Verif

open Ref Json

/-- A piece that BPE makes was there or is the product of a rule. -/
theorem bpe_origin {rules : List (Str × Str)} {x : Str} : ∀ (n : Nat) (w : List Str), w.length ≤ n → x ∈ bpe rules w →
    x ∈ w ∨ ∃ r ∈ rules, x = r.1 ++ r.2
  | 0, w, h, hx => by
    rw [List.length_eq_zero_iff.1 (by omega : w.length = 0)] at hx ⊢
    exact .inl (by rwa [bpe_none (by simp [firstRule, neighbours])] at hx)
  | n + 1, w, h, hx => by
    cases hr : firstRule rules w with
    | none => rw [bpe_none hr] at hx; exact .inl hx
    | some r =>
      obtain ⟨a, b⟩ := r
      have hm := (firstRule_some.1 hr).1
      have hl := mergeFirst_length hm
      obtain ⟨A, B, e1, e2, -⟩ := mergeFirst_split hm
      rw [bpe_some hr] at hx
      rcases bpe_origin n _ (by omega) hx with hx | hx
      · rw [e2] at hx
        simp only [List.mem_append, List.mem_cons] at hx
        rcases hx with hx | rfl | hx
        · exact .inl (by rw [e1]; simp [hx])
        · have hmem : (a, b) ∈ lastOnly rules := List.mem_of_find?_eq_some hr
          exact .inr ⟨(a, b), mem_lastOnly.1 hmem, rfl⟩
        · exact .inl (by rw [e1]; simp [hx])
      · exact .inr hx

/-- One piece stays. -/
theorem bpe_one (rules : List (Str × Str)) (x : Str) : bpe rules [x] = [x] :=
  bpe_none (by simp [firstRule, neighbours])

/-- A piece that comes up anywhere is what BPE makes of its own characters. -/
theorem bpe_alone {rules : List (Str × Str)} {rs : List Rune} {x : Str} (h : x ∈ bpe rules (rs.map encodeRune)) :
    ∃ rs', (∀ r ∈ rs', r ∈ rs) ∧ x = encodeRunes rs' ∧ bpe rules (rs'.map encodeRune) = [x] := by
  obtain ⟨A, B, e⟩ := List.append_of_mem h
  obtain ⟨w1, w2, w3, h1, -, h2, -⟩ := C106_rules (A := A) (M := [x]) (B := B) (by simpa using e)
  obtain ⟨rs', rs3, rfl, e', -⟩ := List.map_eq_append_iff.1 h1
  obtain ⟨rs1, rs2, rfl, -, rfl⟩ := List.map_eq_append_iff.1 e'
  refine ⟨rs2, fun r hr => by simp [hr], ?_, h2⟩
  have := bpe_flatten rules (rs2.map encodeRune)
  rw [h2] at this
  simpa [encodeRunes, List.flatMap_def] using this

/-- A text of known characters: the characters are terms. -/
def KnownText (es : List (Str × Int)) (rs : List Rune) : Prop := (∀ r ∈ rs, ValidRune r) ∧ ∀ r ∈ rs, encodeRune r ∈ es.map (·.1)

/-- Some text of known characters has the term as a token. -/
def EverToken (m : BPE) (es : List (Str × Int)) (x : Str) : Prop :=
  ∃ rs rnd ts, KnownText es rs ∧ m.tokenize rnd (encodeRunes rs) = .ok (.ok (some ts)) ∧ ∃ t ∈ ts, t.value = x

/-- The term is a text of known characters and its own only token. -/
def OwnToken (m : BPE) (es : List (Str × Int)) (x : Str) : Prop :=
  ∃ rs id, KnownText es rs ∧ x = encodeRunes rs ∧ (x, id) ∈ es ∧ ∀ rnd, m.tokenize rnd x = .ok (.ok (some [⟨id, x, ⟨0, x.length⟩⟩]))

theorem tokens_knownText {es : List (Str × Int)} {rules : List (Str × Str)} {v : Vocab} {merges : MergeMap}
    (hv : ∀ e ∈ es, ValidUtf8 e.1 ∧ e.1 ≠ []) (h2 : mergeMapFromFile (writeRules rules) v 0 = .ok (.ok merges))
    (h3 : ∀ t i, v.getID t = some i ↔ (t, i) ∈ es) (h4 : TableOf v rules merges)
    (capacity : Int) (unk : Str) (fuse : Bool) (hu : unk = [] ∨ unk ∈ es.map (·.1)) {rs : List Rune} (hk : KnownText es rs) (rnd : Nat → Bool) :
    ∃ ts, (plainBPE v merges capacity unk [] fuse).tokenize rnd (encodeRunes rs) = .ok (.ok (some ts))
      ∧ ts.map (·.value) = bpe rules (rs.map encodeRune) ∧ (∀ t ∈ ts, (t.value, t.id) ∈ es)
      ∧ ts.map (fun t => (t.value, t.offsets.start, t.offsets.stop)) = placed 0 (bpe rules (rs.map encodeRune)) := by
  obtain ⟨ts, a1, a2, a3, a4⟩ := loaded_tokens hv h2 h3 h4 capacity unk [] fuse rnd rs hu hk.1 (by
    intro x hx
    rw [suffixed_nil] at hx
    obtain ⟨r, hr, rfl⟩ := List.mem_map.1 hx
    exact hk.2 r hr)
  rw [suffixed_nil] at a2
  exact ⟨ts, a1, a2, a3, a4 rfl⟩

theorem ever_iff {es : List (Str × Int)} {rules : List (Str × Str)} {v : Vocab} {merges : MergeMap}
    (hv : ∀ e ∈ es, ValidUtf8 e.1 ∧ e.1 ≠ []) (hk : (es.map (·.1)).Nodup) (h2 : mergeMapFromFile (writeRules rules) v 0 = .ok (.ok merges))
    (h3 : ∀ t i, v.getID t = some i ↔ (t, i) ∈ es) (h4 : TableOf v rules merges)
    (capacity : Int) (unk : Str) (fuse : Bool) (hu : unk = [] ∨ unk ∈ es.map (·.1)) (x : Str) :
    (EverToken (plainBPE v merges capacity unk [] fuse) es x
      ↔ ∃ rs, KnownText es rs ∧ x = encodeRunes rs ∧ bpe rules (rs.map encodeRune) = [x])
    ∧ (OwnToken (plainBPE v merges capacity unk [] fuse) es x
      ↔ ∃ rs, KnownText es rs ∧ x = encodeRunes rs ∧ bpe rules (rs.map encodeRune) = [x]) := by
  have one : ∀ rs, KnownText es rs → x = encodeRunes rs → bpe rules (rs.map encodeRune) = [x] →
      OwnToken (plainBPE v merges capacity unk [] fuse) es x := by
    intro rs hrs e hb
    have all : ∀ rnd, ∃ id, (x, id) ∈ es
        ∧ (plainBPE v merges capacity unk [] fuse).tokenize rnd x = .ok (.ok (some [⟨id, x, ⟨0, x.length⟩⟩])) := by
      intro rnd
      obtain ⟨ts, a1, -, a3, a4⟩ := tokens_knownText hv h2 h3 h4 capacity unk fuse hu hrs rnd
      rw [hb] at a4
      simp only [placed, List.map_eq_cons_iff, List.map_eq_nil_iff] at a4
      obtain ⟨t, _, rfl, a4, rfl⟩ := a4
      simp only [Prod.mk.injEq] at a4
      obtain ⟨b1, b2, b3⟩ := a4
      have := a3 t (by simp)
      rw [b1] at this
      refine ⟨t.id, this, ?_⟩
      rw [e, a1, ← e, ← b1]
      rw [← b1] at b3
      congr 4
      rcases t with ⟨id, value, ⟨s, e⟩⟩
      simp only at b2 b3 ⊢
      rw [b2, b3]
      simp
    obtain ⟨id, i1, i2⟩ := all fun _ => false
    refine ⟨rs, id, hrs, e, i1, fun rnd => ?_⟩
    obtain ⟨id', j1, j2⟩ := all rnd
    rw [j2, nodup_keys_eq hk i1 j1]
  refine ⟨⟨?_, ?_⟩, ?_, ?_⟩
  · rintro ⟨rs, rnd, ts, hrs, ht, t, hm, rfl⟩
    obtain ⟨ts', a1, a2, -, -⟩ := tokens_knownText hv h2 h3 h4 capacity unk fuse hu hrs rnd
    rw [ht] at a1
    simp only [GoM.ok.injEq, Except.ok.injEq, Option.some.injEq] at a1
    subst a1
    obtain ⟨rs', b1, b2, b3⟩ := bpe_alone (a2 ▸ List.mem_map_of_mem hm)
    exact ⟨rs', ⟨fun r hr => hrs.1 r (b1 r hr), fun r hr => hrs.2 r (b1 r hr)⟩, b2, b3⟩
  · rintro ⟨rs, hrs, e, hb⟩
    obtain ⟨rs, id, k1, k2, -, k3⟩ := one rs hrs e hb
    exact ⟨rs, fun _ => false, _, k1, k2 ▸ k3 _, _, List.mem_singleton.2 rfl, k2.symm⟩
  · rintro ⟨rs, id, k1, k2, -, k3⟩
    obtain ⟨ts, a1, a2, -, -⟩ := tokens_knownText hv h2 h3 h4 capacity unk fuse hu k1 fun _ => false
    rw [← k2, k3] at a1
    simp only [GoM.ok.injEq, Except.ok.injEq, Option.some.injEq] at a1
    subst a1
    exact ⟨rs, k1, k2, a2.symm⟩
  · rintro ⟨rs, hrs, e, hb⟩
    exact one rs hrs e hb

/-- **C111, BPE.** With a vocabulary and rules from files, a term is ever a token of a text of known characters exactly if it is such a
text itself and its own only token.  Then it is a single character or the product of a rule, and every single character is such. -/
theorem C111_bpe (m : Machine) (es : List (Str × Int)) (rules : List (Str × Str))
    (order : GoMap Str Int → List (Str × Int)) (ho : IterationOrder order)
    (hv : ∀ e ∈ es, ValidUtf8 e.1 ∧ e.1 ≠ []) (hi : ∀ e ∈ es, -(m.half : Int) ≤ e.2 ∧ e.2 < m.half)
    (hk : (es.map (·.1)).Nodup) (hid : (es.map (·.2)).Nodup) (hw : ∀ r ∈ rules, Writable r)
    (hr : ∀ r ∈ rules, ∀ t ∈ [r.1, r.2, r.1 ++ r.2], t ∈ es.map (·.1)) :
    ∃ v merges, Vocab.fromJSONFile m (writeVocab es) order = .ok v
      ∧ mergeMapFromFile (writeRules rules) v 0 = .ok (.ok merges)
      ∧ ∀ (capacity : Int) (unk : Str) (fuse : Bool) (x : Str), unk = [] ∨ unk ∈ es.map (·.1) →
        (EverToken (plainBPE v merges capacity unk [] fuse) es x ↔ OwnToken (plainBPE v merges capacity unk [] fuse) es x)
        ∧ (EverToken (plainBPE v merges capacity unk [] fuse) es x →
            (∃ r, ValidRune r ∧ x = encodeRune r) ∨ ∃ r ∈ rules, x = r.1 ++ r.2)
        ∧ ∀ r, ValidRune r → encodeRune r ∈ es.map (·.1) → EverToken (plainBPE v merges capacity unk [] fuse) es (encodeRune r) := by
  obtain ⟨v, merges, h1, h2, h3, h4⟩ := C82_files m es rules order ho (fun e he => (hv e he).1) hi hk hid hw hr
  refine ⟨v, merges, h1, h2, ?_⟩
  intro capacity unk fuse x hu
  obtain ⟨i1, i2⟩ := ever_iff hv hk h2 h3 h4 capacity unk fuse hu x
  refine ⟨i1.trans i2.symm, ?_, ?_⟩
  · intro h
    obtain ⟨rs, k1, k2, k3⟩ := i1.1 h
    rcases bpe_origin _ _ (Nat.le_refl _) (by rw [k3]; simp : x ∈ bpe rules (rs.map encodeRune)) with h | h
    · obtain ⟨r, hr, rfl⟩ := List.mem_map.1 h
      exact .inl ⟨r, k1.1 r hr, rfl⟩
    · exact .inr h
  · intro r hr hx
    refine (ever_iff hv hk h2 h3 h4 capacity unk fuse hu (encodeRune r)).1.2 ⟨[r], ⟨by simpa using hr, by simpa using hx⟩, by simp [encodeRunes], ?_⟩
    exact bpe_one _ _

/-- **C111, more rules.** A term that is ever a token is so with further rules too (none of which is also among the first ones). -/
theorem C111_longer (m : Machine) (es : List (Str × Int)) (rules more : List (Str × Str))
    (order : GoMap Str Int → List (Str × Int)) (ho : IterationOrder order)
    (hv : ∀ e ∈ es, ValidUtf8 e.1 ∧ e.1 ≠ []) (hi : ∀ e ∈ es, -(m.half : Int) ≤ e.2 ∧ e.2 < m.half)
    (hk : (es.map (·.1)).Nodup) (hid : (es.map (·.2)).Nodup) (hw : ∀ r ∈ rules ++ more, Writable r)
    (hr : ∀ r ∈ rules ++ more, ∀ t ∈ [r.1, r.2, r.1 ++ r.2], t ∈ es.map (·.1)) (hd : ∀ r ∈ rules, r ∉ more) :
    ∃ v short whole, Vocab.fromJSONFile m (writeVocab es) order = .ok v
      ∧ mergeMapFromFile (writeRules rules) v 0 = .ok (.ok short)
      ∧ mergeMapFromFile (writeRules (rules ++ more)) v 0 = .ok (.ok whole)
      ∧ ∀ (capacity : Int) (unk : Str) (fuse : Bool) (x : Str), unk = [] ∨ unk ∈ es.map (·.1) →
        EverToken (plainBPE v short capacity unk [] fuse) es x → EverToken (plainBPE v whole capacity unk [] fuse) es x := by
  obtain ⟨v, whole, h1, h2, h3, h4⟩ := C82_files m es (rules ++ more) order ho (fun e he => (hv e he).1) hi hk hid hw hr
  obtain ⟨v', short, k1, k2, k3, k4⟩ := C82_files m es rules order ho (fun e he => (hv e he).1) hi hk hid
    (fun r h => hw r (by simp [h])) (fun r h => hr r (by simp [h]))
  rw [h1] at k1
  injection k1 with k1
  subst k1
  refine ⟨v, short, whole, h1, k2, h2, ?_⟩
  intro capacity unk fuse x hu h
  obtain ⟨rs, j1, j2, j3⟩ := (ever_iff hv hk k2 k3 k4 capacity unk fuse hu x).1.1 h
  refine (ever_iff hv hk h2 h3 h4 capacity unk fuse hu x).1.2 ⟨rs, j1, j2, ?_⟩
  rw [(C105_rules hd _).1, j3]
  exact bpe_one _ _

/-- **C111, a product that never comes up.** With the rules `a b`, `b c`, `a bc` no text gives `abc`, because `a b` comes first. -/
theorem C111_counterexample (rs : List Rune) (hv : ∀ r ∈ rs, ValidRune r) :
    b!"abc" ∉ bpe [(b!"a", b!"b"), (b!"b", b!"c"), (b!"a", b!"bc")] (rs.map encodeRune) := by
  intro h
  obtain ⟨rs', k1, k2, k3⟩ := bpe_alone h
  have e : rs' = [97, 98, 99] := by
    have := runesOf_encodeRunes rs' fun r hr => hv r (k1 r hr)
    rw [← k2] at this
    rw [← this]
    decide +kernel
  subst e
  revert k3
  decide +kernel

/-- With the rules `b c`, `a bc` it is its own token. -/
example : bpe [(b!"b", b!"c"), (b!"a", b!"bc")] [b!"a", b!"b", b!"c"] = [b!"abc"] := by decide +kernel

open WordPiece in
/-- **C111, WordPiece.** Every term within the limit is the only token of its own text. -/
theorem C111_wordPiece (m : WordPiece) (x : Str) (id : Int) (h : m.vocab.getID x = some id) (hx : x ≠ [])
    (hl : ((runesOf x).length : Int) ≤ m.maxInputCharsPerWord) : m.tokenize x = .ok [⟨id, x, ⟨0, x.length⟩⟩] := by
  have hp := List.length_pos_iff.2 hx
  obtain ⟨n, hn⟩ : ∃ n, x.length = n + 1 := ⟨x.length - 1, by omega⟩
  have hf : m.findToken x 0 x.length x.length = some ⟨id, x, ⟨0, x.length⟩⟩ := by
    have hs : m.subStr x 0 x.length = x := by simp [subStr]
    conv => lhs; arg 4; rw [hn]
    rw [findToken, if_pos (by simp; omega)]
    simp only [Int.toNat_natCast, hs, h]
    rfl
  have ht : m.tokenLoop x x.length 0 = some [⟨id, x, ⟨0, x.length⟩⟩] := by
    conv => lhs; arg 3; rw [hn]
    rw [tokenLoop, if_pos hp]
    simp only [hf, Int.toNat_natCast]
    cases n <;> rw [tokenLoop, if_neg (by omega)]
  rw [tokenize, if_neg (by omega), ht]

example : (WordPiece.mk (Vocab.fromJSON (some [(b!"[UNK]", 0), (b!"##世", 2)]) []) b!"[UNK]" b!"##" 100).tokenize b!"##世"
    = .ok [⟨2, b!"##世", ⟨0, 5⟩⟩] := by decide +kernel

end Verif
