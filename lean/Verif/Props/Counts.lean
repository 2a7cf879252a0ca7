import Verif.Props.Dropout
import Verif.Props.BertAgain
import Verif.Props.GptFiles
import Verif.Props.Work

/-! Property C117: how many tokens there are. -/

set_option autoImplicit false

namespace Verif

/-! ## BPE -/

namespace BPE

theorem pending_length_le (m : BPE) (u : Int) : ∀ (cs : List (Option Int × Int)) (p : Option (Int × Int)),
    (pending m u p cs).length ≤ p.toList.length + cs.length := by
  intro cs
  induction cs with
  | nil => intro p; simp [pending]
  | cons c cs ih =>
    intro p
    obtain ⟨o, len⟩ := c
    cases o with
    | some id =>
      have := ih none
      simp [pending] at this ⊢
      omega
    | none =>
      cases p with
      | none =>
        have h1 := ih (some (u, len))
        have h2 := ih none
        simp [pending] at h1 h2 ⊢
        split <;> omega
      | some p =>
        have h1 := ih (some (u, len))
        have h2 := ih (some (p.1, p.2 + len))
        have h3 := ih (some p)
        simp [pending] at h1 h2 h3 ⊢
        split
        · split
          · omega
          · simp; omega
        · omega

theorem pending_length_eq (m : BPE) (u : Int) (hf : m.unknownFusionEnabled = false) : ∀ (cs : List (Option Int × Int))
    (p : Option (Int × Int)), (m.hasUnknownToken = true ∨ ∀ c ∈ cs, c.1 ≠ none) →
    (pending m u p cs).length = p.toList.length + cs.length := by
  intro cs
  induction cs with
  | nil => intro p _; simp [pending]
  | cons c cs ih =>
    intro p h
    have h' : m.hasUnknownToken = true ∨ ∀ c ∈ cs, c.1 ≠ none := h.imp id fun h c hc => h c (by simp [hc])
    obtain ⟨o, len⟩ := c
    cases o with
    | some id =>
      have := ih none h'
      simp [pending] at this ⊢
      omega
    | none =>
      have hu : m.hasUnknownToken = true := h.resolve_right fun h => h (none, len) (by simp) rfl
      cases p with
      | none =>
        have := ih (some (u, len)) h'
        simp [pending, hu] at this ⊢
        omega
      | some p =>
        have := ih (some (u, len)) h'
        simp [pending, hu, hf] at this ⊢
        omega

theorem pending_ne (m : BPE) (u : Int) : ∀ (cs : List (Option Int × Int)) (p : Option (Int × Int)),
    (m.hasUnknownToken = true ∨ ∀ c ∈ cs, c.1 ≠ none) → p ≠ none ∨ cs ≠ [] → pending m u p cs ≠ [] := by
  intro cs
  induction cs with
  | nil =>
    intro p _ h
    cases p with
    | none => simp at h
    | some p => simp [pending]
  | cons c cs ih =>
    intro p h _
    have h' : m.hasUnknownToken = true ∨ ∀ c ∈ cs, c.1 ≠ none := h.imp id fun h c hc => h c (by simp [hc])
    obtain ⟨o, len⟩ := c
    cases o with
    | some id => simp [pending]
    | none =>
      have hu : m.hasUnknownToken = true := h.resolve_right fun h => h (none, len) (by simp) rfl
      cases p with
      | none =>
        simp only [pending, hu, if_true]
        exact ih _ h' (.inl (by simp))
      | some p =>
        simp only [pending, hu, if_true]
        split
        · exact ih _ h' (.inl (by simp))
        · simp

end BPE

theorem Star.shrinks {merges : MergeMap} {l l' : List (Int × Int)} (h : Star (MergeOne merges) l l') :
    l'.length ≤ l.length ∧ (l ≠ [] → l' ≠ []) := by
  induction h with
  | refl => exact ⟨Nat.le_refl _, id⟩
  | step _ h2 ih =>
    obtain ⟨A, B, a, b, v, _⟩ := h2
    refine ⟨?_, fun _ => by simp⟩
    have := ih.1
    simp at this ⊢
    omega

namespace BPE

/-- The tokens are what the merges have left of the initial symbols. -/
theorem tokens_from {m : BPE} {rnd : Nat → Bool} {s : Str} {ts : List Token} (hs : s ≠ [])
    (h : m.tokenize rnd s = .ok (.ok (some ts))) :
    ∃ u w', (built (pending m u none (m.lookups s))).mergeAll m.merges m.hasDropout rnd = .ok (some w')
      ∧ Positive (pending m u none (m.lookups s))
      ∧ Star (MergeOne m.merges) (pending m u none (m.lookups s)) (visible w') ∧ ts.length = (visible w').length := by
  rcases tokenize_eq m rnd s hs with ⟨-, h2⟩ | ⟨u, ss, w', hu, hss, hp, hw, -, ht⟩
  · rw [h] at h2; simp at h2
  · have htok : wordToTokens m.vocab w' 0 = .ok ts := by
      rw [h] at ht
      cases hx : wordToTokens m.vocab w' 0 with
      | error e => rw [hx] at ht; simp [Except.map] at ht
      | ok ts' => rw [hx] at ht; simp [Except.map] at ht; rw [ht]
    subst hss
    refine ⟨u, w', hw, hp, (C39_table_merges m.merges m.hasDropout rnd _ hp hw).1, ?_⟩
    rw [← wordToTokens_visible htok, List.length_map]

theorem covered_iff (m : BPE) (s : Str) : m.Covered s ↔ m.hasUnknownToken = true ∨ ∀ c ∈ m.lookups s, c.1 ≠ none := by
  rw [hasUnknownToken_iff]; rfl

theorem lookups_length (m : BPE) (s : Str) : (m.lookups s).length = (runesOf s).length := by simp [lookups]

theorem runesOf_ne {s : Str} (hs : s ≠ []) : runesOf s ≠ [] := by
  intro h
  cases s with
  | nil => exact hs rfl
  | cons b s =>
    have := WordPiece.length_le_runes (b :: s)
    rw [h] at this
    simp at this

/-- **C117, BPE.** There are never more tokens than characters, whatever the dropout does, and there is at least one
unless the text is empty or characters are left out. -/
theorem C117_bpe (m : BPE) (rnd : Nat → Bool) (s : Str) {ts : List Token} (h : m.tokenize rnd s = .ok (.ok (some ts))) :
    ts.length ≤ (runesOf s).length ∧ (s ≠ [] → m.Covered s → ts ≠ []) := by
  by_cases hs : s = []
  · subst hs
    rw [C57_empty] at h
    simp at h
    subst h
    simp
  · obtain ⟨u, w', -, -, h3, h4⟩ := tokens_from hs h
    obtain ⟨s1, s2⟩ := h3.shrinks
    have h5 := pending_length_le m u (m.lookups s) none
    rw [lookups_length] at h5
    refine ⟨by simp at h5; omega, fun _ hc => ?_⟩
    have h6 := s2 (pending_ne m u _ none ((covered_iff m s).1 hc) (.inr (by
      intro h0
      have := lookups_length m s
      rw [h0] at this
      exact runesOf_ne hs (List.length_eq_zero_iff.1 (by simpa using this.symm)))))
    intro h0
    rw [h0] at h4
    exact h6 (List.length_eq_zero_iff.1 h4.symm)

/-- **C117, full dropout.** When every merge is skipped and unknown characters are not fused, there is exactly one token for
each character. -/
theorem C117_full_dropout (m : BPE) (s : Str) (hd : m.hasDropout = true) (hf : m.unknownFusionEnabled = false) (hc : m.Covered s)
    {ts : List Token} (h : m.tokenize (fun _ => true) s = .ok (.ok (some ts))) : ts.length = (runesOf s).length := by
  by_cases hs : s = []
  · subst hs
    rw [C57_empty] at h
    simp at h
    subst h
    rfl
  · obtain ⟨u, w', h1, h2, -, h4⟩ := tokens_from hs h
    rw [hd, C42_full_dropout m.merges _ h2] at h1
    simp at h1
    subst h1
    have h5 := pending_length_eq m u hf (m.lookups s) none ((covered_iff m s).1 hc)
    rw [lookups_length] at h5
    rw [h4, built_visible h2, h5]
    simp

/-- The letters `a` to `d`, the pairs `bc`, `ab` and `cd`, merged in this order of preference; `dropout` as given. -/
def crossing (dropout : Bool) : BPE :=
  let terms := [(b!"a", (0 : Int)), (b!"b", 1), (b!"c", 2), (b!"d", 3), (b!"bc", 4), (b!"ab", 5), (b!"cd", 6)]
  ⟨Vocab.fromJSON (some terms) terms, [((1, 2), ⟨0, 4⟩), ((0, 1), ⟨1, 5⟩), ((2, 3), ⟨2, 6⟩)], ⟨10⟩, dropout, [], [], [], false⟩

/-- **C117 does not say** that dropout makes more tokens: skipping a merge can make room for two others. -/
theorem C117_dropout_fewer :
    ((crossing false).tokenize (fun _ => false) b!"abcd"
      = .ok (.ok (some [⟨0, b!"a", ⟨0, 1⟩⟩, ⟨4, b!"bc", ⟨1, 3⟩⟩, ⟨3, b!"d", ⟨3, 4⟩⟩])))
    ∧ ((crossing true).tokenize (fun k => k == 0) b!"abcd"
      = .ok (.ok (some [⟨5, b!"ab", ⟨0, 2⟩⟩, ⟨6, b!"cd", ⟨2, 4⟩⟩]))) := by decide +kernel

/-- Without an unknown token there may be no token at all. -/
example : (crossing false).tokenize (fun _ => false) b!"xy" = .ok (.ok (some [])) := by decide +kernel

/-- The bound is reached. -/
example : (crossing false).tokenize (fun _ => false) b!"dcb"
    = .ok (.ok (some [⟨3, b!"d", ⟨0, 1⟩⟩, ⟨2, b!"c", ⟨1, 2⟩⟩, ⟨1, b!"b", ⟨2, 3⟩⟩])) := by decide +kernel

end BPE

/-! ## WordPiece -/

namespace WordPiece

theorem Tiles.length_le {m : WordPiece} {s : Str} : ∀ (ts : List Token) (a : Nat), Tiles m s a ts →
    a + ts.length ≤ s.length ∧ (a < s.length → ts ≠ []) := by
  intro ts
  induction ts with
  | nil => intro a h; simp [Tiles] at h; subst h; simp
  | cons t ts ih =>
    rintro a ⟨stop, -, h1, -, -, -, h2⟩
    have := (ih stop h2).1
    refine ⟨?_, by simp⟩
    simp
    omega

theorem WholeTokens.length_le {m : WordPiece} {pre rest : List Rune} {ts : List Token} (h : WholeTokens m pre rest ts) :
    ts.length ≤ rest.length := by
  induction h with
  | nil => simp
  | cons hne _ _ ih =>
    have := List.length_pos_iff.2 hne
    simp
    omega

/-- **C117, WordPiece.** A word that is not empty has at least one token and not more tokens than bytes; more than one
only if it is not too long. -/
theorem C117_wordPiece (m : WordPiece) (s : Str) (hs : s ≠ []) {ts : List Token} (h : m.tokenize s = .ok ts) :
    ts ≠ [] ∧ ts.length ≤ s.length ∧ (1 < ts.length → ((runesOf s).length : Int) ≤ m.maxInputCharsPerWord) := by
  have hl := List.length_pos_iff.2 hs
  rcases (C36_tiles m s).1 ts h with ⟨id, -, h2⟩ | ⟨h1, h2⟩
  · subst h2
    exact ⟨by simp, by simp; omega, by simp⟩
  · obtain ⟨h3, h4⟩ := Tiles.length_le ts 0 h2
    exact ⟨h4 hl, by omega, fun _ => h1⟩

/-- **C117, WordPiece, characters.** With terms that are UTF-8 there are not more tokens than characters. -/
theorem C117_wordPiece_chars (m : WordPiece) (hval : m.vocab.AllValid) (rs : List Rune) (hne : rs ≠ [])
    {ts : List Token} (h : m.tokenize (encodeRunes rs) = .ok ts) : ts ≠ [] ∧ ts.length ≤ rs.length := by
  have hs : encodeRunes rs ≠ [] := by
    cases rs with
    | nil => exact absurd rfl hne
    | cons r rs => simp [encodeRunes_cons, encodeRune_ne_nil]
  refine ⟨(C117_wordPiece m _ hs h).1, ?_⟩
  rcases C37_whole_runes m hval rs ts h with ⟨id, -, h2⟩ | h2
  · subst h2
    have := List.length_pos_iff.2 hne
    simp
    omega
  · exact h2.length_le

/-- The condition on the terms is needed: one character of three bytes can be two tokens. -/
theorem C117_wordPiece_counterexample :
    let terms := [([0xE4], (0 : Int)), ([0xB8, 0x96], 1)]
    (WordPiece.mk (Vocab.fromJSON (some terms) terms) b!"[UNK]" [] 100).tokenize b!"世"
      = .ok [⟨0, [0xE4], ⟨0, 1⟩⟩, ⟨1, [0xB8, 0x96], ⟨1, 3⟩⟩] := by decide +kernel

end WordPiece

/-! ## Rows of encodings -/

/-- The tokens that a tokenization function gives, if it gives any. -/
def answer (f : NS → GoM (Except Err (List Token))) (ns : NS) : List Token :=
  match f ns with
  | .ok (.ok ts) => ts
  | _ => []

theorem answer_eq {f : NS → GoM (Except Err (List Token))} {ns : NS} {ts : List Token} (h : f ns = .ok (.ok ts)) :
    answer f ns = ts := by simp [answer, h]

theorem tokenizeLoop_inv (f : NS → GoM (Except Err (List Token))) : ∀ (ps ps' : List Piece),
    PTS.tokenizeLoop f ps = .ok (ps', none) →
    (∀ sp ∈ ps, sp.tokens = none → f sp.ns = .ok (.ok (answer f sp.ns))) ∧ ps' = ps.map (withTokens (answer f)) := by
  intro ps
  induction ps with
  | nil => intro ps' h; simp [PTS.tokenizeLoop] at h; simp [h]
  | cons sp ps ih =>
    intro ps' h
    unfold PTS.tokenizeLoop at h
    cases ht : sp.tokens with
    | some t =>
      cases hl : PTS.tokenizeLoop f ps with
      | panic => simp [ht, hl] at h
      | ok r =>
        obtain ⟨ps1, e⟩ := r
        simp [ht, hl] at h
        obtain ⟨h1, h2⟩ := h
        subst h2
        obtain ⟨i1, i2⟩ := ih ps1 hl
        refine ⟨?_, by rw [← h1, i2, List.map_cons, withTokens_some ht]⟩
        intro x hx hn
        rcases List.mem_cons.1 hx with rfl | hx
        · rw [ht] at hn; simp at hn
        · exact i1 x hx hn
    | none =>
      cases hf : f sp.ns with
      | panic => simp [ht, hf] at h
      | ok r =>
        cases r with
        | error e => simp [ht, hf] at h
        | ok ts =>
          cases hl : PTS.tokenizeLoop f ps with
          | panic => simp [ht, hf, hl] at h
          | ok r =>
            obtain ⟨ps1, e⟩ := r
            simp [ht, hf, hl] at h
            obtain ⟨h1, h2⟩ := h
            subst h2
            obtain ⟨i1, i2⟩ := ih ps1 hl
            have ha := answer_eq hf
            refine ⟨?_, by rw [← h1, i2, List.map_cons]; simp [withTokens, ht, ha]⟩
            intro x hx hn
            rcases List.mem_cons.1 hx with rfl | hx
            · rw [hf, ha]
            · exact i1 x hx hn

theorem entries_given (w : Int) (ts : NS → List Token) : ∀ (ps : List Piece) (k : Nat), (∀ sp ∈ ps, sp.tokens = none) →
    (entries w k (ps.map (withTokens ts))).length = (ps.map fun sp => (ts sp.ns).length).sum := by
  intro ps
  induction ps with
  | nil => intro k _; rfl
  | cons sp ps ih =>
    intro k h
    have h1 := ih (k + 1) (fun x hx => h x (by simp [hx]))
    simp [entries, withTokens, h sp (by simp)] at h1 ⊢
    exact h1

/-- **C117, rows.** When no split has tokens yet, the encoding has as many rows as the tokenization function gives tokens. -/
theorem C117_rows {p p2 : PTS} {f : NS → GoM (Except Err (List Token))} {w ty : Int} {enc : Encoding}
    (hn : ∀ sp ∈ p.splits, sp.tokens = none) (h1 : p.tokenize f = .ok (p2, none)) (h2 : p2.intoEncoding w ty = .ok (.ok enc)) :
    (∀ sp ∈ p.splits, f sp.ns = .ok (.ok (answer f sp.ns)))
    ∧ enc.len = ((p.splits.map fun sp => (answer f sp.ns).length).sum : Nat) := by
  unfold PTS.tokenize at h1
  cases hl : PTS.tokenizeLoop f p.splits with
  | panic => simp [hl] at h1
  | ok r =>
    obtain ⟨ps, e⟩ := r
    simp [hl] at h1
    obtain ⟨h3, h4⟩ := h1
    subst h4
    obtain ⟨i1, i2⟩ := tokenizeLoop_inv f _ _ hl
    refine ⟨fun sp hs => i1 sp hs (hn sp hs), ?_⟩
    rw [(C27_len h2).1, ← h3]
    simp only
    rw [i2, entries_given w _ _ 0 hn]

theorem sum_le_sum {α : Type} {f g : α → Nat} : ∀ {l : List α}, (∀ x ∈ l, f x ≤ g x) → (l.map f).sum ≤ (l.map g).sum
  | [], _ => by simp
  | x :: l, h => by
    have h1 := h x (by simp)
    have h2 := sum_le_sum (l := l) fun y hy => h y (by simp [hy])
    simp
    omega

theorem length_le_sum {α : Type} {f : α → Nat} : ∀ {l : List α}, (∀ x ∈ l, 1 ≤ f x) → l.length ≤ (l.map f).sum
  | [], _ => by simp
  | x :: l, h => by
    have h1 := h x (by simp)
    have h2 := length_le_sum (l := l) fun y hy => h y (by simp [hy])
    simp
    omega

theorem BPE.tokenizeNS_ok {m : BPE} {rnd : NS → Nat → Bool} {ns : NS} {ts : List Token} (h : m.tokenizeNS rnd ns = .ok (.ok ts)) :
    m.tokenize (rnd ns) ns.get = .ok (.ok (some ts)) := by
  unfold BPE.tokenizeNS at h
  cases hx : m.tokenize (rnd ns) ns.get with
  | panic => simp [hx] at h
  | ok r =>
    cases r with
    | error e => simp [hx] at h
    | ok o =>
      cases o with
      | none => simp [hx] at h
      | some t => simp [hx] at h; rw [h]

/-- **C117, encodings with BPE.** Whatever the splits are (after any normalizers and pre-tokenizers): the encoding has at
most one row for each character of the splits. -/
theorem C117_encoding_bpe (m : BPE) (rnd : NS → Nat → Bool) {p p2 : PTS} {w ty : Int} {enc : Encoding}
    (hn : ∀ sp ∈ p.splits, sp.tokens = none) (h1 : p.tokenize (m.tokenizeNS rnd) = .ok (p2, none))
    (h2 : p2.intoEncoding w ty = .ok (.ok enc)) :
    enc.len ≤ ((p.splits.map fun sp => (runesOf sp.ns.get).length).sum : Nat)
    ∧ ((∀ sp ∈ p.splits, sp.ns.get ≠ [] ∧ m.Covered sp.ns.get) → (p.splits.length : Int) ≤ enc.len) := by
  obtain ⟨h3, h4⟩ := C117_rows hn h1 h2
  rw [h4]
  constructor
  · exact_mod_cast sum_le_sum fun sp hs => (m.C117_bpe _ _ (BPE.tokenizeNS_ok (h3 sp hs))).1
  · intro hc
    exact_mod_cast length_le_sum fun sp hs => List.length_pos_iff.2
      ((m.C117_bpe _ _ (BPE.tokenizeNS_ok (h3 sp hs))).2 (hc sp hs).1 (hc sp hs).2)

/-- **C117, encodings with WordPiece.** Every split that is not empty has a row; there are not more rows than characters if
texts and terms are UTF-8, and never more than bytes. -/
theorem C117_encoding_wordPiece (m : WordPiece) {p p2 : PTS} {w ty : Int} {enc : Encoding}
    (hn : ∀ sp ∈ p.splits, sp.tokens = none ∧ sp.ns.get ≠ [])
    (h1 : p.tokenize (fun ns => .ok (m.tokenize ns.get)) = .ok (p2, none)) (h2 : p2.intoEncoding w ty = .ok (.ok enc)) :
    (p.splits.length : Int) ≤ enc.len
    ∧ enc.len ≤ ((p.splits.map fun sp => sp.ns.get.length).sum : Nat)
    ∧ (m.vocab.AllValid → (∀ sp ∈ p.splits, ValidUtf8 sp.ns.get) →
        enc.len ≤ ((p.splits.map fun sp => (runesOf sp.ns.get).length).sum : Nat)) := by
  obtain ⟨h3, h4⟩ := C117_rows (fun sp hs => (hn sp hs).1) h1 h2
  have h5 : ∀ sp ∈ p.splits, m.tokenize sp.ns.get = .ok (answer (fun ns => .ok (m.tokenize ns.get)) sp.ns) := by
    intro sp hs
    have := h3 sp hs
    simpa using this
  rw [h4]
  refine ⟨?_, ?_, ?_⟩
  · exact_mod_cast length_le_sum fun sp hs => List.length_pos_iff.2 (m.C117_wordPiece _ (hn sp hs).2 (h5 sp hs)).1
  · exact_mod_cast sum_le_sum fun sp hs => (m.C117_wordPiece _ (hn sp hs).2 (h5 sp hs)).2.1
  · intro hval hu
    refine Int.ofNat_le.2 (sum_le_sum fun sp hs => ?_)
    obtain ⟨rs, hv, e⟩ := hu sp hs
    have h6 := h5 sp hs
    have h7 := (hn sp hs).2
    rw [← e] at h6 h7 ⊢
    rw [runesOf_encodeRunes rs hv]
    exact (m.C117_wordPiece_chars hval rs (by rintro rfl; exact h7 rfl) h6).2

/-! ## Whole tokenizers -/

theorem length_le_flatten {α : Type} : ∀ {l : List (List α)}, (∀ x ∈ l, x ≠ []) → l.length ≤ l.flatten.length
  | [], _ => by simp
  | x :: l, h => by
    have h1 := List.length_pos_iff.2 (h x (by simp))
    have h2 := length_le_flatten (l := l) fun y hy => h y (by simp [hy])
    rw [List.flatten_cons, List.length_append, List.length_cons]
    omega

/-- Each character gives at most one character that is not white space. -/
theorem bertVisible_length (u : Uni) (hu : u.toLower 0x20 = 0x20) (c : BertCfg) (rs : List Rune) :
    (bertVisible u c rs).length ≤ rs.length := by
  unfold bertVisible
  rw [bertText_runes]
  induction rs with
  | nil => simp
  | cons r rs ih =>
    obtain ⟨S, M, S', e, h1, h2, h3⟩ := bertText_one u hu c r
    have ws : ∀ l : List Rune, (∀ x ∈ l, x = 0x20) → l.filter (fun r => !isWhiteSpace r) = [] := by
      intro l hl
      rw [List.filter_eq_nil_iff]
      intro x hx
      rw [hl x hx]
      decide
    have h4 := List.length_filter_le (fun r => !isWhiteSpace r) M
    rw [List.flatMap_cons, List.filter_append, List.length_append, e, List.filter_append, List.filter_append, ws S h2, ws S' h3]
    simp
    omega

/-- **C117, the BERT tokenizer.** The encoding never has more rows than the input has characters: the spaces that the
normalizer puts around Chinese characters make no rows. -/
theorem C117_bert {u : Uni} (hu : u.toLower 0x20 = 0x20) (c : BertCfg) (m : WordPiece) (hval : m.vocab.AllValid)
    (hunk : m.vocab.getID m.unknownToken ≠ none) (rs : List Rune) (hv : ∀ r ∈ rs, ValidRune r)
    (h1 : c.textCleaning = true → GoodStart (bertDropped u) rs)
    (h2 : c.accentsStripping = true → GoodStart u.isMn (bertText u (spacesOnly c) rs)) (w ty : Int) :
    ∃ p0 p1 p2 enc, (PTS.fromString (encodeRunes rs)).normalize (bertNormalize u c) = .ok (p0, none)
      ∧ bertPreTokenize u p0 = .ok (p1, none)
      ∧ p1.tokenize (fun ns => .ok (m.tokenize ns.get)) = .ok (p2, none)
      ∧ p2.intoEncoding w ty = .ok (.ok enc) ∧ enc.len ≤ (rs.length : Int) := by
  obtain ⟨p0, p1, p2, enc, L, T, Gf, k1, k2, k3, k4, -, -, k7, k8, k9, -⟩ := C68_bert hu c m hval hunk rs hv h1 h2 w ty
  refine ⟨p0, p1, p2, enc, k1, k2, k3, k4, ?_⟩
  have a1 := (C27_intoEncoding p2 w ty).2 enc k4
  have a2 : enc.offsets.length = enc.ids.length := by
    rw [a1.2.1, List.length_map]
    exact a1.2.2.2.2.2.2.2.length_eq
  have a3 := k8.length_eq
  have a4 : (L.map Gf).flatten.length ≤ (L.map Gf).flatten.flatten.length := by
    apply length_le_flatten
    intro G hG
    obtain ⟨Gs, hGs, hG⟩ := List.mem_flatten.1 hG
    obtain ⟨x, hx, rfl⟩ := List.mem_map.1 hGs
    exact (all2_maps k7.groups x hx).2 G hG
  have a5 := congrArg List.length k9
  rw [List.length_map] at a5
  have a6 := bertVisible_length u hu c rs
  unfold Encoding.len
  omega

/-- **C117, the GPT-2 tokenizer.** The encoding never has more rows than the input has bytes, counting the space that may be
added in front. -/
theorem C117_gpt2 {u : RxUni} (hu : SaneTables u) (b : Bool) (rs : List Rune) (hv : ∀ r ∈ rs, ValidRune r)
    (m : BPE) (rnd : NS → Nat → Bool)
    (hvoc : ∀ t i, m.vocab.getID t = some i → m.vocab.getString i ≠ none)
    (hm : ∀ a b v, m.merges.get a b = some v → m.vocab.getString v.id ≠ none)
    (hunk : m.unknownToken ≠ [] → m.vocab.getID m.unknownToken ≠ none)
    (hcov : m.unknownToken ≠ [] ∨ ∀ (b : UInt8) i last, m.vocab.getID (m.lookupKey i last (byteToRune b)) ≠ none)
    (w ty : Int) :
    ∃ p1 p2 enc, byteLevel (splittingRegexp u).findAll b (PTS.fromString (encodeRunes rs)) = .ok (p1, none)
      ∧ p1.tokenize (m.tokenizeNS rnd) = .ok (p2, none) ∧ p2.intoEncoding w ty = .ok (.ok enc)
      ∧ enc.len ≤ ((encodeRunes rs).length : Int) + 1
      ∧ (b = false → enc.len ≤ ((encodeRunes rs).length : Int)) := by
  obtain ⟨p1, p2, enc, L, T, yss, k1, k2, k3, -, -, k6, k7, -⟩ := C65_gpt hu b rs hv m rnd hvoc hm hunk hcov w ty
  have a1 := (C27_intoEncoding p2 w ty).2 enc k3
  have a2 : enc.offsets.length = enc.ids.length := by
    rw [a1.2.1, List.length_map]
    exact a1.2.2.2.2.2.2.2.length_eq
  have a3 : yss.flatten.length ≤ yss.flatten.flatten.length ∧ yss.flatten.length = enc.offsets.length := by
    refine ⟨length_le_flatten ?_, k6.offsets.all2.length_eq⟩
    have : ∀ {l : List Str} {os : List ByteOffsets}, All2 (fun y _ => y ≠ []) l os → ∀ y ∈ l, y ≠ [] := by
      intro l os h
      induction h with
      | nil => simp
      | cons h1 _ ih =>
        intro y hy
        rcases List.mem_cons.1 hy with rfl | hy
        · exact h1
        · exact ih y hy
    exact this (k6.offsets.all2.imp fun y o _ _ h => h.1)
  rw [k7] at a3
  have h32 : (encodeRune 32).length = 1 := by decide +kernel
  refine ⟨p1, p2, enc, k1, k2, k3, ?_, ?_⟩
  · unfold Encoding.len
    rcases spacedRunes_cases b rs with ⟨e1, -⟩ | ⟨r, t, hrs, -, -, e1, -⟩
    · rw [e1] at a3; omega
    · rw [e1] at a3
      rw [encodeRunes_cons, List.length_append, h32] at a3
      omega
  · rintro rfl
    unfold Encoding.len
    rcases spacedRunes_cases false rs with ⟨e1, -⟩ | ⟨r, t, hrs, hr, hb, e1, -⟩
    · rw [e1] at a3; omega
    · simp at hb

/-- The bound with the added space is reached: `é` has two bytes and three rows. -/
example : (match ((byteLevelDefault Tests.asciiUni (PTS.fromString b!"é")).bind fun r =>
      (r.1.tokenize (byteSample.tokenizeNS fun _ _ => false)).bind fun r => r.1.intoEncoding (-1) 0) with
    | .ok (.ok enc) => enc.len == 3
    | _ => false) = true := by decide +kernel

end Verif
