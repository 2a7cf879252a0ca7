import Verif.Props.JoinChars
import Verif.Props.MetaPipeline
import Verif.Model.Defaults

/-! Property C87 (texts joined where words end) for the meta-space pre-tokenizer. -/

set_option autoImplicit false

namespace Verif

theorem ordered_sum {α : Type} (n : Nat) : ∀ (X : List (List α × List α)) (k : Nat), k ≤ n →
    (∀ y ∈ X, k ≤ y.1.length ∧ (y.1 ++ y.2).length ≤ n) → (X.Pairwise fun x y => (x.1 ++ x.2).length ≤ y.1.length) →
    k + (X.flatMap (·.2)).length ≤ n := by
  intro X
  induction X with
  | nil => intro k hk _ _; simpa using hk
  | cons x X ih =>
    intro k hk h hp
    rw [List.pairwise_cons] at hp
    obtain ⟨h1, h2⟩ := h x (by simp)
    have := ih (x.1 ++ x.2).length h2 (fun y hy => ⟨hp.1 y hy, (h y (by simp [hy])).2⟩) hp.2
    simp only [List.flatMap_cons, List.length_append] at this ⊢
    omega

/-- Words of a text of which nothing is dropped stand right behind each other. -/
theorem WordsOf.before {rs : List Rune} {X Y : List (List Rune × List Rune)} {x : List Rune × List Rune}
    (h : WordsOf (fun _ => true) rs (X ++ x :: Y)) : x.1 = X.flatMap (·.2) ∧ rs = x.1 ++ x.2 ++ Y.flatMap (·.2) := by
  have hc := h.complete
  rw [List.filter_eq_self.2 (fun _ _ => rfl), List.flatMap_append, List.flatMap_cons] at hc
  have hp := h.ordered
  rw [List.pairwise_append] at hp
  obtain ⟨-, post, e⟩ := h.located x (by simp)
  have hle : (X.flatMap (·.2)).length ≤ x.1.length := by
    have := ordered_sum x.1.length X 0 (Nat.zero_le _) (fun y hy => ⟨Nat.zero_le _, hp.2.2 y hy x (by simp)⟩) hp.1
    omega
  have hge := (located_sublist (fun _ => true) rs (x :: Y) x.1.length (by
    intro y hy
    obtain ⟨-, post, e⟩ := h.located y (by simp only [List.mem_append]; exact .inr hy)
    refine ⟨?_, by simp, post, e⟩
    rcases List.mem_cons.1 hy with rfl | hy
    · exact Nat.le_refl _
    · have := (List.pairwise_cons.1 hp.2.1).1 y hy
      simp only [List.length_append] at this
      omega) hp.2.1).length_le
  rw [List.filter_eq_self.2 (fun _ _ => rfl)] at hge
  have hl := congrArg List.length hc
  have hl' := congrArg List.length e
  simp only [List.length_append, List.flatMap_cons, List.length_drop] at hl hge hl'
  have e1 : x.1 = X.flatMap (·.2) := by
    have : x.1 ++ (x.2 ++ post) = X.flatMap (·.2) ++ (x.2 ++ Y.flatMap (·.2)) := by rw [hc, e]; simp
    exact (List.append_inj this (by omega)).1
  exact ⟨e1, by rw [e1, List.append_assoc]; exact hc.symm⟩

theorem CutBefore.localWords {R : Rune} {rs : List Rune} {L : List (List Rune × List Rune)} (h : WordsOf (fun _ => true) rs L)
    (hc : CutBefore R rs (L.map (·.2))) : LocalWords (fun _ => true) (fun _ y => y = R) rs L := by
  refine ⟨?_, h.ordered, h.complete⟩
  intro x hx
  obtain ⟨X, Y, rfl⟩ := List.append_of_mem hx
  obtain ⟨e1, e2⟩ := h.before
  have hi := hc.inside x.2 (List.mem_map.2 ⟨x, hx, rfl⟩)
  refine ⟨Y.flatMap (·.2), e2, hi.1, fun _ _ => rfl, ?_, ?_, ?_⟩
  · intro u a b v hu hb
    refine hi.2 ?_
    rw [hu]
    cases u <;> simp [hb]
  · intro a b ha hb _
    cases X with
    | nil => rw [e1] at ha; simp at ha
    | cons y X =>
      have := hc.starts x.2 (by simp)
      rw [this] at hb
      exact (Option.some.inj hb).symm
  · intro a b _ hb _
    cases Y with
    | nil => simp at hb
    | cons y Y =>
      have h1 := hc.starts y.2 (by cases X <;> simp)
      rw [List.flatMap_cons, List.head?_append, h1] at hb
      exact (Option.some.inj hb).symm

theorem metaChars_join (R : Rune) (p : Bool) {cs : List Ch} (hne : cs ≠ []) (k : Int) (ds : List Ch) :
    metaChars R p (cs ++ moveLeft k ds) = metaChars R p cs ++ moveLeft k (metaChars R false ds) := by
  cases cs with
  | nil => exact absurd rfl hne
  | cons c cs =>
    have e : metaChars R false ds = ds.map fun c => (if c.1 = 32 then R else c.1, c.2) := by
      unfold metaChars
      cases ds <;> simp
    rw [e]
    simp [metaChars, moveLeft, Function.comp_def]

/-- The tokens of the words of meta-space text. -/
abbrev MetaTokens (R : Rune) (p : Bool) (F : Str → List Token → Prop) (w ty : Int) (rs : List Rune) (enc : Encoding) : Prop :=
  TokensOfWords (LocalWords (fun _ => true) (fun _ y => y = R)) F 0 w ty (metaChars R p (selfChars 0 rs)) enc

theorem meta_join {R : Rune} {F : Str → List Token → Prop} (hF : ∀ s t t', F s t → F s t' → t = t') {w ty : Int} {p : Bool}
    {a b : List Rune} (hne : a ≠ []) (hb : ∀ r ∈ b.head?, r = 32 ∨ r = R) {A B E : Encoding} (hA : MetaTokens R p F w ty a A)
    (hB : MetaTokens R false F w ty b B) (hE : MetaTokens R p F w ty (a ++ b) E) : E = joinEncodings (encodeRunes a).length w A B := by
  refine TokensOfWords.unique hF hE ?_
  have hcs : selfChars 0 a ≠ [] := by
    intro h
    have := selfChars_map_fst 0 a
    rw [h] at this
    exact hne this.symm
  rw [selfChars_join, metaChars_join R p hcs]
  refine hA.join (encodeRunes a).length hB ?_
  intro x _ y hy _ _
  rw [metaChars_runes, selfChars_map_fst] at hy
  cases b with
  | nil => simp [metaText] at hy
  | cons r b =>
    have := hb r (by simp)
    simp only [metaText, List.map_cons] at hy
    rcases this with h | h
    · simp [h] at hy; exact hy.symm
    · rw [h] at hy
      by_cases h32 : R = 32
      · simp [h32] at hy; rw [h32]; exact hy.symm
      · simp [h32] at hy; exact hy.symm

/-- **C87, meta-space with WordPiece.** When the second text begins with a space or the replacement rune, the encoding of the two
texts after each other is that of the first and then that of the second, pre-tokenized without the added prefix. -/
theorem C87_meta_wordPiece {R : Rune} (hR : ValidRune R) (p : Bool) (m : WordPiece) (hval : m.vocab.AllValid)
    (hunk : m.vocab.getID m.unknownToken ≠ none) (w ty : Int) {a b : List Rune} (ha : ∀ r ∈ a, ValidRune r)
    (hb : ∀ r ∈ b, ValidRune r) (hne : a ≠ []) (hfirst : ∀ r ∈ b.head?, r = 32 ∨ r = R) :
    ∃ A B, Encodes (metaSpace R p) (fun ns => .ok (m.tokenize ns.get)) w ty (PTS.fromString (encodeRunes a)) A
      ∧ Encodes (metaSpace R false) (fun ns => .ok (m.tokenize ns.get)) w ty (PTS.fromString (encodeRunes b)) B
      ∧ Encodes (metaSpace R p) (fun ns => .ok (m.tokenize ns.get)) w ty (PTS.fromString (encodeRunes a ++ encodeRunes b))
          (joinEncodings (encodeRunes a).length w A B) := by
  have mk : ∀ (p : Bool) (rs : List Rune), (∀ r ∈ rs, ValidRune r) → ∃ enc,
      Encodes (metaSpace R p) (fun ns => .ok (m.tokenize ns.get)) w ty (PTS.fromString (encodeRunes rs)) enc
        ∧ MetaTokens R p (fun s t => m.tokenize s = .ok t) w ty rs enc := by
    intro p rs hv
    obtain ⟨n2, L, h1, h2, h3, h4, h5, h6⟩ := meta_input hR p rs hv
    obtain ⟨p2, enc, T, Gf, k1, k2, k3, k4⟩ := wordPiece_words m hval hunk h2 h4 (encodeRunes rs) w ty
    rw [h3] at k4
    refine ⟨enc, ⟨_, p2, h1, k1, k2⟩, .of h4 ?_ (fun x hx => (k3 x hx).1) k4⟩
    rw [metaChars_runes, selfChars_map_fst]
    exact CutBefore.localWords h5 h6
  obtain ⟨A, a1, a2⟩ := mk p a ha
  obtain ⟨B, b1, b2⟩ := mk false b hb
  obtain ⟨E, e1, e2⟩ := mk p (a ++ b) (fun r hr => (List.mem_append.1 hr).elim (ha r) (hb r))
  rw [meta_join (fun s t t' e e' => by rw [e] at e'; simpa using e') hne hfirst a2 b2 e2, encodeRunes_append] at e1
  exact ⟨A, B, a1, b1, e1⟩

/-- **C87, meta-space with BPE.** The same without dropout. -/
theorem C87_meta_bpe {R : Rune} (hR : ValidRune R) (p : Bool) (m : BPE) (hd : m.hasDropout = false)
    (hvoc : ∀ t i, m.vocab.getID t = some i → m.vocab.getString i ≠ none)
    (hm : ∀ a b v, m.merges.get a b = some v → m.vocab.getString v.id ≠ none)
    (hunk : m.unknownToken ≠ [] → m.vocab.getID m.unknownToken ≠ none) (rnd : NS → Nat → Bool) (w ty : Int)
    {a b : List Rune} (ha : ∀ r ∈ a, ValidRune r) (hb : ∀ r ∈ b, ValidRune r) (hne : a ≠ [])
    (hfirst : ∀ r ∈ b.head?, r = 32 ∨ r = R)
    (hcov : m.unknownToken ≠ [] ∨ ∀ r ∈ R :: (a ++ b), ∀ i last, m.vocab.getID (m.lookupKey i last r) ≠ none) :
    ∃ A B, Encodes (metaSpace R p) (m.tokenizeNS rnd) w ty (PTS.fromString (encodeRunes a)) A
      ∧ Encodes (metaSpace R false) (m.tokenizeNS rnd) w ty (PTS.fromString (encodeRunes b)) B
      ∧ Encodes (metaSpace R p) (m.tokenizeNS rnd) w ty (PTS.fromString (encodeRunes a ++ encodeRunes b))
          (joinEncodings (encodeRunes a).length w A B) := by
  have mk : ∀ (p : Bool) (rs : List Rune), (∀ r ∈ rs, ValidRune r) → (∀ r ∈ rs, r ∈ a ++ b) → ∃ enc,
      Encodes (metaSpace R p) (m.tokenizeNS rnd) w ty (PTS.fromString (encodeRunes rs)) enc
        ∧ MetaTokens R p (fun s t => m.tokenize (fun _ => false) s = .ok (.ok (some t))) w ty rs enc := by
    intro p rs hv hsub
    obtain ⟨n2, L, h1, h2, h3, h4, h5, h6⟩ := meta_input hR p rs hv
    have hfst : (metaChars R p (selfChars 0 rs)).map (·.1) = metaText R p rs := by
      rw [metaChars_runes, selfChars_map_fst]
    have hin : ∀ r ∈ metaText R p rs, r ∈ R :: (a ++ b) := by
      intro r hr
      unfold metaText at hr
      rcases List.mem_append.1 hr with hr | hr
      · split at hr
        · simp at hr; simp [hr]
        · simp at hr
      · obtain ⟨q, hq, rfl⟩ := List.mem_map.1 hr
        split
        · simp
        · exact List.mem_cons_of_mem _ (hsub q hq)
    obtain ⟨p2, enc, T, Gf, k1, k2, k3, k4⟩ := bpe_words m rnd hvoc hm hunk h2 h4 (by rw [hfst]; exact h5)
      (hcov.imp id fun hc c hcm _ => hc c.1 (hin _ (by rw [← hfst]; exact List.mem_map.2 ⟨c, hcm, rfl⟩))) (encodeRunes rs) w ty
    rw [h3] at k4
    refine ⟨enc, ⟨_, p2, h1, k1, k2⟩, .of h4 ?_ (fun x hx => by
      rw [tokenize_draws hd _ (rnd (pieceOf n2 x.2))]; exact k3 x hx) k4⟩
    rw [hfst]
    exact CutBefore.localWords h5 h6
  obtain ⟨A, a1, a2⟩ := mk p a ha (fun r hr => by simp [hr])
  obtain ⟨B, b1, b2⟩ := mk false b hb (fun r hr => by simp [hr])
  obtain ⟨E, e1, e2⟩ := mk p (a ++ b) (fun r hr => (List.mem_append.1 hr).elim (ha r) (hb r)) (fun _ h => h)
  rw [meta_join (fun s t t' e e' => by rw [e] at e'; simpa using e') hne hfirst a2 b2 e2, encodeRunes_append] at e1
  exact ⟨A, B, a1, b1, e1⟩

/-- The default meta-space pre-tokenizer and WordPiece on a sample vocabulary, as a function. -/
def metaRun (p : Bool) (input : Str) : GoM (Except Err Encoding) :=
  let m : WordPiece := ⟨Vocab.fromJSON (some [(b!"[U]", 0), (b!"▁", 1), (b!"▁a", 2), (b!"##é", 3)]) [], b!"[U]", b!"##", 100⟩
  (metaSpace 0x2581 p (PTS.fromString input)).bind fun r =>
    (r.1.tokenize fun ns => .ok (m.tokenize ns.get)).bind fun r => r.1.intoEncoding (-1) 7

-- `aé a` is `aé` and ` a`, the second without the added prefix
example : ∃ A B, metaRun true b!"aé" = .ok (.ok A) ∧ metaRun false b!" a" = .ok (.ok B) ∧ A.ids = [2, 3] ∧ B.ids = [2]
    ∧ metaRun true b!"aé a" = .ok (.ok (joinEncodings 3 (-1) A B))
    ∧ (joinEncodings 3 (-1) A B).offsets = [⟨0, 1⟩, ⟨1, 3⟩, ⟨3, 5⟩] ∧ (joinEncodings 3 (-1) A B).words = [0, 0, 1] :=
  ⟨⟨[2, 3], [7, 7], [b!"▁a", b!"##é"], [0, 0], [⟨0, 1⟩, ⟨1, 3⟩], [0, 0], [1, 1]⟩,
    ⟨[2], [7], [b!"▁a"], [0], [⟨0, 2⟩], [0], [1]⟩,
    by decide +kernel, by decide +kernel, by decide +kernel, by decide +kernel, by decide +kernel, by decide +kernel, by decide +kernel⟩

/-- With the prefix, the encoding of the second text begins with one replacement rune more: the joined encodings are then not
the encoding of the joined texts. -/
theorem C87_meta_prefix : ∃ A B C, metaRun true b!"a" = .ok (.ok A) ∧ metaRun true b!" a" = .ok (.ok B)
    ∧ metaRun true b!"a a" = .ok (.ok C) ∧ C.ids ≠ (joinEncodings 1 (-1) A B).ids :=
  ⟨⟨[2], [7], [b!"▁a"], [0], [⟨0, 1⟩], [0], [1]⟩,
    ⟨[1, 2], [7, 7], [b!"▁", b!"▁a"], [0, 1], [⟨0, 1⟩, ⟨0, 2⟩], [0, 0], [1, 1]⟩,
    ⟨[2, 2], [7, 7], [b!"▁a", b!"▁a"], [0, 1], [⟨0, 1⟩, ⟨1, 3⟩], [0, 0], [1, 1]⟩,
    by decide +kernel, by decide +kernel, by decide +kernel, by decide +kernel⟩

end Verif
