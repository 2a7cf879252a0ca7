import Verif.Props.Join
import Verif.Props.Unique

/-! Property C87 (texts joined where words end) for words cut at characters and for the BERT pipeline. -/

set_option autoImplicit false

namespace Verif

/-! ## Words -/

theorem LocalWords.join {α : Type} {keep : α → Bool} {cut : α → α → Prop} {a b : List α} {L M : List (List α × List α)}
    (hL : LocalWords keep cut a L) (hM : LocalWords keep cut b M)
    (hc : ∀ x ∈ a.getLast?, ∀ y ∈ b.head?, keep x = true → keep y = true → cut x y) :
    LocalWords keep cut (a ++ b) (L ++ M.map fun x => (a ++ x.1, x.2)) := by
  refine ⟨?_, ?_, ?_⟩
  · intro x hx
    rcases List.mem_append.1 hx with hx | hx
    · obtain ⟨post, e, h1, h2, h3, h4, h5⟩ := hL.located x hx
      refine ⟨post ++ b, by rw [e]; simp, h1, h2, h3, h4, ?_⟩
      intro p q hp hq hk
      cases post with
      | nil =>
        refine hc p ?_ q hq (h2 p (List.mem_of_getLast? hp)) hk
        rw [e, List.append_nil, List.getLast?_append, hp]
        rfl
      | cons r post => exact h5 p q hp hq hk
    · obtain ⟨y, hy, rfl⟩ := List.mem_map.1 hx
      obtain ⟨post, e, h1, h2, h3, h4, h5⟩ := hM.located y hy
      refine ⟨post, by rw [e]; simp, h1, h2, h3, ?_, h5⟩
      intro p q hp hq hk
      simp only at hp hq
      rw [List.getLast?_append] at hp
      cases hy1 : y.1.getLast? with
      | some z =>
        rw [hy1] at hp
        exact h4 p q (by rw [hy1]; exact hp) hq hk
      | none =>
        rw [hy1] at hp
        rw [List.getLast?_eq_none_iff] at hy1
        refine hc p hp q ?_ hk (h2 q (List.mem_of_mem_head? hq))
        rw [e, hy1, List.nil_append, List.head?_append, hq]
        rfl
  · rw [List.pairwise_append]
    refine ⟨hL.ordered, ?_, ?_⟩
    · rw [List.pairwise_map]
      refine hM.ordered.imp ?_
      intro x y h
      simp only [List.length_append] at h ⊢
      omega
    · intro x hx y hy
      obtain ⟨z, -, rfl⟩ := List.mem_map.1 hy
      obtain ⟨post, e, -⟩ := hL.located x hx
      rw [e]
      simp only [List.length_append]
      omega
  · rw [List.flatMap_append, hL.complete, List.flatMap_map, List.filter_append]
    show _ ++ M.flatMap (·.2) = _
    rw [hM.complete]

/-- The words, with alignments, are known from the characters and the words without. -/
theorem StandsIn.unique {cs : List Ch} : ∀ {L M : List (List Ch × List Ch)}, StandsIn cs L → StandsIn cs M →
    wordRunes L = wordRunes M → L = M := by
  intro L
  induction L with
  | nil =>
    intro M _ _ h
    cases M with
    | nil => rfl
    | cons y M => simp [wordRunes] at h
  | cons x L ih =>
    intro M hL hM h
    cases M with
    | nil => simp [wordRunes] at h
    | cons y M =>
      simp only [wordRunes, List.map_cons, List.cons.injEq, Prod.mk.injEq] at h
      obtain ⟨⟨h1, h2⟩, h3⟩ := h
      obtain ⟨-, C, e⟩ := hL x (by simp)
      obtain ⟨-, D, e'⟩ := hM y (by simp)
      have l1 : x.1.length = y.1.length := by simpa using congrArg List.length h1
      have l2 : x.2.length = y.2.length := by simpa using congrArg List.length h2
      have := (List.append_inj (e.symm.trans e') (by simp [l1, l2])).1
      have := List.append_inj this l1
      rw [ih (fun z hz => hL z (by simp [hz])) (fun z hz => hM z (by simp [hz])) h3]
      rw [show x = y from Prod.ext this.1 this.2]

theorem StandsIn.join {cs ds : List Ch} {k : Int} {L M : List (List Ch × List Ch)} (hL : StandsIn cs L) (hM : StandsIn ds M) :
    StandsIn (cs ++ moveLeft k ds) (L ++ M.map fun x => (cs ++ moveLeft k x.1, moveLeft k x.2)) := by
  intro x hx
  rcases List.mem_append.1 hx with hx | hx
  · obtain ⟨h, C, e⟩ := hL x hx
    exact ⟨h, C ++ moveLeft k ds, by rw [e]; simp⟩
  · obtain ⟨y, hy, rfl⟩ := List.mem_map.1 hx
    obtain ⟨h, C, e⟩ := hM y hy
    refine ⟨by simpa [moveLeft] using h, moveLeft k C, ?_⟩
    rw [e]
    simp [moveLeft]

/-! ## Groups -/

theorem OverGroups.unique : ∀ {ts : List Token} {pre : List Ch} {Gs Hs : List (List Ch)}, OverGroups pre Gs ts → OverGroups pre Hs ts →
    Gs.flatten = Hs.flatten → Gs = Hs := by
  intro ts
  induction ts with
  | nil =>
    intro pre Gs Hs h h' _
    cases Gs with
    | nil =>
      cases Hs with
      | nil => rfl
      | cons G Gs => exact absurd h' (by simp [OverGroups])
    | cons G Gs => exact absurd h (by simp [OverGroups])
  | cons t ts ih =>
    intro pre Gs Hs h h' e
    cases Gs with
    | nil => exact absurd h (by simp [OverGroups])
    | cons G Gs =>
      cases Hs with
      | nil => exact absurd h' (by simp [OverGroups])
      | cons H Hs =>
        simp only [OverGroups] at h h'
        rw [List.flatten_cons, List.flatten_cons] at e
        have hlen : (text (pre ++ G)).length = (text (pre ++ H)).length := by
          have := h.1.symm.trans h'.1
          simp only [ByteOffsets.mk.injEq] at this
          omega
        have key : ∀ {G H X Y : List Ch}, G ++ X = H ++ Y → (text (pre ++ G)).length = (text (pre ++ H)).length →
            G.length ≤ H.length → G.length = H.length := by
          intro G H X Y e hlen hle
          obtain ⟨D, rfl⟩ : ∃ D, H = G ++ D := by
            obtain ⟨D, hD⟩ : G <+: H := List.prefix_of_prefix_length_le (List.prefix_append G X) (e ▸ List.prefix_append H Y) hle
            exact ⟨D, hD.symm⟩
          cases D with
          | nil => simp
          | cons d D =>
            have := encodeRunes_pos (g := (d :: D).map (·.1)) (by simp)
            simp only [text, List.map_append, encodeRunes_append, List.length_append] at hlen
            omega
        have hl : G.length = H.length := by
          rcases Nat.le_total G.length H.length with hle | hle
          · exact key e hlen hle
          · exact (key e.symm hlen.symm hle).symm
        obtain ⟨rfl, e'⟩ := List.append_inj e hl
        rw [ih h.2 h'.2 e']

theorem OverGroups.moved {k : Int} : ∀ {ts : List Token} {pre : List Ch} {Gs : List (List Ch)}, OverGroups pre Gs ts →
    OverGroups (moveLeft k pre) (Gs.map (moveLeft k)) ts := by
  intro ts
  induction ts with
  | nil =>
    intro pre Gs h
    cases Gs with
    | nil => trivial
    | cons G Gs => exact absurd h (by simp [OverGroups])
  | cons t ts ih =>
    intro pre Gs h
    cases Gs with
    | nil => exact absurd h (by simp [OverGroups])
    | cons G Gs =>
      simp only [OverGroups, List.map_cons] at h ⊢
      have e : moveLeft k pre ++ moveLeft k G = moveLeft k (pre ++ G) := by simp [moveLeft]
      rw [e, text_moveLeft, text_moveLeft]
      exact ⟨h.1, ih h.2⟩

theorem groupOffsets_moved {shift : Int} {k : Nat} {G : List Ch} (h : G ≠ []) :
    groupOffsets shift (moveLeft (-(k : Int)) G) = ⟨(groupOffsets shift G).start + k, (groupOffsets shift G).stop + k⟩ := by
  obtain ⟨G', g, rfl⟩ := (List.eq_nil_or_concat G).resolve_left h
  have hf : (firstAlign (moveLeft (-(k : Int)) (G'.concat g))).start = (firstAlign (G'.concat g)).start + k := by
    cases G' <;> simp [moveLeft, firstAlign]
  simp only [groupOffsets, hf]
  simp only [moveLeft, lastAlign, List.concat_eq_append, List.map_append, List.map_cons, List.map_nil, List.getLast?_concat]
  congr 1 <;> omega

theorem all2_unique {α β γ : Type} {R : α → β → Prop} {S : γ → β → Prop} (hu : ∀ a b b' c, R a b → R a b' → S c b → S c b' → b = b') :
    ∀ {as : List α} {cs : List γ} {bs bs' : List β}, All2 R as bs → All2 R as bs' → All2 S cs bs → All2 S cs bs' → bs = bs' := by
  intro as
  induction as with
  | nil => intro cs bs bs' h h' _ _; cases h; cases h'; rfl
  | cons a as ih =>
    intro cs bs bs' h h' k k'
    cases h with
    | cons h1 h2 =>
      cases h' with
      | cons h1' h2' =>
        cases k with
        | cons k1 k2 =>
          cases k' with
          | cons k1' k2' => rw [hu _ _ _ _ h1 h1' k1 k1', ih h2 h2' k2 k2']

theorem EncodesChars.unique {shift w ty : Int} {W : List (List Ch)} {T : List (List Token)} {Gss Hss : List (List (List Ch))}
    {enc enc' : Encoding} (h : EncodesChars shift w ty W T Gss enc) (h' : EncodesChars shift w ty W T Hss enc') : enc = enc' := by
  have hG : Gss = Hss := all2_unique (S := fun (ts : List Token) Gs => OverGroups [] Gs ts)
    (fun _ _ _ _ g1 g2 o1 o2 => OverGroups.unique o1 o2 (g1.1.trans g2.1.symm))
    h.groups h'.groups h.perToken h'.perToken
  subst hG
  cases enc
  cases enc'
  simp only [Encoding.mk.injEq]
  exact ⟨h.ids.trans h'.ids.symm, h.typeIDs.trans h'.typeIDs.symm, h.tokens.trans h'.tokens.symm, h.words.trans h'.words.symm,
    h.offsets.trans h'.offsets.symm, h.special.trans h'.special.symm, h.attention.trans h'.attention.symm⟩

theorem All2.map_both {α β γ δ : Type} {R : α → β → Prop} {S : γ → δ → Prop} {f : α → γ} {g : β → δ}
    (hf : ∀ a b, R a b → S (f a) (g b)) {as : List α} {bs : List β} (h : All2 R as bs) : All2 S (as.map f) (bs.map g) := by
  induction h with
  | nil => exact .nil
  | cons h1 _ ih => exact .cons (hf _ _ h1) ih

theorem EncodesChars.join {shift w ty : Int} {W W' : List (List Ch)} {T T' : List (List Token)} {Gss Gss' : List (List (List Ch))}
    {A B : Encoding} (k : Nat) (hW : ∀ x ∈ W, x ≠ []) (h : EncodesChars shift w ty W T Gss A) (h' : EncodesChars shift w ty W' T' Gss' B) :
    EncodesChars shift w ty (W ++ W'.map (moveLeft (-(k : Int)))) (T ++ T')
      (Gss ++ Gss'.map (List.map (moveLeft (-(k : Int))))) (joinEncodings k w A B) := by
  have hT : ∀ t ∈ T, t ≠ [] := by
    intro t ht
    obtain ⟨Gs, hGs, ho⟩ := h.perToken.exists_right ht
    obtain ⟨x, hx, hg⟩ := h.groups.exists_left hGs
    rintro rfl
    cases Gs with
    | nil => exact hW x hx (by simpa using hg.1.symm)
    | cons G Gs => exact ho
  refine ⟨?_, ?_, ?_, ?_, ?_, ?_, ?_, ?_, ?_⟩
  · simp only [joinEncodings]; rw [h.ids, h'.ids, List.flatten_append, List.map_append]
  · simp only [joinEncodings]; rw [h.typeIDs, h'.typeIDs, List.flatten_append, List.map_append]
  · simp only [joinEncodings]; rw [h.tokens, h'.tokens, List.flatten_append, List.map_append]
  · simp only [joinEncodings]
    rw [wordsFrom_append, wordsFrom_shift, h.words, h'.words]
    congr 1
    refine List.map_congr_left fun x _ => ?_
    split
    · rfl
    · have := wordsFrom_last (w := w) (by omega) hT 0
      simp only [Nat.zero_add, Int.natCast_zero] at this
      rw [this]
  · simp only [joinEncodings]; rw [h.special, h'.special, List.flatten_append, List.map_append]
  · simp only [joinEncodings]; rw [h.attention, h'.attention, List.flatten_append, List.map_append]
  · refine h.groups.append (h'.groups.map_both ?_)
    rintro B Gs ⟨rfl, hne⟩
    refine ⟨by unfold moveLeft; rw [List.map_flatten], ?_⟩
    intro G hG
    obtain ⟨H, hH, rfl⟩ := List.mem_map.1 hG
    simpa [moveLeft] using hne H hH
  · refine h.perToken.append ?_
    have := h'.perToken.map_both (f := id) (g := List.map (moveLeft (-(k : Int))))
      (S := fun (ts : List Token) Gs => OverGroups [] Gs ts) (fun ts Gs ho => ho.moved)
    simpa using this
  · simp only [joinEncodings]
    rw [h.offsets, h'.offsets, List.flatten_append, List.map_append]
    congr 1
    rw [← List.map_flatten, List.map_map, List.map_map]
    refine List.map_congr_left fun G hG => ?_
    obtain ⟨Gs, hGs, hG⟩ := List.mem_flatten.1 hG
    obtain ⟨x, -, hg⟩ := h'.groups.exists_left hGs
    exact (groupOffsets_moved (hg.2 G hG)).symm

/-! ## Encodings of words -/

/-- The encoding of the words of `cs`, when the tokens of each word are those that `F` relates to its text.
Each word comes with its tokens and the groups of its characters. -/
def TokensOfWords (P : List Rune → List (List Rune × List Rune) → Prop) (F : Str → List Token → Prop) (shift w ty : Int)
    (cs : List Ch) (enc : Encoding) : Prop :=
  ∃ Z : List ((List Ch × List Ch) × List Token × List (List Ch)), StandsIn cs (Z.map (·.1))
    ∧ P (cs.map (·.1)) (wordRunes (Z.map (·.1))) ∧ (∀ z ∈ Z, F (text z.1.2) z.2.1)
    ∧ EncodesChars shift w ty (Z.map (·.1.2)) (Z.map (·.2.1)) (Z.map (·.2.2)) enc

theorem TokensOfWords.of {P : List Rune → List (List Rune × List Rune) → Prop} {F : Str → List Token → Prop} {shift w ty : Int}
    {cs : List Ch} {enc : Encoding} {L : List (List Ch × List Ch)} {T : List Ch × List Ch → List Token}
    {Gf : List Ch × List Ch → List (List Ch)} (h1 : StandsIn cs L) (h2 : P (cs.map (·.1)) (wordRunes L))
    (h3 : ∀ x ∈ L, F (text x.2) (T x)) (h4 : EncodesChars shift w ty (L.map (·.2)) (L.map T) (L.map Gf) enc) :
    TokensOfWords P F shift w ty cs enc := by
  refine ⟨L.map fun x => (x, T x, Gf x), ?_, ?_, ?_, ?_⟩
  · simpa [Function.comp_def] using h1
  · simpa [Function.comp_def] using h2
  · intro z hz
    obtain ⟨x, hx, rfl⟩ := List.mem_map.1 hz
    exact h3 x hx
  · simpa [Function.comp_def] using h4

theorem TokensOfWords.unique {keep : Rune → Bool} {cut : Rune → Rune → Prop} {F : Str → List Token → Prop}
    (hF : ∀ s t t', F s t → F s t' → t = t') {shift w ty : Int} {cs : List Ch} {enc enc' : Encoding}
    (h : TokensOfWords (LocalWords keep cut) F shift w ty cs enc) (h' : TokensOfWords (LocalWords keep cut) F shift w ty cs enc') :
    enc = enc' := by
  obtain ⟨Z, h1, h2, h3, h4⟩ := h
  obtain ⟨Z', k1, k2, k3, k4⟩ := h'
  have hL := h1.unique k1 (LocalWords.unique _ (Nat.le_refl _) h2 k2)
  have hT : ∀ Z Z' : List ((List Ch × List Ch) × List Token × List (List Ch)), Z.map (·.1) = Z'.map (·.1) →
      (∀ z ∈ Z, F (text z.1.2) z.2.1) → (∀ z ∈ Z', F (text z.1.2) z.2.1) →
      Z.map (·.1.2) = Z'.map (·.1.2) ∧ Z.map (·.2.1) = Z'.map (·.2.1) := by
    intro Z
    induction Z with
    | nil =>
      intro Z' e _ _
      cases Z' with
      | nil => exact ⟨rfl, rfl⟩
      | cons z Z' => simp at e
    | cons z Z ih =>
      intro Z' e hz hz'
      cases Z' with
      | nil => simp at e
      | cons z' Z' =>
        simp only [List.map_cons, List.cons.injEq] at e
        have := ih Z' e.2 (fun x hx => hz x (by simp [hx])) (fun x hx => hz' x (by simp [hx]))
        have ht := hz z (by simp)
        rw [e.1] at ht
        simp only [List.map_cons]
        rw [this.1, this.2, e.1, hF _ _ _ ht (hz' z' (by simp))]
        exact ⟨rfl, rfl⟩
  obtain ⟨e1, e2⟩ := hT Z Z' hL h3 k3
  rw [e1, e2] at h4
  exact h4.unique k4

theorem TokensOfWords.join {keep : Rune → Bool} {cut : Rune → Rune → Prop} {F : Str → List Token → Prop}
    {shift w ty : Int} {cs ds : List Ch} {A B : Encoding} (k : Nat)
    (h : TokensOfWords (LocalWords keep cut) F shift w ty cs A) (h' : TokensOfWords (LocalWords keep cut) F shift w ty ds B)
    (hc : ∀ x ∈ (cs.map (·.1)).getLast?, ∀ y ∈ (ds.map (·.1)).head?, keep x = true → keep y = true → cut x y) :
    TokensOfWords (LocalWords keep cut) F shift w ty (cs ++ moveLeft (-(k : Int)) ds) (joinEncodings k w A B) := by
  obtain ⟨Z, h1, h2, h3, h4⟩ := h
  obtain ⟨Z', k1, k2, k3, k4⟩ := h'
  have hj := h4.join k (by
    intro W hW
    obtain ⟨x, hx, rfl⟩ := List.mem_map.1 hW
    exact (h1 x.1 (List.mem_map.2 ⟨x, hx, rfl⟩)).1) k4
  have hs := h1.join (k := -(k : Int)) k1
  have hl := h2.join k2 hc
  refine ⟨Z ++ Z'.map fun z => ((cs ++ moveLeft (-(k : Int)) z.1.1, moveLeft (-(k : Int)) z.1.2), z.2.1,
    z.2.2.map (moveLeft (-(k : Int)))), ?_, ?_, ?_, ?_⟩
  · simpa [Function.comp_def] using hs
  · rw [List.map_append, moveLeft_runes]
    simpa [Function.comp_def, wordRunes, moveLeft_runes] using hl
  · intro z hz
    rcases List.mem_append.1 hz with hz | hz
    · exact h3 z hz
    · obtain ⟨x, hx, rfl⟩ := List.mem_map.1 hz
      show F (text (moveLeft _ x.1.2)) x.2.1
      rw [text_moveLeft]
      exact k3 x hx
  · simpa [Function.comp_def] using hj

/-! ## Pipelines -/

/-- Pre-tokenizer and model turn what is given into this encoding. -/
def Encodes (pre : PreTokenizer) (tok : NS → GoM (Except Err (List Token))) (w ty : Int) (p : PTS) (enc : Encoding) : Prop :=
  ∃ p1 p2, pre p = .ok (p1, none) ∧ p1.tokenize tok = .ok (p2, none) ∧ p2.intoEncoding w ty = .ok (.ok enc)

theorem join_states {pre : PreTokenizer} {tok : NS → GoM (Except Err (List Token))} {keep : Rune → Bool} {cut : Rune → Rune → Prop}
    {F : Str → List Token → Prop} (hF : ∀ s t t', F s t → F s t' → t = t') (good : Rune → Prop) {w ty : Int}
    (hmk : ∀ (ns : NS) (cs : List Ch) (o : Str), WF ns → Repr ns cs → (∀ c ∈ cs, good c.1) → ∃ enc,
      Encodes pre tok w ty ⟨o, [⟨ns, none⟩]⟩ enc ∧ TokensOfWords (LocalWords keep cut) F ns.originalShift w ty cs enc)
    {n1 n2 n : NS} {cs ds : List Ch} (k : Nat) (hw1 : WF n1) (hw2 : WF n2) (hw : WF n) (h1 : Repr n1 cs) (h2 : Repr n2 ds)
    (h : Repr n (cs ++ moveLeft (-(k : Int)) ds)) (hs1 : n1.originalShift = n.originalShift) (hs2 : n2.originalShift = n.originalShift)
    (hg : ∀ c ∈ cs ++ ds, good c.1)
    (hc : ∀ x ∈ (cs.map (·.1)).getLast?, ∀ y ∈ (ds.map (·.1)).head?, keep x = true → keep y = true → cut x y) (o1 o2 o : Str) :
    ∃ A B, Encodes pre tok w ty ⟨o1, [⟨n1, none⟩]⟩ A ∧ Encodes pre tok w ty ⟨o2, [⟨n2, none⟩]⟩ B
      ∧ Encodes pre tok w ty ⟨o, [⟨n, none⟩]⟩ (joinEncodings k w A B) := by
  obtain ⟨A, a1, a2⟩ := hmk n1 cs o1 hw1 h1 (fun c hc => hg c (by simp [hc]))
  obtain ⟨B, b1, b2⟩ := hmk n2 ds o2 hw2 h2 (fun c hc => hg c (by simp [hc]))
  obtain ⟨E, e1, e2⟩ := hmk n _ o hw h (by
    intro c hc
    rcases List.mem_append.1 hc with hc | hc
    · exact hg c (by simp [hc])
    · simp only [moveLeft, List.mem_map] at hc
      obtain ⟨d, hd, rfl⟩ := hc
      exact hg d (by simp [hd]))
  rw [hs1] at a2
  rw [hs2] at b2
  rw [e2.unique hF (a2.join k b2 hc)] at e1
  exact ⟨A, B, a1, b1, e1⟩

theorem selfChars_join (a b : List Rune) :
    selfChars 0 (a ++ b) = selfChars 0 a ++ moveLeft (-((encodeRunes a).length : Int)) (selfChars 0 b) := by
  rw [selfChars_append]
  congr 1
  have := moveLeft_selfChars (encodeRunes a).length 0 b
  rw [← this]
  simp [moveLeft, Function.comp_def]

theorem fromString_runes {rs : List Rune} (hv : ∀ r ∈ rs, ValidRune r) :
    WF (NS.fromString (encodeRunes rs)) ∧ Repr (NS.fromString (encodeRunes rs)) (selfChars 0 rs) := by
  have hvs : ValidUtf8 (encodeRunes rs) := ⟨rs, hv, rfl⟩
  refine ⟨fromString_wf hvs, ?_⟩
  have := fromString_repr hvs
  rwa [runesOf_encodeRunes rs hv] at this

/-- WordPiece over the words of a state. -/
theorem wordPiece_makes {pre : PreTokenizer} {keep' keep : Rune → Bool} {P : List Rune → List (List Rune × List Rune) → Prop}
    {cut : Rune → Rune → Prop} (hpre : CutsChars pre keep' P) (hloc : ∀ rs L, P rs L → LocalWords keep cut rs L)
    (m : WordPiece) (hval : m.vocab.AllValid) (hunk : m.vocab.getID m.unknownToken ≠ none) (w ty : Int)
    (ns : NS) (cs : List Ch) (o : Str) (hwf : WF ns) (h : Repr ns cs) : ∃ enc,
      Encodes pre (fun ns => .ok (m.tokenize ns.get)) w ty ⟨o, [⟨ns, none⟩]⟩ enc
        ∧ TokensOfWords (LocalWords keep cut) (fun s t => m.tokenize s = .ok t) ns.originalShift w ty cs enc := by
  obtain ⟨p1, p2, enc, L, T, Gf, k1, k2, k3, k4, -, k6, k7, k8⟩ := C67_wordPiece hpre m hval hunk hwf h o w ty
  exact ⟨enc, ⟨p1, p2, k1, k2, k3⟩, .of k4 (hloc _ _ k6) (fun x hx => (k7 x hx).1) k8⟩

/-- **C87, WordPiece.** When no word goes over the boundary, the encoding of the two texts after each other is that of the
first and then that of the second. -/
theorem C87_wordPiece {pre : PreTokenizer} {keep' keep : Rune → Bool} {P : List Rune → List (List Rune × List Rune) → Prop}
    {cut : Rune → Rune → Prop} (hpre : CutsChars pre keep' P) (hloc : ∀ rs L, P rs L → LocalWords keep cut rs L)
    (m : WordPiece) (hval : m.vocab.AllValid) (hunk : m.vocab.getID m.unknownToken ≠ none) (w ty : Int)
    {a b : List Rune} (ha : ∀ r ∈ a, ValidRune r) (hb : ∀ r ∈ b, ValidRune r)
    (hc : ∀ x ∈ a.getLast?, ∀ y ∈ b.head?, keep x = true → keep y = true → cut x y) :
    ∃ A B, Encodes pre (fun ns => .ok (m.tokenize ns.get)) w ty (PTS.fromString (encodeRunes a)) A
      ∧ Encodes pre (fun ns => .ok (m.tokenize ns.get)) w ty (PTS.fromString (encodeRunes b)) B
      ∧ Encodes pre (fun ns => .ok (m.tokenize ns.get)) w ty (PTS.fromString (encodeRunes a ++ encodeRunes b))
          (joinEncodings (encodeRunes a).length w A B) := by
  have h1 := fromString_runes ha
  have h2 := fromString_runes hb
  have h := fromString_runes (rs := a ++ b) (fun r hr => (List.mem_append.1 hr).elim (ha r) (hb r))
  rw [encodeRunes_append, selfChars_join] at h
  exact join_states (F := fun s t => m.tokenize s = .ok t) (fun s t t' e e' => by rw [e] at e'; simpa using e') (fun _ => True)
    (fun ns cs o hwf h _ => wordPiece_makes hpre hloc m hval hunk w ty ns cs o hwf h) (encodeRunes a).length h1.1 h2.1 h.1 h1.2 h2.2 h.2
    rfl rfl (fun _ _ => trivial) (by rw [selfChars_map_fst, selfChars_map_fst]; exact hc) _ _ _

/-- **C87, BPE.** The same without dropout. -/
theorem C87_bpe {pre : PreTokenizer} {keep' keep : Rune → Bool} {P : List Rune → List (List Rune × List Rune) → Prop}
    {cut : Rune → Rune → Prop} (hpre : CutsChars pre keep' P) (hloc : ∀ rs L, P rs L → LocalWords keep cut rs L)
    (m : BPE) (hd : m.hasDropout = false) (hvoc : ∀ t i, m.vocab.getID t = some i → m.vocab.getString i ≠ none)
    (hm : ∀ a b v, m.merges.get a b = some v → m.vocab.getString v.id ≠ none)
    (hunk : m.unknownToken ≠ [] → m.vocab.getID m.unknownToken ≠ none) (rnd : NS → Nat → Bool) (w ty : Int)
    {a b : List Rune} (ha : ∀ r ∈ a, ValidRune r) (hb : ∀ r ∈ b, ValidRune r)
    (hcov : m.unknownToken ≠ [] ∨ ∀ r ∈ a ++ b, keep' r = true → ∀ i last, m.vocab.getID (m.lookupKey i last r) ≠ none)
    (hc : ∀ x ∈ a.getLast?, ∀ y ∈ b.head?, keep x = true → keep y = true → cut x y) :
    ∃ A B, Encodes pre (m.tokenizeNS rnd) w ty (PTS.fromString (encodeRunes a)) A
      ∧ Encodes pre (m.tokenizeNS rnd) w ty (PTS.fromString (encodeRunes b)) B
      ∧ Encodes pre (m.tokenizeNS rnd) w ty (PTS.fromString (encodeRunes a ++ encodeRunes b))
          (joinEncodings (encodeRunes a).length w A B) := by
  have h1 := fromString_runes ha
  have h2 := fromString_runes hb
  have h := fromString_runes (rs := a ++ b) (fun r hr => (List.mem_append.1 hr).elim (ha r) (hb r))
  rw [encodeRunes_append, selfChars_join] at h
  refine join_states (F := fun s t => m.tokenize (fun _ => false) s = .ok (.ok (some t)))
    (fun s t t' e e' => by rw [e] at e'; simpa using e')
    (fun r => m.unknownToken ≠ [] ∨ (keep' r = true → ∀ i last, m.vocab.getID (m.lookupKey i last r) ≠ none))
    (fun ns cs o hwf h hg => ?_) (encodeRunes a).length h1.1 h2.1 h.1 h1.2 h2.2 h.2
    rfl rfl ?_ (by rw [selfChars_map_fst, selfChars_map_fst]; exact hc) _ _ _
  · obtain ⟨p1, p2, enc, L, T, Gf, k1, k2, k3, k4, -, k6, k7, k8⟩ := C67_bpe hpre m rnd hvoc hm hunk hwf h (by
      by_cases hu : m.unknownToken = []
      · exact .inr fun c hc => (hg c hc).resolve_left (fun h => h hu)
      · exact .inl hu) o w ty
    exact ⟨enc, ⟨p1, p2, k1, k2, k3⟩, .of k4 (hloc _ _ k6) (fun x hx => by
      rw [tokenize_draws hd _ (rnd (pieceOf ns x.2))]; exact k7 x hx) k8⟩
  · intro c hc
    rcases hcov with hu | hcov
    · exact .inl hu
    · refine .inr (hcov c.1 ?_)
      rcases List.mem_append.1 hc with hc | hc
      · rw [List.mem_append]; left
        rw [← selfChars_map_fst 0 a]; exact List.mem_map.2 ⟨c, hc, rfl⟩
      · rw [List.mem_append]; right
        rw [← selfChars_map_fst 0 b]; exact List.mem_map.2 ⟨c, hc, rfl⟩

/-! ## The BERT pipeline -/

/-- Normalizer, pre-tokenizer and WordPiece turn the input into this encoding. -/
def BertEncodes (u : Uni) (c : BertCfg) (m : WordPiece) (w ty : Int) (input : Str) (enc : Encoding) : Prop :=
  ∃ p0, (PTS.fromString input).normalize (bertNormalize u c) = .ok (p0, none)
    ∧ Encodes (bertPreTokenize u) (fun ns => .ok (m.tokenize ns.get)) w ty p0 enc

/-- No rune of several bytes is dropped from the front. -/
def BertStart (u : Uni) (c : BertCfg) (rs : List Rune) : Prop :=
  (c.textCleaning = true → GoodStart (bertDropped u) rs) ∧ (c.accentsStripping = true → GoodStart u.isMn (bertText u (spacesOnly c) rs))

theorem bert_state (u : Uni) (c : BertCfg) {rs : List Rune} (hv : ∀ r ∈ rs, ValidRune r) (h : BertStart u c rs) :
    ∃ ns, (PTS.fromString (encodeRunes rs)).normalize (bertNormalize u c) = .ok (⟨encodeRunes rs, [⟨ns, none⟩]⟩, none)
      ∧ WF ns ∧ Repr ns (bertSpec u c (selfChars 0 rs)) ∧ ns.originalShift = 0 := by
  obtain ⟨hwf0, hr⟩ := fromString_runes hv
  have hfst : (selfChars 0 rs).map (·.1) = rs := selfChars_map_fst 0 rs
  obtain ⟨ns, n1, n2, n3, n4⟩ := C34_bert_partial hr u c (fun h' => goodLead_iff (by rw [hfst]; exact h.1 h'))
    (fun h' => goodLead_iff (by rw [spacesOnly_text, hfst]; exact h.2 h'))
  have hself := hwf0.chars hr
  refine ⟨ns, ?_, ?_, n2, by rw [n4]; rfl⟩
  · have := C59_normalize_ok (PTS.fromString (encodeRunes rs)) (bertNormalize u c) (fun _ => ns) (by
      intro sp hsp _
      simp [PTS.fromString, PTS.fromNormalizedString] at hsp
      rw [hsp]; exact n1)
    rw [this]
    simp [PTS.fromString, PTS.fromNormalizedString, withText, NS.getOriginal, NS.fromString]
  · refine wf_of_chars n2 ?_ ?_
    · rw [bertSpec_flatMap]; exact inPlace_ordered (bertSpec_inPlace u c) hself.1
    · intro x hx
      rw [bertSpec_flatMap] at hx
      obtain ⟨y, hy, hx⟩ := List.mem_flatMap.1 hx
      rw [bertSpec_inPlace u c y x hx, n3]
      exact hself.2 y hy

theorem bertSpec_one (u : Uni) (c : BertCfg) (x : Ch) : bertSpec u c [x] = (bertText u c [x.1]).map fun r => (r, x.2) := by
  rw [show [x.1] = [x].map (·.1) from rfl, ← bertSpec_runes, List.map_map]
  conv => lhs; rw [← List.map_id (bertSpec u c [x])]
  refine List.map_congr_left fun y hy => ?_
  exact Prod.ext rfl (bertSpec_inPlace u c x y hy)

theorem bertSpec_moved (u : Uni) (c : BertCfg) (k : Int) (cs : List Ch) : bertSpec u c (moveLeft k cs) = moveLeft k (bertSpec u c cs) := by
  rw [bertSpec_flatMap, bertSpec_flatMap u c cs]
  simp only [moveLeft, List.flatMap_map, List.map_flatMap, bertSpec_one, List.map_map, Function.comp_def]

/-- **C87, BERT.** The same after the normalizer, when the boundary of the normalized texts is at white space or punctuation. -/
theorem C87_bert (u : Uni) (c : BertCfg) (m : WordPiece) (hval : m.vocab.AllValid) (hunk : m.vocab.getID m.unknownToken ≠ none)
    (w ty : Int) {a b : List Rune} (ha : ∀ r ∈ a, ValidRune r) (hb : ∀ r ∈ b, ValidRune r)
    (hsa : BertStart u c a) (hsb : BertStart u c b) (hsab : BertStart u c (a ++ b))
    (hc : ∀ x ∈ (bertText u c a).getLast?, ∀ y ∈ (bertText u c b).head?,
      isWhiteSpace x = true ∨ isWhiteSpace y = true ∨ u.isPunct x = true ∨ u.isPunct y = true) :
    ∃ A B, BertEncodes u c m w ty (encodeRunes a) A ∧ BertEncodes u c m w ty (encodeRunes b) B
      ∧ BertEncodes u c m w ty (encodeRunes a ++ encodeRunes b) (joinEncodings (encodeRunes a).length w A B) := by
  obtain ⟨n1, a1, a2, a3, a4⟩ := bert_state u c ha hsa
  obtain ⟨n2, b1, b2, b3, b4⟩ := bert_state u c hb hsb
  obtain ⟨n, e1, e2, e3, e4⟩ := bert_state u c (rs := a ++ b)
    (fun r hr => (List.mem_append.1 hr).elim (ha r) (hb r)) hsab
  rw [selfChars_join, bertSpec_append, bertSpec_moved] at e3
  rw [encodeRunes_append] at e1
  obtain ⟨A, B, k1, k2, k3⟩ := join_states (F := fun s t => m.tokenize s = .ok t) (fun s t t' e e' => by rw [e] at e'; simpa using e')
    (fun _ => True) (fun ns cs o hwf h _ => wordPiece_makes (C66_bert u) (fun _ _ h => h.localWords) m hval hunk w ty ns cs o hwf h)
    (encodeRunes a).length a2 b2 e2 a3 b3 e3 (by rw [a4, e4]) (by rw [b4, e4]) (fun _ _ => trivial) (by
      rw [bertSpec_runes, bertSpec_runes, selfChars_map_fst, selfChars_map_fst]
      intro x hx y hy kx ky
      rcases hc x hx y hy with h | h | h | h
      · simp [h] at kx
      · simp [h] at ky
      · exact .inl h
      · exact .inr h) (encodeRunes a) (encodeRunes b) (encodeRunes a ++ encodeRunes b)
  exact ⟨A, B, ⟨_, a1, k1⟩, ⟨_, b1, k2⟩, ⟨_, e1, k3⟩⟩

/-- **C87, default white space with WordPiece.** Texts that do not meet inside a run of one sort. -/
theorem C87_whiteSpace (u : RxUni) (m : WordPiece) (hval : m.vocab.AllValid) (hunk : m.vocab.getID m.unknownToken ≠ none) (w ty : Int)
    {a b : List Rune} (ha : ∀ r ∈ a, ValidRune r) (hb : ∀ r ∈ b, ValidRune r)
    (hc : ∀ x ∈ a.getLast?, ∀ y ∈ b.head?, wordKind u x = none ∨ wordKind u x ≠ wordKind u y) :
    ∃ A B, Encodes (whiteSpaceDefault u) (fun ns => .ok (m.tokenize ns.get)) w ty (PTS.fromString (encodeRunes a)) A
      ∧ Encodes (whiteSpaceDefault u) (fun ns => .ok (m.tokenize ns.get)) w ty (PTS.fromString (encodeRunes b)) B
      ∧ Encodes (whiteSpaceDefault u) (fun ns => .ok (m.tokenize ns.get)) w ty (PTS.fromString (encodeRunes a ++ encodeRunes b))
          (joinEncodings (encodeRunes a).length w A B) :=
  C87_wordPiece (C66_whiteSpace u) (fun _ _ h => h.localWords) m hval hunk w ty ha hb (fun x hx y hy kx _ => by
    rcases hc x hx y hy with h | h
    · rw [h] at kx; cases kx
    · exact h)

/-- **C87, one separator with WordPiece.** Texts that meet at the separator. -/
theorem C87_runeDelimiter (d : Rune) (m : WordPiece) (hval : m.vocab.AllValid) (hunk : m.vocab.getID m.unknownToken ≠ none) (w ty : Int)
    {a b : List Rune} (ha : ∀ r ∈ a, ValidRune r) (hb : ∀ r ∈ b, ValidRune r)
    (hc : ∀ x ∈ a.getLast?, ∀ y ∈ b.head?, x = d ∨ y = d) :
    ∃ A B, Encodes (runeDelimiter d) (fun ns => .ok (m.tokenize ns.get)) w ty (PTS.fromString (encodeRunes a)) A
      ∧ Encodes (runeDelimiter d) (fun ns => .ok (m.tokenize ns.get)) w ty (PTS.fromString (encodeRunes b)) B
      ∧ Encodes (runeDelimiter d) (fun ns => .ok (m.tokenize ns.get)) w ty (PTS.fromString (encodeRunes a ++ encodeRunes b))
          (joinEncodings (encodeRunes a).length w A B) :=
  C87_wordPiece (C66_runeDelimiter d) (fun _ _ h => h.localWords) m hval hunk w ty ha hb (fun x hx y hy kx ky => by
    rcases hc x hx y hy with h | h
    · subst h; simp at kx
    · subst h; simp at ky)

/-- The BERT pipeline on a sample vocabulary, as a function. -/
def bertRun (w : Int) (input : Str) : GoM (Except Err Encoding) :=
  let u : Uni := ⟨fun r => r == 1, fun r => r == 0x301, fun r => r == u!"!", fun r => if r == u!"H" then u!"h" else r⟩
  let m : WordPiece := ⟨Vocab.fromJSON (some [(b!"[U]", 0), (b!"h", 1), (b!"##e", 2), (b!"世", 3)]) [], b!"[U]", b!"##", 100⟩
  ((PTS.fromString input).normalize (bertNormalize u ⟨true, true, true, true⟩)).bind fun r =>
    (bertPreTokenize u r.1).bind fun r => (r.1.tokenize fun ns => .ok (m.tokenize ns.get)).bind fun r => r.1.intoEncoding w 7

-- `!` ends a word, so the encoding of `世He!h` is that of `世He!` and that of `h` moved by 6 bytes and 3 words
example : ∃ A B, bertRun (-1) b!"世He!" = .ok (.ok A) ∧ bertRun (-1) b!"h" = .ok (.ok B) ∧ A.words = [0, 1, 1, 2] ∧ B.words = [0]
    ∧ B.offsets = [⟨0, 1⟩] ∧ bertRun (-1) b!"世He!h" = .ok (.ok (joinEncodings 6 (-1) A B))
    ∧ (joinEncodings 6 (-1) A B).words = [0, 1, 1, 2, 3] ∧ (joinEncodings 6 (-1) A B).offsets = [⟨0, 3⟩, ⟨3, 4⟩, ⟨4, 5⟩, ⟨5, 6⟩, ⟨6, 7⟩] :=
  ⟨⟨[3, 1, 2, 0], [7, 7, 7, 7], [b!"世", b!"h", b!"##e", b!"[U]"], [0, 1, 1, 2], [⟨0, 3⟩, ⟨3, 4⟩, ⟨4, 5⟩, ⟨5, 6⟩], [0, 0, 0, 0], [1, 1, 1, 1]⟩,
    ⟨[1], [7], [b!"h"], [0], [⟨0, 1⟩], [0], [1]⟩, by decide +kernel, by decide +kernel, rfl, rfl, rfl, by decide +kernel, rfl, rfl⟩

/-- Inside a word it is different: `h` and `e` are not the word `he`. -/
theorem C87_inside : ∃ A B C, bertRun (-1) b!"h" = .ok (.ok A) ∧ bertRun (-1) b!"e" = .ok (.ok B) ∧ bertRun (-1) b!"he" = .ok (.ok C)
    ∧ C.ids ≠ (joinEncodings 1 (-1) A B).ids :=
  ⟨⟨[1], [7], [b!"h"], [0], [⟨0, 1⟩], [0], [1]⟩, ⟨[0], [7], [b!"[U]"], [0], [⟨0, 1⟩], [0], [1]⟩,
    ⟨[1, 2], [7, 7], [b!"h", b!"##e"], [0, 0], [⟨0, 1⟩, ⟨1, 2⟩], [0, 0], [1, 1]⟩,
    by decide +kernel, by decide +kernel, by decide +kernel, by decide +kernel⟩

end Verif
