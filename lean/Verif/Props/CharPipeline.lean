import Verif.Spec.CharRows
import Verif.Props.AnyState
import Verif.Props.GptPipeline

/-! Property C67: from any state to the encoding. -/

set_option autoImplicit false

namespace Verif

/-! ## Groups of characters -/

/-- Tokens that tile the runes group the characters. -/
theorem RuneTiles.groups {a rest : List Rune} {ts : List Token} (h : RuneTiles a rest ts) :
    ∀ A B : List Ch, A.map (·.1) = a → B.map (·.1) = rest →
    ∃ Gs, Gs.flatten = B ∧ (∀ G ∈ Gs, G ≠ []) ∧ OverGroups A Gs ts := by
  induction h with
  | nil =>
    intro A B _ hB
    exact ⟨[], by simpa using hB.symm, by simp, trivial⟩
  | @cons a hd tl t ts hh ht _ ih =>
    intro A B hA hB
    obtain ⟨G, C, rfl, hG, hC⟩ := List.map_eq_append_iff.1 hB
    obtain ⟨Gs, g1, g2, g3⟩ := ih (A ++ G) C (by simp [hA, hG]) hC
    refine ⟨G :: Gs, by simp [g1], ?_, ?_, g3⟩
    · intro X hX
      rcases List.mem_cons.1 hX with rfl | hX
      · rintro rfl; exact hh (by simpa using hG.symm)
      · exact g2 X hX
    · rw [ht]
      simp [text, hA, hG]

theorem OverGroups.length : ∀ {Gs : List (List Ch)} {ts : List Token} {A : List Ch}, OverGroups A Gs ts → ts.length = Gs.length := by
  intro Gs
  induction Gs with
  | nil => intro ts A h; cases ts with
    | nil => rfl
    | cons t ts => exact absurd h (by simp [OverGroups])
  | cons G Gs ih => intro ts A h; cases ts with
    | nil => exact absurd h (by simp [OverGroups])
    | cons t ts => simp [ih h.2]

theorem firstAlign_append {A B : List Ch} (h : A ≠ []) : firstAlign (A ++ B) = firstAlign A := by
  cases A with
  | nil => exact absurd rfl h
  | cons a A => rfl

theorem firstAlign_moveLeft {k : Int} {G : List Ch} (h : G ≠ []) : (firstAlign (moveLeft k G)).start = (firstAlign G).start - k := by
  cases G with
  | nil => exact absurd rfl h
  | cons a A => rfl

theorem lastAlign_moveLeft {k : Int} {G : List Ch} (h : G ≠ []) : (lastAlign (moveLeft k G)).stop = (lastAlign G).stop - k := by
  rcases List.eq_nil_or_concat G with rfl | ⟨g, r, rfl⟩
  · exact absurd rfl h
  · rw [List.concat_eq_append, moveLeft_append]
    simp only [moveLeft, List.map_cons, List.map_nil]
    rw [lastAlign_concat, lastAlign_concat]

/-- The rows of one piece. -/
theorem encodeTokens_piece {ns : NS} {P Q : List Ch} (w ty : Int) : ∀ (Gs : List (List Ch)) (A : List Ch) (ts : List Token),
    Repr ns (P ++ (A ++ Gs.flatten) ++ Q) → (∀ G ∈ Gs, G ≠ []) → OverGroups A Gs ts →
    PTS.encodeTokens (pieceOf ns (A ++ Gs.flatten)) w ty ts = .ok ((ts.zip Gs).map fun x =>
      ⟨x.1.id, x.1.value, groupOffsets ns.originalShift x.2, w, ty⟩) := by
  intro Gs
  induction Gs with
  | nil =>
    intro A ts _ _ h
    cases ts with
    | nil => rfl
    | cons t ts => exact absurd h (by simp [OverGroups])
  | cons G Gs ih =>
    intro A ts h hne ho
    cases ts with
    | nil => exact absurd ho (by simp [OverGroups])
    | cons t ts =>
      obtain ⟨h1, h2⟩ := ho
      have hG := hne G (by simp)
      have e : A ++ (G :: Gs).flatten = A ++ G ++ Gs.flatten := by simp
      rw [e] at h ⊢
      have i1 := ih (A ++ G) ts h (fun X hX => hne X (by simp [hX])) h2
      have hv : ValidChars (A ++ G ++ Gs.flatten) := fun c hc => h.valid c (by
        rw [List.mem_append, List.mem_append]; exact Or.inl (Or.inr hc))
      have hr := pieceOf_repr ns hv
      have hk : ∀ k, moveLeft k (A ++ G ++ Gs.flatten) = moveLeft k A ++ moveLeft k G ++ moveLeft k Gs.flatten := by
        intro k; simp [moveLeft_append]
      rw [hk] at hr
      have := tokenOffsets_chars hr (moveLeft_ne hG) (t := t) (by
        rw [h1, ← moveLeft_append, text_move, text_move])
      rw [firstAlign_moveLeft hG, lastAlign_moveLeft hG] at this
      simp only [PTS.encodeTokens, this, i1, GoM.bind_ok, List.zip_cons_cons, List.map_cons]
      have hs : (pieceOf ns (A ++ G ++ Gs.flatten)).originalShift = ns.originalShift + (firstAlign (A ++ G ++ Gs.flatten)).start := rfl
      rw [hs]
      simp only [groupOffsets]
      show GoM.ok _ = GoM.ok _
      congr 3
      congr 1 <;> omega

theorem zip_rows {ts : List Token} {Gs : List (List Ch)} (h : ts.length = Gs.length) (s w ty : Int) :
    let rows : List EncodableToken := (ts.zip Gs).map fun x => ⟨x.1.id, x.1.value, groupOffsets s x.2, w, ty⟩
    rows.map (·.id) = ts.map (·.id) ∧ rows.map (·.typeID) = (ts.map fun _ => ty)
      ∧ rows.map (·.token) = ts.map (·.value) ∧ rows.map (·.wordIndex) = (ts.map fun _ => w)
      ∧ rows.map (·.offsets) = Gs.map (groupOffsets s) := by
  induction ts generalizing Gs with
  | nil =>
    cases Gs with
    | nil => exact ⟨rfl, rfl, rfl, rfl, rfl⟩
    | cons G Gs => simp at h
  | cons t ts ih =>
    cases Gs with
    | nil => simp at h
    | cons G Gs =>
      obtain ⟨h1, h2, h3, h4, h5⟩ := ih (Gs := Gs) (by simpa using h)
      simp only [List.zip_cons_cons, List.map_cons] at *
      exact ⟨by rw [h1], by rw [h2], by rw [h3], by rw [h4], by rw [h5]⟩

/-- The rows of all the pieces. -/
theorem encodeSplits_chars {ns : NS} {cs : List Ch} (h : Repr ns cs) (w ty : Int) (T : List Ch × List Ch → List Token)
    (Gf : List Ch × List Ch → List (List Ch)) :
    ∀ (L : List (List Ch × List Ch)) (i : Nat), StandsIn cs L →
    (∀ x ∈ L, (Gf x).flatten = x.2 ∧ (∀ G ∈ Gf x, G ≠ []) ∧ OverGroups [] (Gf x) (T x)) →
    ∃ rows, PTS.encodeSplits w ty i (L.map fun x => ⟨pieceOf ns x.2, some (T x)⟩) = .ok rows
      ∧ rows.map (·.id) = (L.map T).flatten.map (·.id)
      ∧ rows.map (·.typeID) = ((L.map T).flatten.map fun _ => ty)
      ∧ rows.map (·.token) = (L.map T).flatten.map (·.value)
      ∧ rows.map (·.wordIndex) = wordsFrom w i (L.map T)
      ∧ rows.map (·.offsets) = (L.map Gf).flatten.map (groupOffsets ns.originalShift) := by
  intro L
  induction L with
  | nil => intro i _ _; exact ⟨[], rfl, rfl, rfl, rfl, rfl, rfl⟩
  | cons x L ih =>
    intro i hs hx
    obtain ⟨rows', i1, i2, i3, i4, i5, i6⟩ := ih (i + 1) (fun y hy => hs y (by simp [hy])) (fun y hy => hx y (by simp [hy]))
    obtain ⟨-, C, e⟩ := hs x (by simp)
    obtain ⟨g1, g2, g3⟩ := hx x (by simp)
    have j1 := encodeTokens_piece (ns := ns) (P := x.1) (Q := C) (if w < 0 then (i : Int) else w) ty (Gf x) [] (T x)
      (by rw [List.nil_append, g1, ← e]; exact h) g2 g3
    rw [List.nil_append, g1] at j1
    obtain ⟨q1, q2, q3, q4, q5⟩ := zip_rows g3.length ns.originalShift (if w < 0 then (i : Int) else w) ty
    have e3 : (if w < 0 then (i : Int) else w) = if 0 ≤ w then w else i := by
      split <;> split <;> first | rfl | omega
    refine ⟨(((T x).zip (Gf x)).map fun y => ⟨y.1.id, y.1.value, groupOffsets ns.originalShift y.2, if w < 0 then (i : Int) else w, ty⟩) ++ rows', ?_, ?_, ?_, ?_, ?_, ?_⟩
    · simp only [List.map_cons, PTS.encodeSplits, Option.getD_some, j1, i1, GoM.bind_ok]
      rfl
    · simp only [List.map_cons, List.flatten_cons, List.map_append, q1, i2]
    · simp only [List.map_cons, List.flatten_cons, List.map_append, q2, i3]
    · simp only [List.map_cons, List.flatten_cons, List.map_append, q3, i4]
    · rw [List.map_append, q4, i5, e3]; rfl
    · simp only [List.map_cons, List.flatten_cons, List.map_append, q5, i6]

/-- Tokenizing the pieces of a state and making the encoding. -/
theorem encode_chars {ns : NS} {cs : List Ch} (h : Repr ns cs) {L : List (List Ch × List Ch)} (hL : StandsIn cs L)
    (f : NS → GoM (Except Err (List Token))) (T : List Ch × List Ch → List Token) (o : Str) (w ty : Int)
    (hf : ∀ x ∈ L, f (pieceOf ns x.2) = .ok (.ok (T x)))
    (ht : ∀ x ∈ L, RuneTiles [] (x.2.map (·.1)) (T x)) :
    ∃ p enc Gf, (PTS.mk o (charPieces ns L)).tokenize f = .ok (p, none)
      ∧ p.intoEncoding w ty = .ok (.ok enc)
      ∧ EncodesChars ns.originalShift w ty (L.map (·.2)) (L.map T) (L.map Gf) enc := by
  have hg : ∀ x, ∃ Gs, x ∈ L → Gs.flatten = x.2 ∧ (∀ G ∈ Gs, G ≠ []) ∧ OverGroups [] Gs (T x) := by
    intro x
    by_cases hx : x ∈ L
    · obtain ⟨Gs, h⟩ := (ht x hx).groups [] x.2 rfl rfl
      exact ⟨Gs, fun _ => h⟩
    · exact ⟨[], fun h => absurd h hx⟩
  obtain ⟨Gf, hG⟩ := Classical.axiomOfChoice hg
  obtain ⟨rows, i1, i2, i3, i4, i5, i6⟩ := encodeSplits_chars h w ty T Gf L 0 hL hG
  have h1 := C58_tokenize_ok (PTS.mk o (charPieces ns L)) f
    (fun ns => match f ns with | .ok (.ok ts) => ts | _ => []) (by
      intro sp hsp _
      obtain ⟨x, hx, rfl⟩ := List.mem_map.1 hsp
      simp only [hf x hx])
  have h2 : (charPieces ns L).map (withTokens fun ns => match f ns with | .ok (.ok ts) => ts | _ => [])
      = L.map fun x => ⟨pieceOf ns x.2, some (T x)⟩ := by
    unfold charPieces
    rw [List.map_map]
    apply List.map_congr_left
    intro x hx
    simp [withTokens, hf x hx]
  simp only at h1
  rw [h2] at h1
  have hR := hasRows_from rows
  have hlen : rows.map (fun _ => ()) = (L.map T).flatten.map fun _ => () := by
    have := congrArg (List.map fun _ => ()) i2
    simpa [Function.comp_def] using this
  have hconst : ∀ c : Int, (rows.map fun _ => c) = (L.map T).flatten.map fun _ => c := by
    intro c
    have := congrArg (List.map fun _ => c) hlen
    simpa [Function.comp_def] using this
  have hall : ∀ {α β : Type} {R : α → β → Prop} {F : List Ch × List Ch → α} {F' : List Ch × List Ch → β},
      (∀ x ∈ L, R (F x) (F' x)) → All2 R (L.map F) (L.map F') := by
    intro α β R F F' h
    clear hR hlen hconst i1 i2 i3 i4 i5 i6 h1 h2 hG hg ht hf hL
    induction L with
    | nil => exact .nil
    | cons x L ih => exact .cons (h x (by simp)) (ih fun y hy => h y (by simp [hy]))
  refine ⟨_, Encoding.fromEncodableTokens rows, Gf, h1, ?_, ⟨?_, ?_, ?_, ?_, ?_, ?_, ?_, ?_, ?_⟩⟩
  · unfold PTS.intoEncoding
    by_cases hL : L = []
    · subst hL
      simp [PTS.encodeSplits] at i1
      subst i1; rfl
    · rw [if_neg (by simpa using hL), if_neg (by simp [PTS.allSplitsHaveTokens]), i1]
      rfl
  · rw [hR.ids, i2]
  · rw [hR.typeIDs, i3]
  · rw [hR.tokens, i4]
  · rw [hR.words, i5]
  · rw [hR.special, hconst]
  · rw [hR.attention, hconst]
  · exact hall fun x hx => ⟨(hG x hx).1, (hG x hx).2.1⟩
  · exact hall fun x hx => (hG x hx).2.2
  · rw [hR.offsets, i6]

/-! ## The two models -/

theorem all2_maps {α β γ : Type} {R : β → γ → Prop} {F : α → β} {F' : α → γ} {L : List α}
    (h : All2 R (L.map F) (L.map F')) : ∀ x ∈ L, R (F x) (F' x) := by
  induction L with
  | nil => intro x hx; simp at hx
  | cons y L ih =>
    intro x hx
    cases h with
    | cons h1 h2 =>
      rcases List.mem_cons.1 hx with rfl | hx
      · exact h1
      · exact ih h2 x hx

theorem prefix_eq {g h u v : List Rune} (e : g ++ u = h ++ v) (hl : (encodeRunes g).length = (encodeRunes h).length) : g = h := by
  rcases List.append_eq_append_iff.1 e with ⟨x, rfl, -⟩ | ⟨x, rfl, -⟩
  · have : x = [] := by
      apply Classical.byContradiction
      intro hx
      have := encodeRunes_pos hx
      simp only [encodeRunes_append, List.length_append] at hl; omega
    simp [this]
  · have : x = [] := by
      apply Classical.byContradiction
      intro hx
      have := encodeRunes_pos hx
      simp only [encodeRunes_append, List.length_append] at hl; omega
    simp [this]

theorem WordPiece.WholeTokens.values {m : WordPiece} {a rest : List Rune} {ts : List Token} (h : m.WholeTokens a rest ts) :
    ∀ (A : List Ch) (Gs : List (List Ch)), A.map (·.1) = a → Gs.flatten.map (·.1) = rest → OverGroups A Gs ts →
    PieceValues m (decide (A = [])) Gs ts := by
  induction h with
  | nil =>
    intro A Gs _ _ h
    cases Gs with
    | nil => trivial
    | cons G Gs => exact absurd h (by simp [OverGroups])
  | @cons a hd tl id ts hh hid _ ih =>
    intro A Gs hA hB ho
    cases Gs with
    | nil => exact absurd ho (by simp [OverGroups])
    | cons G Gs =>
      obtain ⟨h1, h2⟩ := ho
      simp only [List.flatten_cons, List.map_append] at hB
      have hG : G.map (·.1) = hd := by
        refine prefix_eq hB ?_
        have := congrArg ByteOffsets.stop h1
        simp only [text, List.map_append, hA, encodeRunes_append, List.length_append] at this
        omega
      have hne : A ++ G ≠ [] := by
        intro h0
        simp at h0
        rw [h0.2] at hG
        exact hh hG.symm
      have i1 := ih (A ++ G) Gs (by simp [hA, hG]) (by
        rw [hG] at hB; exact List.append_cancel_left hB) h2
      simp only [hne, decide_false] at i1
      refine ⟨?_, hid, i1⟩
      subst hA
      by_cases hA0 : A = []
      · subst hA0; simp [WordPiece.key, text, hG]
      · simp [WordPiece.key, text, hG, hA0]

/-- WordPiece over the words of a state. -/
theorem wordPiece_words (m : WordPiece) (hval : m.vocab.AllValid) (hunk : m.vocab.getID m.unknownToken ≠ none)
    {ns : NS} {cs : List Ch} (h : Repr ns cs) {L : List (List Ch × List Ch)} (h3 : StandsIn cs L) (o : Str) (w ty : Int) :
    ∃ p2 enc T Gf, (PTS.mk o (charPieces ns L)).tokenize (fun ns => .ok (m.tokenize ns.get)) = .ok (p2, none)
      ∧ p2.intoEncoding w ty = .ok (.ok enc)
      ∧ (∀ x ∈ L, m.tokenize (text x.2) = .ok (T x) ∧ WordPieceWord m (Gf x) (T x))
      ∧ EncodesChars ns.originalShift w ty (L.map (·.2)) (L.map T) (L.map Gf) enc := by
  have htot : ∀ s, ∃ ts, m.tokenize s = .ok ts := by
    intro s
    cases h : m.tokenize s with
    | ok ts => exact ⟨ts, rfl⟩
    | error e => exact absurd ((C36_tiles m s).2.1 e h).2.1 hunk
  obtain ⟨tok, htok⟩ : ∃ tok : Str → List Token, ∀ s, m.tokenize s = .ok (tok s) :=
    ⟨fun s => match m.tokenize s with | .ok ts => ts | _ => [], by
      intro s
      obtain ⟨ts, h⟩ := htot s
      simp only [h]⟩
  obtain ⟨p, enc, Gf, k1, k2, k3⟩ := encode_chars h h3 (fun ns => .ok (m.tokenize ns.get)) (fun x => tok (text x.2)) o w ty (by
    intro x hx
    simp only [NS.get, pieceOf, htok]) (by
    intro x hx
    exact wordPiece_tiles m hval (by simpa using (h3 x hx).1) (htok _))
  refine ⟨p, enc, _, Gf, k1, k2, ?_, k3⟩
  intro x hx
  refine ⟨htok _, ?_⟩
  obtain ⟨hg1, hg2⟩ := all2_maps k3.groups x hx
  have hg3 := all2_maps k3.perToken x hx
  rcases C37_whole_runes m hval (x.2.map (·.1)) _ (htok _) with ⟨id, hid, hu⟩ | hw
  · have hu' : tok (text x.2) = _ := hu
    left
    have hl := hg3.length
    rw [hu'] at hl
    cases hgx : Gf x with
    | nil => rw [hgx] at hl; simp at hl
    | cons G Gs =>
      cases Gs with
      | nil => exact ⟨G, _, rfl, hu', rfl, hid⟩
      | cons G' Gs => rw [hgx] at hl; simp at hl
  · right
    have := hw.values [] (Gf x) rfl (by rw [hg1]) hg3
    simp only [decide_true] at this
    exact this

/-- **C67, WordPiece.** Take any well-formed state, however it was made, any of the pre-tokenizers that cut it
into words, and WordPiece with a vocabulary of valid terms that has the unknown token.  Nothing
fails or crashes; the tokens are those of the words in order, each over a non-empty group of the
characters of its word; the offsets are those of the characters in the original; the token is the
unknown token over the whole word, or the text of its characters after the prefix where one is due. -/
theorem C67_wordPiece {pre : PreTokenizer} {keep : Rune → Bool} {P : List Rune → List (List Rune × List Rune) → Prop}
    (hpre : CutsChars pre keep P) (m : WordPiece) (hval : m.vocab.AllValid)
    (hunk : m.vocab.getID m.unknownToken ≠ none) {ns : NS} {cs : List Ch} (hwf : WF ns) (h : Repr ns cs) (o : Str) (w ty : Int) :
    ∃ p1 p2 enc L T Gf, pre ⟨o, [⟨ns, none⟩]⟩ = .ok (p1, none)
      ∧ p1.tokenize (fun ns => .ok (m.tokenize ns.get)) = .ok (p2, none)
      ∧ p2.intoEncoding w ty = .ok (.ok enc)
      ∧ StandsIn cs L ∧ WordsOf keep (cs.map (·.1)) (wordRunes L) ∧ P (cs.map (·.1)) (wordRunes L)
      ∧ (∀ x ∈ L, m.tokenize (text x.2) = .ok (T x) ∧ WordPieceWord m (Gf x) (T x))
      ∧ EncodesChars ns.originalShift w ty (L.map (·.2)) (L.map T) (L.map Gf) enc := by
  obtain ⟨L, h1, -, h3, h4, h5⟩ := hpre ns cs o hwf h
  obtain ⟨p2, enc, T, Gf, k1, k2, k3, k4⟩ := wordPiece_words m hval hunk h h3 o w ty
  exact ⟨_, p2, enc, L, T, Gf, h1, k1, k2, h3, h4, h5, k3, k4⟩

/-- BPE over the words of a state. -/
theorem bpe_words (m : BPE) (rnd : NS → Nat → Bool)
    (hvoc : ∀ t i, m.vocab.getID t = some i → m.vocab.getString i ≠ none)
    (hm : ∀ a b v, m.merges.get a b = some v → m.vocab.getString v.id ≠ none)
    (hunk : m.unknownToken ≠ [] → m.vocab.getID m.unknownToken ≠ none)
    {ns : NS} {cs : List Ch} (h : Repr ns cs) {L : List (List Ch × List Ch)} (h3 : StandsIn cs L)
    {keep : Rune → Bool} (h4 : WordsOf keep (cs.map (·.1)) (wordRunes L))
    (hcov : m.unknownToken ≠ [] ∨ ∀ c ∈ cs, keep c.1 = true → ∀ i last, m.vocab.getID (m.lookupKey i last c.1) ≠ none)
    (o : Str) (w ty : Int) :
    ∃ p2 enc T Gf, (PTS.mk o (charPieces ns L)).tokenize (m.tokenizeNS rnd) = .ok (p2, none)
      ∧ p2.intoEncoding w ty = .ok (.ok enc)
      ∧ (∀ x ∈ L, m.tokenize (rnd (pieceOf ns x.2)) (text x.2) = .ok (.ok (some (T x))))
      ∧ EncodesChars ns.originalShift w ty (L.map (·.2)) (L.map T) (L.map Gf) enc := by
  obtain ⟨tok, htok⟩ : ∃ tok : NS → List Token, ∀ ns, m.tokenize (rnd ns) ns.get = .ok (.ok (some (tok ns))) :=
    ⟨fun ns => match m.tokenize (rnd ns) ns.get with | .ok (.ok (some ts)) => ts | _ => [], by
      intro ns
      obtain ⟨ts, h⟩ := BPE.C44_success m (rnd ns) ns.get hvoc hm hunk
      simp only [h]⟩
  have hc := covered_word h4 h.runes_valid m (hcov.imp id fun hc r hr => by
    obtain ⟨c, hcm, rfl⟩ := List.mem_map.1 hr
    exact hc c hcm)
  obtain ⟨p, enc, Gf, k1, k2, k3⟩ := encode_chars h h3 (m.tokenizeNS rnd) (fun x => tok (pieceOf ns x.2)) o w ty (by
    intro x hx
    have := htok (pieceOf ns x.2)
    simp only [BPE.tokenizeNS, this, GoM.bind_ok]; rfl) (by
    intro x hx
    obtain ⟨-, C, e⟩ := h3 x hx
    refine bpe_tiles m _ ?_ (hc _ (List.mem_map.2 ⟨x, hx, rfl⟩)) (htok (pieceOf ns x.2))
    intro r hr
    exact h.runes_valid r (by rw [e]; simp at hr ⊢; simp [hr]))
  exact ⟨p, enc, _, Gf, k1, k2, fun x _ => htok (pieceOf ns x.2), k3⟩

/-- **C67, BPE.** The same with BPE, for every dropout outcome in every word. -/
theorem C67_bpe {pre : PreTokenizer} {keep : Rune → Bool} {P : List Rune → List (List Rune × List Rune) → Prop}
    (hpre : CutsChars pre keep P) (m : BPE) (rnd : NS → Nat → Bool)
    (hvoc : ∀ t i, m.vocab.getID t = some i → m.vocab.getString i ≠ none)
    (hm : ∀ a b v, m.merges.get a b = some v → m.vocab.getString v.id ≠ none)
    (hunk : m.unknownToken ≠ [] → m.vocab.getID m.unknownToken ≠ none)
    {ns : NS} {cs : List Ch} (hwf : WF ns) (h : Repr ns cs)
    (hcov : m.unknownToken ≠ [] ∨ ∀ c ∈ cs, keep c.1 = true → ∀ i last, m.vocab.getID (m.lookupKey i last c.1) ≠ none)
    (o : Str) (w ty : Int) :
    ∃ p1 p2 enc L T Gf, pre ⟨o, [⟨ns, none⟩]⟩ = .ok (p1, none)
      ∧ p1.tokenize (m.tokenizeNS rnd) = .ok (p2, none)
      ∧ p2.intoEncoding w ty = .ok (.ok enc)
      ∧ StandsIn cs L ∧ WordsOf keep (cs.map (·.1)) (wordRunes L) ∧ P (cs.map (·.1)) (wordRunes L)
      ∧ (∀ x ∈ L, m.tokenize (rnd (pieceOf ns x.2)) (text x.2) = .ok (.ok (some (T x))))
      ∧ EncodesChars ns.originalShift w ty (L.map (·.2)) (L.map T) (L.map Gf) enc := by
  obtain ⟨L, h1, -, h3, h4, h5⟩ := hpre ns cs o hwf h
  obtain ⟨p2, enc, T, Gf, k1, k2, k3, k4⟩ := bpe_words m rnd hvoc hm hunk h h3 h4 hcov o w ty
  exact ⟨_, p2, enc, L, T, Gf, h1, k1, k2, h3, h4, h5, k3, k4⟩

/-! ## The order of the offsets -/

theorem aligns_map_sublist (cs : List Ch) : (cs.map (·.2)).Sublist (aligns cs) := by
  induction cs with
  | nil => exact List.Sublist.refl _
  | cons c cs ih =>
    rw [aligns_cons, List.map_cons]
    have : [c.2].Sublist (List.replicate (runeLen c.1) c.2) := by
      rw [List.singleton_sublist]
      exact List.mem_replicate.2 ⟨Nat.pos_iff_ne_zero.1 (runeLen_pos c.1), rfl⟩
    exact this.append ih

theorem WF.chars {ns : NS} (hwf : WF ns) {cs : List Ch} (h : Repr ns cs) :
    cs.Pairwise (fun c d => AlignLE c.2 d.2)
      ∧ ∀ c ∈ cs, 0 ≤ c.2.start ∧ c.2.start ≤ c.2.stop ∧ c.2.stop ≤ (ns.original.length : Int) := by
  have hs := aligns_map_sublist cs
  rw [← h.aligns_eq] at hs
  exact ⟨List.pairwise_map.1 (hwf.ordered.sublist hs), fun c hc => hwf.bounds _ (hs.subset (List.mem_map.2 ⟨c, hc, rfl⟩))⟩

/-- Words in order without overlap: their characters are some of those of the text, in order. -/
theorem words_sublist {cs : List Ch} : ∀ (L : List (List Ch × List Ch)) (n : Nat), StandsIn cs L →
    L.Pairwise (fun x y => (x.1 ++ x.2).length ≤ y.1.length) → (∀ x ∈ L, n ≤ x.1.length) →
    (L.flatMap (·.2)).Sublist (cs.drop n) := by
  intro L
  induction L with
  | nil => intro n _ _ _; exact List.nil_sublist _
  | cons x L ih =>
    intro n hs ho hn
    rw [List.pairwise_cons] at ho
    have i1 := ih (x.1 ++ x.2).length (fun y hy => hs y (by simp [hy])) ho.2 ho.1
    obtain ⟨-, C, e⟩ := hs x (by simp)
    have hle := hn x (by simp)
    rw [List.flatMap_cons]
    have d1 : cs.drop (x.1 ++ x.2).length = C := by rw [e, List.drop_left]
    have d2 : cs.drop n = x.1.drop n ++ (x.2 ++ C) := by
      rw [e, List.append_assoc, List.drop_append_of_le_length hle]
    rw [d1] at i1
    rw [d2]
    exact (List.nil_sublist _).append ((List.Sublist.refl _).append i1)

theorem firstAlign_mem {G : List Ch} (h : G ≠ []) : ∃ c ∈ G, firstAlign G = c.2 := by
  cases G with
  | nil => exact absurd rfl h
  | cons c G => exact ⟨c, by simp, rfl⟩

theorem lastAlign_mem {G : List Ch} (h : G ≠ []) : ∃ c ∈ G, lastAlign G = c.2 := by
  rcases List.eq_nil_or_concat G with rfl | ⟨g, r, rfl⟩
  · exact absurd rfl h
  · exact ⟨r, by simp, by rw [List.concat_eq_append, lastAlign_concat]⟩

/-- The offsets of successive groups: both ends never go back, and two groups overlap only where
the last character of the one and the first of the other come from the same part of the original. -/
theorem groups_order {Gs : List (List Ch)} (hne : ∀ G ∈ Gs, G ≠ []) (ho : Gs.flatten.Pairwise fun c d => AlignLE c.2 d.2)
    (hb : ∀ c ∈ Gs.flatten, c.2.start ≤ c.2.stop) (s : Int) :
    Gs.Pairwise fun G G' => (groupOffsets s G).start ≤ (groupOffsets s G').start
      ∧ (groupOffsets s G).stop ≤ (groupOffsets s G').stop
      ∧ ((groupOffsets s G).stop ≤ (groupOffsets s G').start ∨ lastAlign G = firstAlign G') := by
  induction Gs with
  | nil => exact .nil
  | cons G Gs ih =>
    rw [List.flatten_cons, List.pairwise_append] at ho
    refine List.Pairwise.cons ?_ (ih (fun X hX => hne X (by simp [hX])) ho.2.1 (fun c hc => hb c (by rw [List.flatten_cons]; simp [hc])))
    intro G' hG'
    obtain ⟨f, hf, ef⟩ := firstAlign_mem (hne G (by simp))
    obtain ⟨l, hl, el⟩ := lastAlign_mem (hne G (by simp))
    obtain ⟨f', hf', ef'⟩ := firstAlign_mem (hne G' (by simp [hG']))
    obtain ⟨l', hl', el'⟩ := lastAlign_mem (hne G' (by simp [hG']))
    have m : ∀ c ∈ G', c ∈ Gs.flatten := fun c hc => List.mem_flatten.2 ⟨G', hG', hc⟩
    have a1 := ho.2.2 f hf f' (m _ hf')
    have a2 := ho.2.2 l hl l' (m _ hl')
    have a3 := ho.2.2 l hl f' (m _ hf')
    have b1 := hb f (by simp [hf])
    have b2 := hb l (by simp [hl])
    have b3 := hb f' (by rw [List.flatten_cons]; exact List.mem_append_right _ (m _ hf'))
    have b4 := hb l' (by rw [List.flatten_cons]; exact List.mem_append_right _ (m _ hl'))
    simp only [groupOffsets, ef, el, ef', el']
    refine ⟨?_, ?_, ?_⟩
    · rcases a1 with h | h
      · rw [h]; omega
      · omega
    · rcases a2 with h | h
      · rw [h]; omega
      · omega
    · rcases a3 with h | h
      · exact .inr h
      · left; omega

/-- **C67, order.** The offsets of such an encoding lie in the part of the original that the state
shows, never go back, and overlap only where two tokens share a character of the original. -/
theorem C67_order {ns : NS} {cs : List Ch} (hwf : WF ns) (h : Repr ns cs) {keep : Rune → Bool} {L : List (List Ch × List Ch)}
    (hL : StandsIn cs L) (hw : WordsOf keep (cs.map (·.1)) (wordRunes L)) {T : List Ch × List Ch → List Token}
    {Gf : List Ch × List Ch → List (List Ch)} {w ty : Int} {enc : Encoding}
    (he : EncodesChars ns.originalShift w ty (L.map (·.2)) (L.map T) (L.map Gf) enc) :
    (∀ x ∈ enc.offsets, ns.originalShift ≤ x.start ∧ x.start ≤ x.stop ∧ x.stop ≤ ns.originalShift + ns.original.length)
      ∧ (L.map Gf).flatten.Pairwise (fun G G' =>
          (groupOffsets ns.originalShift G).stop ≤ (groupOffsets ns.originalShift G').start ∨ lastAlign G = firstAlign G')
      ∧ enc.offsets.Pairwise fun x y => x.start ≤ y.start ∧ x.stop ≤ y.stop := by
  obtain ⟨c1, c2⟩ := hwf.chars h
  have hg := all2_maps he.groups
  have hfl : (L.map Gf).flatten.flatten = L.flatMap (·.2) := by
    clear hL hw he
    induction L with
    | nil => rfl
    | cons x L ih =>
      rw [List.map_cons, List.flatten_cons, List.flatten_append, ih (fun y hy => hg y (by simp [hy])), (hg x (by simp)).1]
      rfl
  have hsub : (L.flatMap (·.2)).Sublist cs := by
    have := words_sublist L 0 hL (by
      have := hw.ordered
      rw [wordRunes, List.pairwise_map] at this
      simpa using this) (by simp)
    simpa using this
  have hne : ∀ G ∈ (L.map Gf).flatten, G ≠ [] := by
    intro G hG
    obtain ⟨Gs, hGs, hG⟩ := List.mem_flatten.1 hG
    obtain ⟨x, hx, rfl⟩ := List.mem_map.1 hGs
    exact (hg x hx).2 G hG
  have hmem : ∀ G ∈ (L.map Gf).flatten, ∀ c ∈ G, c ∈ cs := by
    intro G hG c hc
    exact hsub.subset (hfl ▸ List.mem_flatten.2 ⟨G, hG, hc⟩)
  have hord := groups_order hne (by rw [hfl]; exact c1.sublist hsub) (by
    intro c hc
    rw [hfl] at hc
    exact (c2 c (hsub.subset hc)).2.1) ns.originalShift
  refine ⟨?_, hord.imp fun h => h.2.2, ?_⟩
  · intro x hx
    rw [he.offsets] at hx
    obtain ⟨G, hG, rfl⟩ := List.mem_map.1 hx
    obtain ⟨f, hf, ef⟩ := firstAlign_mem (hne G hG)
    obtain ⟨l, hl, el⟩ := lastAlign_mem (hne G hG)
    have b1 := c2 f (hmem G hG f hf)
    have b2 := c2 l (hmem G hG l hl)
    have hGp : G.Pairwise fun c d => AlignLE c.2 d.2 := by
      have : G.Sublist cs := (List.sublist_flatten_of_mem hG).trans (hfl ▸ hsub)
      exact c1.sublist this
    have hfl : (firstAlign G).start ≤ (lastAlign G).stop := by
      rcases List.eq_nil_or_concat G with rfl | ⟨g, r, rfl⟩
      · exact absurd rfl (hne _ hG)
      · rw [List.concat_eq_append] at *
        rw [lastAlign_concat]
        cases g with
        | nil => exact (c2 r (hmem _ hG r (by simp))).2.1
        | cons a g =>
          have b3 := c2 a (hmem _ hG a (by simp))
          have b4 := c2 r (hmem _ hG r (by simp))
          rw [List.cons_append, List.pairwise_cons] at hGp
          show a.2.start ≤ r.2.stop
          rcases hGp.1 r (by simp) with h | h
          · rw [h]; omega
          · omega
    rw [ef, el] at hfl
    simp only [groupOffsets, ef, el]
    omega
  · rw [he.offsets, List.pairwise_map]
    exact hord.imp fun h => ⟨h.1, h.2.1⟩

/-- Non-vacuity: a state whose text is not the input ("É" was replaced by "ab", a space follows). -/
example :
    let ns : NS := ⟨b!"xÉ c", b!"ab c", [⟨1, 3⟩, ⟨1, 3⟩, ⟨3, 4⟩, ⟨4, 5⟩], 2⟩
    let m : WordPiece := ⟨Vocab.fromJSON (some [(b!"[U]", 0), (b!"a", 1), (b!"##b", 2)]) [], b!"[U]", b!"##", 100⟩
    ((whiteSpaceSplit ⟨b!"..xÉ c", [⟨ns, none⟩]⟩).bind fun r =>
      (r.1.tokenize fun ns => .ok (m.tokenize ns.get)).bind fun r => r.1.intoEncoding (-1) 0)
    = .ok (.ok ⟨[1, 2, 0], [0, 0, 0], [b!"a", b!"##b", b!"[U]"], [0, 0, 1],
        [⟨3, 5⟩, ⟨3, 5⟩, ⟨6, 7⟩], [0, 0, 0], [1, 1, 1]⟩) := by decide +kernel

end Verif
