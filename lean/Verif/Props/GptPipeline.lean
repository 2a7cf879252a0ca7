import Verif.Spec.ByteRows
import Verif.Props.Pipeline
import Verif.Props.Gpt

/-! Property C65: the byte-level pre-tokenizer, BPE and the encoding together. -/

set_option autoImplicit false

namespace Verif

/-! ## Characters and bytes -/

theorem byteChars_append (a b : List Ch) : byteChars (a ++ b) = byteChars a ++ byteChars b := by
  simp [byteChars]

theorem byteChars_length (cs : List Ch) : (byteChars cs).length = (text cs).length := by
  have := congrArg List.length (byteChars_runes cs)
  simpa using this

/-- The character that holds a byte. -/
theorem byteChars_at : ∀ {cs X Z : List Ch} {y : Ch}, byteChars cs = X ++ y :: Z →
    ∃ A c C, cs = A ++ c :: C ∧ (text A).length ≤ X.length ∧ X.length < (text (A ++ [c])).length ∧ y.2 = c.2 := by
  intro cs
  induction cs with
  | nil => intro X Z y h; simp [byteChars] at h
  | cons c cs ih =>
    intro X Z y h
    have e : byteChars (c :: cs) = byteChars [c] ++ byteChars cs := by rw [← byteChars_append]; rfl
    rw [e] at h
    have hl : (byteChars [c]).length = (encodeRune c.1).length := by rw [byteChars_length]; simp
    rcases List.append_eq_append_iff.1 h with ⟨X', hX, hB⟩ | ⟨B', hB, hX⟩
    · obtain ⟨A, d, C, h1, h2, h3, h4⟩ := ih hB
      refine ⟨c :: A, d, C, by rw [h1]; rfl, ?_, ?_, h4⟩
      · rw [hX, show c :: A = [c] ++ A by rfl, text_append]; simp; omega
      · rw [hX, show c :: A ++ [d] = [c] ++ (A ++ [d]) by rfl, text_append]; simp at h3 ⊢; omega
    · cases B' with
      | nil =>
        obtain ⟨A, d, C, h1, h2, h3, h4⟩ := ih (X := []) (by simpa using hX.symm)
        simp only [List.append_nil] at hB
        refine ⟨c :: A, d, C, by rw [h1]; rfl, ?_, ?_, h4⟩
        · rw [show c :: A = [c] ++ A by rfl, text_append]; simp only [List.length_nil] at h2; simp [← hB]; omega
        · rw [show c :: A ++ [d] = [c] ++ (A ++ [d]) by rfl, text_append]; simp [← hB] at h3 ⊢; omega
      | cons z B' =>
        simp only [List.cons_append, List.cons.injEq] at hX
        obtain ⟨rfl, -⟩ := hX
        refine ⟨[], c, cs, rfl, by simp, ?_, ?_⟩
        · have : (text ([] ++ [c])).length = (byteChars [c]).length := by rw [hl]; simp
          rw [this, hB]; simp
        · have : y ∈ byteChars [c] := by rw [hB]; simp
          simp only [byteChars, List.flatMap_cons, List.flatMap_nil, List.append_nil, List.mem_map] at this
          obtain ⟨x, -, rfl⟩ := this
          rfl

theorem text_length_mono {cs A B C D : List Ch} (h1 : cs = A ++ B) (h2 : cs = C ++ D) (h : A.length ≤ C.length) :
    (text A).length ≤ (text C).length := by
  have : C = A ++ C.drop A.length := by
    have e := congrArg (List.take A.length) (h1.symm.trans h2)
    rw [List.take_left, List.take_append_of_le_length h] at e
    conv => rhs; lhs; rw [e]
    exact (List.take_append_drop _ _).symm
  rw [this]; simp

/-- The characters touched by some bytes, and the alignments of the first and last byte. -/
theorem byteChars_cover {cs X Y Z : List Ch} (h : byteChars cs = X ++ Y ++ Z) (hY : Y ≠ []) :
    ∃ G, CoversBytes cs X.length (X.length + Y.length) G ∧ firstAlign Y = firstAlign G ∧ lastAlign Y = lastAlign G := by
  cases Y with
  | nil => exact absurd rfl hY
  | cons y Y =>
    obtain ⟨A1, c1, C1, e1, b1, b2, b3⟩ := byteChars_at (cs := cs) (X := X) (Z := Y ++ Z) (y := y) (by rw [h]; simp)
    obtain ⟨W, z, hz⟩ : ∃ W z, y :: Y = W ++ [z] := by
      rcases List.eq_nil_or_concat (y :: Y) with h | ⟨W, z, h⟩
      · exact absurd h hY
      · exact ⟨W, z, by rw [h, List.concat_eq_append]⟩
    obtain ⟨A2, c2, C2, e2, d1, d2, d3⟩ := byteChars_at (cs := cs) (X := X ++ W) (Z := Z) (y := z) (by rw [h, hz]; simp)
    have hle : A1.length ≤ A2.length := by
      apply Classical.byContradiction
      intro hn
      have := text_length_mono (cs := cs) (A := A2 ++ [c2]) (B := C2) (C := A1) (D := c1 :: C1) (by simp [e2]) e1
        (by simp; omega)
      simp only [List.length_append] at d2
      simp at this d1 d2; omega
    -- the characters in between
    have hA2 : A2 = A1 ++ A2.drop A1.length := by
      have e := congrArg (List.take A1.length) (e1.symm.trans e2)
      rw [List.take_left, List.take_append_of_le_length hle] at e
      conv => rhs; lhs; rw [e]
      exact (List.take_append_drop _ _).symm
    generalize A2.drop A1.length = M at hA2
    subst hA2
    have hG : c1 :: C1 = (M ++ [c2]) ++ C2 := by
      have := e1.symm.trans e2
      rw [List.append_assoc] at this
      have := List.append_cancel_left this
      simpa using this
    have hhead : (M ++ [c2]).take 1 = [c1] := by
      cases M with
      | nil => simp at hG; simp [hG.1]
      | cons m M => simp at hG; simp [hG.1]
    have hW : (y :: Y).length = W.length + 1 := by rw [hz]; simp
    refine ⟨M ++ [c2], ⟨A1, C2, by rw [e2]; simp, b1, ?_, ?_, ?_⟩, ?_, ?_⟩
    · rw [hhead]; exact b2
    · rw [List.dropLast_concat, hW]; simp at d1 ⊢; omega
    · rw [hW]; simp at d2 ⊢; omega
    · have : firstAlign (y :: Y) = y.2 := rfl
      rw [this, b3]
      cases M with
      | nil => simp at hG; simp [firstAlign, hG.1]
      | cons m M => simp at hG; simp [firstAlign, hG.1]
    · rw [hz, lastAlign_concat, lastAlign_concat, d3]

/-! ## Rows of one piece, and moving them -/

theorem CoversBytes.inside {cs G : List Ch} {a e : Nat} (h : CoversBytes cs a e G) (P Q : List Ch) :
    CoversBytes (P ++ cs ++ Q) ((text P).length + a) ((text P).length + e) G := by
  obtain ⟨A, C, e0, h1, h2, h3, h4⟩ := h
  refine ⟨P ++ A, C ++ Q, by rw [e0]; simp, ?_, ?_, ?_, ?_⟩ <;> simp at h1 h2 h3 h4 ⊢ <;> omega

theorem text_moveLeft (k : Int) (cs : List Ch) : text (moveLeft k cs) = text cs := by
  simp [text, moveLeft_runes]

theorem CoversBytes.moved {cs G : List Ch} {a e : Nat} {k : Int} (h : CoversBytes (moveLeft k cs) a e G) (hG : G ≠ []) :
    ∃ G', CoversBytes cs a e G' ∧ (firstAlign G).start = (firstAlign G').start - k
      ∧ (lastAlign G).stop = (lastAlign G').stop - k := by
  obtain ⟨A, C, e0, h1, h2, h3, h4⟩ := h
  unfold moveLeft at e0
  obtain ⟨AG, C', rfl, hAG, hC⟩ := List.map_eq_append_iff.1 e0
  obtain ⟨A', G', rfl, hA, hG'⟩ := List.map_eq_append_iff.1 hAG
  have tA : A = moveLeft k A' := hA.symm
  have tG : G = moveLeft k G' := hG'.symm
  subst tA; subst tG
  refine ⟨G', ⟨A', C', rfl, ?_, ?_, ?_, ?_⟩, ?_, ?_⟩
  · rw [text_moveLeft] at h1; exact h1
  · rw [show (moveLeft k G').take 1 = moveLeft k (G'.take 1) by simp [moveLeft, List.map_take], text_append,
      text_moveLeft, text_moveLeft] at h2
    rw [text_append]; exact h2
  · rw [show (moveLeft k G').dropLast = moveLeft k G'.dropLast by simp [moveLeft, List.map_dropLast], text_append,
      text_moveLeft, text_moveLeft] at h3
    rw [text_append]; exact h3
  · rw [text_append, text_moveLeft, text_moveLeft] at h4
    rw [text_append]; exact h4
  · cases G' with
    | nil => exact absurd rfl hG
    | cons g G' => rfl
  · rcases List.eq_nil_or_concat G' with rfl | ⟨G0, g, rfl⟩
    · exact absurd rfl hG
    · rw [List.concat_eq_append, show moveLeft k (G0 ++ [g]) = moveLeft k G0 ++ [(g.1, ⟨g.2.start - k, g.2.stop - k⟩)] by
        simp [moveLeft], lastAlign_concat, lastAlign_concat]

theorem CoversBytes.ne {cs G : List Ch} {a e : Nat} (h : CoversBytes cs a e G) : G ≠ [] := by
  rintro rfl
  obtain ⟨A, C, -, h1, h2, -⟩ := h
  simp at h2; omega

/-- The rows of the tokens of one piece, over its characters. -/
theorem encodeTokens_bytes {n : NS} {cs : List Ch} (h : Repr n (byteChars cs)) (w ty : Int) {a rest : List Rune}
    {ts : List Token} (ht : RuneTiles a rest ts) (he : (text cs).map byteToRune = a ++ rest) :
    ∃ rows ys, PTS.encodeTokens n w ty ts = .ok rows
      ∧ All2 (fun (t : Token) (x : EncodableToken) => x = ⟨t.id, t.value, x.offsets, w, ty⟩) ts rows
      ∧ ByteRows cs n.originalShift a.length ys (rows.map (·.offsets))
      ∧ ys.flatten = (text cs).drop a.length
      ∧ All2 (fun (t : Token) (y : Str) => goSlice n.get t.offsets.start t.offsets.stop
          = .ok (encodeRunes (y.map byteToRune))) ts ys := by
  have hrun := byteChars_runes cs
  have htx : n.get = encodeRunes ((text cs).map byteToRune) := by
    rw [← hrun]; exact h.text_eq
  have hlen : ∀ {u v : List Rune}, (text cs).map byteToRune = u ++ v → u.length + v.length = (text cs).length := by
    intro u v h
    have := congrArg List.length h
    simpa using this.symm
  induction ht with
  | @nil a =>
    have := hlen he
    simp only [List.length_nil] at this
    refine ⟨[], [], rfl, .nil, ?_, ?_, .nil⟩
    · simp only [List.map_nil, ByteRows]; omega
    · rw [List.drop_of_length_le (by omega)]; rfl
  | @cons a hd tl t ts hh hoff _ ih =>
    obtain ⟨rows, ys, i1, i2, i3, i4, i5⟩ := ih (by rw [he]; simp)
    have hl := hlen he
    simp only [List.length_append] at hl
    have hhl := List.length_pos_iff.2 hh
    -- the three parts of the characters
    have hbl : (byteChars cs).length = (text cs).length := byteChars_length cs
    let X := (byteChars cs).take a.length
    let Y := ((byteChars cs).drop a.length).take hd.length
    let Z := (byteChars cs).drop (a.length + hd.length)
    have hXYZ : byteChars cs = X ++ Y ++ Z := by
      simp only [X, Y, Z]
      rw [← List.drop_drop, List.append_assoc, List.take_append_drop, List.take_append_drop]
    have hXl : X.length = a.length := by simp only [X, List.length_take]; omega
    have hYl : Y.length = hd.length := by simp only [Y, List.length_take, List.length_drop]; omega
    have hXr : X.map (·.1) = a := by
      simp only [X]
      rw [List.map_take, hrun, he, List.take_left]
    have hYr : Y.map (·.1) = hd := by
      simp only [Y]
      rw [List.map_take, List.map_drop, hrun, he, List.drop_left, List.take_left]
    have hYne : Y ≠ [] := by rw [← List.length_pos_iff]; omega
    have ho := tokenOffsets_chars (ns := n) (A := X) (B := Y) (C := Z) (by rw [← hXYZ]; exact h) hYne (t := t) (by
      rw [hoff, text_append]
      simp [text, hXr, hYr])
    obtain ⟨G, g1, g2, g3⟩ := byteChars_cover hXYZ hYne
    rw [hXl, hYl] at g1
    generalize hyd : ((text cs).drop a.length).take hd.length = y
    have hyl : y.length = hd.length := by rw [← hyd, List.length_take, List.length_drop]; omega
    have hymap : y.map byteToRune = hd := by
      rw [← hyd, List.map_take, List.map_drop, he, List.drop_left, List.take_left]
    refine ⟨⟨t.id, t.value, ⟨n.originalShift + (firstAlign Y).start, n.originalShift + (lastAlign Y).stop⟩, w, ty⟩ :: rows, y :: ys, ?_, .cons rfl i2, ?_, ?_, .cons ?_ i5⟩
    · simp only [PTS.encodeTokens, ho, i1, GoM.bind_ok]; rfl
    · simp only [List.map_cons, ByteRows]
      refine ⟨by rw [← List.length_pos_iff]; omega, by rw [hyl]; exact hyd, ⟨G, by rw [hyl]; exact g1, by rw [g2, g3]⟩, ?_⟩
      rw [hyl]
      simpa using i3
    · rw [List.flatten_cons, i4, ← hyd, List.length_append, ← List.drop_drop, List.take_append_drop]
    · rw [htx, he, hoff, hymap, encodeRunes_append, encodeRunes_append, encodeRunes_append, ← List.append_assoc]
      exact goSlice_mid _ _ _ (by simp) (by simp)

/-- Rows of a piece are rows of the whole text. -/
theorem ByteRows.inside {P B Q : List Ch} {s k : Int} {ys' : List Str} {os' : List ByteOffsets}
    (h' : ByteRows (P ++ B ++ Q) s ((text P).length + (text B).length) ys' os') :
    ∀ (ys : List Str) (os : List ByteOffsets) (a : Nat), ByteRows (moveLeft k B) (s + k) a ys os →
    ByteRows (P ++ B ++ Q) s ((text P).length + a) (ys ++ ys') (os ++ os') := by
  intro ys
  induction ys with
  | nil =>
    intro os a h
    cases os with
    | nil =>
      simp only [ByteRows, text_moveLeft] at h
      subst h
      exact h'
    | cons o os => exact absurd h (by simp [ByteRows])
  | cons y ys ih =>
    intro os a h
    cases os with
    | nil => exact absurd h (by simp [ByteRows])
    | cons o os =>
      simp only [ByteRows] at h
      obtain ⟨h1, h2, ⟨G, g1, g2⟩, h4⟩ := h
      obtain ⟨G', g3, g4, g5⟩ := g1.moved g1.ne
      rw [text_moveLeft] at h2
      simp only [List.cons_append, ByteRows]
      refine ⟨h1, ?_, ⟨G', ?_, ?_⟩, ?_⟩
      · have hl : y.length ≤ (text B).length - a := by
          have := congrArg List.length h2
          rw [List.length_take, List.length_drop] at this
          omega
        have hy := List.length_pos_iff.2 h1
        rw [text_append, text_append, List.append_assoc, List.drop_length_add_append, List.drop_append_of_le_length (by omega),
          List.take_append_of_le_length (by rw [List.length_drop]; exact hl)]
        exact h2
      · have := g3.inside P Q
        rwa [← Nat.add_assoc] at this
      · rw [g2, g4, g5]
        congr 1 <;> omega
      · have := ih os (a + y.length) h4
        rwa [← Nat.add_assoc] at this

theorem byteLevelText_repr {ns : NS} {A B C : List Ch} (h : Repr ns (A ++ B ++ C)) :
    Repr (byteLevelText (pieceOf ns B)) (byteChars (moveLeft (firstAlign B).start B))
      ∧ (byteLevelText (pieceOf ns B)).originalShift = ns.originalShift + (firstAlign B).start := by
  have hr := pieceOf_repr ns (B := B) (fun c hc => h.valid c (by simp [hc]))
  obtain ⟨n', k1, k2, k3, k4⟩ := C33_normalize hr
  have e : byteLevelText (pieceOf ns B) = n' := by simp [byteLevelText, k1]
  rw [e]
  exact ⟨k2, by rw [k4]; rfl⟩

/-- The bytes `y` of a token, written with the table. -/
abbrev tableOf (y : Str) : Str := encodeRunes (y.map byteToRune)

/-- All the pieces. -/
theorem encodeSplits_bytes {ns : NS} (w ty : Int) (T : Bool × List Ch → List Token) :
    ∀ (segs : List (Bool × List Ch)) (P : List Ch) (i : Nat), Repr ns (P ++ segs.flatMap (·.2)) →
    (∀ x ∈ segs, RuneTiles [] ((text x.2).map byteToRune) (T x)) →
    ∃ rows yss, PTS.encodeSplits w ty i (segs.map fun x => ⟨byteLevelText (pieceOf ns x.2), some (T x)⟩) = .ok rows
      ∧ rows.map (·.id) = (segs.map T).flatten.map (·.id)
      ∧ rows.map (·.typeID) = ((segs.map T).flatten.map fun _ => ty)
      ∧ rows.map (·.token) = (segs.map T).flatten.map (·.value)
      ∧ rows.map (·.wordIndex) = wordsFrom w i (segs.map T)
      ∧ All2 (fun (x : Bool × List Ch) (ys : List Str) => ys.flatten = text x.2
          ∧ All2 (fun (t : Token) (y : Str) => goSlice (tableOf (text x.2)) t.offsets.start t.offsets.stop
              = .ok (tableOf y)) (T x) ys) segs yss
      ∧ ByteRows (P ++ segs.flatMap (·.2)) ns.originalShift (text P).length yss.flatten (rows.map (·.offsets)) := by
  intro segs
  induction segs with
  | nil =>
    intro P i _ _
    exact ⟨[], [], rfl, rfl, rfl, rfl, rfl, .nil, by simp [ByteRows]⟩
  | cons x segs ih =>
    intro P i h ht
    have h1 : Repr ns (P ++ x.2 ++ segs.flatMap (·.2)) := by simpa using h
    obtain ⟨rows', yss, i1, i2, i3, i4, i5, i6, i7⟩ := ih (P ++ x.2) (i + 1) h1 fun y hy => ht y (by simp [hy])
    obtain ⟨r1, r2⟩ := byteLevelText_repr h1
    generalize hn : byteLevelText (pieceOf ns x.2) = n at *
    obtain ⟨rows, ys, j1, j2, j3, j4, j5⟩ := encodeTokens_bytes r1 (if w < 0 then (i : Int) else w) ty (ht x (by simp))
      (by rw [text_moveLeft]; rfl)
    rw [text_moveLeft] at j4
    have hget : n.get = tableOf (text x.2) := by
      have := r1.text_eq
      rw [NS.get, this, text, byteChars_runes, text_moveLeft]
    have e3 : (if w < 0 then (i : Int) else w) = if 0 ≤ w then w else i := by
      split <;> split <;> first | rfl | omega
    have hrow : ∀ {ts : List Token} {rows : List EncodableToken} {wi : Int},
        All2 (fun (t : Token) (x : EncodableToken) => x = ⟨t.id, t.value, x.offsets, wi, ty⟩) ts rows →
        rows.map (·.id) = ts.map (·.id) ∧ rows.map (·.typeID) = (ts.map fun _ => ty)
          ∧ rows.map (·.token) = ts.map (·.value) ∧ rows.map (·.wordIndex) = ts.map fun _ => wi := by
      intro ts rows wi h
      induction h with
      | nil => exact ⟨rfl, rfl, rfl, rfl⟩
      | cons e _ ih =>
        rw [e]
        simp [ih.1, ih.2.1, ih.2.2.1, ih.2.2.2]
    obtain ⟨q1, q2, q3, q4⟩ := hrow j2
    refine ⟨rows ++ rows', ys :: yss, ?_, ?_, ?_, ?_, ?_, .cons ⟨j4, ?_⟩ i6, ?_⟩
    · simp only [List.map_cons, PTS.encodeSplits, hn, Option.getD_some, j1, i1, GoM.bind_ok]
      rfl
    · simp only [List.map_cons, List.flatten_cons, List.map_append, q1, i2]
    · simp only [List.map_cons, List.flatten_cons, List.map_append, q2, i3]
    · simp only [List.map_cons, List.flatten_cons, List.map_append, q3, i4]
    · simp only [List.map_cons, wordsFrom, List.map_append, q4, i5, e3]
    · rw [← hget]; exact j5
    · rw [r2] at j3
      have := ByteRows.inside (P := P) (B := x.2) (Q := segs.flatMap (·.2)) (by
        rw [text_append, List.length_append] at i7; exact i7) ys _ 0 j3
      simpa using this

/-- Tokenizing the pieces of the byte-level pre-tokenizer and making the encoding. -/
theorem encode_bytes {ns : NS} {segs : List (Bool × List Ch)} (h : Repr ns (segs.flatMap (·.2)))
    (f : NS → GoM (Except Err (List Token))) (T : Bool × List Ch → List Token) (o : Str) (w ty : Int)
    (hf : ∀ x ∈ segs, f (byteLevelText (pieceOf ns x.2)) = .ok (.ok (T x)))
    (ht : ∀ x ∈ segs, RuneTiles [] ((text x.2).map byteToRune) (T x)) :
    ∃ p enc yss, (PTS.mk o (segs.map fun x => ⟨byteLevelText (pieceOf ns x.2), none⟩)).tokenize f = .ok (p, none)
      ∧ p.intoEncoding w ty = .ok (.ok enc)
      ∧ EncodesBytes (segs.flatMap (·.2)) ns.originalShift w ty (segs.map fun x => text x.2) (segs.map T) yss enc
      ∧ All2 (fun (x : Bool × List Ch) (ys : List Str) =>
          All2 (fun (t : Token) (y : Str) => goSlice (tableOf (text x.2)) t.offsets.start t.offsets.stop
              = .ok (tableOf y)) (T x) ys) segs yss := by
  obtain ⟨rows, yss, i1, i2, i3, i4, i5, i6, i7⟩ := encodeSplits_bytes w ty T segs [] 0 (by simpa using h) ht
  have h1 := C58_tokenize_ok (PTS.mk o (segs.map fun x => ⟨byteLevelText (pieceOf ns x.2), none⟩)) f
    (fun ns => match f ns with | .ok (.ok ts) => ts | _ => []) (by
      intro sp hsp _
      obtain ⟨x, hx, rfl⟩ := List.mem_map.1 hsp
      simp only [hf x hx])
  have h2 : (segs.map fun x => (⟨byteLevelText (pieceOf ns x.2), none⟩ : Piece)).map
      (withTokens fun ns => match f ns with | .ok (.ok ts) => ts | _ => [])
      = segs.map fun x => ⟨byteLevelText (pieceOf ns x.2), some (T x)⟩ := by
    rw [List.map_map]
    apply List.map_congr_left
    intro x hx
    simp [withTokens, hf x hx]
  simp only at h1
  rw [h2] at h1
  have hR := hasRows_from rows
  have hlen : rows.map (fun _ => ()) = (segs.map T).flatten.map fun _ => () := by
    have := congrArg (List.map fun _ => ()) i2
    simpa [Function.comp_def] using this
  have hconst : ∀ c : Int, (rows.map fun _ => c) = (segs.map T).flatten.map fun _ => c := by
    intro c
    have := congrArg (List.map fun _ => c) hlen
    simpa [Function.comp_def] using this
  refine ⟨_, Encoding.fromEncodableTokens rows, yss, h1, ?_, ⟨?_, ?_, ?_, ?_, ?_, ?_, ?_, ?_, ?_⟩, i6.imp fun _ _ _ _ h => h.2⟩
  · unfold PTS.intoEncoding
    by_cases hL : segs = []
    · subst hL
      simp [PTS.encodeSplits] at i1
      subst i1; rfl
    · rw [if_neg (by simpa using hL), if_neg (by simp [PTS.allSplitsHaveTokens]), i1]
      rfl
  · rw [hR.ids, i2]
  · rw [hR.typeIDs, i3]
  · rw [hR.tokens, i4]
  · rw [hR.words, i5]
  · rw [hR.special, hconst]
  · rw [hR.attention, hconst]
  · clear i1 i2 i3 i4 i5 i7 h1 h2 hR hlen hconst hf ht h
    induction i6 with
    | nil => exact .nil
    | cons h _ ih => exact .cons h.1 ih
  · clear i1 i2 i3 i4 i5 i7 h1 h2 hR hlen hconst hf ht h
    induction i6 with
    | nil => exact .nil
    | cons h _ ih => exact .cons h.2.length_eq ih
  · rw [hR.offsets]; simpa using i7

/-! ## C65: the byte-level pre-tokenizer and BPE -/

theorem tableOf_decode (y : Str) : (runesOf (tableOf y)).map runeToByte = y := by
  unfold tableOf
  rw [runesOf_encodeRunes _ (by
    intro r hr
    obtain ⟨b, -, rfl⟩ := List.mem_map.1 hr
    exact (byteToRune_good b).1), List.map_map]
  have e : runeToByte ∘ byteToRune = id := funext runeToByte_byteToRune
  rw [e, List.map_id]

theorem table_valid (y : Str) : ∀ r ∈ y.map byteToRune, ValidRune r := by
  intro r hr
  obtain ⟨b, -, rfl⟩ := List.mem_map.1 hr
  exact (byteToRune_good b).1

theorem table_covered (m : BPE)
    (hcov : m.unknownToken ≠ [] ∨ ∀ (b : UInt8) i last, m.vocab.getID (m.lookupKey i last (byteToRune b)) ≠ none)
    (y : Str) : m.Covered (tableOf y) := by
  refine hcov.imp id fun hc c hcm => ?_
  unfold BPE.lookups at hcm
  rw [List.mem_mapIdx] at hcm
  obtain ⟨i, hi, rfl⟩ := hcm
  have e := runesOf_encodeRunes _ (table_valid y)
  have hm : (runesOf (tableOf y))[i] ∈ y.map byteToRune := e ▸ List.getElem_mem hi
  obtain ⟨b, -, hb⟩ := List.mem_map.1 hm
  simp only
  rw [← hb]
  exact hc _ _ _

/-- **C65, any state and engine.** On every valid state with some text, for every engine that
returns matches of at least one rune each, in order and in bounds, and for every dropout outcome in
every piece, the byte-level pre-tokenizer, BPE and the encoding succeed, if the vocabulary knows the
term of every id it or the merge table hands out, and an unknown token is configured or all 256
table runes are in the vocabulary.  The bytes of every piece are cut into one part per token; the
offsets of a token go from the start of the original range of the first character its part touches
to the end of that of the last. -/
theorem C65_state (findAll2 : List Rune → Except Err (List (Nat × Nat))) (b : Bool) (o : Str)
    {ns : NS} (hwf : WF ns) {cs : List Ch} (h : Repr ns cs) (hne : cs ≠ []) {ms : List (Nat × Nat)}
    (he : findAll2 ((spaced b cs).map (·.1)) = .ok ms) (ho : Ordered2 ms 0 (spaced b cs).length)
    (hp : ∀ m ∈ ms, 0 < m.2) (m : BPE) (rnd : NS → Nat → Bool)
    (hvoc : ∀ t i, m.vocab.getID t = some i → m.vocab.getString i ≠ none)
    (hm : ∀ a b v, m.merges.get a b = some v → m.vocab.getString v.id ≠ none)
    (hunk : m.unknownToken ≠ [] → m.vocab.getID m.unknownToken ≠ none)
    (hcov : m.unknownToken ≠ [] ∨ ∀ (b : UInt8) i last, m.vocab.getID (m.lookupKey i last (byteToRune b)) ≠ none)
    (w ty : Int) :
    ∃ p1 p2 enc T yss, byteLevel findAll2 b ⟨o, [⟨ns, none⟩]⟩ = .ok (p1, none)
      ∧ p1.tokenize (m.tokenizeNS rnd) = .ok (p2, none) ∧ p2.intoEncoding w ty = .ok (.ok enc)
      ∧ All2 (fun (x : Bool × List Ch) (ts : List Token) =>
          ∃ rnd', m.tokenize rnd' (tableOf (text x.2)) = .ok (.ok (some ts))) (matchSegs 0 ms (spaced b cs)) T
      ∧ EncodesBytes (spaced b cs) ns.originalShift w ty ((matchSegs 0 ms (spaced b cs)).map fun x => text x.2) T yss enc
      ∧ yss.flatten.flatten = text (spaced b cs)
      ∧ (m.continuingSubwordPrefix = [] → m.endOfWordSuffix = [] →
          (∀ b : UInt8, m.vocab.getID (encodeRune (byteToRune b)) ≠ none) →
          (∀ t i, m.vocab.getID t = some i → m.vocab.getString i = some t) → BPE.Spells m.vocab m.merges →
          enc.tokens = yss.flatten.map tableOf) := by
  obtain ⟨p1, ns1, h1, h2, h3, k2, k3, k5, hseg, hfl⟩ := byteLevel_splits findAll2 b o hwf h hne he ho hp
  generalize matchSegs 0 ms (spaced b cs) = segs at *
  obtain ⟨tok, htok⟩ : ∃ tok : NS → List Token, ∀ ns, m.tokenize (rnd ns) ns.get = .ok (.ok (some (tok ns))) :=
    ⟨fun ns => match m.tokenize (rnd ns) ns.get with | .ok (.ok (some ts)) => ts | _ => [], by
      intro ns
      obtain ⟨ts, h⟩ := BPE.C44_success m (rnd ns) ns.get hvoc hm hunk
      simp only [h]⟩
  have hget : ∀ x ∈ segs, (byteLevelText (pieceOf ns1 x.2)).get = tableOf (text x.2) := by
    intro x hx
    obtain ⟨P, Q, hPQ⟩ := List.append_of_mem hx
    exact (pieceOf_byteSplit k3 (A := P.flatMap (·.2)) (B := x.2) (C := Q.flatMap (·.2))
      (by rw [← hfl, hPQ] at k2; simpa using k2) (hseg x hx)).2.1
  have ht : ∀ x ∈ segs, m.tokenize (rnd (byteLevelText (pieceOf ns1 x.2))) (tableOf (text x.2))
      = .ok (.ok (some (tok (byteLevelText (pieceOf ns1 x.2))))) := by
    intro x hx
    have := htok (byteLevelText (pieceOf ns1 x.2))
    rwa [hget x hx] at this
  obtain ⟨p2, enc, yss, e1, e2, e3, e4⟩ := encode_bytes (ns := ns1) (segs := segs) (by rw [hfl]; exact k2) (m.tokenizeNS rnd)
    (fun x => tok (byteLevelText (pieceOf ns1 x.2))) o w ty
    (fun x _ => by simp only [BPE.tokenizeNS, htok, GoM.bind_ok]; rfl)
    (fun x hx => bpe_tiles m _ (table_valid _) (table_covered m hcov _) (ht x hx))
  have hp1 : p1 = ⟨o, segs.map fun x => ⟨byteLevelText (pieceOf ns1 x.2), none⟩⟩ := by
    cases p1; simp only at h2 h3; rw [h2, h3]
  refine ⟨p1, p2, enc, _, yss, h1, by rw [hp1]; exact e1, e2, ?_, by rw [← k5, ← hfl]; exact e3, ?_, ?_⟩
  · clear e3 e4 hfl hseg h3 hget hp1 e1
    induction segs with
    | nil => exact .nil
    | cons x segs ih => exact .cons ⟨_, ht x (by simp)⟩ (ih fun y hy => ht y (by simp [hy]))
  · rw [← hfl]
    have := e3.parts
    clear e3 e4 hfl hseg h3 hget hp1 e1 ht k2
    induction segs generalizing yss with
    | nil => cases this; rfl
    | cons x segs ih =>
      cases this with
      | cons a b =>
        have := ih _ b
        simp only [List.flatten_cons, List.flatten_append, a, this, List.flatMap_cons, text_append]
  · intro hp he hall hv hsp
    rw [e3.tokens]
    have hval : ∀ x ∈ segs, ∀ t ∈ tok (byteLevelText (pieceOf ns1 x.2)),
        goSlice (tableOf (text x.2)) t.offsets.start t.offsets.stop = .ok t.value := by
      intro x hx
      refine BPE.C45_values m _ _ ⟨_, table_valid _, rfl⟩ hp he ?_ hv hsp (ht x hx)
      intro r hr
      rw [runesOf_encodeRunes _ (table_valid _)] at hr
      obtain ⟨b, -, rfl⟩ := List.mem_map.1 hr
      exact hall b
    clear e3 hfl hseg h3 hget hp1 e1 ht k2
    induction e4 with
    | nil => rfl
    | @cons x ys segs yss a _ ih =>
      simp only [List.map_cons, List.flatten_cons, List.map_append]
      rw [ih fun y hy => hval y (by simp [hy])]
      congr 1
      have hx := hval x (by simp)
      generalize tok (byteLevelText (pieceOf ns1 x.2)) = ts at a hx
      induction a with
      | nil => rfl
      | cons e _ ih2 =>
        rw [List.map_cons, List.map_cons, ih2 fun t ht => hx t (by simp [ht])]
        have := hx _ (List.mem_cons_self ..)
        rw [e] at this
        rw [GoM.ok.inj this]

/-! ## Fresh inputs and the default expression -/

theorem segs_locate : ∀ (t : List (Bool × List Ch)) (A : List Rune),
    (t.map fun x => x.2.map (·.1)) = (locate true A (segRunes t)).map (·.2) := by
  intro t
  induction t with
  | nil => intro A; rfl
  | cons x t ih =>
    intro A
    have := ih (A ++ x.2.map (·.1))
    simp only [List.map_cons, segRunes, locate, Bool.not_true, Bool.and_false, Bool.false_eq_true, if_false,
      List.singleton_append] at this ⊢
    rw [this]

theorem all2_map_left {α β γ : Type} {R : β → γ → Prop} {f : α → β} {as : List α} {cs : List γ} :
    All2 (fun a c => R (f a) c) as cs ↔ All2 R (as.map f) cs := by
  constructor
  · intro h
    induction h with
    | nil => exact .nil
    | cons h _ ih => exact .cons h ih
  · intro h
    generalize hb : as.map f = bs at h
    induction h generalizing as with
    | nil =>
      cases as with
      | nil => exact .nil
      | cons a as => simp at hb
    | cons h _ ih =>
      cases as with
      | nil => simp at hb
      | cons a as =>
        simp only [List.map_cons, List.cons.injEq] at hb
        obtain ⟨rfl, hb⟩ := hb
        exact .cons h (ih hb)

/-- **C65.** For every valid input the byte-level pre-tokenizer with the default expression, BPE
and the encoding succeed, for every dropout outcome in every piece, if the vocabulary knows the term
of every id it or the merge table hands out, and an unknown token is configured or all 256 table
runes are in the vocabulary.  The pieces are the GPT-2 pieces of the input with the added space, each
tokenized by itself, and the rows are as `EncodesBytes` says. -/
theorem C65_gpt {u : RxUni} (hu : SaneTables u) (b : Bool) (rs : List Rune) (hv : ∀ r ∈ rs, ValidRune r)
    (m : BPE) (rnd : NS → Nat → Bool)
    (hvoc : ∀ t i, m.vocab.getID t = some i → m.vocab.getString i ≠ none)
    (hm : ∀ a b v, m.merges.get a b = some v → m.vocab.getString v.id ≠ none)
    (hunk : m.unknownToken ≠ [] → m.vocab.getID m.unknownToken ≠ none)
    (hcov : m.unknownToken ≠ [] ∨ ∀ (b : UInt8) i last, m.vocab.getID (m.lookupKey i last (byteToRune b)) ≠ none)
    (w ty : Int) :
    ∃ p1 p2 enc L T yss, byteLevel (splittingRegexp u).findAll b (PTS.fromString (encodeRunes rs)) = .ok (p1, none)
      ∧ p1.tokenize (m.tokenizeNS rnd) = .ok (p2, none) ∧ p2.intoEncoding w ty = .ok (.ok enc)
      ∧ GptPieces u [] (spacedRunes b rs) L
      ∧ All2 (fun (x : List Rune × List Rune) (ts : List Token) =>
          ∃ rnd', m.tokenize rnd' (tableText x.2) = .ok (.ok (some ts))) L T
      ∧ EncodesBytes (spaced b (selfChars 0 rs)) 0 w ty (L.map fun x => encodeRunes x.2) T yss enc
      ∧ yss.flatten.flatten = encodeRunes (spacedRunes b rs)
      ∧ (m.continuingSubwordPrefix = [] → m.endOfWordSuffix = [] →
          (∀ b : UInt8, m.vocab.getID (encodeRune (byteToRune b)) ≠ none) →
          (∀ t i, m.vocab.getID t = some i → m.vocab.getString i = some t) → BPE.Spells m.vocab m.merges →
          enc.tokens = yss.flatten.map tableOf) := by
  cases rs with
  | nil =>
    refine ⟨⟨[], []⟩, ⟨[], []⟩, Encoding.default, [], [], [], ?_, rfl, rfl, .nil, .nil,
      ⟨rfl, rfl, rfl, rfl, rfl, rfl, .nil, .nil, rfl⟩, rfl, fun _ _ _ _ _ => rfl⟩
    cases b <;> rfl
  | cons r rs =>
    obtain ⟨g1, g2⟩ := splittingRegexp_pieces hu (spacedRunes b (r :: rs)).length (spacedRunes b (r :: rs))
      (Nat.le_refl _) 0 []
    have hr := fromString_repr (s := encodeRunes (r :: rs)) ⟨_, hv, rfl⟩
    rw [runesOf_encodeRunes _ hv] at hr
    have hwf := fromString_wf (s := encodeRunes (r :: rs)) ⟨_, hv, rfl⟩
    have hsp := spaced_runes b (selfChars 0 (r :: rs))
    rw [selfChars_map_fst] at hsp
    have hlen : (spaced b (selfChars 0 (r :: rs))).length = (spacedRunes b (r :: rs)).length := by
      rw [← hsp, List.length_map]
    obtain ⟨p1, p2, enc, T, yss, h1, h2, h3, h4, h5, h6, h7⟩ := C65_state (splittingRegexp u).findAll b
      (encodeRunes (r :: rs)) hwf hr (by simp [selfChars]) (by rw [hsp]; rfl)
      (by rw [hlen]; exact (splittingRegexp u).findAll_ordered _) g2 m rnd hvoc hm hunk hcov w ty
    have hL := segs_locate (matchSegs 0 ((splittingRegexp u).scan (spacedRunes b (r :: rs)) 0 0)
      (spaced b (selfChars 0 (r :: rs)))) []
    have e : segRunes (matchSegs 0 ((splittingRegexp u).scan (spacedRunes b (r :: rs)) 0 0)
      (spaced b (selfChars 0 (r :: rs)))) = matchSegs 0 ((splittingRegexp u).scan (spacedRunes b (r :: rs)) 0 0)
      (spacedRunes b (r :: rs)) := by rw [← hsp]; exact matchSegs_map _ _ _ _
    rw [e] at hL
    refine ⟨p1, p2, enc, _, T, yss, h1, h2, h3, g1, ?_, ?_, ?_, h7⟩
    · refine (all2_map_left (R := fun (x : List Rune) (ts : List Token) =>
        ∃ rnd', m.tokenize rnd' (tableText x) = .ok (.ok (some ts))) (f := fun x : List Rune × List Rune => x.2)).2 ?_
      rw [← hL]
      refine (all2_map_left (R := fun (x : List Rune) (ts : List Token) =>
        ∃ rnd', m.tokenize rnd' (tableText x) = .ok (.ok (some ts))) (f := fun x : Bool × List Ch => x.2.map (·.1))).1 ?_
      exact h4
    · have h8 := congrArg (List.map encodeRunes) hL
      simp only [List.map_map, Function.comp_def] at h8
      rw [← h8]
      exact h5
    · rw [h6, text, hsp]

/-- The parts with the offsets, as a list of pairs. -/
theorem ByteRows.all2 {cs : List Ch} {s : Int} : ∀ {ys : List Str} {os : List ByteOffsets} {a : Nat},
    ByteRows cs s a ys os → All2 (fun y o => y ≠ [] ∧ ∃ a G, ((text cs).drop a).take y.length = y
      ∧ CoversBytes cs a (a + y.length) G ∧ o = ⟨s + (firstAlign G).start, s + (lastAlign G).stop⟩) ys os := by
  intro ys
  induction ys with
  | nil =>
    intro os a h
    cases os with
    | nil => exact .nil
    | cons o os => exact absurd h (by simp [ByteRows])
  | cons y ys ih =>
    intro os a h
    cases os with
    | nil => exact absurd h (by simp [ByteRows])
    | cons o os =>
      simp only [ByteRows] at h
      obtain ⟨h1, h2, ⟨G, g1, g2⟩, h4⟩ := h
      exact .cons ⟨h1, a, G, h2, g1, g2⟩ (ih h4)

theorem CoversBytes.touches {cs G : List Ch} {a : Nat} {y : Str} (h : CoversBytes cs a (a + y.length) G)
    (hy : ((text cs).drop a).take y.length = y) : Touches (G.map (·.1)) y := by
  obtain ⟨A, C, e0, h1, h2, h3, h4⟩ := h
  have tt : ∀ l : List Ch, encodeRunes (l.map (·.1)) = text l := fun _ => rfl
  simp only [text_append, List.length_append] at h2 h3 h4
  have hy' : ((text G).drop (a - (text A).length)).take y.length = y := by
    rw [e0, text_append, text_append, List.append_assoc, show a = (text A).length + (a - (text A).length) by omega,
      List.drop_length_add_append] at hy
    have hyl : y.length ≤ (text G).length - (a - (text A).length) := by omega
    by_cases hy0 : y = []
    · subst hy0; simp
    · have := List.length_pos_iff.2 hy0
      rw [List.drop_append_of_le_length (by omega), List.take_append_of_le_length (by rw [List.length_drop]; exact hyl)] at hy
      exact hy
  refine ⟨(text G).take (a - (text A).length), (text G).drop (a - (text A).length + y.length), ?_, ?_, ?_⟩
  · rw [tt]
    conv => rhs; lhs; rhs; rw [← hy']
    rw [← List.drop_drop, List.append_assoc, List.take_append_drop, List.take_append_drop]
  · rw [← List.map_take, tt, List.length_take]; omega
  · rw [← List.map_dropLast, tt, tt, List.length_drop]; omega

theorem selfChars_select {rs : List Rune} {A G C : List Ch} (h : selfChars 0 rs = A ++ G ++ C) (hG : G ≠ []) :
    goSlice (encodeRunes rs) (0 + (firstAlign G).start) (0 + (lastAlign G).stop) = .ok (encodeRunes (G.map (·.1))) := by
  obtain ⟨-, h2⟩ := selfChars_cut h
  have hne : G.map (·.1) ≠ [] := by simpa using hG
  have e1 := firstAlign_self (i := 0 + (encodeRunes (A.map (·.1))).length) hne
  have e2 := lastAlign_self (i := 0 + (encodeRunes (A.map (·.1))).length) hne
  rw [← h2] at e1 e2
  have e : rs = A.map (·.1) ++ G.map (·.1) ++ C.map (·.1) := by
    have := congrArg (List.map (·.1)) h
    rw [selfChars_map_fst] at this
    simpa using this
  rw [e1, e2, e, encodeRunes_append, encodeRunes_append]
  exact goSlice_mid _ _ _ (by simp) (by simp)

/-- **C65, the offsets.** In the encoding of a valid input, the offsets of a token select the
characters of the input its bytes touch.  A token that starts with the added space has the offsets of
the rest of it; a token that is only the added space has those of the first character. -/
theorem C65_offsets (b : Bool) (rs : List Rune) {w ty : Int} {pieces : List Str} {T : List (List Token)}
    {yss : List (List Str)} {enc : Encoding}
    (h : EncodesBytes (spaced b (selfChars 0 rs)) 0 w ty pieces T yss enc) :
    All2 (fun y o => SelectsTouched (encodeRunes rs) y o
        ∨ (addedBytes b rs = 1 ∧ ∃ y', y = 32 :: y' ∧ y' ≠ [] ∧ SelectsTouched (encodeRunes rs) y' o)
        ∨ (addedBytes b rs = 1 ∧ y = [32] ∧ goSlice (encodeRunes rs) o.start o.stop = .ok (encodeRunes (rs.take 1))))
      yss.flatten enc.offsets := by
  refine h.offsets.all2.imp ?_
  rintro y o - - ⟨hy, a, G, h1, h2, rfl⟩
  have ht := h2.touches h1
  have hGne := h2.ne
  obtain ⟨A, C, e0, c1, -, -, -⟩ := h2
  have h32 : encodeRune 32 = [32] := by decide +kernel
  rcases spacedRunes_cases b rs with ⟨e1, e2⟩ | ⟨r, t, hrs, hr, hb, e1, e2⟩
  · left
    have e3 : spaced b (selfChars 0 rs) = selfChars 0 rs := by
      cases rs with
      | nil => rfl
      | cons r rs =>
        have hc : ¬ (b && !isWhiteSpace r) = true := by
          intro hc
          simp only [spacedRunes, if_pos hc] at e1
          have := congrArg List.length e1
          simp at this
        simp [spaced, selfChars, hc]
    rw [e3] at e0
    exact ⟨_, selfChars_select e0 hGne, ht⟩
  · subst hrs; subst hb
    have e3 : spaced true (selfChars 0 (r :: t)) = ((32 : Int), (⟨0, (encodeRune r).length⟩ : Align)) :: selfChars 0 (r :: t) := by
      simp [spaced, selfChars, hr, runeLen]
    rw [e3] at e0
    cases A with
    | cons c A =>
      left
      simp only [List.cons_append, List.cons.injEq] at e0
      exact ⟨_, selfChars_select e0.2 hGne, ht⟩
    | nil =>
      right
      cases G with
      | nil => exact absurd rfl hGne
      | cons g G =>
        simp only [List.nil_append, List.cons_append, List.cons.injEq] at e0
        obtain ⟨rfl, e0⟩ := e0
        obtain ⟨pre, post, t1, t2, t3⟩ := ht
        simp only [List.map_cons, List.take_succ_cons, List.take_zero, encodeRunes_cons, encodeRunes_nil,
          List.append_nil, h32, List.length_cons, List.length_nil] at t1 t2
        have hpre : pre = [] := List.length_eq_zero_iff.1 (by omega)
        subst hpre
        cases y with
        | nil => exact absurd rfl hy
        | cons z y =>
          simp only [List.nil_append, List.cons_append, List.cons.injEq] at t1
          obtain ⟨rfl, t1⟩ := t1
          by_cases hG : G = []
          · right
            subst hG
            simp only [List.map_nil, encodeRunes_nil] at t1
            obtain ⟨hy0, -⟩ := List.append_eq_nil_iff.1 t1.symm
            subst hy0
            refine ⟨e2, rfl, ?_⟩
            simp only [firstAlign, lastAlign, List.getLast?_singleton, List.take_succ_cons, List.take_zero,
              encodeRunes_cons, encodeRunes_nil, List.append_nil]
            exact goSlice_mid [] (encodeRune r) (encodeRunes t) (by simp) (by simp)
          · left
            have hGm : G.map (·.1) ≠ [] := by simpa using hG
            have hdl : ((32 : Int) :: G.map (·.1)).dropLast = 32 :: (G.map (·.1)).dropLast := by
              cases hG' : G.map (·.1) with
              | nil => exact absurd hG' hGm
              | cons x xs => rfl
            simp only [List.map_cons, hdl, encodeRunes_cons, h32, List.length_append] at t3
            have e4 : firstAlign G = (⟨0, (encodeRune r).length⟩ : Align) := by
              cases G with
              | nil => exact absurd rfl hG
              | cons g G =>
                simp only [selfChars, List.cons_append, List.cons.injEq] at e0
                rw [← e0.1]; simp [firstAlign, runeLen]
            have e5 : lastAlign (((32 : Int), (⟨0, (encodeRune r).length⟩ : Align)) :: G) = lastAlign G :=
              lastAlign_append_of_ne (as := [_]) hG
            refine ⟨e2, y, rfl, ?_, G.map (·.1), ?_, [], post, by simpa using t1, ?_, by omega⟩
            · rintro rfl
              simp only [List.nil_append] at t1
              rw [← t1] at t3
              omega
            · have := selfChars_select (A := []) (by simpa using e0) hG
              rw [e5]
              rw [e4] at this
              exact this
            · have : (G.map (·.1)).take 1 ≠ [] := by simpa using hG
              exact encodeRunes_pos this

/-- **C65, nothing is lost.** With a byte-level vocabulary that spells (no affixes, all table runes
known, terms and ids matching, merges spelling what they merge), reading the tokens of the encoding
through the inverse table gives back the input, after the added space if there is one. -/
theorem C65_lossless {u : RxUni} (hu : SaneTables u) (b : Bool) (rs : List Rune) (hv : ∀ r ∈ rs, ValidRune r)
    (m : BPE) (rnd : NS → Nat → Bool)
    (hp : m.continuingSubwordPrefix = []) (he : m.endOfWordSuffix = [])
    (hvoc : ∀ t i, m.vocab.getID t = some i → m.vocab.getString i = some t)
    (hm : ∀ a b v, m.merges.get a b = some v → m.vocab.getString v.id ≠ none) (hsp : BPE.Spells m.vocab m.merges)
    (hunk : m.unknownToken ≠ [] → m.vocab.getID m.unknownToken ≠ none)
    (hall : ∀ b : UInt8, m.vocab.getID (encodeRune (byteToRune b)) ≠ none) (w ty : Int) :
    ∃ p1 p2 enc, byteLevel (splittingRegexp u).findAll b (PTS.fromString (encodeRunes rs)) = .ok (p1, none)
      ∧ p1.tokenize (m.tokenizeNS rnd) = .ok (p2, none) ∧ p2.intoEncoding w ty = .ok (.ok enc)
      ∧ (enc.tokens.flatMap fun t => (runesOf t).map runeToByte) = encodeRunes (spacedRunes b rs) := by
  have hkey : ∀ i last r, m.lookupKey i last r = encodeRune r := by
    intro i last r
    simp [BPE.lookupKey, BPE.hasContinuingSubwordPrefix, BPE.hasEndOfWordSuffix, hp, he]
  obtain ⟨p1, p2, enc, L, T, yss, h1, h2, h3, -, -, -, h6, h7⟩ := C65_gpt hu b rs hv m rnd
    (fun t i h => by rw [hvoc t i h]; simp) hm hunk (.inr fun b i last => by rw [hkey]; exact hall b) w ty
  refine ⟨p1, p2, enc, h1, h2, h3, ?_⟩
  rw [h7 hp he hall hvoc hsp, ← h6, List.flatMap_map]
  simp only [tableOf_decode]
  rw [List.flatMap_id']

/-- A vocabulary with the table runes of some bytes and one merge, of the space and `a`. -/
def byteSample : BPE :=
  let terms := ([32, 97, 169, 195].map fun n => (encodeRune (byteToRune (UInt8.ofNat n)), (n : Int))) ++ [(b!"Ġa", 256)]
  ⟨Vocab.fromJSON (some terms) terms, [((32, 97), ⟨0, 256⟩)], ⟨10⟩, false, [], [], [], false⟩

/-- Non-vacuity: the added space goes with `a`; the two bytes of `é` are two tokens, both with the
offsets of `é`. -/
example : ((byteLevelDefault Tests.asciiUni (PTS.fromString b!"aé a")).bind fun r =>
      (r.1.tokenize (byteSample.tokenizeNS fun _ _ => false)).bind fun r => r.1.intoEncoding (-1) 0)
    = .ok (.ok ⟨[256, 195, 169, 256], [0, 0, 0, 0], [b!"Ġa", b!"Ã", b!"©", b!"Ġa"], [0, 1, 1, 2],
        [⟨0, 1⟩, ⟨1, 3⟩, ⟨1, 3⟩, ⟨3, 5⟩], [0, 0, 0, 0], [1, 1, 1, 1]⟩) := by decide +kernel

/-- The added space as a token of its own has the offsets of the first character. -/
example : ((byteLevelDefault Tests.asciiUni (PTS.fromString b!"é")).bind fun r =>
      (r.1.tokenize (byteSample.tokenizeNS fun _ _ => false)).bind fun r => r.1.intoEncoding (-1) 0)
    = .ok (.ok ⟨[32, 195, 169], [0, 0, 0], [b!"Ġ", b!"Ã", b!"©"], [0, 0, 0],
        [⟨0, 2⟩, ⟨0, 2⟩, ⟨0, 2⟩], [0, 0, 0], [1, 1, 1]⟩) := by decide +kernel

end Verif
