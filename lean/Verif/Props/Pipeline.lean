import Verif.Spec.Pipeline
import Verif.Props.Tokenize
import Verif.Props.WordPiece
import Verif.Props.Bpe
import Verif.Props.WhiteSpace

/-! Properties C63 to C65: from the input to the encoding. -/

set_option autoImplicit false

namespace Verif

/-! ## The offset of one token -/

theorem tokenOffsets_chars {ns : NS} {A B C : List Ch} (h : Repr ns (A ++ B ++ C)) (hB : B ≠ []) {t : Token}
    (ht : t.offsets = ⟨(text A).length, (text (A ++ B)).length⟩) :
    PTS.tokenOffsets ns t
      = .ok ⟨ns.originalShift + (firstAlign B).start, ns.originalShift + (lastAlign B).stop⟩ := by
  have hBl : 0 < (text B).length := List.length_pos_iff.2 (fun h => hB (text_eq_nil.1 h))
  have hal : ns.alignments = aligns A ++ aligns B ++ aligns C := by rw [h.aligns_eq]; simp
  have hlA := aligns_length A
  have e1 : ((text (A ++ B)).length : Int) = (text A).length + (text B).length := by simp
  obtain ⟨f, l, k1, k2, k3⟩ := coerceRangeToOriginal_normalized (ns := ns) (s := (text A).length)
    (e := (text (A ++ B)).length) (by omega) (by omega) (by rw [hal]; simp; omega)
  have hf : f = firstAlign B := by
    cases B with
    | nil => exact absurd rfl hB
    | cons c B =>
      have := runeLen_pos c.1
      rw [hal, Int.toNat_natCast, List.append_assoc, List.getElem?_append_right (by omega), hlA, Nat.sub_self,
        aligns_cons, List.append_assoc, List.getElem?_append_left (by simpa using this)] at k1
      simp [this] at k1
      rw [← k1]; rfl
  have hl : l = lastAlign B := by
    have := aligns_last (A ++ B) C (by simp [hB])
    rw [lastAlign_append_of_ne hB, goIndex_eq_ok] at this
    rw [h.aligns_eq, this.2] at k2
    simpa using k2.symm
  simp only [PTS.tokenOffsets, ht, k3, hf, hl, NS.originalOffsets, GoM.bind_ok]
  rfl

theorem firstAlign_selfChars (i : Nat) {g : List Rune} (h : g ≠ []) : (firstAlign (selfChars i g)).start = i := by
  cases g with
  | nil => exact absurd rfl h
  | cons r g => rfl

theorem lastAlign_selfChars (i : Nat) {g : List Rune} (h : g ≠ []) :
    (lastAlign (selfChars i g)).stop = i + (encodeRunes g).length := by
  rcases List.eq_nil_or_concat g with rfl | ⟨g, r, rfl⟩
  · exact absurd rfl h
  · rw [List.concat_eq_append, selfChars_append]
    simp only [selfChars]
    rw [lastAlign_concat]
    simp [runeLen]; omega

theorem selfChars_ne {i : Nat} {g : List Rune} (h : g ≠ []) : selfChars i g ≠ [] := by
  cases g with
  | nil => exact absurd rfl h
  | cons r g => simp [selfChars]

theorem copyOf_repr {pre g : List Rune} (hv : ∀ r ∈ g, ValidRune r) : Repr (copyOf pre g) (selfChars 0 g) :=
  ⟨(text_selfChars 0 g).symm, rfl, validChars_selfChars hv⟩

/-- In an unchanged piece the offset of a token of whole runes is its own offset, moved. -/
theorem tokenOffsets_copy {pre a hd b : List Rune} (hv : ∀ r ∈ a ++ hd ++ b, ValidRune r) (hh : hd ≠ []) {t : Token}
    (ht : t.offsets = ⟨(encodeRunes a).length, (encodeRunes (a ++ hd)).length⟩) :
    PTS.tokenOffsets (copyOf pre (a ++ hd ++ b)) t
      = .ok ⟨(encodeRunes pre).length + t.offsets.start, (encodeRunes pre).length + t.offsets.stop⟩ := by
  have hr := copyOf_repr (pre := pre) hv
  rw [selfChars_append, selfChars_append] at hr
  have := tokenOffsets_chars hr (selfChars_ne hh) (t := t) (by
    rw [ht, text_append, text_selfChars, text_selfChars]; simp)
  rw [this, firstAlign_selfChars _ hh, lastAlign_selfChars _ hh, ht]
  simp [copyOf]

/-! ## The rows of an encoding -/

theorem encodeTokens_copy (pre : List Rune) (w ty : Int) {a rest : List Rune} {ts : List Token}
    (h : RuneTiles a rest ts) (hv : ∀ r ∈ a ++ rest, ValidRune r) :
    PTS.encodeTokens (copyOf pre (a ++ rest)) w ty ts = .ok (ts.map fun t => ⟨t.id, t.value,
      ⟨(encodeRunes pre).length + t.offsets.start, (encodeRunes pre).length + t.offsets.stop⟩, w, ty⟩) := by
  induction h with
  | nil => rfl
  | @cons a hd tl t ts hh ht _ ih =>
    rw [← List.append_assoc] at hv ⊢
    have h1 := tokenOffsets_copy (pre := pre) hv hh ht
    simp only [PTS.encodeTokens, h1, ih hv, GoM.bind_ok, List.map_cons]
    rfl

theorem encodeSplits_copies (T : List Rune × List Rune → List Token) (w ty : Int) :
    ∀ (L : List (List Rune × List Rune)) (i : Nat),
    (∀ x ∈ L, RuneTiles [] x.2 (T x) ∧ ∀ r ∈ x.2, ValidRune r) →
    PTS.encodeSplits w ty i (L.map fun x => ⟨copyOf x.1 x.2, some (T x)⟩) = .ok (rowsOf T w ty i L) := by
  intro L
  induction L with
  | nil => intro i _; rfl
  | cons x L ih =>
    intro i h
    obtain ⟨h1, h2⟩ := h x (by simp)
    have e1 := encodeTokens_copy x.1 (if w < 0 then (i : Int) else w) ty h1 (by simpa using h2)
    simp only [List.nil_append] at e1
    have e2 := ih (i + 1) (fun y hy => h y (by simp [hy]))
    have e3 : (if w < 0 then (i : Int) else w) = if 0 ≤ w then w else i := by
      split <;> split <;> first | rfl | omega
    rw [e3] at e1
    simp only [List.map_cons, PTS.encodeSplits, Option.getD_some, e3, e1, e2, GoM.bind_ok, rowsOf]
    rfl

theorem hasRows_from (rows : List EncodableToken) : HasRows (Encoding.fromEncodableTokens rows) rows := by
  rw [fromEncodableTokens_eq]
  exact ⟨rfl, rfl, rfl, rfl, rfl, rfl, rfl⟩

/-- Tokenizing unchanged words and making the encoding: one row per token. -/
theorem encode_copies {L : List (List Rune × List Rune)} (f : NS → GoM (Except Err (List Token)))
    (T : List Rune × List Rune → List Token) (o : Str) (w ty : Int)
    (hf : ∀ x ∈ L, f (copyOf x.1 x.2) = .ok (.ok (T x)))
    (h : ∀ x ∈ L, RuneTiles [] x.2 (T x) ∧ ∀ r ∈ x.2, ValidRune r) :
    ∃ p enc, (PTS.mk o (copies L)).tokenize f = .ok (p, none) ∧ p.intoEncoding w ty = .ok (.ok enc)
      ∧ HasRows enc (rowsOf T w ty 0 L) := by
  have key : ∀ sp ∈ copies L, ∃ x ∈ L, sp = ⟨copyOf x.1 x.2, none⟩ := by
    intro sp hsp
    obtain ⟨x, hx, rfl⟩ := List.mem_map.1 hsp
    exact ⟨x, hx, rfl⟩
  have h1 := C58_tokenize_ok (PTS.mk o (copies L)) f
    (fun ns => match f ns with | .ok (.ok ts) => ts | _ => []) (by
      intro sp hsp _
      obtain ⟨x, hx, rfl⟩ := key sp hsp
      simp only [hf x hx])
  have h2 : (copies L).map (withTokens fun ns => match f ns with | .ok (.ok ts) => ts | _ => [])
      = L.map fun x => ⟨copyOf x.1 x.2, some (T x)⟩ := by
    unfold copies
    rw [List.map_map]
    apply List.map_congr_left
    intro x hx
    simp [withTokens, hf x hx]
  simp only at h1
  rw [h2] at h1
  have h3 := encodeSplits_copies T w ty L 0 h
  refine ⟨_, Encoding.fromEncodableTokens (rowsOf T w ty 0 L), h1, ?_, hasRows_from _⟩
  unfold PTS.intoEncoding
  by_cases hL : L = []
  · subst hL; rfl
  · rw [if_neg (by simpa using hL), if_neg (by simp [PTS.allSplitsHaveTokens]), h3]
    rfl

/-! ## What the offsets select -/

theorem RuneTiles.cover {rs : List Rune} (pre post : List Rune) {a rest : List Rune} {ts : List Token}
    (h : RuneTiles a rest ts) (e : rs = pre ++ (a ++ rest) ++ post) :
    ∃ ys : List Str, All2 (fun (t : Token) y => goSlice (encodeRunes rs) ((encodeRunes pre).length + t.offsets.start)
        ((encodeRunes pre).length + t.offsets.stop) = .ok y ∧ y ≠ []) ts ys
      ∧ ys.flatten = encodeRunes rest
      ∧ (ts.Pairwise fun t t' => t.offsets.stop ≤ t'.offsets.start)
      ∧ ∀ t ∈ ts, ((encodeRunes a).length : Int) ≤ t.offsets.start
          ∧ t.offsets.stop ≤ ((encodeRunes (a ++ rest)).length : Int) := by
  induction h with
  | nil => exact ⟨[], .nil, rfl, .nil, by simp⟩
  | @cons a hd tl t ts hh ht _ ih =>
    obtain ⟨ys, i1, i2, i3, i4⟩ := ih (by rw [e]; simp)
    have hp := encodeRunes_pos hh
    refine ⟨encodeRunes hd :: ys, .cons ⟨?_, ?_⟩ i1, ?_, ?_, ?_⟩
    · rw [ht, e, show pre ++ (a ++ (hd ++ tl)) ++ post = (pre ++ a) ++ hd ++ (tl ++ post) by simp,
        encodeRunes_append, encodeRunes_append (pre ++ a) hd]
      exact goSlice_mid _ _ _ (by simp) (by simp; omega)
    · exact List.ne_nil_of_length_pos hp
    · simp [i2]
    · rw [List.pairwise_cons]
      refine ⟨?_, i3⟩
      intro t' ht'
      have := (i4 t' ht').1
      rw [ht]; exact this
    · intro t' ht'
      rcases List.mem_cons.1 ht' with rfl | ht'
      · rw [ht]; simp; omega
      · obtain ⟨k1, k2⟩ := i4 t' ht'
        rw [← List.append_assoc]
        simp only [encodeRunes_append, List.length_append] at k1 k2 ⊢
        omega

theorem encodeRunes_length_le {rs a b pa pb : List Rune} (ha : rs = a ++ pa) (hb : rs = b ++ pb)
    (h : a.length ≤ b.length) : (encodeRunes a).length ≤ (encodeRunes b).length := by
  have : a = b.take a.length := by
    have := congrArg (List.take a.length) (ha.symm.trans hb)
    rw [List.take_left, List.take_append_of_le_length h] at this
    exact this
  have e : b = a ++ b.drop a.length := by
    conv => rhs; lhs; rw [this]
    exact (List.take_append_drop _ _).symm
  rw [e]; simp

theorem rows_cover {rs : List Rune} {T : List Rune × List Rune → List Token} (w ty : Int) :
    ∀ {L : List (List Rune × List Rune)} (i : Nat),
    (∀ x ∈ L, x.2 ≠ [] ∧ ∃ post, rs = x.1 ++ x.2 ++ post) →
    (L.Pairwise fun x y => (x.1 ++ x.2).length ≤ y.1.length) →
    (∀ x ∈ L, RuneTiles [] x.2 (T x)) →
    OffsetsCover (encodeRunes rs) ((rowsOf T w ty i L).map (·.offsets)) (encodeRunes (L.flatMap (·.2)))
    ∧ ∀ o ∈ (rowsOf T w ty i L).map (·.offsets), ∃ x ∈ L, ((encodeRunes x.1).length : Int) ≤ o.start
        ∧ o.stop ≤ ((encodeRunes (x.1 ++ x.2)).length : Int) := by
  intro L
  induction L with
  | nil => intro i _ _ _; exact ⟨⟨by simp [rowsOf], .nil, [], .nil, rfl⟩, by simp [rowsOf]⟩
  | cons x L ih =>
    intro i hloc hord hT
    rw [List.pairwise_cons] at hord
    obtain ⟨⟨j1, j2, zs, j3, j4⟩, j5⟩ := ih (i + 1) (fun y hy => hloc y (by simp [hy])) hord.2
      (fun y hy => hT y (by simp [hy]))
    obtain ⟨-, post, e⟩ := hloc x (by simp)
    obtain ⟨ys, k1, k2, k3, k4⟩ := (hT x (by simp)).cover x.1 post (by simpa using e)
    simp only [List.nil_append, encodeRunes_nil, List.length_nil] at k4
    have hin : ∀ t ∈ T x, ((encodeRunes x.1).length : Int) ≤ (encodeRunes x.1).length + t.offsets.start
        ∧ (encodeRunes x.1).length + t.offsets.stop ≤ ((encodeRunes (x.1 ++ x.2)).length : Int) := by
      intro t ht
      have := k4 t ht
      simp only [encodeRunes_append, List.length_append]
      omega
    have hrow : ∀ i, ((rowsOf T w ty i (x :: L)).map (·.offsets)) = (T x).map (fun t =>
        (⟨(encodeRunes x.1).length + t.offsets.start, (encodeRunes x.1).length + t.offsets.stop⟩ : ByteOffsets))
        ++ (rowsOf T w ty (i + 1) L).map (·.offsets) := by
      intro i
      simp [rowsOf, Function.comp_def]
    rw [hrow]
    have ka : All2 (fun (o : ByteOffsets) y => goSlice (encodeRunes rs) o.start o.stop = .ok y ∧ y ≠ [])
        ((T x).map fun t => ⟨(encodeRunes x.1).length + t.offsets.start, (encodeRunes x.1).length + t.offsets.stop⟩) ys := by
      clear k2 k3 k4 hin hrow
      generalize T x = us at k1
      induction k1 with
      | nil => exact .nil
      | cons h _ ih => exact .cons h ih
    refine ⟨⟨?_, ?_, ys ++ zs, ?_, ?_⟩, ?_⟩
    · intro o ho
      rcases List.mem_append.1 ho with ho | ho
      · obtain ⟨y, -, hy⟩ := All2.exists_right ka ho
        exact ⟨y, hy⟩
      · exact j1 o ho
    · rw [List.pairwise_append]
      refine ⟨?_, j2, ?_⟩
      · rw [List.pairwise_map]
        exact k3.imp fun h => by simp only; omega
      · intro o ho o' ho'
        obtain ⟨t, ht, rfl⟩ := List.mem_map.1 ho
        obtain ⟨y, hy, h1, -⟩ := j5 o' ho'
        have h2 := (hin t ht).2
        obtain ⟨-, post', e'⟩ := hloc y (by simp [hy])
        have := encodeRunes_length_le (rs := rs) (a := x.1 ++ x.2) (b := y.1) e
          (by rw [e', List.append_assoc]) (hord.1 y hy)
        simp only; omega
    · refine All2.append ?_ j3
      exact ka.imp fun _ _ _ _ h => h.1
    · simp [k2, j4]
    · intro o ho
      rcases List.mem_append.1 ho with ho | ho
      · obtain ⟨t, ht, rfl⟩ := List.mem_map.1 ho
        exact ⟨x, by simp, hin t ht⟩
      · obtain ⟨y, hy, h⟩ := j5 o ho
        exact ⟨y, by simp [hy], h⟩

/-! ## Words of the pre-tokenizers that do not change the text -/

theorem TokenizedBy.words {isSep isSolo : Rune → Bool} {rs : List Rune} {L : List (List Rune × List Rune)}
    (h : TokenizedBy isSep isSolo rs L) : WordsOf (fun r => !isSep r) rs L := by
  refine ⟨?_, h.ordered, h.complete⟩
  intro x hx
  obtain ⟨post, e, h⟩ := h.located x hx
  refine ⟨?_, post, e⟩
  rcases h with ⟨r, hr, -⟩ | ⟨h, -⟩
  · rw [hr]; simp
  · exact h

theorem KindRuns.words {κ : Type} {kind : Rune → Option κ} {rs : List Rune} {L : List (List Rune × List Rune)}
    (h : KindRuns kind rs L) : WordsOf (fun r => (kind r).isSome) rs L := by
  refine ⟨?_, h.ordered, h.complete⟩
  intro x hx
  obtain ⟨post, k, e, h, -⟩ := h.located x hx
  exact ⟨h, post, e⟩

/-- A pre-tokenizer that cuts every valid input into unchanged words. -/
def CutsWords (pre : PreTokenizer) (keep : Rune → Bool) (P : List Rune → List (List Rune × List Rune) → Prop) : Prop :=
  ∀ rs : List Rune, (∀ r ∈ rs, ValidRune r) → ∃ o L, pre (PTS.fromString (encodeRunes rs)) = .ok (⟨o, copies L⟩, none)
    ∧ WordsOf keep rs L ∧ P rs L

theorem whiteSpaceSplit_words : CutsWords whiteSpaceSplit (fun r => !isWhiteSpace r)
    (TokenizedBy isWhiteSpace fun _ => false) := by
  intro rs hv
  have h : TokenizedBy isWhiteSpace (fun _ => false) rs (locate false [] (segs isWhiteSpace rs)) := by
    have := tokenizedBy_segs isWhiteSpace false rs
    simpa using this
  exact ⟨_, _, split_input isWhiteSpace false rs hv, h.words, h⟩

theorem runeDelimiter_words (d : Rune) : CutsWords (runeDelimiter d) (fun r => !(r == d))
    (TokenizedBy (fun r => r == d) fun _ => false) := by
  intro rs hv
  have h : TokenizedBy (fun r => r == d) (fun _ => false) rs (locate false [] (segs (fun r => r == d) rs)) := by
    have := tokenizedBy_segs (fun r => r == d) false rs
    simpa using this
  exact ⟨_, _, split_input (fun r => r == d) false rs hv, h.words, h⟩

theorem bert_words (u : Uni) : CutsWords (bertPreTokenize u) (fun r => !isWhiteSpace r)
    (TokenizedBy isWhiteSpace u.isPunct) := by
  intro rs hv
  have t1 : TokenizedBy isWhiteSpace (fun _ => false) rs (locate false [] (segs isWhiteSpace rs)) := by
    have := tokenizedBy_segs isWhiteSpace false rs
    simpa using this
  have h1 := split_input isWhiteSpace false rs hv
  have h2 := pts_split_copies (encodeRunes rs) (locate false [] (segs isWhiteSpace rs)) u.isPunct true (by
    intro x hx
    obtain ⟨h, post, e⟩ := t1.words.located x hx
    exact ⟨h, fun r hr => hv r (by rw [e]; simp [hr])⟩)
  simp only [Bool.false_eq_true, if_false, if_true] at h1 h2
  have t2 := t1.refine (isSolo := u.isPunct)
  refine ⟨encodeRunes rs, _, ?_, t2.words, t2⟩
  simp only [bertPreTokenize, h1, GoM.bind_ok, h2]

theorem whiteSpace_words (u : RxUni) : CutsWords (whiteSpaceDefault u) (fun r => (wordKind u r).isSome)
    (KindRuns (wordKind u)) := by
  intro rs hv
  obtain ⟨o, L, h1, h2⟩ := whiteSpace_copies u rs hv
  exact ⟨o, L, h1, h2.words, h2⟩

/-! ## Tokens of the two models -/

theorem WordPiece.WholeTokens.tiles {m : WordPiece} {pre rs : List Rune} {ts : List Token}
    (h : m.WholeTokens pre rs ts) : RuneTiles pre rs ts := by
  induction h with
  | nil => exact .nil
  | cons h1 _ _ ih => exact .cons h1 rfl ih

theorem runeTiles_one {g : List Rune} (h : g ≠ []) {t : Token} (ht : t.offsets = ⟨0, (encodeRunes g).length⟩) :
    RuneTiles [] g [t] := by
  have := RuneTiles.cons (pre := []) (hd := g) (tl := []) (t := t) h (by rw [ht]; simp) .nil
  simpa using this

theorem wordPiece_tiles (m : WordPiece) (hval : m.vocab.AllValid) {g : List Rune} (hg : g ≠ []) {ts : List Token}
    (h : m.tokenize (encodeRunes g) = .ok ts) : RuneTiles [] g ts := by
  rcases C37_whole_runes m hval g ts h with ⟨id, -, rfl⟩ | h
  · exact runeTiles_one hg rfl
  · exact h.tiles

/-- Tokens with contiguous offsets that stand on valid text are made of whole runes. -/
theorem runeTiles_of (v : Vocab) (g : List Rune) (hv : ∀ r ∈ g, ValidRune r) :
    ∀ (ts : List Token) (a rest : List Rune), g = a ++ rest →
    BPE.TokenTiles v (encodeRunes a).length ts (encodeRunes g).length →
    (∀ t ∈ ts, ∃ y, goSlice (encodeRunes g) t.offsets.start t.offsets.stop = .ok y ∧ ValidUtf8 y) →
    RuneTiles a rest ts := by
  intro ts
  induction ts with
  | nil =>
    intro a rest e h _
    simp only [BPE.TokenTiles, e, encodeRunes_append, List.length_append] at h
    have := length_le_encodeRunes rest
    have : rest = [] := List.length_eq_zero_iff.1 (by omega)
    subst this
    exact .nil
  | cons t ts ih =>
    intro a rest e h hy
    obtain ⟨h1, h2, -, h4⟩ := h
    obtain ⟨y, hy1, ys, hys, rfl⟩ := hy t (by simp)
    rw [h1] at hy1
    obtain ⟨⟨b1, b2, b3⟩, b4⟩ := goSlice_eq_ok.1 hy1
    have e4 : (encodeRunes g).drop (encodeRunes a).length = encodeRunes rest := by rw [e]; simp
    rw [Int.toNat_natCast, e4] at b4
    have hlen : (encodeRunes g).length = (encodeRunes a).length + (encodeRunes rest).length := by rw [e]; simp
    obtain ⟨hd, tl, c1, c2, -⟩ := runes_cut (rs := rest) (fun r hr => hv r (by rw [e]; simp [hr])) (u := encodeRunes ys)
      (v := (encodeRunes rest).drop (t.offsets.stop - (encodeRunes a).length).toNat) ⟨ys, hys, rfl⟩ (by
        rw [b4]; exact (List.take_append_drop _ _).symm)
    have hl := congrArg List.length b4
    rw [List.length_take, ← c2] at hl
    have hst : t.offsets.stop = (encodeRunes (a ++ hd)).length := by
      rw [encodeRunes_append, List.length_append]; omega
    subst c1
    refine .cons ?_ ?_ (ih (a ++ hd) tl (by rw [e]; simp) (by rw [← hst]; exact h4) fun t' ht' => hy t' (by simp [ht']))
    · rintro rfl
      simp at hst; omega
    · obtain ⟨id, val, st, sp⟩ := t
      simp only at h1 hst
      rw [h1, hst]

theorem bpe_tiles (m : BPE) (rnd : Nat → Bool) {g : List Rune} (hv : ∀ r ∈ g, ValidRune r)
    (hc : m.Covered (encodeRunes g)) {ts : List Token} (h : m.tokenize rnd (encodeRunes g) = .ok (.ok (some ts))) :
    RuneTiles [] g ts := by
  have vg : ValidUtf8 (encodeRunes g) := ⟨g, hv, rfl⟩
  refine runeTiles_of m.vocab g hv ts [] g rfl (BPE.C44_tiles m rnd _ vg hc h) ?_
  intro t ht
  obtain ⟨y, h1, -, h3⟩ := BPE.C56_whole_characters m rnd _ vg hc h t ht
  exact ⟨y, h1, h3⟩

/-! ## C64: words that are unchanged parts of the input -/

/-- What the encoding of the input says: there is one row per token of each word, in order, where
`T` gives the tokens of each word; the offsets are increasing and select, together, exactly the
kept runes of the input. -/
def EncodesWords (keep : Rune → Bool) (rs : List Rune) (T : List Rune × List Rune → List Token)
    (w ty : Int) (L : List (List Rune × List Rune)) (enc : Encoding) : Prop :=
  HasRows enc (rowsOf T w ty 0 L)
    ∧ OffsetsCover (encodeRunes rs) enc.offsets (encodeRunes (rs.filter keep))

theorem encode_words {keep : Rune → Bool} {rs : List Rune} (hv : ∀ r ∈ rs, ValidRune r)
    {L : List (List Rune × List Rune)} (hL : WordsOf keep rs L) (f : NS → GoM (Except Err (List Token)))
    (T : List Rune × List Rune → List Token) (o : Str) (w ty : Int)
    (h : ∀ x ∈ L, x.2 ≠ [] → (∀ r ∈ x.2, ValidRune r) → f (copyOf x.1 x.2) = .ok (.ok (T x)) ∧ RuneTiles [] x.2 (T x)) :
    ∃ p enc, (PTS.mk o (copies L)).tokenize f = .ok (p, none) ∧ p.intoEncoding w ty = .ok (.ok enc)
      ∧ EncodesWords keep rs T w ty L enc := by
  have hvx : ∀ x ∈ L, ∀ r ∈ x.2, ValidRune r := by
    intro x hx r hr
    obtain ⟨-, post, e⟩ := hL.located x hx
    exact hv r (by rw [e]; simp [hr])
  have hx : ∀ x ∈ L, f (copyOf x.1 x.2) = .ok (.ok (T x)) ∧ RuneTiles [] x.2 (T x) :=
    fun x hx => h x hx (hL.located x hx).1 (hvx x hx)
  obtain ⟨p, enc, h1, h2, h3⟩ := encode_copies f T o w ty (fun x hx' => (hx x hx').1)
    (fun x hx' => ⟨(hx x hx').2, hvx x hx'⟩)
  refine ⟨p, enc, h1, h2, h3, ?_⟩
  rw [h3.offsets, ← hL.complete]
  exact (rows_cover w ty 0 hL.located hL.ordered fun x hx' => (hx x hx').2).1

theorem mem_rowsOf {T : List Rune × List Rune → List Token} {w ty : Int} :
    ∀ {L : List (List Rune × List Rune)} {i : Nat} {row : EncodableToken}, row ∈ rowsOf T w ty i L →
    ∃ x ∈ L, ∃ t ∈ T x, row.id = t.id ∧ row.token = t.value
      ∧ row.offsets = ⟨(encodeRunes x.1).length + t.offsets.start, (encodeRunes x.1).length + t.offsets.stop⟩ := by
  intro L
  induction L with
  | nil => intro i row h; simp [rowsOf] at h
  | cons x L ih =>
    intro i row h
    rcases List.mem_append.1 h with h | h
    · obtain ⟨t, ht, rfl⟩ := List.mem_map.1 h
      exact ⟨x, by simp, t, ht, rfl, rfl, rfl⟩
    · obtain ⟨y, hy, r⟩ := ih h
      exact ⟨y, by simp [hy], r⟩

/-- What a row of a WordPiece encoding says: it is the unknown token over a whole word, or the
vocabulary has its token, which is the text of the input at its offsets, after the prefix unless
it begins a word. -/
def WordPieceRow (m : WordPiece) (input : Str) (L : List (List Rune × List Rune)) (row : EncodableToken) : Prop :=
  ∃ x ∈ L, (row.token = m.unknownToken ∧ m.vocab.getID m.unknownToken = some row.id
      ∧ row.offsets = ⟨(encodeRunes x.1).length, (encodeRunes (x.1 ++ x.2)).length⟩)
    ∨ ∃ y, goSlice input row.offsets.start row.offsets.stop = .ok y ∧ m.vocab.getID row.token = some row.id
      ∧ row.token = (if row.offsets.start = (encodeRunes x.1).length then y else m.continuingSubwordPrefix ++ y)

theorem WordPiece.WholeTokens.value {m : WordPiece} {rs : List Rune} (pre post : List Rune) {a rest : List Rune}
    {ts : List Token} (h : m.WholeTokens a rest ts) (e : rs = pre ++ (a ++ rest) ++ post) :
    ∀ t ∈ ts, ∃ y, goSlice (encodeRunes rs) ((encodeRunes pre).length + t.offsets.start)
        ((encodeRunes pre).length + t.offsets.stop) = .ok y ∧ m.vocab.getID t.value = some t.id
      ∧ t.value = (if t.offsets.start = 0 then y else m.continuingSubwordPrefix ++ y) := by
  induction h with
  | nil => intro t ht; simp at ht
  | @cons a hd tl id ts hh hid _ ih =>
    intro t ht
    rcases List.mem_cons.1 ht with rfl | ht
    · refine ⟨encodeRunes hd, ?_, hid, ?_⟩
      · rw [e, show pre ++ (a ++ (hd ++ tl)) ++ post = (pre ++ a) ++ hd ++ (tl ++ post) by simp,
          encodeRunes_append, encodeRunes_append (pre ++ a) hd]
        exact goSlice_mid _ _ _ (by simp) (by simp; omega)
      · by_cases ha : a = []
        · subst ha; simp [WordPiece.key]
        · have := encodeRunes_pos ha
          rw [if_neg (by simp only; omega)]
          simp [WordPiece.key, ha]
    · exact ih (by rw [e]; simp) t ht

/-- A slice of a part is a slice of the whole. -/
theorem goSlice_inside (u s v : Str) {a b : Int} {y : Str} (h : goSlice s a b = .ok y) :
    goSlice (u ++ s ++ v) (u.length + a) (u.length + b) = .ok y := by
  obtain ⟨⟨h1, h2, h3⟩, h4⟩ := goSlice_eq_ok.1 h
  have d : s = s.take a.toNat ++ y ++ s.drop b.toNat := by
    rw [h4, show b.toNat = a.toNat + (b - a).toNat by omega, ← List.drop_drop, List.append_assoc,
      List.take_append_drop, List.take_append_drop]
  have e : u ++ s ++ v = (u ++ s.take a.toNat) ++ y ++ (s.drop b.toNat ++ v) := by
    conv => lhs; rw [d]
    simp
  have hl : y.length = (b - a).toNat := by rw [h4]; simp; omega
  rw [e]
  exact goSlice_mid _ _ _ (by simp; omega) (by simp; omega)

/-- **C64, WordPiece.** Any of the pre-tokenizers that cut the input into unchanged words,
followed by WordPiece with a vocabulary of valid terms that has the unknown token, gives an
encoding of every valid input: nothing fails or crashes, the rows are the WordPiece tokens of the
words in order, the offsets are increasing, and together they select exactly the kept runes. -/
theorem C64_wordPiece {pre : PreTokenizer} {keep : Rune → Bool} {P : List Rune → List (List Rune × List Rune) → Prop}
    (hpre : CutsWords pre keep P) (m : WordPiece) (hval : m.vocab.AllValid)
    (hunk : m.vocab.getID m.unknownToken ≠ none) (rs : List Rune) (hv : ∀ r ∈ rs, ValidRune r) (w ty : Int) :
    ∃ p1 p2 enc L T, pre (PTS.fromString (encodeRunes rs)) = .ok (p1, none)
      ∧ p1.tokenize (fun ns => .ok (m.tokenize ns.get)) = .ok (p2, none)
      ∧ p2.intoEncoding w ty = .ok (.ok enc)
      ∧ P rs L ∧ (∀ x ∈ L, m.tokenize (encodeRunes x.2) = .ok (T x))
      ∧ EncodesWords keep rs T w ty L enc
      ∧ ∀ row ∈ rowsOf T w ty 0 L, WordPieceRow m (encodeRunes rs) L row := by
  obtain ⟨o, L, h1, h2, h3⟩ := hpre rs hv
  have htot : ∀ s, ∃ ts, m.tokenize s = .ok ts := by
    intro s
    cases h : m.tokenize s with
    | ok ts => exact ⟨ts, rfl⟩
    | error e => exact absurd ((C36_tiles m s).2.1 e h).2.1 hunk
  obtain ⟨tok, htok⟩ : ∃ tok : Str → List Token, ∀ s, m.tokenize s = .ok (tok s) :=
    ⟨fun s => match m.tokenize s with | .ok ts => ts | _ => [], by
      intro s
      obtain ⟨ts, h⟩ := htot s
      simp only [h]⟩
  obtain ⟨p, enc, k1, k2, k3⟩ := encode_words hv h2 (fun ns => .ok (m.tokenize ns.get)) (fun x => tok (encodeRunes x.2)) o w ty (by
    intro x hx hne hvx
    have := htok (encodeRunes x.2)
    exact ⟨by simp only [NS.get, copyOf, this], wordPiece_tiles m hval hne this⟩)
  refine ⟨_, p, enc, L, _, h1, k1, k2, h3, fun x _ => htok _, k3, ?_⟩
  intro row hrow
  obtain ⟨x, hx, t, ht, r1, r2, r3⟩ := mem_rowsOf hrow
  obtain ⟨-, post, e⟩ := h2.located x hx
  refine ⟨x, hx, ?_⟩
  rcases C37_whole_runes m hval x.2 _ (htok _) with ⟨id, hid, hu⟩ | hw
  · rw [hu] at ht
    rw [List.mem_singleton.1 ht] at r1 r2 r3
    exact .inl ⟨r2, by rw [r1]; exact hid, by rw [r3]; simp⟩
  · obtain ⟨y, y1, y2, y3⟩ := hw.value x.1 post (by simpa using e) t ht
    refine .inr ⟨y, by rw [r3]; exact y1, by rw [r1, r2]; exact y2, ?_⟩
    rw [r2, r3, y3]
    by_cases h0 : t.offsets.start = 0
    · rw [if_pos h0, if_pos (by simp only; omega)]
    · rw [if_neg h0, if_neg (by simp only; omega)]

theorem WordsOf.keeps {keep : Rune → Bool} {rs : List Rune} {L : List (List Rune × List Rune)} (h : WordsOf keep rs L) :
    ∀ x ∈ L, ∀ r ∈ x.2, r ∈ rs ∧ keep r = true := by
  intro x hx r hr
  have : r ∈ L.flatMap (·.2) := List.mem_flatMap.2 ⟨x, hx, hr⟩
  rw [h.complete] at this
  exact List.mem_filter.1 this

theorem covered_word {keep : Rune → Bool} {rs : List Rune} {L : List (List Rune × List Rune)} (h : WordsOf keep rs L)
    (hv : ∀ r ∈ rs, ValidRune r) (m : BPE)
    (hcov : m.unknownToken ≠ [] ∨ ∀ r ∈ rs, keep r = true → ∀ i last, m.vocab.getID (m.lookupKey i last r) ≠ none) :
    ∀ x ∈ L, m.Covered (encodeRunes x.2) := by
  intro x hx
  refine hcov.imp id fun hc c hcm => ?_
  unfold BPE.lookups at hcm
  rw [List.mem_mapIdx] at hcm
  obtain ⟨i, hi, rfl⟩ := hcm
  have hr := h.keeps x hx
  rw [runesOf_encodeRunes x.2 fun r hr' => hv r (hr r hr').1] at hi
  have hm := hr _ (List.getElem_mem hi)
  simp only [runesOf_encodeRunes x.2 fun r hr' => hv r (hr r hr').1]
  exact hc _ hm.1 hm.2 _ _

/-- **C64, BPE.** The same with BPE, for every dropout outcome in every word, if the vocabulary
knows the term of every id it or the merge table hands out, and an unknown token is configured or
every kept character of the input is in the vocabulary. -/
theorem C64_bpe {pre : PreTokenizer} {keep : Rune → Bool} {P : List Rune → List (List Rune × List Rune) → Prop}
    (hpre : CutsWords pre keep P) (m : BPE) (rnd : NS → Nat → Bool)
    (hvoc : ∀ t i, m.vocab.getID t = some i → m.vocab.getString i ≠ none)
    (hm : ∀ a b v, m.merges.get a b = some v → m.vocab.getString v.id ≠ none)
    (hunk : m.unknownToken ≠ [] → m.vocab.getID m.unknownToken ≠ none)
    (rs : List Rune) (hv : ∀ r ∈ rs, ValidRune r)
    (hcov : m.unknownToken ≠ [] ∨ ∀ r ∈ rs, keep r = true → ∀ i last, m.vocab.getID (m.lookupKey i last r) ≠ none)
    (w ty : Int) :
    ∃ p1 p2 enc L T, pre (PTS.fromString (encodeRunes rs)) = .ok (p1, none)
      ∧ p1.tokenize (m.tokenizeNS rnd) = .ok (p2, none)
      ∧ p2.intoEncoding w ty = .ok (.ok enc)
      ∧ P rs L ∧ (∀ x ∈ L, m.tokenize (rnd (copyOf x.1 x.2)) (encodeRunes x.2) = .ok (.ok (some (T x))))
      ∧ EncodesWords keep rs T w ty L enc := by
  obtain ⟨o, L, h1, h2, h3⟩ := hpre rs hv
  obtain ⟨tok, htok⟩ : ∃ tok : NS → List Token, ∀ ns, m.tokenize (rnd ns) ns.get = .ok (.ok (some (tok ns))) :=
    ⟨fun ns => match m.tokenize (rnd ns) ns.get with | .ok (.ok (some ts)) => ts | _ => [], by
      intro ns
      obtain ⟨ts, h⟩ := BPE.C44_success m (rnd ns) ns.get hvoc hm hunk
      simp only [h]⟩
  obtain ⟨p, enc, k1, k2, k3⟩ := encode_words hv h2 (m.tokenizeNS rnd) (fun x => tok (copyOf x.1 x.2)) o w ty (by
    intro x hx hne hvx
    have := htok (copyOf x.1 x.2)
    exact ⟨by simp only [BPE.tokenizeNS, this, GoM.bind_ok]; rfl, bpe_tiles m _ hvx (covered_word h2 hv m hcov x hx) this⟩)
  exact ⟨_, p, enc, L, _, h1, k1, k2, h3, fun x _ => htok (copyOf x.1 x.2), k3⟩

/-- **C64, BPE values.** If moreover there are no affixes, every kept character is in the
vocabulary, and the vocabulary and the merge table spell (as `C45_values` asks), the tokens of the
encoding are the text of the input at their offsets: put together they are the kept text. -/
theorem C64_bpe_values {pre : PreTokenizer} {keep : Rune → Bool} {P : List Rune → List (List Rune × List Rune) → Prop}
    (hpre : CutsWords pre keep P) (m : BPE) (rnd : NS → Nat → Bool)
    (hp : m.continuingSubwordPrefix = []) (he : m.endOfWordSuffix = [])
    (hvoc : ∀ t i, m.vocab.getID t = some i → m.vocab.getString i = some t)
    (hm : ∀ a b v, m.merges.get a b = some v → m.vocab.getString v.id ≠ none) (hsp : BPE.Spells m.vocab m.merges)
    (hunk : m.unknownToken ≠ [] → m.vocab.getID m.unknownToken ≠ none)
    (rs : List Rune) (hv : ∀ r ∈ rs, ValidRune r)
    (hall : ∀ r ∈ rs, keep r = true → m.vocab.getID (encodeRune r) ≠ none) (w ty : Int) :
    ∃ p1 p2 enc, pre (PTS.fromString (encodeRunes rs)) = .ok (p1, none)
      ∧ p1.tokenize (m.tokenizeNS rnd) = .ok (p2, none)
      ∧ p2.intoEncoding w ty = .ok (.ok enc)
      ∧ All2 (fun o t => goSlice (encodeRunes rs) o.start o.stop = .ok t) enc.offsets enc.tokens
      ∧ enc.tokens.flatten = encodeRunes (rs.filter keep) := by
  have hkey : ∀ i last r, m.lookupKey i last r = encodeRune r := by
    intro i last r
    simp [BPE.lookupKey, BPE.hasContinuingSubwordPrefix, BPE.hasEndOfWordSuffix, hp, he]
  obtain ⟨p1, p2, enc, L, T, h1, h2, h3, h4, h5, h6, h7⟩ := C64_bpe (P := fun rs L => P rs L ∧ WordsOf keep rs L)
    (by
      intro rs hv
      obtain ⟨o, L, a, b, c⟩ := hpre rs hv
      exact ⟨o, L, a, b, c, b⟩) m rnd
    (fun t i h => by rw [hvoc t i h]; simp) hm hunk rs hv (.inr fun r hr hk i last => by rw [hkey]; exact hall r hr hk) w ty
  have hrow : ∀ row ∈ rowsOf T w ty 0 L,
      goSlice (encodeRunes rs) row.offsets.start row.offsets.stop = .ok row.token := by
    intro row hrow
    obtain ⟨x, hx, t, ht, -, r2, r3⟩ := mem_rowsOf hrow
    have hk := h4.2.keeps x hx
    have hvx : ∀ r ∈ x.2, ValidRune r := fun r hr => hv r (hk r hr).1
    obtain ⟨-, post, e⟩ := h4.2.located x hx
    have := BPE.C45_values m _ (encodeRunes x.2) ⟨x.2, hvx, rfl⟩ hp he (by
      rw [runesOf_encodeRunes x.2 hvx]
      exact fun r hr => hall r (hk r hr).1 (hk r hr).2) hvoc hsp (h5 x hx) t ht
    rw [r3, r2, e, encodeRunes_append, encodeRunes_append]
    exact goSlice_inside _ _ _ this
  have hall2 : All2 (fun o t => goSlice (encodeRunes rs) o.start o.stop = .ok t) enc.offsets enc.tokens := by
    rw [h6.offsets, h6.tokens]
    generalize rowsOf T w ty 0 L = rows at hrow
    induction rows with
    | nil => exact .nil
    | cons row rows ih => exact .cons (hrow row (by simp)) (ih fun r hr => hrow r (by simp [hr]))
  refine ⟨p1, p2, enc, h1, h2, h3, hall2, ?_⟩
  obtain ⟨ys, y1, y2⟩ := h7.text
  rw [← y2]
  congr 1
  clear h7 y2 h6
  generalize enc.offsets = os at hall2 y1
  generalize enc.tokens = ts at hall2
  induction y1 generalizing ts with
  | nil => cases hall2; rfl
  | cons h _ ih =>
    cases hall2 with
    | cons h' t' =>
      rw [h] at h'
      rw [ih _ t']
      cases h'; rfl

/-- Non-vacuity, WordPiece: "Hé! xy" cut by the BERT pre-tokenizer; `xy` is unknown. -/
example :
    let m : WordPiece := ⟨Vocab.fromJSON (some [(b!"[UNK]", 0), (b!"H", 1), (b!"##é", 2), (b!"!", 3)]) [],
      b!"[UNK]", b!"##", 100⟩
    ((bertPreTokenize ⟨fun _ => false, fun _ => false, fun r => r == u!"!", id⟩ (PTS.fromString b!"Hé! xy")).bind fun r =>
      (r.1.tokenize fun ns => .ok (m.tokenize ns.get)).bind fun r => r.1.intoEncoding (-1) 7)
    = .ok (.ok ⟨[1, 2, 3, 0], [7, 7, 7, 7], [b!"H", b!"##é", b!"!", b!"[UNK]"], [0, 0, 1, 2],
        [⟨0, 1⟩, ⟨1, 3⟩, ⟨3, 4⟩, ⟨5, 7⟩], [0, 0, 0, 0], [1, 1, 1, 1]⟩) := by decide +kernel

/-- Non-vacuity, BPE: "ab xa" cut at white space. -/
example :
    ((whiteSpaceSplit (PTS.fromString b!"ab xa")).bind fun r =>
      (r.1.tokenize ((BPE.sample b!"<unk>" true).tokenizeNS fun _ _ => false)).bind fun r => r.1.intoEncoding (-1) 0)
    = .ok (.ok ⟨[3, 0, 1], [0, 0, 0], [b!"ab", b!"<unk>", b!"a"], [0, 1, 1],
        [⟨0, 2⟩, ⟨3, 4⟩, ⟨4, 5⟩], [0, 0, 0], [1, 1, 1]⟩) := by decide +kernel

end Verif
