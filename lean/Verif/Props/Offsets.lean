import Verif.Props.Pipeline
import Verif.Props.Split

/-! Property C63: the offsets of an encoding do not depend on how the text was split. -/

set_option autoImplicit false

namespace Verif

/-! ## Specification -/

/-- The token, `d` bytes further to the right. -/
def Token.moved (d : Int) (t : Token) : Token := ⟨t.id, t.value, ⟨d + t.offsets.start, d + t.offsets.stop⟩⟩

/-- Neither end of `o'` comes before that of `o`. -/
def NotBefore (o o' : ByteOffsets) : Prop := o.start ≤ o'.start ∧ o.stop ≤ o'.stop

/-- Every split has tokens, each on a non-empty in-range part of its text. -/
def Tokenized (p : PTS) : Prop := ∀ sp ∈ p.splits, ∃ ts, sp.tokens = some ts ∧ ∀ t ∈ ts, WellPlaced sp.ns t

/-- The tokens of all the splits as tokens of the unsplit text, where the split over the range `r`
stands `r.1` bytes into the text. -/
def allMoved (rs : List (Int × Int)) (splits : List Piece) : List Token :=
  (rs.zip splits).flatMap fun x => (x.2.tokens.getD []).map (Token.moved x.1.1)

/-- The two encodings agree in everything but the word numbers. -/
structure SameButWords (e e' : Encoding) : Prop where
  ids : e.ids = e'.ids
  typeIDs : e.typeIDs = e'.typeIDs
  tokens : e.tokens = e'.tokens
  offsets : e.offsets = e'.offsets
  special : e.specialTokensMask = e'.specialTokensMask
  attention : e.attentionMask = e'.attentionMask

/-! ## Offsets of one token -/

theorem tokenOffsets_eq {ns : NS} (hwf : WF ns) {t : Token} (h : WellPlaced ns t) :
    ∃ f l, ns.alignments[t.offsets.start.toNat]? = some f ∧ ns.alignments[(t.offsets.stop - 1).toNat]? = some l
      ∧ PTS.tokenOffsets ns t = .ok ⟨ns.originalShift + f.start, ns.originalShift + l.stop⟩ := by
  obtain ⟨h0, h1, h2⟩ := h
  have hlen := hwf.len
  simp only [NS.get] at h2
  obtain ⟨f, l, e1, e2, e3⟩ := coerceRangeToOriginal_normalized (ns := ns) h0 h1 (by omega)
  exact ⟨f, l, e1, e2, by simp [PTS.tokenOffsets, e3, NS.originalOffsets]⟩

theorem tokenOffsets_mono {ns : NS} (hwf : WF ns) {t t' : Token} (h : WellPlaced ns t) (h' : WellPlaced ns t')
    (hb : NotBefore t.offsets t'.offsets) {o o' : ByteOffsets} (ho : PTS.tokenOffsets ns t = .ok o)
    (ho' : PTS.tokenOffsets ns t' = .ok o') : NotBefore o o' := by
  obtain ⟨f, l, e1, e2, e3⟩ := tokenOffsets_eq hwf h
  obtain ⟨f', l', e1', e2', e3'⟩ := tokenOffsets_eq hwf h'
  rw [ho] at e3; rw [ho'] at e3'
  simp only [GoM.ok.injEq] at e3 e3'
  subst e3; subst e3'
  obtain ⟨a0, a1, a2⟩ := h
  obtain ⟨b0, b1, b2⟩ := h'
  obtain ⟨c1, c2⟩ := hb
  obtain ⟨k1, k2⟩ := List.getElem?_eq_some_iff.1 e1
  obtain ⟨k3, k4⟩ := List.getElem?_eq_some_iff.1 e2
  obtain ⟨k5, k6⟩ := List.getElem?_eq_some_iff.1 e1'
  obtain ⟨k7, k8⟩ := List.getElem?_eq_some_iff.1 e2'
  have r1 : AlignLE f f' := by rw [← k2, ← k6]; exact hwf.getElem_le (by omega) k5
  have r2 : AlignLE l l' := by rw [← k4, ← k8]; exact hwf.getElem_le (by omega) k7
  have bf := hwf.bounds f (k2 ▸ List.getElem_mem k1)
  have bl := hwf.bounds l' (k8 ▸ List.getElem_mem k7)
  have := r1.start_le bf.2.1
  have := r2.stop_le bl.2.1
  constructor <;> (simp only; omega)

/-- A token of a slice has the offsets of the same token of the whole. -/
theorem tokenOffsets_slice {ns leaf : NS} {r : Int × Int} (hwf : WF ns) (h : IsSlice ns r leaf)
    (hle : r.2 ≤ ns.normalized.length) {t : Token} (ht : WellPlaced leaf t) :
    WellPlaced ns (t.moved r.1) ∧ (t.moved r.1).offsets.stop ≤ r.2 ∧ r.1 ≤ (t.moved r.1).offsets.start
      ∧ PTS.tokenOffsets leaf t = PTS.tokenOffsets ns (t.moved r.1) := by
  have hwl := slice_wf hwf h.2
  obtain ⟨hlt, hs⟩ := h
  obtain ⟨hv, -⟩ := slice_ok hs
  simp only [NS.rangeIsValid, Rng.start, Rng.stop, Bool.and_eq_true] at hv
  have h0 := (isRuneBoundary_bounds hv.1).1
  obtain ⟨f, l, e1, e2, b1, b2, b3, -, e4⟩ := slice_normalized hwf hv.1 hv.2 hlt
  rw [hs] at e4
  simp only [GoM.ok.injEq, Option.some.injEq] at e4
  have hlen := hwf.len
  have hn : (leaf.normalized.length : Int) = r.2 - r.1 := by rw [e4]; simp; omega
  have ht' := ht
  obtain ⟨t0, t1, t2⟩ := ht
  simp only [NS.get, hn] at t2
  have hw : WellPlaced ns (t.moved r.1) := by
    refine ⟨?_, ?_, ?_⟩ <;> simp only [Token.moved, NS.get] <;> omega
  refine ⟨hw, by simp only [Token.moved]; omega, by simp only [Token.moved]; omega, ?_⟩
  obtain ⟨g, k, g1, g2, g3⟩ := tokenOffsets_eq hwl ht'
  obtain ⟨g', k', g1', g2', g3'⟩ := tokenOffsets_eq hwf hw
  rw [g3, g3']
  rw [e4] at g1 g2
  simp only [List.getElem?_map, List.getElem?_take, List.getElem?_drop] at g1 g2
  rw [if_pos (by omega), show r.1.toNat + t.offsets.start.toNat = (t.moved r.1).offsets.start.toNat by
    simp only [Token.moved]; omega, g1'] at g1
  rw [if_pos (by omega), show r.1.toNat + (t.offsets.stop - 1).toNat = ((t.moved r.1).offsets.stop - 1).toNat by
    simp only [Token.moved]; omega, g2'] at g2
  simp only [Option.map_some, Option.some.injEq] at g1 g2
  subst g1; subst g2
  rw [e4]
  simp only [GoM.ok.injEq, ByteOffsets.mk.injEq]
  constructor <;> omega

/-! ## The whole encoding -/

/-- A row without its word number. -/
def EncodableToken.noWord (x : EncodableToken) : EncodableToken := { x with wordIndex := 0 }

theorem encodeTokens_moved {ns leaf : NS} {r : Int × Int} (hwf : WF ns) (h : IsSlice ns r leaf)
    (hle : r.2 ≤ ns.normalized.length) (w w' ty : Int) : ∀ (ts : List Token), (∀ t ∈ ts, WellPlaced leaf t) →
    ∃ s s', PTS.encodeTokens leaf w ty ts = .ok s ∧ PTS.encodeTokens ns w' ty (ts.map (Token.moved r.1)) = .ok s'
      ∧ s.map EncodableToken.noWord = s'.map EncodableToken.noWord := by
  intro ts
  induction ts with
  | nil => intro _; exact ⟨[], [], rfl, rfl, rfl⟩
  | cons t ts ih =>
    intro ht
    obtain ⟨s, s', h1, h2, h3⟩ := ih fun x hx => ht x (by simp [hx])
    obtain ⟨k1, -, -, k2⟩ := tokenOffsets_slice hwf h hle (ht t (by simp))
    obtain ⟨f, l, -, -, ho⟩ := tokenOffsets_eq hwf k1
    generalize ByteOffsets.mk (ns.originalShift + f.start) (ns.originalShift + l.stop) = o at ho
    refine ⟨⟨t.id, t.value, o, w, ty⟩ :: s, ⟨t.id, t.value, o, w', ty⟩ :: s', ?_, ?_, ?_⟩
    · simp only [PTS.encodeTokens, k2, ho, h1, GoM.bind_ok]; rfl
    · simp only [List.map_cons, PTS.encodeTokens, ho, h2, GoM.bind_ok]; rfl
    · simp [EncodableToken.noWord, h3]

theorem encodeTokens_append {ns : NS} {w ty : Int} {a b : List Token} {s t : List EncodableToken}
    (ha : PTS.encodeTokens ns w ty a = .ok s) (hb : PTS.encodeTokens ns w ty b = .ok t) :
    PTS.encodeTokens ns w ty (a ++ b) = .ok (s ++ t) := by
  induction a generalizing s with
  | nil => cases ha; exact hb
  | cons x a ih =>
    simp only [PTS.encodeTokens, List.cons_append] at ha ⊢
    cases ho : PTS.tokenOffsets ns x with
    | panic => rw [ho] at ha; cases ha
    | ok o =>
      cases hr : PTS.encodeTokens ns w ty a with
      | panic => rw [ho, hr] at ha; cases ha
      | ok r =>
        rw [ho, hr] at ha
        cases ha
        simp only [ih hr, GoM.bind_ok]
        rfl

theorem encodeSplits_moved {ns : NS} (hwf : WF ns) (w w' ty : Int) {rs : List (Int × Int)} {sps : List Piece}
    (h : All2 (fun r (sp : Piece) => IsSlice ns r sp.ns) rs sps) (hle : ∀ r ∈ rs, r.2 ≤ ns.normalized.length)
    (ht : ∀ sp ∈ sps, ∃ ts, sp.tokens = some ts ∧ ∀ t ∈ ts, WellPlaced sp.ns t) (i : Nat) :
    ∃ s s', PTS.encodeSplits w ty i sps = .ok s ∧ PTS.encodeTokens ns w' ty (allMoved rs sps) = .ok s'
      ∧ s.map EncodableToken.noWord = s'.map EncodableToken.noWord := by
  induction h generalizing i with
  | nil => exact ⟨[], [], rfl, rfl, rfl⟩
  | @cons r sp rs sps h1 _ ih =>
    obtain ⟨s, s', j1, j2, j3⟩ := ih (fun r hr => hle r (by simp [hr])) (fun x hx => ht x (by simp [hx])) (i + 1)
    obtain ⟨ts, e, hw⟩ := ht sp (by simp)
    obtain ⟨u, u', k1, k2, k3⟩ := encodeTokens_moved hwf h1 (hle r (by simp)) (if w < 0 then (i : Int) else w) w' ty ts hw
    refine ⟨u ++ s, u' ++ s', ?_, ?_, by simp [j3, k3]⟩
    · simp only [PTS.encodeSplits, e, Option.getD_some, k1, j1, GoM.bind_ok]; rfl
    · have := encodeTokens_append k2 j2
      simpa [allMoved, e] using this

theorem sameButWords {s s' : List EncodableToken} (h : s.map EncodableToken.noWord = s'.map EncodableToken.noWord) :
    SameButWords (Encoding.fromEncodableTokens s) (Encoding.fromEncodableTokens s') := by
  have g : ∀ {β : Type} (f : EncodableToken → β), (∀ x, f x.noWord = f x) → s.map f = s'.map f := by
    intro β f hf
    have := congrArg (List.map f) h
    simpa [Function.comp_def, hf] using this
  have a := hasRows_from s
  have b := hasRows_from s'
  exact ⟨by rw [a.ids, b.ids]; exact g _ fun _ => rfl, by rw [a.typeIDs, b.typeIDs]; exact g _ fun _ => rfl,
    by rw [a.tokens, b.tokens]; exact g _ fun _ => rfl, by rw [a.offsets, b.offsets]; exact g _ fun _ => rfl,
    by rw [a.special, b.special]; exact g _ fun _ => rfl, by rw [a.attention, b.attention]; exact g _ fun _ => rfl⟩

theorem splitTree_pieces {root : NS} {p : PTS} (h : SplitTree root (p.splits.map (·.ns))) :
    ∃ rs : List (Int × Int), All2 (fun r (sp : Piece) => IsSlice root r sp.ns) rs p.splits
      ∧ rs.Pairwise (fun r s => r.2 ≤ s.1) ∧ ∀ r ∈ rs, 0 ≤ r.1 ∧ r.2 ≤ root.normalized.length := by
  obtain ⟨rs, h1, h2⟩ := splitTree_ranges h
  refine ⟨rs, ?_, h2⟩
  generalize p.splits = sps at h1
  clear h h2
  induction sps generalizing rs with
  | nil => cases h1; exact .nil
  | cons sp sps ih =>
    cases h1 with
    | cons a b => exact .cons a (ih _ b)

/-- **C63, unsplit.** Splitting a text again and again and encoding the tokens of the pieces gives
the encoding of the same tokens, each moved by the position of its piece, on the unsplit text:
ids, tokens, offsets and masks agree, only the word numbers differ. -/
theorem C63_unsplit {root : NS} (hr : Reachable root) (p : PTS) (h : SplitTree root (p.splits.map (·.ns)))
    (ht : Tokenized p) (w w' ty : Int) :
    ∃ rs enc enc', All2 (fun r (sp : Piece) => IsSlice root r sp.ns) rs p.splits
      ∧ p.intoEncoding w ty = .ok (.ok enc)
      ∧ (PTS.mk root.original [⟨root, some (allMoved rs p.splits)⟩]).intoEncoding w' ty = .ok (.ok enc')
      ∧ SameButWords enc enc' := by
  obtain ⟨rs, h1, -, h3⟩ := splitTree_pieces h
  obtain ⟨s, s', e1, e2, e3⟩ := encodeSplits_moved hr.wf w (if w' < 0 then ((0 : Nat) : Int) else w') ty h1
    (fun r hr => (h3 r hr).2) ht 0
  refine ⟨rs, Encoding.fromEncodableTokens s, Encoding.fromEncodableTokens s', h1, ?_, ?_, sameButWords e3⟩
  · unfold PTS.intoEncoding
    by_cases hL : p.splits = []
    · rw [hL] at e1 ⊢; cases e1; rfl
    · have ha : p.allSplitsHaveTokens = true := by
        apply List.all_eq_true.2
        intro sp hsp
        obtain ⟨ts, e, -⟩ := ht sp hsp
        simp [e]
      rw [if_neg (by simpa using hL), if_neg (by simp [ha]), e1]
      rfl
  · unfold PTS.intoEncoding
    rw [if_neg (by simp), if_neg (by simp [PTS.allSplitsHaveTokens])]
    simp only [PTS.encodeSplits, Option.getD_some, e2, GoM.bind_ok]
    simp [Pure.pure]

theorem encodeTokens_mono {ns : NS} (hwf : WF ns) {w ty : Int} {ts : List Token} (ht : ∀ t ∈ ts, WellPlaced ns t)
    (hp : ts.Pairwise fun t t' => NotBefore t.offsets t'.offsets) {s : List EncodableToken}
    (h : PTS.encodeTokens ns w ty ts = .ok s) :
    (s.map (·.offsets)).Pairwise NotBefore ∧ All2 (fun t (x : EncodableToken) => PTS.tokenOffsets ns t = .ok x.offsets) ts s := by
  induction ts generalizing s with
  | nil => cases h; exact ⟨.nil, .nil⟩
  | cons x a ih =>
    simp only [PTS.encodeTokens] at h
    cases ho : PTS.tokenOffsets ns x with
    | panic => rw [ho] at h; cases h
    | ok o =>
      cases hr : PTS.encodeTokens ns w ty a with
      | panic => rw [ho, hr] at h; cases h
      | ok r =>
        rw [ho, hr] at h
        cases h
        rw [List.pairwise_cons] at hp
        obtain ⟨i1, i2⟩ := ih (fun t h => ht t (by simp [h])) hp.2 hr
        refine ⟨?_, .cons ho i2⟩
        rw [List.map_cons, List.pairwise_cons]
        refine ⟨?_, i1⟩
        intro o' ho'
        obtain ⟨y, hy, rfl⟩ := List.mem_map.1 ho'
        obtain ⟨t', ht', hty⟩ := i2.exists_left hy
        exact tokenOffsets_mono hwf (ht x (by simp)) (ht t' (by simp [ht'])) (hp.1 t' ht') ho hty

theorem allMoved_order {ns : NS} (hwf : WF ns) {rs : List (Int × Int)} {sps : List Piece}
    (h : All2 (fun r (sp : Piece) => IsSlice ns r sp.ns) rs sps) (hle : ∀ r ∈ rs, r.2 ≤ ns.normalized.length)
    (hord : rs.Pairwise fun r s => r.2 ≤ s.1)
    (ht : ∀ sp ∈ sps, ∃ ts, sp.tokens = some ts ∧ (∀ t ∈ ts, WellPlaced sp.ns t)
      ∧ ts.Pairwise fun t t' => NotBefore t.offsets t'.offsets) :
    (∀ t ∈ allMoved rs sps, WellPlaced ns t ∧ ∃ r ∈ rs, r.1 ≤ t.offsets.start ∧ t.offsets.stop ≤ r.2)
    ∧ (allMoved rs sps).Pairwise fun t t' => NotBefore t.offsets t'.offsets := by
  induction h with
  | nil => exact ⟨by simp [allMoved], by simp [allMoved]⟩
  | @cons r sp rs sps h1 _ ih =>
    rw [List.pairwise_cons] at hord
    obtain ⟨i1, i2⟩ := ih (fun r hr => hle r (by simp [hr])) hord.2 (fun x hx => ht x (by simp [hx]))
    obtain ⟨ts, e, hw, hp⟩ := ht sp (by simp)
    have he : allMoved (r :: rs) (sp :: sps) = ts.map (Token.moved r.1) ++ allMoved rs sps := by
      simp [allMoved, e]
    have hx := fun t (h : t ∈ ts) => tokenOffsets_slice hwf h1 (hle r (by simp)) (hw t h)
    rw [he]
    refine ⟨?_, ?_⟩
    · intro t htm
      rcases List.mem_append.1 htm with htm | htm
      · obtain ⟨t, ht', rfl⟩ := List.mem_map.1 htm
        obtain ⟨a, b, c, -⟩ := hx t ht'
        exact ⟨a, r, by simp, c, b⟩
      · obtain ⟨a, q, b, c⟩ := i1 t htm
        exact ⟨a, q, by simp [b], c⟩
    · rw [List.pairwise_append]
      refine ⟨?_, i2, ?_⟩
      · rw [List.pairwise_map]
        exact hp.imp fun h => by
          obtain ⟨h1, h2⟩ := h
          constructor <;> simp only [Token.moved] <;> omega
      · intro a ha b hb
        obtain ⟨t, ht', rfl⟩ := List.mem_map.1 ha
        obtain ⟨a0, a1, a2, -⟩ := hx t ht'
        obtain ⟨b0, q, hq, b1, b2⟩ := i1 b hb
        have := hord.1 q hq
        have := a0.2.1
        have := b0.2.1
        constructor <;> omega

/-- **C63, order.** If moreover the tokens of each split are in order, the offsets of the encoding
are in order through the whole text (starts and ends both non-decreasing). -/
theorem C63_order {root : NS} (hr : Reachable root) (p : PTS) (h : SplitTree root (p.splits.map (·.ns)))
    (ht : ∀ sp ∈ p.splits, ∃ ts, sp.tokens = some ts ∧ (∀ t ∈ ts, WellPlaced sp.ns t)
      ∧ ts.Pairwise fun t t' => NotBefore t.offsets t'.offsets) (w ty : Int) :
    ∃ enc, p.intoEncoding w ty = .ok (.ok enc) ∧ enc.offsets.Pairwise NotBefore := by
  obtain ⟨rs, h1, h2, h3⟩ := splitTree_pieces h
  have htok : Tokenized p := fun sp hsp => by
    obtain ⟨ts, a, b, -⟩ := ht sp hsp
    exact ⟨ts, a, b⟩
  obtain ⟨s, s', e1, e2, e3⟩ := encodeSplits_moved hr.wf w 0 ty h1 (fun r hr => (h3 r hr).2) htok 0
  obtain ⟨o1, o2⟩ := allMoved_order hr.wf h1 (fun r hr => (h3 r hr).2) h2 ht
  obtain ⟨m1, -⟩ := encodeTokens_mono hr.wf (fun t h => (o1 t h).1) o2 e2
  refine ⟨Encoding.fromEncodableTokens s, ?_, ?_⟩
  · unfold PTS.intoEncoding
    by_cases hL : p.splits = []
    · rw [hL] at e1 ⊢; cases e1; rfl
    · have ha : p.allSplitsHaveTokens = true := by
        apply List.all_eq_true.2
        intro sp hsp
        obtain ⟨ts, e, -⟩ := ht sp hsp
        simp [e]
      rw [if_neg (by simpa using hL), if_neg (by simp [ha]), e1]
      rfl
  · rw [(sameButWords e3).offsets, (hasRows_from s').offsets]
    exact m1

/-! ## The two models on split texts -/

theorem isSlice_ne {ns leaf : NS} {r : Int × Int} (h : IsSlice ns r leaf) (hwf : WF ns) : leaf.normalized ≠ [] := by
  obtain ⟨hlt, hs⟩ := h
  obtain ⟨hv, -⟩ := slice_ok hs
  simp only [NS.rangeIsValid, Rng.start, Rng.stop, Bool.and_eq_true] at hv
  have h0 := isRuneBoundary_bounds hv.1
  have h1 := isRuneBoundary_bounds hv.2
  obtain ⟨f, l, -, -, -, -, -, -, e4⟩ := slice_normalized hwf hv.1 hv.2 hlt
  rw [hs] at e4
  simp only [GoM.ok.injEq, Option.some.injEq] at e4
  rw [e4]
  apply List.ne_nil_of_length_pos
  simp; omega

/-- Contiguous non-empty tokens from `a` to `b`. -/
theorem contiguous_order {S : Int → List Token → Prop} {n : Int}
    (hcons : ∀ a t ts, S a (t :: ts) → t.offsets.start = a ∧ a < t.offsets.stop ∧ t.offsets.stop ≤ n ∧ S t.offsets.stop ts)
    {ts : List Token} {a : Int} (h : S a ts) :
    (∀ t ∈ ts, a ≤ t.offsets.start ∧ t.offsets.start < t.offsets.stop ∧ t.offsets.stop ≤ n)
      ∧ ts.Pairwise fun t t' => NotBefore t.offsets t'.offsets := by
  induction ts generalizing a with
  | nil => exact ⟨by simp, .nil⟩
  | cons t ts ih =>
    obtain ⟨h1, h2, h3, h4⟩ := hcons a t ts h
    obtain ⟨i1, i2⟩ := ih h4
    refine ⟨?_, ?_⟩
    · intro t' ht'
      rcases List.mem_cons.1 ht' with rfl | ht'
      · omega
      · have := i1 t' ht'; omega
    · rw [List.pairwise_cons]
      refine ⟨?_, i2⟩
      intro t' ht'
      have := i1 t' ht'
      constructor <;> omega

theorem wordPiece_order (m : WordPiece) {s : Str} (hs : s ≠ []) {ts : List Token} (h : m.tokenize s = .ok ts) :
    (∀ t ∈ ts, 0 ≤ t.offsets.start ∧ t.offsets.start < t.offsets.stop ∧ t.offsets.stop ≤ s.length)
      ∧ ts.Pairwise fun t t' => NotBefore t.offsets t'.offsets := by
  have hpos := List.length_pos_iff.2 hs
  rcases (C36_tiles m s).1 ts h with ⟨id, -, rfl⟩ | ⟨-, h⟩
  · exact ⟨by simp; omega, by simp⟩
  · exact contiguous_order (S := fun a ts => ∃ i : Nat, a = i ∧ WordPiece.Tiles m s i ts) (n := s.length)
      (by
        rintro a t ts ⟨i, rfl, stop, h1, h2, h3, -, -, h4⟩
        rw [h1]
        exact ⟨rfl, by simp only; omega, by simp only; omega, stop, rfl, h4⟩) ⟨0, rfl, h⟩

theorem bpe_order (m : BPE) (rnd : Nat → Bool) {s : Str} (hv : ValidUtf8 s) (hc : m.Covered s)
    {ts : List Token} (h : m.tokenize rnd s = .ok (.ok (some ts))) :
    (∀ t ∈ ts, 0 ≤ t.offsets.start ∧ t.offsets.start < t.offsets.stop ∧ t.offsets.stop ≤ s.length)
      ∧ ts.Pairwise fun t t' => NotBefore t.offsets t'.offsets := by
  have hle : ∀ (ts : List Token) (a b : Int), BPE.TokenTiles m.vocab a ts b → a ≤ b := by
    intro ts
    induction ts with
    | nil => intro a b h; simp only [BPE.TokenTiles] at h; omega
    | cons t ts ih =>
      rintro a b ⟨h1, h2, -, h4⟩
      have := ih _ _ h4
      omega
  exact contiguous_order (S := fun a ts => BPE.TokenTiles m.vocab a ts s.length) (n := s.length)
    (by
      rintro a t ts ⟨h1, h2, -, h4⟩
      exact ⟨h1, h2, hle _ _ _ h4, h4⟩) (BPE.C44_tiles m rnd s hv hc h)

theorem Reachable.slice {ns leaf : NS} (h : Reachable ns) {r : Rng} (hs : ns.slice r = .ok (some leaf)) : Reachable leaf := by
  obtain ⟨s, hv, e⟩ := h
  exact ⟨s, hv, .call (op := .slice r) e (by simp only [Op.run, hs]; rfl)⟩

/-- Tokenizing and encoding splits of a text with a function that gives tokens in order. -/
theorem encode_splitTree {root : NS} (hr : Reachable root) (p : PTS) (h : SplitTree root (p.splits.map (·.ns)))
    (hn : ∀ sp ∈ p.splits, sp.tokens = none) (f : NS → GoM (Except Err (List Token))) (ts : NS → List Token)
    (hf : ∀ sp ∈ p.splits, sp.ns.normalized ≠ [] → f sp.ns = .ok (.ok (ts sp.ns))
      ∧ (∀ t ∈ ts sp.ns, WellPlaced sp.ns t) ∧ (ts sp.ns).Pairwise fun t t' => NotBefore t.offsets t'.offsets)
    (w ty : Int) :
    ∃ p' enc, p.tokenize f = .ok (p', none) ∧ p'.intoEncoding w ty = .ok (.ok enc)
      ∧ p'.splits = p.splits.map (fun sp => ⟨sp.ns, some (ts sp.ns)⟩)
      ∧ All2 (fun o (en : Entry) => LocatesToken en.piece.ns en.token o) enc.offsets (entries w 0 p'.splits)
      ∧ enc.offsets.Pairwise NotBefore := by
  obtain ⟨rs, h1, h2, h3⟩ := splitTree_pieces h
  have hne : ∀ sp ∈ p.splits, sp.ns.normalized ≠ [] := by
    intro sp hsp
    obtain ⟨r, -, hs⟩ := h1.exists_left hsp
    exact isSlice_ne hs hr.wf
  have htok := C58_tokenize_ok p f ts fun sp hsp _ => (hf sp hsp (hne sp hsp)).1
  have e : p.splits.map (withTokens ts) = p.splits.map (fun sp => ⟨sp.ns, some (ts sp.ns)⟩) := by
    refine List.map_congr_left fun sp hsp => ?_
    simp [withTokens, hn sp hsp]
  rw [e] at htok
  have hns : (p.splits.map (fun sp : Piece => (⟨sp.ns, some (ts sp.ns)⟩ : Piece))).map (·.ns) = p.splits.map (·.ns) := by
    simp [Function.comp_def]
  have hall : ∀ sp ∈ p.splits.map (fun sp : Piece => (⟨sp.ns, some (ts sp.ns)⟩ : Piece)), ∃ us, sp.tokens = some us
      ∧ (∀ t ∈ us, WellPlaced sp.ns t) ∧ us.Pairwise fun t t' => NotBefore t.offsets t'.offsets := by
    intro sp hsp
    obtain ⟨q, hq, rfl⟩ := List.mem_map.1 hsp
    obtain ⟨-, a, b⟩ := hf q hq (hne q hq)
    exact ⟨_, rfl, a, b⟩
  obtain ⟨enc, he, ho⟩ := C63_order hr ⟨p.original, p.splits.map (fun sp : Piece => (⟨sp.ns, some (ts sp.ns)⟩ : Piece))⟩
    (by rw [hns]; exact h) hall w ty
  obtain ⟨enc', he', hl⟩ := C28_encoding_offsets ⟨p.original, p.splits.map (fun sp : Piece => (⟨sp.ns, some (ts sp.ns)⟩ : Piece))⟩ w ty
    (by
      intro sp hsp
      obtain ⟨q, hq, rfl⟩ := List.mem_map.1 hsp
      obtain ⟨r, -, hs⟩ := h1.exists_left hq
      exact hr.slice hs.2)
    (by
      intro sp hsp
      obtain ⟨us, a, b, -⟩ := hall sp hsp
      exact ⟨us, a, b⟩)
  rw [he] at he'
  simp only [GoM.ok.injEq, Except.ok.injEq] at he'
  subst he'
  exact ⟨_, enc, htok, he, rfl, hl, ho⟩

/-- **C63, WordPiece.** For every reachable text, split in any way into pieces, WordPiece with the
unknown token in its vocabulary and `IntoEncoding` succeed; every offset selects the original text
of its token, and the offsets are in order. -/
theorem C63_wordPiece {root : NS} (hr : Reachable root) (p : PTS) (h : SplitTree root (p.splits.map (·.ns)))
    (hn : ∀ sp ∈ p.splits, sp.tokens = none) (m : WordPiece) (hunk : m.vocab.getID m.unknownToken ≠ none) (w ty : Int) :
    ∃ p' enc, p.tokenize (fun ns => .ok (m.tokenize ns.get)) = .ok (p', none) ∧ p'.intoEncoding w ty = .ok (.ok enc)
      ∧ All2 (fun (sp' sp : Piece) => sp'.ns = sp.ns ∧ ∃ ts, sp'.tokens = some ts ∧ m.tokenize sp.ns.get = .ok ts)
          p'.splits p.splits
      ∧ All2 (fun o (en : Entry) => LocatesToken en.piece.ns en.token o) enc.offsets (entries w 0 p'.splits)
      ∧ enc.offsets.Pairwise NotBefore := by
  obtain ⟨tok, htok⟩ : ∃ tok : Str → List Token, ∀ s, m.tokenize s = .ok (tok s) :=
    ⟨fun s => match m.tokenize s with | .ok ts => ts | _ => [], by
      intro s
      cases h : m.tokenize s with
      | ok ts => simp only [h]
      | error e => exact absurd ((C36_tiles m s).2.1 e h).2.1 hunk⟩
  obtain ⟨p', enc, h1, h2, h3, h4, h5⟩ := encode_splitTree hr p h hn (fun ns => .ok (m.tokenize ns.get))
    (fun ns => tok ns.get) (fun sp _ hne => by
      obtain ⟨a, b⟩ := wordPiece_order m (s := sp.ns.get) hne (htok _)
      exact ⟨by simp only [htok], a, b⟩) w ty
  refine ⟨p', enc, h1, h2, ?_, h4, h5⟩
  rw [h3]
  clear h1 h2 h3 h4 h5 h hn
  generalize p.splits = sps
  induction sps with
  | nil => exact .nil
  | cons sp sps ih => exact .cons ⟨rfl, _, rfl, htok _⟩ ih

/-- **C63, BPE.** The same for BPE, for every dropout outcome in every split, if the text of the
splits is valid UTF-8, the vocabulary knows the term of every id it or the merge table hands out,
and every character gets a symbol. -/
theorem C63_bpe {root : NS} (hr : Reachable root) (p : PTS) (h : SplitTree root (p.splits.map (·.ns)))
    (hn : ∀ sp ∈ p.splits, sp.tokens = none) (m : BPE) (rnd : NS → Nat → Bool)
    (hvoc : ∀ t i, m.vocab.getID t = some i → m.vocab.getString i ≠ none)
    (hm : ∀ a b v, m.merges.get a b = some v → m.vocab.getString v.id ≠ none)
    (hunk : m.unknownToken ≠ [] → m.vocab.getID m.unknownToken ≠ none)
    (hval : ∀ sp ∈ p.splits, ValidUtf8 sp.ns.get ∧ m.Covered sp.ns.get) (w ty : Int) :
    ∃ p' enc, p.tokenize (m.tokenizeNS rnd) = .ok (p', none) ∧ p'.intoEncoding w ty = .ok (.ok enc)
      ∧ All2 (fun (sp' sp : Piece) => sp'.ns = sp.ns ∧ ∃ ts, sp'.tokens = some ts
          ∧ m.tokenize (rnd sp.ns) sp.ns.get = .ok (.ok (some ts))) p'.splits p.splits
      ∧ All2 (fun o (en : Entry) => LocatesToken en.piece.ns en.token o) enc.offsets (entries w 0 p'.splits)
      ∧ enc.offsets.Pairwise NotBefore := by
  obtain ⟨tok, htok⟩ : ∃ tok : NS → List Token, ∀ ns, m.tokenize (rnd ns) ns.get = .ok (.ok (some (tok ns))) :=
    ⟨fun ns => match m.tokenize (rnd ns) ns.get with | .ok (.ok (some ts)) => ts | _ => [], by
      intro ns
      obtain ⟨ts, h⟩ := BPE.C44_success m (rnd ns) ns.get hvoc hm hunk
      simp only [h]⟩
  obtain ⟨p', enc, h1, h2, h3, h4, h5⟩ := encode_splitTree hr p h hn (m.tokenizeNS rnd) tok (fun sp hsp hne => by
      obtain ⟨a, b⟩ := bpe_order m (rnd sp.ns) (hval sp hsp).1 (hval sp hsp).2 (htok sp.ns)
      exact ⟨by simp only [BPE.tokenizeNS, htok, GoM.bind_ok]; rfl, a, b⟩) w ty
  refine ⟨p', enc, h1, h2, ?_, h4, h5⟩
  rw [h3]
  clear h1 h2 h3 h4 h5 h hn hval
  generalize p.splits = sps
  induction sps with
  | nil => exact .nil
  | cons sp sps ih => exact .cons ⟨rfl, _, rfl, htok _⟩ ih

/-! ## Splits made through `PreTokenizedString.Split` -/

/-- What the pre-tokenizers hand to `PreTokenizedString.Split`: split with a pattern. -/
def splitBy (pattern : SplitPattern) (b : Behavior) : SplitFunc := fun _ ns => do
  match ← ns.split pattern b with
  | .error e => pure (ns, .error e)
  | .ok pieces => pure (ns, .ok (splitsFromNormalizedStrings pieces))

/-- The pattern's captures tile the text of every split of `p`. -/
def TilesSplits (pattern : SplitPattern) (p : PTS) : Prop :=
  ∀ sp ∈ p.splits, ∀ caps, pattern sp.ns.normalized = .ok (.ok caps) → Tiles caps 0 sp.ns.normalized.length

/-- `p` results from `FromNormalizedString` of `root` by successful calls of `Split`. -/
inductive SplitHistory (root : NS) : PTS → Prop
  | first (pattern : SplitPattern) (b : Behavior) (p : PTS) : TilesSplits pattern (PTS.fromNormalizedString root) →
      (PTS.fromNormalizedString root).split (splitBy pattern b) = .ok (p, none) → SplitHistory root p
  | again (pattern : SplitPattern) (b : Behavior) (p p' : PTS) : SplitHistory root p → TilesSplits pattern p →
      p.split (splitBy pattern b) = .ok (p', none) → SplitHistory root p'

theorem split_caps {ns : NS} {pattern : SplitPattern} {b : Behavior} {pieces : List NS}
    (h : ns.split pattern b = .ok (.ok pieces)) : ∃ caps, pattern ns.normalized = .ok (.ok caps) := by
  cases hp : pattern ns.normalized with
  | panic => simp [NS.split, hp] at h
  | ok r =>
    cases r with
    | error e => simp [NS.split, hp] at h
    | ok caps => exact ⟨caps, rfl⟩

theorem splitBy_ok {pattern : SplitPattern} {b : Behavior} {i : Nat} {ns ns' : NS} {items : List Piece}
    (h : splitBy pattern b i ns = .ok (ns', .ok items)) :
    ∃ pieces, ns.split pattern b = .ok (.ok pieces) ∧ items = splitsFromNormalizedStrings pieces := by
  unfold splitBy at h
  cases hs : ns.split pattern b with
  | panic => rw [hs] at h; cases h
  | ok r =>
    rw [hs] at h
    cases r with
    | error e => cases h
    | ok pieces => cases h; exact ⟨pieces, rfl, rfl⟩

theorem splitLoop_splitTree {root : NS} {pattern : SplitPattern} {b : Behavior} : ∀ (ps : List Piece) (i : Nat)
    (U : List NS) (old new : List Piece), (∀ sp ∈ ps, sp.tokens = none) →
    (∀ sp ∈ ps, ∀ caps, pattern sp.ns.normalized = .ok (.ok caps) → Tiles caps 0 sp.ns.normalized.length) →
    SplitTree root (U ++ ps.map (·.ns)) → PTS.splitLoop (splitBy pattern b) i ps = .ok (old, .ok new) →
    SplitTree root (U ++ new.map (·.ns)) ∧ ∀ sp ∈ new, sp.tokens = none := by
  intro ps
  induction ps with
  | nil => intro i U old new _ _ h he; simp [PTS.splitLoop] at he; obtain ⟨-, rfl⟩ := he; exact ⟨h, by simp⟩
  | cons sp ps ih =>
    intro i U old new hn hc h he
    simp only [PTS.splitLoop, hn sp (by simp)] at he
    cases hf : splitBy pattern b i sp.ns with
    | panic => rw [hf] at he; cases he
    | ok r =>
      obtain ⟨ns', r⟩ := r
      rw [hf] at he
      cases r with
      | error e => cases he
      | ok items =>
        simp only [GoM.bind_ok] at he
        cases hl : PTS.splitLoop (splitBy pattern b) (i + 1) ps with
        | panic => rw [hl] at he; cases he
        | ok q =>
          obtain ⟨old', q⟩ := q
          rw [hl] at he
          cases q with
          | error e => cases he
          | ok new' =>
            cases he
            obtain ⟨pieces, hp, rfl⟩ := splitBy_ok hf
            obtain ⟨caps, hcaps⟩ := split_caps hp
            have ht := SplitTree.again U (ps.map (·.ns)) sp.ns pattern b caps pieces (by simpa using h) hcaps
              (hc sp (by simp) caps hcaps) hp
            obtain ⟨j1, j2⟩ := ih (i + 1) _ _ _ (fun x hx => hn x (by simp [hx])) (fun x hx => hc x (by simp [hx])) ht hl
            refine ⟨?_, ?_⟩
            · have e : ((splitsFromNormalizedStrings pieces).filter fun it => !it.ns.isEmpty).map (·.ns)
                  = pieces.filter fun p => !p.isEmpty := by
                simp [splitsFromNormalizedStrings, List.filter_map, Function.comp_def]
              rw [List.map_append, e, ← List.append_assoc]
              exact j1
            · intro x hx
              rcases List.mem_append.1 hx with hx | hx
              · obtain ⟨n, -, rfl⟩ := List.mem_map.1 (List.mem_filter.1 hx).1
                rfl
              · exact j2 x hx

/-- Splits made by calls of `Split` form a split tree. -/
theorem SplitHistory.tree {root : NS} {p : PTS} (h : SplitHistory root p) :
    SplitTree root (p.splits.map (·.ns)) ∧ ∀ sp ∈ p.splits, sp.tokens = none := by
  induction h with
  | first pattern b p hc he =>
    simp only [PTS.split, PTS.fromNormalizedString, PTS.splitLoop] at he
    cases hf : splitBy pattern b 0 root with
    | panic => rw [hf] at he; cases he
    | ok r =>
      obtain ⟨ns', r⟩ := r
      rw [hf] at he
      cases r with
      | error e => cases he
      | ok items =>
        cases he
        obtain ⟨pieces, hp, rfl⟩ := splitBy_ok hf
        obtain ⟨caps, hcaps⟩ := split_caps hp
        have ht := SplitTree.first pattern b caps pieces hcaps (hc ⟨root, none⟩ (by simp [PTS.fromNormalizedString]) caps hcaps) hp
        refine ⟨?_, ?_⟩
        · simpa [splitsFromNormalizedStrings, List.filter_map, Function.comp_def] using ht
        · intro sp hsp
          simp only [List.append_nil] at hsp
          obtain ⟨n, -, rfl⟩ := List.mem_map.1 (List.mem_filter.1 hsp).1
          rfl
  | again pattern b p p' _ hc he ih =>
    simp only [PTS.split] at he
    cases hl : PTS.splitLoop (splitBy pattern b) 0 p.splits with
    | panic => rw [hl] at he; cases he
    | ok q =>
      obtain ⟨old', q⟩ := q
      rw [hl] at he
      cases q with
      | error e => cases he
      | ok new' =>
        cases he
        simpa using splitLoop_splitTree p.splits 0 [] old' new' ih.2 hc (by simpa using ih.1) hl

/-- **C63, histories.** The conclusions hold for every `PreTokenizedString` made from a reachable
string by calls of `Split`: the offsets are those on the unsplit text, and with WordPiece they are in
order and select the original text of their tokens. -/
theorem C63_history {root : NS} (hr : Reachable root) {p : PTS} (h : SplitHistory root p) (m : WordPiece)
    (hunk : m.vocab.getID m.unknownToken ≠ none) (w w' ty : Int) :
    ∃ p' rs enc enc', p.tokenize (fun ns => .ok (m.tokenize ns.get)) = .ok (p', none)
      ∧ p'.intoEncoding w ty = .ok (.ok enc)
      ∧ All2 (fun o (en : Entry) => LocatesToken en.piece.ns en.token o) enc.offsets (entries w 0 p'.splits)
      ∧ enc.offsets.Pairwise NotBefore
      ∧ All2 (fun r (sp : Piece) => IsSlice root r sp.ns) rs p'.splits
      ∧ (PTS.mk root.original [⟨root, some (allMoved rs p'.splits)⟩]).intoEncoding w' ty = .ok (.ok enc')
      ∧ SameButWords enc enc' := by
  obtain ⟨p', enc, h1, h2, h3, h4, h5⟩ := C63_wordPiece hr p h.tree.1 h.tree.2 m hunk w ty
  have hmap : p'.splits.map (·.ns) = p.splits.map (·.ns) :=
    (h3.map_eq (f := (·.ns)) (g := (·.ns)) fun a b _ _ hab => hab.1.symm).symm
  obtain ⟨rs, e, e', k1, k2, k3, k4⟩ := C63_unsplit hr p' (by rw [hmap]; exact h.tree.1) (by
    intro sp hsp
    obtain ⟨q, hq, hns, ts, ht, htok⟩ := h3.exists_right hsp
    refine ⟨ts, ht, ?_⟩
    obtain ⟨rs, r1, -, -⟩ := splitTree_pieces h.tree.1
    obtain ⟨r, -, hs⟩ := r1.exists_left hq
    rw [hns]
    exact (wordPiece_order m (isSlice_ne hs hr.wf) htok).1) w w' ty
  rw [h2] at k2
  cases k2
  exact ⟨p', rs, enc, e', h1, h2, h4, h5, k1, k3, k4⟩

/-- Non-vacuity: "Ab c" in lower case, split at the space; the offsets of `ab` and `c` are those
in the unsplit text. -/
example :
    let root : NS := ⟨b!"Ab c", b!"ab c", [⟨0, 1⟩, ⟨1, 2⟩, ⟨2, 3⟩, ⟨3, 4⟩], 0⟩
    let leaves : List NS := [⟨b!"Ab", b!"ab", [⟨0, 1⟩, ⟨1, 2⟩], 0⟩, ⟨b!"c", b!"c", [⟨0, 1⟩], 3⟩]
    let m : WordPiece := ⟨Vocab.fromJSON (some [(b!"[UNK]", 0), (b!"a", 1), (b!"##b", 2), (b!"c", 3)]) [],
      b!"[UNK]", b!"##", 100⟩
    Reachable root ∧ SplitTree root leaves
    ∧ ((PTS.mk b!"Ab c" (leaves.map fun n => ⟨n, none⟩)).tokenize (fun ns => .ok (m.tokenize ns.get)) >>= fun r =>
        r.1.intoEncoding (-1) 0)
      = .ok (.ok ⟨[1, 2, 3], [0, 0, 0], [b!"a", b!"##b", b!"c"], [0, 0, 1], [⟨0, 1⟩, ⟨1, 2⟩, ⟨3, 4⟩], [0, 0, 0], [1, 1, 1]⟩)
    ∧ (PTS.mk b!"Ab c" [⟨root, some [⟨1, b!"a", ⟨0, 1⟩⟩, ⟨2, b!"##b", ⟨1, 2⟩⟩, ⟨3, b!"c", ⟨3, 4⟩⟩]⟩]).intoEncoding (-1) 0
      = .ok (.ok ⟨[1, 2, 3], [0, 0, 0], [b!"a", b!"##b", b!"c"], [0, 0, 0], [⟨0, 1⟩, ⟨1, 2⟩, ⟨3, 4⟩], [0, 0, 0], [1, 1, 1]⟩) := by
  refine ⟨.of_ops (s := b!"Ab c") (ops := [.map fun r => if r == u!"A" then u!"a" else r])
      ⟨[u!"A", u!"b", u!" ", u!"c"], by decide +kernel, by decide +kernel⟩ (by decide +kernel), ?_, by decide +kernel, by decide +kernel⟩
  exact .first (fromRune u!" ") .removed [⟨⟨0, 2⟩, false⟩, ⟨⟨2, 3⟩, true⟩, ⟨⟨3, 4⟩, false⟩]
    [⟨b!"Ab", b!"ab", [⟨0, 1⟩, ⟨1, 2⟩], 0⟩, ⟨b!"c", b!"c", [⟨0, 1⟩], 3⟩] (by decide +kernel) (by decide +kernel)
    (by decide +kernel)

end Verif
