import Verif.Props.ChineseWords
import Verif.Props.Offsets
import Verif.Props.Counts

/-!
C121: what a tokenizer sees of the splits.
-/

set_option autoImplicit false

namespace Verif

/-! ## Strings with the same characters in the same places -/

/-- The alignments, counted from the beginning of the root text. -/
def absAligns (ns : NS) : List Align := ns.alignments.map fun al => ⟨ns.originalShift + al.start, ns.originalShift + al.stop⟩

/-- Two strings with the same text, every byte of it aligned to the same bytes of the root text.  Their originals may differ. -/
def SamePlaces (x y : NS) : Prop := x.get = y.get ∧ absAligns x = absAligns y

/-- The same for strings made of whole characters. -/
def SameChars (x y : NS) : Prop := WF x ∧ WF y ∧ ∃ cs ds, Repr x cs ∧ Repr y ds ∧ moveLeft (-x.originalShift) cs = moveLeft (-y.originalShift) ds

theorem moveLeft_move (k l : Int) (cs : List Ch) : moveLeft k (moveLeft l cs) = moveLeft (l + k) cs := by
  simp only [moveLeft, List.map_map]
  apply List.map_congr_left
  intro c _
  simp only [Function.comp_apply, Prod.mk.injEq, Align.mk.injEq, true_and]
  omega

theorem moveLeft_inj {k : Int} {cs ds : List Ch} (h : moveLeft k cs = moveLeft k ds) : cs = ds := by
  have := congrArg (moveLeft (-k)) h
  rw [moveLeft_move, moveLeft_move] at this
  have e : ∀ l : List Ch, moveLeft (k + -k) l = l := by
    intro l
    have : k + -k = 0 := by omega
    rw [this]
    simp [moveLeft]
  rwa [e, e] at this

theorem Repr.unique {ns : NS} {cs ds : List Ch} (h : Repr ns cs) (h' : Repr ns ds) : cs = ds := by
  have hr : cs.map (·.1) = ds.map (·.1) := by rw [← h.runes, h'.runes]
  have ha : aligns cs = aligns ds := by rw [← h.aligns_eq, h'.aligns_eq]
  clear h h'
  induction cs generalizing ds with
  | nil => cases ds with
    | nil => rfl
    | cons d ds => simp at hr
  | cons c cs ih => cases ds with
    | nil => simp at hr
    | cons d ds =>
      simp only [List.map_cons, List.cons.injEq] at hr
      rw [aligns_cons, aligns_cons, hr.1] at ha
      obtain ⟨a1, a2⟩ := List.append_inj ha (by simp)
      have hl := List.length_pos_iff.2 (encodeRune_ne_nil d.1)
      have : c.2 = d.2 := by
        have := congrArg List.head? a1
        obtain ⟨n, hn⟩ : ∃ n, (encodeRune d.1).length = n + 1 := ⟨_, (Nat.succ_pred_eq_of_pos hl).symm⟩
        replace hn : runeLen d.1 = n + 1 := hn
        simpa [hn, List.replicate_succ] using this
      rw [ih hr.2 a2, show c = d from Prod.ext hr.1 this]

theorem SameChars.place {x y : NS} (h : SameChars x y) : SamePlaces x y := by
  obtain ⟨-, -, cs, ds, hx, hy, e⟩ := h
  have e1 : cs.map (·.1) = ds.map (·.1) := by
    have := congrArg (List.map (·.1)) e
    rwa [moveLeft_runes, moveLeft_runes] at this
  refine ⟨?_, ?_⟩
  · show x.normalized = y.normalized
    rw [hx.text_eq, hy.text_eq]
    simp only [text, e1]
  · have := congrArg aligns e
    rw [aligns_moveLeft, aligns_moveLeft, ← hx.aligns_eq, ← hy.aligns_eq] at this
    unfold absAligns
    have f : ∀ k : Int, (fun al : Align => (⟨al.start - -k, al.stop - -k⟩ : Align)) = fun al => ⟨k + al.start, k + al.stop⟩ := by
      intro k
      funext al
      simp only [Align.mk.injEq]
      omega
    rwa [f, f] at this

theorem SameChars.refl {x : NS} (h : WholeNS x) : SameChars x x := by
  obtain ⟨hwf, cs, h⟩ := h
  exact ⟨hwf, hwf, cs, cs, h, h, rfl⟩

theorem SameChars.symm {x y : NS} (h : SameChars x y) : SameChars y x := by
  obtain ⟨h1, h2, cs, ds, h3, h4, h5⟩ := h
  exact ⟨h2, h1, ds, cs, h4, h3, h5.symm⟩

theorem SameChars.trans {x y z : NS} (h : SameChars x y) (h' : SameChars y z) : SameChars x z := by
  obtain ⟨h1, -, cs, ds, h3, h4, h5⟩ := h
  obtain ⟨-, g2, ds', es, g3, g4, g5⟩ := h'
  have : ds = ds' := h4.unique g3
  subst this
  exact ⟨h1, g2, cs, es, h3, g4, h5.trans g5⟩

theorem SameChars.left {x y : NS} (h : SameChars x y) : WholeNS x := by
  obtain ⟨h1, -, cs, ds, h3, -⟩ := h
  exact ⟨h1, cs, h3⟩

theorem SameChars.right {x y : NS} (h : SameChars x y) : WholeNS y := h.symm.left

theorem SameChars.isEmpty {x y : NS} (h : SameChars x y) : x.isEmpty = y.isEmpty := by
  have := h.place.1
  unfold NS.get at this
  simp only [NS.isEmpty, this]

/-! ## Splits -/

/-- The pieces with a text that a split gives, as words of the characters. -/
structure Cuts (pattern : SplitPattern) (b : Behavior) (cut : List Ch → List (List Ch)) : Prop where
  pieces : ∀ {ns : NS} {cs : List Ch}, WF ns → Repr ns cs → ∃ ps, ns.split pattern b = .ok (.ok ps)
    ∧ ps.filter (fun x => !x.isEmpty) = (cut cs).map (pieceOf ns)
  parts : ∀ cs, ∀ w ∈ cut cs, w ≠ [] ∧ ∃ u v, cs = u ++ w ++ v
  moved : ∀ k cs, cut (moveLeft k cs) = (cut cs).map (moveLeft k)

/-- The groups of the segments. -/
def groupsOf (seg : List Rune → List (Bool × List Rune)) (b : Behavior) (cs : List Ch) : List (List Ch) :=
  (grp (·.1) b (charSegs seg cs)).map fun g => g.flatMap (·.2)

/-- Every pattern, with every behaviour. -/
theorem CutsSegs.cuts {pattern : SplitPattern} {seg : List Rune → List (Bool × List Rune)} (hp : CutsSegs pattern seg) (b : Behavior) :
    Cuts pattern b fun cs => if cs = [] then [] else groupsOf seg b cs where
  pieces := by
    intro ns cs hwf h
    by_cases hne : cs = []
    · subst hne
      have hn : ns.normalized = [] := by rw [h.text_eq]; rfl
      obtain ⟨k, hk⟩ := hp.empty
      have hs := slice_empty hwf (a := 0) (by rw [hn]; decide) (by simp [NS.originalLen])
      have hspan : ∀ g ∈ splitGroups b [⟨⟨0, 0⟩, k⟩], span g = (0, 0) := by
        intro g hg
        revert hg
        cases b <;> cases k <;> simp [splitGroups, groupPrev, groupNext, groupRuns] <;> rintro rfl <;> rfl
      obtain ⟨R, h1, h2⟩ := split_of (ns := ns) (b := b) (by rw [hn]; exact hk) (by
        intro g hg
        rw [hspan g hg]; exact ⟨_, hs⟩)
      refine ⟨R, h1, ?_⟩
      show _ = []
      rw [List.filter_eq_nil_iff]
      intro q hq
      obtain ⟨g, hg, e⟩ := All2.exists_left h2 hq
      rw [hspan g hg, hs] at e
      simp only [GoM.ok.injEq, Option.some.injEq] at e
      rw [← e]
      simp [NS.isEmpty]
    · have c1 := hp.chars cs
      have s1 := split_groups_chars hwf b c1.2.2 (by rw [c1.2.1]; exact h) (pattern := pattern) (by
        rw [c1.1, h.norm_eq]
        exact hp.caps _ h.runes_valid (by simpa using hne))
      refine ⟨_, s1, ?_⟩
      rw [if_neg hne, List.filter_eq_self.2, groupsOf, List.map_map]
      · rfl
      · intro x hx
        obtain ⟨g, hg, rfl⟩ := List.mem_map.1 hx
        obtain ⟨g0, u, v, e⟩ := grp_infix _ b _ g hg
        have hB : g.flatMap (·.2) ≠ [] := by
          cases g with
          | nil => exact absurd rfl g0
          | cons x g => simp [c1.2.2 x (by rw [e]; simp)]
        have := pieceOf_get_ne (ns := ns) hB
        simpa [NS.isEmpty, NS.get] using this
  parts := by
    intro cs w hw
    by_cases hne : cs = []
    · simp [hne] at hw
    · rw [if_neg hne] at hw
      obtain ⟨g, hg, rfl⟩ := List.mem_map.1 hw
      have c1 := hp.chars cs
      obtain ⟨g0, u, v, e⟩ := grp_infix _ b _ g hg
      refine ⟨?_, u.flatMap (·.2), v.flatMap (·.2), ?_⟩
      · cases g with
        | nil => exact absurd rfl g0
        | cons x g => simp [c1.2.2 x (by rw [e]; simp)]
      · rw [← c1.2.1, e]; simp
  moved := by
    intro k cs
    by_cases hne : cs = []
    · subst hne; rfl
    · rw [if_neg hne, if_neg (by simpa [moveLeft] using hne)]
      have e : charSegs seg (moveLeft k cs) = (charSegs seg cs).map fun x => (x.1, moveLeft k x.2) := by
        unfold charSegs
        rw [moveLeft_runes]
        have := cutAs_mapped (fun r : Rune => r) (fun c : Ch => ((c.1, ⟨c.2.start - k, c.2.stop - k⟩) : Ch)) (seg (cs.map (·.1))) cs
        simpa [moveLeft] using this
      unfold groupsOf
      rw [e, grp_map, List.map_map, List.map_map]
      apply List.map_congr_left
      intro g _
      simp only [Function.comp_apply, List.flatMap_map, moveLeft, List.map_flatMap]

/-- A piece keeps its place. -/
theorem pieceOf_chars {ns : NS} {A B C : List Ch} (hwf : WF ns) (h : Repr ns (A ++ B ++ C)) (hB : B ≠ []) :
    WF (pieceOf ns B) ∧ Repr (pieceOf ns B) (moveLeft (firstAlign B).start B)
      ∧ moveLeft (-(pieceOf ns B).originalShift) (moveLeft (firstAlign B).start B) = moveLeft (-ns.originalShift) B := by
  refine ⟨pieceOf_wf hwf h hB, pieceOf_repr ns fun c hc => h.valid c (by simp [hc]), ?_⟩
  rw [moveLeft_move]
  congr 1
  simp only [pieceOf]
  omega

/-- **C121, strings.**  Splits of strings with the same characters in the same places: so are the pieces. -/
theorem C121_split {pattern : SplitPattern} {b : Behavior} {cut : List Ch → List (List Ch)} (hc : Cuts pattern b cut) {x y : NS}
    (h : SameChars x y) : ∃ ps qs, x.split pattern b = .ok (.ok ps) ∧ y.split pattern b = .ok (.ok qs)
      ∧ All2 SameChars (ps.filter fun z => !z.isEmpty) (qs.filter fun z => !z.isEmpty) := by
  obtain ⟨h1, h2, cs, ds, h3, h4, h5⟩ := h
  obtain ⟨ps, p1, p2⟩ := hc.pieces h1 h3
  obtain ⟨qs, q1, q2⟩ := hc.pieces h2 h4
  refine ⟨ps, qs, p1, q1, ?_⟩
  rw [p2, q2]
  have e := congrArg cut h5
  rw [hc.moved, hc.moved] at e
  have k1 := hc.parts cs
  have k2 := hc.parts ds
  revert e k1 k2
  generalize cut cs = W
  generalize cut ds = V
  intro e k1 k2
  induction W generalizing V with
  | nil =>
    cases V with
    | nil => exact .nil
    | cons v V => simp at e
  | cons w W ih =>
    cases V with
    | nil => simp at e
    | cons v V =>
      simp only [List.map_cons, List.cons.injEq] at e
      refine .cons ?_ (ih V e.2 (fun z hz => k1 z (by simp [hz])) (fun z hz => k2 z (by simp [hz])))
      obtain ⟨w0, u, u', eu⟩ := k1 w (by simp)
      obtain ⟨v0, t, t', et⟩ := k2 v (by simp)
      obtain ⟨a1, a2, a3⟩ := pieceOf_chars h1 (by rw [← eu]; exact h3) w0
      obtain ⟨b1, b2, b3⟩ := pieceOf_chars h2 (by rw [← et]; exact h4) v0
      exact ⟨a1, b1, _, _, a2, b2, by rw [a3, b3, e.1]⟩

/-! ## `PreTokenizedString`s -/

/-- Splits that a tokenizer cannot tell apart. -/
inductive PieceSame : Piece → Piece → Prop
  | same (s : Piece) (h : s.tokens ≠ none) : PieceSame s s
  | free {x y : NS} (h : SameChars x y) : PieceSame ⟨x, none⟩ ⟨y, none⟩
  | placed {x y : NS} {ts : List Token} (h : SameChars x y) (ht : ∀ t ∈ ts, WellPlaced x t) : PieceSame ⟨x, some ts⟩ ⟨y, some ts⟩

theorem PieceSame.tokens {s t : Piece} (h : PieceSame s t) : s.tokens = t.tokens := by cases h <;> rfl

theorem PieceSame.get {s t : Piece} (h : PieceSame s t) : s.ns.get = t.ns.get := by
  cases h with
  | same => rfl
  | free h => exact h.place.1
  | placed h => exact h.place.1

/-- A split with nothing in it. -/
def NoText (s : Piece) : Prop := s.tokens = none ∧ s.ns.isEmpty = true ∧ WholeNS s.ns

/-- The same splits, but for those with nothing in them. -/
inductive Alike : List Piece → List Piece → Prop
  | nil : Alike [] []
  | cons {s t : Piece} {ss ts : List Piece} (h : PieceSame s t) (hs : Alike ss ts) : Alike (s :: ss) (t :: ts)
  | left {s : Piece} {ss ts : List Piece} (h : NoText s) (hs : Alike ss ts) : Alike (s :: ss) ts
  | right {t : Piece} {ss ts : List Piece} (h : NoText t) (hs : Alike ss ts) : Alike ss (t :: ts)

theorem Alike.of_all2 {ss ts : List Piece} (h : All2 PieceSame ss ts) : Alike ss ts := by
  induction h with
  | nil => exact .nil
  | cons h _ ih => exact .cons h ih

theorem Alike.append {a b c d : List Piece} (h : Alike a b) (h' : Alike c d) : Alike (a ++ c) (b ++ d) := by
  induction h with
  | nil => exact h'
  | cons h _ ih => exact .cons h ih
  | left h _ ih => exact .left h ih
  | right h _ ih => exact .right h ih

/-- Two `PreTokenizedString`s, both made with `T`: the same splits. -/
def Respects (T : PreTokenizer) : Prop := ∀ P Q : PTS, Alike P.splits Q.splits →
  ∃ P' Q', T P = .ok (P', none) ∧ T Q = .ok (Q', none) ∧ All2 PieceSame P'.splits Q'.splits

/-- The same for the function given to `Split`. -/
def FuncRespects (f : SplitFunc) : Prop := ∀ x y : NS, SameChars x y → ∃ x' y' ps qs,
  (∀ i, f i x = .ok (x', .ok (splitsFromNormalizedStrings ps))) ∧ (∀ i, f i y = .ok (y', .ok (splitsFromNormalizedStrings qs)))
    ∧ All2 SameChars (ps.filter fun z => !z.isEmpty) (qs.filter fun z => !z.isEmpty)

theorem pieces_same {xs ys : List NS} (h : All2 SameChars xs ys) :
    All2 PieceSame (splitsFromNormalizedStrings xs) (splitsFromNormalizedStrings ys) := by
  induction h with
  | nil => exact .nil
  | cons h _ ih => exact .cons (.free h) ih

/-- A split function gives nothing for a string with nothing in it. -/
theorem FuncRespects.nothing {f : SplitFunc} (hf : FuncRespects f) (hn : ∀ x : NS, WholeNS x → x.isEmpty = true → ∃ x' ps,
    (∀ i, f i x = .ok (x', .ok (splitsFromNormalizedStrings ps))) ∧ ps.filter (fun z => !z.isEmpty) = []) : Respects fun P => P.split f := by
  intro P Q h
  suffices H : ∀ (ss ts : List Piece), Alike ss ts → ∀ i j : Nat, ∃ as bs o1 o2, PTS.splitLoop f i ss = .ok (o1, .ok as)
      ∧ PTS.splitLoop f j ts = .ok (o2, .ok bs) ∧ All2 PieceSame as bs by
    obtain ⟨as, bs, o1, o2, h1, h2, h3⟩ := H _ _ h 0 0
    exact ⟨⟨P.original, as⟩, ⟨Q.original, bs⟩, by simp [PTS.split, h1], by simp [PTS.split, h2], h3⟩
  clear h
  intro ss ts h
  induction h with
  | nil => intro i j; exact ⟨[], [], [], [], rfl, rfl, .nil⟩
  | @cons s t ss ts h _ ih =>
    intro i j
    obtain ⟨as, bs, o1, o2, h1, h2, h3⟩ := ih (i + 1) (j + 1)
    cases h with
    | same _ h =>
      cases hs : s.tokens with
      | none => exact absurd hs h
      | some k => exact ⟨s :: as, s :: bs, s :: o1, s :: o2, by simp [PTS.splitLoop, hs, h1], by simp [PTS.splitLoop, hs, h2], .cons (.same _ h) h3⟩
    | @placed x y k h ht => exact ⟨⟨x, some k⟩ :: as, ⟨y, some k⟩ :: bs, ⟨x, some k⟩ :: o1, ⟨y, some k⟩ :: o2,
        by simp [PTS.splitLoop, h1], by simp [PTS.splitLoop, h2], .cons (.placed h ht) h3⟩
    | @free x y h =>
      obtain ⟨x', y', ps, qs, e1, e2, e3⟩ := hf x y h
      refine ⟨(splitsFromNormalizedStrings ps).filter (fun it => !it.ns.isEmpty) ++ as,
        (splitsFromNormalizedStrings qs).filter (fun it => !it.ns.isEmpty) ++ bs, ⟨x', none⟩ :: o1, ⟨y', none⟩ :: o2,
        by simp [PTS.splitLoop, e1, h1], by simp [PTS.splitLoop, e2, h2], ?_⟩
      rw [filter_splits, filter_splits]
      exact (pieces_same e3).append h3
  | @left s ss ts h _ ih =>
    intro i j
    obtain ⟨as, bs, o1, o2, h1, h2, h3⟩ := ih (i + 1) j
    obtain ⟨x', ps, e1, e2⟩ := hn s.ns h.2.2 h.2.1
    have := filter_splits ps
    rw [e2, show splitsFromNormalizedStrings [] = [] from rfl] at this
    exact ⟨as, bs, ⟨x', none⟩ :: o1, o2, by simp [PTS.splitLoop, h.1, e1, h1, this], h2, h3⟩
  | @right t ss ts h _ ih =>
    intro i j
    obtain ⟨as, bs, o1, o2, h1, h2, h3⟩ := ih i (j + 1)
    obtain ⟨x', ps, e1, e2⟩ := hn t.ns h.2.2 h.2.1
    have := filter_splits ps
    rw [e2, show splitsFromNormalizedStrings [] = [] from rfl] at this
    exact ⟨as, bs, o1, ⟨x', none⟩ :: o2, h1, by simp [PTS.splitLoop, h.1, e1, h2, this], h3⟩

/-- **C121, PreTokenizedStrings.**  Any pattern, any behaviour. -/
theorem C121_pts {pattern : SplitPattern} {seg : List Rune → List (Bool × List Rune)} (hp : CutsSegs pattern seg) (b : Behavior) :
    Respects fun P => P.split (splitByPattern pattern b) := by
  have hc := hp.cuts b
  refine FuncRespects.nothing ?_ ?_
  · intro x y h
    obtain ⟨ps, qs, h1, h2, h3⟩ := C121_split hc h
    exact ⟨x, y, ps, qs, fun i => by simp [splitByPattern, h1], fun i => by simp [splitByPattern, h2], h3⟩
  · intro x ⟨hwf, cs, h⟩ he
    obtain ⟨ps, h1, h2⟩ := hc.pieces hwf h
    refine ⟨x, ps, fun i => by simp [splitByPattern, h1], ?_⟩
    have : cs = [] := by
      cases cs with
      | nil => rfl
      | cons c cs =>
        have := h.text_eq
        simp only [NS.isEmpty, beq_iff_eq] at he
        have hl : x.normalized = [] := by simpa using he
        rw [hl] at this
        have k := encodeRune_ne_nil c.1
        simp [text, encodeRunes, k] at this
    rw [h2, this]
    rfl

theorem Respects.then {T U : PreTokenizer} (h1 : Respects T) (h2 : Respects U) : Respects (thenPre T U) := by
  intro P Q h
  obtain ⟨a, b, e1, e2, e3⟩ := h1 P Q h
  obtain ⟨c, d, f1, f2, f3⟩ := h2 a b (.of_all2 e3)
  exact ⟨c, d, by simp [thenPre, e1, f1], by simp [thenPre, e2, f2], f3⟩

/-- **C121, the pre-tokenizers.** -/
theorem C121_preTokenizers (u : Uni) (v : RxUni) (d : Rune) (b : Behavior) : Respects whiteSpaceSplit ∧ Respects (bertPreTokenize u)
    ∧ Respects (runeDelimiter d) ∧ Respects (whiteSpaceDefault v)
    ∧ Respects (fun P => P.split (splitByPattern (fromRegexp2 (splittingRegexp v).findAll) b)) :=
  ⟨C121_pts (fromFunc_cuts _) .removed, Respects.then (C121_pts (fromFunc_cuts _) .removed) (C121_pts (fromFunc_cuts _) .isolated),
    C121_pts (fromFunc_cuts _) .removed, C121_pts (not_cuts (reSegs_cuts (re := wordRegexp v) rfl)) .removed,
    C121_pts (reSegs_cuts (re := splittingRegexp v) rfl) b⟩

/-! ## Encodings -/

theorem tokenOffsets_same {x y : NS} (h : SameChars x y) {t : Token} (ht : WellPlaced x t) :
    PTS.tokenOffsets x t = PTS.tokenOffsets y t := by
  obtain ⟨h1, h2⟩ := h.place
  have ht' : WellPlaced y t := by rw [WellPlaced, ← h1]; exact ht
  obtain ⟨f, l, e1, e2, e3⟩ := tokenOffsets_eq h.1 ht
  obtain ⟨f', l', e1', e2', e3'⟩ := tokenOffsets_eq h.2.1 ht'
  have a1 := congrArg (fun z : List Align => z[t.offsets.start.toNat]?) h2
  have a2 := congrArg (fun z : List Align => z[(t.offsets.stop - 1).toNat]?) h2
  simp only [absAligns, List.getElem?_map, e1, e1', e2, e2', Option.map_some, Option.some.injEq, Align.mk.injEq] at a1 a2
  rw [e3, e3', a1.1, a2.2]

theorem encodeTokens_same {x y : NS} (h : SameChars x y) (wi ti : Int) : ∀ {ts : List Token}, (∀ t ∈ ts, WellPlaced x t) →
    PTS.encodeTokens x wi ti ts = PTS.encodeTokens y wi ti ts
  | [], _ => rfl
  | t :: ts, ht => by
    have ih := encodeTokens_same h wi ti (ts := ts) fun k hk => ht k (by simp [hk])
    simp only [PTS.encodeTokens, tokenOffsets_same h (ht t (by simp)), ih]

/-- **C121, `IntoEncoding`.** -/
theorem C121_intoEncoding {P Q : PTS} (h : All2 PieceSame P.splits Q.splits) (wi ti : Int) : P.intoEncoding wi ti = Q.intoEncoding wi ti := by
  have hl : P.splits.length = Q.splits.length := h.length_eq
  have ha : P.allSplitsHaveTokens = Q.allSplitsHaveTokens := by
    unfold PTS.allSplitsHaveTokens
    revert h
    generalize P.splits = a
    generalize Q.splits = b
    intro h
    clear hl
    induction h with
    | nil => rfl
    | cons h _ ih => simp only [List.all_cons, h.tokens, ih]
  have he : ∀ i : Nat, PTS.encodeSplits wi ti i P.splits = PTS.encodeSplits wi ti i Q.splits := by
    clear hl ha
    revert h
    generalize P.splits = a
    generalize Q.splits = b
    intro h
    induction h with
    | nil => intro i; rfl
    | @cons s t ss ts h _ ih =>
      intro i
      simp only [PTS.encodeSplits, ih]
      have : ∀ k, PTS.encodeTokens s.ns k ti (s.tokens.getD []) = PTS.encodeTokens t.ns k ti (t.tokens.getD []) := by
        intro k
        cases h with
        | same => rfl
        | free => rfl
        | placed h ht => exact encodeTokens_same h k ti ht
      rw [this]
  simp only [PTS.intoEncoding, hl, ha, he]

/-- **C121, `GetNormalizedByteSplits`.** -/
theorem C121_normalizedByteSplits {P Q : PTS} (h : All2 PieceSame P.splits Q.splits) :
    P.getNormalizedByteSplits = Q.getNormalizedByteSplits := by
  unfold PTS.getNormalizedByteSplits
  generalize (0 : Int) = o
  revert h
  generalize P.splits = a
  generalize Q.splits = b
  intro h
  induction h generalizing o with
  | nil => rfl
  | @cons s t ss ts h _ ih =>
    have : s.ns.len = t.ns.len := by
      have := h.get
      unfold NS.get at this
      simp only [NS.len, this]
    simp only [PTS.normalizedByteSplitsLoop, h.get, h.tokens, this, ih]

/-- A tokenization function that looks at the text only, and places its tokens in it. -/
structure ByText (tok : NS → GoM (Except Err (List Token))) : Prop where
  text : ∀ x y : NS, x.get = y.get → tok x = tok y
  placed : ∀ x : NS, WholeNS x → ∀ (ts : List Token), tok x = .ok (.ok ts) → ∀ t ∈ ts, WellPlaced x t

/-- **C121, `Tokenize`.** -/
theorem C121_tokenize {tok : NS → GoM (Except Err (List Token))} (ht : ByText tok) {P Q : PTS} (h : All2 PieceSame P.splits Q.splits) :
    (P.tokenize tok = .panic ∧ Q.tokenize tok = .panic)
    ∨ ∃ P' Q' e, P.tokenize tok = .ok (P', e) ∧ Q.tokenize tok = .ok (Q', e) ∧ All2 PieceSame P'.splits Q'.splits := by
  suffices H : ∀ ss ts : List Piece, All2 PieceSame ss ts →
      (PTS.tokenizeLoop tok ss = .panic ∧ PTS.tokenizeLoop tok ts = .panic)
      ∨ ∃ as bs e, PTS.tokenizeLoop tok ss = .ok (as, e) ∧ PTS.tokenizeLoop tok ts = .ok (bs, e) ∧ All2 PieceSame as bs by
    rcases H _ _ h with ⟨h1, h2⟩ | ⟨as, bs, e, h1, h2, h3⟩
    · exact .inl ⟨by simp [PTS.tokenize, h1], by simp [PTS.tokenize, h2]⟩
    · exact .inr ⟨⟨P.original, as⟩, ⟨Q.original, bs⟩, e, by simp [PTS.tokenize, h1], by simp [PTS.tokenize, h2], h3⟩
  clear h
  intro ss ts h
  induction h with
  | nil => exact .inr ⟨[], [], none, rfl, rfl, .nil⟩
  | @cons s t ss ts h hs ih =>
    have keep : ∀ ks, s.tokens = some ks → (PTS.tokenizeLoop tok (s :: ss) = .panic ∧ PTS.tokenizeLoop tok (t :: ts) = .panic)
        ∨ ∃ as bs e, PTS.tokenizeLoop tok (s :: ss) = .ok (as, e) ∧ PTS.tokenizeLoop tok (t :: ts) = .ok (bs, e) ∧ All2 PieceSame as bs := by
      intro ks hk
      have hk' : t.tokens = some ks := by rw [← h.tokens, hk]
      rcases ih with ⟨h1, h2⟩ | ⟨as, bs, e, h1, h2, h3⟩
      · exact .inl ⟨by simp [PTS.tokenizeLoop, hk, h1], by simp [PTS.tokenizeLoop, hk', h2]⟩
      · exact .inr ⟨s :: as, t :: bs, e, by simp [PTS.tokenizeLoop, hk, h1], by simp [PTS.tokenizeLoop, hk', h2], .cons h h3⟩
    cases hst : s.tokens with
    | some ks => exact keep ks hst
    | none =>
      cases h with
      | same _ h => exact absurd hst h
      | placed => simp at hst
      | @free x y h =>
        have e := ht.text x y h.place.1
        cases ex : tok x with
        | panic => exact .inl ⟨by simp [PTS.tokenizeLoop, ex], by simp [PTS.tokenizeLoop, ← e, ex]⟩
        | ok r =>
          cases r with
          | error er => exact .inr ⟨_, _, some er, by simp [PTS.tokenizeLoop, ex], by simp [PTS.tokenizeLoop, ← e, ex], .cons (.free h) hs⟩
          | ok ks =>
            rcases ih with ⟨h1, h2⟩ | ⟨as, bs, er, h1, h2, h3⟩
            · exact .inl ⟨by simp [PTS.tokenizeLoop, ex, h1], by simp [PTS.tokenizeLoop, ← e, ex, h2]⟩
            · exact .inr ⟨_, _, er, by simp [PTS.tokenizeLoop, ex, h1], by simp [PTS.tokenizeLoop, ← e, ex, h2],
                .cons (.placed h (ht.placed x h.left ks ex)) h3⟩

/-- Tokens and encoding. -/
def encodeWith (tok : NS → GoM (Except Err (List Token))) (wi ti : Int) (P : PTS) : GoM (Except Err Encoding) := do
  let (t, e) ← P.tokenize tok
  match e with
  | some e => pure (.error e)
  | none => t.intoEncoding wi ti

/-- **C121, encodings.**  The pre-tokenizer `T`, any model that looks at the text of the splits, any word number. -/
theorem C121_encoding {T : PreTokenizer} (hT : Respects T) {tok : NS → GoM (Except Err (List Token))} (ht : ByText tok) {P Q : PTS}
    (h : Alike P.splits Q.splits) (wi ti : Int) : ∃ P' Q', T P = .ok (P', none) ∧ T Q = .ok (Q', none)
      ∧ P'.getNormalizedByteSplits = Q'.getNormalizedByteSplits ∧ encodeWith tok wi ti P' = encodeWith tok wi ti Q' := by
  obtain ⟨P', Q', h1, h2, h3⟩ := hT P Q h
  refine ⟨P', Q', h1, h2, C121_normalizedByteSplits h3, ?_⟩
  unfold encodeWith
  rcases C121_tokenize ht h3 with ⟨e1, e2⟩ | ⟨a, b, e, e1, e2, e3⟩
  · rw [e1, e2]
  · rw [e1, e2]
    cases e with
    | some e => rfl
    | none => simp only [GoM.bind_ok]; exact C121_intoEncoding e3 wi ti

/-- A WordPiece model. -/
theorem ByText.wordPiece (m : WordPiece) (hmax : 0 ≤ m.maxInputCharsPerWord) : ByText fun ns => .ok (m.tokenize ns.get) where
  text x y h := by simp only [h]
  placed x _ ts h := by
    simp only [GoM.ok.injEq] at h
    by_cases hne : x.get = []
    · have : m.tokenize [] = .ok [] := by
        have e : runesOf [] = [] := by decide +kernel
        simp only [WordPiece.tokenize, e, List.length_nil]
        rw [if_neg (by omega)]
        simp [WordPiece.tokenLoop]
      rw [hne, this, Except.ok.injEq] at h
      subst h
      simp
    · exact (wordPiece_order m hne h).1

/-- A BPE model with an unknown token, whatever is dropped, as long as the same is dropped from the same texts. -/
theorem ByText.bpe (m : BPE) (hunk : m.unknownToken ≠ []) (rnd : Str → Nat → Bool) : ByText (m.tokenizeNS fun ns => rnd ns.get) where
  text x y h := by simp only [BPE.tokenizeNS, h]
  placed x hx ts h := by
    obtain ⟨-, cs, hr⟩ := hx
    exact (bpe_order m _ hr.validUtf8 (.inl hunk) (BPE.tokenizeNS_ok h)).1

/-! ## Cases -/

/-- "ab" cut out of "xab", and what is left of "xab" when the first rune is deleted: the same characters in the same places, in different
originals. -/
def cutOut : NS := ⟨b!"ab", b!"ab", [⟨0, 1⟩, ⟨1, 2⟩], 1⟩

def leftOver : NS := ⟨b!"xab", b!"ab", [⟨1, 2⟩, ⟨2, 3⟩], 0⟩

example : (NS.fromString b!"xab").slice (.normalized 1 3) = .ok (some cutOut)
    ∧ (NS.fromString b!"xab").filter (fun r => r != u!"x") = .ok leftOver := by decide +kernel

theorem cutOut_leftOver : SameChars cutOut leftOver := by
  have hs : ValidUtf8 b!"xab" := by decide +kernel
  have e1 : runOps (NS.fromString b!"xab") [.filter fun r => r != u!"x"] = .ok leftOver := by decide +kernel
  have r0 := fromString_repr (s := b!"xab") hs
  have w0 := C02_history_wf hs (ops := []) rfl
  have r1 : Repr (NS.fromString b!"xab") ([(u!"x", ⟨0, 1⟩)] ++ [(u!"a", ⟨1, 2⟩), (u!"b", ⟨2, 3⟩)] ++ []) := by
    rw [show ([(u!"x", ⟨0, 1⟩)] ++ [(u!"a", ⟨1, 2⟩), (u!"b", ⟨2, 3⟩)] ++ [] : List Ch) = selfChars 0 (runesOf b!"xab") from by decide +kernel]
    exact r0
  have e2 : cutOut = pieceOf (NS.fromString b!"xab") [(u!"a", ⟨1, 2⟩), (u!"b", ⟨2, 3⟩)] := by decide +kernel
  obtain ⟨a1, a2, a3⟩ := pieceOf_chars w0 r1 (by simp)
  rw [← e2] at a1 a2 a3
  refine ⟨a1, C02_history_wf hs e1, _, [(u!"a", ⟨1, 2⟩), (u!"b", ⟨2, 3⟩)], a2, ⟨by decide +kernel, by decide +kernel, ?_⟩, a3⟩
  intro c hc
  exact r1.valid c (by simp at hc ⊢; exact .inr hc)

/-- The splits are cut into the same words, which get the same offsets. -/
example : encodeWith (fun ns => .ok (.ok [⟨7, ns.get, ⟨0, ns.len⟩⟩])) (-1) 0 ⟨[], [⟨cutOut, none⟩]⟩
    = encodeWith (fun ns => .ok (.ok [⟨7, ns.get, ⟨0, ns.len⟩⟩])) (-1) 0 ⟨[], [⟨leftOver, none⟩]⟩
    ∧ encodeWith (fun ns => .ok (.ok [⟨7, ns.get, ⟨0, ns.len⟩⟩])) (-1) 0 ⟨[], [⟨leftOver, none⟩]⟩
      = .ok (.ok ⟨[7], [0], [b!"ab"], [0], [⟨1, 3⟩], [0], [1]⟩) := by decide +kernel

/-- A token without a text is not placed by the alignments: its offsets depend on where the split begins. -/
theorem C121_counterexample : ∃ (x y : NS) (tok : NS → GoM (Except Err (List Token))), SameChars x y ∧ (∀ n n' : NS, n.get = n'.get → tok n = tok n')
    ∧ encodeWith tok (-1) 0 ⟨[], [⟨x, none⟩]⟩ ≠ encodeWith tok (-1) 0 ⟨[], [⟨y, none⟩]⟩ :=
  ⟨cutOut, leftOver, fun _ => .ok (.ok [⟨7, [], ⟨1, 1⟩⟩]), cutOut_leftOver, fun _ _ _ => rfl, by decide +kernel⟩

/-- `GetOriginalByteSplits` shows the original of a split, and does tell such splits apart. -/
theorem C121_counterexample_original : ∃ x y : NS, SameChars x y
    ∧ PTS.getOriginalByteSplits ⟨[], [⟨x, none⟩]⟩ ≠ PTS.getOriginalByteSplits ⟨[], [⟨y, none⟩]⟩ :=
  ⟨cutOut, leftOver, cutOut_leftOver, by decide +kernel⟩

end Verif
