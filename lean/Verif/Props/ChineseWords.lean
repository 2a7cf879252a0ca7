import Verif.Props.SameWords
import Verif.Props.BertAgain
import Verif.Model.Notation

/-!
C120: Chinese characters are words of their own.
-/

set_option autoImplicit false

namespace Verif

section
variable {α : Type}

/-- The elements satisfying `q`, each on its own, and the runs of the others between them. -/
def isolBy (q : α → Bool) : List α → List (List α)
  | [] => []
  | a :: l =>
    if q a then [a] :: isolBy q l
    else match l.head?.map q, isolBy q l with
      | some false, w :: ws => (a :: w) :: ws
      | _, ws => [a] :: ws

theorem isolBy_cons (q : α → Bool) (a : α) (l : List α) : isolBy q (a :: l) = if q a then [a] :: isolBy q l
    else match l.head?.map q, isolBy q l with
      | some false, w :: ws => (a :: w) :: ws
      | _, ws => [a] :: ws := rfl

theorem isolBy_ne {q : α → Bool} : ∀ {l : List α}, l ≠ [] → isolBy q l ≠ []
  | [], h => absurd rfl h
  | a :: l, _ => by
    rw [isolBy_cons]
    split
    · simp
    · split <;> simp

theorem wordsBy_head {p : α → Bool} : ∀ {l : List α} {b : α} {t : List α}, l = b :: t → p b = false →
    ∃ w ws, wordsBy p l = (b :: w) :: ws
  | _, b, t, rfl, h => by
    rw [wordsBy_cons, if_neg (by simp [h])]
    split
    · exact ⟨_, _, rfl⟩
    · exact ⟨_, _, rfl⟩

/-- Delimiters put around some of the elements. -/
def spacedBy (q : α → Bool) (d : α → α) (l : List α) : List α := l.flatMap fun a => if q a then [d a, a, d a] else [a]

/-- Delimiters around elements cut the words there. -/
theorem wordsBy_spacedBy {p q : α → Bool} {d : α → α} (hd : ∀ a, p (d a) = true) (hq : ∀ a, q a = true → p a = false) :
    ∀ l, wordsBy p (spacedBy q d l) = (wordsBy p l).flatMap (isolBy q)
  | [] => rfl
  | a :: l => by
    have ih := wordsBy_spacedBy hd hq l
    have e : spacedBy q d (a :: l) = (if q a then [d a, a, d a] else [a]) ++ spacedBy q d l := List.flatMap_cons
    rw [e]
    cases ha : q a with
    | true =>
      have hp := hq a ha
      have e1 : wordsBy p (a :: d a :: spacedBy q d l) = [a] :: wordsBy p (spacedBy q d l) := by
        rw [wordsBy_cons, if_neg (by simp [hp]), wordsBy_delim (hd a)]
        simp only [List.head?_cons, Option.map_some, hd]
      simp only [if_true, List.cons_append, List.nil_append]
      rw [wordsBy_delim (hd a), e1, ih, wordsBy_cons p a l, if_neg (by simp [hp])]
      split
      · next w ws _ e2 =>
        rw [e2, List.flatMap_cons, List.flatMap_cons, isolBy_cons q a w, if_pos ha]
        rfl
      · rw [List.flatMap_cons, isolBy_cons q a [], if_pos ha]
        rfl
    | false =>
      simp only [Bool.false_eq_true, if_false, List.cons_append, List.nil_append]
      cases hp : p a with
      | true => rw [wordsBy_delim hp, ih, wordsBy_delim hp]
      | false =>
        rw [wordsBy_cons, wordsBy_cons p a l, if_neg (by simp [hp]), if_neg (by simp [hp]), ih]
        cases l with
        | nil => simp [spacedBy, wordsBy, isolBy, ha]
        | cons b l =>
          have eb : spacedBy q d (b :: l) = (if q b then [d b, b, d b] else [b]) ++ spacedBy q d l := List.flatMap_cons
          rw [eb]
          cases hb : q b with
          | true =>
            have hpb := hq b hb
            obtain ⟨w, ws, hw⟩ := wordsBy_head (l := b :: l) rfl hpb
            simp only [if_true, List.cons_append, List.head?_cons, Option.map_some, hd, hw, hpb, List.flatMap_cons]
            rw [isolBy_cons q a (b :: w), if_neg (by simp [ha]), isolBy_cons q b w, if_pos hb]
            simp [hb]
          | false =>
            simp only [Bool.false_eq_true, if_false, List.cons_append, List.nil_append, List.head?_cons, Option.map_some]
            cases hpb : p b with
            | true =>
              simp only [List.flatMap_cons]
              rw [isolBy_cons q a [], if_neg (by simp [ha])]
              rfl
            | false =>
              obtain ⟨w, ws, hw⟩ := wordsBy_head (l := b :: l) rfl hpb
              simp only [hw, List.flatMap_cons]
              rw [isolBy_cons q a (b :: w), if_neg (by simp [ha])]
              have hn := isolBy_ne (q := q) (l := b :: w) (by simp)
              revert hn
              rcases isolBy q (b :: w) with _ | ⟨v, vs⟩
              · intro h; exact absurd rfl h
              · intro _; simp [hb]

end

theorem charSegs_isol (p : Rune → Bool) : ∀ cs : List Ch, (charSegs (segs p) cs).map (·.2) = isolBy (fun c => p c.1) cs
  | [] => rfl
  | c :: cs => by
    have ih := charSegs_isol p cs
    have hh := segs_head p (cs.map (·.1))
    have hd : (cs.map (·.1)).head?.map p = cs.head?.map fun c => p c.1 := by cases cs <;> rfl
    rw [hd] at hh
    unfold charSegs at ih ⊢
    rw [isolBy_cons (fun c : Ch => p c.1) c cs, ← ih, ← hh]
    cases h : p c.1 with
    | true => simp [segs, h, cutAs]
    | false =>
      simp only [List.map_cons, segs, h, Bool.false_eq_true, if_false]
      clear ih hh
      generalize segs p (cs.map (·.1)) = G
      rcases G with _ | ⟨⟨_ | _, g⟩, t⟩ <;> rfl

/-- A word of a string cut at runes that satisfy `q`, which stay. -/
theorem split_isol (q : Rune → Bool) {ns : NS} {A B C : List Ch} (hwf : WF ns) (h : Repr ns (A ++ B ++ C)) (hB : B ≠ []) :
    (pieceOf ns B).split (fromFunc q) .isolated = .ok (.ok ((isolBy (fun c => q c.1) B).map (pieceOf ns))) := by
  have hvB : ValidChars B := fun c hc => h.valid c (by simp [hc])
  have pw := pieceOf_wf hwf h hB
  have pr := pieceOf_repr ns hvB
  have hne : moveLeft (firstAlign B).start B ≠ [] := by
    intro e
    have := congrArg (List.map (·.1)) e
    rw [moveLeft_runes] at this
    exact hB (by simpa using this)
  have c1 := (fromFunc_cuts q).chars (moveLeft (firstAlign B).start B)
  have s1 := split_groups_chars pw .isolated c1.2.2 (by rw [c1.2.1]; exact pr) (pattern := fromFunc q) (by
    rw [c1.1, pr.norm_eq]
    exact (fromFunc_cuts q).caps _ pr.runes_valid (by simpa using hne))
  rw [s1, ← charSegs_isol q B]
  have e : charSegs (segs q) (moveLeft (firstAlign B).start B)
      = (charSegs (segs q) B).map fun x => (x.1, moveLeft (firstAlign B).start x.2) := by
    unfold charSegs
    rw [moveLeft_runes]
    have := cutAs_mapped (fun r : Rune => r) (fun c : Ch => ((c.1, ⟨c.2.start - (firstAlign B).start, c.2.stop - (firstAlign B).start⟩) : Ch))
      (segs q (B.map (·.1))) B
    simpa [moveLeft] using this
  rw [e]
  simp only [grp, List.map_map, GoM.ok.injEq, Except.ok.injEq]
  apply List.map_congr_left
  intro x hx
  obtain ⟨u, v, huv⟩ := List.append_of_mem hx
  have c2 := (fromFunc_cuts q).chars B
  have hx0 := c2.2.2 x hx
  have eB : u.flatMap (·.2) ++ x.2 ++ v.flatMap (·.2) = B := by
    rw [← c2.2.1, huv]; simp
  simp only [Function.comp_apply, List.flatMap_cons, List.flatMap_nil, List.append_nil]
  have := pieceOf_pieceOf hwf (A := A) (P := u.flatMap (·.2)) (G := x.2) (Q := v.flatMap (·.2)) (C := C) (by rw [eB]; exact h) hx0
  rwa [eB] at this

/-! ## Splits -/

theorem splitLoop_words {f : SplitFunc} {β : Type} (n : β → NS) (items : β → List Piece) {qs rs : List Piece}
    (h : ∀ j, ∃ o, PTS.splitLoop f j qs = .ok (o, .ok rs)) : ∀ W : List β,
    (∀ w ∈ W, ∀ j, f j (n w) = .ok (n w, .ok (items w)) ∧ ∀ it ∈ items w, it.ns.isEmpty = false) →
    ∀ j, ∃ o, PTS.splitLoop f j (W.map (fun w => (⟨n w, none⟩ : Piece)) ++ qs) = .ok (o, .ok (W.flatMap items ++ rs))
  | [], _ => h
  | w :: W, hW => by
    intro j
    obtain ⟨o, ho⟩ := splitLoop_words n items h W (fun x hx => hW x (by simp [hx])) (j + 1)
    obtain ⟨h1, h2⟩ := hW w (by simp) j
    have e : (items w).filter (fun it => !it.ns.isEmpty) = items w := by
      rw [List.filter_eq_self]
      intro it hit
      simp [h2 it hit]
    refine ⟨⟨n w, none⟩ :: o, ?_⟩
    simp only [List.map_cons, List.cons_append, PTS.splitLoop, h1, GoM.bind_ok, ho, e, List.flatMap_cons, List.append_assoc, GoM.pure_eq]

/-- `g` puts delimiters around the runes that satisfy `q`, with the alignments of these runes. -/
def SpacesAround (p q : Rune → Bool) (g : NormalizeFunc) (ns : NS) : Prop :=
  ∃ (m : NS) (cs : List Ch) (d : Ch → Ch), g ns = .ok (m, none) ∧ WF ns ∧ Repr ns cs ∧ WF m ∧ Repr m (spacedBy (fun c => q c.1) d cs)
    ∧ m.original = ns.original ∧ m.originalShift = ns.originalShift ∧ ∀ c, p (d c).1 = true

/-- To normalize with `g` and then pre-tokenize with `T` is to pre-tokenize with `T'`. -/
def DoneBy (g : NormalizeFunc) (T T' : PreTokenizer) (p : PTS) : Prop :=
  ∃ a c, p.normalize g = .ok (a, none) ∧ T a = .ok (c, none) ∧ T' p = .ok (c, none)

/-- One pre-tokenizer after the other, as far as there is no error. -/
def thenPre (T U : PreTokenizer) : PreTokenizer := fun p => do
  let (p, e) ← T p
  match e with
  | some e => pure (p, some e)
  | none => U p

/-- The split that removes the runes that satisfy `p`. -/
def removing (p : Rune → Bool) : PreTokenizer := fun P => P.split (splitByPattern (fromFunc p) .removed)

/-- The split that makes pieces of their own of the runes that satisfy `q`. -/
def isolating (q : Rune → Bool) : PreTokenizer := fun P => P.split (splitByPattern (fromFunc q) .isolated)

/-- **C120, PreTokenizedStrings.**  To put delimiters around runes before the delimiters are removed is to remove the delimiters and then
to isolate the runes. -/
theorem C120_pts {p q : Rune → Bool} (hpq : ∀ r, q r = true → p r = false) {g : NormalizeFunc} {P : PTS}
    (h : AllFree (SpacesAround p q g) P) : DoneBy g (removing p) (thenPre (removing p) (isolating q)) P := by
  suffices H : ∀ (ps : List Piece), (∀ sp ∈ ps, sp.tokens = none → SpacesAround p q g sp.ns) →
      ∃ as qs rs, PTS.normalizeLoop g ps = .ok (as, none)
        ∧ (∀ i, ∃ o, PTS.splitLoop (splitByPattern (fromFunc p) .removed) i as = .ok (o, .ok rs))
        ∧ (∀ i, ∃ o, PTS.splitLoop (splitByPattern (fromFunc p) .removed) i ps = .ok (o, .ok qs))
        ∧ (∀ i, ∃ o, PTS.splitLoop (splitByPattern (fromFunc q) .isolated) i qs = .ok (o, .ok rs)) by
    obtain ⟨as, qs, rs, h1, h2, h3, h4⟩ := H P.splits h
    obtain ⟨o2, h2⟩ := h2 0
    obtain ⟨o3, h3⟩ := h3 0
    obtain ⟨o4, h4⟩ := h4 0
    exact ⟨⟨P.original, as⟩, ⟨P.original, rs⟩, by simp [PTS.normalize, h1], by simp [removing, PTS.split, h2],
      by simp [thenPre, removing, isolating, PTS.split, h3, h4]⟩
  intro ps
  induction ps with
  | nil => intro _; exact ⟨[], [], [], rfl, fun _ => ⟨[], rfl⟩, fun _ => ⟨[], rfl⟩, fun _ => ⟨[], rfl⟩⟩
  | cons sp ps ih =>
    intro h
    obtain ⟨as, qs, rs, h1, h2, h3, h4⟩ := ih fun x hx => h x (by simp [hx])
    cases ht : sp.tokens with
    | some ts =>
      refine ⟨sp :: as, sp :: qs, sp :: rs, by simp [PTS.normalizeLoop, ht, h1], fun i => ?_, fun i => ?_, fun i => ?_⟩
      · obtain ⟨o, e⟩ := h2 (i + 1); exact ⟨sp :: o, by simp [PTS.splitLoop, ht, e]⟩
      · obtain ⟨o, e⟩ := h3 (i + 1); exact ⟨sp :: o, by simp [PTS.splitLoop, ht, e]⟩
      · obtain ⟨o, e⟩ := h4 (i + 1); exact ⟨sp :: o, by simp [PTS.splitLoop, ht, e]⟩
    | none =>
      obtain ⟨m, cs, d, m1, m2, m3, m4, m5, m6, m7, m8⟩ := h sp (by simp) ht
      obtain ⟨xs, x1, x2⟩ := split_words p m2 m3
      obtain ⟨ys, y1, y2⟩ := split_words p m4 m5
      rw [wordsBy_spacedBy (p := fun c : Ch => p c.1) m8 (fun c hc => hpq _ hc)] at y2
      have ep : pieceOf m = pieceOf sp.ns := by
        funext B
        simp only [pieceOf, m6, m7]
      rw [ep] at y2
      have key : ∀ w ∈ wordsBy (fun c : Ch => p c.1) cs, ∀ j,
          splitByPattern (fromFunc q) .isolated j (pieceOf sp.ns w) = .ok (pieceOf sp.ns w,
            .ok (splitsFromNormalizedStrings ((isolBy (fun c : Ch => q c.1) w).map (pieceOf sp.ns))))
          ∧ ∀ it ∈ splitsFromNormalizedStrings ((isolBy (fun c : Ch => q c.1) w).map (pieceOf sp.ns)), it.ns.isEmpty = false := by
        intro w hw j
        obtain ⟨hw0, u, v, e⟩ := wordsBy_mem hw
        refine ⟨?_, ?_⟩
        · have := split_isol q m2 (A := u) (B := w) (C := v) (by rw [← e]; exact m3) hw0
          simp [splitByPattern, this]
        · intro it hit
          obtain ⟨n, hn, rfl⟩ := List.mem_map.1 hit
          obtain ⟨x, hx, rfl⟩ := List.mem_map.1 hn
          rw [← charSegs_isol q w] at hx
          obtain ⟨y, hy, rfl⟩ := List.mem_map.1 hx
          have := pieceOf_get_ne (ns := sp.ns) (((fromFunc_cuts q).chars w).2.2 y hy)
          simpa [NS.isEmpty, NS.get] using this
      refine ⟨⟨m, none⟩ :: as, (wordsBy (fun c : Ch => p c.1) cs).map (fun w => (⟨pieceOf sp.ns w, none⟩ : Piece)) ++ qs,
        (wordsBy (fun c : Ch => p c.1) cs).flatMap
          (fun w => splitsFromNormalizedStrings ((isolBy (fun c : Ch => q c.1) w).map (pieceOf sp.ns))) ++ rs, ?_, fun i => ?_, fun i => ?_, ?_⟩
      · simp [PTS.normalizeLoop, ht, m1, h1]
      · obtain ⟨o, e⟩ := h2 (i + 1)
        refine ⟨⟨m, none⟩ :: o, ?_⟩
        have : (wordsBy (fun c : Ch => p c.1) cs).flatMap
            (fun w => splitsFromNormalizedStrings ((isolBy (fun c : Ch => q c.1) w).map (pieceOf sp.ns)))
            = (splitsFromNormalizedStrings ys).filter fun it => !it.ns.isEmpty := by
          rw [filter_splits, y2]
          simp [splitsFromNormalizedStrings, List.map_flatMap]
        rw [this]
        simp [PTS.splitLoop, splitByPattern, y1, e]
      · obtain ⟨o, e⟩ := h3 (i + 1)
        refine ⟨⟨sp.ns, none⟩ :: o, ?_⟩
        have : (wordsBy (fun c : Ch => p c.1) cs).map (fun w => (⟨pieceOf sp.ns w, none⟩ : Piece))
            = (splitsFromNormalizedStrings xs).filter fun it => !it.ns.isEmpty := by
          rw [filter_splits, x2]
          simp [splitsFromNormalizedStrings, Function.comp_def]
        rw [this]
        simp [PTS.splitLoop, ht, splitByPattern, x1, e]
      · exact splitLoop_words (pieceOf sp.ns) _ h4 _ key

/-! ## The BERT tokenizer -/

/-- `Normalize` with a function that calls `handleChineseChars`. -/
def chineseNormalize : NormalizeFunc := fun ns => do
  let ns ← handleChineseChars ns
  pure (ns, none)

theorem spaces_chinese {ns : NS} (h : WholeNS ns) : SpacesAround isWhiteSpace isChinese chineseNormalize ns := by
  obtain ⟨hwf, cs, h⟩ := h
  obtain ⟨m, m1, m2, m3, m4⟩ := handleChineseChars_spec h
  exact ⟨m, cs, fun c => (0x20, c.2), by simp [chineseNormalize, m1], hwf, h,
    Op.run_wf (op := .transform ((runesOf ns.normalized).flatMap chineseChange) 0) hwf m1, m2, m3, m4, fun _ => rfl⟩

/-- **C120.**  With the handling of Chinese characters on, the white-space-split pre-tokenizer isolates them. -/
theorem C120_whiteSpaceSplit {P : PTS} (h : WholePTS P) :
    DoneBy chineseNormalize whiteSpaceSplit (thenPre whiteSpaceSplit (isolating isChinese)) P :=
  C120_pts (fun _ hr => chinese_not_white hr) fun sp hsp ht => spaces_chinese (h sp hsp ht)

/-- Splits of whole strings succeed and give whole strings. -/
theorem split_whole (p : Rune → Bool) (b : Behavior) {P : PTS} (h : WholePTS P) :
    ∃ q, P.split (splitByPattern (fromFunc p) b) = .ok (q, none) ∧ WholePTS q := by
  obtain ⟨-, -, q, -, -, h4, -, h5⟩ := C118_pts (f := id) (fromFunc_blind (p := p) fun r hr => by rw [show sanitize (id r) = r from sanitize_of_valid hr]) b P h
  exact ⟨q, h4, h5⟩

/-- **C120, BERT.**  The words, then the Chinese characters, then the punctuation. -/
theorem C120_bert (u : Uni) {P : PTS} (h : WholePTS P) :
    DoneBy chineseNormalize (bertPreTokenize u) (thenPre (thenPre whiteSpaceSplit (isolating isChinese)) (isolating u.isPunct)) P := by
  obtain ⟨a, c, h1, h2, h3⟩ := C120_whiteSpaceSplit h
  obtain ⟨q1, e1, w1⟩ := split_whole isWhiteSpace .removed h
  obtain ⟨q2, e2, w2⟩ := split_whole isChinese .isolated w1
  have e3 : thenPre whiteSpaceSplit (isolating isChinese) P = .ok (q2, none) := by
    simp only [thenPre, whiteSpaceSplit, isolating, e1, GoM.bind_ok, e2]
  have : c = q2 := by rw [h3] at e3; simpa using e3
  subst this
  obtain ⟨q3, e4, -⟩ := split_whole u.isPunct .isolated w2
  refine ⟨a, q3, h1, ?_, ?_⟩
  · show (do let (p, e) ← whiteSpaceSplit a; match e with | some e => pure (p, some e) | none => p.split (splitByPattern (fromFunc u.isPunct) .isolated)) = _
    simp only [h2, GoM.bind_ok, e4]
  · show (do let (p, e) ← thenPre whiteSpaceSplit (isolating isChinese) P; match e with | some e => pure (p, some e) | none => isolating u.isPunct p) = _
    simp only [h3, GoM.bind_ok]
    exact e4

/-- One normalization after another. -/
theorem normalize_then {g g' gg : NormalizeFunc} {P : PTS}
    (h : ∀ sp ∈ P.splits, sp.tokens = none → ∃ m, g sp.ns = .ok (m, none) ∧ WholeNS m ∧ gg sp.ns = g' m) :
    ∃ a, P.normalize g = .ok (a, none) ∧ WholePTS a ∧ ∀ c, a.normalize g' = .ok (c, none) → P.normalize gg = .ok (c, none) := by
  suffices H : ∀ ps : List Piece, (∀ sp ∈ ps, sp.tokens = none → ∃ m, g sp.ns = .ok (m, none) ∧ WholeNS m ∧ gg sp.ns = g' m) →
      ∃ as, PTS.normalizeLoop g ps = .ok (as, none) ∧ (∀ sp ∈ as, sp.tokens = none → WholeNS sp.ns)
        ∧ ∀ cs, PTS.normalizeLoop g' as = .ok (cs, none) → PTS.normalizeLoop gg ps = .ok (cs, none) by
    obtain ⟨as, h1, h2, h3⟩ := H P.splits h
    refine ⟨⟨P.original, as⟩, by simp [PTS.normalize, h1], h2, ?_⟩
    intro c hc
    simp only [PTS.normalize, GoM.bind_eq_ok] at hc ⊢
    obtain ⟨⟨cs, e⟩, hc1, hc2⟩ := hc
    simp only [GoM.pure_eq, GoM.ok.injEq, Prod.mk.injEq] at hc2
    obtain ⟨rfl, rfl⟩ := hc2
    exact ⟨(cs, none), h3 cs hc1, rfl⟩
  intro ps
  induction ps with
  | nil => intro _; exact ⟨[], rfl, by simp, fun cs h => h⟩
  | cons sp ps ih =>
    intro h
    obtain ⟨as, h1, h2, h3⟩ := ih fun x hx => h x (by simp [hx])
    cases ht : sp.tokens with
    | some ts =>
      refine ⟨sp :: as, by simp [PTS.normalizeLoop, ht, h1], ?_, ?_⟩
      · intro x hx hn
        rcases List.mem_cons.1 hx with rfl | hx
        · rw [ht] at hn; cases hn
        · exact h2 x hx hn
      · intro cs hc
        simp only [PTS.normalizeLoop, ht, GoM.bind_eq_ok] at hc ⊢
        obtain ⟨⟨ds, e⟩, hc1, hc2⟩ := hc
        simp only [GoM.pure_eq, GoM.ok.injEq, Prod.mk.injEq] at hc2
        obtain ⟨rfl, rfl⟩ := hc2
        exact ⟨(ds, none), h3 ds hc1, rfl⟩
    | none =>
      obtain ⟨m, m1, m2, m3⟩ := h sp (by simp) ht
      refine ⟨⟨m, none⟩ :: as, by simp [PTS.normalizeLoop, ht, m1, h1], ?_, ?_⟩
      · intro x hx hn
        rcases List.mem_cons.1 hx with rfl | hx
        · exact m2
        · exact h2 x hx hn
      · intro cs hc
        simp only [PTS.normalizeLoop, ht, GoM.bind_eq_ok] at hc ⊢
        obtain ⟨⟨n, e⟩, hc1, hc2⟩ := hc
        refine ⟨(n, e), by rw [m3]; exact hc1, ?_⟩
        cases e with
        | some e => simp at hc2
        | none =>
          simp only [GoM.bind_eq_ok] at hc2 ⊢
          obtain ⟨⟨ds, e⟩, hc3, hc4⟩ := hc2
          simp only [GoM.pure_eq, GoM.ok.injEq, Prod.mk.injEq] at hc4
          obtain ⟨rfl, rfl⟩ := hc4
          exact ⟨(ds, none), h3 ds hc3, rfl⟩

/-- The BERT normalizer that handles Chinese characters and lower-cases, and does nothing else. -/
def chineseLower : BertCfg := ⟨false, true, false, true⟩

/-- **C120, BERT normalizer and pre-tokenizer.**  With the tables of Unicode: the words of the text, with the Chinese characters and the
punctuation on their own, in lower case. -/
theorem C120_normalizer {P : PTS} (h : WholePTS P) : ∃ a q c, P.normalize (bertNormalize Unicode.uni chineseLower) = .ok (a, none)
    ∧ bertPreTokenize Unicode.uni a = .ok (c, none)
    ∧ thenPre (thenPre whiteSpaceSplit (isolating isChinese)) (isolating Unicode.uni.isPunct) P = .ok (q, none)
    ∧ q.normalize (mapNormalize Unicode.toLower) = .ok (c, none) := by
  obtain ⟨a1, q, h1, h2, h3⟩ := C120_bert Unicode.uni h
  obtain ⟨a1', n1, n2, n3⟩ := normalize_then (g := chineseNormalize) (g' := mapNormalize Unicode.toLower)
    (gg := bertNormalize Unicode.uni chineseLower) (P := P) (by
      intro sp hsp ht
      obtain ⟨m, cs, d, m1, m2, m3, m4, m5, -⟩ := spaces_chinese (h sp hsp ht)
      refine ⟨m, m1, ⟨m4, _, m5⟩, ?_⟩
      have m0 : handleChineseChars sp.ns = .ok m := by
        simp only [chineseNormalize, GoM.bind_eq_ok, GoM.pure_eq, GoM.ok.injEq, Prod.mk.injEq] at m1
        obtain ⟨x, hx, rfl, -⟩ := m1
        exact hx
      simp only [bertNormalize, chineseLower, Bool.false_eq_true, if_false, if_true, GoM.pure_eq, GoM.bind_ok, m0, mapNormalize, NS.toLower]
      rfl)
  rw [h1] at n1
  simp only [GoM.ok.injEq, Prod.mk.injEq, and_true] at n1
  subst n1
  obtain ⟨a, c, q', e1, e2, e3, e4, -⟩ := C118_lower.2.1 a1 n2
  rw [h2] at e3
  simp only [GoM.ok.injEq, Prod.mk.injEq, and_true] at e3
  subst e3
  exact ⟨a, q, c, n3 a e1, e2, h3, e4⟩

/-- "Aé中文b, 一" with the characters apart. -/
example : (do
      let (a, _) ← (PTS.fromString b!"Aé中文b, 一").normalize (bertNormalize Unicode.uni chineseLower)
      let (c, _) ← bertPreTokenize Unicode.uni a
      pure c.getOriginalByteSplits)
    = .ok [⟨b!"aé", ⟨0, 3⟩, none⟩, ⟨b!"中", ⟨3, 6⟩, none⟩, ⟨b!"文", ⟨6, 9⟩, none⟩, ⟨b!"b", ⟨9, 10⟩, none⟩, ⟨b!",", ⟨10, 11⟩, none⟩,
        ⟨b!"一", ⟨12, 15⟩, none⟩] := by decide +kernel

/-- Without the handling of Chinese characters they stay in their words. -/
example : (do
      let (c, _) ← bertPreTokenize Unicode.uni (PTS.fromString b!"Aé中文b, 一")
      pure c.getOriginalByteSplits)
    = .ok [⟨b!"Aé中文b", ⟨0, 10⟩, none⟩, ⟨b!",", ⟨10, 11⟩, none⟩, ⟨b!"一", ⟨12, 15⟩, none⟩] := by decide +kernel

/-- Characters put apart with another rune than white space would not be cut: the rune must be a delimiter. -/
theorem C120_counterexample : ∃ (g : NormalizeFunc) (P : PTS), WholePTS P
    ∧ g = (fun ns => do let ns ← ns.transform ((runesOf ns.normalized).flatMap fun r => if isChinese r then [⟨95, 0⟩, ⟨r, 1⟩, ⟨95, 1⟩] else [⟨r, 0⟩]) 0; pure (ns, none))
    ∧ (do let (a, _) ← P.normalize g; whiteSpaceSplit a) ≠ thenPre whiteSpaceSplit (isolating isChinese) P := by
  refine ⟨_, PTS.fromString b!"a中", ?_, rfl, by decide +kernel⟩
  intro sp hsp _
  have : sp = ⟨NS.fromString b!"a中", none⟩ := by simpa [PTS.fromString, PTS.fromNormalizedString] using hsp
  subst this
  exact wholeNS_of_history (ops := []) (by decide +kernel) (by simp) rfl

end Verif
