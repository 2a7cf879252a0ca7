import Verif.Lemmas.Pieces
import Verif.Props.History
import Verif.Props.MetaSpace

/-! Cutting any well-formed state with a pattern, and cutting the pieces again. -/

set_option autoImplicit false

namespace Verif

/-! ## Cutting one list like another -/

/-- Cut the list into segments as long as the given ones. -/
def cutAs {α β : Type} : List (Bool × List α) → List β → List (Bool × List β)
  | [], _ => []
  | (b, g) :: t, l => (b, l.take g.length) :: cutAs t (l.drop g.length)

theorem cutAs_flatten {α β : Type} : ∀ (t : List (Bool × List α)) (l : List β),
    (t.flatMap (·.2)).length = l.length → (cutAs t l).flatMap (·.2) = l := by
  intro t
  induction t with
  | nil => intro l h; simp at h; simp [cutAs, List.length_eq_zero_iff.1 h.symm]
  | cons x t ih =>
    intro l h
    obtain ⟨b, g⟩ := x
    simp only [List.flatMap_cons, List.length_append] at h
    simp only [cutAs, List.flatMap_cons]
    rw [ih _ (by rw [List.length_drop]; omega), List.take_append_drop]

theorem cutAs_map {α β : Type} (f : β → α) : ∀ (t : List (Bool × List α)) (l : List β),
    t.flatMap (·.2) = l.map f → (cutAs t l).map (fun x => (x.1, x.2.map f)) = t := by
  intro t
  induction t with
  | nil => intro l _; rfl
  | cons x t ih =>
    intro l h
    obtain ⟨b, g⟩ := x
    simp only [List.flatMap_cons] at h
    have h1 : (l.map f).take g.length = g := by rw [← h]; simp
    have h2 : (l.map f).drop g.length = t.flatMap (·.2) := by rw [← h]; simp
    simp only [cutAs, List.map_cons, List.map_take, h1]
    rw [ih _ (by rw [List.map_drop, h2])]

theorem locate_map {α β : Type} (f : α → β) (keep : Bool) : ∀ (t : List (Bool × List α)) (pre : List α),
    (locate keep pre t).map (fun x => (x.1.map f, x.2.map f))
      = locate keep (pre.map f) (t.map fun x => (x.1, x.2.map f)) := by
  intro t
  induction t with
  | nil => intro pre; rfl
  | cons x t ih =>
    intro pre
    obtain ⟨b, g⟩ := x
    simp only [locate, List.map_append, List.map_cons, ih]
    congr 1
    split <;> simp

theorem locate_kept (keep : Bool) : ∀ (t : List (Bool × List Ch)) (pre : List Ch),
    (t.filter (kept keep)).map (·.2) = (locate keep pre t).map (·.2) := by
  intro t
  induction t with
  | nil => intro pre; rfl
  | cons x t ih =>
    intro pre
    obtain ⟨b, g⟩ := x
    simp only [locate, List.map_append, ← ih (pre ++ g)]
    cases b <;> cases keep <;> simp [kept]

/-! ## Patterns given by the segments they find -/

/-- The pattern cuts every valid text that is not empty into these segments. -/
structure CutsSegs (pattern : SplitPattern) (seg : List Rune → List (Bool × List Rune)) : Prop where
  caps : ∀ rs : List Rune, (∀ r ∈ rs, ValidRune r) → rs ≠ [] →
    pattern (encodeRunes rs) = .ok (.ok (capsOf 0 (seg rs)))
  flatten : ∀ rs : List Rune, (seg rs).flatMap (·.2) = rs
  ne : ∀ rs : List Rune, ∀ x ∈ seg rs, x.2 ≠ []
  empty : ∃ b, pattern [] = .ok (.ok [⟨⟨0, 0⟩, b⟩])

theorem fromFunc_cuts (f : Rune → Bool) : CutsSegs (fromFunc f) (segs f) where
  caps _ hv hne := fromFunc_caps f hv hne
  flatten rs := segs_flatten f rs
  ne rs := segs_ne_nil f rs
  empty := ⟨false, rfl⟩

theorem CutsSegs.nil {pattern : SplitPattern} {seg : List Rune → List (Bool × List Rune)} (h : CutsSegs pattern seg) :
    seg [] = [] := by
  have h1 := h.flatten []
  have h2 := h.ne []
  cases hs : seg [] with
  | nil => rfl
  | cons x t =>
    rw [hs] at h1 h2
    simp at h1
    exact absurd h1.1 (h2 x (by simp))

/-- The segments of the characters. -/
def charSegs (seg : List Rune → List (Bool × List Rune)) (cs : List Ch) : List (Bool × List Ch) :=
  cutAs (seg (cs.map (·.1))) cs

theorem CutsSegs.chars {pattern : SplitPattern} {seg : List Rune → List (Bool × List Rune)} (h : CutsSegs pattern seg)
    (cs : List Ch) : segRunes (charSegs seg cs) = seg (cs.map (·.1)) ∧ (charSegs seg cs).flatMap (·.2) = cs
      ∧ ∀ x ∈ charSegs seg cs, x.2 ≠ [] := by
  have h1 : segRunes (charSegs seg cs) = seg (cs.map (·.1)) := cutAs_map _ _ _ (h.flatten _)
  refine ⟨h1, cutAs_flatten _ _ (by rw [h.flatten, List.length_map]), ?_⟩
  intro x hx e
  refine h.ne (cs.map (·.1)) (x.1, x.2.map (·.1)) (h1 ▸ List.mem_map.2 ⟨x, hx, rfl⟩) ?_
  simp [e]

/-- The words of the characters of a piece standing after `A`. -/
def charWords (seg : List Rune → List (Bool × List Rune)) (keep : Bool) (x : List Ch × List Ch) : List (List Ch × List Ch) :=
  locate keep x.1 (charSegs seg x.2)

theorem CutsSegs.words {pattern : SplitPattern} {seg : List Rune → List (Bool × List Rune)} (h : CutsSegs pattern seg)
    (keep : Bool) (x : List Ch × List Ch) :
    wordRunes (charWords seg keep x) = locate keep (x.1.map (·.1)) (seg (x.2.map (·.1))) := by
  have := locate_map (·.1) keep (charSegs seg x.2) x.1
  rw [← (h.chars x.2).1]
  exact this

theorem CutsSegs.stands {pattern : SplitPattern} {seg : List Rune → List (Bool × List Rune)} (h : CutsSegs pattern seg)
    (keep : Bool) (x : List Ch × List Ch) (C : List Ch) : StandsIn (x.1 ++ x.2 ++ C) (charWords seg keep x) := by
  intro y hy
  obtain ⟨t1, b, t2, e1, e2, -⟩ := mem_locate keep _ _ y hy
  obtain ⟨-, c2, c3⟩ := h.chars x.2
  refine ⟨c3 _ (by rw [e1]; simp : (b, y.2) ∈ _), t2.flatMap (·.2) ++ C, ?_⟩
  conv => lhs; rw [← c2, e1]
  rw [e2]; simp

/-! ## Splitting any state -/

theorem split_state {ns : NS} (hwf : WF ns) {cs : List Ch} (h : Repr ns cs) (hne : cs ≠ [])
    {pattern : SplitPattern} {seg : List Rune → List (Bool × List Rune)} (hp : CutsSegs pattern seg) (keep : Bool) (A : List Ch) :
    ns.split pattern (if keep then .isolated else .removed)
      = .ok (.ok ((charWords seg keep (A, cs)).map fun x => pieceOf ns x.2)) := by
  obtain ⟨c1, c2, c3⟩ := hp.chars cs
  have hv : ∀ r ∈ cs.map (·.1), ValidRune r := by
    intro r hr; obtain ⟨c, hc, rfl⟩ := List.mem_map.1 hr; exact h.valid c hc
  have := split_chars hwf keep (pattern := pattern) (t := charSegs seg cs) c3 (by rw [c2]; exact h)
    (by rw [h.text_eq, c1]; exact hp.caps _ hv (by simp [hne]))
  rw [this]
  have e := locate_kept keep (charSegs seg cs) A
  have := congrArg (List.map (pieceOf ns)) e
  rw [List.map_map, List.map_map] at this
  simp only [charWords]
  exact congrArg (fun l => GoM.ok (Except.ok l)) this

theorem pieceOf_wf {ns : NS} (hwf : WF ns) {A B C : List Ch} (h : Repr ns (A ++ B ++ C)) (hB : B ≠ []) :
    WF (pieceOf ns B) := slice_wf hwf (slice_chars hwf h hB)

theorem text_move (k : Int) (cs : List Ch) : text (moveLeft k cs) = text cs := by
  simp [text, moveLeft_runes]

theorem moveLeft_append (k : Int) (a b : List Ch) : moveLeft k (a ++ b) = moveLeft k a ++ moveLeft k b := by
  simp [moveLeft]

theorem moveLeft_ne {k : Int} {a : List Ch} (h : a ≠ []) : moveLeft k a ≠ [] := by simpa [moveLeft] using h

/-- A piece of a piece is a piece. -/
theorem pieceOf_pieceOf {ns : NS} (hwf : WF ns) {A P G Q C : List Ch} (h : Repr ns (A ++ (P ++ G ++ Q) ++ C))
    (hG : G ≠ []) : pieceOf (pieceOf ns (P ++ G ++ Q)) (moveLeft (firstAlign (P ++ G ++ Q)).start G) = pieceOf ns G := by
  have hB : P ++ G ++ Q ≠ [] := by simp [hG]
  have s1 := slice_chars hwf h hB
  have hv : ValidChars (P ++ G ++ Q) := fun c hc => h.valid c (by
    rw [List.mem_append, List.mem_append]; exact Or.inl (Or.inr hc))
  have hr := pieceOf_repr ns hv
  rw [moveLeft_append, moveLeft_append] at hr
  have s2 := slice_chars (pieceOf_wf hwf h hB) hr (moveLeft_ne hG)
  rw [← moveLeft_append, text_move, text_move] at s2
  have hl : 0 < (text G).length := List.length_pos_iff.2 (fun h => hG (text_eq_nil.1 h))
  have s3 := (slice_slice s1 s2 (by simp; omega)).1
  have h' : Repr ns ((A ++ P) ++ G ++ (Q ++ C)) := by simpa using h
  have s4 := slice_chars hwf h' hG
  have e1 : ((text A).length + (text P).length : Int) = (text (A ++ P)).length := by simp
  have e2 : ((text A).length + (text (P ++ G)).length : Int) = (text (A ++ P ++ G)).length := by simp
  rw [e1, e2, s4] at s3
  simpa using s3.symm

theorem moveLeft_words (seg : List Rune → List (Bool × List Rune)) (keep : Bool) (k : Int) (B : List Ch) :
    charWords seg keep ([], moveLeft k B)
      = (charWords seg keep ([], B)).map fun x => (moveLeft k x.1, moveLeft k x.2) := by
  have h1 : charSegs seg (moveLeft k B) = (charSegs seg B).map fun x => (x.1, moveLeft k x.2) := by
    simp only [charSegs, moveLeft_runes]
    generalize seg (B.map (·.1)) = t
    induction t generalizing B with
    | nil => rfl
    | cons x t ih =>
      obtain ⟨b, g⟩ := x
      simp only [cutAs, List.map_cons]
      have e1 : (moveLeft k B).take g.length = moveLeft k (B.take g.length) := by simp [moveLeft, List.map_take]
      have e2 : (moveLeft k B).drop g.length = moveLeft k (B.drop g.length) := by simp [moveLeft, List.map_drop]
      rw [e1, e2, ih]
  have := locate_map (fun c : Ch => ((c.1, ⟨c.2.start - k, c.2.stop - k⟩) : Ch)) keep (charSegs seg B) []
  simp only [charWords, h1]
  exact this.symm

theorem charWords_shift (seg : List Rune → List (Bool × List Rune)) (keep : Bool) (A B : List Ch) :
    charWords seg keep (A, B) = (charWords seg keep ([], B)).map fun x => (A ++ x.1, x.2) := by
  have := locate_shift keep (charSegs seg B) A []
  simpa [charWords] using this

/-- Splitting a piece: the pieces of the state for the words of the piece. -/
theorem split_piece {ns : NS} (hwf : WF ns) {A B C : List Ch} (h : Repr ns (A ++ B ++ C)) (hB : B ≠ [])
    {pattern : SplitPattern} {seg : List Rune → List (Bool × List Rune)} (hp : CutsSegs pattern seg) (keep : Bool) :
    (pieceOf ns B).split pattern (if keep then .isolated else .removed)
      = .ok (.ok ((charWords seg keep (A, B)).map fun x => pieceOf ns x.2)) := by
  have hv : ValidChars B := fun c hc => h.valid c (by simp [hc])
  rw [split_state (pieceOf_wf hwf h hB) (pieceOf_repr ns hv) (moveLeft_ne hB) hp keep [], moveLeft_words, charWords_shift seg keep A B]
  rw [List.map_map, List.map_map]
  congr 2
  apply List.map_congr_left
  intro x hx
  obtain ⟨hne, Q, e⟩ := hp.stands keep ([], B) [] x hx
  simp only [List.nil_append, List.append_nil] at e
  simp only [Function.comp_apply]
  conv => lhs; rw [e]
  exact pieceOf_pieceOf (A := A) (C := C) hwf (by rw [← e]; exact h) hne

theorem pieceOf_get_ne {ns : NS} {B : List Ch} (h : B ≠ []) : (pieceOf ns B).get ≠ [] :=
  fun h' => h (text_eq_nil.1 h')

/-- `PreTokenizedString.Split` on pieces of a state. -/
theorem pts_split_chars {ns : NS} (hwf : WF ns) {cs : List Ch} (h : Repr ns cs) (o : Str) (L : List (List Ch × List Ch))
    (hL : StandsIn cs L) {pattern : SplitPattern} {seg : List Rune → List (Bool × List Rune)} (hp : CutsSegs pattern seg)
    (keep : Bool) :
    (PTS.mk o (charPieces ns L)).split (splitByPattern pattern (if keep then .isolated else .removed))
      = .ok (⟨o, charPieces ns (L.flatMap (charWords seg keep))⟩, none) := by
  have key : ∀ p ∈ charPieces ns L, ∃ x ∈ L, p = ⟨pieceOf ns x.2, none⟩ := by
    intro p hp
    obtain ⟨x, hx, rfl⟩ := List.mem_map.1 hp
    exact ⟨x, hx, rfl⟩
  have hf : ∀ x ∈ L, ∀ j, splitByPattern pattern (if keep then .isolated else .removed) j (pieceOf ns x.2)
      = .ok (pieceOf ns x.2, .ok (charPieces ns (charWords seg keep x))) := by
    intro x hx j
    obtain ⟨hne, C, e⟩ := hL x hx
    simp only [splitByPattern, split_piece hwf (e ▸ h) hne hp keep, GoM.bind_ok,
      splitsFromNormalizedStrings, charPieces, List.map_map]
    rfl
  have := split_pieces o (charPieces ns L) (splitByPattern pattern (if keep then .isolated else .removed))
    (fun p => p.ns)
    (fun p => match splitByPattern pattern (if keep then .isolated else .removed) 0 p.ns with
      | .ok (_, .ok r) => r
      | _ => []) (by
      intro p hp
      obtain ⟨x, hx, rfl⟩ := key p hp
      refine ⟨rfl, fun j => ?_⟩
      rw [hf x hx j, hf x hx 0])
  rw [this]
  congr 3
  unfold charPieces
  rw [List.flatMap_map, List.map_flatMap]
  clear this key
  induction L with
  | nil => rfl
  | cons x L ih =>
    rw [List.flatMap_cons, List.flatMap_cons, ih (fun y hy => hL y (by simp [hy]))
      (fun y hy => hf y (by simp [hy]))]
    congr 1
    rw [hf x (by simp) 0]
    simp only
    apply List.filter_eq_self.2
    intro q hq
    obtain ⟨y, hy, rfl⟩ := List.mem_map.1 hq
    simp only [decide_eq_true_eq]
    exact pieceOf_get_ne (hp.stands keep x [] y hy).1

/-- The same on the state itself. -/
theorem pts_split_state {ns : NS} (hwf : WF ns) {cs : List Ch} (h : Repr ns cs) (o : Str)
    {pattern : SplitPattern} {seg : List Rune → List (Bool × List Rune)} (hp : CutsSegs pattern seg) (keep : Bool) :
    (PTS.mk o [⟨ns, none⟩]).split (splitByPattern pattern (if keep then .isolated else .removed))
      = .ok (⟨o, charPieces ns (charWords seg keep ([], cs))⟩, none) := by
  by_cases hne : cs = []
  · subst hne
    have hn : ns.normalized = [] := by rw [h.text_eq]; rfl
    obtain ⟨b, hb⟩ := hp.empty
    have hs := slice_empty hwf (a := 0) (by rw [hn]; decide) (by simp [NS.originalLen])
    have hsp : ∃ R : List NS, ns.split pattern (if keep then .isolated else .removed) = .ok (.ok R)
        ∧ ∀ q ∈ R, q.get = [] := by
      obtain ⟨R, h1, h2⟩ := split_of (ns := ns) (b := if keep then .isolated else .removed) (by rw [hn]; exact hb)
        (by
          intro g hg
          have : span g = (0, 0) := by
            revert hg
            cases keep <;> cases b <;> simp [splitGroups] <;> rintro rfl <;> rfl
          rw [this]; exact ⟨_, hs⟩)
      refine ⟨R, h1, ?_⟩
      intro q hq
      obtain ⟨g, hg, e⟩ := All2.exists_left h2 hq
      have : span g = (0, 0) := by
        revert hg
        cases keep <;> cases b <;> simp [splitGroups] <;> rintro rfl <;> rfl
      rw [this, hs] at e
      simp only [GoM.ok.injEq, Option.some.injEq] at e
      rw [← e]; rfl
    obtain ⟨R, h1, h2⟩ := hsp
    have := split_pieces o [⟨ns, none⟩] (splitByPattern pattern (if keep then .isolated else .removed))
      (fun p => p.ns) (fun _ => splitsFromNormalizedStrings R) (by
        intro p hp
        simp at hp; subst hp
        refine ⟨rfl, fun j => ?_⟩
        simp only [splitByPattern, h1, GoM.bind_ok]
        rfl)
    rw [this]
    have e1 : charWords seg keep ([], []) = [] := by simp [charWords, charSegs, hp.nil, cutAs, locate]
    rw [e1]
    congr 3
    simp only [List.flatMap_cons, List.flatMap_nil, List.append_nil, charPieces, List.map_nil]
    rw [List.filter_eq_nil_iff]
    intro q hq
    simp only [splitsFromNormalizedStrings, List.mem_map] at hq
    obtain ⟨n, hn, rfl⟩ := hq
    simp [h2 n hn]
  · have := split_pieces o [⟨ns, none⟩] (splitByPattern pattern (if keep then .isolated else .removed))
      (fun p => p.ns) (fun _ => charPieces ns (charWords seg keep ([], cs))) (by
        intro p hp'
        simp at hp'; subst hp'
        refine ⟨rfl, fun j => ?_⟩
        simp only [splitByPattern, split_state hwf h hne hp keep [], GoM.bind_ok, charPieces,
          splitsFromNormalizedStrings, List.map_map]
        rfl)
    rw [this]
    congr 3
    simp only [List.flatMap_cons, List.flatMap_nil, List.append_nil]
    apply List.filter_eq_self.2
    intro q hq
    obtain ⟨y, hy, rfl⟩ := List.mem_map.1 hq
    simp only [decide_eq_true_eq]
    exact pieceOf_get_ne (hp.stands keep ([], cs) [] y hy).1

end Verif
