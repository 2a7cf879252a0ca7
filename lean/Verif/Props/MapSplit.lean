import Verif.Props.Commute
import Verif.Props.AnyState
import Verif.Props.Unicode
import Verif.Props.MetaPipeline

/-!
C118: normalizing before or after pre-tokenizing.
-/

set_option autoImplicit false

namespace Verif

/-! ## Groups of anything -/

section
variable {α β : Type}

def grpPrev (m : α → Bool) : List α → List (List α)
  | [] => []
  | [a] => [[a]]
  | a :: b :: rest => if !m a && m b then [a, b] :: grpPrev m rest else [a] :: grpPrev m (b :: rest)

def grpNext (m : α → Bool) : List α → List (List α)
  | [] => []
  | [a] => [[a]]
  | a :: b :: rest => if m a && !m b then [a, b] :: grpNext m rest else [a] :: grpNext m (b :: rest)

def grpRuns (m : α → Bool) : List α → List (List α)
  | [] => []
  | a :: rest =>
    match grpRuns m rest with
    | (b :: g) :: gs => if m a = m b then (a :: b :: g) :: gs else [a] :: (b :: g) :: gs
    | gs => [a] :: gs

/-- The groups that the behaviours of `Split` make of the segments of a text, of which the delimiters satisfy `m`. -/
def grp (m : α → Bool) : Behavior → List α → List (List α)
  | .removed, l => (l.filter fun a => !m a).map fun a => [a]
  | .isolated, l => l.map fun a => [a]
  | .mergedWithPrevious, l => grpPrev m l
  | .mergedWithNext, l => grpNext m l
  | .contiguous, l => grpRuns m l

theorem grpPrev_map (m : β → Bool) (h : α → β) (l : List α) :
    grpPrev m (l.map h) = (grpPrev (fun a => m (h a)) l).map (List.map h) := by
  induction l using grpPrev.induct (m := fun a => m (h a)) with
  | case1 => rfl
  | case2 a => rfl
  | case3 a b rest hc ih => simp only [List.map_cons, grpPrev, hc, if_true, ih, List.map_nil]
  | case4 a b rest hc ih =>
    rw [List.map_cons] at ih
    simp only [List.map_cons, grpPrev, hc, ih, Bool.false_eq_true, if_false, List.map_nil]

theorem grpNext_map (m : β → Bool) (h : α → β) (l : List α) :
    grpNext m (l.map h) = (grpNext (fun a => m (h a)) l).map (List.map h) := by
  induction l using grpNext.induct (m := fun a => m (h a)) with
  | case1 => rfl
  | case2 a => rfl
  | case3 a b rest hc ih => simp only [List.map_cons, grpNext, hc, if_true, ih, List.map_nil]
  | case4 a b rest hc ih =>
    rw [List.map_cons] at ih
    simp only [List.map_cons, grpNext, hc, ih, Bool.false_eq_true, if_false, List.map_nil]

theorem grpRuns_map (m : β → Bool) (h : α → β) : ∀ l : List α,
    grpRuns m (l.map h) = (grpRuns (fun a => m (h a)) l).map (List.map h)
  | [] => rfl
  | a :: rest => by
    have ih := grpRuns_map m h rest
    simp only [List.map_cons, grpRuns, ih]
    rcases grpRuns (fun a => m (h a)) rest with _ | ⟨_ | ⟨b, g⟩, gs⟩
    · rfl
    · rfl
    · simp only [List.map_cons]
      split <;> rfl

theorem grp_map (m : β → Bool) (h : α → β) (b : Behavior) (l : List α) :
    grp m b (l.map h) = (grp (fun a => m (h a)) b l).map (List.map h) := by
  cases b with
  | removed => simp [grp, List.filter_map, Function.comp_def]
  | isolated => simp [grp, Function.comp_def]
  | mergedWithPrevious => exact grpPrev_map m h l
  | mergedWithNext => exact grpNext_map m h l
  | contiguous => exact grpRuns_map m h l

theorem splitGroups_grp (b : Behavior) (l : List Capture) : splitGroups b l = grp (·.isMatch) b l := by
  have h1 : ∀ l, groupPrev l = grpPrev (·.isMatch) l := by
    intro l
    induction l using groupPrev.induct with
    | case1 => rfl
    | case2 a => rfl
    | case3 a b rest hc ih => simp only [groupPrev, grpPrev, hc, if_true, ih]
    | case4 a b rest hc ih => simp only [groupPrev, grpPrev, hc, Bool.false_eq_true, if_false, ih]
  have h2 : ∀ l, groupNext l = grpNext (·.isMatch) l := by
    intro l
    induction l using groupNext.induct with
    | case1 => rfl
    | case2 a => rfl
    | case3 a b rest hc ih => simp only [groupNext, grpNext, hc, if_true, ih]
    | case4 a b rest hc ih => simp only [groupNext, grpNext, hc, Bool.false_eq_true, if_false, ih]
  have h3 : ∀ l, groupRuns l = grpRuns (·.isMatch) l := by
    intro l
    induction l with
    | nil => rfl
    | cons a rest ih =>
      simp only [groupRuns, grpRuns, ih]
      generalize grpRuns (fun x : Capture => x.isMatch) rest = G
      rcases G with _ | ⟨_ | ⟨b, g⟩, gs⟩ <;> rfl
  cases b with
  | removed => rfl
  | isolated => rfl
  | mergedWithPrevious => exact h1 l
  | mergedWithNext => exact h2 l
  | contiguous => exact h3 l

/-- A group is not empty and its elements stand next to one another. -/
def Infix (g l : List α) : Prop := g ≠ [] ∧ ∃ u v, l = u ++ g ++ v

theorem Infix.cons {g l : List α} (a : α) (h : Infix g l) : Infix g (a :: l) := by
  obtain ⟨h1, u, v, rfl⟩ := h
  exact ⟨h1, a :: u, v, rfl⟩

theorem grp_infix (m : α → Bool) (b : Behavior) (l : List α) : ∀ g ∈ grp m b l, Infix g l := by
  have one : ∀ (l : List α), ∀ a ∈ l, Infix [a] l := by
    intro l a ha
    obtain ⟨u, v, rfl⟩ := List.append_of_mem ha
    exact ⟨by simp, u, v, by simp⟩
  cases b with
  | removed =>
    intro g hg
    obtain ⟨a, ha, rfl⟩ := List.mem_map.1 hg
    exact one l a (List.mem_filter.1 ha).1
  | isolated =>
    intro g hg
    obtain ⟨a, ha, rfl⟩ := List.mem_map.1 hg
    exact one l a ha
  | mergedWithPrevious =>
    show ∀ g ∈ grpPrev m l, _
    induction l using grpPrev.induct (m := m) with
    | case1 => simp [grpPrev]
    | case2 a => intro g hg; simp [grpPrev] at hg; subst hg; exact one _ a (by simp)
    | case3 a b rest hc ih =>
      intro g hg
      simp only [grpPrev, hc, if_true, List.mem_cons] at hg
      rcases hg with rfl | hg
      · exact ⟨by simp, [], rest, rfl⟩
      · exact ((ih g hg).cons b).cons a
    | case4 a b rest hc ih =>
      intro g hg
      simp only [grpPrev, hc, Bool.false_eq_true, if_false, List.mem_cons] at hg
      rcases hg with rfl | hg
      · exact one _ a (by simp)
      · exact (ih g hg).cons a
  | mergedWithNext =>
    show ∀ g ∈ grpNext m l, _
    induction l using grpNext.induct (m := m) with
    | case1 => simp [grpNext]
    | case2 a => intro g hg; simp [grpNext] at hg; subst hg; exact one _ a (by simp)
    | case3 a b rest hc ih =>
      intro g hg
      simp only [grpNext, hc, if_true, List.mem_cons] at hg
      rcases hg with rfl | hg
      · exact ⟨by simp, [], rest, rfl⟩
      · exact ((ih g hg).cons b).cons a
    | case4 a b rest hc ih =>
      intro g hg
      simp only [grpNext, hc, Bool.false_eq_true, if_false, List.mem_cons] at hg
      rcases hg with rfl | hg
      · exact one _ a (by simp)
      · exact (ih g hg).cons a
  | contiguous =>
    show ∀ g ∈ grpRuns m l, _
    suffices H : (grpRuns m l).flatten = l ∧ ∀ g ∈ grpRuns m l, g ≠ [] by
      intro g hg
      obtain ⟨u, v, e⟩ := List.append_of_mem hg
      refine ⟨H.2 g hg, u.flatten, v.flatten, ?_⟩
      rw [← H.1, e]; simp
    induction l with
    | nil => simp [grpRuns]
    | cons a rest ih =>
      simp only [grpRuns]
      revert ih
      rcases grpRuns m rest with _ | ⟨_ | ⟨b, g⟩, gs⟩
      · rintro ⟨h1, -⟩; simpa using h1
      · rintro ⟨-, h2⟩; exact absurd rfl (h2 [] (by simp))
      · rintro ⟨h1, h2⟩
        simp only
        by_cases hc : m a = m b
        · rw [if_pos hc]
          refine ⟨by simpa using h1, ?_⟩
          intro x hx
          rcases List.mem_cons.1 hx with rfl | hx
          · simp
          · exact h2 x (by simp [hx])
        · rw [if_neg hc]
          refine ⟨by simpa using h1, ?_⟩
          intro x hx
          rcases List.mem_cons.1 hx with rfl | hx
          · simp
          · exact h2 x hx

end

/-! ## Splitting any state with any behaviour -/

/-- Segments with the characters in front of them. -/
def placedSegs : List Ch → List (Bool × List Ch) → List (List Ch × Bool × List Ch)
  | _, [] => []
  | A, x :: t => (A, x) :: placedSegs (A ++ x.2) t

def capAt (x : List Ch × Bool × List Ch) : Capture := ⟨⟨(text x.1).length, (text (x.1 ++ x.2.2)).length⟩, x.2.1⟩

theorem placedSegs_seg : ∀ (t : List (Bool × List Ch)) (A : List Ch), (placedSegs A t).map (·.2) = t
  | [], _ => rfl
  | x :: t, A => by simp [placedSegs, placedSegs_seg t]

theorem placedSegs_caps : ∀ (t : List (Bool × List Ch)) (A : List Ch), (placedSegs A t).map capAt = capsOf (text A).length (segRunes t)
  | [], _ => rfl
  | (b, B) :: t, A => by
    have e2 : ((text (A ++ B)).length : Int) = (text A).length + (encodeRunes (B.map (·.1))).length := by simp [text]
    simp only [placedSegs, List.map_cons, capAt, placedSegs_caps t, segRunes, capsOf]
    rw [e2]

theorem placedSegs_append : ∀ (s t : List (Bool × List Ch)) (A : List Ch),
    placedSegs A (s ++ t) = placedSegs A s ++ placedSegs (A ++ s.flatMap (·.2)) t
  | [], t, A => by simp [placedSegs]
  | x :: s, t, A => by simp [placedSegs, placedSegs_append s t]

theorem placedSegs_of : ∀ (t : List (Bool × List Ch)) (A : List Ch) (u v : List (List Ch × Bool × List Ch)), placedSegs A t = u ++ v →
    v = placedSegs (A ++ (u.map (·.2)).flatMap (·.2)) (v.map (·.2))
  | [], A, u, v, h => by
    have : u = [] ∧ v = [] := by simpa [placedSegs] using h.symm
    rw [this.1, this.2]; rfl
  | x :: t, A, [], v, h => by
    rw [List.nil_append] at h
    subst h
    simp only [List.map_nil, List.flatMap_nil, List.append_nil, placedSegs_seg]
  | x :: t, A, y :: u, v, h => by
    simp only [placedSegs, List.cons_append, List.cons.injEq] at h
    have := placedSegs_of t (A ++ x.2) u v h.2
    rw [← h.1]
    simpa using this

theorem span_placedSegs : ∀ (t : List (Bool × List Ch)) (A : List Ch), t ≠ [] →
    span ((placedSegs A t).map capAt) = (((text A).length : Int), ((text (A ++ t.flatMap (·.2))).length : Int)) := by
  have last : ∀ (t : List (Bool × List Ch)) (A : List Ch) (x : Bool × List Ch) (h : _),
      (((placedSegs A (x :: t)).map capAt).getLast h).offsets.stop = (text (A ++ (x :: t).flatMap (·.2))).length := by
    intro t
    induction t with
    | nil => intro A x h; simp [placedSegs, capAt]
    | cons y t ih =>
      intro A x h
      have := ih (A ++ x.2) y (by simp [placedSegs])
      show ((capAt (A, x) :: (placedSegs (A ++ x.2) (y :: t)).map capAt).getLast _).offsets.stop = _
      rw [List.getLast_cons (by simp [placedSegs]), this]
      simp
  intro t A h
  cases t with
  | nil => exact absurd rfl h
  | cons x t =>
    have := last t A x (by simp [placedSegs])
    rw [← this]
    rfl

/-- **Splitting any well-formed state**, with any behaviour, by a pattern whose captures are given segments: the pieces are those of the
groups of the segments. -/
theorem split_groups_chars {ns : NS} (hwf : WF ns) (b : Behavior) {pattern : SplitPattern} {t : List (Bool × List Ch)}
    (hne : ∀ x ∈ t, x.2 ≠ []) (h : Repr ns (t.flatMap (·.2)))
    (hp : pattern ns.normalized = .ok (.ok (capsOf 0 (segRunes t)))) :
    ns.split pattern b = .ok (.ok ((grp (·.1) b t).map fun g => pieceOf ns (g.flatMap (·.2)))) := by
  refine split_eq hp ?_
  have e1 : splitGroups b (capsOf 0 (segRunes t)) = (grp (fun x => (capAt x).isMatch) b (placedSegs [] t)).map (List.map capAt) := by
    rw [splitGroups_grp, ← grp_map, placedSegs_caps]; rfl
  have e2 : grp (·.1) b t = (grp (fun x => (capAt x).isMatch) b (placedSegs [] t)).map (List.map (·.2)) := by
    conv => lhs; rw [← placedSegs_seg t [], grp_map]
    rfl
  rw [e1, e2, List.map_map]
  have key : ∀ g ∈ grp (fun x => (capAt x).isMatch) b (placedSegs [] t),
      ns.slice (.normalized (span (g.map capAt)).1 (span (g.map capAt)).2) = .ok (some (pieceOf ns ((g.map (·.2)).flatMap (·.2)))) := by
    intro g hg
    obtain ⟨hg0, u, v, e⟩ := grp_infix _ b _ g hg
    have p1 := placedSegs_of t [] u (g ++ v) (by rw [e, List.append_assoc])
    rw [List.map_append, placedSegs_append] at p1
    have p2 := (List.append_inj p1 (by
      rw [← List.length_map (as := placedSegs _ _) (f := (·.2)), placedSegs_seg, List.length_map])).1
    have hs := congrArg (List.map (·.2)) e
    rw [placedSegs_seg, List.map_append, List.map_append] at hs
    rw [hs, List.flatMap_append, List.flatMap_append] at h
    have hB : (g.map (·.2)).flatMap (·.2) ≠ [] := by
      cases g with
      | nil => exact absurd rfl hg0
      | cons x g =>
        have := hne x.2 (by rw [hs]; simp)
        simp [this]
    have hsl := slice_chars hwf h hB
    have : span (g.map capAt) = (((text ((u.map (·.2)).flatMap (·.2))).length : Int),
        ((text ((u.map (·.2)).flatMap (·.2) ++ (g.map (·.2)).flatMap (·.2))).length : Int)) := by
      conv => lhs; rw [p2]
      rw [List.nil_append]
      exact span_placedSegs _ _ (by simpa using hg0)
    rw [this]
    exact hsl
  revert key
  generalize grp (fun x => (capAt x).isMatch) b (placedSegs [] t) = G
  intro key
  induction G with
  | nil => exact .nil
  | cons g G ih => exact .cons (key g (by simp)) (ih fun x hx => key x (by simp [hx]))

/-! ## Patterns that cut the mapped text where another one cuts the text -/

/-- `pattern` cuts a text mapped by `f` where `pattern'` cuts the text itself. -/
structure CutsMapped (f : Rune → Rune) (pattern pattern' : SplitPattern) (seg seg' : List Rune → List (Bool × List Rune)) : Prop where
  here : CutsSegs pattern seg
  there : CutsSegs pattern' seg'
  same : ∀ rs : List Rune, (∀ r ∈ rs, ValidRune r) →
    seg (rs.map fun r => sanitize (f r)) = (seg' rs).map fun x => (x.1, x.2.map fun r => sanitize (f r))
  empty : pattern [] = pattern' []

theorem fromFunc_mapped (f : Rune → Rune) (p : Rune → Bool) :
    CutsMapped f (fromFunc p) (fromFunc fun r => p (sanitize (f r))) (segs p) (segs fun r => p (sanitize (f r))) where
  here := fromFunc_cuts _
  there := fromFunc_cuts _
  same rs _ := segs_map p _ rs
  empty := rfl

theorem fromFunc_congr {p q : Rune → Bool} (h : ∀ r, ValidRune r → p r = q r) {rs : List Rune} (hv : ∀ r ∈ rs, ValidRune r) :
    segs p rs = segs q rs := by
  induction rs with
  | nil => rfl
  | cons r rs ih =>
    have ih := ih fun x hx => hv x (by simp [hx])
    simp only [segs, ih, h r (hv r (by simp))]

/-- A condition that does not tell a rune from its image. -/
theorem fromFunc_blind {f : Rune → Rune} {p : Rune → Bool} (h : ∀ r, ValidRune r → p (sanitize (f r)) = p r) :
    CutsMapped f (fromFunc p) (fromFunc p) (segs p) (segs p) where
  here := fromFunc_cuts _
  there := fromFunc_cuts _
  same rs hv := by rw [segs_map p _ rs, fromFunc_congr h hv]
  empty := rfl

/-- A string whose characters and alignments fit (C02, C53): what calls on valid texts give. -/
def WholeNS (ns : NS) : Prop := WF ns ∧ ∃ cs, Repr ns cs

/-- Histories of calls that keep their contract (C53) give such strings. -/
theorem wholeNS_of_history {s : Str} (hs : ValidUtf8 s) {ops : List Op} (hops : ∀ op ∈ ops, op.Proper) {ns : NS}
    (h : runOps (NS.fromString s) ops = .ok ns) : WholeNS ns :=
  ⟨C02_history_wf hs h, (C53_whole_runes hs hops h).2⟩

/-- **C118, strings.**  To split a mapped string, with any behaviour, is to split the string where the mapped runes are cut, and to map
the pieces. -/
theorem C118_split {f : Rune → Rune} {pattern pattern' : SplitPattern} {seg seg' : List Rune → List (Bool × List Rune)}
    (hp : CutsMapped f pattern pattern' seg seg') (b : Behavior) {ns : NS} (hs : WholeNS ns) :
    ∃ m ps qs, ns.map f = .ok m ∧ m.split pattern b = .ok (.ok qs) ∧ ns.split pattern' b = .ok (.ok ps)
      ∧ All2 (fun x y => NS.map x f = .ok y ∧ WholeNS x ∧ (x.get = [] ↔ y.get = [])) ps qs := by
  obtain ⟨hwf, cs, h⟩ := hs
  obtain ⟨m, m1, m2, m3⟩ := C05_map h f
  have mwf : WF m := Op.run_wf (op := .map f) hwf m1
  replace m2 : Repr m (cs.map (mapCh f)) := m2
  by_cases hne : cs = []
  · subst hne
    have em : m = ns := m2.ext h m3.1 m3.2
    subst em
    have hn : m.normalized = [] := by rw [h.text_eq]; rfl
    obtain ⟨k, hk⟩ := hp.here.empty
    have hs := slice_empty hwf (a := 0) (by rw [hn]; decide) (by simp [NS.originalLen])
    have hspan : ∀ g ∈ splitGroups b [⟨⟨0, 0⟩, k⟩], span g = (0, 0) := by
      intro g hg
      revert hg
      cases b <;> cases k <;> simp [splitGroups, groupPrev, groupNext, groupRuns] <;> rintro rfl <;> rfl
    obtain ⟨R, h1, h2⟩ := split_of (ns := m) (b := b) (by rw [hn]; exact hk) (by
      intro g hg
      rw [hspan g hg]; exact ⟨_, hs⟩)
    have h1' : m.split pattern' b = .ok (.ok R) := by
      rw [← h1]
      unfold NS.split
      rw [hn, hp.empty]
    refine ⟨m, R, R, m1, h1, h1', ?_⟩
    have hR : ∀ q ∈ R, q = ⟨[], [], [], m.originalShift + 0⟩ := by
      intro q hq
      obtain ⟨g, hg, e⟩ := All2.exists_left h2 hq
      rw [hspan g hg, hs] at e
      simp only [GoM.ok.injEq, Option.some.injEq] at e
      exact e.symm
    clear h1 h1' h2
    have hrep : ∀ k : Int, Repr ⟨[], [], [], k⟩ [] := fun k => ⟨rfl, rfl, by simp [ValidChars]⟩
    induction R with
    | nil => exact .nil
    | cons q R ih =>
      refine .cons ?_ (ih fun x hx => hR x (by simp [hx]))
      rw [hR q (by simp)]
      refine ⟨?_, ⟨⟨rfl, .nil, by simp⟩, [], hrep _⟩, Iff.rfl⟩
      obtain ⟨x, x1, x2, x3⟩ := C05_map (hrep (m.originalShift + 0)) f
      rw [x1, x2.ext (hrep (m.originalShift + 0)) x3.1 x3.2]
  · have hv : ∀ r ∈ cs.map (·.1), ValidRune r := h.runes_valid
    have e0 : (cs.map (mapCh f)).map (·.1) = (cs.map (·.1)).map fun r => sanitize (f r) := by simp [Function.comp_def, mapCh]
    have et : charSegs seg (cs.map (mapCh f)) = (charSegs seg' cs).map fun x => (x.1, x.2.map (mapCh f)) := by
      unfold charSegs
      rw [e0, hp.same _ hv, cutAs_mapped]
    have c1 := hp.there.chars cs
    have c2 := hp.here.chars (cs.map (mapCh f))
    have s1 := split_groups_chars hwf b c1.2.2 (by rw [c1.2.1]; exact h) (pattern := pattern') (by
      rw [c1.1, h.norm_eq]
      exact hp.there.caps _ hv (by simpa using hne))
    have s2 := split_groups_chars mwf b c2.2.2 (by rw [c2.2.1]; exact m2) (pattern := pattern) (by
      rw [c2.1, m2.norm_eq]
      exact hp.here.caps _ m2.runes_valid (by simpa using hne))
    refine ⟨m, _, _, m1, s2, s1, ?_⟩
    rw [et, grp_map, List.map_map]
    have key : ∀ g ∈ grp (·.1) b (charSegs seg' cs), WholeNS (pieceOf ns (g.flatMap (·.2))) ∧ ValidChars (g.flatMap (·.2)) ∧ g.flatMap (·.2) ≠ [] := by
      intro g hg
      obtain ⟨g0, u, v, e⟩ := grp_infix _ b _ g hg
      have hB : g.flatMap (·.2) ≠ [] := by
        cases g with
        | nil => exact absurd rfl g0
        | cons x g => simp [c1.2.2 x (by rw [e]; simp)]
      have h' := h
      rw [← c1.2.1, e, List.flatMap_append, List.flatMap_append] at h'
      have hv : ValidChars (g.flatMap (·.2)) := fun c hc => h'.valid c (by simp only [List.mem_append]; exact .inl (.inr hc))
      exact ⟨⟨pieceOf_wf hwf h' hB, _, pieceOf_repr ns hv⟩, hv, hB⟩
    revert key
    generalize grp (·.1) b (charSegs seg' cs) = G
    intro key
    induction G with
    | nil => exact .nil
    | cons g G ih =>
      refine .cons ?_ (ih fun x hx => key x (by simp [hx]))
      obtain ⟨k1, k2, k3⟩ := key g (by simp)
      have e : (g.map fun x => (x.1, x.2.map (mapCh f))).flatMap (·.2) = (g.flatMap (·.2)).map (mapCh f) := by
        rw [List.flatMap_map, List.map_flatMap]
      refine ⟨?_, k1, ?_⟩
      · simp only [Function.comp_apply, e]
        exact pieceOf_map f k2 m3.1 m3.2
      · simp only [Function.comp_apply, e]
        have a1 := pieceOf_get_ne (ns := ns) k3
        have a2 := pieceOf_get_ne (ns := m) (B := (g.flatMap (·.2)).map (mapCh f)) (by simpa using k3)
        exact ⟨fun h => absurd h a1, fun h => absurd h a2⟩

/-! ## Regular expressions that look at the lower case -/

/-- The expression does not tell the runes of a text from their images. -/
def Re.Blind (g : Rune → Rune) : Re → Prop
  | .chr p => ∀ r, ValidRune r → p (g r) = p r
  | .seq a b => a.Blind g ∧ b.Blind g
  | .alt a b => a.Blind g ∧ b.Blind g
  | .opt a => a.Blind g
  | .plus p => ∀ r, ValidRune r → p (g r) = p r
  | .notAhead p => ∀ r, ValidRune r → p (g r) = p r

theorem Re.Blind.matches {g : Rune → Rune} : ∀ {re : Re}, re.Blind g → ∀ rs : List Rune, (∀ r ∈ rs, ValidRune r) →
    re.matches' (rs.map g) = re.matches' rs
  | .chr p, h, rs, hv => by
    cases rs with
    | nil => rfl
    | cons r rs => simp only [List.map_cons, matches', h r (hv r (by simp))]
  | .seq a b, h, rs, hv => by
    simp only [matches', h.1.matches rs hv]
    congr 1
    funext k
    rw [← List.map_drop, h.2.matches _ fun r hr => hv r (List.mem_of_mem_drop hr)]
  | .alt a b, h, rs, hv => by simp only [matches', h.1.matches rs hv, h.2.matches rs hv]
  | .opt a, h, rs, hv => by
    have h : a.Blind g := h
    simp only [matches', h.matches rs hv]
  | .plus p, h, rs, hv => by
    have : ((rs.map g).takeWhile p).length = (rs.takeWhile p).length := by
      induction rs with
      | nil => rfl
      | cons r rs ih =>
        simp only [List.map_cons, List.takeWhile_cons, h r (hv r (by simp))]
        split
        · simp [ih fun x hx => hv x (by simp [hx])]
        · rfl
    simp only [matches', this]
  | .notAhead p, h, rs, hv => by
    cases rs with
    | nil => rfl
    | cons r rs => simp only [List.map_cons, matches', h r (hv r (by simp))]

theorem Re.Blind.scan {g : Rune → Rune} {re : Re} (h : re.Blind g) : ∀ (rs : List Rune) (i skip : Nat), (∀ r ∈ rs, ValidRune r) →
    re.scan (rs.map g) i skip = re.scan rs i skip
  | [], i, 0, _ => rfl
  | [], i, k + 1, _ => rfl
  | r :: rs, i, 0, hv => by
    have e : re.first ((r :: rs).map g) = re.first (r :: rs) := by simp only [first, h.matches _ hv]
    have ih := fun j k => h.scan rs j k fun x hx => hv x (by simp [hx])
    simp only [List.map_cons, Re.scan] at e ⊢
    rw [e]
    simp only [ih]
  | r :: rs, i, k + 1, hv => by
    have ih := h.scan rs (i + 1) k fun x hx => hv x (by simp [hx])
    simpa only [List.map_cons, Re.scan] using ih

/-- No match is empty. -/
def Re.solid : Re → Bool
  | .chr _ => true
  | .seq a b => a.solid || b.solid
  | .alt a b => a.solid && b.solid
  | .opt _ => false
  | .plus _ => true
  | .notAhead _ => false

theorem Re.solid_pos : ∀ {re : Re}, re.solid = true → ∀ (rs : List Rune), ∀ k ∈ re.matches' rs, 0 < k
  | .chr p, _, rs, k, hk => by
    cases rs with
    | nil => simp [matches'] at hk
    | cons r rs => simp only [matches'] at hk; split at hk <;> simp at hk; omega
  | .seq a b, h, rs, k, hk => by
    simp only [matches', List.mem_flatMap, List.mem_map] at hk
    obtain ⟨i, hi, j, hj, rfl⟩ := hk
    simp only [solid, Bool.or_eq_true] at h
    rcases h with h | h
    · have := solid_pos h rs i hi; omega
    · have := solid_pos h _ j hj; omega
  | .alt a b, h, rs, k, hk => by
    simp only [solid, Bool.and_eq_true] at h
    simp only [matches', List.mem_append] at hk
    rcases hk with hk | hk
    · exact solid_pos h.1 rs k hk
    · exact solid_pos h.2 rs k hk
  | .plus p, _, rs, k, hk => by
    simp only [matches', List.mem_map] at hk
    obtain ⟨i, -, rfl⟩ := hk
    omega

theorem Re.scan_pos {re : Re} (h : re.solid = true) : ∀ (rs : List Rune) (i skip : Nat), ∀ m ∈ re.scan rs i skip, 0 < m.2
  | [], i, 0, m, hm => by
    simp only [Re.scan] at hm
    split at hm
    · next k hk =>
      simp at hm; subst hm
      exact solid_pos h _ k (List.mem_of_mem_head? hk)
    · simp at hm
  | [], i, k + 1, m, hm => by simp [Re.scan] at hm
  | r :: rs, i, 0, m, hm => by
    simp only [Re.scan] at hm
    split at hm
    · next k hk =>
      rcases List.mem_cons.1 hm with rfl | hm
      · exact solid_pos h _ k (List.mem_of_mem_head? hk)
      · exact scan_pos h rs _ _ m hm
    · exact scan_pos h rs _ _ m hm
  | r :: rs, i, k + 1, m, hm => by
    simp only [Re.scan] at hm
    exact scan_pos h rs _ _ m hm

def reSegs (re : Re) (rs : List Rune) : List (Bool × List Rune) := matchSegs 0 (re.scan rs 0 0) rs

theorem reSegs_cuts {re : Re} (h : re.solid = true) : CutsSegs (fromRegexp2 re.findAll) (reSegs re) where
  caps rs hv hne := fromRegexp2_caps re.findAll hv hne rfl (re.findAll_ordered rs)
  flatten rs := by
    have ho := re.findAll_ordered rs
    rcases matchSegs_flatten (re.scan rs 0 0) 0 rs with h | h
    · exact h
    · exact absurd (by simpa using ho) h
  ne rs := matchSegs_ne_nil (re.scan rs 0 0) 0 rs (Re.scan_pos h rs 0 0) (by simpa using re.findAll_ordered rs)
  empty := ⟨false, rfl⟩

theorem not_cuts {pattern : SplitPattern} {seg : List Rune → List (Bool × List Rune)} (h : CutsSegs pattern seg) :
    CutsSegs (invert pattern) fun rs => (seg rs).map fun x => (!x.1, x.2) where
  caps rs hv hne := by simp only [invert, h.caps rs hv hne, capsOf_not]
  flatten rs := by rw [List.flatMap_map]; exact h.flatten rs
  ne rs x hx := by
    obtain ⟨y, hy, rfl⟩ := List.mem_map.1 hx
    exact h.ne rs y hy
  empty := by
    obtain ⟨b, hb⟩ := h.empty
    exact ⟨!b, by simp only [invert, hb]; rfl⟩

theorem re_mapped {f : Rune → Rune} {re : Re} (h : re.solid = true) (hb : re.Blind fun r => sanitize (f r)) :
    CutsMapped f (fromRegexp2 re.findAll) (fromRegexp2 re.findAll) (reSegs re) (reSegs re) where
  here := reSegs_cuts h
  there := reSegs_cuts h
  same rs hv := by
    unfold reSegs
    rw [hb.scan rs 0 0 hv, matchSegs_map]
  empty := rfl

theorem CutsMapped.not {f : Rune → Rune} {pattern pattern' : SplitPattern} {seg seg' : List Rune → List (Bool × List Rune)}
    (h : CutsMapped f pattern pattern' seg seg') : CutsMapped f (invert pattern) (invert pattern')
      (fun rs => (seg rs).map fun x => (!x.1, x.2)) (fun rs => (seg' rs).map fun x => (!x.1, x.2)) where
  here := not_cuts h.here
  there := not_cuts h.there
  same rs hv := by rw [h.same rs hv]; simp [Function.comp_def]
  empty := by unfold invert; rw [h.empty]

/-- What the engine sees of a rune is its lower case. -/
def LowerBlind (u : RxUni) (f : Rune → Rune) : Prop := ∀ r, ValidRune r → u.lower (sanitize (f r)) = u.lower r

theorem lit_blind {u : RxUni} {f : Rune → Rune} (h : LowerBlind u f) : ∀ s : List Rune, (Re.lit u.lower s).Blind fun r => sanitize (f r)
  | [] => fun _ _ => rfl
  | [c] => fun r hr => by simp only [h r hr]
  | c :: d :: s => ⟨fun r hr => by simp only [h r hr], lit_blind h (d :: s)⟩

theorem word_blind {u : RxUni} {f : Rune → Rune} (h : LowerBlind u f) : (wordRegexp u).Blind fun r => sanitize (f r) := by
  refine ⟨?_, ?_⟩ <;> intro r hr <;> simp only [RxUni.word, RxUni.symbol, RxUni.space, h r hr]

theorem splitting_blind {u : RxUni} {f : Rune → Rune} (h : LowerBlind u f) : (splittingRegexp u).Blind fun r => sanitize (f r) := by
  have l := lit_blind h
  have c : ∀ r, ValidRune r → u.letter (sanitize (f r)) = u.letter r ∧ u.number (sanitize (f r)) = u.number r
      ∧ u.space (sanitize (f r)) = u.space r ∧ u.other (sanitize (f r)) = u.other r := by
    intro r hr
    simp only [RxUni.letter, RxUni.number, RxUni.space, RxUni.other, h r hr, and_self]
  exact ⟨l _, l _, l _, l _, l _, l _, l _, ⟨l _, fun r hr => (c r hr).1⟩, ⟨l _, fun r hr => (c r hr).2.1⟩, ⟨l _, fun r hr => (c r hr).2.2.2⟩,
    ⟨fun r hr => (c r hr).2.2.1, fun r hr => by simp only [(c r hr).2.2.1]⟩, fun r hr => (c r hr).2.2.1⟩

/-! ## `PreTokenizedString`s -/

/-- `Normalize` with a function that maps the runes. -/
def mapNormalize (f : Rune → Rune) : NormalizeFunc := fun ns => do
  let ns ← ns.map f
  pure (ns, none)

/-- All strings without tokens are made of whole characters. -/
def WholePTS (p : PTS) : Prop := ∀ sp ∈ p.splits, sp.tokens = none → WholeNS sp.ns

/-- To normalize and then pre-tokenize with `T` is to pre-tokenize with `T'` and then normalize. -/
def Swaps (f : Rune → Rune) (T T' : PreTokenizer) : Prop := ∀ p : PTS, WholePTS p →
  ∃ a c q, p.normalize (mapNormalize f) = .ok (a, none) ∧ T a = .ok (c, none)
    ∧ T' p = .ok (q, none) ∧ q.normalize (mapNormalize f) = .ok (c, none) ∧ WholePTS q

theorem swaps_then {f : Rune → Rune} {T T' U U' : PreTokenizer} (h1 : Swaps f T T') (h2 : Swaps f U U') :
    Swaps f (fun p => do let (p, e) ← T p; match e with | some e => pure (p, some e) | none => U p)
      (fun p => do let (p, e) ← T' p; match e with | some e => pure (p, some e) | none => U' p) := by
  intro p hp
  obtain ⟨a, c, q, e1, e2, e3, e4, hq⟩ := h1 p hp
  obtain ⟨a', c', q', e1', e2', e3', e4', hq'⟩ := h2 q hq
  rw [e4] at e1'
  simp only [GoM.ok.injEq, Prod.mk.injEq, and_true] at e1'
  subst e1'
  exact ⟨a, c', q', e1, by simp only [e2, GoM.bind_ok, e2'], by simp only [e3, GoM.bind_ok, e3'], e4', hq'⟩

theorem normalizeLoop_append {g : NormalizeFunc} : ∀ {s t s' t' : List Piece}, PTS.normalizeLoop g s = .ok (s', none) →
    PTS.normalizeLoop g t = .ok (t', none) → PTS.normalizeLoop g (s ++ t) = .ok (s' ++ t', none)
  | [], t, s', t', h1, h2 => by
    simp only [PTS.normalizeLoop, GoM.ok.injEq, Prod.mk.injEq, and_true] at h1
    subst h1
    simpa using h2
  | p :: s, t, s', t', h1, h2 => by
    rw [List.cons_append]
    unfold PTS.normalizeLoop at h1 ⊢
    cases ht : p.tokens with
    | some x =>
      simp only [ht, GoM.bind_eq_ok] at h1 ⊢
      obtain ⟨⟨u, e⟩, h3, h4⟩ := h1
      simp only [GoM.pure_eq, GoM.ok.injEq, Prod.mk.injEq] at h4
      obtain ⟨rfl, rfl⟩ := h4
      exact ⟨(u ++ t', none), normalizeLoop_append h3 h2, rfl⟩
    | none =>
      simp only [ht, GoM.bind_eq_ok] at h1 ⊢
      obtain ⟨⟨n, e⟩, h3, h4⟩ := h1
      refine ⟨(n, e), h3, ?_⟩
      cases e with
      | some e => simp [GoM.pure_eq] at h4
      | none =>
        simp only [GoM.bind_eq_ok] at h4 ⊢
        obtain ⟨⟨u, e⟩, h5, h6⟩ := h4
        simp only [GoM.pure_eq, GoM.ok.injEq, Prod.mk.injEq] at h6
        obtain ⟨rfl, rfl⟩ := h6
        exact ⟨(u ++ t', none), normalizeLoop_append h5 h2, rfl⟩

theorem normalizeLoop_pieces {f : Rune → Rune} {ps qs : List NS}
    (h : All2 (fun x y => NS.map x f = .ok y ∧ WholeNS x ∧ (x.get = [] ↔ y.get = [])) ps qs) :
    PTS.normalizeLoop (mapNormalize f) ((splitsFromNormalizedStrings ps).filter fun it => !it.ns.isEmpty)
      = .ok ((splitsFromNormalizedStrings qs).filter fun it => !it.ns.isEmpty, none) := by
  induction h with
  | nil => rfl
  | @cons x y xs ys hxy _ ih =>
    obtain ⟨h1, -, h3⟩ := hxy
    have e : y.isEmpty = x.isEmpty := by
      rw [Bool.eq_iff_iff]
      simp only [NS.isEmpty, beq_iff_eq, List.length_eq_zero_iff]
      exact h3.symm
    unfold splitsFromNormalizedStrings at ih ⊢
    simp only [List.map_cons, List.filter_cons, e]
    split
    · simp only [PTS.normalizeLoop, mapNormalize, h1, GoM.bind_ok, GoM.pure_eq]
      rw [ih]
      rfl
    · exact ih

/-- A split function on mapped strings, and another one on strings, of which the former gives the mapped pieces. -/
def FuncSwaps (f : Rune → Rune) (sf sf' : SplitFunc) : Prop := ∀ ns : NS, WholeNS ns →
  ∃ m x y ps qs, ns.map f = .ok m ∧ (∀ i, sf i m = .ok (x, .ok (splitsFromNormalizedStrings qs)))
    ∧ (∀ i, sf' i ns = .ok (y, .ok (splitsFromNormalizedStrings ps)))
    ∧ All2 (fun x y => NS.map x f = .ok y ∧ WholeNS x ∧ (x.get = [] ↔ y.get = [])) ps qs

/-- **C118, split functions.**  Splits with and without tokens. -/
theorem C118_func {f : Rune → Rune} {sf sf' : SplitFunc} (hf : FuncSwaps f sf sf') : Swaps f (fun p => p.split sf) (fun p => p.split sf') := by
  intro p hs
  suffices H : ∀ (ps : List Piece) (i : Nat), (∀ sp ∈ ps, sp.tokens = none → WholeNS sp.ns) →
      ∃ as cs qs o1 o2, PTS.normalizeLoop (mapNormalize f) ps = .ok (as, none)
        ∧ PTS.splitLoop sf i as = .ok (o1, .ok cs)
        ∧ PTS.splitLoop sf' i ps = .ok (o2, .ok qs)
        ∧ PTS.normalizeLoop (mapNormalize f) qs = .ok (cs, none) ∧ ∀ sp ∈ qs, sp.tokens = none → WholeNS sp.ns by
    obtain ⟨as, cs, qs, o1, o2, h1, h2, h3, h4, h5⟩ := H p.splits 0 hs
    exact ⟨⟨p.original, as⟩, ⟨p.original, cs⟩, ⟨p.original, qs⟩, by simp [PTS.normalize, h1], by simp [PTS.split, h2],
      by simp [PTS.split, h3], by simp [PTS.normalize, h4], h5⟩
  intro ps
  induction ps with
  | nil => intro i _; exact ⟨[], [], [], [], [], rfl, rfl, rfl, rfl, by simp⟩
  | cons sp ps ih =>
    intro i h
    obtain ⟨as, cs, qs, o1, o2, h1, h2, h3, h4, h5⟩ := ih (i + 1) fun x hx => h x (by simp [hx])
    cases ht : sp.tokens with
    | some ts =>
      refine ⟨sp :: as, sp :: cs, sp :: qs, sp :: o1, sp :: o2, ?_, ?_, ?_, ?_, ?_⟩
      · simp [PTS.normalizeLoop, ht, h1]
      · simp [PTS.splitLoop, ht, h2]
      · simp [PTS.splitLoop, ht, h3]
      · simp [PTS.normalizeLoop, ht, h4]
      · intro x hx hn
        rcases List.mem_cons.1 hx with rfl | hx
        · rw [ht] at hn; cases hn
        · exact h5 x hx hn
    | none =>
      obtain ⟨m, x, y, xs, ys, m1, m2, m3, m4⟩ := hf sp.ns (h sp (by simp) ht)
      have s1 := m2 i
      have s2 := m3 i
      have s3 : mapNormalize f sp.ns = .ok (m, none) := by simp [mapNormalize, m1]
      refine ⟨⟨m, none⟩ :: as, (splitsFromNormalizedStrings ys).filter (fun it => !it.ns.isEmpty) ++ cs,
        (splitsFromNormalizedStrings xs).filter (fun it => !it.ns.isEmpty) ++ qs, ⟨x, none⟩ :: o1, ⟨y, none⟩ :: o2, ?_, ?_, ?_, ?_, ?_⟩
      · simp [PTS.normalizeLoop, ht, s3, h1]
      · simp [PTS.splitLoop, s1, h2]
      · simp [PTS.splitLoop, ht, s2, h3]
      · exact normalizeLoop_append (normalizeLoop_pieces m4) h4
      · intro x hx hn
        rcases List.mem_append.1 hx with hx | hx
        · obtain ⟨n, hn, rfl⟩ := List.mem_map.1 (List.mem_filter.1 hx).1
          clear s1 s2 m2 m3
          rename_i hx0
          clear hx hx0
          induction m4 with
          | nil => simp at hn
          | cons hxy _ ih =>
            rcases List.mem_cons.1 hn with rfl | hn
            · exact hxy.2.1
            · exact ih hn
        · exact h5 x hx hn

/-- **C118, PreTokenizedStrings.**  Any pattern, any behaviour. -/
theorem C118_pts {f : Rune → Rune} {pattern pattern' : SplitPattern} {seg seg' : List Rune → List (Bool × List Rune)}
    (hp : CutsMapped f pattern pattern' seg seg') (b : Behavior) :
    Swaps f (fun p => p.split (splitByPattern pattern b)) (fun p => p.split (splitByPattern pattern' b)) := by
  refine C118_func fun ns hs => ?_
  obtain ⟨m, xs, ys, m1, m2, m3, m4⟩ := C118_split hp b hs
  exact ⟨m, m, ns, xs, ys, m1, fun i => by simp [splitByPattern, m2], fun i => by simp [splitByPattern, m3], m4⟩

/-! ## The pre-tokenizers -/

/-- **C118, white space split.** -/
theorem C118_whiteSpaceSplit {f : Rune → Rune} (h : ∀ r, ValidRune r → isWhiteSpace (sanitize (f r)) = isWhiteSpace r) :
    Swaps f whiteSpaceSplit whiteSpaceSplit := C118_pts (fromFunc_blind h) .removed

/-- **C118, BERT.** -/
theorem C118_bert {u : Uni} {f : Rune → Rune} (h : ∀ r, ValidRune r → isWhiteSpace (sanitize (f r)) = isWhiteSpace r)
    (h' : ∀ r, ValidRune r → u.isPunct (sanitize (f r)) = u.isPunct r) : Swaps f (bertPreTokenize u) (bertPreTokenize u) :=
  swaps_then (C118_whiteSpaceSplit h) (C118_pts (fromFunc_blind h') .isolated)

/-- **C118, rune delimiter.** -/
theorem C118_runeDelimiter {f : Rune → Rune} {d : Rune} (h : ∀ r, ValidRune r → (sanitize (f r) = d ↔ r = d)) :
    Swaps f (runeDelimiter d) (runeDelimiter d) :=
  C118_pts (fromFunc_blind fun r hr => by rw [Bool.eq_iff_iff]; simp [h r hr]) .removed

/-- **C118, white space with the default expression.** -/
theorem C118_whiteSpace {u : RxUni} {f : Rune → Rune} (h : LowerBlind u f) : Swaps f (whiteSpaceDefault u) (whiteSpaceDefault u) :=
  C118_pts (re_mapped (re := wordRegexp u) rfl (word_blind h)).not .removed

/-- **C118, the expression of GPT-2.** -/
theorem C118_gpt2 {u : RxUni} {f : Rune → Rune} (h : LowerBlind u f) (b : Behavior) :
    Swaps f (fun p => p.split (splitByPattern (fromRegexp2 (splittingRegexp u).findAll) b))
      (fun p => p.split (splitByPattern (fromRegexp2 (splittingRegexp u).findAll) b)) :=
  C118_pts (re_mapped (re := splittingRegexp u) rfl (splitting_blind h)) b

/-- **C118, meta space.** -/
theorem C118_metaSpace {f : Rune → Rune} {R : Rune} (hR : ValidRune R) (prefixSpace : Bool) (h32 : ∀ r, ValidRune r → (sanitize (f r) = 32 ↔ r = 32))
    (hf : ∀ r, ValidRune r → (sanitize (f r) = R ↔ r = R)) : Swaps f (metaSpace R prefixSpace) (metaSpace R prefixSpace) := by
  have hRR : sanitize (f R) = R := (hf R hR).2 rfl
  refine C118_func fun ns hs => ?_
  obtain ⟨hwf, cs, h⟩ := hs
  obtain ⟨m, m1, m2, m3⟩ := C05_map h f
  have mwf : WF m := Op.run_wf (op := .map f) hwf m1
  replace m2 : Repr m (cs.map (mapCh f)) := m2
  obtain ⟨n2, a1, a2, a3, a4, a5⟩ := metaSpace_chars hwf h hR prefixSpace
  obtain ⟨k2, b1, b2, b3, b4, b5⟩ := metaSpace_chars mwf m2 hR prefixSpace
  obtain ⟨n2', xs, ys, c1, c2, c3, c4⟩ := C118_split (f := f) (pattern := fromRune R) (pattern' := fromRune R)
    (fromFunc_blind fun r hr => by rw [Bool.eq_iff_iff]; simp [hf r hr]) .mergedWithNext ⟨a3, _, a2⟩
  have e : n2' = k2 := by
    obtain ⟨q, q1, q2, q3⟩ := C05_map a2 f
    rw [c1] at q1
    cases q1
    refine q2.ext ?_ (by rw [q3.1, a4, b4, m3.1]) (by rw [q3.2, a5, b5, m3.2])
    have : metaChars R prefixSpace (cs.map (mapCh f)) = (metaChars R prefixSpace cs).map (mapCh f) := by
      have hm : ∀ l : List Ch, ValidChars l → (l.map (mapCh f)).map (fun c => ((if c.1 = 32 then R else c.1, c.2) : Ch))
          = (l.map fun c => ((if c.1 = 32 then R else c.1, c.2) : Ch)).map (mapCh f) := by
        intro l hl
        rw [List.map_map, List.map_map]
        apply List.map_congr_left
        intro c hc
        show ((if sanitize (f c.1) = 32 then R else sanitize (f c.1), c.2) : Ch) = (sanitize (f (if c.1 = 32 then R else c.1)), c.2)
        by_cases hc32 : c.1 = 32
        · rw [if_pos ((h32 c.1 (hl c hc)).2 hc32), if_pos hc32, hRR]
        · rw [if_neg (fun h => hc32 ((h32 c.1 (hl c hc)).1 h)), if_neg hc32]
      unfold metaChars
      rw [List.map_append, hm cs h.valid]
      congr 1
      cases cs with
      | nil => rfl
      | cons c cs =>
        have := hf c.1 (h.valid c (by simp))
        simp only [List.map_cons, mapCh, ne_eq, this]
        split
        · simp [mapCh, hRR]
        · rfl
    rw [this] at b2
    exact b2
  subst e
  refine ⟨m, n2', n2, xs, ys, m1, fun i => ?_, fun i => ?_, c4⟩
  · rw [b1 i]; simp [splitByPattern, c2]
  · rw [a1 i]; simp [splitByPattern, c3]

/-- `Swaps` for the same pre-tokenizer: the results are the same, whichever comes first, and so are the tokens that any model gives to
them and the encodings. -/
theorem C118_encoding {f : Rune → Rune} {T : PreTokenizer} (h : Swaps f T T) {p : PTS} (hp : WholePTS p)
    (tok : NS → GoM (Except Err (List Token))) (wi ti : Int) :
    (do
      let (a, _) ← p.normalize (mapNormalize f)
      let (c, _) ← T a
      let (t, _) ← c.tokenize tok
      t.intoEncoding wi ti)
    = (do
      let (q, _) ← T p
      let (c, _) ← q.normalize (mapNormalize f)
      let (t, _) ← c.tokenize tok
      t.intoEncoding wi ti) := by
  obtain ⟨a, c, q, h1, h2, h3, h4, -⟩ := h p hp
  simp only [h1, h2, h3, h4, GoM.bind_ok]

/-! ## `LowerCaseNormalizer` with the tables of Unicode -/

open Unicode (toLower uni rx toLower_valid toLower_space C94_classes C94_toLower_twice C94_sane toLower_cases tableLower
  domain image inTable disjoint disjoint_spec)

theorem lowerCase_map (ns : NS) : lowerCaseNormalize uni ns = mapNormalize toLower ns := rfl

theorem lower_valid_classes (r : Rune) (hr : ValidRune r) : isWhiteSpace (sanitize (toLower r)) = isWhiteSpace r
    ∧ uni.isPunct (sanitize (toLower r)) = uni.isPunct r ∧ rx.lower (sanitize (toLower r)) = rx.lower r := by
  have e : sanitize (toLower r) = toLower r := sanitize_of_valid (toLower_valid hr)
  rw [e]
  exact ⟨toLower_space r, (C94_classes r).1, C94_toLower_twice r⟩

/-- U+2581 is neither an upper-case nor a lower-case rune. -/
theorem toLower_meta (r : Rune) : toLower r = 0x2581 ↔ r = 0x2581 := by
  have h1 : disjoint (tableLower.map domain) [(0x2581, 0x2581)] = true := by decide +kernel
  have h2 : disjoint (tableLower.map image) [(0x2581, 0x2581)] = true := by decide +kernel
  have hm : inTable [(0x2581, 0x2581)] 0x2581 = true := by decide
  rcases toLower_cases r with h | ⟨-, d, i⟩
  · rw [h]
  · constructor
    · intro e
      rw [e] at i
      rw [disjoint_spec h2 _ i] at hm
      cases hm
    · rintro rfl
      rw [disjoint_spec h1 _ d] at hm
      cases hm

/-- **C118, lower case.**  The text may be lower-cased before or after it is cut into words: by white space, by the BERT pre-tokenizer, by
words and symbols, by meta spaces, by the expression of GPT-2. -/
theorem C118_lower : Swaps toLower whiteSpaceSplit whiteSpaceSplit ∧ Swaps toLower (bertPreTokenize uni) (bertPreTokenize uni)
    ∧ Swaps toLower (whiteSpaceDefault rx) (whiteSpaceDefault rx)
    ∧ (∀ prefixSpace, Swaps toLower (metaSpace 0x2581 prefixSpace) (metaSpace 0x2581 prefixSpace))
    ∧ ∀ b, Swaps toLower (fun p => p.split (splitByPattern (fromRegexp2 (splittingRegexp rx).findAll) b))
      (fun p => p.split (splitByPattern (fromRegexp2 (splittingRegexp rx).findAll) b)) :=
  ⟨C118_whiteSpaceSplit fun r hr => (lower_valid_classes r hr).1,
    C118_bert (fun r hr => (lower_valid_classes r hr).1) (fun r hr => (lower_valid_classes r hr).2.1),
    C118_whiteSpace fun r hr => (lower_valid_classes r hr).2.2,
    fun prefixSpace => C118_metaSpace (by decide) prefixSpace
      (fun r hr => by rw [sanitize_of_valid (toLower_valid hr)]; exact C94_sane.lower32 r)
      (fun r hr => by
        rw [sanitize_of_valid (toLower_valid hr)]
        exact toLower_meta r),
    fun b => C118_gpt2 (fun r hr => (lower_valid_classes r hr).2.2) b⟩

/-- A function that makes a space of another rune: the order matters. -/
theorem C118_counterexample : ∃ (f : Rune → Rune) (p : PTS), WholePTS p
    ∧ (do let (a, _) ← p.normalize (mapNormalize f); whiteSpaceSplit a)
      ≠ (do let (q, _) ← whiteSpaceSplit p; q.normalize (mapNormalize f)) := by
  refine ⟨fun r => if r = u!"_" then 32 else r, PTS.fromString b!"a_b", ?_, by decide +kernel⟩
  intro sp hsp _
  have : sp = ⟨NS.fromString b!"a_b", none⟩ := by simpa [PTS.fromString, PTS.fromNormalizedString] using hsp
  subst this
  exact wholeNS_of_history (ops := []) (by decide +kernel) (by simp) rfl

/-- "Ab  CÉ!" lower-cased, then cut by the BERT pre-tokenizer. -/
example : (do
      let (a, _) ← (PTS.fromString b!"Ab  CÉ!").normalize (lowerCaseNormalize uni)
      let (c, _) ← bertPreTokenize uni a
      pure c.getOriginalByteSplits)
    = .ok [⟨b!"ab", ⟨0, 2⟩, none⟩, ⟨b!"cé", ⟨4, 7⟩, none⟩, ⟨b!"!", ⟨7, 8⟩, none⟩] := by decide +kernel

/-- The other order. -/
example : (do
      let (a, _) ← bertPreTokenize uni (PTS.fromString b!"Ab  CÉ!")
      let (c, _) ← a.normalize (lowerCaseNormalize uni)
      pure c.getOriginalByteSplits)
    = .ok [⟨b!"ab", ⟨0, 2⟩, none⟩, ⟨b!"cé", ⟨4, 7⟩, none⟩, ⟨b!"!", ⟨7, 8⟩, none⟩] := by decide +kernel

/-- "xAyBz" split at upper-case letters, each merged with the next piece. -/
example : (do
      match ← (NS.fromString b!"xAyBz").split (fromFunc fun r => decide (65 ≤ r ∧ r ≤ 90)) .mergedWithNext with
      | .ok l => pure (l.map fun (n : NS) => (n.normalized, n.originalShift))
      | .error _ => pure [])
    = GoM.ok [(b!"x", 0), (b!"Ay", 1), (b!"Bz", 3)] := by decide +kernel

end Verif
