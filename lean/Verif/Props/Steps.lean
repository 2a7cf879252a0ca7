import Verif.Props.Unique
import Verif.Spec.Steps
import Verif.Model.Notation

/-!
Property C70: sequences of the pre-tokenizers that only cut.  The pieces are the same
whatever the order of the steps and however often one is repeated.
-/

set_option autoImplicit false

namespace Verif

/-- Words inside words. -/
theorem LocalWords.compose {α : Type} {k1 k2 : α → Bool} {c1 c2 : α → α → Prop} {rs : List α}
    {L : List (List α × List α)} {W : List α × List α → List (List α × List α)}
    (h : LocalWords k1 c1 rs L) (hW : ∀ x ∈ L, LocalWords k2 c2 x.2 (W x)) :
    LocalWords (fun r => k1 r && k2 r) (fun a b => c1 a b ∨ c2 a b) rs
      (L.flatMap fun x => (W x).map fun y => (x.1 ++ y.1, y.2)) := by
  refine ⟨?_, ?_, ?_⟩
  · intro z hz
    obtain ⟨x, hx, hz⟩ := List.mem_flatMap.1 hz
    obtain ⟨y, hy, rfl⟩ := List.mem_map.1 hz
    obtain ⟨P, e1, a0, a1, a2, a3, a4⟩ := h.located x hx
    obtain ⟨p, e2, b0, b1, b2, b3, b4⟩ := (hW x hx).located y hy
    have sub : ∀ r ∈ y.2, r ∈ x.2 := fun r hr => by rw [e2]; simp [hr]
    refine ⟨p ++ P, by rw [e1, e2]; simp, b0, ?_, ?_, ?_, ?_⟩
    · intro r hr; simp [a1 r (sub r hr), b1 r hr]
    · intro u a b v e hc
      rcases hc with hc | hc
      · refine a2 (y.1 ++ u) a b (v ++ p) ?_ hc
        rw [e2, show y.2 = u ++ a :: b :: v from e]; simp
      · exact b2 u a b v e hc
    · intro a b ha hb hk
      simp only [Bool.and_eq_true] at hk
      simp only at ha hb
      rw [List.getLast?_append] at ha
      cases hy1 : y.1.getLast? with
      | some a' =>
        rw [hy1] at ha
        simp at ha; subst ha
        exact .inr (b3 a' b hy1 hb hk.2)
      | none =>
        rw [hy1] at ha
        simp at ha
        rw [List.getLast?_eq_none_iff] at hy1
        refine .inl (a3 a b ha ?_ hk.1)
        rw [e2, hy1, List.nil_append, List.head?_append, hb]; rfl
    · intro a b ha hb hk
      simp only [Bool.and_eq_true] at hk
      simp only at ha
      rw [List.head?_append] at hb
      cases hp : p.head? with
      | some b' =>
        rw [hp] at hb
        simp at hb; subst hb
        exact .inr (b4 a b' ha hp hk.2)
      | none =>
        rw [hp] at hb
        simp at hb
        rw [List.head?_eq_none_iff] at hp
        refine .inl (a4 a b ?_ hb hk.1)
        rw [e2, hp, List.append_nil, List.getLast?_append, ha]; rfl
  · have key : ∀ M : List (List α × List α), (∀ x ∈ M, x ∈ L) →
        (M.Pairwise fun x y => (x.1 ++ x.2).length ≤ y.1.length) →
        ((M.flatMap fun x => (W x).map fun y => (x.1 ++ y.1, y.2)).Pairwise
          fun x y => (x.1 ++ x.2).length ≤ y.1.length) := by
      intro M
      induction M with
      | nil => intro _ _; simp
      | cons x M ih =>
        intro hM hp
        rw [List.pairwise_cons] at hp
        rw [List.flatMap_cons, List.pairwise_append]
        refine ⟨?_, ih (fun y hy => hM y (by simp [hy])) hp.2, ?_⟩
        · rw [List.pairwise_map]
          refine (hW x (hM x (by simp))).ordered.imp ?_
          intro y z hyz
          simp only [List.length_append] at hyz ⊢
          omega
        · intro y hy z hz
          obtain ⟨y', hy', rfl⟩ := List.mem_map.1 hy
          obtain ⟨x2, hx2, hz⟩ := List.mem_flatMap.1 hz
          obtain ⟨z', hz', rfl⟩ := List.mem_map.1 hz
          obtain ⟨p, e, -⟩ := (hW x (hM x (by simp))).located y' hy'
          have h1 := hp.1 x2 hx2
          have h2 := congrArg List.length e
          simp only [List.length_append] at h1 h2 ⊢
          omega
    exact key L (fun _ h => h) h.ordered
  · have : (L.flatMap fun x => (W x).map fun y => (x.1 ++ y.1, y.2)).flatMap (·.2)
        = (L.flatMap (·.2)).filter k2 := by
      rw [List.flatMap_assoc, List.filter_flatMap]
      have : ∀ M : List (List α × List α), (∀ x ∈ M, x ∈ L) →
          (M.flatMap fun x => ((W x).map fun y => (x.1 ++ y.1, y.2)).flatMap (·.2)) = M.flatMap fun x => x.2.filter k2 := by
        intro M
        induction M with
        | nil => intro _; rfl
        | cons x M ih =>
          intro hM
          rw [List.flatMap_cons, List.flatMap_cons, ih (fun y hy => hM y (by simp [hy])),
            ← (hW x (hM x (by simp))).complete, List.flatMap_map]
      exact this L (fun _ h => h)
    rw [this, h.complete, List.filter_filter]
    congr 1
    funext r
    exact Bool.and_comm _ _

/-- From runes to characters. -/
theorem LocalWords.lift {keep : Rune → Bool} {cut : Rune → Rune → Prop} {cs : List Ch} {W : List (List Ch × List Ch)}
    (h : LocalWords keep cut (cs.map (·.1)) (wordRunes W)) (hs : StandsIn cs W) :
    LocalWords (fun c : Ch => keep c.1) (fun a b : Ch => cut a.1 b.1) cs W := by
  have hloc : ∀ x ∈ W, ∃ post, cs = x.1 ++ x.2 ++ post ∧ x.2 ≠ [] ∧ (∀ r ∈ x.2, keep r.1 = true)
      ∧ (∀ u a b v, x.2 = u ++ a :: b :: v → ¬cut a.1 b.1)
      ∧ (∀ a b, x.1.getLast? = some a → x.2.head? = some b → keep a.1 = true → cut a.1 b.1)
      ∧ (∀ a b, x.2.getLast? = some a → post.head? = some b → keep b.1 = true → cut a.1 b.1) := by
    intro x hx
    obtain ⟨hne, C, e⟩ := hs x hx
    obtain ⟨post, e', -, h1, h2, h3, h4⟩ := h.located (x.1.map (·.1), x.2.map (·.1)) (List.mem_map.2 ⟨x, hx, rfl⟩)
    simp only at e' h1 h2 h3 h4
    have hpost : post = C.map (·.1) := by
      rw [e, List.map_append, List.map_append] at e'
      exact (List.append_cancel_left e').symm
    subst hpost
    refine ⟨C, e, hne, ?_, ?_, ?_, ?_⟩
    · intro r hr; exact h1 r.1 (List.mem_map.2 ⟨r, hr, rfl⟩)
    · intro u a b v hu
      exact h2 (u.map (·.1)) a.1 b.1 (v.map (·.1)) (by rw [hu]; simp)
    · intro a b ha hb
      exact h3 a.1 b.1 (by rw [List.getLast?_map, ha]; rfl) (by rw [List.head?_map, hb]; rfl)
    · intro a b ha hb
      exact h4 a.1 b.1 (by rw [List.getLast?_map, ha]; rfl) (by rw [List.head?_map, hb]; rfl)
  have hord : W.Pairwise fun x y => (x.1 ++ x.2).length ≤ y.1.length := by
    have := h.ordered
    unfold wordRunes at this
    rw [List.pairwise_map] at this
    refine this.imp ?_
    intro x y hxy
    simpa using hxy
  refine ⟨hloc, hord, ?_⟩
  have hsub := located_sublist (fun c : Ch => keep c.1) cs W 0 (fun x hx => by
    obtain ⟨post, e, -, h1, -⟩ := hloc x hx
    exact ⟨Nat.zero_le _, h1, post, e⟩) hord
  rw [List.drop_zero] at hsub
  apply hsub.eq_of_length
  have := congrArg List.length h.complete
  simp only [wordRunes, List.flatMap_map, List.length_flatMap, List.length_map, List.filter_map] at this
  rw [List.length_flatMap]
  exact this

/-- A pre-tokenizer that cuts any piece of any state at places given by `keep` and `cut`. -/
structure Cutter (pt : PreTokenizer) (keep : Rune → Bool) (cut : Rune → Rune → Prop) : Prop where
  pieces : ∀ (ns : NS) (cs : List Ch) (o : Str) (L : List (List Ch × List Ch)), WF ns → Repr ns cs → StandsIn cs L →
    ∃ W : List Ch × List Ch → List (List Ch × List Ch),
      pt ⟨o, charPieces ns L⟩ = .ok (⟨o, charPieces ns (L.flatMap fun x => (W x).map fun y => (x.1 ++ y.1, y.2))⟩, none)
      ∧ ∀ x ∈ L, LocalWords (fun c : Ch => keep c.1) (fun a b : Ch => cut a.1 b.1) x.2 (W x)
  state : ∀ (ns : NS) (cs : List Ch) (o : Str), WF ns → Repr ns cs →
    ∃ L, pt ⟨o, [⟨ns, none⟩]⟩ = .ok (⟨o, charPieces ns L⟩, none)
      ∧ LocalWords (fun c : Ch => keep c.1) (fun a b : Ch => cut a.1 b.1) cs L

theorem LocalWords.stands {keep : Ch → Bool} {cut : Ch → Ch → Prop} {cs : List Ch} {L : List (List Ch × List Ch)}
    (h : LocalWords keep cut cs L) : StandsIn cs L := by
  intro x hx
  obtain ⟨post, e, h1, -⟩ := h.located x hx
  exact ⟨h1, post, e⟩

theorem cutter_of_segs {pattern : SplitPattern} {seg : List Rune → List (Bool × List Rune)} (hp : CutsSegs pattern seg)
    (kf : Bool) {keep : Rune → Bool} {cut : Rune → Rune → Prop}
    (h : ∀ rs, LocalWords keep cut rs (locate kf [] (seg rs))) :
    Cutter (fun pts => pts.split (splitByPattern pattern (if kf then .isolated else .removed))) keep cut where
  pieces ns cs o L hwf hr hL := by
    refine ⟨fun x => charWords seg kf ([], x.2), ?_, ?_⟩
    · rw [pts_split_chars hwf hr o L hL hp kf]
      congr 5
      funext x
      exact charWords_shift seg kf x.1 x.2
    · intro x _
      apply LocalWords.lift
      · rw [hp.words kf ([], x.2)]
        exact h _
      · have := hp.stands kf ([], x.2) []
        simpa using this
  state ns cs o hwf hr := by
    refine ⟨_, pts_split_state hwf hr o hp kf, ?_⟩
    apply LocalWords.lift
    · rw [hp.words kf ([], cs)]
      exact h _
    · have := hp.stands kf ([], cs) []
      simpa using this

/-- One step after another. -/
theorem Cutter.seq {p1 p2 : PreTokenizer} {k1 k2 : Rune → Bool} {c1 c2 : Rune → Rune → Prop}
    (h1 : Cutter p1 k1 c1) (h2 : Cutter p2 k2 c2) :
    Cutter (preSequence [p1, p2]) (fun r => k1 r && k2 r) (fun a b => c1 a b ∨ c2 a b) where
  pieces ns cs o L hwf hr hL := by
    obtain ⟨W1, e1, g1⟩ := h1.pieces ns cs o L hwf hr hL
    have hs : StandsIn cs (L.flatMap fun x => (W1 x).map fun y => (x.1 ++ y.1, y.2)) := by
      intro z hz
      obtain ⟨x, hx, hz⟩ := List.mem_flatMap.1 hz
      obtain ⟨y, hy, rfl⟩ := List.mem_map.1 hz
      obtain ⟨-, C, e⟩ := hL x hx
      obtain ⟨p, e', h0, -⟩ := (g1 x hx).located y hy
      exact ⟨h0, p ++ C, by rw [e, e']; simp⟩
    obtain ⟨W2, e2, g2⟩ := h2.pieces ns cs o _ hwf hr hs
    refine ⟨fun x => (W1 x).flatMap fun y => (W2 (x.1 ++ y.1, y.2)).map fun z => (y.1 ++ z.1, z.2), ?_, ?_⟩
    · simp only [preSequence, e1, GoM.bind_ok, e2]
      congr 4
      rw [List.flatMap_assoc]
      congr 1
      funext x
      rw [List.flatMap_map, List.map_flatMap]
      congr 1
      funext y
      rw [List.map_map]
      simp [Function.comp_def]
    · intro x hx
      apply (g1 x hx).compose
      intro y hy
      exact g2 (x.1 ++ y.1, y.2) (List.mem_flatMap.2 ⟨x, hx, List.mem_map.2 ⟨y, hy, rfl⟩⟩)
  state ns cs o hwf hr := by
    obtain ⟨L, e1, g1⟩ := h1.state ns cs o hwf hr
    obtain ⟨W, e2, g2⟩ := h2.pieces ns cs o L hwf hr g1.stands
    exact ⟨_, by simp only [preSequence, e1, GoM.bind_ok, e2], g1.compose g2⟩

theorem Cutter.congr {p q : PreTokenizer} {k1 k2 : Rune → Bool} {c1 c2 : Rune → Rune → Prop} (h : Cutter p k1 c1)
    (hp : p = q) (hk : ∀ r, k1 r = k2 r) (hc : ∀ a b, c1 a b ↔ c2 a b) : Cutter q k2 c2 := by
  obtain rfl : k1 = k2 := funext hk
  obtain rfl : c1 = c2 := funext fun a => funext fun b => propext (hc a b)
  exact hp ▸ h

theorem preSequence_one (p : PreTokenizer) : preSequence [p] = p := by
  funext pts
  simp only [preSequence]
  cases p pts with
  | panic => rfl
  | ok v =>
    obtain ⟨q, e⟩ := v
    cases e <;> rfl

theorem preSequence_cons (p : PreTokenizer) (ps : List PreTokenizer) :
    preSequence [p, preSequence ps] = preSequence (p :: ps) := by
  funext pts
  simp only [preSequence]
  cases p pts with
  | panic => rfl
  | ok v =>
    obtain ⟨q, e⟩ := v
    cases e with
    | some e => rfl
    | none => exact congrFun (preSequence_one (preSequence ps)) q

theorem removed_cutter (f : Rune → Bool) :
    Cutter (fun pts => pts.split (splitByPattern (fromFunc f) .removed)) (fun r => !f r) (fun _ _ => False) := by
  refine (cutter_of_segs (fromFunc_cuts f) false fun rs => (tokenizedBy_segs f false rs).localWords).congr rfl ?_ ?_
  · intro r; simp
  · intro a b; simp

theorem isolated_cutter (f : Rune → Bool) :
    Cutter (fun pts => pts.split (splitByPattern (fromFunc f) .isolated)) (fun _ => true)
      (fun a b => f a = true ∨ f b = true) := by
  refine (cutter_of_segs (fromFunc_cuts f) true fun rs => (tokenizedBy_segs f true rs).localWords).congr rfl ?_ ?_
  · intro r; simp
  · intro a b; simp

theorem PreStep.cutter (s : PreStep) : Cutter s.run s.keep s.cut := by
  cases s with
  | whiteSpaceSplit => exact removed_cutter isWhiteSpace
  | runeDelimiter d => exact (removed_cutter fun r => r == d).congr rfl (fun r => rfl) (fun a b => Iff.rfl)
  | bert u =>
    refine ((removed_cutter isWhiteSpace).seq (isolated_cutter u.isPunct)).congr ?_ ?_ ?_
    · rw [← preSequence_cons, preSequence_one]
      funext pts
      simp only [preSequence, PreStep.run, bertPreTokenize]
      congr 1
      funext v
      obtain ⟨q, e⟩ := v
      cases e with
      | some e => rfl
      | none =>
        exact congrFun (preSequence_one fun pts : PTS => pts.split (splitByPattern (fromFunc u.isPunct) .isolated)) q
    · intro r; simp [PreStep.keep]
    · intro a b; simp [PreStep.cut]
  | whiteSpace u =>
    refine (cutter_of_segs (wordSegs_cuts u) false fun rs => ?_).congr rfl (fun r => rfl) (fun a b => Iff.rfl)
    rw [locate_wordSegs]
    exact (wordScan_runs u rs).localWords

theorem steps_cutter : ∀ (s : PreStep) (A : List PreStep), Cutter (preSequence ((s :: A).map PreStep.run))
    (fun r => (s :: A).all (·.keep r)) (fun a b => ∃ t ∈ s :: A, t.cut a b) := by
  intro s A
  induction A generalizing s with
  | nil =>
    refine s.cutter.congr (preSequence_one _).symm ?_ ?_
    · intro r; simp
    · intro a b; simp
  | cons t A ih =>
    refine (s.cutter.seq (ih t)).congr (preSequence_cons _ _) ?_ ?_
    · intro r; rfl
    · intro a b; simp

/-- **C70.**  Any sequence of cutting pre-tokenizers, on any state: a rune stays if every step
keeps it, neighbours are separated if some step separates them, and nothing else is cut. -/
theorem C70_sequence {A : List PreStep} (hA : A ≠ []) {ns : NS} (hwf : WF ns) {cs : List Ch} (hr : Repr ns cs) (o : Str) :
    ∃ L, preSequence (A.map PreStep.run) ⟨o, [⟨ns, none⟩]⟩ = .ok (⟨o, charPieces ns L⟩, none)
      ∧ LocalWords (fun c : Ch => A.all (·.keep c.1)) (fun a b : Ch => ∃ t ∈ A, t.cut a.1 b.1) cs L := by
  cases A with
  | nil => exact absurd rfl hA
  | cons s A => exact (steps_cutter s A).state ns cs o hwf hr

/-- **C70, order and repetition.**  Two sequences with the same steps give the same splits. -/
theorem C70_order {A B : List PreStep} (h : ∀ s, s ∈ A ↔ s ∈ B) {ns : NS} (hwf : WF ns) {cs : List Ch}
    (hr : Repr ns cs) (o : Str) :
    preSequence (A.map PreStep.run) ⟨o, [⟨ns, none⟩]⟩ = preSequence (B.map PreStep.run) ⟨o, [⟨ns, none⟩]⟩ := by
  by_cases hA : A = []
  · subst hA
    have : B = [] := List.eq_nil_iff_forall_not_mem.2 fun s hs => by simpa using (h s).2 hs
    rw [this]
  · have hB : B ≠ [] := by
      intro hB; subst hB
      exact hA (List.eq_nil_iff_forall_not_mem.2 fun s hs => by simpa using (h s).1 hs)
    obtain ⟨L, e1, h1⟩ := C70_sequence hA hwf hr o
    obtain ⟨M, e2, h2⟩ := C70_sequence hB hwf hr o
    have hk : (fun c : Ch => A.all (·.keep c.1)) = fun c : Ch => B.all (·.keep c.1) := by
      funext c
      rw [Bool.eq_iff_iff, List.all_eq_true, List.all_eq_true]
      exact ⟨fun g s hs => g s ((h s).2 hs), fun g s hs => g s ((h s).1 hs)⟩
    have hc : (fun a b : Ch => ∃ t ∈ A, t.cut a.1 b.1) = fun a b : Ch => ∃ t ∈ B, t.cut a.1 b.1 := by
      funext a b
      exact propext ⟨fun ⟨t, g1, g2⟩ => ⟨t, (h t).1 g1, g2⟩, fun ⟨t, g1, g2⟩ => ⟨t, (h t).2 g1, g2⟩⟩
    rw [hk, hc] at h1
    rw [e1, e2, LocalWords.unique cs.length (Nat.le_refl _) h1 h2]

/-- **C70, fresh text.**  For every valid input. -/
theorem C70_text {A B : List PreStep} (h : ∀ s, s ∈ A ↔ s ∈ B) {s : Str} (hs : ValidUtf8 s) :
    preSequence (A.map PreStep.run) (PTS.fromString s) = preSequence (B.map PreStep.run) (PTS.fromString s) :=
  C70_order h (fromString_wf hs) (fromString_repr hs) s

/-- Two sequences with the same steps, on "a-b c-!d": five pieces each. -/
example :
    let u : Uni := ⟨fun _ => false, fun _ => false, fun r => r == 33, id⟩
    let A := [PreStep.runeDelimiter 45, .bert u, .whiteSpaceSplit]
    let B := [PreStep.whiteSpaceSplit, .runeDelimiter 45, .bert u, .runeDelimiter 45]
    (preSequence (A.map PreStep.run) (PTS.fromString b!"a-b c-!d")).bind (fun x => .ok (x.1.splits.map fun p => p.ns.get))
        = .ok [b!"a", b!"b", b!"c", b!"!", b!"d"]
      ∧ (preSequence (B.map PreStep.run) (PTS.fromString b!"a-b c-!d")).bind (fun x => .ok (x.1.splits.map fun p => p.ns.get))
        = .ok [b!"a", b!"b", b!"c", b!"!", b!"d"] := by
  decide +kernel

end Verif
