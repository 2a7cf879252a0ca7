import Verif.Props.Replace
import Verif.Props.Slice

/-! Facts about the capture grouping of `Split` and about its slicing loop. -/

set_option autoImplicit false

namespace Verif

/-! ## Grouping -/

/-- The `SplitMatch` of a group of captures. -/
def spanMatch (g : List Capture) : SplitMatch := ⟨⟨(span g).1, (span g).2⟩, false⟩

theorem span_single (c : Capture) : span [c] = (c.offsets.start, c.offsets.stop) := rfl

theorem spanMatch_single (c : Capture) : spanMatch [c] = ⟨c.offsets, false⟩ := rfl

theorem span_concat (g : List Capture) (hg : g ≠ []) (c : Capture) :
    span (g ++ [c]) = ((span g).1, c.offsets.stop) := by
  cases g with
  | nil => exact absurd rfl hg
  | cons a g =>
    have : (a :: (g ++ [c])).getLast (by simp) = c := by
      rw [List.getLast_cons (by simp)]; simp
    simp [span, this]

theorem setLastStop_concat (acc : List SplitMatch) (m : SplitMatch) (e : Int) :
    setLastStop (acc ++ [m]) e = acc ++ [{ m with offsets := { m.offsets with stop := e } }] := by
  simp [setLastStop]

theorem setLastStart_concat (acc : List SplitMatch) (m : SplitMatch) (e : Int) :
    setLastStart (acc ++ [m]) e = acc ++ [{ m with offsets := { m.offsets with start := e } }] := by
  simp [setLastStart]

theorem mergePrev_fold (n : Nat) : ∀ (rest : List Capture), rest.length ≤ n →
    ∀ (acc : List SplitMatch) (a : Capture),
    (rest.foldl mergePrevStep (acc ++ [spanMatch [a]], a.isMatch)).1
      = acc ++ (groupPrev (a :: rest)).map spanMatch := by
  induction n with
  | zero =>
    intro rest hr acc a
    have : rest = [] := List.length_eq_zero_iff.1 (by omega)
    subst this; simp [groupPrev]
  | succ n ih =>
    intro rest hr acc a
    cases rest with
    | nil => simp [groupPrev]
    | cons b r =>
      have hr' : r.length ≤ n := by simp at hr; omega
      rw [List.foldl_cons]
      by_cases h : a.isMatch = false ∧ b.isMatch = true
      · have e1 : mergePrevStep (acc ++ [spanMatch [a]], a.isMatch) b
            = (acc ++ [spanMatch [a, b]], true) := by
          unfold mergePrevStep
          rw [if_pos (by simp [h.1, h.2]), setLastStop_concat]
          simp [spanMatch, span, h.2]
        rw [e1]
        have e2 : groupPrev (a :: b :: r) = [a, b] :: groupPrev r := by simp [groupPrev, h.1, h.2]
        rw [e2]
        cases r with
        | nil => simp [groupPrev]
        | cons c r' =>
          rw [List.foldl_cons]
          have e3 : mergePrevStep (acc ++ [spanMatch [a, b]], true) c
              = ((acc ++ [spanMatch [a, b]]) ++ [spanMatch [c]], c.isMatch) := by
            simp [mergePrevStep, spanMatch_single]
          rw [e3, ih r' (by simp at hr'; omega)]
          simp
      · have e1 : mergePrevStep (acc ++ [spanMatch [a]], a.isMatch) b
            = ((acc ++ [spanMatch [a]]) ++ [spanMatch [b]], b.isMatch) := by
          unfold mergePrevStep
          rw [if_neg (by rintro ⟨h1, h2, -⟩; apply h; simp at h2; exact ⟨h2, h1⟩)]
          simp [spanMatch_single]
        have e2 : groupPrev (a :: b :: r) = [a] :: groupPrev (b :: r) := by
          rw [groupPrev, if_neg (by simp; intro h1; cases hb : b.isMatch <;> simp_all)]
        rw [e1, e2, ih r hr']
        simp

theorem mergeNext_fold : ∀ caps : List Capture,
    (caps.foldr (fun c st => mergeNextStep st c) ([], false)).1.reverse = (groupNext caps).map spanMatch
    ∧ (caps.foldr (fun c st => mergeNextStep st c) ([], false)).2
        = (caps.head?.map (·.isMatch)).getD false := by
  intro caps
  induction caps with
  | nil => simp [groupNext]
  | cons a rest ih =>
    obtain ⟨i1, i2⟩ := ih
    rw [List.foldr_cons]
    generalize hst : rest.foldr (fun c st => mergeNextStep st c) ([], false) = st at i1 i2
    obtain ⟨L, pm⟩ := st
    simp only at i1 i2
    cases rest with
    | nil =>
      simp at hst
      obtain ⟨rfl, rfl⟩ := hst
      simp [mergeNextStep, groupNext, spanMatch_single]
    | cons b r =>
      simp at i2
      subst i2
      by_cases h : a.isMatch = true ∧ b.isMatch = false
      · -- the head group of the rest is `[b]`
        have hb : groupNext (b :: r) = [b] :: groupNext r := by
          cases r with
          | nil => simp [groupNext]
          | cons c r' => simp [groupNext, h.2]
        have e2 : groupNext (a :: b :: r) = [a, b] :: groupNext r := by simp [groupNext, h.1, h.2]
        rw [hb] at i1
        have hL : L = ((groupNext r).map spanMatch).reverse ++ [spanMatch [b]] := by
          rw [← List.reverse_reverse L, i1]; simp
        unfold mergeNextStep
        rw [if_pos (by simp [h.1, h.2, hL]), hL]
        simp only
        rw [setLastStart_concat, e2]
        simp [spanMatch, span]
      · have e2 : groupNext (a :: b :: r) = [a] :: groupNext (b :: r) := by
          rw [groupNext, if_neg (by simp; intro h1; cases hb : b.isMatch <;> simp_all)]
        unfold mergeNextStep
        rw [if_neg (by rintro ⟨h1, h2, -⟩; apply h; simp at h2; exact ⟨h1, h2⟩), e2]
        simp [i1, spanMatch_single]

theorem groupRuns_cons (a : Capture) (rest : List Capture) :
    ∃ g gs, groupRuns (a :: rest) = (a :: g) :: gs := by
  simp only [groupRuns]
  split
  · split
    · exact ⟨_, _, rfl⟩
    · exact ⟨_, _, rfl⟩
  · exact ⟨_, _, rfl⟩

theorem groupRuns_same (a b : Capture) (rest : List Capture) (h : a.isMatch = b.isMatch)
    (g : List Capture) (gs : List (List Capture)) (hr : groupRuns (b :: rest) = (b :: g) :: gs) :
    groupRuns (a :: b :: rest) = (a :: b :: g) :: gs := by
  rw [groupRuns, hr]; simp [h]

theorem groupRuns_diff (a b : Capture) (rest : List Capture) (h : a.isMatch ≠ b.isMatch) :
    groupRuns (a :: b :: rest) = [a] :: groupRuns (b :: rest) := by
  obtain ⟨g, gs, hr⟩ := groupRuns_cons b rest
  rw [groupRuns, hr]; simp [h]

theorem groupRuns_run (k : Bool) : ∀ (g : List Capture), g ≠ [] → (∀ c ∈ g, c.isMatch = k) →
    groupRuns g = [g] ∧ ∀ (c : Capture) (rest : List Capture), c.isMatch ≠ k →
      groupRuns (g ++ c :: rest) = g :: groupRuns (c :: rest) := by
  intro g
  induction g with
  | nil => intro h; exact absurd rfl h
  | cons a g ih =>
    intro _ hk
    cases g with
    | nil =>
      refine ⟨by simp [groupRuns], fun c rest hc => ?_⟩
      have := hk a (by simp)
      exact groupRuns_diff a c rest (by rw [this]; exact fun h => hc h.symm)
    | cons b g =>
      obtain ⟨i1, i2⟩ := ih (by simp) (fun c hc => hk c (List.mem_cons_of_mem _ hc))
      have hab : a.isMatch = b.isMatch := by rw [hk a (by simp), hk b (by simp)]
      refine ⟨groupRuns_same a b g hab g [] i1, fun c rest hc => ?_⟩
      exact groupRuns_same a b (g ++ c :: rest) hab g _ (i2 c rest hc)

theorem contiguous_fold : ∀ (rest : List Capture) (acc : List SplitMatch) (g : List Capture) (k : Bool),
    g ≠ [] → (∀ c ∈ g, c.isMatch = k) →
    (rest.foldl contiguousStep (acc ++ [spanMatch g], k)).1
      = acc ++ (groupRuns (g ++ rest)).map spanMatch := by
  intro rest
  induction rest with
  | nil =>
    intro acc g k hg hk
    rw [List.append_nil, (groupRuns_run k g hg hk).1]
    simp
  | cons c rest ih =>
    intro acc g k hg hk
    rw [List.foldl_cons]
    by_cases h : c.isMatch = k
    · have e : contiguousStep (acc ++ [spanMatch g], k) c = (acc ++ [spanMatch (g ++ [c])], k) := by
        unfold contiguousStep
        rw [if_pos (by simp [h]), setLastStop_concat]
        simp [spanMatch, span_concat g hg, h]
      rw [e, ih acc (g ++ [c]) k (by simp) (by
        intro x hx
        rcases List.mem_append.1 hx with hx | hx
        · exact hk x hx
        · simp at hx; rw [hx]; exact h)]
      simp
    · have e : contiguousStep (acc ++ [spanMatch g], k) c
          = ((acc ++ [spanMatch g]) ++ [spanMatch [c]], c.isMatch) := by
        unfold contiguousStep
        rw [if_neg (by simp [h])]
        simp [spanMatch_single]
      rw [e, ih _ [c] c.isMatch (by simp) (by simp), (groupRuns_run k g hg hk).2 c rest h]
      simp

/-- The pieces `Split` keeps are the spans of the specified groups, for every capture list. -/
theorem splitMatches_groups (b : Behavior) (caps : List Capture) :
    (splitMatches b caps).filter (fun m => !m.shouldRemove) = (splitGroups b caps).map spanMatch := by
  cases b with
  | removed =>
    simp only [splitMatches, splitGroups, List.map_map]
    induction caps with
    | nil => rfl
    | cons c cs ih =>
      cases h : c.isMatch <;> simp [h, ih, spanMatch_single]
  | isolated =>
    simp only [splitMatches, splitGroups, List.map_map]
    induction caps with
    | nil => rfl
    | cons c cs ih => simp [ih, spanMatch_single]
  | mergedWithPrevious =>
    have : (splitMatches .mergedWithPrevious caps) = (groupPrev caps).map spanMatch := by
      simp only [splitMatches]
      cases caps with
      | nil => simp [groupPrev]
      | cons a rest =>
        rw [List.foldl_cons]
        have e : mergePrevStep ([], false) a = ([] ++ [spanMatch [a]], a.isMatch) := by
          simp [mergePrevStep, spanMatch_single]
        rw [e, mergePrev_fold _ rest (Nat.le_refl _)]
        rfl
    rw [this]
    simp [splitGroups, spanMatch]
  | mergedWithNext =>
    have : (splitMatches .mergedWithNext caps) = (groupNext caps).map spanMatch := by
      simp only [splitMatches]
      rw [List.foldl_reverse]
      exact (mergeNext_fold caps).1
    rw [this]
    simp [splitGroups, spanMatch]
  | contiguous =>
    have : (splitMatches .contiguous caps) = (groupRuns caps).map spanMatch := by
      simp only [splitMatches]
      cases caps with
      | nil => simp [groupRuns]
      | cons a rest =>
        rw [List.foldl_cons]
        have e : contiguousStep ([], false) a = ([] ++ [spanMatch [a]], a.isMatch) := by
          simp [contiguousStep, spanMatch_single]
        rw [e, contiguous_fold rest [] [a] a.isMatch (by simp) (by simp)]
        simp
    rw [this]
    simp [splitGroups, spanMatch]

/-! ## The groups partition the captures -/

theorem groupPrev_flatten (n : Nat) : ∀ caps : List Capture, caps.length ≤ n →
    (groupPrev caps).flatten = caps ∧ ∀ g ∈ groupPrev caps, g ≠ [] := by
  induction n with
  | zero =>
    intro caps h
    have : caps = [] := List.length_eq_zero_iff.1 (by omega)
    subst this; simp [groupPrev]
  | succ n ih =>
    intro caps h
    match caps with
    | [] => simp [groupPrev]
    | [a] => simp [groupPrev]
    | a :: b :: rest =>
      simp at h
      rw [groupPrev]
      split
      · obtain ⟨i1, i2⟩ := ih rest (by omega)
        simp [i1]; exact i2
      · obtain ⟨i1, i2⟩ := ih (b :: rest) (by simp; omega)
        simp [i1]; exact i2

theorem groupNext_flatten (n : Nat) : ∀ caps : List Capture, caps.length ≤ n →
    (groupNext caps).flatten = caps ∧ ∀ g ∈ groupNext caps, g ≠ [] := by
  induction n with
  | zero =>
    intro caps h
    have : caps = [] := List.length_eq_zero_iff.1 (by omega)
    subst this; simp [groupNext]
  | succ n ih =>
    intro caps h
    match caps with
    | [] => simp [groupNext]
    | [a] => simp [groupNext]
    | a :: b :: rest =>
      simp at h
      rw [groupNext]
      split
      · obtain ⟨i1, i2⟩ := ih rest (by omega)
        simp [i1]; exact i2
      · obtain ⟨i1, i2⟩ := ih (b :: rest) (by simp; omega)
        simp [i1]; exact i2

theorem groupRuns_flatten : ∀ caps : List Capture,
    (groupRuns caps).flatten = caps ∧ ∀ g ∈ groupRuns caps, g ≠ [] := by
  intro caps
  induction caps with
  | nil => simp [groupRuns]
  | cons a rest ih =>
    obtain ⟨i1, i2⟩ := ih
    simp only [groupRuns]
    split
    · rename_i b g gs h
      rw [h] at i1 i2
      simp at i1 i2
      split
      · simp [i1]; exact i2
      · simp [i1]; exact i2
    · simp [i1]; exact i2

theorem splitGroups_flatten (b : Behavior) (caps : List Capture) :
    (splitGroups b caps).flatten = (if b = .removed then caps.filter (fun c => !c.isMatch) else caps)
    ∧ ∀ g ∈ splitGroups b caps, g ≠ [] := by
  cases b with
  | removed =>
    simp only [splitGroups, if_true]
    refine ⟨?_, by intro g hg; simp at hg; obtain ⟨a, -, rfl⟩ := hg; simp⟩
    generalize caps.filter (fun c => !c.isMatch) = l
    induction l <;> simp_all
  | isolated =>
    simp only [splitGroups]
    refine ⟨?_, by intro g hg; simp at hg; obtain ⟨a, -, rfl⟩ := hg; simp⟩
    simp
    induction caps <;> simp_all
  | mergedWithPrevious => simpa [splitGroups] using groupPrev_flatten _ caps (Nat.le_refl _)
  | mergedWithNext => simpa [splitGroups] using groupNext_flatten _ caps (Nat.le_refl _)
  | contiguous => simpa [splitGroups] using groupRuns_flatten caps

/-- The span of a leading group of a tiling. -/
theorem Tiles.group : ∀ {g : List Capture} {rest : List Capture} {i n : Int}, g ≠ [] →
    Tiles (g ++ rest) i n → (span g).1 = i ∧ i ≤ (span g).2 ∧ Tiles rest (span g).2 n := by
  intro g
  induction g with
  | nil => intro _ _ _ h; exact absurd rfl h
  | cons c g ih =>
    intro rest i n _ h
    obtain ⟨h1, h2, h3⟩ := h
    cases g with
    | nil => exact ⟨h1, h2, h3⟩
    | cons d g =>
      obtain ⟨j1, j2, j3⟩ := ih (by simp) h3
      have e : (span (c :: d :: g)).2 = (span (d :: g)).2 := by simp [span]
      rw [e]
      exact ⟨h1, by omega, j3⟩

/-! ## The slicing loop -/

theorem sliceAll_ok (ns : NS) : ∀ ms : List SplitMatch,
    (∀ m ∈ ms, m.shouldRemove = false →
      ∃ p, ns.slice (.normalized m.offsets.start m.offsets.stop) = .ok (some p)) →
    ∃ pieces, ns.sliceAll ms = .ok (.ok pieces)
      ∧ All2 (fun m p => ns.slice (.normalized m.offsets.start m.offsets.stop) = .ok (some p))
          (ms.filter fun m => !m.shouldRemove) pieces := by
  intro ms
  induction ms with
  | nil => intro _; exact ⟨[], rfl, .nil⟩
  | cons m ms ih =>
    intro h
    obtain ⟨ps, h1, h2⟩ := ih (fun x hx => h x (by simp [hx]))
    cases hr : m.shouldRemove with
    | true => exact ⟨ps, by simp [NS.sliceAll, hr, h1], by simpa [hr] using h2⟩
    | false =>
      obtain ⟨p, hp⟩ := h m (by simp) hr
      refine ⟨p :: ps, by simp [NS.sliceAll, hr, h1, hp], ?_⟩
      simp only [hr, Bool.not_false, List.filter_cons_of_pos]
      exact .cons hp h2

/-- Conversely a successful loop has sliced every kept match. -/
theorem sliceAll_inv (ns : NS) : ∀ (ms : List SplitMatch) (pieces : List NS),
    ns.sliceAll ms = .ok (.ok pieces) →
    All2 (fun m p => ns.slice (.normalized m.offsets.start m.offsets.stop) = .ok (some p))
      (ms.filter fun m => !m.shouldRemove) pieces := by
  intro ms
  induction ms with
  | nil => intro pieces h; simp [NS.sliceAll] at h; subst h; exact .nil
  | cons m ms ih =>
    intro pieces h
    cases hr : m.shouldRemove with
    | true =>
      simp [NS.sliceAll, hr] at h
      simpa [hr] using ih pieces h
    | false =>
      simp only [NS.sliceAll, hr, Bool.false_eq_true, if_false, GoM.bind_eq_ok] at h
      obtain ⟨o, h1, h2⟩ := h
      cases o with
      | none => simp at h2
      | some p =>
        simp only [GoM.bind_eq_ok] at h2
        obtain ⟨r, h3, h4⟩ := h2
        cases r with
        | error e => simp at h4
        | ok ps =>
          simp at h4
          subst h4
          simp only [hr, Bool.not_false, List.filter_cons_of_pos]
          exact .cons h1 (ih ps h3)

theorem All2.map_left {α β γ : Type} {R : γ → β → Prop} (f : α → γ) :
    ∀ {as : List α} {bs : List β}, All2 R (as.map f) bs → All2 (fun a b => R (f a) b) as bs := by
  intro as
  induction as with
  | nil => intro bs h; cases h; exact .nil
  | cons a as ih => intro bs h; cases h with | cons h1 h2 => exact .cons h1 (ih h2)

theorem All2.imp {α β : Type} {R S : α → β → Prop} {as : List α} {bs : List β}
    (h : All2 R as bs) (f : ∀ a b, a ∈ as → b ∈ bs → R a b → S a b) : All2 S as bs := by
  induction h with
  | nil => exact .nil
  | cons h1 _ ih =>
    exact .cons (f _ _ (by simp) (by simp) h1)
      (ih (fun a b ha hb => f a b (by simp [ha]) (by simp [hb])))

theorem All2.map_eq {α β γ : Type} {R : α → β → Prop} {f : α → γ} {g : β → γ} {as : List α} {bs : List β}
    (h : All2 R as bs) (hfg : ∀ a b, a ∈ as → b ∈ bs → R a b → g b = f a) : bs.map g = as.map f := by
  induction h with
  | nil => rfl
  | cons h1 _ ih =>
    simp only [List.map_cons]
    rw [hfg _ _ (by simp) (by simp) h1, ih (fun a b ha hb => hfg a b (by simp [ha]) (by simp [hb]))]

theorem All2.length_eq {α β : Type} {R : α → β → Prop} {as : List α} {bs : List β}
    (h : All2 R as bs) : as.length = bs.length := by
  induction h with
  | nil => rfl
  | cons _ _ ih => simp [ih]

theorem All2.append {α β : Type} {R : α → β → Prop} {as as' : List α} {bs bs' : List β}
    (h : All2 R as bs) (h' : All2 R as' bs') : All2 R (as ++ as') (bs ++ bs') := by
  induction h with
  | nil => exact h'
  | cons h1 _ ih => exact .cons h1 ih

theorem All2.append_inv {α β : Type} {R : α → β → Prop} : ∀ {bs bs' : List β} {as : List α},
    All2 R as (bs ++ bs') → ∃ a1 a2, as = a1 ++ a2 ∧ All2 R a1 bs ∧ All2 R a2 bs' := by
  intro bs
  induction bs with
  | nil => intro bs' as h; exact ⟨[], as, rfl, .nil, h⟩
  | cons b bs ih =>
    intro bs' as h
    cases h with
    | cons h1 h2 =>
      obtain ⟨a1, a2, rfl, h3, h4⟩ := ih h2
      exact ⟨_ :: a1, a2, rfl, .cons h1 h3, h4⟩

theorem All2.exists_left {α β : Type} {R : α → β → Prop} {as : List α} {bs : List β}
    (h : All2 R as bs) {b : β} (hb : b ∈ bs) : ∃ a ∈ as, R a b := by
  induction h with
  | nil => simp at hb
  | cons h1 _ ih =>
    rcases List.mem_cons.1 hb with rfl | hb
    · exact ⟨_, by simp, h1⟩
    · obtain ⟨a, ha, hr⟩ := ih hb
      exact ⟨a, by simp [ha], hr⟩

/-- Any successful `Split` slices exactly the spans of the specified groups. -/
theorem split_inv {ns : NS} {pattern : SplitPattern} {b : Behavior} {caps : List Capture} {pieces : List NS}
    (hp : pattern ns.normalized = .ok (.ok caps)) (h : ns.split pattern b = .ok (.ok pieces)) :
    All2 (fun g p => ns.slice (.normalized (span g).1 (span g).2) = .ok (some p))
      (splitGroups b caps) pieces := by
  simp only [NS.split, hp, GoM.bind_ok] at h
  have := sliceAll_inv ns _ _ h
  rw [splitMatches_groups] at this
  exact this.map_left

/-- `Split` succeeds when the span of every group can be sliced. -/
theorem split_of {ns : NS} {pattern : SplitPattern} {b : Behavior} {caps : List Capture}
    (hp : pattern ns.normalized = .ok (.ok caps))
    (h : ∀ g ∈ splitGroups b caps, ∃ p, ns.slice (.normalized (span g).1 (span g).2) = .ok (some p)) :
    ∃ pieces, ns.split pattern b = .ok (.ok pieces)
      ∧ All2 (fun g p => ns.slice (.normalized (span g).1 (span g).2) = .ok (some p))
          (splitGroups b caps) pieces := by
  obtain ⟨ps, h1, h2⟩ := sliceAll_ok ns (splitMatches b caps) (by
    intro m hm hr
    have : m ∈ (splitMatches b caps).filter (fun m => !m.shouldRemove) := by simp [hm, hr]
    rw [splitMatches_groups] at this
    obtain ⟨g, hg, rfl⟩ := List.mem_map.1 this
    exact h g hg)
  rw [splitMatches_groups] at h2
  exact ⟨ps, by simp [NS.split, hp, h1], h2.map_left⟩

end Verif
