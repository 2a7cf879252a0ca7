import Verif.Lemmas.Split

/-! C11, C12 and C52: `Split`. -/

set_option autoImplicit false

namespace Verif

/-- `R` holds between each element and the next. -/
def Adjacent {α : Type} (R : α → α → Prop) : List α → Prop
  | [] => True
  | [_] => True
  | a :: b :: l => R a b ∧ Adjacent R (b :: l)

theorem Adjacent.mid {α : Type} {R : α → α → Prop} : ∀ {u v : List α} {g h : α},
    Adjacent R (u ++ g :: h :: v) → R g h := by
  intro u
  induction u with
  | nil => intro v g h H; exact H.1
  | cons x u ih =>
    intro v g h H
    cases u with
    | nil => exact H.2.1
    | cons y u => exact ih H.2

/-! ## C12 -/

/-- **C12.** For every pattern, capture list and behaviour, the pieces of a successful
`Split` are, in order, the slices of the spans of the documented groups `splitGroups`. -/
theorem C12_split_groups {ns : NS} {pattern : SplitPattern} {b : Behavior} {caps : List Capture}
    {pieces : List NS} (hp : pattern ns.normalized = .ok (.ok caps))
    (h : ns.split pattern b = .ok (.ok pieces)) :
    All2 (fun g p => ns.slice (.normalized (span g).1 (span g).2) = .ok (some p))
      (splitGroups b caps) pieces := split_inv hp h

/-- The groups of `Contiguous` are maximal runs: one kind inside each group, and the last
capture of a group differs in kind from the first of the next. -/
theorem C12_contiguous_maximal (caps : List Capture) :
    (splitGroups .contiguous caps).flatten = caps
    ∧ (∀ g ∈ splitGroups .contiguous caps, g ≠ [] ∧ ∃ k, ∀ c ∈ g, c.isMatch = k)
    ∧ ∀ (u v : List (List Capture)) (g h : List Capture), splitGroups .contiguous caps = u ++ g :: h :: v →
        ∀ x ∈ g, ∀ y ∈ h, x.isMatch ≠ y.isMatch := by
  refine ⟨(groupRuns_flatten caps).1, ?_, ?_⟩
  · intro g hg
    refine ⟨(groupRuns_flatten caps).2 g hg, ?_⟩
    simp only [splitGroups] at hg
    revert g
    induction caps with
    | nil => simp [groupRuns]
    | cons a rest ih =>
      intro g hg
      simp only [groupRuns] at hg
      split at hg
      · rename_i b g' gs hr
        rw [hr] at ih
        split at hg
        · rename_i hab
          rcases List.mem_cons.1 hg with rfl | hg
          · obtain ⟨k, hk⟩ := ih (b :: g') (by simp)
            refine ⟨k, fun c hc => ?_⟩
            rcases List.mem_cons.1 hc with rfl | hc
            · rw [hab]; exact hk b (by simp)
            · exact hk c hc
          · exact ih g (by simp [hg])
        · rcases List.mem_cons.1 hg with rfl | hg
          · exact ⟨a.isMatch, by simp⟩
          · exact ih g hg
      · rcases List.mem_cons.1 hg with rfl | hg
        · exact ⟨a.isMatch, by simp⟩
        · exact ih g hg
  · simp only [splitGroups]
    -- every group is of one kind and neighbours differ, by induction on the captures
    suffices H : ∀ caps : List Capture, Adjacent
        (fun g h => ∀ x ∈ g, ∀ y ∈ h, x.isMatch ≠ y.isMatch) (groupRuns caps)
        ∧ ∀ g ∈ groupRuns caps, ∃ k, ∀ c ∈ g, c.isMatch = k by
      intro u v g h e
      have := (H caps).1
      rw [e] at this
      exact this.mid
    intro caps
    induction caps with
    | nil => simp [groupRuns, Adjacent]
    | cons a rest ih =>
      obtain ⟨i1, i2⟩ := ih
      simp only [groupRuns]
      split
      · rename_i b g' gs hr
        rw [hr] at i1 i2
        obtain ⟨k, hk⟩ := i2 (b :: g') (by simp)
        split
        · rename_i hab
          refine ⟨?_, ?_⟩
          · cases gs with
            | nil => simp [Adjacent]
            | cons h gs =>
              refine ⟨?_, i1.2⟩
              intro x hx y hy
              rcases List.mem_cons.1 hx with rfl | hx
              · rw [hab]; exact i1.1 b (by simp) y hy
              · exact i1.1 x hx y hy
          · intro g hg
            rcases List.mem_cons.1 hg with rfl | hg
            · refine ⟨k, fun c hc => ?_⟩
              rcases List.mem_cons.1 hc with rfl | hc
              · rw [hab]; exact hk b (by simp)
              · exact hk c hc
            · exact i2 g (by simp [hg])
        · rename_i hab
          refine ⟨?_, ?_⟩
          · refine ⟨?_, i1⟩
            intro x hx y hy
            simp at hx; subst hx
            rw [hk y hy, ← hk b (by simp)]; exact hab
          · intro g hg
            rcases List.mem_cons.1 hg with rfl | hg
            · exact ⟨a.isMatch, by simp⟩
            · exact i2 g hg
      · rename_i hr
        cases rest with
        | nil => simp [groupRuns, Adjacent]
        | cons b rest =>
          obtain ⟨g, gs, hg⟩ := groupRuns_cons b rest
          exact absurd hg (hr b g gs)

/-- In `MergedWithPrevious` every group is a single capture or a piece followed by its
delimiter, and no delimiter following a piece is left alone. -/
theorem C12_prev_shape (caps : List Capture) :
    (splitGroups .mergedWithPrevious caps).flatten = caps
    ∧ (∀ g ∈ splitGroups .mergedWithPrevious caps,
        (∃ a, g = [a]) ∨ ∃ a d, g = [a, d] ∧ a.isMatch = false ∧ d.isMatch = true)
    ∧ ∀ (u v : List (List Capture)) (a : Capture) (h : List Capture),
        splitGroups .mergedWithPrevious caps = u ++ [a] :: h :: v →
        a.isMatch = false → ∀ d ∈ h.head?, d.isMatch = false := by
  refine ⟨(groupPrev_flatten _ caps (Nat.le_refl _)).1, ?_⟩
  simp only [splitGroups]
  suffices H : ∀ (n : Nat) (caps : List Capture), caps.length ≤ n →
      (∀ g ∈ groupPrev caps,
        (∃ a, g = [a]) ∨ ∃ a d, g = [a, d] ∧ a.isMatch = false ∧ d.isMatch = true)
      ∧ Adjacent (fun g h => ∀ a, g = [a] → a.isMatch = false →
          ∀ d ∈ h.head?, d.isMatch = false) (groupPrev caps)
      ∧ (groupPrev caps).head?.bind (·.head?) = caps.head? by
    obtain ⟨h1, h2, -⟩ := H _ caps (Nat.le_refl _)
    refine ⟨h1, ?_⟩
    intro u v a h e
    rw [e] at h2
    exact h2.mid a rfl
  intro n
  induction n with
  | zero =>
    intro caps h
    have : caps = [] := List.length_eq_zero_iff.1 (by omega)
    subst this; simp [groupPrev, Adjacent]
  | succ n ih =>
    intro caps h
    match caps with
    | [] => simp [groupPrev, Adjacent]
    | [a] => simp [groupPrev, Adjacent]
    | a :: b :: rest =>
      simp at h
      rw [groupPrev]
      split
      · rename_i hab
        obtain ⟨i1, i2, i3⟩ := ih rest (by omega)
        simp at hab
        refine ⟨?_, ?_, by simp⟩
        · intro g hg
          rcases List.mem_cons.1 hg with rfl | hg
          · exact Or.inr ⟨a, b, rfl, hab.1, hab.2⟩
          · exact i1 g hg
        · cases hg : groupPrev rest with
          | nil => simp [Adjacent]
          | cons g gs =>
            rw [hg] at i2
            exact ⟨by simp, i2⟩
      · rename_i hab
        obtain ⟨i1, i2, i3⟩ := ih (b :: rest) (by simp; omega)
        refine ⟨?_, ?_, by simp⟩
        · intro g hg
          rcases List.mem_cons.1 hg with rfl | hg
          · exact Or.inl ⟨a, rfl⟩
          · exact i1 g hg
        · cases hg : groupPrev (b :: rest) with
          | nil => simp [Adjacent]
          | cons g gs =>
            rw [hg] at i2
            refine ⟨?_, i2⟩
            intro x hx hm d hd
            simp at hx; subst hx
            rw [hg] at i3
            simp at i3
            rw [i3] at hd
            simp at hd; subst hd
            cases hb : b.isMatch
            · rfl
            · simp [hm, hb] at hab

/-- `MergedWithNext` is the mirror image of `MergedWithPrevious`. -/
theorem C12_next_mirror (caps : List Capture) :
    splitGroups .mergedWithNext caps
      = ((splitGroups .mergedWithPrevious caps.reverse).map List.reverse).reverse := by
  simp only [splitGroups]
  suffices H : ∀ (n : Nat) (caps : List Capture), caps.length ≤ n →
      groupPrev caps = ((groupNext caps.reverse).map List.reverse).reverse by
    have := H _ caps.reverse (Nat.le_refl _)
    rw [this]
    simp [Function.comp_def]
  -- adding a capture at the end of `groupNext`
  have snoc : ∀ (n : Nat) (l : List Capture), l.length ≤ n → ∀ b a : Capture,
      groupNext (l ++ [b, a]) =
        if b.isMatch && !a.isMatch then groupNext l ++ [[b, a]] else groupNext (l ++ [b]) ++ [[a]] := by
    intro n
    induction n with
    | zero =>
      intro l hl b a
      have : l = [] := List.length_eq_zero_iff.1 (by omega)
      subst this
      simp [groupNext]
    | succ n ih =>
      intro l hl b a
      match l with
      | [] => simp [groupNext]
      | [x] =>
        simp only [List.cons_append, List.nil_append, groupNext]
        cases hx : x.isMatch <;> cases hb : b.isMatch <;> cases ha : a.isMatch <;> simp
      | x :: y :: r =>
        simp at hl
        simp only [List.cons_append, groupNext]
        have i1 := ih r (by omega) b a
        have i2 := ih (y :: r) (by simp; omega) b a
        simp only [List.cons_append] at i2
        rw [i1, i2]
        split <;> split <;> simp
  intro n
  induction n with
  | zero =>
    intro caps h
    have : caps = [] := List.length_eq_zero_iff.1 (by omega)
    subst this; simp [groupPrev, groupNext]
  | succ n ih =>
    intro caps h
    match caps with
    | [] => simp [groupPrev, groupNext]
    | [a] => simp [groupPrev, groupNext]
    | a :: b :: rest =>
      simp at h
      have e : (a :: b :: rest).reverse = rest.reverse ++ [b, a] := by simp
      rw [e, snoc _ _ (Nat.le_refl _), groupPrev]
      have hc : (b.isMatch && !a.isMatch) = (!a.isMatch && b.isMatch) := by
        cases a.isMatch <;> cases b.isMatch <;> rfl
      rw [hc]
      split
      · rw [ih rest (by omega)]; simp
      · rw [ih (b :: rest) (by simp; omega)]; simp

/-- The documented example "the-final--countdown" with delimiter '-' (normalizedstring.go:478-486). -/
example :
    let ns := NS.fromString b!"the-final--countdown"
    let run := fun b => match ns.split (fromRune u!"-") b with
      | .ok (.ok ps) => ps.map NS.get
      | _ => []
    run .removed = [b!"the", b!"final", b!"countdown"]
    ∧ run .isolated = [b!"the", b!"-", b!"final", b!"-", b!"-", b!"countdown"]
    ∧ run .mergedWithPrevious = [b!"the-", b!"final-", b!"-", b!"countdown"]
    ∧ run .mergedWithNext = [b!"the", b!"-final", b!"-", b!"-countdown"]
    ∧ run .contiguous = [b!"the", b!"-", b!"final", b!"--", b!"countdown"] := by decide +kernel

/-! ## C11 -/

/-- `Slice` of an empty range that is inside both texts. -/
theorem slice_empty {ns : NS} (hwf : WF ns) {a : Int} (ha : isRuneBoundary ns.normalized a = true)
    (hle : a ≤ ns.originalLen) :
    ns.slice (.normalized a a) = .ok (some ⟨[], [], [], ns.originalShift + a⟩) := by
  have ba := isRuneBoundary_bounds ha
  have e : ∀ {α : Type} (l : List α), (l.drop a.toNat).take (a - a).toNat = [] := by intro α l; simp
  have h := slice_of (ns := ns) (r := .normalized a a) (na := a) (nb := a) (oa := a) (ob := a)
    (by simp [NS.rangeIsValid, Rng.start, Rng.stop, ha]) rfl (by simp [NS.coerceRangeToOriginal])
    (goSlice_of ba.1 (Int.le_refl _) hle) (goSlice_of ba.1 (Int.le_refl _) ba.2)
    (goSlice_of ba.1 (Int.le_refl _) (by rw [hwf.len]; exact ba.2))
  rw [e, e, e] at h
  exact h

/-- The text of a successful slice of a normalized range is that sub-text. -/
theorem slice_get {ns p : NS} {a b : Int} (h : ns.slice (.normalized a b) = .ok (some p)) :
    p.get = sub ns.get a b := by
  obtain ⟨-, na, nb, oa, ob, als, h1, -, -, h4, -⟩ := slice_ok h
  simp only [NS.coerceRangeToNormalized, Option.some.injEq, Prod.mk.injEq] at h1
  obtain ⟨rfl, rfl⟩ := h1
  exact (goSlice_eq_ok.1 h4).2

/-- Concatenating the sub-texts of groups that tile `[i,n)`. -/
theorem flatMap_groups {α : Type} (l : List α) : ∀ (gs : List (List Capture)) (i n : Int),
    (∀ g ∈ gs, g ≠ []) → Tiles gs.flatten i n → 0 ≤ i →
    gs.flatMap (fun g => sub l (span g).1 (span g).2) = sub l i n := by
  intro gs
  induction gs with
  | nil =>
    intro i n _ ht _
    simp [Tiles] at ht
    subst ht; simp [sub]
  | cons g gs ih =>
    intro i n hne ht h0
    rw [List.flatten_cons] at ht
    obtain ⟨h1, h2, h3⟩ := ht.group (hne g (by simp))
    have hn := h3.le
    rw [List.flatMap_cons, ih _ n (fun x hx => hne x (by simp [hx])) h3 (by omega), h1]
    unfold sub
    have e : (n - i).toNat = ((span g).2 - i).toNat + (n - (span g).2).toNat := by omega
    rw [e, List.take_add, List.drop_drop]
    congr 3
    omega

/-- Every capture of a group of a tiling lies in the span, and an empty span means every
capture of the group is empty and starts there. -/
theorem Tiles.head_le : ∀ {cs : List Capture} {i n : Int}, Tiles cs i n →
    ∀ c ∈ cs, i ≤ c.offsets.start ∧ c.offsets.start ≤ c.offsets.stop ∧ c.offsets.stop ≤ n := by
  intro cs
  induction cs with
  | nil => intro _ _ _ c hc; simp at hc
  | cons d cs ih =>
    intro i n h c hc
    obtain ⟨h1, h2, h3⟩ := h
    have := h3.le
    rcases List.mem_cons.1 hc with rfl | hc
    · omega
    · have := ih h3 c hc; omega

/-- Captures that can be sliced: on rune boundaries, and an empty capture must lie inside
the original text. -/
def Sliceable (ns : NS) (caps : List Capture) : Prop :=
  ∀ c ∈ caps, IsBoundary ns.normalized c.offsets.start ∧ IsBoundary ns.normalized c.offsets.stop
    ∧ (c.offsets.start < c.offsets.stop ∨ c.offsets.start ≤ ns.originalLen)

theorem span_mem {g : List Capture} (hg : g ≠ []) :
    ∃ c ∈ g, ∃ d ∈ g, span g = (c.offsets.start, d.offsets.stop) ∧ g.head? = some c := by
  cases g with
  | nil => exact absurd rfl hg
  | cons c g => exact ⟨c, by simp, _, List.getLast_mem (by simp), rfl, rfl⟩

theorem slice_group {ns : NS} (hwf : WF ns) {g : List Capture} (hg : g ≠ []) (hs : Sliceable ns g)
    (hle : (span g).1 ≤ (span g).2) (hhead : ∀ c ∈ g, c.offsets.start ≤ c.offsets.stop ∧ c.offsets.stop ≤ (span g).2) :
    ∃ p, ns.slice (.normalized (span g).1 (span g).2) = .ok (some p) := by
  obtain ⟨c, hc, d, hd, e, -⟩ := span_mem hg
  have bc := isRuneBoundary_of (hs c hc).1
  have bd := isRuneBoundary_of (hs d hd).2.1
  have hh := hhead c hc
  rw [e] at hle hh ⊢
  simp only at hle hh ⊢
  by_cases hlt : c.offsets.start < d.offsets.stop
  · obtain ⟨f, l, -, -, -, -, -, -, h⟩ := slice_normalized hwf bc bd hlt
    exact ⟨_, h⟩
  · have heq : d.offsets.stop = c.offsets.start := by omega
    rw [heq]
    refine ⟨_, slice_empty hwf bc ?_⟩
    rcases (hs c hc).2.2 with h | h
    · omega
    · exact h

/-- Groups of a tiling are sub-lists that span what they tile. -/
theorem groups_span : ∀ (gs : List (List Capture)) (i n : Int), (∀ g ∈ gs, g ≠ []) →
    Tiles gs.flatten i n → ∀ g ∈ gs, (span g).1 ≤ (span g).2
      ∧ ∀ c ∈ g, c.offsets.start ≤ c.offsets.stop ∧ c.offsets.stop ≤ (span g).2 := by
  intro gs
  induction gs with
  | nil => intro _ _ _ _ g hg; simp at hg
  | cons g gs ih =>
    intro i n hne ht x hx
    rw [List.flatten_cons] at ht
    have hg := ht.group (hne g (by simp))
    rcases List.mem_cons.1 hx with rfl | hx
    · refine ⟨by omega, ?_⟩
      -- restrict the tiling to the group
      have : Tiles x i (span x).2 := by
        have key : ∀ (l rest : List Capture) (j m : Int), Tiles (l ++ rest) j m →
            ∃ k, Tiles l j k ∧ Tiles rest k m := by
          intro l
          induction l with
          | nil => intro rest j m h; exact ⟨j, rfl, h⟩
          | cons a l ih' =>
            intro rest j m h
            obtain ⟨h1, h2, h3⟩ := h
            obtain ⟨k, hk1, hk2⟩ := ih' rest _ _ h3
            exact ⟨k, ⟨h1, h2, hk1⟩, hk2⟩
        obtain ⟨k, hk, -⟩ := key x gs.flatten i n ht
        have := (Tiles.group (rest := []) (hne x (by simp)) (by simpa using hk)).2.2
        simp [Tiles] at this
        rw [this]; exact hk
      intro c hc
      have := this.head_le c hc
      omega
    · exact ih _ n (fun y hy => hne y (by simp [hy])) hg.2.2 x hx

theorem splitGroups_subset (b : Behavior) (caps : List Capture) :
    ∀ g ∈ splitGroups b caps, ∀ c ∈ g, c ∈ caps := by
  intro g hg c hc
  have h : c ∈ (splitGroups b caps).flatten := List.mem_flatten.2 ⟨g, hg, hc⟩
  rw [(splitGroups_flatten b caps).1] at h
  split at h
  · exact (List.mem_filter.1 h).1
  · exact h

/-- **C11 (partial).** On every reachable state, for every pattern whose captures tile the
text on rune boundaries, `Split` succeeds and (1) the texts of its pieces are the sub-texts
spanned by the documented groups; (2) in the four non-removing behaviours they concatenate
to the whole text; (3) with `Removed` they are the non-matching captures, one piece each.
Missing from the full property: an *empty* capture beyond the end of the original text,
which makes `Split` panic (`C11_counterexample`); on a state whose text is not longer than
its original there are none. -/
theorem C11_split_partial {ns : NS} (hr : Reachable ns) {pattern : SplitPattern} {caps : List Capture}
    (hp : pattern ns.normalized = .ok (.ok caps)) (ht : Tiles caps 0 ns.normalized.length)
    (hs : Sliceable ns caps) (b : Behavior) :
    ∃ pieces, ns.split pattern b = .ok (.ok pieces)
      ∧ pieces.map NS.get = (splitGroups b caps).map (fun g => sub ns.get (span g).1 (span g).2)
      ∧ (b ≠ .removed → pieces.flatMap NS.get = ns.get)
      ∧ (b = .removed → pieces.map NS.get =
          (caps.filter fun c => !c.isMatch).map (fun c => sub ns.get c.offsets.start c.offsets.stop)) := by
  have hwf := hr.wf
  obtain ⟨hfl, hne⟩ := splitGroups_flatten b caps
  obtain ⟨pieces, h1, h2⟩ := split_of (b := b) hp (by
    intro g hg
    have hsub : Sliceable ns g := fun c hc => hs c (splitGroups_subset b caps g hg c hc)
    by_cases hb : b = .removed
    · subst hb
      simp only [splitGroups] at hg
      obtain ⟨c, hc, rfl⟩ := List.mem_map.1 hg
      have := ht.head_le c (List.mem_filter.1 hc).1
      apply slice_group hwf (by simp) hsub
      · simp [span]; omega
      · intro d hd
        simp at hd; subst hd
        simp [span]; omega
    · rw [if_neg hb] at hfl
      obtain ⟨k1, k2⟩ := groups_span (splitGroups b caps) 0 _ hne (by rw [hfl]; exact ht) g hg
      exact slice_group hwf (hne g hg) hsub k1 k2)
  have hmap : pieces.map NS.get = (splitGroups b caps).map (fun g => sub ns.get (span g).1 (span g).2) :=
    h2.map_eq (fun g p _ _ h => slice_get h)
  refine ⟨pieces, h1, hmap, ?_, ?_⟩
  · intro hb
    rw [if_neg hb] at hfl
    have : pieces.flatMap NS.get = (pieces.map NS.get).flatten := by rw [List.flatMap_def]
    rw [this, hmap, ← List.flatMap_def, flatMap_groups ns.get _ 0 _ hne (by rw [hfl]; exact ht) (by omega)]
    exact sub_full _
  · intro hb
    subst hb
    rw [hmap]
    simp [splitGroups, span, Function.comp_def]

/-- **C11 is false** as stated for all tilings: in "a" followed by three appended runes, an
empty match at the end makes `Split` panic. -/
theorem C11_counterexample :
    ∃ (ns : NS) (pattern : SplitPattern) (caps : List Capture), Reachable ns
      ∧ pattern ns.normalized = .ok (.ok caps) ∧ Tiles caps 0 ns.normalized.length
      ∧ (∀ c ∈ caps, isRuneBoundary ns.normalized c.offsets.start = true
          ∧ isRuneBoundary ns.normalized c.offsets.stop = true)
      ∧ ns.split pattern .isolated = .panic :=
  ⟨⟨b!"a", b!"axyz", [⟨0, 1⟩, ⟨0, 1⟩, ⟨0, 1⟩, ⟨0, 1⟩], 0⟩,
    fromRegexp fun s => [((s.length : Int), (s.length : Int))],
    [⟨⟨0, 4⟩, false⟩, ⟨⟨4, 4⟩, true⟩],
    .of_ops (s := b!"a") (ops := [.append b!"xyz"]) (by decide +kernel) (by decide +kernel),
    by decide +kernel, by decide +kernel, by decide +kernel, by decide +kernel⟩

/-- Non-vacuity of `C11_split_partial`: a state with a multi-byte expansion, split at 'é'. -/
example : ∃ caps, (fromRune u!"é") exConv.normalized = .ok (.ok caps) ∧ Tiles caps 0 exConv.normalized.length
    ∧ Sliceable exConv caps ∧ caps.length = 3 := by
  refine ⟨[⟨⟨0, 1⟩, false⟩, ⟨⟨1, 3⟩, true⟩, ⟨⟨3, 4⟩, false⟩], by decide +kernel, by decide +kernel, ?_,
    by decide⟩
  intro c hc
  have hv : ValidUtf8 exConv.normalized := by decide +kernel
  rw [← C18_isRuneBoundary hv, ← C18_isRuneBoundary hv]
  revert c
  decide +kernel

/-! ## C52 -/

/-- Slicing a slice is slicing the parent. -/
theorem slice_slice {ns p q : NS} {a b c d : Int}
    (h1 : ns.slice (.normalized a b) = .ok (some p))
    (h2 : p.slice (.normalized c d) = .ok (some q)) (hcd : c < d) :
    ns.slice (.normalized (a + c) (a + d)) = .ok (some q) ∧ 0 ≤ c ∧ d ≤ b - a := by
  have hcons := fun x y => C13_consistent (r := .normalized a b) h1 rfl (c := x) (d := y)
  obtain ⟨v1, na, nb, oa, ob, als, n1, o1, s1, t1, l1, m1, sh1⟩ := slice_ok h1
  obtain ⟨v2, na', nb', oa', ob', als', n2, o2, s2, t2, l2, m2, sh2⟩ := slice_ok h2
  simp only [NS.coerceRangeToNormalized, Option.some.injEq, Prod.mk.injEq] at n1 n2
  obtain ⟨rfl, rfl⟩ := n1
  obtain ⟨rfl, rfl⟩ := n2
  obtain ⟨⟨i1, i2, i3⟩, e1⟩ := goSlice_eq_ok.1 t1
  obtain ⟨⟨j1, j2, j3⟩, e2⟩ := goSlice_eq_ok.1 t2
  have hpl : (p.normalized.length : Int) = b - a := by rw [e1]; simp; omega
  obtain ⟨⟨k1, k2, k3⟩, f1⟩ := goSlice_eq_ok.1 l1
  obtain ⟨⟨k4, k5, k6⟩, f2⟩ := goSlice_eq_ok.1 l2
  obtain ⟨⟨p1, p2, p3⟩, g1⟩ := goSlice_eq_ok.1 s1
  obtain ⟨⟨p4, p5, p6⟩, g2⟩ := goSlice_eq_ok.1 s2
  have hol : (p.original.length : Int) = ob - oa := by rw [g1]; simp; omega
  obtain ⟨x, y, X, Y, c1, c2, c3, c4⟩ := hcons c d j1 hcd (by omega)
  rw [o2] at c1
  simp only [GoM.ok.injEq, Option.some.injEq, Prod.mk.injEq] at c1
  obtain ⟨rfl, rfl⟩ := c1
  have hX : X = oa + oa' := by rw [sh1] at c3; omega
  have hY : Y = oa + ob' := by rw [sh1] at c4; omega
  refine ⟨?_, j1, by omega⟩
  have hbyte : ∀ x : Int, 0 ≤ x → x ≤ b - a → isRuneBoundary p.normalized x = true →
      isRuneBoundary ns.normalized (a + x) = true := by
    intro x hx0 hx1 hx
    simp only [NS.rangeIsValid, Rng.start, Rng.stop, Bool.and_eq_true] at v1
    by_cases hxa : x = 0
    · subst hxa; simpa using v1.1
    · by_cases hxb : x = b - a
      · subst hxb
        have : a + (b - a) = b := by omega
        rw [this]; exact v1.2
      · unfold isRuneBoundary at hx ⊢
        rw [if_neg (by omega), if_neg (by omega)] at hx
        split
        · rfl
        · rw [if_neg (by omega)]
          have : p.normalized[x.toNat]? = ns.normalized[(a + x).toNat]? := by
            rw [e1, List.getElem?_take_of_lt (by omega), List.getElem?_drop]
            congr 1; omega
          rw [this] at hx
          exact hx
  have hv : ns.rangeIsValid (.normalized (a + c) (a + d)) = true := by
    simp only [NS.rangeIsValid, Rng.start, Rng.stop, Bool.and_eq_true] at v2 ⊢
    exact ⟨hbyte c j1 (by omega) v2.1, hbyte d (by omega) (by omega) v2.2⟩
  have hsl := slice_of (ns := ns) (r := .normalized (a + c) (a + d)) hv rfl c2
    (goSlice_of (by omega) (by omega) (by omega)) (goSlice_of (by omega) (by omega) (by omega))
    (goSlice_of (by omega) (by omega) (by omega))
  rw [hsl]
  have hsub : ∀ {α : Type} (l : List α) (m : Int) (u v : Int), 0 ≤ m → 0 ≤ u → u ≤ v →
      ∀ w : Int, v ≤ w - m → (l.drop (m + u).toNat).take (m + v - (m + u)).toNat
        = (((l.drop m.toNat).take (w - m).toNat).drop u.toNat).take (v - u).toNat := by
    intro α l m u v h0 h1 h2 w h3
    rw [List.drop_take, List.drop_drop, List.take_take]
    congr 1
    · omega
    · congr 1; omega
  congr 2
  have q1 : q.original = (ns.original.drop X.toNat).take (Y - X).toNat := by
    rw [g2, g1, hX, hY]
    exact (hsub ns.original oa oa' ob' p1 p4 p5 ob (by omega)).symm
  have q2 : q.normalized = (ns.normalized.drop (a + c).toNat).take (a + d - (a + c)).toNat := by
    rw [e2, e1]
    exact (hsub ns.normalized a c d i1 j1 j2 b (by omega)).symm
  have q3 : q.alignments = ((ns.alignments.drop (a + c).toNat).take (a + d - (a + c)).toNat).map
      (fun al => ⟨al.start - X, al.stop - X⟩) := by
    rw [m2, f2, m1, f1, hsub ns.alignments a c d i1 j1 j2 b (by omega), hX]
    rw [← List.map_drop, ← List.map_take, List.map_map]
    apply List.map_congr_left
    intro al _
    simp; omega
  have q4 : q.originalShift = ns.originalShift + X := by rw [sh2, sh1, hX]; omega
  cases q
  simp only at q1 q2 q3 q4
  subst q1 q2 q3 q4
  rfl

/-- `SplitTree ns leaves`: `leaves` are obtained from `ns` by splitting it, then splitting some
of the non-empty pieces again, any number of times and in any order, with any patterns whose
captures tile the piece they are applied to; empty pieces are dropped, as
`PreTokenizedString.Split` does. -/
inductive SplitTree (ns : NS) : List NS → Prop
  | first (pattern : SplitPattern) (b : Behavior) (caps : List Capture) (pieces : List NS) :
      pattern ns.normalized = .ok (.ok caps) → Tiles caps 0 ns.normalized.length →
      ns.split pattern b = .ok (.ok pieces) →
      SplitTree ns (pieces.filter fun p => !p.isEmpty)
  | again (u v : List NS) (p : NS) (pattern : SplitPattern) (b : Behavior) (caps : List Capture)
      (pieces : List NS) :
      SplitTree ns (u ++ p :: v) →
      pattern p.normalized = .ok (.ok caps) → Tiles caps 0 p.normalized.length →
      p.split pattern b = .ok (.ok pieces) →
      SplitTree ns (u ++ (pieces.filter fun p => !p.isEmpty) ++ v)

/-- `leaf` is the slice of `ns` over the non-empty range `r`. -/
def IsSlice (ns : NS) (r : Int × Int) (leaf : NS) : Prop :=
  r.1 < r.2 ∧ ns.slice (.normalized r.1 r.2) = .ok (some leaf)

/-- The ranges of the pieces of one split. -/
theorem split_ranges {ns : NS} {pattern : SplitPattern} {b : Behavior} {caps : List Capture} {pieces : List NS}
    (hp : pattern ns.normalized = .ok (.ok caps)) (ht : Tiles caps 0 ns.normalized.length)
    (h : ns.split pattern b = .ok (.ok pieces)) :
    ∃ rs : List (Int × Int), All2 (IsSlice ns) rs (pieces.filter fun p => !p.isEmpty)
      ∧ rs.Pairwise (fun r s => r.2 ≤ s.1)
      ∧ ∀ r ∈ rs, 0 ≤ r.1 ∧ r.2 ≤ ns.normalized.length := by
  have h2 := split_inv hp h
  obtain ⟨hfl, hne⟩ := splitGroups_flatten b caps
  -- the spans of the groups are ordered
  have hord : ((splitGroups b caps).map span).Pairwise (fun r s => r.2 ≤ s.1)
      ∧ ∀ g ∈ splitGroups b caps, (span g).1 ≤ (span g).2 ∧ 0 ≤ (span g).1
        ∧ (span g).2 ≤ ns.normalized.length := by
    by_cases hb : b = .removed
    · subst hb
      simp only [splitGroups]
      clear h2 hfl hne h hp
      constructor
      · have key : ∀ (cs : List Capture) (i n : Int), Tiles cs i n →
            cs.Pairwise (fun c d => c.offsets.stop ≤ d.offsets.start) := by
          intro cs
          induction cs with
          | nil => intros; exact .nil
          | cons c cs ih =>
            intro i n hc
            obtain ⟨h1, h2, h3⟩ := hc
            refine List.pairwise_cons.2 ⟨fun d hd => (h3.head_le d hd).1, ih _ _ h3⟩
        rw [List.map_map, List.pairwise_map]
        exact (key caps _ _ ht).filter _
      · intro g hg
        obtain ⟨c, hc, rfl⟩ := List.mem_map.1 hg
        have := ht.head_le c (List.mem_filter.1 hc).1
        simp [span]; omega
    · rw [if_neg hb] at hfl
      rw [← hfl] at ht
      clear h2 hfl h hp
      generalize splitGroups b caps = gs at *
      have key : ∀ (gs : List (List Capture)) (i n : Int), (∀ g ∈ gs, g ≠ []) → Tiles gs.flatten i n →
          (gs.map span).Pairwise (fun r s => r.2 ≤ s.1) ∧
          ∀ g ∈ gs, (span g).1 ≤ (span g).2 ∧ i ≤ (span g).1 ∧ (span g).2 ≤ n := by
        intro gs
        induction gs with
        | nil => intro i n _ _; simp
        | cons g gs ih =>
          intro i n hne ht
          rw [List.flatten_cons] at ht
          obtain ⟨h1, h2, h3⟩ := ht.group (hne g (by simp))
          obtain ⟨i1, i2⟩ := ih _ n (fun x hx => hne x (by simp [hx])) h3
          have hle := h3.le
          refine ⟨?_, ?_⟩
          · rw [List.map_cons, List.pairwise_cons]
            refine ⟨?_, i1⟩
            intro s hs
            obtain ⟨x, hx, rfl⟩ := List.mem_map.1 hs
            exact (i2 x hx).2.1
          · intro x hx
            rcases List.mem_cons.1 hx with rfl | hx
            · omega
            · have := i2 x hx; omega
      exact key gs 0 _ hne ht
  -- keep the non-empty ones
  have hall : All2 (fun r p => ns.slice (.normalized r.1 r.2) = .ok (some p))
      ((splitGroups b caps).map span) pieces := by
    clear hord hfl hne h hp
    generalize splitGroups b caps = gs at h2
    induction h2 with
    | nil => exact .nil
    | cons h1 _ ih => exact .cons h1 ih
  have hbd : ∀ r ∈ (splitGroups b caps).map span, r.1 ≤ r.2 ∧ 0 ≤ r.1 ∧ r.2 ≤ ns.normalized.length := by
    intro r hr
    obtain ⟨g, hg, rfl⟩ := List.mem_map.1 hr
    exact hord.2 g hg
  have hpw := hord.1
  clear hord hfl hne h2 h hp ht
  generalize (splitGroups b caps).map span = rs at *
  refine ⟨rs.filter (fun r => decide (r.1 < r.2)), ?_, hpw.filter _, ?_⟩
  · induction hall with
    | nil => exact .nil
    | cons h1 h2 ih =>
      rename_i r p rs ps
      have ih := ih (fun x hx => hbd x (by simp [hx])) (List.pairwise_cons.1 hpw).2
      have hr := hbd r (by simp)
      have hget := slice_get h1
      have hlen : p.normalized.length = (r.2 - r.1).toNat := by
        show p.get.length = _
        rw [hget]
        exact sub_length _ hr.2.1 hr.1 hr.2.2
      by_cases hlt : r.1 < r.2
      · have : p.isEmpty = false := by
          simp [NS.isEmpty, hlen, -List.length_eq_zero_iff]; omega
        simp only [hlt, this, decide_true, Bool.not_false, List.filter_cons_of_pos]
        exact .cons ⟨hlt, h1⟩ ih
      · have : p.isEmpty = true := by
          simp [NS.isEmpty, hlen, -List.length_eq_zero_iff]; omega
        simpa [hlt, this] using ih
  · intro r hr
    have := hbd r (List.mem_filter.1 hr).1
    omega

/-- Pieces of pieces are slices of the root over increasing disjoint ranges. -/
theorem splitTree_ranges {ns : NS} {leaves : List NS} (h : SplitTree ns leaves) :
    ∃ rs : List (Int × Int), All2 (IsSlice ns) rs leaves
      ∧ rs.Pairwise (fun r s => r.2 ≤ s.1)
      ∧ ∀ r ∈ rs, 0 ≤ r.1 ∧ r.2 ≤ ns.normalized.length := by
  induction h with
  | first pattern b caps pieces hp ht hs => exact split_ranges hp ht hs
  | again u v p pattern b caps pieces _ hp ht hs ih =>
    obtain ⟨rs, h1, h2, h3⟩ := ih
    obtain ⟨ru, rv', e, a1, a2⟩ := All2.append_inv h1
    subst e
    cases a2 with
    | cons hr a3 =>
      rename_i r rv
      obtain ⟨qs, q1, q2, q3⟩ := split_ranges hp ht hs
      obtain ⟨hlt, hsl⟩ := hr
      have hmem := h3 r (by simp)
      have hlen : (p.normalized.length : Int) = r.2 - r.1 := by
        have := slice_get hsl
        have h4 : p.normalized.length = (sub ns.get r.1 r.2).length := congrArg List.length this
        rw [h4, sub_length ns.get hmem.1 (by omega) hmem.2]; omega
      obtain ⟨w1, w2, w3⟩ := List.pairwise_append.1 h2
      obtain ⟨w4, w5⟩ := List.pairwise_cons.1 w2
      refine ⟨ru ++ qs.map (fun q => (r.1 + q.1, r.1 + q.2)) ++ rv, ?_, ?_, ?_⟩
      · refine (a1.append ?_).append a3
        clear q2 q3 hs
        generalize (pieces.filter fun p => !p.isEmpty) = ps at q1
        induction q1 with
        | nil => exact .nil
        | cons hq _ ih =>
          refine .cons ⟨?_, (slice_slice hsl hq.2 hq.1).1⟩ ih
          have := hq.1
          simp only; omega
      · rw [List.pairwise_append, List.pairwise_append, List.pairwise_map]
        refine ⟨⟨w1, ?_, ?_⟩, w5, ?_⟩
        · exact q2.imp (by intro x y hxy; simp only; omega)
        · intro x hx y hy
          obtain ⟨q, hq, rfl⟩ := List.mem_map.1 hy
          have := w3 x hx r (by simp)
          have := q3 q hq
          simp only; omega
        · intro x hx y hy
          rcases List.mem_append.1 hx with hx | hx
          · exact w3 x hx y (by simp [hy])
          · obtain ⟨q, hq, rfl⟩ := List.mem_map.1 hx
            have := w4 y hy
            have := q3 q hq
            simp only; omega
      · intro x hx
        rcases List.mem_append.1 hx with hx | hx
        · rcases List.mem_append.1 hx with hx | hx
          · exact h3 x (by simp [hx])
          · obtain ⟨q, hq, rfl⟩ := List.mem_map.1 hx
            have := q3 q hq
            simp only; omega
        · exact h3 x (by simp [hx])

/-- **C52.** Splitting pieces again and again, any number of times, yields pieces whose
`OriginalOffsets` lie inside those of the root, in order (starts and ends both
non-decreasing), and each piece is exactly the slice of the root over its range. -/
theorem C52_split_tree {ns : NS} (hr : Reachable ns) {leaves : List NS} (h : SplitTree ns leaves) :
    (∀ leaf ∈ leaves, ns.originalOffsets.start ≤ leaf.originalOffsets.start
        ∧ leaf.originalOffsets.start ≤ leaf.originalOffsets.stop
        ∧ leaf.originalOffsets.stop ≤ ns.originalOffsets.stop)
    ∧ leaves.Pairwise (fun p q => p.originalOffsets.start ≤ q.originalOffsets.start
        ∧ p.originalOffsets.stop ≤ q.originalOffsets.stop)
    ∧ ∃ rs, All2 (IsSlice ns) rs leaves ∧ rs.Pairwise (fun r s => r.2 ≤ s.1)
        ∧ ∀ r ∈ rs, 0 ≤ r.1 ∧ r.2 ≤ ns.normalized.length := by
  have hwf := hr.wf
  obtain ⟨rs, h1, h2, h3⟩ := splitTree_ranges h
  -- the offsets of a slice
  have off : ∀ r leaf, IsSlice ns r leaf → 0 ≤ r.1 → r.2 ≤ ns.normalized.length →
      ∃ f l, ns.alignments[r.1.toNat]? = some f ∧ ns.alignments[(r.2 - 1).toNat]? = some l
        ∧ 0 ≤ f.start ∧ f.start ≤ l.stop ∧ l.stop ≤ ns.original.length
        ∧ leaf.originalOffsets = ⟨ns.originalShift + f.start, ns.originalShift + l.stop⟩ := by
    intro r leaf hl h0 hle
    obtain ⟨hlt, hs⟩ := hl
    obtain ⟨hv, -⟩ := slice_ok hs
    simp only [NS.rangeIsValid, Rng.start, Rng.stop, Bool.and_eq_true] at hv
    obtain ⟨f, l, e1, e2, b1, b2, b3, -, e4⟩ := slice_normalized hwf hv.1 hv.2 hlt
    refine ⟨f, l, e1, e2, b1, b2, b3, ?_⟩
    rw [hs] at e4
    simp only [GoM.ok.injEq, Option.some.injEq] at e4
    rw [e4]
    simp [NS.originalOffsets, NS.originalLen]; omega
  refine ⟨?_, ?_, rs, h1, h2, h3⟩
  · intro leaf hleaf
    obtain ⟨r, hr, hs⟩ := h1.exists_left hleaf
    obtain ⟨f, l, -, -, b1, b2, b3, e⟩ := off r leaf hs (h3 r hr).1 (h3 r hr).2
    rw [e]
    simp [NS.originalOffsets, NS.originalLen]; omega
  · clear h
    induction h1 with
    | nil => exact .nil
    | cons hs htail ih =>
      rename_i r leaf rs leaves
      obtain ⟨p1, p2⟩ := List.pairwise_cons.1 h2
      refine List.pairwise_cons.2 ⟨?_, ih p2 (fun x hx => h3 x (by simp [hx]))⟩
      intro q hq
      obtain ⟨s, hs', hsq⟩ := htail.exists_left hq
      have hr3 := h3 r (by simp)
      have hs3 := h3 s (by simp [hs'])
      obtain ⟨f, l, e1, e2, -, -, -, e⟩ := off r leaf hs hr3.1 hr3.2
      obtain ⟨f', l', e1', e2', -, -, -, e'⟩ := off s q hsq hs3.1 hs3.2
      have hle := p1 s hs'
      have l1 := hs.1
      have l2 := hsq.1
      obtain ⟨k1, k2⟩ := List.getElem?_eq_some_iff.1 e1
      obtain ⟨k3, k4⟩ := List.getElem?_eq_some_iff.1 e2
      obtain ⟨k5, k6⟩ := List.getElem?_eq_some_iff.1 e1'
      obtain ⟨k7, k8⟩ := List.getElem?_eq_some_iff.1 e2'
      have r1 : AlignLE f f' := by rw [← k2, ← k6]; exact hwf.getElem_le (by omega) k5
      have r2 : AlignLE l l' := by rw [← k4, ← k8]; exact hwf.getElem_le (by omega) k7
      have bf := hwf.bounds f (k2 ▸ List.getElem_mem k1)
      have bl := hwf.bounds l' (k8 ▸ List.getElem_mem k7)
      have := r1.start_le bf.2.1
      have := r2.stop_le bl.2.1
      rw [e, e']
      simp only; omega

/-- Non-vacuity: split on ' ', then split the second piece on '-'. -/
example : SplitTree (NS.fromString b!"ab c-d")
    [⟨b!"ab", b!"ab", [⟨0, 1⟩, ⟨1, 2⟩], 0⟩, ⟨b!"c", b!"c", [⟨0, 1⟩], 3⟩, ⟨b!"d", b!"d", [⟨0, 1⟩], 5⟩] := by
  have h1 : SplitTree (NS.fromString b!"ab c-d")
      [⟨b!"ab", b!"ab", [⟨0, 1⟩, ⟨1, 2⟩], 0⟩, ⟨b!"c-d", b!"c-d", [⟨0, 1⟩, ⟨1, 2⟩, ⟨2, 3⟩], 3⟩] :=
    .first (fromRune u!" ") .removed [⟨⟨0, 2⟩, false⟩, ⟨⟨2, 3⟩, true⟩, ⟨⟨3, 6⟩, false⟩]
      [⟨b!"ab", b!"ab", [⟨0, 1⟩, ⟨1, 2⟩], 0⟩, ⟨b!"c-d", b!"c-d", [⟨0, 1⟩, ⟨1, 2⟩, ⟨2, 3⟩], 3⟩]
      (by decide +kernel) (by decide +kernel) (by decide +kernel)
  exact .again [⟨b!"ab", b!"ab", [⟨0, 1⟩, ⟨1, 2⟩], 0⟩] [] ⟨b!"c-d", b!"c-d", [⟨0, 1⟩, ⟨1, 2⟩, ⟨2, 3⟩], 3⟩
    (fromRune u!"-") .removed [⟨⟨0, 1⟩, false⟩, ⟨⟨1, 2⟩, true⟩, ⟨⟨2, 3⟩, false⟩]
    [⟨b!"c", b!"c", [⟨0, 1⟩], 3⟩, ⟨b!"d", b!"d", [⟨0, 1⟩], 5⟩] h1
    (by decide +kernel) (by decide +kernel) (by decide +kernel)

end Verif
