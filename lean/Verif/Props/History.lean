import Verif.Lemmas.Loop
import Verif.Lemmas.FromString
import Verif.Spec.History
import Verif.Model.Notation

/-! C02, C03: invariants of arbitrary histories of calls. -/

set_option autoImplicit false

namespace Verif

theorem WF.getElem_le {ns : NS} (h : WF ns) {i j : Nat} (hij : i ≤ j) (hj : j < ns.alignments.length) :
    AlignLE (ns.alignments[i]'(by omega)) ns.alignments[j] := by
  by_cases he : i = j
  · subst he; exact AlignLE.refl _
  · exact List.pairwise_iff_getElem.1 h.ordered i j (by omega) hj (by omega)

theorem pickAt_mem {als : List Align} {k : Int} (h0 : 0 ≤ k) (h : k < (als.length : Int)) :
    pickAt als k = als[k.toNat]'(by omega) := by
  have : k.toNat < als.length := by omega
  simp [pickAt, this]; omega

theorem WF.pickAt_le {ns : NS} (h : WF ns) {i j : Int} (hij : i ≤ j)
    (hj : j < (ns.alignments.length : Int)) :
    AlignLE (pickAt ns.alignments i) (pickAt ns.alignments j) := by
  by_cases hi0 : i < 0
  · have e : pickAt ns.alignments i = ⟨0, 0⟩ := by simp [pickAt, hi0]
    rw [e]
    by_cases hj0 : j < 0
    · left; simp [pickAt, hj0]
    · right
      rw [pickAt_mem (by omega) hj]
      exact (h.bounds _ (List.getElem_mem _)).1
  · rw [pickAt_mem (by omega) (by omega), pickAt_mem (by omega) hj]
    exact h.getElem_le (by omega) (by omega)

theorem WF.pickAt_bounds {ns : NS} (h : WF ns) {j : Int} (hj : j < (ns.alignments.length : Int)) :
    0 ≤ (pickAt ns.alignments j).start ∧ (pickAt ns.alignments j).start ≤ (pickAt ns.alignments j).stop
      ∧ (pickAt ns.alignments j).stop ≤ (ns.original.length : Int) := by
  by_cases hj0 : j < 0
  · have e : pickAt ns.alignments j = ⟨0, 0⟩ := by simp [pickAt, hj0]
    rw [e]; simp
  · rw [pickAt_mem (by omega) hj]
    exact h.bounds _ (List.getElem_mem _)

theorem mem_take_pick {als : List Align} {n : Nat} {x : Align} (h : x ∈ als.take n) :
    ∃ i : Int, 0 ≤ i ∧ i < n ∧ i < (als.length : Int) ∧ x = pickAt als i := by
  obtain ⟨i, hi, rfl⟩ := List.mem_iff_getElem.1 h
  simp at hi
  refine ⟨i, by omega, by omega, by omega, ?_⟩
  rw [pickAt_mem (by omega) (by omega)]; simp

theorem mem_drop_pick {als : List Align} {n : Nat} {x : Align} (h : x ∈ als.drop n) :
    ∃ i : Int, (n : Int) ≤ i ∧ i < (als.length : Int) ∧ x = pickAt als i := by
  obtain ⟨i, hi, rfl⟩ := List.mem_iff_getElem.1 h
  simp at hi
  refine ⟨((n + i : Nat) : Int), by omega, by omega, ?_⟩
  rw [pickAt_mem (by omega) (by omega)]
  simp only [List.getElem_drop, Int.toNat_natCast]

theorem mem_zip_map_snd {rs : List Rune} {ks : List Int} {als : List Align} {c : Ch}
    (h : c ∈ rs.zip (ks.map (pickAt als))) : ∃ k ∈ ks, c.2 = pickAt als k := by
  have := (List.of_mem_zip h).2
  obtain ⟨k, hk, e⟩ := List.mem_map.1 this
  exact ⟨k, hk, e.symm⟩

theorem zip_map_snd_eq {rs : List Rune} {xs : List Align} (h : xs.length = rs.length) :
    (rs.zip xs).map (·.2) = xs := by
  rw [← List.unzip_snd, List.unzip_zip h.symm]

/-- The general preservation lemma: a call of `TransformRange` whose picked alignments do not
reach beyond the range keeps the string well-formed. -/
theorem transformNormalized_wf {ns ns' : NS} (hwf : WF ns) {a b io : Int} {dest : List RuneChange}
    (h : ns.transformNormalized a b dest io = .ok ns')
    (hup : b = (ns.normalized.length : Int) ∨ ∀ tail, goSlice ns.normalized (a + io) b = .ok tail →
      a + io + (encodeRunes ((runesOf tail).take (consumed dest))).length ≤ b) :
    WF ns' ∧ ns'.original = ns.original ∧ ns'.originalShift = ns.originalShift := by
  obtain ⟨nPre, nInit, nTail, nPost, aPre, aPost, ks, h1, h2, h3, h4, h5, h6, h7, k1, k2, k3, k4, rfl⟩ :=
    transformNormalized_ok h
  have hlen := hwf.len
  have hnl : ns.normalized.length = nPre.length + (nInit.length + nTail.length) + nPost.length := by
    rw [h1]; simp; omega
  simp only [List.length_append] at h4
  have hkb : ∀ k ∈ ks, a - 1 ≤ k ∧ k ≤ b - 1 ∧ -1 ≤ k ∧ k < (ns.alignments.length : Int) := by
    intro k hk
    have hk3 := k3 k hk
    refine ⟨by omega, ?_, by omega, by omega⟩
    rcases hup with hb | hup
    · omega
    · have := hup nTail (by
        rw [h1, ← List.append_assoc]
        exact goSlice_mid (nPre ++ nInit) nTail nPost (by simp; omega) (by simp; omega))
      omega
  refine ⟨⟨?_, ?_, ?_⟩, rfl, rfl⟩
  · -- length
    have e1 : (ns.alignments.take a.toNat).length = nPre.length := by simp; omega
    have e2 : (ns.alignments.drop b.toNat).length = nPost.length := by simp; omega
    have e3 : text ((dest.map fun rc => sanitize rc.rune).zip (ks.map (pickAt ns.alignments)))
        = encodeRunes (dest.map fun rc => sanitize rc.rune) := by
      unfold text
      congr 1
      rw [List.map_fst_zip]; simp [k1]
    simp only [h5, h6, List.length_append, e1, e2, aligns_length, e3]
  · -- order
    simp only
    rw [List.pairwise_append, List.pairwise_append]
    refine ⟨⟨?_, ?_, ?_⟩, ?_, ?_⟩
    · rw [h5]; exact hwf.ordered.sublist (List.take_sublist _ _)
    · apply pairwise_aligns
      rw [zip_map_snd_eq (by simp [k1]), List.pairwise_map]
      refine k2.imp_of_mem ?_
      intro x y hx hy hxy
      have := hkb x hx; have := hkb y hy
      exact hwf.pickAt_le hxy (by omega)
    · intro x hx y hy
      rw [h5] at hx
      obtain ⟨i, i1, i2, i3, rfl⟩ := mem_take_pick hx
      obtain ⟨c, hc, rfl⟩ := mem_aligns.1 hy
      obtain ⟨k, hk, e⟩ := mem_zip_map_snd hc
      have := hkb k hk
      rw [e]; exact hwf.pickAt_le (by omega) (by omega)
    · rw [h6]; exact hwf.ordered.sublist (List.drop_sublist _ _)
    · intro x hx y hy
      rw [h6] at hy
      obtain ⟨j, j1, j2, rfl⟩ := mem_drop_pick hy
      rcases List.mem_append.1 hx with hx | hx
      · rw [h5] at hx
        obtain ⟨i, i1, i2, i3, rfl⟩ := mem_take_pick hx
        exact hwf.pickAt_le (by omega) (by omega)
      · obtain ⟨c, hc, rfl⟩ := mem_aligns.1 hx
        obtain ⟨k, hk, e⟩ := mem_zip_map_snd hc
        have := hkb k hk
        rw [e]; exact hwf.pickAt_le (by omega) (by omega)
  · -- bounds
    intro x hx
    simp only [List.mem_append] at hx
    rcases hx with (hx | hx) | hx
    · rw [h5] at hx; exact hwf.bounds _ (List.mem_of_mem_take hx)
    · obtain ⟨c, hc, rfl⟩ := mem_aligns.1 hx
      obtain ⟨k, hk, e⟩ := mem_zip_map_snd hc
      have := hkb k hk
      rw [e]; exact hwf.pickAt_bounds (by omega)
    · rw [h6] at hx; exact hwf.bounds _ (List.mem_of_mem_drop hx)

/-! ## Each call -/

/-- The conclusion for one call. -/
def Keeps (ns ns' : NS) : Prop :=
  WF ns' ∧ ns'.original = ns.original ∧ ns'.originalShift = ns.originalShift

theorem transform_wf {ns ns' : NS} (hwf : WF ns) {dest : List RuneChange} {io : Int}
    (h : ns.transform dest io = .ok ns') : Keeps ns ns' :=
  transformNormalized_wf hwf (a := 0) (b := ns.len) h (Or.inl rfl)

theorem trim_wf {ns ns' : NS} (hwf : WF ns) {l r : Bool} (h : ns.trimLeftRight l r = .ok ns') :
    Keeps ns ns' := by
  unfold NS.trimLeftRight at h
  simp only at h
  generalize (if l = true then countLeadingSpaces (runesOf ns.normalized) else 0) = lead at h
  generalize (if r = true ∧ lead < (runesOf ns.normalized).length then
    countTrailingSpaces (runesOf ns.normalized) else 0) = trail at h
  split at h
  · simp at h; subst h; exact ⟨hwf, rfl, rfl⟩
  · exact transform_wf hwf h

theorem consumed_ones (rs : List Rune) : consumed (rs.map fun r => ⟨r, 1⟩) = 0 := by
  induction rs with
  | nil => rfl
  | cons r rs ih => simp [consumed, ih]

theorem consumed_append (as bs : List RuneChange) : consumed (as ++ bs) = consumed as + consumed bs := by
  induction as with
  | nil => simp [consumed]
  | cons a as ih => simp [consumed, ih]; omega

theorem prependChanges_consumed (s : Str) : consumed (NS.prependChanges s) ≤ 1 := by
  cases s with
  | nil => simp [NS.prependChanges, rangeStr, rangeAux, consumed]
  | cons b bs =>
    simp only [NS.prependChanges, rangeStr, rangeAux, List.map_cons]
    have : ∀ (i k : Nat), 0 < i → consumed ((rangeAux bs i k).map fun x =>
        (⟨x.2, if x.1 > 0 then 1 else 0⟩ : RuneChange)) = 0 := by
      intro i k hi
      generalize hl : rangeAux bs i k = l
      have hpos : ∀ p ∈ l, 0 < p.1 := by
        rw [← hl]
        clear hl
        induction bs generalizing i k with
        | nil => simp [rangeAux]
        | cons b bs ih =>
          cases k with
          | zero =>
            intro p hp
            simp only [rangeAux, List.mem_cons] at hp
            rcases hp with rfl | hp
            · exact hi
            · exact ih _ _ (by omega) p hp
          | succ k => exact ih _ _ (by omega)
      clear hl
      induction l with
      | nil => rfl
      | cons p l ih =>
        have := hpos p (by simp)
        simp [consumed, this]
        simpa using ih (fun q hq => hpos q (by simp [hq]))
    have := this (0 + 1) ((decodeRune (b :: bs)).2 - 1) (by omega)
    simp only [consumed, this]
    simp

theorem prepend_wf {ns ns' : NS} (hwf : WF ns) {s : Str} (h : ns.prepend s = .ok ns') : Keeps ns ns' := by
  unfold NS.prepend at h
  split at h
  · simp at h; subst h; exact ⟨hwf, rfl, rfl⟩
  · rename_i hne
    rw [GoM.bind_eq_ok] at h
    obtain ⟨fr, hfr, h⟩ := h
    refine transformNormalized_wf hwf (a := 0) (b := ((encodeRune fr).length : Int)) h (Or.inr ?_)
    intro tail ht
    -- the first rune
    cases hn : ns.normalized with
    | nil => simp [hn] at hne
    | cons b bs =>
      rw [hn] at hfr ht
      obtain ⟨rs, hrs⟩ := runesOf_cons_decode b bs
      have hfr' : fr = (decodeRune (b :: bs)).1 := by
        rw [hrs] at hfr; simp [goIndex] at hfr; exact hfr.symm
      have hcon : consumed (NS.prependChanges s ++ [⟨fr, 1⟩]) ≤ 1 := by
        rw [consumed_append]
        have := prependChanges_consumed s
        simp [consumed]; omega
      simp only [Int.add_zero] at ht ⊢
      have htl : (tail.length : Int) = (encodeRune fr).length := by
        have := goSlice_length ht; omega
      -- at most the first rune of `tail` is consumed
      have hle : (encodeRunes ((runesOf tail).take (consumed (NS.prependChanges s ++ [⟨fr, 1⟩])))).length
          ≤ (encodeRunes ((runesOf tail).take 1)).length := by
        have : (runesOf tail).take (consumed (NS.prependChanges s ++ [⟨fr, 1⟩]))
            = ((runesOf tail).take 1).take (consumed (NS.prependChanges s ++ [⟨fr, 1⟩])) := by
          rw [List.take_take]; congr 1; omega
        rw [this]; exact encodeRunes_take_le _ _
      refine Int.le_trans (b := (0 : Int) + (encodeRunes ((runesOf tail).take 1)).length) (by omega) ?_
      obtain ⟨p, q, e1, e2, e3⟩ := goSlice_split ht
      have hp0 : p = [] := by apply List.length_eq_zero_iff.1; omega
      subst hp0
      simp only [List.nil_append] at e1
      cases tail with
      | nil => simp [runesOf, rangeStr, rangeAux]
      | cons t0 ts =>
        obtain ⟨rs', hrs'⟩ := runesOf_cons_decode t0 ts
        rw [hrs']
        simp only [List.take_succ_cons, List.take_zero, encodeRunes_cons, encodeRunes_nil, List.append_nil]
        rcases decodeRune_inv (b :: bs) with he | ⟨rest, hrest⟩
        · -- the whole text starts with an invalid byte: the range has three bytes
          rw [← hfr'] at he
          have h3 : (encodeRune fr).length = 3 := by rw [he]; decide
          rcases decodeRune_inv (t0 :: ts) with ht' | ⟨rest', hrest'⟩
          · have h3' : (encodeRune (decodeRune (t0 :: ts)).1).length = 3 := by rw [ht']; decide
            omega
          · have := congrArg List.length hrest'
            rw [List.length_append] at this
            omega
        · -- the range is exactly the first rune
          rw [← hfr'] at hrest
          have hv : ValidRune fr := by rw [hfr']; exact decodeRune_valid _
          have : t0 :: ts = encodeRune fr := by
            have hh : (t0 :: ts) ++ q = encodeRune fr ++ rest := by rw [← e1, hrest]
            exact (List.append_inj hh (by omega)).1
          have hd := decodeRune_encodeRune hv []
          rw [List.append_nil, ← this] at hd
          rw [hd]; simp

theorem append_wf {ns ns' : NS} (hwf : WF ns) {s : Str} (h : ns.append s = .ok ns') : Keeps ns ns' := by
  unfold NS.append at h
  split at h
  · simp at h; subst h; exact ⟨hwf, rfl, rfl⟩
  · simp only [GoM.bind_eq_ok] at h
    obtain ⟨lr, -, h⟩ := h
    exact transformNormalized_wf hwf (a := ((runesOf ns.normalized).length : Int) - 1) (b := ns.len) h
      (Or.inl rfl)

theorem replaceStep_wf {ns : NS} (hwf : WF ns) {content : Str} {off : Int} {c : Capture}
    {st' : NS × Int} (h : NS.replaceStep content (ns, off) c = .ok st') : Keeps ns st'.1 := by
  unfold NS.replaceStep at h
  split at h
  · simp at h; subst h; exact ⟨hwf, rfl, rfl⟩
  · simp only [GoM.bind_eq_ok] at h
    obtain ⟨seg, h1, ns', h2, h3⟩ := h
    simp at h3; subst h3
    refine transformNormalized_wf hwf h2 (Or.inr ?_)
    intro tail ht
    have hl := goSlice_length h1
    have := runesOf_length_le seg
    rw [consumed_ones]
    simp
    omega

theorem replace_wf {ns ns' : NS} (hwf : WF ns) {p : SplitPattern} {content : Str}
    (h : ns.replace p content = .ok (.ok ns')) : Keeps ns ns' := by
  unfold NS.replace at h
  rw [GoM.bind_eq_ok] at h
  obtain ⟨r, hr, h⟩ := h
  cases r with
  | error e => simp at h
  | ok captures =>
    simp only [GoM.bind_eq_ok] at h
    obtain ⟨st, h1, h2⟩ := h
    simp at h2; subst h2
    refine goFor_inv (P := fun st => Keeps ns st.1) captures (ns, 0) st _ ⟨hwf, rfl, rfl⟩ ?_ h1
    intro s x s' _ hs hx
    obtain ⟨k1, k2, k3⟩ := hs
    obtain ⟨j1, j2, j3⟩ := replaceStep_wf k1 (off := s.2) hx
    exact ⟨j1, by rw [j2, k2], by rw [j3, k3]⟩

/-- The alignments kept by a slice lie inside the original range of the slice. -/
theorem slice_aligns_inside {ns : NS} (hwf : WF ns) {r : Rng} {na nb oa ob : Int} {als : List Align}
    {o : Str}
    (hn : ns.coerceRangeToNormalized r = some (na, nb))
    (ho : ns.coerceRangeToOriginal r = .ok (some (oa, ob)))
    (hso : goSlice ns.original oa ob = .ok o)
    (ha : goSlice ns.alignments na nb = .ok als) :
    ∀ al ∈ als, oa ≤ al.start ∧ al.stop ≤ ob := by
  obtain ⟨⟨i1, i2, i3⟩, e⟩ := goSlice_eq_ok.1 ha
  intro al hal
  obtain ⟨i, hi, hii⟩ := List.mem_iff_getElem.1 hal
  have hlen := goSlice_length ha
  -- position of `al` in the whole list
  have hget : ns.alignments[na.toNat + i]? = some al := by
    have : als[i]? = some al := by rw [List.getElem?_eq_getElem hi, hii]
    rw [e, List.getElem?_take_of_lt (by omega), List.getElem?_drop] at this
    exact this
  obtain ⟨hlt, hgetE⟩ := List.getElem?_eq_some_iff.1 hget
  cases r with
  | normalized s e' =>
    simp only [NS.coerceRangeToNormalized, Option.some.injEq, Prod.mk.injEq] at hn
    obtain ⟨rfl, rfl⟩ := hn
    by_cases hlt' : s < e'
    · obtain ⟨f, l, hf, hl, hc⟩ := coerceRangeToOriginal_normalized (ns := ns) i1 hlt' i3
      rw [ho] at hc
      simp only [GoM.ok.injEq, Option.some.injEq, Prod.mk.injEq] at hc
      obtain ⟨rfl, rfl⟩ := hc
      obtain ⟨hf1, hf2⟩ := List.getElem?_eq_some_iff.1 hf
      obtain ⟨hl1, hl2⟩ := List.getElem?_eq_some_iff.1 hl
      have r1 : AlignLE f al := by
        rw [← hf2, ← hgetE]; exact hwf.getElem_le (by omega) hlt
      have r2 : AlignLE al l := by
        rw [← hl2, ← hgetE]; exact hwf.getElem_le (by omega) hl1
      have bf := hwf.bounds f (hf2 ▸ List.getElem_mem _)
      have bl := hwf.bounds l (hl2 ▸ List.getElem_mem _)
      exact ⟨r1.start_le (by omega), r2.stop_le (by omega)⟩
    · omega
  | original s e' =>
    simp only [NS.coerceRangeToOriginal, GoM.ok.injEq, Option.some.injEq, Prod.mk.injEq] at ho
    obtain ⟨rfl, rfl⟩ := ho
    have hle := coerceRangeToNormalized_original_le hn
    by_cases hlt' : s < e'
    · rw [coerceRangeToNormalized_original hlt'] at hn
      simp only at hn
      split at hn
      · simp at hn
      · rename_i hp
        -- `al` is inside the prefix of alignments ending in range
        have hpre : ∀ n, n < (ns.alignments.takeWhile fun al => decide (al.stop ≤ e')).length →
            ∀ x, ns.alignments[n]? = some x → x.stop ≤ e' := by
          intro n hn x hx
          have h1 : (ns.alignments.takeWhile fun al => decide (al.stop ≤ e'))[n]? = some x := by
            have hpfx := List.takeWhile_prefix (l := ns.alignments) fun al => decide (al.stop ≤ e')
            rw [List.prefix_iff_getElem?] at hpfx
            rw [List.getElem?_eq_getElem hn]
            have := hpfx n hn
            rw [this] at hx; exact hx
          have h2 := List.mem_of_getElem? h1
          have := List.all_takeWhile (l := ns.alignments) (p := fun al => decide (al.stop ≤ e'))
          rw [List.all_eq_true] at this
          simpa using this x h2
        split at hn
        · rename_i j hj
          simp only [Option.some.injEq, Prod.mk.injEq] at hn
          obtain ⟨rfl, rfl⟩ := hn
          refine ⟨?_, hpre _ (by omega) _ hget⟩
          obtain ⟨hj1, hj2, -⟩ := List.findIdx?_eq_some_iff_getElem.1 hj
          simp only [startTest, Bool.and_eq_true, decide_eq_true_eq] at hj2
          have hpfx := List.takeWhile_prefix (l := ns.alignments) fun al => decide (al.stop ≤ e')
          rw [List.prefix_iff_getElem?] at hpfx
          have hjg := hpfx j hj1
          obtain ⟨hj3, hj4⟩ := List.getElem?_eq_some_iff.1 hjg
          have r1 := hwf.getElem_le (i := j) (j := (j : Int).toNat + i) (by omega) hlt
          rw [hgetE, hj4] at r1
          have := r1.start_le (by
            have := hwf.bounds _ (hj4 ▸ List.getElem_mem hj3); omega)
          omega
        · simp only [Option.some.injEq, Prod.mk.injEq] at hn
          omega
    · have : s = e' := by omega
      subst this
      simp only [NS.coerceRangeToNormalized, Int.sub_self, if_true, Option.some.injEq, Prod.mk.injEq] at hn
      omega

theorem slice_wf {ns ns' : NS} (hwf : WF ns) {r : Rng} (h : ns.slice r = .ok (some ns')) : WF ns' := by
  obtain ⟨-, na, nb, oa, ob, als, hn, ho, h1, h2, h3, h4, h5⟩ := slice_ok h
  have hin := slice_aligns_inside hwf hn ho h1 h3
  obtain ⟨⟨i1, i2, i3⟩, e⟩ := goSlice_eq_ok.1 h3
  have hsub : als.Sublist ns.alignments := by
    rw [e]; exact (List.take_sublist _ _).trans (List.drop_sublist _ _)
  have hol := goSlice_length h1
  refine ⟨?_, ?_, ?_⟩
  · rw [h4, List.length_map]
    have l1 := goSlice_length h2
    have l2 := goSlice_length h3
    omega
  · rw [h4, List.pairwise_map]
    refine (hwf.ordered.sublist hsub).imp ?_
    rintro a b (rfl | hab)
    · left; rfl
    · right; simp only; omega
  · intro a ha
    rw [h4] at ha
    obtain ⟨al, hal, rfl⟩ := List.mem_map.1 ha
    have b1 := hin al hal
    have b2 := hwf.bounds al (hsub.subset hal)
    simp only
    omega

theorem slice_partOf {ns ns' : NS} {root : Str} (hp : PartOf root ns) {r : Rng}
    (h : ns.slice r = .ok (some ns')) : PartOf root ns' := by
  obtain ⟨-, na, nb, oa, ob, als, hn, ho, h1, h2, h3, h4, h5⟩ := slice_ok h
  obtain ⟨pre, post, e1, e2⟩ := hp
  obtain ⟨p, q, f1, f2, f3⟩ := goSlice_split h1
  refine ⟨pre ++ p, q ++ post, ?_, ?_⟩
  · rw [e1, f1]; simp
  · rw [h5, e2, f2]; simp

theorem Op.run_wf {ns ns' : NS} (hwf : WF ns) {op : Op} (h : op.run ns = .ok ns') : WF ns' := by
  cases op with
  | transform dest io => exact (transform_wf hwf h).1
  | filter keep => exact (transform_wf hwf h).1
  | map f => exact (transform_wf hwf h).1
  | trim l r =>
    exact (trim_wf hwf h).1
  | prepend s => exact (prepend_wf hwf h).1
  | append s => exact (append_wf hwf h).1
  | replace p c =>
    simp only [Op.run, GoM.bind_eq_ok] at h
    obtain ⟨r, hr, h⟩ := h
    cases r with
    | error e => simp at h; subst h; exact hwf
    | ok n => simp at h; subst h; exact (replace_wf hwf hr).1
  | slice r =>
    simp only [Op.run, GoM.bind_eq_ok] at h
    obtain ⟨o, ho, h⟩ := h
    cases o with
    | none => simp at h; subst h; exact hwf
    | some n => simp at h; subst h; exact slice_wf hwf ho

/-- `TransformRange` changes neither the original nor the shift, on any state, for any range. -/
theorem transformRange_keeps {ns ns' : NS} {r : Rng} {dest : List RuneChange} {io : Int}
    (h : ns.transformRange r dest io = .ok ns') :
    ns'.original = ns.original ∧ ns'.originalShift = ns.originalShift := by
  unfold NS.transformRange at h
  split at h
  · simp at h; subst h; exact ⟨rfl, rfl⟩
  · unfold NS.transformNormalized at h
    simp only [GoM.bind_eq_ok] at h
    obtain ⟨_, -, _, -, _, -, _, -, _, -, _, -, _, -, _, -, e⟩ := h
    simp at e; subst e; exact ⟨rfl, rfl⟩

theorem replace_keeps {ns ns' : NS} {p : SplitPattern} {c : Str} (h : ns.replace p c = .ok (.ok ns')) :
    ns'.original = ns.original ∧ ns'.originalShift = ns.originalShift := by
  unfold NS.replace at h
  simp only [GoM.bind_eq_ok] at h
  obtain ⟨caps, -, h⟩ := h
  cases caps with
  | error e => simp at h
  | ok caps =>
    simp only [GoM.bind_eq_ok] at h
    obtain ⟨st, hst, h⟩ := h
    simp at h; subst h
    refine goFor_inv (P := fun st : NS × Int => st.1.original = ns.original ∧ st.1.originalShift = ns.originalShift)
      caps _ st _ ⟨rfl, rfl⟩ ?_ hst
    intro s x s' _ hs hx
    unfold NS.replaceStep at hx
    split at hx
    · simp at hx; subst hx; exact hs
    · simp only [GoM.bind_eq_ok] at hx
      obtain ⟨_, -, n, hn, e⟩ := hx
      simp at e; subst e
      obtain ⟨k1, k2⟩ := transformRange_keeps hn
      exact ⟨k1.trans hs.1, k2.trans hs.2⟩

/-- Calls other than `Slice` change neither the original nor the shift. -/
theorem Op.run_keeps {ns ns' : NS} {op : Op} (h : op.run ns = .ok ns')
    (hop : ∀ r, op ≠ .slice r) : ns'.original = ns.original ∧ ns'.originalShift = ns.originalShift := by
  cases op with
  | transform dest io => simp only [Op.run, NS.transform] at h; exact transformRange_keeps h
  | filter keep => simp only [Op.run, NS.filter, NS.transform] at h; exact transformRange_keeps h
  | map f => simp only [Op.run, NS.map, NS.transform] at h; exact transformRange_keeps h
  | trim l r =>
    simp only [Op.run, NS.trimLeftRight] at h
    by_cases hz : (if l = true then countLeadingSpaces (runesOf ns.normalized) else 0) = 0
        ∧ (if r = true ∧ (if l = true then countLeadingSpaces (runesOf ns.normalized) else 0)
            < (runesOf ns.normalized).length then countTrailingSpaces (runesOf ns.normalized) else 0) = 0
    · rw [if_pos hz] at h
      simp at h; subst h; exact ⟨rfl, rfl⟩
    · rw [if_neg hz] at h
      exact transformRange_keeps h
  | prepend s =>
    simp only [Op.run, NS.prepend] at h
    split at h
    · simp at h; subst h; exact ⟨rfl, rfl⟩
    · simp only [GoM.bind_eq_ok] at h
      obtain ⟨_, -, h⟩ := h
      exact transformRange_keeps h
  | append s =>
    simp only [Op.run, NS.append] at h
    split at h
    · simp at h; subst h; exact ⟨rfl, rfl⟩
    · simp only [GoM.bind_eq_ok] at h
      obtain ⟨_, -, h⟩ := h
      exact transformRange_keeps h
  | replace p c =>
    simp only [Op.run, GoM.bind_eq_ok] at h
    obtain ⟨r, hr, h⟩ := h
    cases r with
    | error e => simp at h; subst h; exact ⟨rfl, rfl⟩
    | ok n => simp at h; subst h; exact replace_keeps hr
  | slice r => exact absurd rfl (hop r)

theorem Op.run_partOf {ns ns' : NS} {root : Str} (hp : PartOf root ns) {op : Op}
    (h : op.run ns = .ok ns') : PartOf root ns' := by
  by_cases hop : ∀ r, op ≠ .slice r
  · obtain ⟨e1, e2⟩ := Op.run_keeps h hop
    unfold PartOf at *
    rw [e1, e2]; exact hp
  · simp only [ne_eq, Classical.not_forall, Classical.not_not] at hop
    obtain ⟨r, rfl⟩ := hop
    simp only [Op.run, GoM.bind_eq_ok] at h
    obtain ⟨o, ho, h⟩ := h
    cases o with
    | none => simp at h; subst h; exact hp
    | some n => simp at h; subst h; exact slice_partOf hp ho

theorem runOps_inv {ns ns' : NS} {root : Str} (hwf : WF ns) (hp : PartOf root ns) {ops : List Op}
    (h : runOps ns ops = .ok ns') : WF ns' ∧ PartOf root ns' := by
  refine goFor_inv (P := fun n => WF n ∧ PartOf root n) ops ns ns' _ ⟨hwf, hp⟩ ?_ h
  intro s x s' _ hs hx
  exact ⟨Op.run_wf hs.1 hx, Op.run_partOf hs.2 hx⟩

theorem partOf_fromString (s : Str) : PartOf s (NS.fromString s) :=
  ⟨[], [], by simp [NS.fromString], rfl⟩

/-- **C02.** After any history of calls with any arguments that does not panic, starting from
`FromString` of a valid UTF-8 string: there is one alignment per normalized byte, any two
alignments are equal or ordered and disjoint, and all of them are ranges of the original. -/
theorem C02_history_wf {s : Str} (hs : ValidUtf8 s) {ops : List Op} {ns : NS}
    (h : runOps (NS.fromString s) ops = .ok ns) : WF ns :=
  (runOps_inv (fromString_wf hs) (partOf_fromString s) h).1

/-- **C02, consequence.** Every in-range non-empty normalized range converts to a range inside
the original string. -/
theorem C02_conversion_in_bounds {s : Str} (hs : ValidUtf8 s) {ops : List Op} {ns : NS}
    (h : runOps (NS.fromString s) ops = .ok ns) {a b : Int} (h0 : 0 ≤ a) (h1 : a < b)
    (h2 : b ≤ ns.len) :
    ∃ oa ob, ns.coerceRangeToOriginal (.normalized a b) = .ok (some (oa, ob))
      ∧ 0 ≤ oa ∧ oa ≤ ob ∧ ob ≤ ns.originalLen
      ∧ ∃ t, ns.getOriginalRange (.normalized a b) = .ok (some t) ∧ (t.length : Int) = ob - oa := by
  have hwf := C02_history_wf hs h
  have hl := hwf.len
  have h2' : b ≤ (ns.alignments.length : Int) := by rw [hl]; exact h2
  obtain ⟨f, l, hf, hll, hc⟩ := coerceRangeToOriginal_normalized h0 h1 h2'
  obtain ⟨hf1, hf2⟩ := List.getElem?_eq_some_iff.1 hf
  obtain ⟨hl1, hl2⟩ := List.getElem?_eq_some_iff.1 hll
  have r1 : AlignLE f l := by
    rw [← hf2, ← hl2]; exact hwf.getElem_le (by omega) hl1
  have bf := hwf.bounds f (hf2 ▸ List.getElem_mem _)
  have bl := hwf.bounds l (hl2 ▸ List.getElem_mem _)
  have hle : f.start ≤ l.stop := by
    have := r1.start_le (by omega); omega
  refine ⟨f.start, l.stop, hc, bf.1, hle, bl.2.2, ?_⟩
  have hg := goSlice_of (l := ns.original) bf.1 hle bl.2.2
  refine ⟨_, by simp [NS.getOriginalRange, hc, hg], goSlice_length hg⟩

theorem runOps_partOf {ns ns' : NS} {root : Str} (hp : PartOf root ns) {ops : List Op}
    (h : runOps ns ops = .ok ns') : PartOf root ns' := by
  refine goFor_inv (P := fun n => PartOf root n) ops ns ns' _ hp ?_ h
  intro s x s' _ hs hx
  exact Op.run_partOf hs hx

/-- **C03.** After any history starting from `FromString(root)`, for any bytes `root`, `GetOriginal()` is
`root[OriginalOffsets().Start:OriginalOffsets().End]`. -/
theorem C03_provenance {root : Str} {ops : List Op} {ns : NS}
    (h : runOps (NS.fromString root) ops = .ok ns) :
    goSlice root ns.originalOffsets.start ns.originalOffsets.stop = .ok ns.getOriginal := by
  obtain ⟨pre, post, e1, e2⟩ := runOps_partOf (partOf_fromString root) h
  rw [e1]
  exact goSlice_mid _ _ _ e2 (by simp [NS.originalOffsets, NS.originalLen, e2])

/-- **C03, second part.** A call other than `Slice`, on any state, changes neither `GetOriginal()` nor
`OriginalOffsets()`. -/
theorem C03_only_slice_moves {ns ns' : NS} {op : Op} (hop : ∀ r, op ≠ .slice r) (h : op.run ns = .ok ns') :
    ns'.getOriginal = ns.getOriginal ∧ ns'.originalOffsets = ns.originalOffsets := by
  obtain ⟨e1, e2⟩ := Op.run_keeps h hop
  exact ⟨e1, by simp [NS.originalOffsets, NS.originalLen, e1, e2]⟩

/-- **C03, TransformRange.** The same for a direct call of `TransformRange` with any range. -/
theorem C03_transformRange {ns ns' : NS} {r : Rng} {dest : List RuneChange} {io : Int}
    (h : ns.transformRange r dest io = .ok ns') :
    ns'.getOriginal = ns.getOriginal ∧ ns'.originalOffsets = ns.originalOffsets := by
  obtain ⟨e1, e2⟩ := transformRange_keeps h
  exact ⟨e1, by simp [NS.originalOffsets, NS.originalLen, e1, e2]⟩

/-- A history that exercises every kind of call and does not panic. -/
def exHistory : List Op :=
  [.map (fun r => r + 1), .filter (fun r => r != u!"b"), .prepend b!"世", .trim true true,
   .replace (fromRune u!"c") b!"éé", .slice (.normalized 3 9),
   .transform [⟨u!"x", -1⟩, ⟨u!"y", 1⟩] 0, .append b!"!"]

/-- Non-vacuity of C02/C03: the history runs and ends in a non-trivial state. -/
example : runOps (NS.fromString b!"abècd") exHistory
    = .ok ⟨b!"bè", b!"xy!", [⟨0, 1⟩, ⟨0, 1⟩, ⟨0, 1⟩], 1⟩ := by decide +kernel

end Verif
