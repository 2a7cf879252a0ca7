import Verif.Props.Ranges

/-! C13 – C17: conversions between normalized and original ranges, and slices. -/

set_option autoImplicit false

namespace Verif

/-- The example state: "abc" where 'b' became "éy" and 'c' was dropped. -/
def exConv : NS := ⟨b!"abc", b!"aéy", [⟨0, 1⟩, ⟨1, 2⟩, ⟨1, 2⟩, ⟨1, 2⟩], 0⟩

theorem exConv_reachable : Reachable exConv :=
  .of_ops (s := b!"abc") (ops := [.transform [⟨u!"a", 0⟩, ⟨u!"é", 0⟩, ⟨u!"y", 1⟩] 0]) (by decide +kernel) (by decide +kernel)

/-! ## C15 -/

theorem takeWhile_stop_iff {ns : NS} (hwf : WF ns) (e : Int) (i : Nat) {al : Align}
    (hi : ns.alignments[i]? = some al) :
    i < (ns.alignments.takeWhile fun al => decide (al.stop ≤ e)).length ↔ al.stop ≤ e := by
  have hpfx := List.takeWhile_prefix (l := ns.alignments) fun al => decide (al.stop ≤ e)
  rw [List.prefix_iff_getElem?] at hpfx
  constructor
  · intro h
    have h1 := hpfx i h
    rw [hi, Option.some.injEq] at h1
    have h2 : al ∈ ns.alignments.takeWhile fun al => decide (al.stop ≤ e) := h1 ▸ List.getElem_mem h
    have := List.all_takeWhile (l := ns.alignments) (p := fun al => decide (al.stop ≤ e))
    rw [List.all_eq_true] at this
    simpa using this al h2
  · intro h
    obtain ⟨hlt, hge⟩ := List.getElem?_eq_some_iff.1 hi
    -- otherwise the element just after the prefix is at or before i and ends after e
    apply Classical.byContradiction
    intro hn
    obtain ⟨k, hk⟩ : ∃ k, k = (ns.alignments.takeWhile fun al => decide (al.stop ≤ e)).length := ⟨_, rfl⟩
    rw [← hk] at hn
    have hkl : k < ns.alignments.length := by omega
    have hdw : (ns.alignments.dropWhile fun al => decide (al.stop ≤ e)) = ns.alignments.drop k := by
      have := List.takeWhile_append_dropWhile (p := fun al : Align => decide (al.stop ≤ e)) (l := ns.alignments)
      rw [hk]
      conv => rhs; arg 2; rw [← this]
      rw [List.drop_left]
    have hh := List.head?_dropWhile_not (fun al : Align => decide (al.stop ≤ e)) ns.alignments
    rw [hdw, List.head?_drop] at hh
    rw [List.getElem?_eq_getElem hkl] at hh
    simp at hh
    have r := hwf.getElem_le (i := k) (j := i) (by omega) hlt
    have hb := hwf.bounds _ (List.getElem_mem hlt)
    have := r.stop_le hb.2.1
    rw [hge] at this
    omega

/-- **C15.** For a non-empty `OriginalRange (a,b)`: a failed conversion means no byte is
aligned to something ending by `b`; a successful one gives an in-bounds range `(s,e)` all of
whose bytes are aligned inside `[a,b]`, containing every byte with a non-empty alignment
inside `[a,b]`, starting (if non-empty) at a non-empty alignment and ending just before the
first byte whose alignment ends after `b`. -/
theorem C15_original_to_normalized {ns : NS} (hr : Reachable ns) {a b : Int} (hab : a < b) :
    (ns.coerceRangeToNormalized (.original a b) = none →
      ∀ (i : Nat) (al : Align), ns.alignments[i]? = some al → b < al.stop)
    ∧ ∀ s e, ns.coerceRangeToNormalized (.original a b) = some (s, e) →
      0 ≤ s ∧ s ≤ e ∧ e ≤ ns.len
      ∧ (∀ (i : Nat) (al : Align), ns.alignments[i]? = some al → s ≤ i → (i : Int) < e →
          a ≤ al.start ∧ al.stop ≤ b)
      ∧ (∀ (i : Nat) (al : Align), ns.alignments[i]? = some al → al.start < al.stop →
          a ≤ al.start → al.stop ≤ b → s ≤ i ∧ (i : Int) < e)
      ∧ (s < e → ∃ al, ns.alignments[s.toNat]? = some al ∧ al.start < al.stop)
      ∧ (∀ al, ns.alignments[e.toNat]? = some al → b < al.stop) := by
  have hwf := hr.wf
  rw [coerceRangeToNormalized_original hab]
  have hiff := fun i al => takeWhile_stop_iff hwf b i (al := al)
  have hpfx := List.takeWhile_prefix (l := ns.alignments) fun al => decide (al.stop ≤ b)
  have hple := hpfx.length_le
  rw [List.prefix_iff_getElem?] at hpfx
  generalize (ns.alignments.takeWhile fun al => decide (al.stop ≤ b)) = pre at *
  simp only
  have hlen := hwf.len
  constructor
  · intro h i al hi
    split at h
    · rename_i hp
      have := (hiff i al hi)
      simp [hp] at this
      omega
    · split at h <;> simp at h
  · intro s e h
    split at h
    · simp at h
    · rename_i hp
      split at h
      · rename_i j hj
        simp only [Option.some.injEq, Prod.mk.injEq] at h
        obtain ⟨rfl, rfl⟩ := h
        obtain ⟨hj1, hj2, hj3⟩ := List.findIdx?_eq_some_iff_getElem.1 hj
        have hjg := hpfx j hj1
        obtain ⟨hj4, hj5⟩ := List.getElem?_eq_some_iff.1 hjg
        rw [← hj5] at hj2
        simp only [startTest, Bool.and_eq_true, decide_eq_true_eq] at hj2
        have hbj := hwf.bounds _ (List.getElem_mem hj4)
        refine ⟨by omega, by omega, by simp [NS.len]; omega, ?_, ?_, ?_, ?_⟩
        · intro i al hi h1 h2
          refine ⟨?_, (hiff i al hi).1 (by omega)⟩
          obtain ⟨hlt, hge⟩ := List.getElem?_eq_some_iff.1 hi
          have r := hwf.getElem_le (i := j) (j := i) (by omega) hlt
          have := r.start_le hbj.2.1
          rw [hge] at this; omega
        · intro i al hi h1 h2 h3
          have hi' := (hiff i al hi).2 h3
          refine ⟨?_, by omega⟩
          apply Classical.byContradiction
          intro hn
          have := hj3 i (by omega)
          have hig := hpfx i hi'
          rw [hi, Option.some.injEq] at hig
          rw [← hig] at this
          simp only [startTest, Bool.and_eq_true, decide_eq_true_eq] at this
          omega
        · intro _
          refine ⟨ns.alignments[j], by simp [hj4], by omega⟩
        · intro al hal
          have := hiff _ al hal
          simp at this
          omega
      · rename_i hj
        simp only [Option.some.injEq, Prod.mk.injEq] at h
        obtain ⟨rfl, rfl⟩ := h
        refine ⟨by omega, by omega, by simp [NS.len]; omega, ?_, ?_, by omega, ?_⟩
        · intro i al hi h1 h2; omega
        · intro i al hi h1 h2 h3
          exfalso
          have hi' := (hiff i al hi).2 h3
          have hig := hpfx i hi'
          rw [hi, Option.some.injEq] at hig
          rw [List.findIdx?_eq_none_iff] at hj
          have := hj al (hig ▸ List.getElem_mem hi')
          simp only [startTest, Bool.and_eq_false_iff, decide_eq_false_iff_not] at this
          omega
        · intro al hal
          have := hiff _ al hal
          simp at this
          omega

example : exConv.coerceRangeToNormalized (.original 1 3) = some (1, 4) := by decide +kernel

/-! ## C16 -/

/-- **C16.** Converting an in-range non-empty `NormalizedRange` whose first byte has a
non-empty alignment to the original and back gives a range containing the initial one, and
converting that to the original again gives the same `OriginalRange`. -/
theorem C16_round_trip {ns : NS} (hr : Reachable ns) {a b : Int} (h0 : 0 ≤ a) (hab : a < b)
    (hb : b ≤ ns.len) {f : Align} (hf : ns.alignments[a.toNat]? = some f) (hw : f.start < f.stop) :
    ∃ oa ob s e, ns.coerceRangeToOriginal (.normalized a b) = .ok (some (oa, ob))
      ∧ ns.coerceRangeToNormalized (.original oa ob) = some (s, e)
      ∧ s ≤ a ∧ b ≤ e
      ∧ ns.coerceRangeToOriginal (.normalized s e) = .ok (some (oa, ob)) := by
  have hwf := hr.wf
  have hlen := hwf.len
  have hb' : b ≤ (ns.alignments.length : Int) := by rw [hlen]; exact hb
  obtain ⟨f', l, e1, e2, e3⟩ := coerceRangeToOriginal_normalized h0 hab hb'
  rw [hf, Option.some.injEq] at e1; subst e1
  obtain ⟨hf1, hf2⟩ := List.getElem?_eq_some_iff.1 hf
  obtain ⟨hl1, hl2⟩ := List.getElem?_eq_some_iff.1 e2
  have hbl := hwf.bounds l (hl2 ▸ List.getElem_mem hl1)
  have r1 : AlignLE f l := by rw [← hf2, ← hl2]; exact hwf.getElem_le (by omega) hl1
  have hle : f.start < l.stop := by
    have := r1.stop_le hbl.2.1; omega
  obtain ⟨hnone, hsome⟩ := C15_original_to_normalized hr hle
  cases hc : ns.coerceRangeToNormalized (.original f.start l.stop) with
  | none =>
    have := hnone hc _ _ e2
    omega
  | some p =>
    obtain ⟨s, e⟩ := p
    obtain ⟨s0, s1, s2, s3, s4, s5, s6⟩ := hsome s e hc
    have ha := s4 a.toNat f hf hw (by omega) (r1.stop_le hbl.2.1)
    have hbe : b ≤ e := by
      apply Classical.byContradiction
      intro hn
      -- the byte at e would end after l.stop, yet it is at or before b-1
      have he : e.toNat < ns.alignments.length := by omega
      have h6 := s6 ns.alignments[e.toNat] (by simp [he])
      have r := hwf.getElem_le (i := e.toNat) (j := (b - 1).toNat) (by omega) hl1
      rw [hl2] at r
      have := r.stop_le hbl.2.1
      omega
    clear s5 s6
    refine ⟨f.start, l.stop, s, e, e3, hc, by omega, hbe, ?_⟩
    have he' : e ≤ (ns.alignments.length : Int) := by rw [hlen]; exact s2
    obtain ⟨f2, l2, g1, g2, g3⟩ := coerceRangeToOriginal_normalized s0 (by omega) he'
    rw [g3]
    obtain ⟨k1, k2⟩ := List.getElem?_eq_some_iff.1 g1
    obtain ⟨k3, k4⟩ := List.getElem?_eq_some_iff.1 g2
    have hbf2 := hwf.bounds f2 (k2 ▸ List.getElem_mem k1)
    have hbl2 := hwf.bounds l2 (k4 ▸ List.getElem_mem k3)
    have q1 := s3 s.toNat f2 g1 (by omega) (by omega)
    have q2 := s3 (e - 1).toNat l2 g2 (by omega) (by omega)
    have r2 : AlignLE f2 f := by
      rw [← k2, ← hf2]; exact hwf.getElem_le (by omega) hf1
    have r3 : AlignLE l l2 := by
      rw [← k4, ← hl2]; exact hwf.getElem_le (by omega) k3
    have := r2.start_le hbf2.2.1
    have := r3.stop_le hbl2.2.1
    have h1 : f2.start = f.start := by omega
    have h2 : l2.stop = l.stop := by omega
    rw [h1, h2]

/-- Non-vacuity: the byte range (1,3) of 'é' expands to the whole group (1,4). -/
example : exConv.coerceRangeToOriginal (.normalized 1 3) = .ok (some (1, 2))
    ∧ exConv.coerceRangeToNormalized (.original 1 2) = some (1, 4) := by decide +kernel

/-! ## C17 -/

/-- The specified entry for original byte `o`: how many normalized bytes are aligned
entirely at or before `o`, and how many are aligned to something starting at or before `o`. -/
def origEntry (als : List Align) (o : Nat) : Align :=
  ⟨(als.countP fun al => decide (al.stop ≤ (o : Int)) : Nat),
   (als.countP fun al => decide (al.start ≤ (o : Int)) : Nat)⟩

theorem countP_all {α : Type} {p : α → Bool} {l : List α} (h : ∀ x ∈ l, p x = true) :
    l.countP p = l.length := by
  rw [List.countP_eq_length]; exact h

theorem countP_none {α : Type} {p : α → Bool} {l : List α} (h : ∀ x ∈ l, p x = false) :
    l.countP p = 0 := by
  rw [List.countP_eq_zero]; intro x hx; simp [h x hx]

theorem map_range_append_replicate {β : Type} (F : Nat → β) (m n : Nat) (v : β)
    (h : ∀ o, m ≤ o → o < m + n → F o = v) :
    (List.range m).map F ++ List.replicate n v = (List.range (m + n)).map F := by
  rw [List.range_add, List.map_append, List.map_map]
  congr 1
  apply List.ext_getElem
  · simp
  · intro i h1 h2
    simp at h1
    simp [h (m + i) (by omega) (by omega)]

theorem origAlignLoop_spec (als : List Align)
    (hb : ∀ a ∈ als, 0 ≤ a.start ∧ a.start ≤ a.stop) (hord : als.Pairwise AlignLE)
    (rest : List Align) : ∀ (q : List Align) (last : Align) (n : Nat),
    als = q ++ List.replicate (n + 1) last ++ rest →
    (∀ x ∈ q, x.stop ≤ last.start) →
    ∃ (q' : List Align) (last' : Align) (n' : Nat),
      NS.origAlignLoop rest last (q.length : Int) ((n + 1 : Nat) : Int)
        ((List.range last.start.toNat).map (origEntry als))
      = .ok (last', (q'.length : Int), ((n' + 1 : Nat) : Int),
          (List.range last'.start.toNat).map (origEntry als))
      ∧ als = q' ++ List.replicate (n' + 1) last' ∧ ∀ x ∈ q', x.stop ≤ last'.start := by
  induction rest with
  | nil =>
    intro q last n h1 h2
    exact ⟨q, last, n, by simp [NS.origAlignLoop], by simpa using h1, h2⟩
  | cons al rest ih =>
    intro q last n h1 h2
    simp only [NS.origAlignLoop]
    have hlm : last ∈ als := by rw [h1]; simp
    have ham : al ∈ als := by rw [h1]; simp
    have hbl := hb last hlm
    have hba := hb al ham
    have hle : AlignLE last al := by
      rw [h1, List.pairwise_append] at hord
      exact hord.2.2 last (by simp) al (by simp)
    by_cases heq : last = al
    · subst heq
      rw [if_pos rfl]
      have := ih q last (n + 1) (by
        rw [h1, List.replicate_succ' (n := n + 1)]; simp) h2
      have e : (((n + 1 : Nat) : Int) + 1) = ((n + 1 + 1 : Nat) : Int) := by omega
      rw [e]
      exact this
    · rw [if_neg heq]
      have hstop : last.stop ≤ al.start := by
        rcases hle with h | h
        · exact absurd h heq
        · exact h
      rw [if_neg (by omega)]
      -- the elements of `al :: rest` all start at or after `al.start`
      have hrest : ∀ x ∈ al :: rest, al.start ≤ x.start := by
        intro x hx
        rcases List.mem_cons.1 hx with rfl | hx
        · omega
        · rw [h1, List.pairwise_append] at hord
          have := (List.pairwise_cons.1 hord.2.1).1 x hx
          exact this.start_le hba.2
      have hrestb : ∀ x ∈ al :: rest, x.start ≤ x.stop := by
        intro x hx; exact (hb x (by rw [h1]; exact List.mem_append_right _ hx)).2
      have hqb : ∀ x ∈ q, x.start ≤ x.stop := by
        intro x hx; exact (hb x (by rw [h1]; simp [hx])).2
      -- the group of `last`
      have s1 : (List.range last.start.toNat).map (origEntry als)
          ++ List.replicate (last.stop - last.start).toNat
            ⟨(q.length : Int), (q.length : Int) + ((n + 1 : Nat) : Int)⟩
          = (List.range last.stop.toNat).map (origEntry als) := by
        have e : last.stop.toNat = last.start.toNat + (last.stop - last.start).toNat := by omega
        rw [e]
        apply map_range_append_replicate
        intro o ho1 ho2
        unfold origEntry
        congr 1
        · rw [h1, List.countP_append, List.countP_append, countP_all, countP_none, countP_none]
          · simp
          · intro x hx
            have := hrest x hx; have := hrestb x hx; simp; omega
          · intro x hx
            obtain ⟨-, rfl⟩ := List.mem_replicate.1 hx
            simp; omega
          · intro x hx; have := h2 x hx; simp; omega
        · rw [h1, List.countP_append, List.countP_append, countP_all, countP_all, countP_none]
          · simp
          · intro x hx
            have := hrest x hx; have := hrestb x hx; simp; omega
          · intro x hx
            obtain ⟨-, rfl⟩ := List.mem_replicate.1 hx
            simp; omega
          · intro x hx; have := h2 x hx; have := hqb x hx; simp; omega
      have s2 : (List.range last.stop.toNat).map (origEntry als)
          ++ List.replicate (al.start - last.stop).toNat
            ⟨(q.length : Int) + ((n + 1 : Nat) : Int), (q.length : Int) + ((n + 1 : Nat) : Int)⟩
          = (List.range al.start.toNat).map (origEntry als) := by
        have e : al.start.toNat = last.stop.toNat + (al.start - last.stop).toNat := by omega
        rw [e]
        apply map_range_append_replicate
        intro o ho1 ho2
        unfold origEntry
        congr 1
        · rw [h1, List.countP_append, List.countP_append, countP_all, countP_all, countP_none]
          · simp
          · intro x hx
            have := hrest x hx; have := hrestb x hx; simp; omega
          · intro x hx
            obtain ⟨-, rfl⟩ := List.mem_replicate.1 hx
            simp; omega
          · intro x hx; have := h2 x hx; simp; omega
        · rw [h1, List.countP_append, List.countP_append, countP_all, countP_all, countP_none]
          · simp
          · intro x hx
            have := hrest x hx; have := hrestb x hx; simp; omega
          · intro x hx
            obtain ⟨-, rfl⟩ := List.mem_replicate.1 hx
            simp; omega
          · intro x hx; have := h2 x hx; have := hqb x hx; simp; omega
      rw [s1, s2]
      have := ih (q ++ List.replicate (n + 1) last) al 0 (by rw [h1]; simp) (by
        intro x hx
        rcases List.mem_append.1 hx with hx | hx
        · have := h2 x hx; omega
        · obtain ⟨-, rfl⟩ := List.mem_replicate.1 hx; exact hstop)
      simpa using this

/-- **C17.** On every reachable state with non-empty text `OriginalAlignments()` does not
panic, has one entry per original byte, and the entry of byte `o` is the pair of counts
`origEntry`. -/
theorem C17_originalAlignments {ns : NS} (hr : Reachable ns) (hne : ns.normalized ≠ []) :
    ns.originalAlignments = .ok ((List.range ns.original.length).map (origEntry ns.alignments)) := by
  have hwf := hr.wf
  have hlen := hwf.len
  have hbs : ∀ a ∈ ns.alignments, 0 ≤ a.start ∧ a.start ≤ a.stop :=
    fun a ha => ⟨(hwf.bounds a ha).1, (hwf.bounds a ha).2.1⟩
  cases hal : ns.alignments with
  | nil =>
    rw [hal] at hlen
    exact absurd (List.length_eq_zero_iff.1 hlen.symm) hne
  | cons first rest =>
    have hbf := hbs first (by rw [hal]; simp)
    have hfirst : ∀ x ∈ ns.alignments, first.start ≤ x.start := by
      intro x hx
      have ho := hwf.ordered
      rw [hal] at hx ho
      rcases List.mem_cons.1 hx with rfl | hx
      · omega
      · exact ((List.pairwise_cons.1 ho).1 x hx).start_le hbf.2
    have hout0 : List.replicate first.start.toNat (⟨0, 0⟩ : Align)
        = (List.range first.start.toNat).map (origEntry ns.alignments) := by
      have := map_range_append_replicate (origEntry ns.alignments) 0 first.start.toNat ⟨0, 0⟩ (by
        intro o ho1 ho2
        unfold origEntry
        rw [countP_none, countP_none]
        · rfl
        · intro x hx; have := hfirst x hx; simp; omega
        · intro x hx; have := hfirst x hx; have := (hbs x hx).2; simp; omega)
      simpa using this
    obtain ⟨q, last, n, h1, h2, h3⟩ := origAlignLoop_spec ns.alignments hbs hwf.ordered rest [] first 0
      (by rw [hal]; simp) (by simp)
    unfold NS.originalAlignments
    have hg : goIndex (first :: rest) 0 = .ok first := by simp [goIndex]
    have hstep : NS.origAlignLoop (first :: rest) first 0 0
        ((List.range first.start.toNat).map (origEntry ns.alignments))
        = NS.origAlignLoop rest first 0 1 ((List.range first.start.toNat).map (origEntry ns.alignments)) := by
      simp [NS.origAlignLoop]
    rw [← hal] at hg hstep
    simp only [hg, GoM.bind_ok, hout0]
    rw [hstep]
    simp only [List.length_nil, Int.natCast_zero, Nat.zero_add, Int.natCast_one] at h1
    rw [h1]
    simp only [GoM.bind_ok]
    have hbl := hwf.bounds last (by rw [h2]; simp)
    have hqb : ∀ x ∈ q, x.start ≤ x.stop := by
      intro x hx; exact (hbs x (by rw [h2]; simp [hx])).2
    have s1 : (List.range last.start.toNat).map (origEntry ns.alignments)
        ++ List.replicate (last.stop - last.start).toNat
          ⟨(q.length : Int), (q.length : Int) + ((n + 1 : Nat) : Int)⟩
        = (List.range last.stop.toNat).map (origEntry ns.alignments) := by
      have e : last.stop.toNat = last.start.toNat + (last.stop - last.start).toNat := by omega
      rw [e]
      apply map_range_append_replicate
      intro o ho1 ho2
      unfold origEntry
      congr 1
      · rw [h2, List.countP_append, countP_all, countP_none]
        · simp
        · intro x hx
          obtain ⟨-, rfl⟩ := List.mem_replicate.1 hx
          simp; omega
        · intro x hx; have := h3 x hx; simp; omega
      · rw [h2, List.countP_append, countP_all, countP_all]
        · simp
        · intro x hx
          obtain ⟨-, rfl⟩ := List.mem_replicate.1 hx
          simp; omega
        · intro x hx; have := h3 x hx; have := hqb x hx; simp; omega
    rw [s1]
    have s2 : (List.range last.stop.toNat).map (origEntry ns.alignments)
        ++ List.replicate (ns.original.length - last.stop.toNat)
          ⟨(q.length : Int) + ((n + 1 : Nat) : Int), (q.length : Int) + ((n + 1 : Nat) : Int)⟩
        = (List.range ns.original.length).map (origEntry ns.alignments) := by
      have e : ns.original.length = last.stop.toNat + (ns.original.length - last.stop.toNat) := by omega
      conv => rhs; rw [e]
      apply map_range_append_replicate
      intro o ho1 ho2
      unfold origEntry
      congr 1
      · rw [h2, List.countP_append, countP_all, countP_all]
        · simp
        · intro x hx
          obtain ⟨-, rfl⟩ := List.mem_replicate.1 hx
          simp; omega
        · intro x hx; have := h3 x hx; simp; omega
      · rw [h2, List.countP_append, countP_all, countP_all]
        · simp
        · intro x hx
          obtain ⟨-, rfl⟩ := List.mem_replicate.1 hx
          simp; omega
        · intro x hx; have := h3 x hx; have := hqb x hx; simp; omega
    have e3 : ((ns.original.length : Int) - ((List.range last.stop.toNat).map (origEntry ns.alignments)).length).toNat
        = ns.original.length - last.stop.toNat := by simp; omega
    rw [e3, GoM.pure_eq, s2, ← hal]

/-- On an empty text `OriginalAlignments` panics (it reads `alignments[0]`). -/
theorem C17_empty_panics {ns : NS} (h : ns.alignments = []) : ns.originalAlignments = .panic := by
  simp [NS.originalAlignments, h, goIndex]

theorem origAlignLoop_panic (als : List Align) : ∀ (last : Align) (offset length : Int) (out : List Align),
    NS.origAlignLoop als last offset length out = .panic
      ↔ ∃ i a b, (last :: als)[i]? = some a ∧ (last :: als)[i + 1]? = some b ∧ a ≠ b ∧ b.start < a.stop := by
  induction als with
  | nil => intro last offset length out; simp [NS.origAlignLoop]
  | cons al rest ih =>
    intro last offset length out
    have hsplit : (∃ i a b, (last :: al :: rest)[i]? = some a ∧ (last :: al :: rest)[i + 1]? = some b ∧ a ≠ b ∧ b.start < a.stop)
        ↔ (last ≠ al ∧ al.start < last.stop)
          ∨ ∃ i a b, (al :: rest)[i]? = some a ∧ (al :: rest)[i + 1]? = some b ∧ a ≠ b ∧ b.start < a.stop := by
      constructor
      · rintro ⟨i, a, b, h1, h2, h3⟩
        cases i with
        | zero => simp at h1 h2; subst h1 h2; exact .inl h3
        | succ i => exact .inr ⟨i, a, b, h1, h2, h3⟩
      · rintro (h | ⟨i, a, b, h1, h2, h3⟩)
        · exact ⟨0, last, al, rfl, rfl, h⟩
        · exact ⟨i + 1, a, b, h1, h2, h3⟩
    rw [hsplit, NS.origAlignLoop]
    split
    · rename_i h; rw [ih]; simp [h]
    · rename_i h
      split
      · rename_i h2; simp [h, h2]
      · rename_i h2; rw [ih]; simp [h2]

/-- On any alignments, also those given to `New`: `OriginalAlignments` panics exactly when there are none or some
alignment begins before the end of a different one just before it. -/
theorem C17_panics (ns : NS) : ns.originalAlignments = .panic ↔ ns.alignments = []
    ∨ ∃ i a b, ns.alignments[i]? = some a ∧ ns.alignments[i + 1]? = some b ∧ a ≠ b ∧ b.start < a.stop := by
  cases hal : ns.alignments with
  | nil => simp [NS.originalAlignments, hal, goIndex]
  | cons first rest =>
    have hg : goIndex (first :: rest) 0 = .ok first := by simp [goIndex]
    have hs : ∀ out, NS.origAlignLoop (first :: rest) first 0 0 out = NS.origAlignLoop rest first 0 1 out := by
      intro out; simp [NS.origAlignLoop]
    have := origAlignLoop_panic rest first 0 1 (List.replicate first.start.toNat ⟨0, 0⟩)
    simp only [NS.originalAlignments, hal, hg, GoM.bind_ok, hs]
    rw [show ((first :: rest) = ([] : List Align)) = False by simp, false_or, ← this]
    cases NS.origAlignLoop rest first 0 1 (List.replicate first.start.toNat ⟨0, 0⟩) <;> simp

example : (⟨b!"abc", b!"ab", [⟨0, 2⟩, ⟨1, 3⟩], 0⟩ : NS).originalAlignments = .panic := by decide +kernel

example : exConv.originalAlignments = .ok [⟨0, 1⟩, ⟨1, 4⟩, ⟨4, 4⟩] := by decide +kernel

end Verif
