import Verif.Lemmas.Memory
import Verif.Props.Bytes
import Verif.Model.Notation

/-!
# C77: shared memory does not show

A program may hold several strings whose alignments are windows on the same array (`New`
keeps the slice it is given, and the struct can be copied).  No call writes into an array
that existed before the call, so each string behaves as if it owned its alignments.
-/
set_option autoImplicit false

namespace Verif.Memory

/-- The state a call on `ns` reaches from `m` on the memory agrees with the one on lists: no
array of `m` has changed, and new alignments fill their slice. -/
def Sim (m : Mem) (ns : MNS) (x : GoM (Mem × MNS)) (y : GoM NS) : Prop :=
  (x = .panic ∧ y = .panic)
    ∨ ∃ m' ns', x = .ok (m', ns') ∧ y = .ok (ns'.view m') ∧ m <+: m' ∧ ns'.alignments.Ok m'
        ∧ (ns'.alignments = ns.alignments ∨ ns'.alignments.cap = ns'.alignments.len)

/-- Loop states of `TransformRange`, on the memory and on lists. -/
structure Rel (m0 : Mem) (st : MState) (ts : TState) : Prop where
  fresh : Fresh m0 st.mem st.aligns
  val : st.aligns.val st.mem = ts.aligns
  offset : st.offset = ts.offset
  repl : st.repl = ts.repl
  out : st.out = ts.out

/-- Taking `l[:n]` up to the capacity makes no difference when `l[n:]` follows. -/
theorem goSliceCap_bind {β : Type} (l : List Rune) (k : Nat) (n : Int)
    (f : List Rune → List Rune → GoM β) :
    (goSliceCap l k n >>= fun removed => goSlice l n l.length >>= f removed)
      = (goSlice l 0 n >>= fun removed => goSlice l n l.length >>= f removed) := by
  by_cases hn : 0 ≤ n ∧ n ≤ (l.length : Int)
  · have : goSliceCap l k n = goSlice l 0 n := by
      unfold goSliceCap goSlice
      rw [if_pos ⟨by omega, by omega, by rw [List.length_append]; push_cast; omega⟩,
        if_pos ⟨by omega, hn.1, hn.2⟩]
      simp only [Int.toNat_zero, List.drop_zero]
      rw [List.take_append_of_le_length (by omega)]
    rw [this]
  · have h1 : goSlice l n l.length = .panic := by
      unfold goSlice; rw [if_neg (by omega)]
    simp only [h1, GoM.bind_panic]
    cases goSliceCap l k n <;> cases goSlice l 0 n <;> rfl

theorem transformStep_sim (rt : Rt) (slack : Nat) {m0 : Mem} {als : Slc} (ha : als.Ok m0)
    {st : MState} {ts : TState} (h : Rel m0 st ts) (rc : RuneChange) :
    (transformStepM rt slack als st rc = .panic ∧ transformStep (als.val m0) ts rc = .panic)
      ∨ ∃ st' ts', transformStepM rt slack als st rc = .ok st'
          ∧ transformStep (als.val m0) ts rc = .ok ts' ∧ Rel m0 st' ts' := by
  obtain ⟨hf, hv, ho, hr, hu⟩ := h
  unfold transformStepM transformStep
  have hg : ∀ i, als.get st.mem i = goIndex (als.val m0) i := by
    intro i; unfold Slc.get; rw [Slc.val_ext ha hf.ext]
  simp only [hg, ho, hr, hu, goSliceCap_bind]
  have fin : ∀ (align : Align) (o : Int) (repl : List Rune),
      Rel m0 ⟨(appendN rt align (encodeRune rc.rune).length (st.mem, st.aligns)).1, o, repl,
          (appendN rt align (encodeRune rc.rune).length (st.mem, st.aligns)).2,
          ts.out ++ encodeRune rc.rune⟩
        ⟨o, repl, ts.aligns ++ List.replicate (encodeRune rc.rune).length align,
          ts.out ++ encodeRune rc.rune⟩ := by
    intro align o repl
    obtain ⟨kf, kv, -, -⟩ := appendN_spec rt align (encodeRune rc.rune).length hf
    exact ⟨kf, by simp only [kv, hv], rfl, rfl, rfl⟩
  by_cases c1 : rc.change ≥ 1
  · simp only [if_pos c1, if_neg (show ¬ rc.change ≤ 0 by omega),
      if_neg (show ¬ rc.change ≤ -1 by omega), GoM.pure_eq, GoM.bind_ok]
    by_cases c2 : ts.offset < 1
    · simp only [if_pos c2, GoM.bind_ok]
      exact .inr ⟨_, _, rfl, rfl, fin _ _ _⟩
    · simp only [if_neg c2]
      cases goIndex (als.val m0) (ts.offset - 1) with
      | panic => exact .inl ⟨rfl, rfl⟩
      | ok align => exact .inr ⟨_, _, rfl, rfl, fin _ _ _⟩
  · simp only [if_neg c1, if_pos (show rc.change ≤ 0 by omega), GoM.pure_eq, GoM.bind_ok]
    cases goIndex (als.val m0) ts.offset with
    | panic => exact .inl ⟨rfl, rfl⟩
    | ok align =>
    cases goIndex ts.repl 0 with
    | panic => exact .inl ⟨rfl, rfl⟩
    | ok rr =>
    by_cases c2 : rc.change ≤ -1
    · simp only [if_pos c2, GoM.bind_ok]
      cases goSlice (ts.repl.drop 1) 0 (-rc.change) with
      | panic => exact .inl ⟨rfl, rfl⟩
      | ok removed =>
      simp only [GoM.bind_ok]
      cases goSlice (ts.repl.drop 1) (-rc.change) (ts.repl.drop 1).length with
      | panic => exact .inl ⟨rfl, rfl⟩
      | ok rest => exact .inr ⟨_, _, rfl, rfl, fin _ _ _⟩
    · simp only [if_neg c2, GoM.bind_ok]
      exact .inr ⟨_, _, rfl, rfl, fin _ _ _⟩

theorem transform_loop_sim (rt : Rt) (slack : Nat) {m0 : Mem} {als : Slc} (ha : als.Ok m0)
    (dest : List RuneChange) : ∀ {st : MState} {ts : TState}, Rel m0 st ts →
    (goFor dest st (transformStepM rt slack als) = .panic
        ∧ goFor dest ts (transformStep (als.val m0)) = .panic)
      ∨ ∃ st' ts', goFor dest st (transformStepM rt slack als) = .ok st'
          ∧ goFor dest ts (transformStep (als.val m0)) = .ok ts' ∧ Rel m0 st' ts' := by
  induction dest with
  | nil => intro st ts h; exact .inr ⟨st, ts, rfl, rfl, h⟩
  | cons rc rest ih =>
    intro st ts h
    simp only [goFor_cons]
    rcases transformStep_sim rt slack ha h rc with ⟨h1, h2⟩ | ⟨st', ts', h1, h2, h3⟩
    · left; rw [h1, h2]; exact ⟨rfl, rfl⟩
    · rw [h1, h2]; exact ih h3

theorem transformNormalized_sim (rt : Rt) {m : Mem} {ns : MNS} (ha : ns.alignments.Ok m)
    (a b : Int) (dest : List RuneChange) (io : Int) :
    Sim m ns (transformNormalizedM rt m ns a b dest io)
        ((ns.view m).transformNormalized a b dest io) := by
  unfold transformNormalizedM NS.transformNormalized MNS.view
  simp only
  cases e1 : goSlice ns.normalized a b with
  | panic => exact .inl ⟨rfl, rfl⟩
  | ok replaced =>
  simp only [GoM.bind_ok]
  cases e2 : goSlice replaced 0 io with
  | panic => exact .inl ⟨rfl, rfl⟩
  | ok initial =>
  simp only [GoM.bind_ok]
  cases e3 : goSlice replaced io replaced.length with
  | panic => exact .inl ⟨rfl, rfl⟩
  | ok tail =>
  simp only [GoM.bind_ok]
  obtain ⟨⟨k1, k2, k3⟩, -⟩ := goSlice_eq_ok.1 e1
  cases e4 : Slc.make m 0 (b - a) with
  | panic => unfold Slc.make at e4; rw [if_pos (by omega)] at e4; cases e4
  | ok p =>
  obtain ⟨m1, al1⟩ := p
  obtain ⟨f1, v1, -⟩ := make_spec e4
  simp only [GoM.bind_ok]
  rcases transform_loop_sim rt (rt.slack (runesOf tail)) ha dest
      (st := ⟨m1, (initial.length : Int) + a, runesOf tail, al1, []⟩)
      (ts := ⟨(initial.length : Int) + a, runesOf tail, [], []⟩)
      ⟨f1, by rw [v1]; rfl, rfl, rfl, rfl⟩ with ⟨h1, h2⟩ | ⟨st, ts, h1, h2, h3⟩
  · rw [h1, h2]; exact .inl ⟨rfl, rfl⟩
  · rw [h1, h2]
    simp only [GoM.bind_ok]
    obtain ⟨hf, hv, ho, hr, hu⟩ := h3
    have hal := Slc.val_length ha
    have hlen : st.aligns.len = ts.aligns.length := by rw [← hv, Slc.val_length hf.ok]
    have g1 : goSlice ns.normalized 0 a = .ok (ns.normalized.take a.toNat) :=
      goSlice_eq_ok.2 ⟨by omega, by simp⟩
    have g2 : goSlice ns.normalized b ns.normalized.length = .ok (ns.normalized.drop b.toNat) :=
      goSlice_eq_ok.2 ⟨by omega, by rw [List.take_of_length_le]; simp; omega⟩
    by_cases hb : b ≤ (ns.alignments.len : Int)
    · have hcap := ha.1
      cases e5 : Slc.make st.mem 0 ((ns.alignments.len : Int) - (b - a) + st.aligns.len) with
      | panic => unfold Slc.make at e5; rw [if_pos (by omega)] at e5; cases e5
      | ok q =>
      obtain ⟨m2, al2⟩ := q
      obtain ⟨f2, v2, l2, c2, -, -⟩ := make_spec e5
      obtain ⟨pre, hp, pok, pv, pl⟩ : ∃ t, ns.alignments.reslice 0 a = .ok t ∧ t.Ok m
          ∧ goSlice (ns.alignments.val m) 0 a = .ok (t.val m) ∧ (t.len : Int) = a - 0 := by
        rcases reslice_eq ha (a := 0) (b := a) (by omega) with h | ⟨h, -⟩
        · exact h
        · unfold Slc.reslice at h; rw [if_pos (by omega)] at h; cases h
      obtain ⟨post, hq, qok, qv, ql⟩ : ∃ t, ns.alignments.reslice b ns.alignments.len = .ok t
          ∧ t.Ok m ∧ goSlice (ns.alignments.val m) b ns.alignments.len = .ok (t.val m)
          ∧ (t.len : Int) = ns.alignments.len - b := by
        rcases reslice_eq ha (a := b) (b := ns.alignments.len) (by omega) with h | ⟨h, -⟩
        · exact h
        · unfold Slc.reslice at h; rw [if_pos (by omega)] at h; cases h
      rw [hal]
      simp only [GoM.bind_ok, hp, if_pos hb, hq, pv, qv, g1, g2, hu, GoM.pure_eq]
      -- the three appends
      have em2 : m <+: m2 := hf.ext.trans f2.ext
      obtain ⟨f3, v3, l3, c3⟩ := append_spec rt f2 (pre.val m2)
      generalize Slc.append rt m2 al2 (pre.val m2) = A3 at f3 v3 l3 c3 ⊢
      obtain ⟨m3, al3⟩ := A3
      have em3 : st.mem <+: m3 := f3.ext
      obtain ⟨f4, v4, l4, c4⟩ := append_spec rt f3 (st.aligns.val m3)
      generalize Slc.append rt m3 al3 (st.aligns.val m3) = A4 at f4 v4 l4 c4 ⊢
      obtain ⟨m4, al4⟩ := A4
      have em4 : m <+: m4 := hf.ext.trans f4.ext
      obtain ⟨f5, v5, l5, c5⟩ := append_spec rt f4 (post.val m4)
      generalize Slc.append rt m4 al4 (post.val m4) = A5 at f5 v5 l5 c5 ⊢
      obtain ⟨m5, al5⟩ := A5
      have em5 : m <+: m5 := hf.ext.trans f5.ext
      have hpv : pre.val m2 = pre.val m := Slc.val_ext pok em2
      have hqv : post.val m4 = post.val m := Slc.val_ext qok em4
      have hsv : st.aligns.val m3 = ts.aligns := by rw [Slc.val_ext hf.ok em3, hv]
      have hsl : (st.aligns.val m3).length = st.aligns.len := Slc.val_length (hf.ok.ext em3)
      have hpl : (pre.val m2).length = pre.len := by rw [hpv]; exact Slc.val_length pok
      have hql : (post.val m4).length = post.len := by rw [hqv]; exact Slc.val_length qok
      simp only at l3 l4 l5 c3 c4 c5 v3 v4 v5
      have hval : al5.val m5 = pre.val m ++ ts.aligns ++ post.val m := by
        rw [v5, v4, v3, v2, hpv, hqv, hsv]; simp
      rw [hpl] at l3 c3
      rw [hsl] at l4 c4
      rw [hql] at l5 c5
      obtain ⟨d3, -⟩ := c3 (by omega)
      obtain ⟨d4, -⟩ := c4 (by omega)
      obtain ⟨d5, -⟩ := c5 (by omega)
      refine .inr ⟨_, _, rfl, ?_, em5, f5.ok, .inr ?_⟩
      · simp only [MNS.view, hval]
      · show al5.cap = al5.len
        omega
    · have hy : goSlice (ns.alignments.val m) b (ns.alignments.val m).length = .panic := by
        unfold goSlice; rw [hal, if_neg (by omega)]
      rw [hy]
      simp only [if_neg hb, GoM.bind_panic]
      refine .inl ⟨?_, ?_⟩
      · cases Slc.make st.mem 0 ((ns.alignments.len : Int) - (b - a) + st.aligns.len) with
        | panic => rfl
        | ok q => simp only [GoM.bind_ok]; cases ns.alignments.reslice 0 a <;> rfl
      · cases goSlice (ns.alignments.val m) 0 a <;> rfl

theorem Sim.refl {m : Mem} {ns : MNS} (ha : ns.alignments.Ok m) :
    Sim m ns (.ok (m, ns)) (.ok (ns.view m)) :=
  .inr ⟨m, ns, rfl, rfl, List.prefix_refl m, ha, .inl rfl⟩

theorem transformRange_sim (rt : Rt) {m : Mem} {ns : MNS} (ha : ns.alignments.Ok m)
    (r : Rng) (dest : List RuneChange) (io : Int) :
    Sim m ns (transformRangeM rt m ns r dest io) ((ns.view m).transformRange r dest io) := by
  unfold transformRangeM NS.transformRange
  cases h : (ns.view m).coerceRangeToNormalized r with
  | none => exact Sim.refl ha
  | some p => exact transformNormalized_sim rt ha p.1 p.2 dest io

theorem reslice_eq_full {m : Mem} {s : Slc} (hs : s.Ok m) {a b : Int}
    (hb : b ≤ s.len ∨ s.cap = s.len) :
    (∃ t, s.reslice a b = .ok t ∧ t.Ok m ∧ goSlice (s.val m) a b = .ok (t.val m)
        ∧ (t.len : Int) = b - a)
      ∨ (s.reslice a b = .panic ∧ goSlice (s.val m) a b = .panic) := by
  by_cases h : b ≤ s.len
  · exact reslice_eq hs h
  · rcases hb with hb | hb
    · exact absurd hb h
    · refine .inr ⟨?_, ?_⟩
      · unfold Slc.reslice; rw [if_neg (by omega)]
      · unfold goSlice; rw [Slc.val_length hs, if_neg (by omega)]

/-- Within the length, or when length and capacity agree, `CoerceRangeToOriginal` is the list
model's. -/
theorem coerce_sim {m : Mem} {ns : MNS} (ha : ns.alignments.Ok m) (r : Rng)
    (hr : r.stop ≤ (ns.alignments.len : Int) ∨ ns.alignments.cap = ns.alignments.len) :
    coerceRangeToOriginalM m ns r = (ns.view m).coerceRangeToOriginal r := by
  cases r with
  | original s e => rfl
  | normalized s e =>
    simp only [Rng.stop] at hr
    unfold coerceRangeToOriginalM NS.coerceRangeToOriginal
    simp only [MNS.view, NS.originalLen]
    rcases reslice_eq_full ha (a := s) (b := e) hr with ⟨t, h1, h2, h3, h4⟩ | ⟨h1, h2⟩
    · rw [h1, h3]
      simp only [GoM.bind_ok, Slc.get, Slc.val_length h2]
    · rw [h1, h2]; rfl

/-- The slice extended to its capacity. -/
def Slc.full (s : Slc) : Slc := ⟨s.arr, s.off, s.cap, s.cap⟩

/-- What `CoerceRangeToOriginal` computes in any case: the list model's answer on the
alignments up to the *capacity* of the slice. -/
theorem coerce_exact {m : Mem} {ns : MNS} (ha : ns.alignments.Ok m) (r : Rng) :
    coerceRangeToOriginalM m ns r =
      (MNS.view m ⟨ns.original, ns.normalized, ns.alignments.full,
        ns.originalShift⟩).coerceRangeToOriginal r := by
  rw [← coerce_sim (ns := ⟨ns.original, ns.normalized, ns.alignments.full, ns.originalShift⟩)
    ⟨Nat.le_refl _, ha.2⟩ r (.inr rfl)]
  rfl

theorem getOriginalRange_sim {m : Mem} {ns : MNS} (ha : ns.alignments.Ok m) (r : Rng)
    (hr : r.stop ≤ (ns.alignments.len : Int) ∨ ns.alignments.cap = ns.alignments.len) :
    getOriginalRangeM m ns r = (ns.view m).getOriginalRange r := by
  unfold getOriginalRangeM NS.getOriginalRange
  rw [coerce_sim ha r hr]
  rfl

/-- At least as many alignments as bytes. -/
def Covers (ns : NS) : Prop := ns.normalized.length ≤ ns.alignments.length

theorem shiftLoop_spec {m0 : Mem} {src dst : Slc} (hs : src.Ok m0) (d : Int) (n : Nat) :
    ∀ (i : Nat) (m : Mem), Fresh m0 m dst → i + n ≤ src.len → i + n ≤ dst.len →
      ∃ m', shiftLoop src dst d n i m = .ok m' ∧ Fresh m0 m' dst
        ∧ dst.val m' = (dst.val m).take i
            ++ (((src.val m0).drop i).take n).map (fun al => ⟨al.start - d, al.stop - d⟩)
            ++ (dst.val m).drop (i + n) := by
  induction n with
  | zero =>
    intro i m hf _ _
    exact ⟨m, rfl, hf, by simp⟩
  | succ n ih =>
    intro i m hf h1 h2
    have hl := Slc.val_length hs
    have hx : (src.val m0)[i]? = some ((src.val m0)[i]'(by omega)) := List.getElem?_eq_getElem _
    have hget : src.get m i = .ok ((src.val m0)[i]'(by omega)) := by
      unfold Slc.get
      rw [Slc.val_ext hs hf.ext]
      exact goIndex_eq_ok.2 ⟨by omega, by simp⟩
    obtain ⟨m1, e1, f1, v1⟩ := set_spec hf (i := i)
      ⟨((src.val m0)[i]'(by omega)).start - d, ((src.val m0)[i]'(by omega)).stop - d⟩ (by omega)
    obtain ⟨m2, e2, f2, v2⟩ := ih (i + 1) m1 f1 (by omega) (by omega)
    refine ⟨m2, ?_, f2, ?_⟩
    · unfold shiftLoop
      rw [hget]
      simp only [GoM.bind_ok]
      rw [e1]
      exact e2
    · rw [v2, v1]
      have hdl := Slc.val_length hf.ok
      apply List.ext_getElem?
      intro j
      simp only [List.getElem?_append, List.getElem?_take, List.getElem?_drop, List.getElem?_map,
        List.length_append, List.length_take, List.length_drop, List.length_map, List.length_set,
        List.getElem?_set, hl, hdl]
      grind

theorem slice_sim {m : Mem} {ns : MNS} (ha : ns.alignments.Ok m) (hc : Covers (ns.view m))
    (r : Rng) :
    (sliceM m ns r = .panic ∧ (ns.view m).slice r = .panic)
      ∨ ∃ m' res, sliceM m ns r = .ok (m', res)
          ∧ (ns.view m).slice r = .ok (res.map (·.view m')) ∧ m <+: m'
          ∧ ∀ ns', res = some ns' → ns'.alignments.Ok m'
              ∧ ns'.alignments.cap = ns'.alignments.len := by
  have hal := Slc.val_length ha
  unfold sliceM NS.slice
  by_cases hv : (ns.view m).rangeIsValid r = true
  · simp only [hv, Bool.not_true, Bool.false_eq_true, if_false]
    cases h1 : (ns.view m).coerceRangeToNormalized r with
    | none => exact .inr ⟨m, none, rfl, rfl, List.prefix_refl m, by intro _ h; cases h⟩
    | some p =>
      obtain ⟨na, nb⟩ := p
      simp only
      have hr : coerceRangeToOriginalM m ns r = (ns.view m).coerceRangeToOriginal r
          ∧ getOriginalRangeM m ns r = (ns.view m).getOriginalRange r := by
        cases r with
        | original s e =>
          refine ⟨rfl, ?_⟩
          unfold getOriginalRangeM NS.getOriginalRange coerceRangeToOriginalM
            NS.coerceRangeToOriginal
          rfl
        | normalized s e =>
          have : e ≤ (ns.alignments.len : Int) := by
            simp only [NS.rangeIsValid, Bool.and_eq_true] at hv
            have := (isRuneBoundary_bounds hv.2).2
            simp only [Rng.stop] at this
            unfold Covers at hc
            simp only [MNS.view] at hc this
            omega
          exact ⟨coerce_sim ha _ (.inl this), getOriginalRange_sim ha _ (.inl this)⟩
      rw [hr.1, hr.2]
      cases h2 : (ns.view m).coerceRangeToOriginal r with
      | panic => exact .inl ⟨rfl, rfl⟩
      | ok o =>
      cases o with
      | none => exact .inr ⟨m, none, rfl, rfl, List.prefix_refl m, by intro _ h; cases h⟩
      | some q =>
      obtain ⟨oa, ob⟩ := q
      simp only [GoM.bind_ok]
      cases h3 : (ns.view m).getOriginalRange r with
      | panic => exact .inl ⟨rfl, rfl⟩
      | ok original =>
      simp only [GoM.bind_ok]
      cases h4 : (ns.view m).getRange r with
      | panic => exact .inl ⟨rfl, rfl⟩
      | ok normalized =>
      simp only [GoM.bind_ok]
      have hb : 0 ≤ na ∧ na ≤ nb ∧ nb ≤ (ns.alignments.len : Int) := by
        unfold NS.getRange at h4
        rw [h1] at h4
        simp only [GoM.bind_eq_ok] at h4
        obtain ⟨t, h5, -⟩ := h4
        obtain ⟨h6, -⟩ := goSlice_eq_ok.1 h5
        unfold Covers at hc
        simp only [MNS.view] at hc h6
        omega
      cases h5 : Slc.make m (nb - na) (nb - na) with
      | panic => unfold Slc.make at h5; rw [if_pos (by omega)] at h5; cases h5
      | ok p =>
      obtain ⟨m1, al⟩ := p
      obtain ⟨f1, v1, l1, c1, -, -⟩ := make_spec h5
      rcases reslice_eq ha (a := na) (b := nb) hb.2.2 with ⟨t, k1, k2, k3, k4⟩ | ⟨k1, -⟩
      · have k3' : goSlice (ns.view m).alignments na nb = .ok (t.val m) := k3
        rw [k1, k3']
        simp only [GoM.bind_ok]
        obtain ⟨m2, e2, f2, v2⟩ := shiftLoop_spec k2 oa t.len 0 m1 f1 (by omega) (by omega)
        rw [e2]
        simp only [GoM.bind_ok, GoM.pure_eq]
        have ht := Slc.val_length k2
        have v2' : al.val m2 = (t.val m).map fun x => ⟨x.start - oa, x.stop - oa⟩ := by
          rw [v2, List.take_zero, List.nil_append, List.drop_zero,
            List.take_of_length_le (by omega), List.drop_of_length_le, List.append_nil]
          rw [Slc.val_length f1.ok]; omega
        refine .inr ⟨m2, _, rfl, ?_, f2.ext, ?_⟩
        · simp only [Option.map_some, newM, MNS.view, v2']
        · intro ns' h
          injection h with h
          subst h
          exact ⟨f2.ok, by simp only [newM]; omega⟩
      · unfold Slc.reslice at k1
        have := ha.1
        rw [if_pos (by omega)] at k1; cases k1
  · simp only [Bool.not_eq_true] at hv
    simp only [hv, Bool.not_false, if_true]
    exact .inr ⟨m, none, rfl, rfl, List.prefix_refl m, by intro _ h; cases h⟩

theorem transform_sim (rt : Rt) {m : Mem} {ns : MNS} (ha : ns.alignments.Ok m)
    (dest : List RuneChange) (io : Int) :
    Sim m ns (transformM rt m ns dest io) ((ns.view m).transform dest io) :=
  transformRange_sim rt ha _ dest io

theorem Sim.trans {m m' : Mem} {ns ns1 : MNS} {x : GoM (Mem × MNS)} {y : GoM NS}
    (he : m <+: m')
    (hc : ns1.alignments = ns.alignments ∨ ns1.alignments.cap = ns1.alignments.len)
    (h : Sim m' ns1 x y) : Sim m ns x y := by
  rcases h with h | ⟨m2, ns2, h1, h2, h3, h4, h5⟩
  · exact .inl h
  · refine .inr ⟨m2, ns2, h1, h2, he.trans h3, h4, ?_⟩
    rcases h5 with h5 | h5
    · rcases hc with hc | hc
      · exact .inl (h5.trans hc)
      · exact .inr (by rw [h5]; exact hc)
    · exact .inr h5

theorem replace_loop_sim (rt : Rt) (content : Str) (cs : List Capture) :
    ∀ {m : Mem} {ns : MNS} (_ : ns.alignments.Ok m) (o : Int),
      Sim m ns ((fun st => (st.1, st.2.1)) <$> goFor cs (m, ns, o) (replaceStepM rt content))
        ((·.1) <$> goFor cs (ns.view m, o) (NS.replaceStep content)) := by
  induction cs with
  | nil => intro m ns ha o; exact Sim.refl ha
  | cons c cs ih =>
    intro m ns ha o
    simp only [goFor_cons]
    by_cases hm : c.isMatch = true
    · have hstep : ∀ rS rE : Int, ∀ d : List RuneChange, ∀ k : Int, ∀ o' : Int,
          Sim m ns
            ((fun st : Mem × MNS × Int => (st.1, st.2.1)) <$>
              (goSlice ns.normalized rS rE >>= fun seg =>
                transformRangeM rt m ns (.normalized rS rE) d (runesOf seg).length >>= fun p =>
                goFor cs (p.1, p.2, o') (replaceStepM rt content)))
            ((fun st : NS × Int => st.1) <$>
              (goSlice (ns.view m).normalized rS rE >>= fun seg =>
                (ns.view m).transformRange (.normalized rS rE) d (runesOf seg).length >>= fun n =>
                goFor cs (n, o') (NS.replaceStep content))) := by
        intro rS rE d k o'
        have hn : (ns.view m).normalized = ns.normalized := rfl
        rw [hn]
        cases goSlice ns.normalized rS rE with
        | panic => exact .inl ⟨rfl, rfl⟩
        | ok seg =>
          simp only [GoM.bind_ok]
          rcases transformRange_sim rt ha (.normalized rS rE) d (runesOf seg).length with
            ⟨h1, h2⟩ | ⟨m', ns', h1, h2, h3, h4, h5⟩
          · rw [h1, h2]; exact .inl ⟨rfl, rfl⟩
          · rw [h1, h2]
            simp only [GoM.bind_ok]
            exact (ih h4 o').trans h3 h5
      unfold replaceStepM NS.replaceStep
      simp only [hm, Bool.not_true, Bool.false_eq_true, if_false, bind_assoc, GoM.pure_eq,
        GoM.bind_ok]
      exact hstep _ _ _ 0 _
    · simp only [Bool.not_eq_true] at hm
      unfold replaceStepM NS.replaceStep
      simp only [hm, Bool.not_false, if_true, GoM.bind_ok]
      exact ih ha o

theorem runOp_sim (rt : Rt) {m : Mem} {ns : MNS} (ha : ns.alignments.Ok m)
    (hc : Covers (ns.view m)) (op : Op) :
    Sim m ns (runOpM rt m ns op) (op.run (ns.view m)) := by
  cases op with
  | transform dest io => exact transform_sim rt ha dest io
  | filter keep => exact transform_sim rt ha _ _
  | map f => exact transform_sim rt ha _ _
  | trim l r =>
    simp only [runOpM, Op.run, trimLeftRightM, NS.trimLeftRight]
    have hn : (ns.view m).normalized = ns.normalized := rfl
    rw [hn]
    generalize (if l = true then countLeadingSpaces (runesOf ns.normalized) else 0) = lead
    generalize (if r = true ∧ lead < (runesOf ns.normalized).length then
      countTrailingSpaces (runesOf ns.normalized) else 0) = trail
    by_cases h : lead = 0 ∧ trail = 0
    · rw [if_pos h, if_pos h]; exact Sim.refl ha
    · rw [if_neg h, if_neg h]; exact transform_sim rt ha _ _
  | prepend s =>
    simp only [runOpM, Op.run, prependM, NS.prepend]
    have hn : (ns.view m).normalized = ns.normalized := rfl
    rw [hn]
    by_cases h : ns.normalized.length = 0
    · rw [if_pos h, if_pos h]; exact Sim.refl ha
    · rw [if_neg h, if_neg h]
      cases goIndex (runesOf ns.normalized) 0 with
      | panic => exact .inl ⟨rfl, rfl⟩
      | ok r => simp only [GoM.bind_ok]; exact transformRange_sim rt ha _ _ _
  | append s =>
    simp only [runOpM, Op.run, appendM, NS.append]
    have hn : (ns.view m).normalized = ns.normalized := rfl
    rw [hn]
    by_cases h : ns.normalized.length = 0
    · rw [if_pos h, if_pos h]; exact Sim.refl ha
    · rw [if_neg h, if_neg h]
      cases goIndex (runesOf ns.normalized) ((runesOf ns.normalized).length - 1) with
      | panic => exact .inl ⟨rfl, rfl⟩
      | ok r => simp only [GoM.bind_ok]; exact transformRange_sim rt ha _ _ _
  | replace p content =>
    simp only [runOpM, Op.run, replaceM, NS.replace]
    have hn : (ns.view m).normalized = ns.normalized := rfl
    rw [hn]
    cases p ns.normalized with
    | panic => exact .inl ⟨rfl, rfl⟩
    | ok res =>
      cases res with
      | error e => exact Sim.refl ha
      | ok cs =>
        have := replace_loop_sim rt content cs ha 0
        simp only [GoM.bind_ok]
        cases h1 : goFor cs (m, ns, (0 : Int)) (replaceStepM rt content) with
        | panic =>
          rw [h1] at this
          rcases this with ⟨-, h2⟩ | ⟨_, _, h2, -⟩
          · cases h3 : goFor cs (ns.view m, (0 : Int)) (NS.replaceStep content) with
            | panic => exact .inl ⟨rfl, rfl⟩
            | ok q => rw [h3] at h2; cases h2
          · cases h2
        | ok q =>
          rw [h1] at this
          cases h3 : goFor cs (ns.view m, (0 : Int)) (NS.replaceStep content) with
          | panic => rw [h3] at this; rcases this with ⟨h2, -⟩ | ⟨_, _, -, h2, -⟩ <;> cases h2
          | ok q' => rw [h3] at this; exact this
  | slice r =>
    simp only [runOpM, Op.run]
    rcases slice_sim ha hc r with ⟨h1, h2⟩ | ⟨m', res, h1, h2, h3, h4⟩
    · rw [h1, h2]; exact .inl ⟨rfl, rfl⟩
    · rw [h1, h2]
      cases res with
      | none =>
        refine .inr ⟨m', ns, rfl, ?_, h3, ha.ext h3, .inl rfl⟩
        simp only [MNS.view, Slc.val_ext ha h3]; rfl
      | some ns' => exact .inr ⟨m', ns', rfl, rfl, h3, (h4 ns' rfl).1, .inr (h4 ns' rfl).2⟩

/-! ### `Covers` is kept by every call -/

theorem transformRange_covers {ns ns' : NS} {r : Rng} {dest : List RuneChange} {io : Int}
    (h : ns.transformRange r dest io = .ok ns') (hc : Covers ns) : Covers ns' := by
  unfold NS.transformRange at h
  cases hr : ns.coerceRangeToNormalized r with
  | none => rw [hr] at h; injection h with h; subst h; exact hc
  | some p =>
    rw [hr] at h
    obtain ⟨nPre, nInit, nTail, nPost, aPre, aPost, ks, h1, h2, h3, h4, h5, h6, h7, h8, -, -, -, h9⟩ :=
      transformNormalized_ok h
    subst h9
    unfold Covers at hc ⊢
    have ht : (aligns ((dest.map fun rc => sanitize rc.rune).zip
        (ks.map (pickAt ns.alignments)))).length
        = (encodeRunes (dest.map fun rc => sanitize rc.rune)).length := by
      rw [aligns_length_enc, List.map_fst_zip]
      simp [h8]
    simp only [List.length_append, ht, h5, h6, List.length_take, List.length_drop]
    rw [h1] at hc
    simp only [List.length_append] at hc h4
    omega

theorem slice_covers {ns ns' : NS} {r : Rng} (h : ns.slice r = .ok (some ns')) : Covers ns' := by
  unfold NS.slice at h
  by_cases hv : ns.rangeIsValid r = true
  · simp only [hv, Bool.not_true, Bool.false_eq_true, if_false] at h
    cases h1 : ns.coerceRangeToNormalized r with
    | none => rw [h1] at h; cases h
    | some p =>
      obtain ⟨na, nb⟩ := p
      rw [h1] at h
      simp only at h
      cases h2 : ns.coerceRangeToOriginal r with
      | panic => rw [h2] at h; cases h
      | ok o =>
        rw [h2] at h
        cases o with
        | none => cases h
        | some q =>
          simp only [GoM.bind_ok, GoM.bind_eq_ok] at h
          obtain ⟨org, h3, nrm, h4, als, h5, h6⟩ := h
          simp only [GoM.pure_eq, GoM.ok.injEq, Option.some.injEq] at h6
          subst h6
          unfold NS.getRange at h4
          rw [h1] at h4
          simp only [GoM.bind_eq_ok, GoM.pure_eq, GoM.ok.injEq] at h4
          obtain ⟨t, h7, rfl⟩ := h4
          have e1 := goSlice_length h5
          have e2 := goSlice_length h7
          unfold Covers
          simp only [Option.getD_some, List.length_map]
          omega
  · simp only [Bool.not_eq_true] at hv
    simp only [hv, Bool.not_false, if_true] at h
    cases h

theorem op_covers {ns ns' : NS} {op : Op} (h : op.run ns = .ok ns') (hc : Covers ns) :
    Covers ns' := by
  cases op with
  | transform dest io =>
    simp only [Op.run, NS.transform] at h; exact transformRange_covers h hc
  | filter keep =>
    simp only [Op.run, NS.filter, NS.transform] at h; exact transformRange_covers h hc
  | map f =>
    simp only [Op.run, NS.map, NS.transform] at h; exact transformRange_covers h hc
  | trim l r =>
    simp only [Op.run, NS.trimLeftRight, NS.transform] at h
    generalize (if l = true then countLeadingSpaces (runesOf ns.normalized) else 0) = lead at h
    generalize (if r = true ∧ lead < (runesOf ns.normalized).length then
      countTrailingSpaces (runesOf ns.normalized) else 0) = trail at h
    split at h
    · injection h with h; subst h; exact hc
    · exact transformRange_covers h hc
  | prepend s =>
    simp only [Op.run, NS.prepend] at h
    split at h
    · injection h with h; subst h; exact hc
    · obtain ⟨r, -, h⟩ := GoM.bind_eq_ok.1 h
      exact transformRange_covers h hc
  | append s =>
    simp only [Op.run, NS.append] at h
    split at h
    · injection h with h; subst h; exact hc
    · obtain ⟨r, -, h⟩ := GoM.bind_eq_ok.1 h
      exact transformRange_covers h hc
  | replace p content =>
    simp only [Op.run, NS.replace] at h
    cases hp : p ns.normalized with
    | panic => rw [hp] at h; cases h
    | ok res =>
      rw [hp] at h
      cases res with
      | error e => injection h with h; subst h; exact hc
      | ok cs =>
        simp only [GoM.bind_ok] at h
        have loop : ∀ (cs : List Capture) (st st' : NS × Int),
            goFor cs st (NS.replaceStep content) = .ok st' → Covers st.1 → Covers st'.1 := by
          intro cs
          induction cs with
          | nil => intro st st' h hc; injection h with h; subst h; exact hc
          | cons c cs ih =>
            intro st st' h hc
            rw [goFor_cons, GoM.bind_eq_ok] at h
            obtain ⟨s1, h1, h2⟩ := h
            refine ih s1 st' h2 ?_
            unfold NS.replaceStep at h1
            split at h1
            · injection h1 with h1; subst h1; exact hc
            · simp only [GoM.bind_eq_ok] at h1
              obtain ⟨seg, -, ns1, h3, h4⟩ := h1
              injection h4 with h4
              subst h4
              exact transformRange_covers h3 hc
        cases hg : goFor cs (ns, (0 : Int)) (NS.replaceStep content) with
        | panic => rw [hg] at h; cases h
        | ok st =>
          rw [hg] at h
          injection h with h
          subst h
          exact loop cs _ st hg hc
  | slice r =>
    simp only [Op.run] at h
    cases hs : ns.slice r with
    | panic => rw [hs] at h; cases h
    | ok o =>
      rw [hs] at h
      cases o with
      | none => injection h with h; subst h; exact hc
      | some n => injection h with h; subst h; exact slice_covers hs

/-! ### Building slices -/

theorem fromString_loop (rt : Rt) {m0 : Mem} (l : List (Nat × Rune)) :
    ∀ {m : Mem} {s : Slc}, Fresh m0 m s →
      let st := l.foldl (fun st (p : Nat × Rune) =>
        appendN rt ⟨(p.1 : Int), ((p.1 + (encodeRune p.2).length : Nat) : Int)⟩
          (encodeRune p.2).length st) (m, s)
      let xs := l.flatMap fun (p : Nat × Rune) => List.replicate (encodeRune p.2).length
        (⟨(p.1 : Int), ((p.1 + (encodeRune p.2).length : Nat) : Int)⟩ : Align)
      Fresh m0 st.1 st.2 ∧ st.2.val st.1 = s.val m ++ xs
        ∧ (s.len + xs.length ≤ s.cap → st.2.cap = s.cap ∧ st.1.length = m.length) := by
  induction l with
  | nil => intro m s hf; exact ⟨hf, by simp, fun _ => ⟨rfl, rfl⟩⟩
  | cons p l ih =>
    intro m s hf
    obtain ⟨kf, kv, kl, kc⟩ := appendN_spec rt
      ⟨(p.1 : Int), ((p.1 + (encodeRune p.2).length : Nat) : Int)⟩ (encodeRune p.2).length hf
    obtain ⟨jf, jv, jc⟩ := ih kf
    simp only [List.foldl_cons, List.flatMap_cons]
    refine ⟨jf, ?_, ?_⟩
    · rw [jv, kv, List.append_assoc]
    · intro hle
      rw [List.length_append, List.length_replicate] at hle
      obtain ⟨d1, d2⟩ := kc (by omega)
      obtain ⟨d3, d4⟩ := jc (by rw [kl, d1]; omega)
      exact ⟨d3.trans d1, d4.trans d2⟩

theorem fromString_sim (rt : Rt) (m : Mem) (s : Str) :
    ∃ m' ns, fromStringM rt m s = .ok (m', ns) ∧ ns.view m' = NS.fromString s
      ∧ m <+: m' ∧ ns.alignments.Ok m'
      ∧ ((alignmentsFromString s).length = s.length →
          ns.alignments.cap = ns.alignments.len ∧ m'.length = m.length + 1) := by
  unfold fromStringM alignmentsFromStringM
  cases e : Slc.make m 0 s.length with
  | panic => unfold Slc.make at e; rw [if_pos (by omega)] at e; cases e
  | ok p =>
    obtain ⟨m1, al⟩ := p
    obtain ⟨f1, v1, l1, c1, -, -⟩ := make_spec e
    obtain ⟨kf, kv, kc⟩ := fromString_loop rt (rangeStr s) f1
    have hv : Slc.val m1 al ++ ((rangeStr s).flatMap fun (p : Nat × Rune) =>
        List.replicate (encodeRune p.2).length
        (⟨(p.1 : Int), ((p.1 + (encodeRune p.2).length : Nat) : Int)⟩ : Align))
        = alignmentsFromString s := by
      rw [v1]; rfl
    refine ⟨_, _, rfl, ?_, kf.ext, kf.ok, ?_⟩
    · simp only [MNS.view, NS.fromString]
      rw [kv, hv]
    · intro hl
      have hl' : ((rangeStr s).flatMap fun (p : Nat × Rune) =>
        List.replicate (encodeRune p.2).length
        (⟨(p.1 : Int), ((p.1 + (encodeRune p.2).length : Nat) : Int)⟩ : Align)).length
        = s.length := hl
      obtain ⟨d1, d2⟩ := kc (by rw [hl', l1, c1]; simp)
      have hlen := Slc.val_length kf.ok
      rw [kv, hv, hl] at hlen
      refine ⟨?_, ?_⟩
      · simp only
        rw [d1, c1, ← hlen]; simp
      · rw [d2]
        unfold Slc.make at e
        rw [if_pos (by omega)] at e
        injection e with e
        injection e with e1 e2
        rw [← e1]; simp

theorem appendAll_spec (rt : Rt) {m0 : Mem} (l : List Align) :
    ∀ {m : Mem} {s : Slc}, Fresh m0 m s →
      Fresh m0 (l.foldl (fun st x => st.2.append rt st.1 [x]) (m, s)).1
          (l.foldl (fun st x => st.2.append rt st.1 [x]) (m, s)).2
        ∧ (l.foldl (fun st x => st.2.append rt st.1 [x]) (m, s)).2.val
            (l.foldl (fun st x => st.2.append rt st.1 [x]) (m, s)).1 = s.val m ++ l := by
  induction l with
  | nil => intro m s hf; exact ⟨hf, by simp⟩
  | cons x l ih =>
    intro m s hf
    obtain ⟨kf, kv, -, -⟩ := append_spec rt hf [x]
    obtain ⟨jf, jv⟩ := ih kf
    simp only [List.foldl_cons]
    exact ⟨jf, by rw [jv, kv]; simp⟩

theorem originalAlignments_sim (rt : Rt) {m : Mem} {ns : MNS} (ha : ns.alignments.Ok m) :
    (originalAlignmentsM rt m ns = .panic ∧ (ns.view m).originalAlignments = .panic)
      ∨ ∃ m' t, originalAlignmentsM rt m ns = .ok (m', t)
          ∧ (ns.view m).originalAlignments = .ok (t.val m') ∧ m <+: m' ∧ t.Ok m' := by
  unfold originalAlignmentsM
  cases e : Slc.make m 0 ns.original.length with
  | panic => unfold Slc.make at e; rw [if_pos (by omega)] at e; cases e
  | ok p =>
    obtain ⟨m1, al⟩ := p
    obtain ⟨f1, v1, -⟩ := make_spec e
    simp only [GoM.bind_ok]
    have hview : ns.view m1 = ns.view m := by simp only [MNS.view, Slc.val_ext ha f1.ext]
    rw [hview]
    cases (ns.view m).originalAlignments with
    | panic => exact .inl ⟨rfl, rfl⟩
    | ok l =>
      obtain ⟨kf, kv⟩ := appendAll_spec rt l f1
      refine .inr ⟨_, _, rfl, ?_, kf.ext, kf.ok⟩
      rw [kv, v1]; rfl

theorem sliceAll_sim {ns : MNS} (xs : List SplitMatch) :
    ∀ {m : Mem} (_ : ns.alignments.Ok m) (_ : Covers (ns.view m)),
    (sliceAllM ns m xs = .panic ∧ (ns.view m).sliceAll xs = .panic)
      ∨ (∃ m' e, sliceAllM ns m xs = .ok (m', .error e)
          ∧ (ns.view m).sliceAll xs = .ok (.error e) ∧ m <+: m')
      ∨ ∃ m' l, sliceAllM ns m xs = .ok (m', .ok l)
          ∧ (ns.view m).sliceAll xs = .ok (.ok (l.map (·.view m'))) ∧ m <+: m'
          ∧ ∀ x ∈ l, x.alignments.Ok m' ∧ x.alignments.cap = x.alignments.len
              ∧ Covers (x.view m') := by
  induction xs with
  | nil =>
    intro m ha hc
    exact .inr (.inr ⟨m, [], rfl, rfl, List.prefix_refl m, by intro x hx; cases hx⟩)
  | cons x xs ih =>
    intro m ha hc
    simp only [sliceAllM, NS.sliceAll]
    by_cases hx : x.shouldRemove = true
    · simp only [hx, if_true]; exact ih ha hc
    · simp only [hx, if_false, Bool.false_eq_true]
      rcases slice_sim ha hc (.normalized x.offsets.start x.offsets.stop) with
        ⟨h1, h2⟩ | ⟨m', res, h1, h2, h3, h4⟩
      · rw [h1, h2]; exact .inl ⟨rfl, rfl⟩
      · rw [h1, h2]
        cases res with
        | none => exact .inr (.inl ⟨m', .badSplit, rfl, rfl, h3⟩)
        | some p =>
          have hview : ns.view m' = ns.view m := by simp only [MNS.view, Slc.val_ext ha h3]
          have hcov : Covers (p.view m') := slice_covers h2
          simp only [GoM.bind_ok, Option.map_some]
          rcases ih (ha.ext h3) (by rw [hview]; exact hc) with
            ⟨k1, k2⟩ | ⟨m2, e, k1, k2, k3⟩ | ⟨m2, l, k1, k2, k3, k4⟩
          · rw [hview] at k2
            rw [k1, k2]; exact .inl ⟨rfl, rfl⟩
          · rw [hview] at k2
            rw [k1, k2]; exact .inr (.inl ⟨m2, e, rfl, rfl, h3.trans k3⟩)
          · rw [hview] at k2
            rw [k1, k2]
            have hp : p.view m2 = p.view m' := by
              simp only [MNS.view, Slc.val_ext (h4 p rfl).1 k3]
            refine .inr (.inr ⟨m2, p :: l, rfl, ?_, h3.trans k3, ?_⟩)
            · simp only [List.map_cons, hp]; rfl
            · intro y hy
              rcases List.mem_cons.1 hy with rfl | hy
              · exact ⟨(h4 y rfl).1.ext k3, (h4 y rfl).2, by rw [hp]; exact hcov⟩
              · exact k4 y hy

theorem split_sim {m : Mem} {ns : MNS} (ha : ns.alignments.Ok m) (hc : Covers (ns.view m))
    (p : SplitPattern) (b : Behavior) :
    (splitM m ns p b = .panic ∧ (ns.view m).split p b = .panic)
      ∨ (∃ m' e, splitM m ns p b = .ok (m', .error e)
          ∧ (ns.view m).split p b = .ok (.error e) ∧ m <+: m')
      ∨ ∃ m' l, splitM m ns p b = .ok (m', .ok l)
          ∧ (ns.view m).split p b = .ok (.ok (l.map (·.view m'))) ∧ m <+: m'
          ∧ ∀ x ∈ l, x.alignments.Ok m' ∧ x.alignments.cap = x.alignments.len
              ∧ Covers (x.view m') := by
  unfold splitM NS.split
  have hn : (ns.view m).normalized = ns.normalized := rfl
  rw [hn]
  cases p ns.normalized with
  | panic => exact .inl ⟨rfl, rfl⟩
  | ok res =>
    cases res with
    | error e => exact .inr (.inl ⟨m, e, rfl, rfl, List.prefix_refl m⟩)
    | ok cs => exact sliceAll_sim _ ha hc

/-! ### Programs -/

/-- Every string and slice the program holds is inside memory, and every string has enough
alignments. -/
structure World.Good (w : World) : Prop where
  objs : ∀ ns ∈ w.objs, ns.alignments.Ok w.mem ∧ Covers (ns.view w.mem)
  slices : ∀ t ∈ w.slices, t.Ok w.mem

theorem view_ext {m m' : Mem} (h : m <+: m') {l : List MNS}
    (hl : ∀ ns ∈ l, ns.alignments.Ok m ∧ Covers (ns.view m)) :
    l.map (·.view m') = l.map (·.view m)
      ∧ ∀ ns ∈ l, ns.alignments.Ok m' ∧ Covers (ns.view m') := by
  have hv : ∀ ns ∈ l, ns.view m' = ns.view m := by
    intro ns hns; simp only [MNS.view, Slc.val_ext (hl ns hns).1 h]
  refine ⟨List.map_congr_left hv, fun ns hns => ⟨(hl ns hns).1.ext h, ?_⟩⟩
  rw [hv ns hns]; exact (hl ns hns).2

theorem vals_ext {m m' : Mem} (h : m <+: m') {l : List Slc} (hl : ∀ t ∈ l, t.Ok m) :
    l.map (·.val m') = l.map (·.val m) ∧ ∀ t ∈ l, t.Ok m' :=
  ⟨List.map_congr_left fun t ht => Slc.val_ext (hl t ht) h, fun t ht => (hl t ht).ext h⟩

theorem getElem?_view {w : World} (i : Nat) :
    w.view.objs[i]? = (w.objs[i]?).map (·.view w.mem) := by
  simp [World.view]

theorem good_add {w : World} (hw : w.Good) {m' : Mem} (h : w.mem <+: m') {l : List MNS}
    (hl : ∀ ns ∈ l, ns.alignments.Ok m' ∧ Covers (ns.view m')) :
    World.Good ⟨m', w.objs ++ l, w.slices⟩
      ∧ World.view ⟨m', w.objs ++ l, w.slices⟩
        = ⟨w.view.objs ++ l.map (·.view m'), w.view.slices⟩ := by
  obtain ⟨v1, o1⟩ := view_ext h hw.objs
  obtain ⟨v2, o2⟩ := vals_ext h hw.slices
  refine ⟨⟨?_, o2⟩, ?_⟩
  · intro ns hns
    rcases List.mem_append.1 hns with hns | hns
    · exact o1 ns hns
    · exact hl ns hns
  · simp only [World.view, List.map_append, v1, v2]

theorem good_set {w : World} (hw : w.Good) {m' : Mem} (h : w.mem <+: m') {i : Nat} {ns : MNS}
    (hn : ns.alignments.Ok m' ∧ Covers (ns.view m')) :
    World.Good ⟨m', w.objs.set i ns, w.slices⟩
      ∧ World.view ⟨m', w.objs.set i ns, w.slices⟩
        = ⟨w.view.objs.set i (ns.view m'), w.view.slices⟩ := by
  obtain ⟨v1, o1⟩ := view_ext h hw.objs
  obtain ⟨v2, o2⟩ := vals_ext h hw.slices
  refine ⟨⟨?_, o2⟩, ?_⟩
  · intro x hx
    rcases List.mem_or_eq_of_mem_set hx with hx | rfl
    · exact o1 x hx
    · exact hn
  · simp only [World.view, List.map_set, v1, v2]

theorem good_slice {w : World} (hw : w.Good) {m' : Mem} (h : w.mem <+: m') {t : Slc}
    (ht : t.Ok m') :
    World.Good ⟨m', w.objs, w.slices ++ [t]⟩
      ∧ World.view ⟨m', w.objs, w.slices ++ [t]⟩
        = ⟨w.view.objs, w.view.slices ++ [t.val m']⟩ := by
  obtain ⟨v1, o1⟩ := view_ext h hw.objs
  obtain ⟨v2, o2⟩ := vals_ext h hw.slices
  refine ⟨⟨o1, ?_⟩, ?_⟩
  · intro x hx
    rcases List.mem_append.1 hx with hx | hx
    · exact o2 x hx
    · rw [List.mem_singleton.1 hx]; exact ht
  · simp only [World.view, List.map_append, v1, v2, List.map_cons, List.map_nil]

theorem covers_fromString (s : Str) : Covers (NS.fromString s) := by
  unfold Covers
  simp only [NS.fromString]
  rw [alignmentsFromString_length]
  exact length_le_encodeRunes_runesOf s

theorem step_sim (rt : Rt) {w : World} (hw : w.Good) {act : Act} (hfit : act.Fits w.view) :
    (w.step rt act = .panic ∧ w.view.step act = .panic)
      ∨ ∃ w', w.step rt act = .ok w' ∧ w.view.step act = .ok w'.view ∧ w'.Good
          ∧ w.mem <+: w'.mem := by
  cases act with
  | fromString s =>
    obtain ⟨m', ns, h1, h2, h3, h4, -⟩ := fromString_sim rt w.mem s
    have := good_add hw h3 (l := [ns]) (by
      intro x hx
      rw [List.mem_singleton.1 hx]
      exact ⟨h4, by rw [h2]; exact covers_fromString s⟩)
    refine .inr ⟨_, by simp only [World.step, h1]; rfl, ?_, this.1, h3⟩
    rw [this.2]
    simp only [Lists.step, List.map_cons, List.map_nil, h2]
  | make len extra =>
    cases e : Slc.make w.mem len (len + extra : Nat) with
    | panic => unfold Slc.make at e; rw [if_pos (by omega)] at e; cases e
    | ok p =>
      obtain ⟨m', t⟩ := p
      obtain ⟨f1, v1, -⟩ := make_spec e
      have := good_slice hw f1.ext f1.ok
      refine .inr ⟨_, by simp only [World.step, e]; rfl, ?_, this.1, f1.ext⟩
      rw [this.2, v1]
      simp only [Lists.step, Int.toNat_natCast, zeroAlign]
  | sub j a n =>
    have hv : w.view.slices[j]? = (w.slices[j]?).map (·.val w.mem) := by simp [World.view]
    simp only [World.step, Lists.step, hv]
    cases ht : w.slices[j]? with
    | none => exact .inr ⟨w, rfl, rfl, hw, List.prefix_refl _⟩
    | some t =>
      obtain ⟨h1, c, h2, h3⟩ := hw.slices t (List.mem_of_getElem? ht)
      have hl := Slc.val_length (m := w.mem) ⟨h1, c, h2, h3⟩
      have := good_slice hw (List.prefix_refl w.mem)
        (t := ⟨t.arr, t.off + min a t.len, min n (t.len - min a t.len), t.cap - min a t.len⟩)
        ⟨by simp only; omega, c, h2, by simp only; omega⟩
      refine .inr ⟨_, rfl, ?_, this.1, List.prefix_refl _⟩
      rw [this.2]
      simp only [Option.map_some]
      congr 4
      simp only [Slc.val, h2, Option.getD_some]
      apply List.ext_getElem?
      intro k
      simp only [List.getElem?_take, List.getElem?_drop]
      grind
  | new o n j shift =>
    have hv : w.view.slices[j]? = (w.slices[j]?).map (·.val w.mem) := by simp [World.view]
    simp only [World.step, Lists.step, hv]
    simp only [Act.Fits, hv] at hfit
    cases ht : w.slices[j]? with
    | none => exact .inr ⟨w, rfl, rfl, hw, List.prefix_refl _⟩
    | some t =>
      have hfit := hfit (t.val w.mem) (by rw [ht]; rfl)
      have := good_add hw (List.prefix_refl w.mem) (l := [newM o n t shift]) (by
        intro x hx
        rw [List.mem_singleton.1 hx]
        exact ⟨hw.slices t (List.mem_of_getElem? ht), hfit⟩)
      refine .inr ⟨_, rfl, ?_, this.1, List.prefix_refl _⟩
      rw [this.2]
      rfl
  | call i op =>
    simp only [World.step, Lists.step, getElem?_view]
    cases hi : w.objs[i]? with
    | none => exact .inr ⟨w, rfl, rfl, hw, List.prefix_refl _⟩
    | some ns =>
      obtain ⟨ha, hc⟩ := hw.objs ns (List.mem_of_getElem? hi)
      simp only [Option.map_some]
      rcases runOp_sim rt ha hc op with ⟨h1, h2⟩ | ⟨m', ns', h1, h2, h3, h4, -⟩
      · rw [h1, h2]; exact .inl ⟨rfl, rfl⟩
      · rw [h1, h2]
        have hcov : Covers (ns'.view m') := op_covers h2 hc
        simp only [GoM.bind_ok, GoM.pure_eq]
        by_cases hs : isSlice op = true
        · simp only [hs, if_true]
          have := good_add hw h3 (l := [ns']) (by
            intro x hx; rw [List.mem_singleton.1 hx]; exact ⟨h4, hcov⟩)
          exact .inr ⟨_, rfl, by rw [this.2]; rfl, this.1, h3⟩
        · simp only [hs, if_false, Bool.false_eq_true]
          have := good_set hw h3 (i := i) ⟨h4, hcov⟩
          exact .inr ⟨_, rfl, by rw [this.2], this.1, h3⟩
  | transformRange i r dest io =>
    simp only [World.step, Lists.step, getElem?_view]
    cases hi : w.objs[i]? with
    | none => exact .inr ⟨w, rfl, rfl, hw, List.prefix_refl _⟩
    | some ns =>
      obtain ⟨ha, hc⟩ := hw.objs ns (List.mem_of_getElem? hi)
      simp only [Option.map_some]
      rcases transformRange_sim rt ha r dest io with ⟨h1, h2⟩ | ⟨m', ns', h1, h2, h3, h4, -⟩
      · rw [h1, h2]; exact .inl ⟨rfl, rfl⟩
      · rw [h1, h2]
        have hcov : Covers (ns'.view m') := transformRange_covers h2 hc
        simp only [GoM.bind_ok, GoM.pure_eq]
        have := good_set hw h3 (i := i) ⟨h4, hcov⟩
        exact .inr ⟨_, rfl, by rw [this.2], this.1, h3⟩
  | originalAlignments i =>
    simp only [World.step, Lists.step, getElem?_view]
    cases hi : w.objs[i]? with
    | none => exact .inr ⟨w, rfl, rfl, hw, List.prefix_refl _⟩
    | some ns =>
      obtain ⟨ha, hc⟩ := hw.objs ns (List.mem_of_getElem? hi)
      simp only [Option.map_some]
      rcases originalAlignments_sim rt ha with ⟨h1, h2⟩ | ⟨m', t, h1, h2, h3, h4⟩
      · rw [h1, h2]; exact .inl ⟨rfl, rfl⟩
      · rw [h1, h2]
        have := good_slice hw h3 h4
        exact .inr ⟨_, rfl, by rw [this.2]; rfl, this.1, h3⟩
  | split i p b =>
    simp only [World.step, Lists.step, getElem?_view]
    cases hi : w.objs[i]? with
    | none => exact .inr ⟨w, rfl, rfl, hw, List.prefix_refl _⟩
    | some ns =>
      obtain ⟨ha, hc⟩ := hw.objs ns (List.mem_of_getElem? hi)
      simp only [Option.map_some]
      rcases split_sim ha hc p b with ⟨h1, h2⟩ | ⟨m', e, h1, h2, h3⟩ | ⟨m', l, h1, h2, h3, h4⟩
      · rw [h1, h2]; exact .inl ⟨rfl, rfl⟩
      · rw [h1, h2]
        have := good_add hw h3 (l := []) (by intro x hx; cases hx)
        simp only [List.append_nil, List.map_nil] at this
        exact .inr ⟨_, rfl, by rw [this.2]; rfl, this.1, h3⟩
      · rw [h1, h2]
        have := good_add hw h3 (l := l) fun x hx => ⟨(h4 x hx).1, (h4 x hx).2.2⟩
        exact .inr ⟨_, rfl, by rw [this.2]; rfl, this.1, h3⟩

theorem good_empty : World.empty.Good := by
  refine ⟨?_, ?_⟩
  · intro x hx; cases hx
  · intro x hx; cases hx

/-- **C77.**  A program that makes strings (`FromString`, `New` on slices that several
strings may share, `Slice`, `Split`) and calls them in any order, run on the shared memory,
goes exactly as if every string owned its alignments: the same values everywhere, and a
panic exactly when there is one on lists.  The only condition is that `New` is given as many
alignments as the text has bytes. -/
theorem C77_values (rt : Rt) (acts : List Act) (hfit : AllFit ⟨[], []⟩ acts) :
    World.view <$> goFor acts World.empty (World.step rt) = goFor acts ⟨[], []⟩ Lists.step := by
  have main : ∀ (acts : List Act) (w : World), w.Good → AllFit w.view acts →
      World.view <$> goFor acts w (World.step rt) = goFor acts w.view Lists.step := by
    intro acts
    induction acts with
    | nil => intro w _ _; rfl
    | cons act acts ih =>
      intro w hw hf
      rw [goFor_cons, goFor_cons]
      rcases step_sim rt hw hf.1 with ⟨h1, h2⟩ | ⟨w', h1, h2, h3, -⟩
      · rw [h1, h2]; rfl
      · rw [h1, h2]
        exact ih w' h3 (hf.2 _ h2)
  exact main acts World.empty good_empty hfit

theorem run_good (rt : Rt) (acts : List Act) (hfit : AllFit ⟨[], []⟩ acts) {w : World}
    (h : goFor acts World.empty (World.step rt) = .ok w) : w.Good := by
  have main : ∀ (acts : List Act) (w0 : World), w0.Good → AllFit w0.view acts →
      ∀ w, goFor acts w0 (World.step rt) = .ok w → w.Good := by
    intro acts
    induction acts with
    | nil => intro w0 h0 _ w h; injection h with h; subst h; exact h0
    | cons act acts ih =>
      intro w0 h0 hf w h
      rw [goFor_cons, GoM.bind_eq_ok] at h
      obtain ⟨w1, h1, h2⟩ := h
      rcases step_sim rt h0 hf.1 with ⟨k1, -⟩ | ⟨w', k1, k2, k3, -⟩
      · rw [k1] at h1; cases h1
      · rw [k1] at h1; injection h1 with h1; subst h1
        exact ih _ k3 (hf.2 _ k2) w h2
  exact main acts World.empty good_empty hfit w h

/-- **C77, nothing is overwritten.**  The memory after a program's next step extends the
memory before it: every array that existed is as it was, so no string and no slice held
elsewhere has changed, whatever it shares with the string that was called. -/
theorem C77_frame (rt : Rt) (acts : List Act) (hfit : AllFit ⟨[], []⟩ acts) {w : World}
    (h : goFor acts World.empty (World.step rt) = .ok w) (act : Act) (ha : act.Fits w.view)
    {w' : World} (h' : w.step rt act = .ok w') :
    w.mem <+: w'.mem ∧ (∀ ns ∈ w.objs, ns.view w'.mem = ns.view w.mem)
      ∧ ∀ t ∈ w.slices, t.val w'.mem = t.val w.mem := by
  have hw := run_good rt acts hfit h
  rcases step_sim rt hw ha with ⟨k1, -⟩ | ⟨w1, k1, k2, k3, k4⟩
  · rw [k1] at h'; cases h'
  · rw [k1] at h'; injection h' with h'; subst h'
    exact ⟨k4, fun ns hns => by simp only [MNS.view, Slc.val_ext (hw.objs ns hns).1 k4],
      fun t ht => Slc.val_ext (hw.slices t ht) k4⟩

theorem alignmentsFromString_length_valid {s : Str} (hs : ValidUtf8 s) :
    (alignmentsFromString s).length = s.length := by
  rw [alignmentsFromString_length]
  obtain ⟨rs, hv, rfl⟩ := hs
  rw [runesOf_encodeRunes rs hv]

theorem allFit_of_lib : ∀ (acts : List Act) (w : Lists), (∀ act ∈ acts, act.Lib) →
    AllFit w acts := by
  intro acts
  induction acts with
  | nil => intro _ _; trivial
  | cons act acts ih =>
    intro w h
    refine ⟨?_, fun w' _ => ih w' fun a ha => h a (List.mem_cons_of_mem _ ha)⟩
    have := h act List.mem_cons_self
    cases act with
    | new o n j sh => exact this.elim
    | _ => trivial

/-- The alignments of every string fill their slice. -/
def World.Full (w : World) : Prop := ∀ ns ∈ w.objs, ns.alignments.cap = ns.alignments.len

theorem step_full (rt : Rt) {w w' : World} (hw : w.Good) (hf : w.Full) {act : Act}
    (hl : act.Lib) (h : w.step rt act = .ok w') : w'.Full := by
  have add : ∀ {l : List MNS}, (∀ x ∈ l, x.alignments.cap = x.alignments.len) →
      ∀ x ∈ w.objs ++ l, x.alignments.cap = x.alignments.len := by
    intro l hl x hx
    rcases List.mem_append.1 hx with hx | hx
    · exact hf x hx
    · exact hl x hx
  have set : ∀ {i : Nat} {ns : MNS}, ns.alignments.cap = ns.alignments.len →
      ∀ x ∈ w.objs.set i ns, x.alignments.cap = x.alignments.len := by
    intro i ns hn x hx
    rcases List.mem_or_eq_of_mem_set hx with hx | rfl
    · exact hf x hx
    · exact hn
  cases act with
  | fromString s =>
    obtain ⟨m', ns, h1, h2, h3, h4, h5⟩ := fromString_sim rt w.mem s
    simp only [World.step, h1, GoM.bind_ok, GoM.pure_eq, GoM.ok.injEq] at h
    subst h
    refine add ?_
    intro x hx
    rw [List.mem_singleton.1 hx]
    exact (h5 (alignmentsFromString_length_valid hl)).1
  | make len extra =>
    simp only [World.step, GoM.bind_eq_ok, GoM.pure_eq, GoM.ok.injEq] at h
    obtain ⟨p, -, rfl⟩ := h
    exact hf
  | sub j a n =>
    simp only [World.step] at h
    split at h <;> (injection h with h; subst h; exact hf)
  | new o n j shift => exact hl.elim
  | call i op =>
    simp only [World.step] at h
    split at h
    · injection h with h; subst h; exact hf
    · rename_i ns hi
      obtain ⟨ha, hc⟩ := hw.objs ns (List.mem_of_getElem? hi)
      have hn := hf ns (List.mem_of_getElem? hi)
      rcases runOp_sim rt ha hc op with ⟨h1, h2⟩ | ⟨m', ns', h1, h2, h3, h4, h5⟩
      · rw [h1] at h; cases h
      · rw [h1] at h
        injection h with h; subst h
        have hn' : ns'.alignments.cap = ns'.alignments.len := by
          rcases h5 with h5 | h5
          · rw [h5]; exact hn
          · exact h5
        unfold World.Full
        simp only
        split
        · exact add (by intro x hx; rw [List.mem_singleton.1 hx]; exact hn')
        · exact set hn'
  | transformRange i r dest io =>
    simp only [World.step] at h
    split at h
    · injection h with h; subst h; exact hf
    · rename_i ns hi
      obtain ⟨ha, hc⟩ := hw.objs ns (List.mem_of_getElem? hi)
      have hn := hf ns (List.mem_of_getElem? hi)
      rcases transformRange_sim rt ha r dest io with ⟨h1, h2⟩ | ⟨m', ns', h1, h2, h3, h4, h5⟩
      · rw [h1] at h; cases h
      · rw [h1] at h
        injection h with h; subst h
        have hn' : ns'.alignments.cap = ns'.alignments.len := by
          rcases h5 with h5 | h5
          · rw [h5]; exact hn
          · exact h5
        exact set hn'
  | originalAlignments i =>
    simp only [World.step] at h
    split at h
    · injection h with h; subst h; exact hf
    · simp only [GoM.bind_eq_ok, GoM.pure_eq, GoM.ok.injEq] at h
      obtain ⟨p, -, rfl⟩ := h
      exact hf
  | split i p b =>
    simp only [World.step] at h
    split at h
    · injection h with h; subst h; exact hf
    · rename_i ns hi
      obtain ⟨ha, hc⟩ := hw.objs ns (List.mem_of_getElem? hi)
      rcases split_sim ha hc p b with ⟨h1, h2⟩ | ⟨m', e, h1, h2, h3⟩ | ⟨m', l, h1, h2, h3, h4⟩
      · rw [h1] at h; cases h
      · rw [h1] at h; injection h with h; subst h; exact hf
      · rw [h1] at h
        injection h with h; subst h
        exact add fun x hx => (h4 x hx).2.1

/-- **C77, capacity.**  When all strings come from `FromString` on valid UTF-8, their
alignments always fill their slices, so re-slicing up to the capacity is re-slicing up to the
length: on any string held, `CoerceRangeToOriginal` and `GetOriginalRange` answer, or panic,
as the list model says, for every range. -/
theorem C77_capacity (rt : Rt) (acts : List Act) (hlib : ∀ act ∈ acts, act.Lib) {w : World}
    (h : goFor acts World.empty (World.step rt) = .ok w) :
    ∀ ns ∈ w.objs, ns.alignments.cap = ns.alignments.len
      ∧ ∀ r : Rng, coerceRangeToOriginalM w.mem ns r = (ns.view w.mem).coerceRangeToOriginal r
          ∧ getOriginalRangeM w.mem ns r = (ns.view w.mem).getOriginalRange r := by
  have main : ∀ (acts : List Act) (w0 : World), (∀ act ∈ acts, act.Lib) → w0.Good → w0.Full →
      ∀ w, goFor acts w0 (World.step rt) = .ok w → w.Good ∧ w.Full := by
    intro acts
    induction acts with
    | nil => intro w0 _ h0 h1 w h; injection h with h; subst h; exact ⟨h0, h1⟩
    | cons act acts ih =>
      intro w0 hl h0 h1 w h
      rw [goFor_cons, GoM.bind_eq_ok] at h
      obtain ⟨w1, h2, h3⟩ := h
      have hl0 := hl act List.mem_cons_self
      have hfit := (allFit_of_lib (act :: acts) w0.view hl).1
      rcases step_sim rt h0 hfit with ⟨k1, -⟩ | ⟨w', k1, k2, k3, -⟩
      · rw [k1] at h2; cases h2
      · rw [k1] at h2; injection h2 with h2; subst h2
        exact ih _ (fun a ha => hl a (List.mem_cons_of_mem _ ha)) k3 (step_full rt h0 h1 hl0 k1)
          w h3
  obtain ⟨hg, hf⟩ := main acts World.empty hlib good_empty (by intro x hx; cases hx) w h
  intro ns hns
  have ha := (hg.objs ns hns).1
  exact ⟨hf ns hns, fun r => ⟨coerce_sim ha r (.inr (hf ns hns)),
    getOriginalRange_sim ha r (.inr (hf ns hns))⟩⟩

/-- **C77, what the capacity does otherwise.**  On any string of any program
`CoerceRangeToOriginal` gives the list model's answer for the alignments up to the capacity
of the slice; so the two agree on every range within the length. -/
theorem C77_coerce_exact (rt : Rt) (acts : List Act) (hfit : AllFit ⟨[], []⟩ acts) {w : World}
    (h : goFor acts World.empty (World.step rt) = .ok w) :
    ∀ ns ∈ w.objs, ∀ r : Rng,
      coerceRangeToOriginalM w.mem ns r
          = (MNS.view w.mem ⟨ns.original, ns.normalized, ns.alignments.full,
              ns.originalShift⟩).coerceRangeToOriginal r
        ∧ (r.stop ≤ ns.alignments.len →
            coerceRangeToOriginalM w.mem ns r = (ns.view w.mem).coerceRangeToOriginal r) := by
  have hw := run_good rt acts hfit h
  intro ns hns r
  have ha := (hw.objs ns hns).1
  exact ⟨coerce_exact ha r, fun hr => coerce_sim ha r (.inl hr)⟩

/-! ### Concrete programs -/

/-- `append` doubles, `[]rune(s)` has room for five more. -/
def sampleRt : Rt := ⟨fun c n => max (2 * c) n, fun _ => 5⟩

/-- Two strings made by `New` on the same slice; one is lowercased (`é` replaces `E`), sliced and
stripped, the other keeps its alignments. -/
def sampleActs : List Act :=
  [.fromString b!"aE", .originalAlignments 0, .new b!"aE" b!"aE" 0 0, .new b!"aE" b!"aE" 0 7,
    .call 1 (.map fun r => if r = 69 then 233 else r), .call 1 (.slice (.normalized 1 3)),
    .call 1 (.filter fun r => r = 233)]

example : (goFor sampleActs World.empty (World.step sampleRt)) >>=
    (fun w => .ok (w.view.objs, w.mem.length)) = .ok (
      [NS.fromString b!"aE",
       ⟨b!"aE", b!"é", [⟨1, 2⟩, ⟨1, 2⟩], 0⟩,
       ⟨b!"aE", b!"aE", [⟨0, 1⟩, ⟨1, 2⟩], 7⟩,
       ⟨b!"E", b!"é", [⟨0, 1⟩, ⟨0, 1⟩], 1⟩], 8) := by decide +kernel

/-- With spare capacity behind the alignments, a range past the end is not refused: `New` on
`t[0:1]` of a slice of two. -/
theorem C77_past_the_end :
    goFor [.fromString b!"ab", .originalAlignments 0, .sub 0 0 1, .new b!"a" b!"a" 1 0]
        World.empty (World.step sampleRt) >>= (fun w => match w.objs[1]? with
          | some ns => (do
              let x ← coerceRangeToOriginalM w.mem ns (.normalized 0 2)
              pure (x, decide ((ns.view w.mem).coerceRangeToOriginal (.normalized 0 2) = .panic)))
          | none => .panic)
      = .ok (some (0, 2), true) := by decide +kernel

/-- The same happens after `FromString` on bytes that are not UTF-8: three alignments for the
one byte, in a slice that had to grow. -/
theorem C77_bad_bytes :
    goFor [.fromString [0xff]] World.empty (World.step sampleRt) >>= (fun w => match w.objs[0]? with
          | some ns => (do
              let x ← coerceRangeToOriginalM w.mem ns (.normalized 0 4)
              pure (x, ns.alignments.len, ns.alignments.cap,
                decide ((ns.view w.mem).coerceRangeToOriginal (.normalized 0 4) = .panic)))
          | none => .panic)
      = .ok (some (0, 0), 3, 4, true) := by decide +kernel

end Verif.Memory
