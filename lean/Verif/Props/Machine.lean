import Verif.Spec.Machine
import Verif.Model.Notation
import Verif.Lemmas.Loop
import Verif.Props.History
import Verif.Props.Literal
import Verif.Props.Replace
import Verif.Lemmas.Copy

/-! # Machine integers and `WriteRune` (C75)

The model computes with unbounded integers.  Here: on a machine whose `int` is at least eight times as
large as the texts, every call gives the same result, for all arguments of type `int`. -/

set_option autoImplicit false

namespace Verif
namespace Machine

variable {m : Machine}

theorem wrap_eq {x : Int} (h : m.InInt x) : m.wrap x = x := by
  obtain ⟨h1, h2⟩ := h
  unfold wrap
  rw [Int.bmod_eq_of_le (by omega) (by omega)]

theorem wrap_half_neg : m.wrap (m.half : Int) = -(m.half : Int) := by
  unfold wrap Int.bmod
  by_cases h : m.half = 0
  · simp [h]
  · have : (m.half : Int) % ((2 * m.half : Nat) : Int) = m.half := Int.emod_eq_of_lt (by omega) (by omega)
    rw [this, if_neg (by omega)]
    omega

theorem wrap_eq_zero {x : Int} (h1 : -(2 * m.half : Int) < x) (h2 : x < 2 * m.half) :
    m.wrap x = 0 ↔ x = 0 := by
  constructor
  · intro h
    have hd : ((2 * m.half : Nat) : Int) ∣ x := Int.dvd_of_bmod_eq_zero h
    obtain ⟨k, hk⟩ := hd
    by_cases k0 : k = 0
    · simp [hk, k0]
    · exfalso
      have hm : (0 : Int) ≤ ((2 * m.half : Nat) : Int) := by omega
      rcases Int.lt_or_gt_of_ne k0 with hlt | hgt
      · have := Int.mul_le_mul_of_nonneg_left (show k ≤ -1 by omega) hm
        omega
      · have := Int.mul_le_mul_of_nonneg_left (show 1 ≤ k by omega) hm
        omega
  · rintro rfl; simp [wrap]

theorem rngLen_zero {s e : Int} (hs : m.InInt s) (he : m.InInt e) : m.rngLen s e = 0 ↔ e - s = 0 := by
  obtain ⟨h1, h2⟩ := hs
  obtain ⟨h3, h4⟩ := he
  exact wrap_eq_zero (by omega) (by omega)

theorem coerceLoop_eq (a b : Int) (als : List Align) : ∀ (i s e : Int), 0 ≤ i → i + als.length < m.half →
    m.coerceLoop a b als i s e = NS.coerceLoop a b als i s e := by
  induction als with
  | nil => intros; rfl
  | cons al rest ih =>
    intro i s e h0 h1
    simp only [List.length_cons, Int.natCast_add, Int.natCast_one] at h1
    have hw : m.wrap (i + 1) = i + 1 := wrap_eq ⟨by omega, by omega⟩
    simp only [coerceLoop, NS.coerceLoop, hw]
    rw [ih (i + 1) _ _ (by omega) (by omega)]

theorem coerceRangeToNormalized_eq {ns : NS} {r : Rng} (hs : m.InInt r.start) (he : m.InInt r.stop)
    (hl : ns.alignments.length < m.half) : m.coerceRangeToNormalized ns r = ns.coerceRangeToNormalized r := by
  cases r with
  | normalized s e => rfl
  | original s e =>
    simp only [coerceRangeToNormalized, NS.coerceRangeToNormalized]
    rw [coerceLoop_eq _ _ _ 0 _ _ (by omega) (by omega)]
    have hz := rngLen_zero (m := m) (s := s) (e := e) hs he
    by_cases h : e - s = 0
    · rw [if_pos (hz.2 h), if_pos h]
    · rw [if_neg (fun h' => h (hz.1 h')), if_neg h]

theorem coerceRangeToOriginal_eq {ns : NS} {r : Rng} (hs : m.InInt r.start) (he : m.InInt r.stop)
    (hl : ns.alignments.length < m.half) : m.coerceRangeToOriginal ns r = ns.coerceRangeToOriginal r := by
  cases r with
  | original s e => rfl
  | normalized s e =>
    simp only [coerceRangeToOriginal, NS.coerceRangeToOriginal]
    have hz := rngLen_zero (m := m) (s := s) (e := e) hs he
    by_cases h : e - s = 0
    · rw [if_pos (hz.2 h), if_pos h]
    · rw [if_neg (fun h' => h (hz.1 h')), if_neg h]
      cases hg : goSlice ns.alignments s e with
      | panic => simp
      | ok als =>
        have hle : als.length ≤ ns.alignments.length := by
          obtain ⟨-, e⟩ := goSlice_eq_ok.1 hg
          rw [e]; simp; omega
        rw [GoM.bind_ok, GoM.bind_ok, wrap_eq ⟨by omega, by omega⟩]

theorem getRange_eq {ns : NS} {r : Rng} (hs : m.InInt r.start) (he : m.InInt r.stop)
    (hl : ns.alignments.length < m.half) : m.getRange ns r = ns.getRange r := by
  unfold getRange NS.getRange
  rw [coerceRangeToNormalized_eq hs he hl]
  cases ns.coerceRangeToNormalized r <;> rfl

theorem getOriginalRange_eq {ns : NS} {r : Rng} (hs : m.InInt r.start) (he : m.InInt r.stop)
    (hl : ns.alignments.length < m.half) : m.getOriginalRange ns r = ns.getOriginalRange r := by
  unfold getOriginalRange NS.getOriginalRange
  rw [coerceRangeToOriginal_eq hs he hl]
  cases ns.coerceRangeToOriginal r with
  | panic => rfl
  | ok o => cases o <;> rfl

/-! ## TransformRange -/

/-- Slicing with the negated count: the only count that wraps is refused either way. -/
theorem goSlice_neg {α : Type} {l : List α} (hl : l.length < m.half) {c : Int} (hc : m.InInt c) :
    goSlice l 0 (m.wrap (-c)) = goSlice l 0 (-c)
      ∧ goSlice l (m.wrap (-c)) l.length = goSlice l (-c) l.length := by
  obtain ⟨h1, h2⟩ := hc
  by_cases h : c = -(m.half : Int)
  · subst h
    rw [Int.neg_neg, wrap_half_neg]
    refine ⟨?_, ?_⟩
    · rw [goSlice_eq_panic.2 (by omega), goSlice_eq_panic.2 (by omega)]
    · rw [goSlice_eq_panic.2 (by omega), goSlice_eq_panic.2 (by omega)]
  · rw [wrap_eq ⟨by omega, by omega⟩]; exact ⟨rfl, rfl⟩

theorem encodeRunes_drop_le (rs : List Rune) (n : Nat) :
    (encodeRunes (rs.drop n)).length ≤ (encodeRunes rs).length := by
  conv => rhs; rw [← List.take_append_drop n rs, encodeRunes_append]
  simp

theorem transformStep_eq {als : List Align} {st : TState} {rc : RuneChange} (h0 : 0 ≤ st.offset)
    (hb : st.offset + (encodeRunes st.repl).length < m.half) (hc : m.InInt rc.change) (hw : m.Writes rc.rune) :
    m.transformStep als st rc = Verif.transformStep als st rc := by
  unfold transformStep Verif.transformStep
  rw [hw]
  by_cases hc1 : 1 ≤ rc.change
  · have h1 : ¬ (rc.change ≤ 0) := by omega
    have h2 : ¬ (rc.change ≤ -1) := by omega
    simp only [ge_iff_le, hc1, if_true, h1, h2, if_false, GoM.pure_eq, GoM.bind_ok]
    rw [wrap_eq (x := st.offset + _) ⟨by omega, by omega⟩, wrap_eq (x := st.offset + _ + _) ⟨by omega, by omega⟩]
    by_cases h : st.offset < 1
    · simp only [h, if_true]
    · simp only [h, if_false]
      rw [wrap_eq ⟨by omega, by omega⟩]
  · have h1 : rc.change ≤ 0 := by omega
    simp only [ge_iff_le, hc1, if_false, h1, if_true]
    cases hg : goIndex als st.offset with
    | panic => rfl
    | ok al =>
      cases hr : st.repl with
      | nil => rfl
      | cons r rs =>
        have hz : goIndex (r :: rs) 0 = GoM.ok r := rfl
        have hl : rs.length ≤ (encodeRunes rs).length := length_le_encodeRunes rs
        have he : (encodeRunes (r :: rs)).length = (encodeRune r).length + (encodeRunes rs).length := by simp
        rw [hr, he] at hb
        simp only [hz, GoM.bind_ok, GoM.pure_eq, List.drop_succ_cons, List.drop_zero]
        rw [wrap_eq (x := st.offset + _) ⟨by omega, by omega⟩]
        by_cases h2 : rc.change ≤ -1
        · obtain ⟨s1, s2⟩ := goSlice_neg (l := rs) (m := m) (by omega) hc
          simp only [h2, if_true, s1, s2]
          cases hs : goSlice rs 0 (-rc.change) with
          | panic => rfl
          | ok removed =>
            cases hs2 : goSlice rs (-rc.change) rs.length with
            | panic => rfl
            | ok rest =>
              have hrm : (encodeRunes removed).length ≤ (encodeRunes rs).length := by
                obtain ⟨-, e⟩ := goSlice_eq_ok.1 hs
                rw [e]
                simp only [Int.toNat_zero, List.drop_zero]
                exact encodeRunes_take_le _ _
              simp only [GoM.bind_ok]
              rw [wrap_eq ⟨by omega, by omega⟩]
        · simp only [h2, if_false]
          rw [wrap_eq ⟨by omega, by omega⟩]

theorem transformLoop_eq {als : List Align} (dest : List RuneChange) : ∀ {st : TState}, 0 ≤ st.offset →
    st.offset + (encodeRunes st.repl).length < m.half →
    (∀ rc ∈ dest, m.InInt rc.change ∧ m.Writes rc.rune) →
    goFor dest st (m.transformStep als) = goFor dest st (Verif.transformStep als) := by
  induction dest with
  | nil => intros; rfl
  | cons rc rest ih =>
    intro st h0 hb hd
    have hrc := hd rc (by simp)
    rw [goFor_cons, goFor_cons, transformStep_eq h0 hb hrc.1 hrc.2]
    cases hs : Verif.transformStep als st rc with
    | panic => rfl
    | ok st' =>
      obtain ⟨k, -, -, -, k4, k5, k6, -, -⟩ := transformStep_ok hs h0
      simp only [GoM.bind_ok]
      refine ih (by omega) ?_ (fun x hx => hd x (by simp [hx]))
      have e : (encodeRunes st.repl).length = (encodeRunes (st.repl.take (consumed [rc]))).length
          + (encodeRunes (st.repl.drop (consumed [rc]))).length := by
        conv => lhs; rw [← List.take_append_drop (consumed [rc]) st.repl, encodeRunes_append]
        simp
      rw [k6]; omega

theorem encodeRunes_runesOf_le (s : Str) : (encodeRunes (runesOf s)).length ≤ 4 * s.length := by
  have h : ∀ rs : List Rune, (encodeRunes rs).length ≤ 4 * rs.length := by
    intro rs
    induction rs with
    | nil => simp
    | cons r rs ih =>
      have := runeLen_le_four r
      simp only [runeLen] at this
      simp; omega
  have := h (runesOf s)
  have := runesOf_length_le s
  omega

theorem aligns_le (dest : List RuneChange) {als : List Align} : ∀ {st st' : TState},
    goFor dest st (Verif.transformStep als) = .ok st' → 0 ≤ st.offset →
    st'.aligns.length ≤ st.aligns.length + 4 * dest.length := by
  induction dest with
  | nil => intro st st' h _; simp at h; subst h; simp
  | cons rc rest ih =>
    intro st st' h h0
    rw [goFor_cons, GoM.bind_eq_ok] at h
    obtain ⟨st1, h1, h2⟩ := h
    obtain ⟨k, -, -, -, -, k5, -, k7, -⟩ := transformStep_ok h1 h0
    have := ih h2 (by omega)
    have hr := runeLen_le_four rc.rune
    rw [k7] at this
    simp at this ⊢
    omega

theorem transformNormalized_eq {ns : NS} {a b io : Int} {dest : List RuneChange}
    (hn : m.Sized ns.normalized.length) (hl : m.Sized ns.alignments.length) (hd : 8 * dest.length ≤ m.half)
    (hdest : ∀ rc ∈ dest, m.InInt rc.change ∧ m.Writes rc.rune) :
    m.transformNormalized ns a b dest io = ns.transformNormalized a b dest io := by
  unfold transformNormalized NS.transformNormalized
  unfold Sized at hn hl
  cases h1 : goSlice ns.normalized a b with
  | panic => rfl
  | ok replaced =>
    cases h2 : goSlice replaced 0 io with
    | panic => simp [h2]
    | ok initial =>
      cases h3 : goSlice replaced io replaced.length with
      | panic => simp [h2, h3]
      | ok tail =>
        obtain ⟨⟨a1, a2, a3⟩, ar⟩ := goSlice_eq_ok.1 h1
        obtain ⟨⟨b1, b2, b3⟩, br⟩ := goSlice_eq_ok.1 h2
        obtain ⟨⟨c1, c2, c3⟩, cr⟩ := goSlice_eq_ok.1 h3
        have lr : replaced.length ≤ ns.normalized.length := by rw [ar]; simp; omega
        have li : initial.length ≤ ns.normalized.length := by rw [br]; simp; omega
        have lt : tail.length ≤ ns.normalized.length := by rw [cr]; simp; omega
        have le := encodeRunes_runesOf_le tail
        have w1 : m.wrap ((initial.length : Int) + a) = (initial.length : Int) + a := wrap_eq ⟨by omega, by omega⟩
        have w2 : m.rngLen a b = b - a := wrap_eq ⟨by omega, by omega⟩
        have mk1 : make (b - a) = .ok () := by unfold make; rw [if_neg (by omega)]
        simp only [GoM.bind_ok, h2, h3, w1, w2, mk1]
        rw [transformLoop_eq dest (by show 0 ≤ _; simp only; omega) (by simp only; omega) hdest]
        cases h4 : goFor dest { offset := (initial.length : Int) + a, repl := runesOf tail, aligns := [], out := [] }
            (Verif.transformStep ns.alignments) with
        | panic => rfl
        | ok st =>
          have hal := aligns_le dest h4 (by simp only; omega)
          simp only [List.length_nil] at hal
          simp only [GoM.bind_ok]
          rw [wrap_eq (x := (ns.alignments.length : Int) - (b - a)) ⟨by omega, by omega⟩,
            wrap_eq ⟨by omega, by omega⟩]
          by_cases hb : b ≤ ns.alignments.length
          · have : make ((ns.alignments.length : Int) - (b - a) + st.aligns.length) = .ok () := by
              unfold make; rw [if_neg (by omega)]
            rw [this, GoM.bind_ok]
          · have hp : goSlice ns.alignments b ns.alignments.length = .panic :=
              goSlice_eq_panic.2 (by omega)
            simp only [hp, GoM.bind_panic]
            cases make ((ns.alignments.length : Int) - (b - a) + st.aligns.length) <;>
              cases goSlice ns.alignments 0 a <;> rfl

theorem transformRange_eq {ns : NS} {r : Rng} {io : Int} {dest : List RuneChange}
    (hn : m.Sized ns.normalized.length) (hl : m.Sized ns.alignments.length) (hd : 8 * dest.length ≤ m.half)
    (hdest : ∀ rc ∈ dest, m.InInt rc.change ∧ m.Writes rc.rune) (hs : m.InInt r.start) (he : m.InInt r.stop) :
    m.transformRange ns r dest io = ns.transformRange r dest io := by
  unfold transformRange NS.transformRange
  rw [coerceRangeToNormalized_eq hs he (by unfold Sized at hl; omega)]
  cases ns.coerceRangeToNormalized r with
  | none => rfl
  | some p => exact transformNormalized_eq hn hl hd hdest

theorem transform_eq {ns : NS} {io : Int} {dest : List RuneChange}
    (hn : m.Sized ns.normalized.length) (hl : m.Sized ns.alignments.length) (hd : 8 * dest.length ≤ m.half)
    (hdest : ∀ rc ∈ dest, m.InInt rc.change ∧ m.Writes rc.rune) :
    m.transform ns dest io = ns.transform dest io := by
  unfold Sized at hn
  refine transformRange_eq hn hl hd hdest ?_ ?_
  · exact ⟨by simp only [Rng.start]; omega, by simp only [Rng.start]; omega⟩
  · exact ⟨by simp only [Rng.stop, NS.len]; omega, by simp only [Rng.stop, NS.len]; omega⟩

/-! ## The other operations -/

theorem originalOffsets_eq {root : Str} {ns : NS} (hp : PartOf root ns) (hr : m.Sized root.length) :
    m.originalOffsets ns = ns.originalOffsets := by
  obtain ⟨pre, post, e1, e2⟩ := hp
  have hl : root.length = pre.length + ns.original.length + post.length := by rw [e1]; simp; omega
  unfold Sized at hr
  unfold originalOffsets NS.originalOffsets NS.originalLen
  rw [wrap_eq ⟨by omega, by omega⟩]

theorem origAlignLoop_eq {L : Int} (hL : L < m.half) (als : List Align) : ∀ (last : Align) (offset length : Int) (out : List Align),
    (∀ a ∈ als, 0 ≤ a.start ∧ a.start ≤ a.stop ∧ a.stop ≤ L) → (0 ≤ last.start ∧ last.start ≤ last.stop ∧ last.stop ≤ L) →
    0 ≤ offset → 0 ≤ length → offset + length + als.length < m.half → (out.length : Int) = last.start →
    m.origAlignLoop als last offset length out = NS.origAlignLoop als last offset length out
    ∧ ∀ r, NS.origAlignLoop als last offset length out = .ok r →
        (0 ≤ r.1.start ∧ r.1.start ≤ r.1.stop ∧ r.1.stop ≤ L) ∧ 0 ≤ r.2.1 ∧ 0 ≤ r.2.2.1 ∧ r.2.1 + r.2.2.1 < m.half
          ∧ (r.2.2.2.length : Int) = r.1.start := by
  induction als with
  | nil =>
    intro last offset length out _ hb h0 h1 h2 h3
    refine ⟨rfl, ?_⟩
    intro r hr
    simp only [NS.origAlignLoop, GoM.ok.injEq] at hr
    subst hr
    simp at h2
    exact ⟨hb, h0, h1, h2, h3⟩
  | cons al rest ih =>
    intro last offset length out ha hb h0 h1 h2 h3
    have hal := ha al (by simp)
    have ha' : ∀ a ∈ rest, 0 ≤ a.start ∧ a.start ≤ a.stop ∧ a.stop ≤ L := fun a h => ha a (by simp [h])
    simp only [List.length_cons, Int.natCast_add, Int.natCast_one] at h2
    simp only [origAlignLoop, NS.origAlignLoop]
    by_cases e : last = al
    · simp only [e, if_true]
      rw [wrap_eq ⟨by omega, by omega⟩]
      exact ih al offset (length + 1) out ha' hal h0 (by omega) (by omega) (by rw [h3, e])
    · simp only [e, if_false]
      by_cases hlt : al.start < last.stop
      · simp only [hlt, if_true]
        exact ⟨trivial, fun r hr => by simp at hr⟩
      · simp only [hlt, if_false]
        rw [wrap_eq (x := last.stop - last.start) ⟨by omega, by omega⟩, wrap_eq (x := offset + length) ⟨by omega, by omega⟩,
          wrap_eq (x := al.start - last.stop) ⟨by omega, by omega⟩]
        exact ih al (offset + length) 1 _ ha' hal (by omega) (by omega) (by omega) (by simp; omega)

theorem originalAlignments_eq {ns : NS} (hwf : WF ns) (hn : m.Sized ns.normalized.length)
    (ho : m.Sized ns.original.length) : m.originalAlignments ns = ns.originalAlignments := by
  unfold Sized at hn ho
  unfold originalAlignments NS.originalAlignments
  cases hg : goIndex ns.alignments 0 with
  | panic => rfl
  | ok first =>
    have hf : first ∈ ns.alignments := List.mem_of_getElem? (goIndex_eq_ok.1 hg).2
    have hfb := hwf.bounds first hf
    obtain ⟨e, hr⟩ := origAlignLoop_eq (m := m) (L := ns.original.length) (by omega) ns.alignments first 0 0
      (List.replicate first.start.toNat ⟨0, 0⟩) hwf.bounds hfb (by omega) (by omega)
      (by rw [hwf.len]; omega) (by simp; omega)
    simp only [GoM.bind_ok]
    rw [e]
    cases hl : NS.origAlignLoop ns.alignments first 0 0 (List.replicate first.start.toNat ⟨0, 0⟩) with
    | panic => rfl
    | ok r =>
      obtain ⟨last, offset, length, out⟩ := r
      obtain ⟨r1, r2, r3, r4, r5⟩ := hr _ hl
      simp only at r1 r2 r3 r4 r5
      simp only [GoM.bind_ok]
      rw [wrap_eq (x := last.stop - last.start) ⟨by omega, by omega⟩, wrap_eq (x := offset + length) ⟨by omega, by omega⟩,
        wrap_eq ⟨by simp only [List.length_append, List.length_replicate]; omega,
          by simp only [List.length_append, List.length_replicate]; omega⟩]

theorem writes_runesOf (hm : m.WritesRunes) (s : Str) : ∀ r ∈ runesOf s, m.Writes r := by
  intro r hr
  refine hm r ?_
  rcases runesOf_valid s r hr with h | h <;> omega

theorem inInt_small {n : Nat} (h : m.Sized n) {x : Int} (h0 : -1 ≤ x) (h1 : x ≤ n + 1) : m.InInt x := by
  unfold Sized at h
  exact ⟨by omega, by omega⟩

theorem prepend_eq {ns : NS} {s : Str} (hm : m.WritesRunes) (hn : m.Sized ns.normalized.length)
    (hl : m.Sized ns.alignments.length) (hs : m.Sized s.length) : m.prepend ns s = ns.prepend s := by
  unfold prepend NS.prepend
  by_cases h0 : ns.normalized.length = 0
  · rw [if_pos h0, if_pos h0]
  · rw [if_neg h0, if_neg h0]
    cases hg : goIndex (runesOf ns.normalized) 0 with
    | panic => rfl
    | ok r =>
      have hr : r ∈ runesOf ns.normalized := List.mem_of_getElem? (goIndex_eq_ok.1 hg).2
      have h4 := runeLen_le_four r
      simp only [runeLen] at h4
      have hlen : (rangeStr s).length ≤ s.length := by
        have := runesOf_length_le s
        simpa [runesOf] using this
      unfold Sized at hn hs
      simp only [GoM.bind_ok]
      refine transformRange_eq (by unfold Sized; omega) hl ?_ ?_ ?_ ?_
      · simp [NS.prependChanges]; omega
      · intro rc hrc
        simp only [NS.prependChanges, List.mem_append, List.mem_map, List.mem_singleton] at hrc
        rcases hrc with ⟨⟨i, x⟩, hx, rfl⟩ | rfl
        · refine ⟨?_, writes_runesOf hm s x (List.mem_map.2 ⟨(i, x), hx, rfl⟩)⟩
          simp only
          by_cases hi : i > 0
          · rw [if_pos hi]; exact ⟨by omega, by omega⟩
          · rw [if_neg hi]; exact ⟨by omega, by omega⟩
        · exact ⟨⟨by simp only; omega, by simp only; omega⟩, writes_runesOf hm _ _ hr⟩
      · exact ⟨by simp only [Rng.start]; omega, by simp only [Rng.start]; omega⟩
      · exact ⟨by simp only [Rng.stop]; omega, by simp only [Rng.stop]; omega⟩

theorem append_eq {ns : NS} {s : Str} (hm : m.WritesRunes) (hn : m.Sized ns.normalized.length)
    (hl : m.Sized ns.alignments.length) (hs : m.Sized s.length) : m.append ns s = ns.append s := by
  unfold append NS.append
  by_cases h0 : ns.normalized.length = 0
  · rw [if_pos h0, if_pos h0]
  · rw [if_neg h0, if_neg h0]
    have hle := runesOf_length_le ns.normalized
    have hle' := runesOf_length_le s
    unfold Sized at hn hs
    simp only
    rw [wrap_eq ⟨by omega, by omega⟩]
    cases hg : goIndex (runesOf ns.normalized) ((runesOf ns.normalized).length - 1) with
    | panic => rfl
    | ok r =>
      have hr : r ∈ runesOf ns.normalized := List.mem_of_getElem? (goIndex_eq_ok.1 hg).2
      simp only [GoM.bind_ok]
      refine transformRange_eq (by unfold Sized; omega) hl ?_ ?_ ?_ ?_
      · simp; omega
      · intro rc hrc
        simp only [List.mem_cons, List.mem_map] at hrc
        rcases hrc with rfl | ⟨x, hx, rfl⟩
        · exact ⟨⟨by simp only; omega, by simp only; omega⟩, writes_runesOf hm _ _ hr⟩
        · exact ⟨⟨by simp only; omega, by simp only; omega⟩, writes_runesOf hm s x hx⟩
      · exact ⟨by simp only [Rng.start]; omega, by simp only [Rng.start]; omega⟩
      · exact ⟨by simp only [Rng.stop, NS.len]; omega, by simp only [Rng.stop, NS.len]; omega⟩

theorem map_eq {ns : NS} {f : Rune → Rune} (hn : m.Sized ns.normalized.length)
    (hl : m.Sized ns.alignments.length) (hf : ∀ r, m.Writes (f r)) : m.map ns f = ns.map f := by
  have hle := runesOf_length_le ns.normalized
  unfold map NS.map
  refine transform_eq hn hl ?_ ?_
  · unfold Sized at hn; simp; omega
  · intro rc hrc
    obtain ⟨x, -, rfl⟩ := List.mem_map.1 hrc
    unfold Sized at hn
    exact ⟨⟨by simp only; omega, by simp only; omega⟩, hf x⟩

/-- The counters of `Filter` on the machine are those of the model. -/
def toF (st : FilterState) : FState := ⟨st.removed, st.removedStart, st.transforms, st.lastRune⟩

theorem filterFold_eq (keep : Rune → Bool) (rs : List Rune) : ∀ st : FilterState, st.removed + rs.length < m.half →
    (∀ rc ∈ st.transforms, m.InInt rc.change) →
    rs.foldl (m.filterStep keep) (toF st) = toF (rs.foldl (Verif.filterStep keep) st)
    ∧ (∀ rc ∈ (rs.foldl (Verif.filterStep keep) st).transforms, m.InInt rc.change)
    ∧ (rs.foldl (Verif.filterStep keep) st).removed < m.half
    ∧ (rs.foldl (Verif.filterStep keep) st).transforms.length ≤ st.transforms.length + rs.length := by
  induction rs with
  | nil => intro st h1 h2; exact ⟨rfl, h2, by simpa using h1, by simp⟩
  | cons r rs ih =>
    intro st h1 h2
    simp only [List.length_cons] at h1
    simp only [List.foldl_cons]
    by_cases hk : keep r = true
    · cases hlr : st.lastRune with
      | none =>
        have e : m.filterStep keep (toF st) r = toF (Verif.filterStep keep st r) := by
          simp [filterStep, Verif.filterStep, hk, toF, hlr]
        have e2 : (Verif.filterStep keep st r).removed = 0 := by simp [Verif.filterStep, hk, hlr]
        have e3 : (Verif.filterStep keep st r).transforms = st.transforms := by simp [Verif.filterStep, hk, hlr]
        rw [e]
        obtain ⟨i1, i2, i3, i4⟩ := ih _ (by rw [e2]; omega) (by rw [e3]; exact h2)
        exact ⟨i1, i2, i3, by rw [e3] at i4; simp; omega⟩
      | some lr =>
        have hw : m.wrap (-(st.removed : Int)) = -(st.removed : Int) := wrap_eq ⟨by omega, by omega⟩
        have e : m.filterStep keep (toF st) r = toF (Verif.filterStep keep st r) := by
          simp [filterStep, Verif.filterStep, hk, toF, hlr, hw]
        have e2 : (Verif.filterStep keep st r).removed = 0 := by simp [Verif.filterStep, hk, hlr]
        have e3 : (Verif.filterStep keep st r).transforms = st.transforms ++ [⟨lr, -(st.removed : Int)⟩] := by
          simp [Verif.filterStep, hk, hlr]
        rw [e]
        obtain ⟨i1, i2, i3, i4⟩ := ih _ (by rw [e2]; omega) (by
          rw [e3]
          intro rc hrc
          rcases List.mem_append.1 hrc with h | h
          · exact h2 rc h
          · simp at h; subst h; exact ⟨by simp only; omega, by simp only; omega⟩)
        exact ⟨i1, i2, i3, by rw [e3] at i4; simp at i4 ⊢; omega⟩
    · have e : m.filterStep keep (toF st) r = toF (Verif.filterStep keep st r) := by
        simp only [filterStep, Verif.filterStep, hk, toF, Bool.not_false]
        simp only [Bool.not_eq_true] at hk
        simp only [if_true]
        rw [wrap_eq ⟨by omega, by omega⟩]
        simp
      have e2 : (Verif.filterStep keep st r).removed = st.removed + 1 := by
        simp [Verif.filterStep, Bool.not_eq_true _ ▸ hk]
      have e3 : (Verif.filterStep keep st r).transforms = st.transforms := by
        simp [Verif.filterStep, Bool.not_eq_true _ ▸ hk]
      rw [e]
      obtain ⟨i1, i2, i3, i4⟩ := ih _ (by rw [e2]; omega) (by rw [e3]; exact h2)
      exact ⟨i1, i2, i3, by rw [e3] at i4; simp; omega⟩

theorem filterFold_runes (keep : Rune → Bool) (P : Rune → Prop) (rs : List Rune) : (∀ r ∈ rs, P r) →
    ∀ st : FilterState, (∀ rc ∈ st.transforms, P rc.rune) → (∀ lr, st.lastRune = some lr → P lr) →
    (∀ rc ∈ (rs.foldl (Verif.filterStep keep) st).transforms, P rc.rune)
    ∧ ∀ lr, (rs.foldl (Verif.filterStep keep) st).lastRune = some lr → P lr := by
  induction rs with
  | nil => intro _ st h1 h2; exact ⟨h1, h2⟩
  | cons r rs ih =>
    intro hP st h1 h2
    have hP' : ∀ x ∈ rs, P x := fun x hx => hP x (by simp [hx])
    have hr : P r := hP r (by simp)
    simp only [List.foldl_cons]
    by_cases hk : keep r = true
    · cases hlr : st.lastRune with
      | none =>
        have e : Verif.filterStep keep st r = ⟨0, st.removed, st.transforms, some r⟩ := by
          simp [Verif.filterStep, hk, hlr]
        rw [e]
        exact ih hP' _ h1 (fun lr h => by simp at h; exact h ▸ hr)
      | some lr =>
        have e : Verif.filterStep keep st r
            = ⟨0, st.removedStart, st.transforms ++ [⟨lr, -(st.removed : Int)⟩], some r⟩ := by
          simp [Verif.filterStep, hk, hlr]
        rw [e]
        refine ih hP' _ ?_ (fun lr h => by simp at h; exact h ▸ hr)
        intro rc hrc
        rcases List.mem_append.1 hrc with h | h
        · exact h1 rc h
        · simp at h; subst h; exact h2 lr hlr
    · simp only [Bool.not_eq_true] at hk
      have e : Verif.filterStep keep st r = { st with removed := st.removed + 1 } := by
        simp [Verif.filterStep, hk]
      rw [e]
      exact ih hP' _ h1 h2

theorem filter_eq {ns : NS} {keep : Rune → Bool} (hm : m.WritesRunes) (hn : m.Sized ns.normalized.length)
    (hl : m.Sized ns.alignments.length) : m.filter ns keep = ns.filter keep := by
  have hle := runesOf_length_le ns.normalized
  have hn' := hn
  unfold Sized at hn'
  obtain ⟨h1, h2, h3, h4⟩ := filterFold_eq (m := m) keep (runesOf ns.normalized) ⟨0, 0, [], none⟩
    (by simp only; omega) (by simp)
  obtain ⟨h5, h6⟩ := filterFold_runes keep m.Writes (runesOf ns.normalized) (writes_runesOf hm _) ⟨0, 0, [], none⟩
    (by simp) (by simp)
  have e : toF ⟨0, 0, [], none⟩ = ⟨0, 0, [], none⟩ := rfl
  rw [e] at h1
  unfold filter NS.filter NS.filterChanges
  rw [h1]
  generalize (runesOf ns.normalized).foldl (Verif.filterStep keep) ⟨0, 0, [], none⟩ = st at h2 h3 h4 h5 h6
  simp only [toF]
  simp only [List.length_nil, Nat.zero_add] at h4
  cases hlr : st.lastRune with
  | none => exact transform_eq hn hl (by omega) (fun rc hrc => ⟨h2 rc hrc, h5 rc hrc⟩)
  | some lr =>
    simp only
    rw [wrap_eq ⟨by omega, by omega⟩]
    refine transform_eq hn hl (by simp; omega) ?_
    intro rc hrc
    rcases List.mem_append.1 hrc with h | h
    · exact ⟨h2 rc h, h5 rc h⟩
    · simp at h; subst h; exact ⟨⟨by simp only; omega, by simp only; omega⟩, h6 lr hlr⟩

theorem countTrailingLoop_eq (runes : List Rune) (last : Int) (h1 : last < m.half) (n : Nat) :
    (n : Int) ≤ last + 1 → m.countTrailingLoop runes last n = Verif.countTrailingLoop runes last n := by
  induction n with
  | zero => intro _; rfl
  | succ i ih =>
    intro h
    simp only [countTrailingLoop, Verif.countTrailingLoop]
    rw [ih (by omega), wrap_eq ⟨by omega, by omega⟩]

theorem trimLoop_eq (runes : List Rune) (last trailing : Int) (ht : m.InInt (-trailing)) (n : Nat) :
    ∀ (i : Int) (out : List RuneChange), 0 ≤ i → i + n < m.half →
    m.trimLoop runes last trailing n i out = Verif.trimLoop runes last trailing n i out := by
  induction n with
  | zero => intros; rfl
  | succ n ih =>
    intro i out h0 h1
    simp only [trimLoop, Verif.trimLoop]
    rw [wrap_eq ht, wrap_eq ⟨by omega, by omega⟩]
    cases goIndex runes i with
    | panic => rfl
    | ok r => exact ih (i + 1) _ (by omega) (by omega)

theorem countTrailingSpaces_eq (runes : List Rune) (h : runes.length < m.half) :
    m.countTrailingSpaces runes = .ok (Verif.countTrailingSpaces runes : Int) := by
  rw [← countTrailingSpacesL_eq]
  unfold countTrailingSpaces countTrailingSpacesL
  by_cases h0 : runes.length = 0
  · simp only [if_pos h0]
  · simp only [if_neg h0]
    rw [wrap_eq ⟨by omega, by omega⟩, countTrailingLoop_eq _ _ (by omega) _ (by omega)]

theorem trimLeftRight_eq {ns : NS} {left right : Bool} (hm : m.WritesRunes) (hn : m.Sized ns.normalized.length)
    (hal : m.Sized ns.alignments.length) : m.trimLeftRight ns left right = ns.trimLeftRight left right := by
  rw [← trimLeftRightL_eq]
  have hw := writes_runesOf hm ns.normalized
  have hle := runesOf_length_le ns.normalized
  have hn' := hn
  unfold Sized at hn'
  unfold trimLeftRight NS.trimLeftRightL
  generalize runesOf ns.normalized = runes at hw hle
  have hc := countLeadingLoop_eq runes runes 0 (by simp)
  rw [Nat.zero_add] at hc
  simp only [hc]
  generalize hL : (if left = true then Verif.countLeadingSpaces runes else 0) = L
  have hLi : (if left = true then (Verif.countLeadingSpaces runes : Int) else 0) = (L : Int) := by
    rw [← hL]; split <;> simp
  have hL2 : L = 0 ∨ L = Verif.countLeadingSpaces runes := by
    rw [← hL]; split
    · right; rfl
    · left; rfl
  rw [hLi, countTrailingSpacesL_eq, countTrailingSpaces_eq _ (by omega)]
  generalize hT : (if right = true ∧ L < runes.length then Verif.countTrailingSpaces runes else 0) = T
  have hTi : (if right = true ∧ (L : Int) < (runes.length : Int) then GoM.ok (Verif.countTrailingSpaces runes : Int)
      else pure 0) = .ok (T : Int) := by
    rw [← hT]
    by_cases h : right = true ∧ L < runes.length
    · rw [if_pos h, if_pos ⟨h.1, by omega⟩]
    · rw [if_neg h, if_neg (by intro h'; exact h ⟨h'.1, by omega⟩)]; rfl
  have hT2 : L + T ≤ runes.length := by
    have h1 := countLeadingSpaces_le runes
    have h2 : Verif.countTrailingSpaces runes ≤ runes.length := by
      have := countLeadingSpaces_le runes.reverse
      simpa [Verif.countTrailingSpaces] using this
    rw [← hT]
    split
    · rename_i h
      rcases hL2 with h0 | h0
      · omega
      · have := lead_trail_le runes (by omega); omega
    · omega
  rw [hTi, GoM.bind_ok, GoM.bind_ok]
  by_cases h0 : (L : Int) = 0 ∧ (T : Int) = 0
  · rw [if_pos h0, if_pos h0]
  · rw [if_neg h0, if_neg h0]
    rw [wrap_eq (x := (runes.length : Int) - T) ⟨by omega, by omega⟩,
      wrap_eq (x := (runes.length : Int) - T - 1) ⟨by omega, by omega⟩,
      wrap_eq (x := (runes.length : Int) - T - 1 - L) ⟨by omega, by omega⟩,
      wrap_eq (x := (runes.length : Int) - T - 1 - L + 1) ⟨by omega, by omega⟩]
    have hmk : make ((runes.length : Int) - T - 1 - L + 1) = .ok () := by unfold make; rw [if_neg (by omega)]
    rw [hmk, GoM.bind_ok, if_neg (by omega), trimLoop_eq _ _ _ ⟨by omega, by omega⟩ _ _ _ (by omega) (by omega)]
    have hnn : ((runes.length : Int) - T - 1 - L + 1).toNat = runes.length - T - L := by omega
    have hll : (runes.length : Int) - T - 1 = ((L + (runes.length - T - L) : Nat) : Int) - 1 := by omega
    rw [hnn, hll, Verif.trimLoop_eq runes T _ L [] (by omega), GoM.bind_ok, GoM.bind_ok]
    refine transform_eq hn hal (by simp; omega) ?_
    intro rc hrc
    simp only [List.nil_append, List.mem_mapIdx] at hrc
    obtain ⟨i, hi, rfl⟩ := hrc
    refine ⟨?_, hw _ (List.mem_of_mem_drop (List.mem_of_mem_take (List.getElem_mem hi)))⟩
    simp only
    by_cases hc : i + 1 = runes.length - T - L
    · rw [if_pos hc]; exact ⟨by omega, by omega⟩
    · rw [if_neg hc]; exact ⟨by omega, by omega⟩

theorem slice_eq {root : Str} {ns : NS} {r : Rng} (hwf : WF ns) (hp : PartOf root ns) (hr : m.Sized root.length)
    (hn : m.Sized ns.normalized.length) (hs : m.InInt r.start) (he : m.InInt r.stop) :
    m.slice ns r = ns.slice r := by
  obtain ⟨pre, post, e1, e2⟩ := hp
  have hlr : root.length = pre.length + ns.original.length + post.length := by rw [e1]; simp; omega
  have hlen := hwf.len
  unfold Sized at hr hn
  have hal : ns.alignments.length < m.half := by omega
  unfold slice NS.slice
  cases hv : ns.rangeIsValid r with
  | false => simp
  | true =>
    simp only [Bool.not_true, Bool.false_eq_true, if_false]
    rw [coerceRangeToNormalized_eq hs he hal, coerceRangeToOriginal_eq hs he hal, getOriginalRange_eq hs he hal,
      getRange_eq hs he hal]
    cases hcn : ns.coerceRangeToNormalized r with
    | none => rfl
    | some p =>
      obtain ⟨na, nb⟩ := p
      simp only
      cases hco : ns.coerceRangeToOriginal r with
      | panic => rfl
      | ok q =>
        cases q with
        | none => rfl
        | some q =>
          obtain ⟨oa, ob⟩ := q
          simp only [GoM.bind_ok]
          cases hgo : ns.getOriginalRange r with
          | panic => rfl
          | ok o =>
            simp only [GoM.bind_ok]
            cases hgn : ns.getRange r with
            | panic => rfl
            | ok t =>
              simp only [GoM.bind_ok]
              have hsl : 0 ≤ na ∧ na ≤ nb ∧ nb ≤ (ns.normalized.length : Int) := by
                unfold NS.getRange at hgn
                rw [hcn] at hgn
                simp only [GoM.bind_eq_ok] at hgn
                obtain ⟨x, hx, -⟩ := hgn
                exact (goSlice_eq_ok.1 hx).1
              have hso : 0 ≤ oa ∧ oa ≤ ob ∧ ob ≤ (ns.original.length : Int) := by
                unfold NS.getOriginalRange at hgo
                rw [hco, GoM.bind_ok] at hgo
                simp only [GoM.bind_eq_ok] at hgo
                obtain ⟨x, hx, -⟩ := hgo
                exact (goSlice_eq_ok.1 hx).1
              have w : m.rngLen na nb = nb - na := wrap_eq ⟨by omega, by omega⟩
              have hmk : make (nb - na) = .ok () := by unfold make; rw [if_neg (by omega)]
              rw [w, hmk, GoM.bind_ok, wrap_eq (x := ns.originalShift + oa) ⟨by omega, by omega⟩]
              cases hga : goSlice ns.alignments na nb with
              | panic => rfl
              | ok als =>
                simp only [GoM.bind_ok]
                have : (als.map fun al => (⟨m.wrap (al.start - oa), m.wrap (al.stop - oa)⟩ : Align))
                    = als.map fun al => ⟨al.start - oa, al.stop - oa⟩ := by
                  refine List.map_congr_left ?_
                  intro al hal
                  have hb := hwf.bounds al (by
                    rw [(goSlice_eq_ok.1 hga).2] at hal
                    exact List.mem_of_mem_drop (List.mem_of_mem_take hal))
                  rw [wrap_eq (x := al.start - oa) ⟨by omega, by omega⟩, wrap_eq ⟨by omega, by omega⟩]
                rw [this]

theorem encodeRunes_le_four (rs : List Rune) : (encodeRunes rs).length ≤ 4 * rs.length := by
  induction rs with
  | nil => simp
  | cons r rs ih =>
    have := runeLen_le_four r
    simp only [runeLen] at this
    simp; omega

theorem transformNormalized_sizes {ns ns' : NS} {a b io : Int} {dest : List RuneChange}
    (h : ns.transformNormalized a b dest io = .ok ns') :
    ns'.normalized.length ≤ ns.normalized.length + 4 * dest.length
      ∧ ns'.alignments.length ≤ ns.alignments.length + 4 * dest.length := by
  obtain ⟨nPre, nInit, nTail, nPost, aPre, aPost, ks, h1, h2, -, h3, h4, h5, h6, h7, -, -, -, rfl⟩ :=
    transformNormalized_ok h
  have he := encodeRunes_le_four (dest.map fun rc => sanitize rc.rune)
  simp only [List.length_map] at he
  refine ⟨?_, ?_⟩
  · rw [h1]; simp; omega
  · simp only [List.length_append, aligns_length_enc, h4, h5, List.length_take, List.length_drop]
    rw [List.map_fst_zip (by simp [h7])]
    simp only [List.length_append] at h3
    omega

theorem replaceLoop_eq {content : Str} {N : Int} {T : Nat} (hm : m.WritesRunes) (hT : m.Sized T) (hN : N ≤ T)
    (hcs : m.Sized content.length) (caps : List Capture) : ∀ (ns : NS) (offset i : Int), 0 ≤ i → Tiles caps i N →
    -i ≤ offset → offset + ((caps.length * content.length : Nat) : Int) ≤ T →
    ns.normalized.length + 4 * (caps.length * content.length) ≤ T →
    ns.alignments.length + 4 * (caps.length * content.length) ≤ T →
    goFor caps (ns, offset) (m.replaceStep content) = goFor caps (ns, offset) (NS.replaceStep content) := by
  unfold Sized at hT
  induction caps with
  | nil => intros; rfl
  | cons c cs ih =>
    intro ns offset i h0 ht ho1 ho2 hn ha
    have hmul : (c :: cs).length * content.length = cs.length * content.length + content.length := by
      simp [Nat.add_mul]
    rw [hmul] at ho2 hn ha
    obtain ⟨t1, t2, t3⟩ := ht
    have t4 := t3.le
    rw [goFor_cons, goFor_cons]
    cases hmt : c.isMatch with
    | false =>
      simp only [replaceStep, NS.replaceStep, hmt, Bool.not_false, if_true, GoM.bind_ok]
      exact ih ns offset c.offsets.stop (by omega) t3 (by omega) (by omega) (by omega) (by omega)
    | true =>
      have w1 : m.wrap (c.offsets.start + offset) = c.offsets.start + offset := wrap_eq ⟨by omega, by omega⟩
      have w2 : m.wrap (c.offsets.stop + offset) = c.offsets.stop + offset := wrap_eq ⟨by omega, by omega⟩
      have w3 : m.wrap (c.offsets.stop - c.offsets.start) = c.offsets.stop - c.offsets.start :=
        wrap_eq ⟨by omega, by omega⟩
      have w4 : m.wrap ((content.length : Int) - (c.offsets.stop - c.offsets.start))
          = (content.length : Int) - (c.offsets.stop - c.offsets.start) := wrap_eq ⟨by omega, by omega⟩
      have w5 : m.wrap (offset + ((content.length : Int) - (c.offsets.stop - c.offsets.start)))
          = offset + ((content.length : Int) - (c.offsets.stop - c.offsets.start)) := wrap_eq ⟨by omega, by omega⟩
      simp only [replaceStep, NS.replaceStep, hmt, Bool.not_true, Bool.false_eq_true, if_false, w1, w2, w3, w4, w5]
      generalize ha' : (if c.offsets.start + offset < 0 then 0 else c.offsets.start + offset) = a
      generalize hb' : (if c.offsets.stop + offset < 0 then 0 else c.offsets.stop + offset) = b
      cases hg : goSlice ns.normalized a b with
      | panic => rfl
      | ok seg =>
        obtain ⟨⟨g1, g2, g3⟩, -⟩ := goSlice_eq_ok.1 hg
        have hrl := runesOf_length_le content
        have hte : ∀ io : Int, m.transformRange ns (.normalized a b) ((runesOf content).map fun r => ⟨r, 1⟩) io
            = ns.transformRange (.normalized a b) ((runesOf content).map fun r => ⟨r, 1⟩) io := by
          intro io
          unfold Sized at hcs
          refine transformRange_eq (by unfold Sized; omega) (by unfold Sized; omega) (by simp; omega) ?_
            ⟨by simp only [Rng.start]; omega, by simp only [Rng.start]; omega⟩
            ⟨by simp only [Rng.stop]; omega, by simp only [Rng.stop]; omega⟩
          intro rc hrc
          obtain ⟨x, hx, rfl⟩ := List.mem_map.1 hrc
          exact ⟨⟨by simp only; omega, by simp only; omega⟩, writes_runesOf hm content x hx⟩
        simp only [GoM.bind_ok, hte]
        cases htr : ns.transformRange (.normalized a b) ((runesOf content).map fun r => ⟨r, 1⟩)
            ((runesOf seg).length : Int) with
        | panic => rfl
        | ok ns' =>
          have hsz := transformNormalized_sizes (show ns.transformNormalized a b _ _ = .ok ns' from htr)
          simp only [List.length_map] at hsz
          simp only [GoM.bind_ok, GoM.pure_eq]
          exact ih ns' _ c.offsets.stop (by omega) t3 (by omega) (by omega) (by omega) (by omega)

theorem replace_eq {ns : NS} {pattern : SplitPattern} {content : Str} (hm : m.WritesRunes)
    (hlen : ns.alignments.length = ns.normalized.length) (hf : m.OpFits ns (.replace pattern content)) :
    m.replace ns pattern content = ns.replace pattern content := by
  obtain ⟨hc, hf⟩ := hf
  unfold replace NS.replace
  cases hp : pattern ns.normalized with
  | panic => rfl
  | ok r =>
    cases r with
    | error e => rfl
    | ok caps =>
      obtain ⟨ht, hT⟩ := hf caps hp
      simp only [GoM.bind_ok]
      rw [replaceLoop_eq hm hT (by omega) hc caps ns 0 0 (by omega) ht (by omega)
        (by omega) (by omega) (by omega)]

theorem rangeAux_lt (s : Str) : ∀ (i k : Nat), ∀ p ∈ rangeAux s i k, p.1 < i + s.length := by
  induction s with
  | nil => intro i k p hp; simp [rangeAux] at hp
  | cons b bs ih =>
    intro i k p hp
    cases k with
    | zero =>
      simp only [rangeAux, List.mem_cons] at hp
      rcases hp with rfl | hp
      · simp
      · have := ih _ _ p hp; simp; omega
    | succ k =>
      simp only [rangeAux] at hp
      have := ih _ _ p hp; simp; omega

theorem fromString_eq {s : Str} (hs : m.Sized s.length) : m.fromString s = NS.fromString s := by
  unfold Sized at hs
  unfold fromString NS.fromString
  congr 1
  unfold alignmentsFromString Verif.alignmentsFromString rangeStr
  have h := rangeAux_lt s 0 0
  generalize rangeAux s 0 0 = l at h
  induction l with
  | nil => rfl
  | cons p ps ih =>
    obtain ⟨i, r⟩ := p
    have h4 := runeLen_le_four r
    simp only [runeLen] at h4
    have hi := h (i, r) (by simp)
    simp only [Nat.zero_add] at hi
    simp only [List.flatMap_cons]
    rw [ih (fun p hp => h p (by simp [hp])), wrap_eq ⟨by omega, by omega⟩]
    simp

theorem run_eq {root : Str} {ns : NS} {op : Op} (hm : m.WritesRunes) (hwf : WF ns) (hp : PartOf root ns)
    (hr : m.Sized root.length) (hn : m.Sized ns.normalized.length) (hf : m.OpFits ns op) : m.run ns op = op.run ns := by
  have hl : m.Sized ns.alignments.length := by rw [hwf.len]; exact hn
  cases op with
  | transform dest io =>
    refine transform_eq hn hl ?_ hf.2.2
    have := hf.2.1
    unfold Sized at this; omega
  | filter keep => exact filter_eq hm hn hl
  | map f => exact map_eq hn hl hf
  | trim l r => exact trimLeftRight_eq hm hn hl
  | prepend s => exact prepend_eq hm hn hl hf
  | append s => exact append_eq hm hn hl hf
  | replace p content =>
    simp only [run, Op.run]
    rw [replace_eq hm hwf.len hf]
    cases ns.replace p content with
    | panic => rfl
    | ok r => cases r <;> rfl
  | slice r =>
    simp only [run, Op.run]
    rw [slice_eq hwf hp hr hn hf.1 hf.2]
    cases ns.slice r with
    | panic => rfl
    | ok r => cases r <;> rfl

theorem runOps_eq {root : Str} (hm : m.WritesRunes) (hr : m.Sized root.length) (ops : List Op) : ∀ {ns : NS},
    WF ns → PartOf root ns → m.HistoryFits ns ops → m.runOps ns ops = Verif.runOps ns ops := by
  induction ops with
  | nil => intros; rfl
  | cons op ops ih =>
    intro ns hwf hp hf
    obtain ⟨h1, h2, h3⟩ := hf
    unfold runOps Verif.runOps
    rw [goFor_cons, goFor_cons, run_eq hm hwf hp hr h1 h2]
    cases hop : op.run ns with
    | panic => rfl
    | ok ns' => exact ih (Op.run_wf hwf hop) (Op.run_partOf hp hop) (h3 ns' hop)

end Machine

open Machine

/-- All three machines write the runes that are not negative as the model does. -/
theorem writesRunes_go : go64.WritesRunes ∧ go32.WritesRunes ∧ go64Old.WritesRunes := by
  refine ⟨fun _ _ => rfl, fun _ _ => rfl, ?_⟩
  intro r h0
  show writeRuneOld r = encodeRune r
  unfold writeRuneOld
  by_cases h : r < 0x80
  · rw [if_pos h]
    obtain ⟨n, rfl⟩ := Int.eq_ofNat_of_zero_le h0
    have hn : n < 128 := by omega
    clear h h0
    revert n
    decide +kernel
  · rw [if_neg h]

/-- **C75.** For every history of calls from `FromString` of a valid text, with arguments of type `int`
however large, on a machine whose `int` is eight times as large as the texts: computing with wrapping
integers gives what the model gives, panics included. -/
theorem C75_history {m : Machine} (hm : m.WritesRunes) {s : Str} (hs : ValidUtf8 s) (hz : m.Sized s.length)
    {ops : List Op} (hf : m.HistoryFits (NS.fromString s) ops) :
    m.runOps (m.fromString s) ops = runOps (NS.fromString s) ops := by
  rw [fromString_eq hz]
  exact runOps_eq hm hz ops (fromString_wf hs) (partOf_fromString s) hf

/-- **C75, queries.** In every state of such a history the conversions, for any range of type `int`, and the
alignments of the original are what the model says. -/
theorem C75_queries {m : Machine} {root : Str} {ns : NS} (hwf : WF ns) (hp : PartOf root ns) (hz : m.Sized root.length)
    (hn : m.Sized ns.normalized.length) {r : Rng} (h1 : m.InInt r.start) (h2 : m.InInt r.stop) :
    m.coerceRangeToNormalized ns r = ns.coerceRangeToNormalized r
    ∧ m.coerceRangeToOriginal ns r = ns.coerceRangeToOriginal r
    ∧ m.getRange ns r = ns.getRange r ∧ m.getOriginalRange ns r = ns.getOriginalRange r
    ∧ m.slice ns r = ns.slice r
    ∧ m.originalAlignments ns = ns.originalAlignments ∧ m.originalOffsets ns = ns.originalOffsets := by
  have hal : ns.alignments.length < m.half := by rw [hwf.len]; unfold Sized at hn; omega
  have ho : m.Sized ns.original.length := by
    obtain ⟨pre, post, e1, -⟩ := hp
    have := congrArg List.length e1
    simp only [List.length_append] at this
    unfold Sized at hz ⊢; omega
  exact ⟨coerceRangeToNormalized_eq h1 h2 hal, coerceRangeToOriginal_eq h1 h2 hal, getRange_eq h1 h2 hal,
    getOriginalRange_eq h1 h2 hal, slice_eq hwf hp hz hn h1 h2, originalAlignments_eq hwf hn ho, originalOffsets_eq hp hz⟩

/-- **C75, any range and any changes.** `TransformRange` by itself: every range and every `Change` of type `int`. -/
theorem C75_transformRange {m : Machine} {ns : NS} {r : Rng} {io : Int} {dest : List RuneChange}
    (hn : m.Sized ns.normalized.length) (hl : m.Sized ns.alignments.length) (hd : m.Sized dest.length)
    (hdest : ∀ rc ∈ dest, m.InInt rc.change ∧ m.Writes rc.rune) (hs : m.InInt r.start) (he : m.InInt r.stop) :
    m.transformRange ns r dest io = ns.transformRange r dest io :=
  transformRange_eq hn hl (by unfold Sized at hd; omega) hdest hs he

/-- Before Go 1.17, mapping a rune to a negative one (as `strings.Map` uses to drop it) leaves one byte of
invalid UTF-8 with three alignments: the property that there is one alignment per byte is lost. -/
theorem C75_negative_rune :
    go64Old.map (NS.fromString b!"ab") (fun _ => -1)
      = .ok ⟨b!"ab", [0xFF, 0xFF], [⟨0, 1⟩, ⟨0, 1⟩, ⟨0, 1⟩, ⟨1, 2⟩, ⟨1, 2⟩, ⟨1, 2⟩], 0⟩ := by decide +kernel

/-- The tiling of captures is needed: a pattern that reports a match at the largest `int` makes the sum wrap and
the replacement go to the start of the text, where unbounded integers would be out of range. -/
theorem C75_wraps :
    let p : SplitPattern := fun _ => .ok (.ok [⟨⟨0, 0⟩, true⟩, ⟨⟨2 ^ 63 - 1, 2 ^ 63 - 1⟩, true⟩])
    go64.replace (NS.fromString b!"a") p b!"x" = .ok (.ok ⟨b!"a", b!"xxa", [⟨0, 0⟩, ⟨0, 0⟩, ⟨0, 1⟩], 0⟩)
    ∧ (NS.fromString b!"a").replace p b!"x" = .panic := by decide +kernel

/-- Non-vacuity: a history with the extreme integers fits on a machine of 64 bits. -/
example : go64.HistoryFits (NS.fromString b!" é")
    [.trim true true, .slice (.original (-2 ^ 63) (2 ^ 63 - 1)), .prepend b!"x"] := by
  refine ⟨by unfold Sized; decide, trivial, fun ns1 h1 => ?_⟩
  have e1 : Op.run (NS.fromString b!" é") (.trim true true) = .ok ⟨b!" é", b!"é", [⟨1, 3⟩, ⟨1, 3⟩], 0⟩ := by
    decide +kernel
  rw [e1] at h1
  simp only [GoM.ok.injEq] at h1
  subst h1
  refine ⟨by unfold Sized; decide, ⟨by unfold InInt; decide, by unfold InInt; decide⟩, fun ns2 h2 => ?_⟩
  have e2 : Op.run ⟨b!" é", b!"é", [⟨1, 3⟩, ⟨1, 3⟩], 0⟩ (.slice (.original (-2 ^ 63) (2 ^ 63 - 1)))
      = .ok ⟨b!" é", b!"é", [⟨1, 3⟩, ⟨1, 3⟩], 0⟩ := by decide +kernel
  rw [e2] at h2
  simp only [GoM.ok.injEq] at h2
  subst h2
  exact ⟨by unfold Sized; decide, by show Sized _ _; unfold Sized; decide, fun _ _ => trivial⟩

end Verif
