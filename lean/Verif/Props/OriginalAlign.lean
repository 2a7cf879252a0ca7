import Verif.Props.Convert
import Verif.Props.AnyPipeline

/-! C114: `OriginalAlignments` says as much as the alignments, and both conversions of ranges can be read off it. -/

set_option autoImplicit false

namespace Verif

/-! ## Bytes that stand for nothing -/

/-- Only at the very front of the original is there an alignment with nothing in it. -/
def FrontOnly (ns : NS) : Prop := ∀ al ∈ ns.alignments, al.start = al.stop → al = ⟨0, 0⟩

theorem FrontOnly.sourced {ns ns' : NS} (h : FrontOnly ns) (hs : Sourced false ns ns') : FrontOnly ns' := by
  intro al hal he
  rcases hs.2.2 al hal with h1 | ⟨-, h1⟩
  · exact h al h1 he
  · exact h1

theorem FrontOnly.slice {ns ns' : NS} (h : FrontOnly ns) (hwf : WF ns) {r : Rng} (hs : ns.slice r = .ok (some ns')) : FrontOnly ns' := by
  obtain ⟨-, na, nb, oa, ob, als, h1, h2, h3, -, h5, h6, -⟩ := slice_ok hs
  have hin := slice_aligns_inside hwf h1 h2 h3 h5
  have hoa := (goSlice_eq_ok.1 h3).1.1
  intro al hal he
  rw [h6] at hal
  obtain ⟨x, hx, rfl⟩ := List.mem_map.1 hal
  simp only at he
  have hm : x ∈ ns.alignments := by
    rw [(goSlice_eq_ok.1 h5).2] at hx
    exact List.mem_of_mem_drop (List.mem_of_mem_take hx)
  have h0 := h x hm (by omega)
  subst h0
  have := (hin _ hx).1
  simp only at this
  have : oa = 0 := by omega
  subst this
  rfl

/-- **C114, bytes that stand for nothing.** On every reachable state an alignment with nothing in it is the one at the front. -/
theorem C114_front {ns : NS} (hr : Reachable ns) : FrontOnly ns := by
  obtain ⟨s, hs, hr⟩ := hr
  have key : ∀ n m, RangeHistory n m → n = NS.fromString s → FrontOnly m := by
    intro n m hh
    induction hh with
    | none =>
      rintro rfl
      intro al hal he
      rw [(fromString_repr hs).aligns_eq] at hal
      obtain ⟨c, hc, rfl⟩ := mem_aligns.1 hal
      have := selfChars_bounds _ _ c hc
      omega
    | @call m0 m1 op h0 hrun ih =>
      intro e
      have hwf := (C02_ranges hs (e ▸ h0)).1
      have ih := ih e
      cases op with
      | slice r =>
        simp only [Op.run, GoM.bind_eq_ok] at hrun
        obtain ⟨o, ho, hrun⟩ := hrun
        cases o with
        | none => simp at hrun; subst hrun; exact ih
        | some n => simp at hrun; subst hrun; exact ih.slice hwf ho
      | _ => exact ih.sourced (Op.run_sourced (calm := false) (by simp) (by simp) hrun)
    | range _ _ hrun ih => intro e; exact (ih e).sourced (transformRange_sourced (by simp) hrun)
  exact key _ _ hr rfl

/-! ## Counting in sorted lists -/

theorem countP_sorted (f : Align → Int) (o : Int) : ∀ (l : List Align), l.Pairwise (fun a b => f a ≤ f b) → ∀ (i : Nat) (x : Align),
    l[i]? = some x → (i < l.countP (fun a => decide (f a ≤ o)) ↔ f x ≤ o) := by
  intro l
  induction l with
  | nil => simp
  | cons y l ih =>
    intro hp i x hi
    obtain ⟨h1, h2⟩ := List.pairwise_cons.1 hp
    by_cases hy : f y ≤ o
    · rw [List.countP_cons_of_pos (by simpa using hy)]
      cases i with
      | zero => simp at hi; subst hi; simp [hy]
      | succ i =>
        have := ih h2 i x (by simpa using hi)
        omega
    · have h0 : (y :: l).countP (fun a => decide (f a ≤ o)) = 0 := by
        apply countP_none
        intro z hz
        rcases List.mem_cons.1 hz with rfl | hz
        · simpa using hy
        · have := h1 z hz; simp; omega
      rw [h0]
      have hx : x ∈ y :: l := List.mem_of_getElem? hi
      have : o < f x := by
        rcases List.mem_cons.1 hx with rfl | hx
        · omega
        · have := h1 x hx; omega
      omega

theorem WF.starts {ns : NS} (h : WF ns) : ns.alignments.Pairwise (fun a b => a.start ≤ b.start) :=
  h.ordered.imp_of_mem fun ha _ hab => hab.start_le (h.bounds _ ha).2.1

theorem WF.stops {ns : NS} (h : WF ns) : ns.alignments.Pairwise (fun a b => a.stop ≤ b.stop) :=
  h.ordered.imp_of_mem fun _ hb hab => hab.stop_le (h.bounds _ hb).2.1

theorem countP_range_lt (n k : Nat) : (List.range n).countP (fun o => decide (o < k)) = min k n := by
  induction n with
  | zero => simp
  | succ n ih =>
    rw [List.range_succ, List.countP_append, ih, List.countP_singleton]
    split <;> rename_i h <;> simp at h <;> omega

/-- Counting the counts gives the list back. -/
theorem count_counts (f : Align → Int) {l : List Align} (hp : l.Pairwise (fun a b => f a ≤ f b)) {n i : Nat} {x : Align}
    (hi : l[i]? = some x) (h0 : 0 ≤ f x) (hn : f x ≤ (n : Int)) :
    (((List.range n).countP fun (o : Nat) => decide ((l.countP fun a => decide (f a ≤ (o : Int))) ≤ i) : Nat) : Int) = f x := by
  have : (fun o : Nat => decide ((l.countP fun a => decide (f a ≤ (o : Int))) ≤ i)) = fun o => decide (o < (f x).toNat) := by
    funext o
    have := countP_sorted f o l hp i x hi
    rw [decide_eq_decide]
    omega
  rw [this, countP_range_lt]
  omega

/-! ## The alignments, from `OriginalAlignments` -/

/-- **C114, there and back.** On every reachable state with a text the alignments can be computed from `OriginalAlignments`, by the
rule that computes those from them: byte `i` stands for what is between the number of entries that end by `i` and the number of
entries that begin by `i`. -/
theorem C114_alignments {ns : NS} (hr : Reachable ns) {A : List Align} (hA : ns.originalAlignments = .ok A) :
    ns.alignments = (List.range ns.normalized.length).map fun i =>
      ⟨((A.countP fun e => decide (e.stop ≤ (i : Int)) : Nat) : Int), ((A.countP fun e => decide (e.start ≤ (i : Int)) : Nat) : Int)⟩ := by
  have hwf := hr.wf
  have hne : ns.normalized ≠ [] := by
    intro e
    have : ns.alignments = [] := List.length_eq_zero_iff.1 (by rw [hwf.len, e]; rfl)
    rw [C17_empty_panics this] at hA
    cases hA
  rw [C17_originalAlignments hr hne] at hA
  simp only [GoM.ok.injEq] at hA
  subst hA
  apply List.ext_getElem?
  intro i
  rcases Nat.lt_or_ge i ns.alignments.length with hi | hi
  · have hb := hwf.bounds _ (List.getElem_mem hi)
    have e1 := count_counts (·.start) hwf.starts (n := ns.original.length) (List.getElem?_eq_getElem hi) (by omega) (by omega)
    have e2 := count_counts (·.stop) hwf.stops (n := ns.original.length) (List.getElem?_eq_getElem hi) (by omega) (by omega)
    rw [List.getElem?_eq_getElem hi, List.getElem?_map, List.getElem?_range (by rw [← hwf.len]; exact hi), Option.map_some]
    simp only [List.countP_map, Function.comp_def, origEntry, Int.ofNat_le]
    rw [e1, e2]
  · rw [List.getElem?_eq_none hi, List.getElem?_eq_none (by rw [List.length_map, List.length_range, ← hwf.len]; exact hi)]

/-- The last entry ends with the text. -/
theorem C114_last {ns : NS} (hr : Reachable ns) {A : List Align} (hA : ns.originalAlignments = .ok A) :
    A.length = ns.original.length ∧ ∀ e ∈ A.getLast?, e.stop = ns.len := by
  have hwf := hr.wf
  have hne : ns.normalized ≠ [] := by
    intro e
    have : ns.alignments = [] := List.length_eq_zero_iff.1 (by rw [hwf.len, e]; rfl)
    rw [C17_empty_panics this] at hA
    cases hA
  rw [C17_originalAlignments hr hne] at hA
  simp only [GoM.ok.injEq] at hA
  subst hA
  refine ⟨by simp, ?_⟩
  intro e he
  rw [List.getLast?_map, Option.mem_def, Option.map_eq_some_iff] at he
  obtain ⟨o, ho, rfl⟩ := he
  rw [List.getLast?_range] at ho
  split at ho
  · cases ho
  · simp only [Option.some.injEq] at ho
    subst ho
    simp only [origEntry, NS.len, ← hwf.len]
    rw [countP_all]
    intro x hx
    have hb := hwf.bounds x hx
    have hz := C114_front hr x hx
    simp only [decide_eq_true_eq]
    by_cases h : x.start = x.stop
    · rw [hz h]; simp only; omega
    · omega

/-- So two states have the same alignments if `OriginalAlignments` says the same of them and they have an original or texts of the
same length. -/
theorem C114_injective {ns ns' : NS} (hr : Reachable ns) (hr' : Reachable ns') {A : List Align}
    (hA : ns.originalAlignments = .ok A) (hA' : ns'.originalAlignments = .ok A) (hl : ns.original ≠ [] ∨ ns.len = ns'.len) :
    ns.alignments = ns'.alignments := by
  have hl : ns.len = ns'.len := by
    rcases hl with hl | hl
    · obtain ⟨h1, h2⟩ := C114_last hr hA
      obtain ⟨-, h3⟩ := C114_last hr' hA'
      have hpos : A ≠ [] := by
        rintro rfl
        exact hl (List.length_eq_zero_iff.1 h1.symm)
      rw [← h2 _ (List.getLast?_eq_some_getLast hpos), ← h3 _ (List.getLast?_eq_some_getLast hpos)]
    · exact hl
  have : ns.normalized.length = ns'.normalized.length := by simp only [NS.len] at hl; omega
  rw [C114_alignments hr hA, C114_alignments hr' hA', this]

/-! ## The conversions, from `OriginalAlignments` -/

/-- How many bytes of the text end by byte `o` of the original, read off `OriginalAlignments`. -/
def endsBy (A : List Align) (len : Int) (o : Nat) : Int :=
  match A[o]? with
  | some e => e.start
  | none => len

/-- How many bytes of the text begin before byte `o` of the original. -/
def beginsBefore (A : List Align) (len : Int) : Nat → Int
  | 0 => 0
  | o + 1 => match A[o]? with
    | some e => e.stop
    | none => len

theorem endsBy_eq {ns : NS} (hwf : WF ns) (o : Nat) :
    endsBy ((List.range ns.original.length).map (origEntry ns.alignments)) ns.len o
      = ((ns.alignments.countP fun al => decide (al.stop ≤ (o : Int)) : Nat) : Int) := by
  unfold endsBy
  rw [List.getElem?_map]
  rcases Nat.lt_or_ge o ns.original.length with h | h
  · rw [List.getElem?_range h]; rfl
  · rw [List.getElem?_eq_none (by simpa using h), countP_all, hwf.len]
    · rfl
    · intro x hx; have := (hwf.bounds x hx).2.2; simp; omega

theorem beginsBefore_eq {ns : NS} (hwf : WF ns) (o : Nat) :
    beginsBefore ((List.range ns.original.length).map (origEntry ns.alignments)) ns.len o
      = ((ns.alignments.countP fun al => decide (al.start ≤ (o : Int) - 1) : Nat) : Int) := by
  cases o with
  | zero =>
    rw [countP_none]
    · rfl
    · intro x hx; have := (hwf.bounds x hx).1; simp; omega
  | succ o =>
    have e : ((o + 1 : Nat) : Int) - 1 = (o : Int) := by omega
    rw [e]
    show (match ((List.range ns.original.length).map (origEntry ns.alignments))[o]? with
      | some e => e.stop
      | none => ns.len) = _
    rw [List.getElem?_map]
    rcases Nat.lt_or_ge o ns.original.length with h | h
    · rw [List.getElem?_range h]; rfl
    · rw [List.getElem?_eq_none (by simpa using h), countP_all, hwf.len]
      · rfl
      · intro x hx; have := hwf.bounds x hx; simp; omega

theorem takeWhile_countP {ns : NS} (hwf : WF ns) (e : Int) :
    (ns.alignments.takeWhile fun al => decide (al.stop ≤ e)).length = ns.alignments.countP fun al => decide (al.stop ≤ e) := by
  have h1 : (ns.alignments.takeWhile fun al => decide (al.stop ≤ e)).length ≤ ns.alignments.length :=
    (List.takeWhile_prefix _).length_le
  have h2 : (ns.alignments.countP fun al => decide (al.stop ≤ e)) ≤ ns.alignments.length := List.countP_le_length
  have key : ∀ i, i < ns.alignments.length → (i < (ns.alignments.takeWhile fun al => decide (al.stop ≤ e)).length
      ↔ i < ns.alignments.countP fun al => decide (al.stop ≤ e)) := by
    intro i hi
    rw [takeWhile_stop_iff hwf e i (List.getElem?_eq_getElem hi),
      countP_sorted (·.stop) e _ hwf.stops i _ (List.getElem?_eq_getElem hi)]
  generalize (ns.alignments.takeWhile fun al => decide (al.stop ≤ e)).length = p at *
  generalize (ns.alignments.countP fun al => decide (al.stop ≤ e)) = q at *
  rcases Nat.lt_trichotomy p q with h | h | h
  · have := key p (by omega); omega
  · exact h
  · have := key q (by omega); omega

/-- **C114, to the normalized text.** A range `(a,b)` of the original converts to the bytes of the text behind all that end by `a` and
all that begin before `a`, up to the last that ends by `b`; the conversion fails if no byte ends by `b`.  All these numbers are
entries of `OriginalAlignments`. -/
theorem C114_to_normalized {ns : NS} (hr : Reachable ns) {A : List Align} (hA : ns.originalAlignments = .ok A) {a b : Nat} (hab : a < b) :
    ns.coerceRangeToNormalized (.original a b)
      = if endsBy A ns.len b = 0 then none
        else some (min (max (endsBy A ns.len a) (beginsBefore A ns.len a)) (endsBy A ns.len b), endsBy A ns.len b) := by
  have hwf := hr.wf
  have hne : ns.normalized ≠ [] := by
    intro e
    have : ns.alignments = [] := List.length_eq_zero_iff.1 (by rw [hwf.len, e]; rfl)
    rw [C17_empty_panics this] at hA
    cases hA
  have hfr := C114_front hr
  rw [C17_originalAlignments hr hne] at hA
  simp only [GoM.ok.injEq] at hA
  subst hA
  rw [coerceRangeToNormalized_original (by omega), endsBy_eq hwf, endsBy_eq hwf, beginsBefore_eq hwf]
  have hpl := takeWhile_countP hwf (b : Int)
  have hpfx := List.takeWhile_prefix (l := ns.alignments) fun al => decide (al.stop ≤ (b : Int))
  rw [← hpl]
  generalize (ns.alignments.takeWhile fun al => decide (al.stop ≤ (b : Int))) = pre at *
  have htest : ∀ (i : Nat) (al : Align), pre[i]? = some al → (startTest a al = true
      ↔ (ns.alignments.countP fun al => decide (al.stop ≤ (a : Int))) ≤ i
        ∧ (ns.alignments.countP fun al => decide (al.start ≤ (a : Int) - 1)) ≤ i) := by
    intro i al hi
    have hi' : ns.alignments[i]? = some al := by
      obtain ⟨h1, h2⟩ := List.getElem?_eq_some_iff.1 hi
      rw [← h2]
      exact (List.prefix_iff_getElem?.1 hpfx i h1)
    have c1 := countP_sorted (·.stop) a _ hwf.stops i _ hi'
    have c2 := countP_sorted (·.start) ((a : Int) - 1) _ hwf.starts i _ hi'
    have hm := List.mem_of_getElem? hi'
    have hb := hwf.bounds al hm
    have hz := hfr al hm
    have : startTest a al = true ↔ (a : Int) ≤ al.start ∧ al.start ≠ al.stop := by simp [startTest]
    rw [this]
    constructor
    · rintro ⟨h1, h2⟩; omega
    · rintro ⟨h1, h2⟩
      refine ⟨by omega, ?_⟩
      intro he
      have e := hz he
      rw [e] at c1 c2
      simp only at c1 c2
      omega
  generalize (ns.alignments.countP fun al => decide (al.stop ≤ (a : Int))) = p at *
  generalize (ns.alignments.countP fun al => decide (al.start ≤ (a : Int) - 1)) = q at *
  simp only
  by_cases hp : pre = []
  · subst hp; simp
  · have hpos : 0 < pre.length := List.length_pos_iff.2 hp
    rw [if_neg hp, if_neg (by omega)]
    cases hf : pre.findIdx? (startTest a) with
    | none =>
      rw [List.findIdx?_eq_none_iff] at hf
      have hlast := htest (pre.length - 1) pre[pre.length - 1] (List.getElem?_eq_getElem (by omega))
      have := hf _ (List.getElem_mem (show pre.length - 1 < pre.length by omega))
      rw [this] at hlast
      have hmin : min (max (p : Int) (q : Int)) (pre.length : Int) = pre.length := by
        have : ¬ (p ≤ pre.length - 1 ∧ q ≤ pre.length - 1) := by simpa using hlast
        omega
      rw [hmin]
    | some j =>
      rw [List.findIdx?_eq_some_iff_getElem] at hf
      obtain ⟨hj, h1, h2⟩ := hf
      have hjt := (htest j pre[j] (List.getElem?_eq_getElem hj)).1 h1
      have : (j : Int) = min (max (p : Int) (q : Int)) (pre.length : Int) := by
        by_cases h0 : j = 0
        · omega
        · have hk := h2 (j - 1) (by omega)
          have := htest (j - 1) pre[j - 1] (List.getElem?_eq_getElem (by omega))
          rw [this] at hk
          omega
      rw [← this]

/-- **C114, to the original.** A non-empty range `(c,d)` of the text stands for what is between the number of entries that end by `c` and
the number of entries that begin before `d`. -/
theorem C114_to_original {ns : NS} (hr : Reachable ns) {A : List Align} (hA : ns.originalAlignments = .ok A) {c d : Nat} (hcd : c < d)
    (hd : (d : Int) ≤ ns.len) :
    ns.coerceRangeToOriginal (.normalized c d)
      = .ok (some (((A.countP fun e => decide (e.stop ≤ (c : Int)) : Nat) : Int), ((A.countP fun e => decide (e.start < (d : Int)) : Nat) : Int))) := by
  have hwf := hr.wf
  have hlen := hwf.len
  have hd' : d ≤ ns.normalized.length := by simpa [NS.len] using hd
  obtain ⟨f, l, e1, e2, e3⟩ := coerceRangeToOriginal_normalized (ns := ns) (s := c) (e := d) (by omega) (by omega) (by omega)
  rw [e3]
  rw [C114_alignments hr hA] at e1 e2
  rw [Int.toNat_natCast, List.getElem?_map, List.getElem?_range (by omega)] at e1
  rw [show ((d : Int) - 1).toNat = d - 1 by omega, List.getElem?_map, List.getElem?_range (by omega)] at e2
  simp only [Option.map_some, Option.some.injEq] at e1 e2
  subst e1 e2
  have : (fun e : Align => decide (e.start ≤ ((d - 1 : Nat) : Int))) = fun e => decide (e.start < (d : Int)) := by
    funext e; rw [decide_eq_decide]; omega
  simp only
  rw [this]

example : exConv.coerceRangeToNormalized (.original 1 3) = some (1, 4) :=
  (C114_to_normalized exConv_reachable (A := [⟨0, 1⟩, ⟨1, 4⟩, ⟨4, 4⟩]) (by decide +kernel) (a := 1) (b := 3) (by omega)).trans (by decide +kernel)

/-- A byte put in front stands for nothing, and is in no converted range. -/
example : ∃ ns, Reachable ns ∧ ns.normalized = b!"ab" ∧ ns.original = b!"b" ∧ ns.originalAlignments = .ok [⟨1, 2⟩]
    ∧ ns.coerceRangeToNormalized (.original 0 1) = some (1, 2) :=
  ⟨⟨b!"b", b!"ab", [⟨0, 0⟩, ⟨0, 1⟩], 0⟩,
    .of_ops (s := b!"b") (ops := [.transform [⟨u!"a", 1⟩, ⟨u!"b", 0⟩] 0]) (by decide +kernel) (by decide +kernel),
    by decide +kernel, by decide +kernel, by decide +kernel, by decide +kernel⟩

/-- The length is needed only without an original: texts of any length have the same entries, none. -/
example : ∃ ns ns', Reachable ns ∧ Reachable ns' ∧ ns.originalAlignments = .ok [] ∧ ns'.originalAlignments = .ok []
    ∧ ns.len = 1 ∧ ns'.len = 2 :=
  ⟨⟨[], b!"a", [⟨0, 0⟩], 0⟩, ⟨[], b!"aa", [⟨0, 0⟩, ⟨0, 0⟩], 0⟩,
    .of_ops (s := []) (ops := [.transform [⟨u!"a", 1⟩] 0]) (by decide +kernel) (by decide +kernel),
    .of_ops (s := []) (ops := [.transform [⟨u!"a", 1⟩, ⟨u!"a", 1⟩] 0]) (by decide +kernel) (by decide +kernel),
    by decide +kernel, by decide +kernel, by decide +kernel, by decide +kernel⟩

end Verif
