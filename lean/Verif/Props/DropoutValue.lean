import Verif.Model.Dropout
import Verif.Props.Dropout
import Verif.Props.Join

/-! Property C96: what the dropout value means. -/

set_option autoImplicit false

namespace Verif

/-- What `rand.Float64()` can return: a number of `[0, 1)`. -/
def IsDraw (x : F64) : Prop := ∃ q : Rat, x = .fin q ∧ 0 ≤ q ∧ q < 1

/-- `a ≤ b`, as `float64`s. -/
def F64.Le (a b : F64) : Prop := F64.lt a b = true ∨ (a = b ∧ a ≠ .nan)

/-- Either all of the first draws skipped and nothing happened, or a merge was made. -/
theorem mergeAll_first (merges : MergeMap) (rnd : Nat → Bool) (l : List (Int × Int)) (hp : Positive l) :
    ∃ w', (built l).mergeAll merges true rnd = .ok (some w')
      ∧ ((w' = built l ∧ ∀ k < pairsLeft merges l, rnd k = true)
        ∨ (w'.length < l.length ∧ ∃ k < pairsLeft merges l, rnd k = false)) := by
  obtain ⟨w', st', L', h1, h2, h3, -, h4, h5⟩ := mergeAll_rule
    (P := fun st L => (L = symsFrom 0 l ∧ st.word = built l ∧ (st.queue ++ st.skip).Perm (pairEntries merges (symsFrom 0 l))
        ∧ st.draws = st.skip.length ∧ ∀ k < st.draws, rnd k = true)
      ∨ (L.length < l.length ∧ ∃ k < pairsLeft merges l, rnd k = false))
    (d := true) (rnd := rnd) (merges := merges) hp
    (by
      left
      refine ⟨rfl, rfl, ?_, rfl, by simp [startState]⟩
      have := (start_good merges true hp).2
      simpa [startState] using this)
    (by
      intro st st' L L' _ _ hk hs
      rcases hs with ⟨rfl, a1, a2, a3, a4⟩ | ⟨b1, b2⟩
      · have hlen : ∀ (top : WordMerge) (rest : List WordMerge), st.queue.Perm (top :: rest) → st.draws < pairsLeft merges l := by
          intro top rest hq
          have e1 := a2.length_eq
          have e2 := hq.length_eq
          rw [pairEntries_pairs, symsFrom_pairs, List.length_append] at e1
          simp only [List.length_cons] at e2
          omega
        cases hk with
        | drop top rest _ k2 k3 _ k5 k6 k7 k8 =>
          left
          refine ⟨rfl, by rw [k7, a1], ?_, by rw [k8, k6, a3]; simp, ?_⟩
          · rw [k5, k6]
            refine List.Perm.trans ?_ a2
            refine List.Perm.trans ?_ (k3.symm.append_right _)
            rw [← List.append_assoc, List.cons_append]
            exact List.perm_append_singleton _ _
          · intro k hk
            rw [k8] at hk
            by_cases e : k = st.draws
            · rw [e]; exact k2
            · exact a4 k (by omega)
        | stale top rest _ k3 _ k5 =>
          have ht : top ∈ pairEntries merges (symsFrom 0 l) :=
            a2.mem_iff.1 (List.mem_append_left _ (k3.mem_iff.2 (by simp)))
          obtain ⟨A, s, t, B, m, e, hm, rfl⟩ := pairEntries_mem.1 ht
          exact absurd ⟨e, rfl, hm, rfl⟩ (k5 A s t B m)
        | merge top rest A s t B m k1 k3 _ k5 =>
          right
          refine ⟨?_, st.draws, hlen top rest k3, k1 rfl⟩
          have := congrArg List.length k5.1
          rw [symsFrom_length] at this
          simp only [List.length_append, List.length_cons] at this ⊢
          omega
      · right
        refine ⟨?_, b2⟩
        cases hk with
        | drop => exact b1
        | stale => exact b1
        | merge top rest A s t B m _ _ _ k5 =>
          have := congrArg List.length k5.1
          simp only [List.length_append, List.length_cons] at this ⊢
          omega)
  refine ⟨w', h1, ?_⟩
  rcases h4 with ⟨rfl, a1, a2, a3, a4⟩ | ⟨b1, b2⟩
  · left
    have e1 := a2.length_eq
    rw [h5, pairEntries_pairs, symsFrom_pairs, List.nil_append, ← a3] at e1
    refine ⟨?_, by rw [← e1]; exact a4⟩
    rw [h3, a1]
    refine List.filter_eq_self.2 fun s hs => ?_
    have hv := built_visible hp
    have : (s.id, s.length) ∈ l := by
      rw [← hv]
      exact List.mem_map.2 ⟨s, hs, rfl⟩
    have := hp _ this
    simp only [bne_iff_ne, ne_eq]
    omega
  · right
    refine ⟨?_, b2⟩
    have := congrArg List.length h2
    simp only [visible, List.length_map] at this
    omega

/-- **C96, nothing merged.** With a dropout value above 0, `MergeAll` leaves the word as it was exactly if as many of the first
draws as the word has adjacent pairs of the table are below the value; otherwise the word gets shorter. -/
theorem C96_unchanged (merges : MergeMap) {d : F64} (hd : F64.lt (.fin 0) d = true) (draws : Nat → F64) (l : List (Int × Int))
    (hp : Positive l) : ∃ w', (built l).mergeAllF merges d draws = .ok (some w')
      ∧ (w' = built l ↔ ∀ k < pairsLeft merges l, F64.lt (draws k) d = true) ∧ (w' ≠ built l → w'.length < l.length) := by
  obtain ⟨w', h1, h2⟩ := mergeAll_first merges (fun k => F64.lt (draws k) d) l hp
  refine ⟨w', by unfold Word.mergeAllF; rw [hd]; exact h1, ?_⟩
  rcases h2 with ⟨a1, a2⟩ | ⟨b1, k, b2, b3⟩
  · exact ⟨⟨fun _ => a2, fun _ => a1⟩, fun h => absurd a1 h⟩
  · refine ⟨⟨?_, ?_⟩, fun _ => b1⟩
    · rintro rfl
      rw [(built_seg l).1] at b1
      omega
    · intro h
      rw [h k b2] at b3
      cases b3

/-- **C96, no dropout.** With a dropout value that is not above 0 (or not a number) nothing is ever skipped. -/
theorem C96_none (m : BPE) {d : F64} (hd : F64.lt (.fin 0) d = false) (draws draws' : Nat → F64) (s : Str) (merges : MergeMap)
    (w : Word) : w.mergeAllF merges d draws = w.mergeAllF merges (.fin 0) draws'
      ∧ m.tokenizeF d draws s = m.tokenizeF (.fin 0) draws' s := by
  have h0 : F64.lt (.fin 0) (.fin 0) = false := by decide
  refine ⟨?_, ?_⟩
  · unfold Word.mergeAllF
    rw [hd, h0, ← C62_no_skip merges (fun _ => false) _ (fun _ => rfl) w, ← C62_no_skip merges (fun _ => false) _ (fun _ => rfl) w]
  · unfold BPE.tokenizeF
    rw [hd, h0]
    exact tokenize_draws rfl _ _ s

theorem mergeAll_noRules (d : Bool) (rnd : Nat → Bool) (l : List (Int × Int)) (hp : Positive l) :
    (built l).mergeAll [] d rnd = .ok (some (built l)) := by
  have h0 : pairsLeft [] l = 0 := by
    rw [pairsLeft_zero]
    intro A B a b _
    rfl
  have key : ∀ rnd, (built l).mergeAll [] true rnd = .ok (some (built l)) := by
    intro rnd
    obtain ⟨w', h1, h2⟩ := mergeAll_first [] rnd l hp
    rcases h2 with ⟨rfl, -⟩ | ⟨-, k, hk, -⟩
    · exact h1
    · rw [h0] at hk; omega
  cases d with
  | true => exact key rnd
  | false => rw [← C62_no_skip [] (fun _ => false) rnd (fun _ => rfl)]; exact key _

theorem lt_of_draw {x d : F64} (hx : IsDraw x) (hd : F64.Le (.fin 1) d) : F64.lt x d = true := by
  obtain ⟨q, rfl, -, h1⟩ := hx
  rcases hd with h | ⟨rfl, -⟩
  · cases d with
    | nan => cases h
    | inf n => cases n <;> simp_all [F64.lt]
    | fin v =>
      simp only [F64.lt, decide_eq_true_eq] at h ⊢
      grind
  · simp only [F64.lt, decide_eq_true_eq]
    exact h1

theorem pending_congr {m m' : BPE} (h1 : m.hasUnknownToken = m'.hasUnknownToken) (h2 : m.unknownFusionEnabled = m'.unknownFusionEnabled)
    (u : Int) (p : Option (Int × Int)) (cs : List (Option Int × Int)) : m.pending u p cs = m'.pending u p cs := by
  induction cs generalizing p with
  | nil => simp only [BPE.pending]
  | cons c cs ih =>
    obtain ⟨o, len⟩ := c
    cases o <;> cases p <;> simp only [BPE.pending, h1, h2, ih]

/-- **C96, full dropout.** With a dropout value of 1 or more, whatever is drawn, `MergeAll` leaves the word as it was and
`Tokenize` gives what it gives without any merge rules. -/
theorem C96_full (m : BPE) {d : F64} (hd : F64.Le (.fin 1) d) {draws : Nat → F64} (hdr : ∀ k, IsDraw (draws k)) :
    (∀ (merges : MergeMap) (l : List (Int × Int)), Positive l → (built l).mergeAllF merges d draws = .ok (some (built l)))
    ∧ ∀ s, m.tokenizeF d draws s = { m with merges := [] }.tokenizeF (.fin 0) draws s := by
  have hpos : F64.lt (.fin 0) d = true := lt_of_draw ⟨0, rfl, by decide, by decide⟩ hd
  have h1 : ∀ (merges : MergeMap) (l : List (Int × Int)), Positive l → (built l).mergeAllF merges d draws = .ok (some (built l)) := by
    intro merges l hp
    obtain ⟨w', e, h, -⟩ := C96_unchanged merges hpos draws l hp
    rw [h.2 fun k _ => lt_of_draw (hdr k) hd] at e
    exact e
  refine ⟨h1, fun s => ?_⟩
  by_cases hs : s = []
  · subst hs; rfl
  · unfold BPE.tokenizeF
    rw [show F64.lt (.fin 0) (.fin 0) = false by decide]
    rcases BPE.tokenize_eq { m with hasDropout := F64.lt (.fin 0) d } (fun k => F64.lt (draws k) d) s hs with
      ⟨e1, e2⟩ | ⟨u, ss, w', e1, e2, e3, e4, -, e6⟩
    · rcases BPE.tokenize_eq { m with merges := [], hasDropout := false } (fun k => F64.lt (draws k) (.fin 0)) s hs with
        ⟨f1, f2⟩ | ⟨u', ss', w'', f1, -⟩
      · rw [e2, f2]
      · exact absurd (e1.symm.trans f1) (by simp)
    · rcases BPE.tokenize_eq { m with merges := [], hasDropout := false } (fun k => F64.lt (draws k) (.fin 0)) s hs with
        ⟨f1, f2⟩ | ⟨u', ss', w'', f1, f2, f3, f4, -, f6⟩
      · exact absurd (e1.symm.trans f1) (by simp)
      · obtain rfl : u = u' := Option.some.inj (e1.symm.trans f1)
        obtain rfl : ss = ss' := (e2.trans (pending_congr (m := { m with hasDropout := F64.lt (.fin 0) d }) (m' := { m with merges := [], hasDropout := false }) rfl rfl u none _)).trans f2.symm
        have g1 := h1 m.merges ss e3
        unfold Word.mergeAllF at g1
        have g2 := e4.symm.trans g1
        have g3 := f4.symm.trans (mergeAll_noRules false _ ss e3)
        simp only [GoM.ok.injEq, Option.some.injEq] at g2 g3
        rw [e6, f6, g2, g3]

/-! ## How likely it is that nothing is merged -/

/-- All lists of `n` numbers below `M`. -/
def allDraws (M : Nat) : Nat → List (List Nat)
  | 0 => [[]]
  | n + 1 => (List.range M).flatMap fun k => (allDraws M n).map (k :: ·)

/-- The draws `k / M` for the numbers `k` of a list, and then zeros. -/
def drawsOf (M : Nat) (ks : List Nat) (i : Nat) : F64 := .fin ((ks.getD i 0 : Rat) / (M : Rat))

theorem allDraws_length (M n : Nat) : (allDraws M n).length = M ^ n := by
  induction n with
  | zero => rfl
  | succ n ih =>
    simp only [allDraws, List.length_flatMap, List.length_map, ih]
    rw [List.map_const', List.length_range, List.sum_replicate_nat, Nat.pow_succ, Nat.mul_comm]

theorem allDraws_mem {M n : Nat} {ks : List Nat} (h : ks ∈ allDraws M n) : ks.length = n := by
  induction n generalizing ks with
  | zero => simp [allDraws] at h; simp [h]
  | succ n ih =>
    simp only [allDraws, List.mem_flatMap, List.mem_map] at h
    obtain ⟨k, -, t, ht, rfl⟩ := h
    simp [ih ht]

theorem countP_flatMap' {α β : Type} (p : β → Bool) (f : α → List β) (l : List α) :
    (l.flatMap f).countP p = (l.map fun a => (f a).countP p).sum := by
  induction l with
  | nil => rfl
  | cons a l ih => simp [List.flatMap_cons, List.countP_append, ih]

theorem sum_range_below (M j c : Nat) (hj : j ≤ M) : ((List.range M).map fun k => if k < j then c else 0).sum = j * c := by
  induction M with
  | zero => simp at hj; simp [hj]
  | succ M ih =>
    rw [List.range_succ, List.map_append, List.sum_append]
    by_cases h : j ≤ M
    · rw [ih h]
      have : ¬ M < j := by omega
      simp [this]
    · obtain rfl : j = M + 1 := by omega
      have : ∀ M, ((List.range M).map fun k => if k < M + 1 then c else 0).sum = M * c := by
        intro M
        have e : ((List.range M).map fun k => if k < M + 1 then c else 0) = (List.range M).map fun _ => c :=
          List.map_congr_left fun k hk => if_pos (by have := List.mem_range.1 hk; omega)
        rw [e, List.map_const', List.length_range, List.sum_replicate_nat]
      rw [this M]
      simp [Nat.succ_mul]

theorem allDraws_below (M j n : Nat) (hj : j ≤ M) : (allDraws M n).countP (fun ks => ks.all fun k => decide (k < j)) = j ^ n := by
  induction n with
  | zero => rfl
  | succ n ih =>
    simp only [allDraws, countP_flatMap', List.countP_map, Function.comp_def, List.all_cons]
    have : ∀ k, (allDraws M n).countP (fun ks => decide (k < j) && ks.all fun k => decide (k < j)) = if k < j then j ^ n else 0 := by
      intro k
      by_cases h : k < j
      · simp only [h, decide_true, Bool.true_and, if_true]; exact ih
      · simp [h]
    simp only [this]
    rw [sum_range_below M j _ hj, Nat.pow_succ, Nat.mul_comm]

/-- **C96, probability.** Let draws be multiples of `1/M` (Go draws multiples of `2⁻⁵³`) and the dropout value be `j/M`.  Of the
`Mⁿ` ways to draw `n` numbers, `n` being the adjacent pairs of the table in the word, `jⁿ` leave the word as it was: with
independent uniform draws this has probability `dropoutⁿ`. -/
theorem C96_probability (merges : MergeMap) (M j : Nat) (hj : 0 < j) (hjM : j ≤ M) (l : List (Int × Int)) (hp : Positive l) :
    (allDraws M (pairsLeft merges l)).length = M ^ pairsLeft merges l
    ∧ (allDraws M (pairsLeft merges l)).countP (fun ks => decide ((built l).mergeAllF merges (.fin ((j : Rat) / (M : Rat))) (drawsOf M ks)
      = .ok (some (built l)))) = j ^ pairsLeft merges l := by
  refine ⟨allDraws_length _ _, ?_⟩
  rw [← allDraws_below M j _ hjM]
  refine List.countP_congr fun ks hks => ?_
  have hM : (0 : Rat) < (M : Rat) := by exact_mod_cast (show 0 < M by omega)
  have hdiv : ∀ a b : Nat, ((a : Rat) / (M : Rat) < (b : Rat) / (M : Rat)) ↔ a < b := by
    intro a b
    rw [Rat.div_lt_iff hM, Rat.div_mul_cancel (by grind)]
    exact_mod_cast Iff.rfl
  have hpos : F64.lt (.fin 0) (.fin ((j : Rat) / (M : Rat))) = true := by
    have := (hdiv 0 j).2 hj
    simp only [F64.lt, decide_eq_true_eq]
    grind
  obtain ⟨w', h1, h2, -⟩ := C96_unchanged merges hpos (drawsOf M ks) l hp
  rw [decide_eq_true_eq, h1, List.all_eq_true]
  simp only [GoM.ok.injEq, Option.some.injEq, decide_eq_true_eq]
  rw [h2]
  have hl := allDraws_mem hks
  simp only [drawsOf, F64.lt, decide_eq_true_eq, hdiv]
  constructor
  · intro h x hx
    obtain ⟨i, hi, rfl⟩ := List.getElem_of_mem hx
    have := h i (by omega)
    simpa [List.getD_eq_getElem?_getD, hi] using this
  · intro h k hk
    have := h (ks[k]'(by omega)) (List.getElem_mem _)
    simpa [List.getD_eq_getElem?_getD, hl, hk] using this

/-! Concrete cases. -/

/-- Two rules: 1 2 become 3, 3 4 become 5. -/
private def exMerges : MergeMap := [((1, 2), { rank := 0, id := 3 }), ((3, 4), { rank := 1, id := 5 })]

private def exRun (d : F64) (draws : Nat → F64) : Option (List (Int × Int)) :=
  match (built [(1, 1), (2, 1), (4, 1)]).mergeAllF exMerges d draws with
  | .ok (some w) => some (visible w)
  | _ => none

/-- No dropout, a negative one, not a number: both rules apply. -/
example : exRun (.fin 0) (fun _ => .fin 0) = some [(5, 3)] ∧ exRun (.fin (-1)) (fun _ => .fin 0) = some [(5, 3)]
    ∧ exRun .nan (fun _ => .fin 0) = some [(5, 3)] ∧ exRun (.inf true) (fun _ => .fin 0) = some [(5, 3)] := by decide +kernel

/-- Dropout 1, and above: no rule applies. -/
example : exRun (.fin 1) (fun _ => .fin (99 / 100)) = some [(1, 1), (2, 1), (4, 1)]
    ∧ exRun (.inf false) (fun _ => .fin (99 / 100)) = some [(1, 1), (2, 1), (4, 1)] := by decide +kernel

/-- Dropout 1/2: a draw of 1/2 does not skip, a smaller one does. -/
example : exRun (.fin (1 / 2)) (fun _ => .fin (1 / 2)) = some [(5, 3)]
    ∧ exRun (.fin (1 / 2)) (fun _ => .fin (1 / 4)) = some [(1, 1), (2, 1), (4, 1)]
    ∧ exRun (.fin (1 / 2)) (fun k => if k = 1 then .fin (1 / 4) else .fin (3 / 4)) = some [(3, 2), (4, 1)] := by decide +kernel

/-- One adjacent pair of the table: of 4 possible draws 3 are below 3/4. -/
example : pairsLeft exMerges [(1, 1), (2, 1), (4, 1)] = 1
    ∧ (allDraws 4 1).countP (fun ks => decide (exRun (.fin (3 / 4)) (drawsOf 4 ks) = some [(1, 1), (2, 1), (4, 1)])) = 3 := by
  decide +kernel

end Verif
