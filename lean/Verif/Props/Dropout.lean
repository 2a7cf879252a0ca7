import Verif.Props.MergeAll

/-! Property C62: what dropout can change. -/

set_option autoImplicit false

namespace Verif

/-- The number of adjacent pairs that are in the table. -/
def pairsLeft (merges : MergeMap) : List (Int × Int) → Nat
  | a :: b :: r => (if (merges.get a.1 b.1).isSome then 1 else 0) + pairsLeft merges (b :: r)
  | _ => 0

theorem pairsLeft_zero (merges : MergeMap) (l : List (Int × Int)) : pairsLeft merges l = 0 ↔ NoPair merges l := by
  induction l with
  | nil =>
    simp only [pairsLeft, true_iff]
    intro A B a b h; simp at h
  | cons x l ih =>
    cases l with
    | nil =>
      simp only [pairsLeft, true_iff]
      intro A B a b h
      have := congrArg List.length h
      simp at this; omega
    | cons y l =>
      simp only [pairsLeft]
      constructor
      · intro h A B a b e
        cases A with
        | nil =>
          simp at e
          obtain ⟨rfl, rfl, rfl⟩ := e
          cases hg : merges.get x.1 y.1 with
          | none => rfl
          | some m => rw [hg] at h; simp at h
        | cons z A =>
          simp at e
          exact (ih.1 (by omega)) A B a b e.2
      · intro h
        have h1 := h [] l x y rfl
        have h2 := ih.2 (fun A B a b e => h (x :: A) B a b (by rw [e]; rfl))
        rw [h1, h2]; rfl

theorem pairEntries_pairs (merges : MergeMap) (L : List Sym) :
    (pairEntries merges L).length = pairsLeft merges (L.map fun s => (s.id, s.len)) := by
  induction L with
  | nil => rfl
  | cons x L ih =>
    cases L with
    | nil => rfl
    | cons y L =>
      simp only [pairEntries, List.map_cons, pairsLeft, List.length_append] at ih ⊢
      rw [ih]
      cases merges.get x.id y.id <;> simp

theorem pairEntries_nodup (merges : MergeMap) {L : List Sym} (h : L.Pairwise fun a b => a.pos < b.pos) :
    (pairEntries merges L).Nodup := by
  induction L with
  | nil => exact .nil
  | cons x L ih =>
    cases L with
    | nil => exact .nil
    | cons y L =>
      rw [List.pairwise_cons] at h
      simp only [pairEntries]
      have i1 := ih h.2
      cases hg : merges.get x.id y.id with
      | none => simpa using i1
      | some m =>
        simp only [List.singleton_append, List.nodup_cons]
        refine ⟨?_, i1⟩
        intro hm
        obtain ⟨A, s, t, B, m', e, -, e'⟩ := pairEntries_mem.1 hm
        have := h.1 s (by rw [e]; simp)
        simp at e'
        omega

theorem nodup_length_le {α : Type} [BEq α] [LawfulBEq α] : ∀ {l m : List α}, l.Nodup → (∀ x ∈ l, x ∈ m) →
    l.length ≤ m.length := by
  intro l
  induction l with
  | nil => intro m _ _; simp
  | cons a l ih =>
    intro m hn hs
    rw [List.nodup_cons] at hn
    have ha := hs a (by simp)
    have := ih (m := m.erase a) hn.2 (by
      intro x hx
      exact (List.mem_erase_of_ne (by rintro rfl; exact hn.1 hx)).2 (hs x (by simp [hx])))
    rw [List.length_erase_of_mem ha] at this
    have := List.length_pos_of_mem ha
    simp; omega

/-- With dropout every present pair has its entry in the queue or among the skipped entries. -/
theorem complete_step_dropout {merges : MergeMap} {d : Bool} {rnd : Nat → Bool} {n : Nat} {st st' : Word.MState}
    {L L' : List Sym} (hg : Good n d st L) (hk : StepKind merges d rnd st st' L L')
    (hc : Complete merges (st.queue ++ st.skip) L) : Complete merges (st'.queue ++ st'.skip) L' := by
  have hsort := hg.holds.sorted
  cases hk with
  | drop top rest h1 h2 h3 h4 h5 h6 =>
    intro A s t B m e hm
    rw [h5, h6]
    rcases List.mem_append.1 (hc A s t B m e hm) with h | h
    · rcases List.mem_cons.1 (h3.mem_iff.1 h) with rfl | h <;> simp_all
    · simp [h]
  | stale top rest h1 h3 h4 h5 h6 h7 =>
    intro A s t B m e hm
    rw [h7, List.append_nil, h6.mem_iff]
    rcases List.mem_append.1 (hc A s t B m e hm) with h | h
    · rcases List.mem_cons.1 (h3.mem_iff.1 h) with rfl | h
      · exact absurd ⟨e, rfl, hm, rfl⟩ (h5 A s t B m)
      · simp [h]
    · simp [h]
  | merge top rest A s t B m h1 h3 h4 h5 h6 h7 =>
    obtain ⟨rfl, hpos, hm, hid⟩ := h5
    intro A' x y B' m' e hm'
    rw [h7, List.append_nil, h6.mem_iff]
    have keep : ∀ z, (⟨m', z⟩ : WordMerge) ∈ st.queue ++ st.skip → z ≠ (s.pos : Int) →
        (⟨m', z⟩ : WordMerge) ∈ st.skip ++ rest := by
      intro z hz hne
      rcases List.mem_append.1 hz with hz | hz
      · rcases List.mem_cons.1 (h3.mem_iff.1 hz) with h | h
        · rw [← h] at hpos; exact absurd hpos hne
        · simp [h]
      · simp [hz]
    rw [List.pairwise_append] at hsort
    obtain ⟨-, sR, sAR⟩ := hsort
    rw [List.pairwise_cons] at sR
    rcases pair_after_merge e with ⟨A'', rfl, rfl, rfl, rfl⟩ | ⟨rfl, rfl, rfl⟩ | ⟨C, rfl, rfl⟩ | ⟨C, rfl, rfl⟩
    · exact List.mem_append_left _ (newEntries_prev hm')
    · exact List.mem_append_left _ (newEntries_next hm')
    · apply List.mem_append_right
      have := hc A' x y (C ++ s :: t :: B) m' (by simp) hm'
      have hlt := sAR x (by simp) s (by simp)
      exact keep _ this (by omega)
    · apply List.mem_append_right
      have := hc (A ++ s :: t :: C) x y B' m' (by simp) hm'
      have hlt := sR.1 x (by simp)
      exact keep _ this (by omega)

/-- The loop only reads the draws it makes. -/
theorem mergeLoop_draws {merges : MergeMap} {d : Bool} {rnd rnd' : Nat → Bool} {last : Word.MState}
    (hr : ∀ k < last.draws, rnd' k = rnd k) : ∀ (fuel : Nat) (st : Word.MState),
    Word.mergeLoop merges d rnd fuel st = .ok (some last) →
    st.draws ≤ last.draws ∧ Word.mergeLoop merges d rnd' fuel st = .ok (some last) := by
  intro fuel
  induction fuel with
  | zero =>
    intro st h
    unfold Word.mergeLoop at h ⊢
    by_cases hq : st.queue.length = 0
    · rw [if_pos hq] at h ⊢
      simp at h; subst h
      exact ⟨Nat.le_refl _, rfl⟩
    · rw [if_neg hq] at h; simp at h
  | succ fuel ih =>
    intro st h
    unfold Word.mergeLoop at h ⊢
    by_cases hq : st.queue.length = 0
    · rw [if_pos hq] at h ⊢
      simp at h; subst h
      exact ⟨Nat.le_refl _, rfl⟩
    · rw [if_neg hq] at h ⊢
      simp only at h ⊢
      cases hs : Word.mergeStep merges d rnd st with
      | panic => rw [hs] at h; simp at h
      | ok st' =>
        rw [hs] at h
        obtain ⟨i1, i2⟩ := ih st' h
        have hd : st'.draws = if d = true then st.draws + 1 else st.draws := by
          unfold Word.mergeStep at hs
          simp only at hs
          by_cases hc : d = true ∧ rnd st.draws = true
          · rw [if_pos hc] at hs
            simp at hs; subst hs
            simp [hc.1]
          · rw [if_neg hc] at hs
            simp only [GoM.bind_eq_ok] at hs
            obtain ⟨_, -, hs⟩ := hs
            simp at hs; subst hs; rfl
        have he : Word.mergeStep merges d rnd' st = Word.mergeStep merges d rnd st := by
          cases hdd : d with
          | false => unfold Word.mergeStep; simp
          | true =>
            have : rnd' st.draws = rnd st.draws := hr _ (by rw [hdd] at hd; simp at hd; omega)
            unfold Word.mergeStep; rw [this]
        refine ⟨by rw [hd] at i1; split at i1 <;> omega, ?_⟩
        rw [he, hs]
        exact i2

/-- **C62, only skips leave pairs.** Let `N` be the number of draws `MergeAll` makes (the outcome depends
on no other).  There are at most `N` adjacent pairs of the table left, and at least as many draws in a row
at the end skipped as there are pairs left. -/
theorem C62_trailing_skips (merges : MergeMap) (d : Bool) (rnd : Nat → Bool) (l : List (Int × Int)) (hp : Positive l)
    {w' : Word} (h : (built l).mergeAll merges d rnd = .ok (some w')) :
    ∃ N, pairsLeft merges (visible w') ≤ N
      ∧ (∀ k, N ≤ k + pairsLeft merges (visible w') → k < N → rnd k = true)
      ∧ (∀ rnd', (∀ k < N, rnd' k = rnd k) → (built l).mergeAll merges d rnd' = (built l).mergeAll merges d rnd)
      ∧ ∃ st, Word.mergeLoop merges d rnd (Word.mergeFuel (built l).length) (startState merges l) = .ok (some st)
        ∧ st.draws = N := by
  obtain ⟨w'', st', L', h1, h2, -, hg, ⟨h3, h4, h5⟩, h6, h7⟩ := mergeAll_loop
    (P := fun st L => Complete merges (st.queue ++ st.skip) L ∧ st.skip.length ≤ st.draws
      ∧ ∀ k < st.skip.length, rnd (st.draws - st.skip.length + k) = true)
    (d := d) (rnd := rnd) (merges := merges) hp
    (by
      refine ⟨?_, by simp [startState], by simp [startState]⟩
      intro A s t B m e hm
      exact List.mem_append_left _ (complete_start merges hp A s t B m e hm))
    (by
      intro st st' L L' hg _ hk ⟨a1, a2, a3⟩
      refine ⟨complete_step_dropout hg hk a1, ?_⟩
      cases hk with
      | drop top rest _ h2 _ _ _ h6 _ h8 =>
        rw [h6, h8]
        simp only [List.length_append, List.length_singleton]
        refine ⟨by omega, ?_⟩
        intro k hk
        by_cases e : k = st.skip.length
        · subst e
          rw [show st.draws + 1 - (st.skip.length + 1) + st.skip.length = st.draws by omega]
          exact h2
        · have := a3 k (by omega)
          rw [show st.draws + 1 - (st.skip.length + 1) + k = st.draws - st.skip.length + k by omega]
          exact this
      | stale _ _ _ _ _ _ _ h7 => rw [h7]; simp
      | merge _ _ _ _ _ _ _ _ _ _ _ _ h7 => rw [h7]; simp)
  rw [h] at h1
  simp at h1; subst h1
  have hle : pairsLeft merges (visible w') ≤ st'.skip.length := by
    rw [h2, ← pairEntries_pairs]
    exact nodup_length_le (m := st'.skip) (pairEntries_nodup merges hg.holds.sorted) (by
      intro e he
      obtain ⟨A, s, t, B, m, e1, e2, rfl⟩ := pairEntries_mem.1 he
      have := h3 A s t B m e1 e2
      rw [h6] at this
      simpa using this)
  refine ⟨st'.draws, by omega, ?_, ?_, st', h7, rfl⟩
  · intro k hk hk'
    have := h5 (k - (st'.draws - st'.skip.length)) (by omega)
    rwa [show st'.draws - st'.skip.length + (k - (st'.draws - st'.skip.length)) = k by omega] at this
  · intro rnd' hr
    have := (mergeLoop_draws hr _ _ h7).2
    simp only [Word.mergeAll, Word.mergeAllFuel]
    rw [show (⟨built l, Word.initQueue merges (built l) 0 [], [], 0⟩ : Word.MState) = startState merges l from rfl,
      this, h7]

/-- **C62.** If among any `K` draws in a row one does not skip, fewer than `K` adjacent pairs of
the table are left. -/
theorem C62_bounded_skips (merges : MergeMap) (d : Bool) (rnd : Nat → Bool) (l : List (Int × Int)) (hp : Positive l)
    {w' : Word} (h : (built l).mergeAll merges d rnd = .ok (some w')) (K : Nat)
    (hK : ∀ n, ∃ k < K, rnd (n + k) = false) : pairsLeft merges (visible w') < K := by
  obtain ⟨N, hN, hn, -⟩ := C62_trailing_skips merges d rnd l hp h
  obtain ⟨k, h1, h2⟩ := hK (N - pairsLeft merges (visible w'))
  apply Classical.byContradiction
  intro hc
  rw [hn _ (by omega) (by omega)] at h2
  simp at h2

/-- **C62, no skip.** Draws that never skip give the same word as no dropout. -/
theorem C62_no_skip (merges : MergeMap) (rnd rnd' : Nat → Bool) (hr : ∀ n, rnd n = false) (w : Word) :
    w.mergeAll merges true rnd = w.mergeAll merges false rnd' := by
  have hstep : ∀ st : Word.MState, ∀ k, Word.mergeStep merges true rnd { st with draws := k }
      = (match Word.mergeStep merges false rnd' st with
        | .panic => .panic
        | .ok s => .ok { s with draws := k + 1 }) := by
    intro st k
    simp only [Word.mergeStep, hr]
    simp only [Bool.false_eq_true, and_false, if_false, if_true, false_and]
    generalize Word.process merges st.word _ _ = x
    cases x <;> rfl
  have hloop : ∀ (fuel : Nat) (st : Word.MState) (k : Nat),
      (match Word.mergeLoop merges true rnd fuel { st with draws := k } with
        | .panic => GoM.panic
        | .ok o => .ok (o.map fun (s : Word.MState) => s.word))
      = (match Word.mergeLoop merges false rnd' fuel st with
        | .panic => .panic
        | .ok o => .ok (o.map fun (s : Word.MState) => s.word)) := by
    intro fuel
    induction fuel with
    | zero =>
      intro st k
      unfold Word.mergeLoop
      by_cases hq : st.queue.length = 0 <;> simp [hq]
    | succ fuel ih =>
      intro st k
      unfold Word.mergeLoop
      by_cases hq : st.queue.length = 0
      · simp [hq]
      · simp only [hq, if_false, hstep]
        cases Word.mergeStep merges false rnd' st with
        | panic => rfl
        | ok s => exact ih s (k + 1)
  have := hloop (Word.mergeFuel w.length) ⟨w, Word.initQueue merges w 0 [], [], 0⟩ 0
  simp only [Word.mergeAll, Word.mergeAllFuel]
  revert this
  cases Word.mergeLoop merges true rnd (Word.mergeFuel w.length) ⟨w, Word.initQueue merges w 0 [], [], 0⟩ with
  | panic =>
    cases Word.mergeLoop merges false rnd' (Word.mergeFuel w.length) ⟨w, Word.initQueue merges w 0 [], [], 0⟩ with
    | panic => intro _; rfl
    | ok o => intro h; simp at h
  | ok o =>
    cases Word.mergeLoop merges false rnd' (Word.mergeFuel w.length) ⟨w, Word.initQueue merges w 0 [], [], 0⟩ with
    | panic => intro h; simp at h
    | ok o' =>
      intro h
      cases o <;> cases o' <;> simp_all

/-! ## Concrete cases: two pairs to merge; the last two draws skip, the first merges -/

example : (built [(0, 1), (1, 1), (0, 1), (1, 1)]).mergeAll [((0, 1), ⟨0, 2⟩)] true (fun n => n != 0)
    = .ok (some [⟨2, 2, -1, 2⟩, ⟨0, 1, 0, 3⟩, ⟨1, 1, 2, -1⟩]) := by decide +kernel

example : pairsLeft [((0, 1), ⟨0, 2⟩)] [(2, 2), (0, 1), (1, 1)] = 1 := by decide +kernel

end Verif
