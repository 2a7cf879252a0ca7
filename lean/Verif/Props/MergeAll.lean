import Verif.Lemmas.Word

/-! Properties C38 to C42: merging the symbols of a word. -/

set_option autoImplicit false

namespace Verif

/-! ## Specification -/

/-- The word built by `Add(id, len)` for each element of `l`. -/
def built (l : List (Int × Int)) : Word := l.foldl (fun w p => w.add p.1 p.2) []

/-- What is visible of a word: ids and lengths. -/
def visible (w : Word) : List (Int × Int) := w.map fun s => (s.id, s.length)

/-- One merge of an adjacent pair that is in the table. -/
inductive MergeOne (merges : MergeMap) : List (Int × Int) → List (Int × Int) → Prop
  | mk (A B : List (Int × Int)) (a b : Int × Int) (m : MergeValue) : merges.get a.1 b.1 = some m →
      MergeOne merges (A ++ a :: b :: B) (A ++ (m.id, a.2 + b.2) :: B)

/-- Zero or more steps. -/
inductive Star {α : Type} (R : α → α → Prop) : α → α → Prop
  | refl (a : α) : Star R a a
  | step {a b c : α} : Star R a b → R b c → Star R a c

/-- All lengths are positive. -/
def Positive (l : List (Int × Int)) : Prop := ∀ p ∈ l, 0 < p.2

/-- The canonical BPE step: among all adjacent pairs in the table the one of lowest rank, and
of those the leftmost, is merged. -/
inductive CanonStep (merges : MergeMap) : List (Int × Int) → List (Int × Int) → Prop
  | mk (A B : List (Int × Int)) (a b : Int × Int) (m : MergeValue) : merges.get a.1 b.1 = some m →
      (∀ A' B' a' b' m', A ++ a :: b :: B = A' ++ a' :: b' :: B' → merges.get a'.1 b'.1 = some m' →
        m.rank < m'.rank ∨ (m.rank = m'.rank ∧ A.length ≤ A'.length)) →
      CanonStep merges (A ++ a :: b :: B) (A ++ (m.id, a.2 + b.2) :: B)

/-- No adjacent pair is in the table. -/
def NoPair (merges : MergeMap) (l : List (Int × Int)) : Prop :=
  ∀ A B a b, l = A ++ a :: b :: B → merges.get a.1 b.1 = none

/-! ## The initial state -/

/-- The symbols of a freshly built word, from index `k` on. -/
def symsFrom : Nat → List (Int × Int) → List Sym
  | _, [] => []
  | k, p :: l => ⟨k, p.1, p.2⟩ :: symsFrom (k + 1) l

theorem symsFrom_snoc (k : Nat) (l : List (Int × Int)) (p : Int × Int) :
    symsFrom k (l ++ [p]) = symsFrom k l ++ [⟨k + l.length, p.1, p.2⟩] := by
  induction l generalizing k with
  | nil => simp [symsFrom]
  | cons q l ih =>
    simp only [List.cons_append, symsFrom, ih, List.length_cons]
    rw [show k + 1 + l.length = k + (l.length + 1) by omega]

theorem symsFrom_mem {k : Nat} {l : List (Int × Int)} {s : Sym} (h : s ∈ symsFrom k l) :
    k ≤ s.pos ∧ s.pos < k + l.length ∧ (s.id, s.len) ∈ l := by
  induction l generalizing k with
  | nil => simp [symsFrom] at h
  | cons p l ih =>
    simp only [symsFrom, List.mem_cons] at h
    rcases h with rfl | h
    · simp
    · obtain ⟨h1, h2, h3⟩ := ih h
      simp; exact ⟨by omega, by omega, .inr h3⟩

theorem symsFrom_sorted (k : Nat) (l : List (Int × Int)) : (symsFrom k l).Pairwise fun a b => a.pos < b.pos := by
  induction l generalizing k with
  | nil => exact .nil
  | cons p l ih =>
    refine List.pairwise_cons.2 ⟨?_, ih _⟩
    intro s hs
    have := (symsFrom_mem hs).1
    show k < s.pos
    omega

theorem symsFrom_length (k : Nat) (l : List (Int × Int)) : (symsFrom k l).length = l.length := by
  induction l generalizing k with
  | nil => rfl
  | cons p l ih => simp [symsFrom, ih]

theorem symsFrom_pairs (k : Nat) (l : List (Int × Int)) : (symsFrom k l).map (fun s => (s.id, s.len)) = l := by
  induction l generalizing k with
  | nil => rfl
  | cons p l ih => simp [symsFrom, ih]

theorem symsFrom_pos {k i : Nat} {l : List (Int × Int)} (h1 : k ≤ i) (h2 : i < k + l.length) :
    ∃ s ∈ symsFrom k l, s.pos = i := by
  induction l generalizing k with
  | nil => simp at h2; omega
  | cons p l ih =>
    by_cases e : i = k
    · exact ⟨_, List.mem_cons_self, e.symm⟩
    · obtain ⟨s, hs, he⟩ := ih (k := k + 1) (by omega) (by simp at h2; omega)
      exact ⟨s, List.mem_cons_of_mem _ hs, he⟩

theorem built_snoc (l : List (Int × Int)) (p : Int × Int) : built (l ++ [p]) = (built l).add p.1 p.2 := by
  simp [built]

theorem built_seg (l : List (Int × Int)) : (built l).length = l.length ∧ Seg (built l) (-1) (symsFrom 0 l) (-1) := by
  -- induction from the right
  suffices h : ∀ n (l : List (Int × Int)), l.length = n →
      (built l).length = l.length ∧ Seg (built l) (-1) (symsFrom 0 l) (-1) from h _ l rfl
  intro n
  induction n with
  | zero =>
    intro l hl
    have : l = [] := List.length_eq_zero_iff.1 hl
    subst this
    exact ⟨rfl, trivial⟩
  | succ n ih =>
    intro l hl
    rcases List.eq_nil_or_concat l with rfl | ⟨l', p, rfl⟩
    · simp at hl
    · rw [List.concat_eq_append] at *
      obtain ⟨h1, h2⟩ := ih l' (by simpa using hl)
      rw [built_snoc, symsFrom_snoc]
      rcases List.eq_nil_or_concat l' with rfl | ⟨l'', q, rfl⟩
      · simp [built, Word.add, Seg, symsFrom, headPos]
      · rw [List.concat_eq_append] at *
        rw [symsFrom_snoc, seg_append] at h2
        rw [symsFrom_snoc]
        obtain ⟨hA, hs, -⟩ := h2
        generalize built (l'' ++ [q]) = w at *
        simp only [List.length_append, List.length_singleton] at h1
        simp only [headPos_cons, Nat.zero_add] at hA hs
        have hprev : ((w.length : Int) - 1).toNat = l''.length := by omega
        have hadd : w.add p.1 p.2 = w.set l''.length ⟨q.1, q.2, lastPos (-1) (symsFrom 0 l''), w.length⟩
            ++ [⟨p.1, p.2, l''.length, -1⟩] := by
          unfold Word.add
          simp only
          rw [if_pos (by omega), hprev, hs]
          simp only [Word.setAt, hprev]
          congr 3
          omega
        rw [hadd]
        refine ⟨by simp [h1], ?_⟩
        rw [seg_append, seg_append]
        refine ⟨⟨?_, ?_, trivial⟩, ?_, trivial⟩
        · rw [headPos_cons, Nat.zero_add]
          refine seg_congr ?_ hA
          intro s hs'
          have := (symsFrom_mem hs').2.1
          rw [List.getElem?_append_left (by simp; omega), List.getElem?_set_ne (by omega)]
        · simp only [headPos, Nat.zero_add]
          rw [List.getElem?_append_left (by simp; omega), List.getElem?_set_self (by omega)]
          simp [h1]
        · rw [lastPos_append]
          simp only [Nat.zero_add, List.length_append, List.length_singleton, headPos]
          rw [List.getElem?_append_right (by simp; omega)]
          simp [h1]

theorem built_holds {l : List (Int × Int)} (hp : Positive l) : Holds (built l) (symsFrom 0 l) := by
  obtain ⟨h1, h2⟩ := built_seg l
  refine ⟨h2, symsFrom_sorted 0 l, ?_, ?_, ?_⟩
  · intro s hs; have := (symsFrom_mem hs).2.1; omega
  · intro s hs; exact hp _ (symsFrom_mem hs).2.2
  · intro i hi hn
    obtain ⟨s, hs, he⟩ := symsFrom_pos (k := 0) (i := i) (l := l) (by omega) (by omega)
    exact absurd he (hn s hs)

/-- The entries for all adjacent pairs. -/
def pairEntries (merges : MergeMap) : List Sym → List WordMerge
  | s :: t :: r => (match merges.get s.id t.id with
      | some m => [⟨m, s.pos⟩]
      | none => []) ++ pairEntries merges (t :: r)
  | _ => []

theorem initQueue_eq (merges : MergeMap) (w : Word) (l : List (Int × Int)) (k : Nat) (q : WMHeap)
    (h : visible w = l) :
    Word.initQueue merges w k q = (pairEntries merges (symsFrom k l)).foldl (fun q x => WMHeap.push q x) q := by
  induction w generalizing l k q with
  | nil => subst h; rfl
  | cons a w ih =>
    cases w with
    | nil => subst h; rfl
    | cons b w =>
      subst h
      have := fun q => ih (visible (b :: w)) (k + 1) q rfl
      simp only [visible, List.map_cons, symsFrom, pairEntries, Word.initQueue] at this ⊢
      rw [this]
      cases merges.get a.id b.id <;> simp

theorem pairEntries_length (merges : MergeMap) (L : List Sym) : (pairEntries merges L).length ≤ L.length := by
  induction L with
  | nil => simp [pairEntries]
  | cons s L ih =>
    cases L with
    | nil => simp [pairEntries]
    | cons t L =>
      simp only [pairEntries, List.length_append, List.length_cons] at ih ⊢
      have : (match merges.get s.id t.id with
        | some m => [(⟨m, s.pos⟩ : WordMerge)]
        | none => []).length ≤ 1 := by split <;> simp
      omega

theorem pairEntries_mem {merges : MergeMap} {L : List Sym} {e : WordMerge} :
    e ∈ pairEntries merges L ↔ ∃ A s t B m, L = A ++ s :: t :: B ∧ merges.get s.id t.id = some m ∧ e = ⟨m, s.pos⟩ := by
  induction L with
  | nil => simp [pairEntries]
  | cons x L ih =>
    cases L with
    | nil =>
      simp only [pairEntries, List.not_mem_nil, false_iff]
      rintro ⟨A, s, t, B, m, h, -⟩
      have := congrArg List.length h
      simp at this
      omega
    | cons y L =>
      simp only [pairEntries, List.mem_append, ih]
      constructor
      · rintro (h | ⟨A, s, t, B, m, h1, h2, h3⟩)
        · cases hg : merges.get x.id y.id with
          | none => rw [hg] at h; simp at h
          | some m =>
            rw [hg] at h; simp at h
            exact ⟨[], x, y, L, m, rfl, hg, h⟩
        · exact ⟨x :: A, s, t, B, m, by rw [h1]; rfl, h2, h3⟩
      · rintro ⟨A, s, t, B, m, h1, h2, h3⟩
        cases A with
        | nil =>
          simp at h1
          obtain ⟨rfl, rfl, rfl⟩ := h1
          left; rw [h2]; simp [h3]
        | cons a A =>
          simp at h1
          exact .inr ⟨A, s, t, B, m, h1.2, h2, h3⟩

/-- The state when the main loop starts. -/
def startState (merges : MergeMap) (l : List (Int × Int)) : Word.MState :=
  ⟨built l, Word.initQueue merges (built l) 0 [], [], 0⟩

theorem visible_of_holds_aux (u : Word) (i : Nat) (L : List Sym) (hs : L.Pairwise fun a b => a.pos < b.pos)
    (hin : ∀ s ∈ L, i ≤ s.pos ∧ ∃ x, u[s.pos - i]? = some x ∧ x.id = s.id ∧ x.length = s.len ∧ 0 < s.len)
    (hdead : ∀ j x, u[j]? = some x → (∀ s ∈ L, s.pos ≠ i + j) → x.length = 0) :
    visible (u.filter fun s => s.length != 0) = L.map fun s => (s.id, s.len) := by
  induction u generalizing i L with
  | nil =>
    cases L with
    | nil => rfl
    | cons s L =>
      obtain ⟨-, x, hx, -⟩ := hin s (by simp)
      simp at hx
  | cons a u ih =>
    by_cases hm : ∃ s ∈ L, s.pos = i
    · obtain ⟨s, hsm, hsi⟩ := hm
      cases L with
      | nil => simp at hsm
      | cons s' L =>
        rw [List.pairwise_cons] at hs
        have : s = s' := by
          rcases List.mem_cons.1 hsm with rfl | h
          · rfl
          · have h1 := hs.1 s h
            have h2 := (hin s' (by simp)).1
            omega
        subst this
        obtain ⟨h1, x, hx, h2, h3, h4⟩ := hin s (by simp)
        rw [hsi, Nat.sub_self] at hx
        simp at hx; subst hx
        have hne : (a.length != 0) = true := by simp; omega
        rw [show (a :: u).filter (fun s => s.length != 0) = a :: u.filter (fun s => s.length != 0) from
          List.filter_cons_of_pos (p := fun s : WordSymbol => s.length != 0) hne]
        simp only [visible, List.map_cons] at ih ⊢
        rw [h2, h3]
        congr 1
        apply ih (i + 1) L hs.2
        · intro t ht
          have hlt := hs.1 t ht
          obtain ⟨g1, y, hy, g2⟩ := hin t (by simp [ht])
          refine ⟨by omega, y, ?_, g2⟩
          rw [show t.pos - i = (t.pos - (i + 1)) + 1 by omega] at hy
          simpa using hy
        · intro j x hx hn
          apply hdead (j + 1) x (by simpa using hx)
          intro t ht
          rcases List.mem_cons.1 ht with rfl | ht
          · omega
          · have := hn t ht; omega
    · have h0 := hdead 0 a rfl (fun s hs e => hm ⟨s, hs, by omega⟩)
      rw [List.filter_cons_of_neg (by simp [h0])]
      apply ih (i + 1) L hs
      · intro t ht
        obtain ⟨g1, y, hy, g2⟩ := hin t ht
        have : t.pos ≠ i := fun e => hm ⟨t, ht, e⟩
        refine ⟨by omega, y, ?_, g2⟩
        rw [show t.pos - i = (t.pos - (i + 1)) + 1 by omega] at hy
        simpa using hy
      · intro j x hx hn
        apply hdead (j + 1) x (by simpa using hx)
        intro t ht
        have := hn t ht; omega

theorem seg_get {w : Word} {p nx : Int} {L : List Sym} (h : Seg w p L nx) {s : Sym} (hs : s ∈ L) :
    ∃ x, w[s.pos]? = some x ∧ x.id = s.id ∧ x.length = s.len := by
  induction L generalizing p with
  | nil => simp at hs
  | cons a L ih =>
    rcases List.mem_cons.1 hs with rfl | hs
    · exact ⟨_, h.1, rfl, rfl⟩
    · exact ih h.2 hs

theorem visible_of_holds {w : Word} {L : List Sym} (h : Holds w L) :
    visible (w.filter fun s => s.length != 0) = L.map fun s => (s.id, s.len) := by
  apply visible_of_holds_aux w 0 L h.sorted
  · intro s hs
    obtain ⟨x, h1, h2, h3⟩ := seg_get h.seg hs
    exact ⟨by omega, x, by simpa using h1, h2, h3, h.positive s hs⟩
  · intro j x hx hn
    obtain ⟨y, hy, hy0⟩ := h.dead j (List.getElem?_eq_some_iff.1 hx).1 (fun s hs e => hn s hs (by omega))
    rw [hx] at hy; simp at hy; subst hy; exact hy0

theorem built_visible {l : List (Int × Int)} (hp : Positive l) : visible (built l) = l := by
  have h := visible_of_holds (built_holds hp)
  rw [symsFrom_pairs] at h
  have hlen := (built_seg l).1
  have : (built l).filter (fun s => s.length != 0) = built l := by
    apply List.filter_eq_self.2
    have h1 : ((built l).filter fun s => s.length != 0).length = (built l).length := by
      have := congrArg List.length h
      simp only [visible, List.length_map] at this
      omega
    exact fun a ha => (List.length_filter_eq_length_iff.1 h1) a ha
  rw [this] at h
  exact h

theorem start_good (merges : MergeMap) (d : Bool) {l : List (Int × Int)} (hp : Positive l) :
    Good l.length d (startState merges l) (symsFrom 0 l)
    ∧ (startState merges l).queue.Perm (pairEntries merges (symsFrom 0 l)) := by
  have h0 : WMHeap.Inv [] := by intro k hk hl; simp at hl
  obtain ⟨q1, q2⟩ := foldl_push_spec (pairEntries merges (symsFrom 0 l)) h0
  have he := initQueue_eq merges (built l) l 0 [] (built_visible hp)
  simp only [List.append_nil] at q2
  refine ⟨⟨built_holds hp, (built_seg l).1, ?_, ?_, by simp [startState], fun _ => rfl⟩, ?_⟩
  · simp only [startState]; rw [he]; exact q1
  · intro e hm
    simp only [startState] at hm
    rw [he] at hm
    obtain ⟨A, s, t, B, m, h1, h2, rfl⟩ := pairEntries_mem.1 (q2.mem_iff.1 hm)
    have := (symsFrom_mem (k := 0) (l := l) (s := s) (by rw [h1]; simp)).2.1
    exact ⟨s.pos, rfl, by omega⟩
  · simp only [startState]; rw [he]; exact q2

theorem start_potential (merges : MergeMap) {l : List (Int × Int)} (hp : Positive l) :
    potential (startState merges l) (symsFrom 0 l) ≤ 3 * l.length := by
  have h1 := (start_good merges false hp).2.length_eq
  have h2 := pairEntries_length merges (symsFrom 0 l)
  rw [symsFrom_length] at h2
  unfold potential
  rw [symsFrom_length]
  have : (startState merges l).skip.length = 0 := rfl
  omega

/-- The general rule for `MergeAll`: an invariant of the iterations that holds initially
holds at the end, with an empty queue; the result shows the remaining symbols. -/
theorem mergeAll_loop {merges : MergeMap} {d : Bool} {rnd : Nat → Bool} {l : List (Int × Int)} (hp : Positive l)
    {P : Word.MState → List Sym → Prop} (h0 : P (startState merges l) (symsFrom 0 l))
    (hP : ∀ st st' L L', Good l.length d st L → Good l.length d st' L' →
      StepKind merges d rnd st st' L L' → P st L → P st' L') :
    ∃ w' st' L', (built l).mergeAll merges d rnd = .ok (some w') ∧ visible w' = L'.map (fun s => (s.id, s.len))
      ∧ w' = st'.word.filter (fun s => s.length != 0)
      ∧ Good l.length d st' L' ∧ P st' L' ∧ st'.queue = []
      ∧ Word.mergeLoop merges d rnd (Word.mergeFuel (built l).length) (startState merges l) = .ok (some st') := by
  have hpot := start_potential merges hp
  have hfuel : potential (startState merges l) (symsFrom 0 l) * (3 * l.length + 1) + (startState merges l).queue.length
      ≤ Word.mergeFuel (built l).length := by
    have hq : (startState merges l).queue.length ≤ 3 * l.length := by
      have : (startState merges l).queue.length ≤ potential (startState merges l) (symsFrom 0 l) := by
        unfold potential; omega
      omega
    rw [(built_seg l).1]
    unfold Word.mergeFuel
    have h1 := Nat.mul_le_mul_right (3 * l.length + 1) hpot
    have h2 : 3 * l.length * (3 * l.length + 1) + (3 * l.length + 1) = (3 * l.length + 1) * (3 * l.length + 1) := by
      rw [← Nat.succ_mul]
    have h3 : (3 * l.length + 1) * (3 * l.length + 1) ≤ (4 * l.length + 1) * (4 * l.length + 1) :=
      Nat.mul_le_mul (by omega) (by omega)
    omega
  obtain ⟨st', L', h1, h2, h3, h4⟩ := mergeLoop_rule hP (3 * l.length) _ _ _ (start_good merges d hp).1 h0 hpot hfuel
  refine ⟨_, st', L', ?_, visible_of_holds h2.holds, rfl, h2, h3, h4, h1⟩
  unfold Word.mergeAll Word.mergeAllFuel
  simp only
  rw [show (⟨built l, Word.initQueue merges (built l) 0 [], [], 0⟩ : Word.MState) = startState merges l from rfl, h1]
  rfl

theorem mergeAll_rule {merges : MergeMap} {d : Bool} {rnd : Nat → Bool} {l : List (Int × Int)} (hp : Positive l)
    {P : Word.MState → List Sym → Prop} (h0 : P (startState merges l) (symsFrom 0 l))
    (hP : ∀ st st' L L', Good l.length d st L → Good l.length d st' L' →
      StepKind merges d rnd st st' L L' → P st L → P st' L') :
    ∃ w' st' L', (built l).mergeAll merges d rnd = .ok (some w') ∧ visible w' = L'.map (fun s => (s.id, s.len))
      ∧ w' = st'.word.filter (fun s => s.length != 0)
      ∧ Good l.length d st' L' ∧ P st' L' ∧ st'.queue = [] := by
  obtain ⟨w', st', L', h1, h2, h3, h4, h5, h6, -⟩ := mergeAll_loop (d := d) (rnd := rnd) hp h0 hP
  exact ⟨w', st', L', h1, h2, h3, h4, h5, h6⟩

/-! ## The theorems -/

/-- **C38.** For every merge table, every word built by `Add` with positive lengths and every
sequence of dropout decisions, `MergeAll` terminates without panicking. -/
theorem C38_terminates (merges : MergeMap) (d : Bool) (rnd : Nat → Bool) (l : List (Int × Int)) (hp : Positive l) :
    ∃ w', (built l).mergeAll merges d rnd = .ok (some w') := by
  obtain ⟨w', _, _, h, -⟩ := mergeAll_rule (P := fun _ _ => True) (d := d) (rnd := rnd) (merges := merges) hp trivial
    (fun _ _ _ _ _ _ _ _ => trivial)
  exact ⟨w', h⟩

theorem mergeLoop_more {merges : MergeMap} {d : Bool} {rnd : Nat → Bool} (fuel k : Nat) (st r : Word.MState)
    (h : Word.mergeLoop merges d rnd fuel st = .ok (some r)) :
    Word.mergeLoop merges d rnd (fuel + k) st = .ok (some r) := by
  induction fuel generalizing st with
  | zero =>
    unfold Word.mergeLoop at h ⊢
    by_cases hq : st.queue.length = 0
    · rw [if_pos hq] at h ⊢; exact h
    · rw [if_neg hq] at h; simp at h
  | succ fuel ih =>
    rw [show fuel + 1 + k = (fuel + k) + 1 by omega]
    unfold Word.mergeLoop at h ⊢
    by_cases hq : st.queue.length = 0
    · rw [if_pos hq] at h ⊢; exact h
    · rw [if_neg hq] at h ⊢
      cases hs : Word.mergeStep merges d rnd st with
      | panic => simp only [hs] at h; simp at h
      | ok st' => simp only [hs] at h ⊢; exact ih st' h

/-- **C38, no artefact of the bound.** Any larger number of iterations gives the same result:
the bound in the model never cuts the loop short. -/
theorem C38_bound (merges : MergeMap) (d : Bool) (rnd : Nat → Bool) (l : List (Int × Int)) (hp : Positive l)
    (fuel : Nat) (hf : Word.mergeFuel l.length ≤ fuel) :
    (built l).mergeAllFuel fuel merges d rnd = (built l).mergeAll merges d rnd := by
  obtain ⟨w', h⟩ := C38_terminates merges d rnd l hp
  rw [h]
  unfold Word.mergeAll Word.mergeAllFuel at h
  unfold Word.mergeAllFuel
  rw [(built_seg l).1] at h
  simp only [GoM.bind_eq_ok] at h
  obtain ⟨o, h1, h2⟩ := h
  cases o with
  | none => simp at h2
  | some r =>
    have := mergeLoop_more _ (fuel - Word.mergeFuel l.length) _ _ h1
    rw [show Word.mergeFuel l.length + (fuel - Word.mergeFuel l.length) = fuel by omega] at this
    simp only
    rw [this]
    exact h2

theorem stepKind_mergeOne {merges : MergeMap} {d : Bool} {rnd : Nat → Bool} {st st' : Word.MState} {L L' : List Sym}
    (h : StepKind merges d rnd st st' L L') :
    L' = L ∨ MergeOne merges (L.map fun s => (s.id, s.len)) (L'.map fun s => (s.id, s.len)) := by
  cases h with
  | drop => exact .inl rfl
  | stale => exact .inl rfl
  | merge top rest A s t B m h1 h3 h4 h5 h6 h7 =>
    right
    obtain ⟨rfl, -, hm, hid⟩ := h5
    simp only [List.map_append, List.map_cons, mergedSym]
    have := MergeOne.mk (merges := merges) (A.map fun s => (s.id, s.len)) (B.map fun s => (s.id, s.len))
      (s.id, s.len) (t.id, t.len) m hm
    rw [hid] at this
    exact this

theorem MergeOne.sum {merges : MergeMap} {l l' : List (Int × Int)} (h : MergeOne merges l l') :
    (l'.map (·.2)).sum = (l.map (·.2)).sum := by
  cases h with
  | mk A B a b m hm => simp; omega

theorem MergeOne.positive {merges : MergeMap} {l l' : List (Int × Int)} (h : MergeOne merges l l') (hp : Positive l) :
    Positive l' := by
  cases h with
  | mk A B a b m hm =>
    intro p hpm
    simp only [List.mem_append, List.mem_cons] at hpm
    rcases hpm with h | rfl | h
    · exact hp p (by simp [h])
    · have := hp a (by simp)
      have := hp b (by simp)
      simp only; omega
    · exact hp p (by simp [h])

theorem Star.sum {merges : MergeMap} {l l' : List (Int × Int)} (h : Star (MergeOne merges) l l') :
    (l'.map (·.2)).sum = (l.map (·.2)).sum := by
  induction h with
  | refl => rfl
  | step _ h ih => rw [h.sum, ih]

theorem Star.positive {merges : MergeMap} {l l' : List (Int × Int)} (h : Star (MergeOne merges) l l') (hp : Positive l) :
    Positive l' := by
  induction h with
  | refl => exact hp
  | step _ h ih => exact h.positive ih

/-- **C39.** For every merge table, word and dropout outcome, the symbols after `MergeAll`
arise from the initial ones by merges of adjacent pairs present in the table; the sum of the
lengths is unchanged and all lengths stay positive. -/
theorem C39_table_merges (merges : MergeMap) (d : Bool) (rnd : Nat → Bool) (l : List (Int × Int)) (hp : Positive l)
    {w' : Word} (h : (built l).mergeAll merges d rnd = .ok (some w')) :
    Star (MergeOne merges) l (visible w')
    ∧ ((visible w').map (·.2)).sum = (l.map (·.2)).sum ∧ Positive (visible w') := by
  obtain ⟨w'', st', L', h1, h2, -, -, h3, -⟩ := mergeAll_rule
    (P := fun _ L => Star (MergeOne merges) l (L.map fun s => (s.id, s.len))) (d := d) (rnd := rnd) (merges := merges) hp
    (by rw [symsFrom_pairs]; exact .refl _)
    (by
      intro st st' L L' _ _ hk hs
      rcases stepKind_mergeOne hk with rfl | hm
      · exact hs
      · exact .step hs hm)
  rw [h] at h1
  simp at h1; subst h1
  rw [← h2] at h3
  exact ⟨h3, h3.sum, h3.positive hp⟩

/-- Every present pair of the table has its entry in the queue. -/
def Complete (merges : MergeMap) (q : List WordMerge) (L : List Sym) : Prop :=
  ∀ A s t B m, L = A ++ s :: t :: B → merges.get s.id t.id = some m → (⟨m, s.pos⟩ : WordMerge) ∈ q

theorem sorted_pos_inj {A A' B B' : List Sym} {s s' : Sym}
    (hs : (A ++ s :: B).Pairwise fun a b => a.pos < b.pos) (e : A ++ s :: B = A' ++ s' :: B')
    (hp : s.pos = s'.pos) : A = A' ∧ s = s' ∧ B = B' := by
  have hs' := hs
  rw [e] at hs'
  rw [List.append_eq_append_iff] at e
  rcases e with ⟨as, rfl, h⟩ | ⟨bs, rfl, h⟩
  · cases as with
    | nil => simp at h ⊢; exact h
    | cons x as =>
      simp at h
      obtain ⟨rfl, rfl⟩ := h
      rw [List.pairwise_append] at hs
      have := (List.pairwise_cons.1 hs.2.1).1 s' (by simp)
      omega
  · cases bs with
    | nil => simp at h ⊢; exact ⟨h.1.symm, h.2.symm⟩
    | cons x bs =>
      simp at h
      obtain ⟨rfl, rfl⟩ := h
      rw [List.pairwise_append] at hs'
      have := (List.pairwise_cons.1 hs'.2.1).1 s (by simp)
      omega

/-- Where a pair of the new list comes from. -/
theorem pair_after_merge {A B A' B' : List Sym} {c x y : Sym}
    (e : A ++ c :: B = A' ++ x :: y :: B') :
    (∃ A'', A = A'' ++ [x] ∧ A' = A'' ∧ y = c ∧ B' = B)
    ∨ (A' = A ∧ x = c ∧ B = y :: B')
    ∨ (∃ C, A = A' ++ x :: y :: C ∧ B' = C ++ c :: B)
    ∨ (∃ C, B = C ++ x :: y :: B' ∧ A' = A ++ c :: C) := by
  rw [List.append_eq_append_iff] at e
  rcases e with ⟨as, rfl, h⟩ | ⟨bs, rfl, h⟩
  · cases as with
    | nil => simp at h; exact .inr (.inl ⟨by simp, h.1.symm, h.2⟩)
    | cons z as =>
      simp at h
      obtain ⟨rfl, rfl⟩ := h
      exact .inr (.inr (.inr ⟨as, rfl, rfl⟩))
  · cases bs with
    | nil => simp at h; exact .inr (.inl ⟨by simp, h.1, h.2.symm⟩)
    | cons z bs =>
      simp at h
      obtain ⟨rfl, h⟩ := h
      cases bs with
      | nil => simp at h; exact .inl ⟨A', by simp, rfl, h.1, h.2⟩
      | cons z' bs =>
        simp at h
        obtain ⟨rfl, rfl⟩ := h
        exact .inr (.inr (.inl ⟨bs, rfl, rfl⟩))

theorem newEntries_prev {merges : MergeMap} {A B : List Sym} {c x : Sym} {m : MergeValue}
    (h : merges.get x.id c.id = some m) : (⟨m, x.pos⟩ : WordMerge) ∈ newEntries merges (A ++ [x]) c B := by
  unfold newEntries
  simp [h]

theorem newEntries_next {merges : MergeMap} {A B : List Sym} {c y : Sym} {m : MergeValue}
    (h : merges.get c.id y.id = some m) : (⟨m, c.pos⟩ : WordMerge) ∈ newEntries merges A c (y :: B) := by
  unfold newEntries
  simp [h]

theorem newEntries_mem {merges : MergeMap} {A B : List Sym} {c : Sym} {e : WordMerge}
    (h : e ∈ newEntries merges A c B) :
    (∃ A' x m, A = A' ++ [x] ∧ merges.get x.id c.id = some m ∧ e = ⟨m, x.pos⟩)
    ∨ (∃ y B' m, B = y :: B' ∧ merges.get c.id y.id = some m ∧ e = ⟨m, c.pos⟩) := by
  unfold newEntries at h
  rcases List.mem_append.1 h with h | h
  · left
    rcases List.eq_nil_or_concat A with rfl | ⟨A', x, rfl⟩
    · simp at h
    · rw [List.concat_eq_append] at h ⊢
      simp only [List.getLast?_append, List.getLast?_singleton, Option.some_or] at h
      cases hg : merges.get x.id c.id with
      | none => rw [hg] at h; simp at h
      | some m => rw [hg] at h; simp at h; exact ⟨A', x, m, rfl, hg, h⟩
  · right
    cases B with
    | nil => simp at h
    | cons y B' =>
      simp only [List.head?_cons] at h
      cases hg : merges.get c.id y.id with
      | none => rw [hg] at h; simp at h
      | some m => rw [hg] at h; simp at h; exact ⟨y, B', m, rfl, hg, h⟩

theorem complete_step {merges : MergeMap} {rnd : Nat → Bool} {n : Nat} {st st' : Word.MState} {L L' : List Sym}
    (hg : Good n false st L) (hk : StepKind merges false rnd st st' L L') (hc : Complete merges st.queue L) :
    Complete merges st'.queue L' := by
  have hskip := hg.noSkip rfl
  have hsort := hg.holds.sorted
  cases hk with
  | drop top rest h1 => simp at h1
  | stale top rest h1 h3 h4 h5 h6 h7 =>
    intro A s t B m e hm
    have := h3.mem_iff.1 (hc A s t B m e hm)
    rw [hskip] at h6
    rw [h6.mem_iff]
    rcases List.mem_cons.1 this with rfl | h
    · exact absurd ⟨e, rfl, hm, rfl⟩ (h5 A s t B m)
    · simpa using h
  | merge top rest A s t B m h1 h3 h4 h5 h6 h7 =>
    obtain ⟨rfl, hpos, hm, hid⟩ := h5
    rw [hskip] at h6
    intro A' x y B' m' e hm'
    rw [h6.mem_iff]
    -- entries of other positions survive
    have keep : ∀ z, (⟨m', z⟩ : WordMerge) ∈ st.queue → z ≠ (s.pos : Int) → (⟨m', z⟩ : WordMerge) ∈ rest := by
      intro z hz hne
      rcases List.mem_cons.1 (h3.mem_iff.1 hz) with h | h
      · rw [← h] at hpos; exact absurd hpos hne
      · exact h
    rw [List.pairwise_append] at hsort
    obtain ⟨-, sR, sAR⟩ := hsort
    rw [List.pairwise_cons] at sR
    rcases pair_after_merge e with ⟨A'', rfl, rfl, rfl, rfl⟩ | ⟨rfl, rfl, rfl⟩ | ⟨C, rfl, rfl⟩ | ⟨C, rfl, rfl⟩
    · exact List.mem_append_left _ (newEntries_prev hm')
    · exact List.mem_append_left _ (newEntries_next hm')
    · apply List.mem_append_right
      have := hc A' x y (C ++ s :: t :: B) m' (by simp) hm'
      have hlt := sAR x (by simp) s (by simp)
      simpa using keep _ this (by omega)
    · apply List.mem_append_right
      have := hc (A ++ s :: t :: C) x y B' m' (by simp) hm'
      have hlt := sR.1 x (by simp)
      simpa using keep _ this (by omega)

theorem complete_start (merges : MergeMap) {l : List (Int × Int)} (hp : Positive l) :
    Complete merges (startState merges l).queue (symsFrom 0 l) := by
  intro A s t B m e hm
  rw [(start_good merges false hp).2.mem_iff]
  exact pairEntries_mem.2 ⟨A, s, t, B, m, e, hm, rfl⟩

theorem map_pairs_split {L : List Sym} {A B : List (Int × Int)} {a b : Int × Int}
    (h : L.map (fun s => (s.id, s.len)) = A ++ a :: b :: B) :
    ∃ A' s t B', L = A' ++ s :: t :: B' ∧ A'.map (fun s => (s.id, s.len)) = A ∧ (s.id, s.len) = a
      ∧ (t.id, t.len) = b ∧ B'.map (fun s => (s.id, s.len)) = B := by
  rw [List.map_eq_append_iff] at h
  obtain ⟨A', R, rfl, h1, h2⟩ := h
  cases R with
  | nil => simp at h2
  | cons s R =>
    cases R with
    | nil => simp at h2
    | cons t B' =>
      simp at h2
      exact ⟨A', s, t, B', rfl, h1, h2.1, h2.2.1, h2.2.2⟩

/-- **C41.** Without dropout, after `MergeAll` no adjacent pair of symbols is in the table. -/
theorem C41_no_pair_left (merges : MergeMap) (rnd : Nat → Bool) (l : List (Int × Int)) (hp : Positive l)
    {w' : Word} (h : (built l).mergeAll merges false rnd = .ok (some w')) : NoPair merges (visible w') := by
  obtain ⟨w'', st', L', h1, h2, -, -, h3, h4⟩ := mergeAll_rule
    (P := fun st L => Complete merges st.queue L) (d := false) (rnd := rnd) (merges := merges) hp
    (complete_start merges hp) (fun st st' L L' hg _ hk hc => complete_step hg hk hc)
  rw [h] at h1
  simp at h1; subst h1
  intro A B a b e
  rw [h2] at e
  obtain ⟨A', s, t, B', e1, -, rfl, rfl, -⟩ := map_pairs_split e
  cases hg : merges.get s.id t.id with
  | none => rfl
  | some m =>
    have := h3 A' s t B' m e1 hg
    rw [h4] at this
    simp at this

/-- **C42.** If every dropout draw skips, `MergeAll` leaves the word as it was. -/
theorem C42_full_dropout (merges : MergeMap) (l : List (Int × Int)) (hp : Positive l) :
    (built l).mergeAll merges true (fun _ => true) = .ok (some (built l)) := by
  obtain ⟨w', st', L', h1, h2, h3, -, h4, -⟩ := mergeAll_rule
    (P := fun st _ => st.word = built l) (d := true) (rnd := fun _ => true) (merges := merges) hp rfl
    (by
      intro st st' L L' _ _ hk hw
      cases hk with
      | drop _ _ _ _ _ _ _ _ h => rw [h, hw]
      | stale _ _ h => simp at h
      | merge _ _ _ _ _ _ _ h => simp at h)
  rw [h1, h3, h4]
  congr 2
  apply List.filter_eq_self.2
  intro s hs
  have hv := built_visible hp
  have : (s.id, s.length) ∈ l := by
    rw [← hv]
    exact List.mem_map.2 ⟨s, hs, rfl⟩
  have := hp _ this
  simp only at this
  simp
  omega

/-! ## Concrete cases: a b a b with a b merging to 2 and 2 2 merging to 3 -/

/-- C38, C39, C41: without dropout everything is merged. -/
example : (built [(0, 1), (1, 2), (0, 1), (1, 2)]).mergeAll [((0, 1), ⟨0, 2⟩), ((2, 2), ⟨1, 3⟩)] false (fun _ => false)
    = .ok (some [⟨3, 6, -1, -1⟩]) := by decide +kernel

/-- C38, C39: the first draw skips the first pair until the second has been merged; then both are. -/
example : (built [(0, 1), (1, 2), (0, 1), (1, 2)]).mergeAll [((0, 1), ⟨0, 2⟩)] true (fun n => n == 0)
    = .ok (some [⟨2, 3, -1, 2⟩, ⟨2, 3, 0, -1⟩]) := by decide +kernel

/-- C39: entries skipped last stay unmerged: dropout leaves pairs, so C41 needs its hypothesis. -/
example : (built [(0, 1), (1, 2), (0, 1), (1, 2)]).mergeAll [((0, 1), ⟨0, 2⟩)] true (fun n => n == 1)
    = .ok (some [⟨2, 3, -1, 2⟩, ⟨0, 1, 0, 3⟩, ⟨1, 2, 2, -1⟩]) := by decide +kernel

/-- C42. -/
example : (built [(0, 1), (1, 2)]).mergeAll [((0, 1), ⟨0, 2⟩)] true (fun _ => true)
    = .ok (some [⟨0, 1, -1, 1⟩, ⟨1, 2, 0, -1⟩]) := by decide +kernel

/-- Lengths must be positive: a symbol of length 0 counts as removed. -/
example : (built [(0, 0), (1, 1)]).mergeAll [] false (fun _ => false) = .ok (some [⟨1, 1, 0, -1⟩]) := by decide +kernel

/-- A merged word is not a built one: the indices in it are stale, and merging it again can
crash. -/
theorem C38_second_merge_panics :
    let w := [((0 : Int), (1 : Int)), (1, 1), (2, 1), (3, 1)]
    ∃ w', (built w).mergeAll [((0, 1), ⟨0, 4⟩)] false (fun _ => false) = .ok (some w')
      ∧ w'.mergeAll [((2, 3), ⟨0, 5⟩)] false (fun _ => false) = .panic := by
  exact ⟨[⟨4, 2, -1, 2⟩, ⟨2, 1, 0, 3⟩, ⟨3, 1, 2, -1⟩], by decide +kernel, by decide +kernel⟩

end Verif
