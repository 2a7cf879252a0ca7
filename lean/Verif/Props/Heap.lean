import Verif.Model.Heap
import Verif.Model.Notation

/-! Property C43: the merge queue. -/

set_option autoImplicit false

namespace Verif

/-- The order of the queue: by rank, then by position. -/
def WordMerge.Le (a b : WordMerge) : Prop :=
  a.value.rank < b.value.rank ∨ (a.value.rank = b.value.rank ∧ a.pos ≤ b.pos)

theorem WordMerge.less_iff (a b : WordMerge) : a.less b = true ↔ ¬b.Le a := by
  unfold less Le
  split
  · simp only [decide_eq_true_eq]; omega
  · simp only [decide_eq_true_eq]; omega

theorem WordMerge.Le.refl (a : WordMerge) : a.Le a := .inr ⟨rfl, by omega⟩

theorem WordMerge.Le.trans {a b c : WordMerge} (h : a.Le b) (h' : b.Le c) : a.Le c := by
  unfold Le at *; omega

theorem WordMerge.Le.total (a b : WordMerge) : a.Le b ∨ b.Le a := by
  unfold Le; omega

theorem WordMerge.Le.of_not {a b : WordMerge} (h : ¬a.Le b) : b.Le a := by
  unfold Le at *; omega

namespace WMHeap

/-- The heap shape: every element is at least its parent. -/
def Inv (h : WMHeap) : Prop := ∀ k, 0 < k → k < h.length → (h.at' ((k - 1) / 2)).Le (h.at' k)

theorem at'_eq {h : WMHeap} {i : Nat} (hi : i < h.length) : h.at' i = h[i] := by
  simp [at', List.getD_eq_getElem?_getD, hi]

theorem length_swap (h : WMHeap) (i j : Nat) : (h.swap i j).length = h.length := by simp [swap]

theorem at'_swap {h : WMHeap} {i j : Nat} (hi : i < h.length) (hj : j < h.length) (k : Nat) :
    (h.swap i j).at' k = if k = j then h.at' i else if k = i then h.at' j else h.at' k := by
  unfold swap at'
  simp only [List.getD_eq_getElem?_getD, List.getElem?_set, List.length_set]
  by_cases hkj : k = j
  · subst hkj; simp [hj]
  · rw [if_neg (Ne.symm hkj), if_neg hkj]
    by_cases hki : k = i
    · subst hki; simp [hi]
    · rw [if_neg (Ne.symm hki), if_neg hki]

theorem swap_perm {h : WMHeap} {i j : Nat} (hi : i < h.length) (hj : j < h.length) :
    (h.swap i j).Perm h := by
  unfold swap
  rw [at'_eq hi, at'_eq hj]
  exact List.set_set_perm hi hj

theorem swap_take_perm {h : WMHeap} {i j n : Nat} (hi : i < n) (hj : j < n) (hn : n ≤ h.length) :
    ((h.swap i j).take n).Perm (h.take n) := by
  have e : (h.swap i j).take n = WMHeap.swap (h.take n) i j := by
    unfold swap
    rw [List.take_set, List.take_set]
    have : ∀ k, k < n → WMHeap.at' (List.take n h) k = h.at' k := by
      intro k hk
      simp [at', List.getD_eq_getElem?_getD, hk]
    rw [this i hi, this j hj]
  rw [e]
  exact swap_perm (by simp; omega) (by simp; omega)

/-! ## `up` -/

/-- The heap shape except that the element at `j` may be too small. -/
def UpInv (h : WMHeap) (j : Nat) : Prop :=
  (∀ k, 0 < k → k < h.length → k ≠ j → (h.at' ((k - 1) / 2)).Le (h.at' k))
  ∧ (∀ k, 0 < k → k < h.length → (k - 1) / 2 = j → 0 < j → (h.at' ((j - 1) / 2)).Le (h.at' k))

theorem up_spec (fuel : Nat) (h : WMHeap) (j : Nat) (hf : j ≤ fuel) (hj : j < h.length) (hu : UpInv h j) :
    Inv (up fuel h j) ∧ (up fuel h j).Perm h := by
  induction fuel generalizing h j with
  | zero =>
    have : j = 0 := by omega
    subst this
    exact ⟨fun k hk hl => hu.1 k hk hl (by omega), List.Perm.refl _⟩
  | succ fuel ih =>
    simp only [up]
    split
    · rename_i hc
      refine ⟨?_, List.Perm.refl _⟩
      intro k hk hl
      by_cases hkj : k = j
      · subst hkj
        rcases hc with hc | hc
        · omega
        · simp only [less, Bool.not_eq_true'] at hc
          have : ¬(h.at' k).less (h.at' ((k - 1) / 2)) = true := by rw [hc]; simp
          rw [WordMerge.less_iff] at this
          exact Classical.not_not.1 this
      · exact hu.1 k hk hl hkj
    · rename_i hc
      simp only [not_or, Bool.not_eq_true', Bool.not_eq_false] at hc
      obtain ⟨hne, hlt⟩ := hc
      have hj0 : 0 < j := by omega
      have hi : (j - 1) / 2 < h.length := by omega
      unfold less at hlt
      rw [WordMerge.less_iff] at hlt
      have hle := WordMerge.Le.of_not hlt
      have hsw := at'_swap hi hj
      obtain ⟨r1, r2⟩ := ih (h.swap ((j - 1) / 2) j) ((j - 1) / 2) (by omega) (by rw [length_swap]; exact hi) (by
        constructor
        · intro k hk hl hki
          rw [length_swap] at hl
          rw [hsw k, hsw ((k - 1) / 2)]
          by_cases h1 : k = j
          · subst h1
            rw [if_pos rfl, if_neg hne, if_pos rfl]
            exact hle
          · rw [if_neg h1, if_neg hki]
            by_cases h2 : (k - 1) / 2 = j
            · rw [if_pos h2]
              exact hu.2 k hk hl h2 hj0
            · rw [if_neg h2]
              by_cases h3 : (k - 1) / 2 = (j - 1) / 2
              · rw [if_pos h3]
                have := hu.1 k hk hl h1
                rw [h3] at this
                exact hle.trans this
              · rw [if_neg h3]
                exact hu.1 k hk hl h1
        · intro k hk hl hki hi0
          rw [length_swap] at hl
          have hpar := hu.1 ((j - 1) / 2) hi0 hi hne
          rw [hsw k, hsw (((j - 1) / 2 - 1) / 2)]
          rw [if_neg (by omega), if_neg (by omega)]
          by_cases h1 : k = j
          · rw [if_pos h1]; exact hpar
          · rw [if_neg h1, if_neg (by omega)]
            have := hu.1 k hk hl h1
            rw [hki] at this
            exact hpar.trans this)
      exact ⟨r1, r2.trans (swap_perm hi hj)⟩

/-! ## `down` -/

/-- The heap shape of the first `n` elements except that the element at `i` may be too large. -/
def DownInv (h : WMHeap) (i n : Nat) : Prop :=
  (∀ k, 0 < k → k < n → (k - 1) / 2 ≠ i → (h.at' ((k - 1) / 2)).Le (h.at' k))
  ∧ (∀ k, 0 < k → k < n → (k - 1) / 2 = i → 0 < i → (h.at' ((i - 1) / 2)).Le (h.at' k))

theorem down_spec (fuel : Nat) (h : WMHeap) (i n : Nat) (hf : n ≤ i + fuel) (hn : n ≤ h.length)
    (hd : DownInv h i n) :
    (∀ k, 0 < k → k < n → ((down fuel h i n).at' ((k - 1) / 2)).Le ((down fuel h i n).at' k))
    ∧ (down fuel h i n).length = h.length
    ∧ ((down fuel h i n).take n).Perm (h.take n)
    ∧ ∀ k, n ≤ k → (down fuel h i n).at' k = h.at' k := by
  induction fuel generalizing h i with
  | zero =>
    exact ⟨fun k hk hl => hd.1 k hk hl (by omega), rfl, List.Perm.refl _, fun _ _ => rfl⟩
  | succ fuel ih =>
    simp only [down]
    by_cases h1 : 2 * i + 1 ≥ n
    · rw [if_pos h1]
      exact ⟨fun k hk hl => hd.1 k hk hl (by omega), rfl, List.Perm.refl _, fun _ _ => rfl⟩
    · rw [if_neg h1]
      -- the smaller child
      generalize hjdef : (if 2 * i + 1 + 1 < n ∧ h.less (2 * i + 1 + 1) (2 * i + 1) = true then 2 * i + 1 + 1 else 2 * i + 1) = j
      have hj : (j - 1) / 2 = i ∧ j < n ∧ i < j ∧ ∀ k, 0 < k → k < n → (k - 1) / 2 = i → (h.at' j).Le (h.at' k) := by
        by_cases hc : 2 * i + 1 + 1 < n ∧ h.less (2 * i + 1 + 1) (2 * i + 1) = true
        · rw [if_pos hc] at hjdef
          subst hjdef
          have h2 := hc.2
          unfold less at h2
          rw [WordMerge.less_iff] at h2
          refine ⟨by omega, by omega, by omega, ?_⟩
          intro k hk hl hp
          have : k = 2 * i + 1 ∨ k = 2 * i + 1 + 1 := by omega
          rcases this with rfl | rfl
          · exact WordMerge.Le.of_not h2
          · exact .refl _
        · rw [if_neg hc] at hjdef
          subst hjdef
          refine ⟨by omega, by omega, by omega, ?_⟩
          intro k hk hl hp
          have : k = 2 * i + 1 ∨ k = 2 * i + 1 + 1 := by omega
          rcases this with rfl | rfl
          · exact .refl _
          · have h2 : ¬(h.at' (2 * i + 1 + 1)).less (h.at' (2 * i + 1)) = true := fun e => hc ⟨hl, e⟩
            rw [WordMerge.less_iff] at h2
            exact Classical.not_not.1 h2
      clear hjdef
      obtain ⟨hp, hjn, hij, hmin⟩ := hj
      split
      · rename_i hc
        refine ⟨?_, rfl, List.Perm.refl _, fun _ _ => rfl⟩
        intro k hk hl
        by_cases hki : (k - 1) / 2 = i
        · rw [hki]
          simp only [less, Bool.not_eq_true'] at hc
          have : ¬(h.at' j).less (h.at' i) = true := by rw [hc]; simp
          rw [WordMerge.less_iff] at this
          exact (Classical.not_not.1 this).trans (hmin k hk hl hki)
        · exact hd.1 k hk hl hki
      · rename_i hc
        simp only [Bool.not_eq_true', Bool.not_eq_false, less] at hc
        rw [WordMerge.less_iff] at hc
        have hle := WordMerge.Le.of_not hc
        have hsw := at'_swap (h := h) (i := i) (j := j) (by omega) (by omega)
        obtain ⟨r1, r2, r3, r4⟩ := ih (h.swap i j) j (by omega) (by rw [length_swap]; exact hn) (by
          constructor
          · intro k hk hl hkj
            rw [hsw k, hsw ((k - 1) / 2)]
            rw [if_neg hkj]
            by_cases h2 : (k - 1) / 2 = i
            · rw [if_pos h2]
              by_cases h3 : k = j
              · rw [if_pos h3]; exact hle
              · rw [if_neg h3, if_neg (by omega)]
                exact hmin k hk hl h2
            · rw [if_neg h2]
              by_cases h3 : k = j
              · subst h3; exact absurd hp h2
              · rw [if_neg h3]
                by_cases h4 : k = i
                · subst h4
                  rw [if_pos rfl]
                  exact hd.2 j (by omega) hjn hp hk
                · rw [if_neg h4]
                  exact hd.1 k hk hl h2
          · intro k hk hl hkj hj0
            rw [hsw k, hsw ((j - 1) / 2), hp]
            rw [if_neg (by omega), if_pos rfl, if_neg (by omega), if_neg (by omega)]
            have := hd.1 k hk hl (by omega)
            rw [hkj] at this
            exact this)
        refine ⟨r1, by rw [r2, length_swap], r3.trans (swap_take_perm (by omega) hjn hn), ?_⟩
        intro k hk
        rw [r4 k hk, hsw k, if_neg (by omega), if_neg (by omega)]

/-! ## Push and pop -/

theorem push_spec {h : WMHeap} (hi : Inv h) (x : WordMerge) : Inv (h.push x) ∧ (h.push x).Perm (x :: h) := by
  have hat : ∀ k, k < h.length → WMHeap.at' (h ++ [x]) k = h.at' k := by
    intro k hk
    simp [at', List.getD_eq_getElem?_getD, List.getElem?_append_left hk]
  obtain ⟨h1, h2⟩ := up_spec h.length (h ++ [x]) h.length (by omega) (by simp) (by
    constructor
    · intro k hk hl hne
      simp at hl
      rw [hat k (by omega), hat _ (by omega)]
      exact hi k hk (by omega)
    · intro k hk hl hp h0
      simp at hl
      omega)
  exact ⟨h1, h2.trans (List.perm_append_singleton x h)⟩

theorem Inv.least {h : WMHeap} (hi : Inv h) (k : Nat) (hk : k < h.length) : (h.at' 0).Le (h.at' k) := by
  induction k using Nat.strongRecOn with
  | _ k ih =>
    by_cases h0 : k = 0
    · subst h0; exact .refl _
    · exact (ih ((k - 1) / 2) (by omega) (by omega)).trans (hi k (by omega) hk)

theorem pop_spec {h : WMHeap} (hi : Inv h) (hne : h ≠ []) :
    Inv h.pop.2 ∧ h.Perm (h.pop.1 :: h.pop.2) ∧ (∀ y ∈ h, h.pop.1.Le y) := by
  have hlen : 0 < h.length := List.length_pos_iff.2 hne
  have hsw := at'_swap (h := h) (i := 0) (j := h.length - 1) (by omega) (by omega)
  obtain ⟨r1, r2, r3, r4⟩ := down_spec (h.length - 1) (h.swap 0 (h.length - 1)) 0 (h.length - 1) (by omega)
    (by rw [length_swap]; omega) (by
      constructor
      · intro k hk hl hp
        rw [hsw k, hsw ((k - 1) / 2), if_neg (by omega), if_neg (by omega), if_neg (by omega), if_neg (by omega)]
        exact hi k hk (by omega)
      · intro k hk hl hp h0
        omega)
  have hpop : h.pop = ((down (h.length - 1) (h.swap 0 (h.length - 1)) 0 (h.length - 1)).at' (h.length - 1),
      (down (h.length - 1) (h.swap 0 (h.length - 1)) 0 (h.length - 1)).take (h.length - 1)) := rfl
  generalize hd : down (h.length - 1) (h.swap 0 (h.length - 1)) 0 (h.length - 1) = d at *
  rw [length_swap] at r2
  have htop : d.at' (h.length - 1) = h.at' 0 := by
    rw [r4 _ (by omega), hsw, if_pos rfl]
  rw [hpop]
  simp only
  rw [htop]
  refine ⟨?_, ?_, ?_⟩
  · intro k hk hl
    simp only [List.length_take] at hl
    have hat : ∀ q, q < h.length - 1 → WMHeap.at' (d.take (h.length - 1)) q = d.at' q := by
      intro q hq
      simp [at', List.getD_eq_getElem?_getD, hq]
    rw [hat k (by omega), hat _ (by omega)]
    exact r1 k hk (by omega)
  · have hs := swap_perm (h := h) (i := 0) (j := h.length - 1) (by omega) (by omega)
    have hlast : (h.swap 0 (h.length - 1)) = (h.swap 0 (h.length - 1)).take (h.length - 1) ++ [h.at' 0] := by
      have hl := length_swap h 0 (h.length - 1)
      have ha := hsw (h.length - 1)
      rw [if_pos rfl] at ha
      generalize h.swap 0 (h.length - 1) = w at *
      rw [at'_eq (by omega)] at ha
      rw [← ha]
      have := List.take_append_getElem (l := w) (i := h.length - 1) (by omega)
      rw [this, List.take_of_length_le (by omega)]
    rw [hlast] at hs
    exact hs.symm.trans ((List.perm_append_singleton _ _).trans ((r3.symm).cons _))
  · intro y hy
    obtain ⟨k, hk, rfl⟩ := List.mem_iff_getElem.1 hy
    rw [← at'_eq hk]
    exact hi.least k hk

/-- Queues obtained from the empty one by pushes and pops. -/
inductive Reach : WMHeap → Prop
  | empty : Reach []
  | push {h : WMHeap} (x : WordMerge) : Reach h → Reach (h.push x)
  | pop {h : WMHeap} : Reach h → h ≠ [] → Reach h.pop.2

theorem Reach.inv {h : WMHeap} (hr : Reach h) : Inv h := by
  induction hr with
  | empty => intro k hk hl; simp at hl
  | push x _ ih => exact (push_spec ih x).1
  | pop _ hne ih => exact (pop_spec ih hne).1

end WMHeap

/-- **C43.** For any queue reached by pushes and pops: a push adds the element and nothing
else; a pop of a non-empty queue removes exactly the returned element, which is least by
(rank, position) among all elements. -/
theorem C43_priority_queue {h : WMHeap} (hr : WMHeap.Reach h) :
    (∀ x, (h.push x).Perm (x :: h))
    ∧ (h ≠ [] → h.Perm (h.pop.1 :: h.pop.2) ∧ ∀ y ∈ h, h.pop.1.Le y) :=
  ⟨fun x => (WMHeap.push_spec hr.inv x).2,
   fun hne => ⟨(WMHeap.pop_spec hr.inv hne).2.1, (WMHeap.pop_spec hr.inv hne).2.2⟩⟩

/-- Popping everything. -/
def WMHeap.drain : Nat → WMHeap → List WordMerge
  | 0, _ => []
  | n + 1, h => h.pop.1 :: WMHeap.drain n h.pop.2

/-- **C43, whole runs.** Pushing any elements and popping all returns them sorted. -/
theorem C43_sorts (xs : List WordMerge) :
    let h := xs.foldl (fun h x => WMHeap.push h x) []
    (WMHeap.drain xs.length h).Perm xs ∧ (WMHeap.drain xs.length h).Pairwise WordMerge.Le := by
  have push_all : ∀ (xs : List WordMerge) (h : WMHeap), WMHeap.Reach h →
      WMHeap.Reach (xs.foldl (fun h x => WMHeap.push h x) h)
      ∧ (xs.foldl (fun h x => WMHeap.push h x) h).Perm (xs ++ h) := by
    intro xs
    induction xs with
    | nil => intro h hr; exact ⟨hr, List.Perm.refl _⟩
    | cons x xs ih =>
      intro h hr
      obtain ⟨h1, h2⟩ := ih (h.push x) (.push x hr)
      refine ⟨h1, h2.trans ?_⟩
      exact (((C43_priority_queue hr).1 x).append_left xs).trans List.perm_middle
  have drain_all : ∀ (n : Nat) (h : WMHeap), WMHeap.Reach h → h.length = n →
      (WMHeap.drain n h).Perm h ∧ (WMHeap.drain n h).Pairwise WordMerge.Le := by
    intro n
    induction n with
    | zero =>
      intro h hr hl
      have : h = [] := List.length_eq_zero_iff.1 hl
      subst this
      exact ⟨List.Perm.refl _, .nil⟩
    | succ n ih =>
      intro h hr hl
      have hne : h ≠ [] := by rintro rfl; simp at hl
      obtain ⟨p1, p2⟩ := (C43_priority_queue hr).2 hne
      obtain ⟨q1, q2⟩ := ih h.pop.2 (.pop hr hne) (by have := p1.length_eq; simp at this; omega)
      refine ⟨(q1.cons _).trans p1.symm, List.pairwise_cons.2 ⟨?_, q2⟩⟩
      intro y hy
      exact p2 y (p1.mem_iff.2 (List.mem_cons_of_mem _ (q1.mem_iff.1 hy)))
  obtain ⟨h1, h2⟩ := push_all xs [] .empty
  obtain ⟨h3, h4⟩ := drain_all xs.length _ h1 (by have := h2.length_eq; simpa using this)
  exact ⟨h3.trans (by simpa using h2), h4⟩

example :
    let h := [⟨⟨3, 7⟩, 0⟩, ⟨⟨1, 8⟩, 5⟩, ⟨⟨1, 9⟩, 2⟩].foldl (fun h x => WMHeap.push h x) ([] : WMHeap)
    WMHeap.drain 3 h = [⟨⟨1, 9⟩, 2⟩, ⟨⟨1, 8⟩, 5⟩, ⟨⟨3, 7⟩, 0⟩] := by decide +kernel

end Verif
