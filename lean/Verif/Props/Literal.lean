import Verif.Model.Literal
import Verif.Props.Heap
import Verif.Lemmas.Go
import Verif.Lemmas.Word

/-! The loops as written in Go agree with the shorter forms of the model, and none of their accesses panics. -/

set_option autoImplicit false

namespace Verif

-- an index that is not in the slice panics, as it does in Go
example : goSet [1, 2] 2 7 = .panic ∧ goSet [1, 2] (-1) 7 = .panic ∧ goSet ([] : List Nat) 0 7 = .panic
    ∧ goSet [1, 2] 1 7 = .ok [1, 7] ∧ goSwap [1, 2] 0 2 = .panic ∧ goSwap [1, 2] 0 1 = .ok [2, 1] := by decide +kernel

theorem goSet_of_index {α : Type} {l : List α} {i : Int} {x : α} (h : goIndex l i = .ok x) (y : α) :
    goSet l i y = .ok (l.set i.toNat y) := by
  obtain ⟨h0, h1⟩ := goIndex_eq_ok.1 h
  have := (List.getElem?_eq_some_iff.1 h1).1
  unfold goSet
  rw [if_pos ⟨h0, by omega⟩]

theorem goSwap_nat {α : Type} {l : List α} {i j : Nat} (hi : i < l.length) (hj : j < l.length) :
    goSwap l (i : Int) (j : Int) = .ok ((l.set i l[j]).set j l[i]) := by
  unfold goSwap
  rw [goIndex_nat hj, GoM.bind_ok, goIndex_nat hi, GoM.bind_ok, goSet_of_index (goIndex_nat hi), GoM.bind_ok,
    goSet, if_pos (by simp; omega)]
  simp

/-! ## Reversal -/

theorem reverseLoop_spec {α : Type} (n : Nat) : ∀ l : List α, 2 * n ≤ l.length →
    ∃ l', reverseLoop n l = .ok l' ∧ l'.length = l.length
      ∧ ∀ k, k < l.length → l'[k]? = if k < n ∨ l.length - n ≤ k then l[l.length - 1 - k]? else l[k]? := by
  induction n with
  | zero =>
    intro l _
    refine ⟨l, rfl, rfl, ?_⟩
    intro k hk
    rw [if_neg (by omega)]
  | succ n ih =>
    intro l hl
    have hi : n < l.length := by omega
    have hj : l.length - 1 - n < l.length := by omega
    have hs := goSwap_nat (l := l) hi hj
    rw [show (((l.length - 1 - n : Nat)) : Int) = (l.length : Int) - 1 - n by omega] at hs
    obtain ⟨l', h1, h2, h3⟩ := ih ((l.set n l[l.length - 1 - n]).set (l.length - 1 - n) l[n]) (by simp; omega)
    refine ⟨l', ?_, by simpa using h2, ?_⟩
    · simp only [reverseLoop, hs, GoM.bind_ok]
      exact h1
    · intro k hk
      rw [h3 k (by simpa using hk)]
      simp only [List.length_set, List.getElem?_set]
      by_cases a : k < n ∨ l.length - n ≤ k
      · rw [if_pos a, if_neg (by omega), if_neg (by omega), if_pos (by omega)]
      · rw [if_neg a]
        by_cases b : l.length - 1 - n = k
        · subst b
          rw [if_pos rfl, if_pos (by omega), if_pos (by omega)]
          rw [show l.length - 1 - (l.length - 1 - n) = n by omega, List.getElem?_eq_getElem hi]
        · rw [if_neg b]
          by_cases c : n = k
          · subst c
            rw [if_pos rfl, if_pos (by omega), if_pos (by omega), List.getElem?_eq_getElem hj]
          · rw [if_neg c, if_neg (by omega)]

/-- The in-place reversal is the reversal. -/
theorem reverseInPlace_eq {α : Type} (l : List α) : reverseInPlace l = .ok l.reverse := by
  obtain ⟨l', h1, h2, h3⟩ := reverseLoop_spec (l.length / 2) l (by omega)
  unfold reverseInPlace
  rw [h1]
  congr 1
  apply List.ext_getElem?
  intro k
  by_cases hk : k < l.length
  · rw [h3 k hk, List.getElem?_reverse hk]
    split
    · rfl
    · congr 1; omega
  · rw [List.getElem?_eq_none (by omega), List.getElem?_eq_none (by simp; omega)]

/-! ## Trimming -/

theorem countLeadingLoop_eq (runes rs : List Rune) (i : Nat) (h : runes.length = i + rs.length) :
    countLeadingLoop runes rs i = i + countLeadingSpaces rs := by
  induction rs generalizing i with
  | nil => simp [countLeadingLoop, countLeadingSpaces, h]
  | cons r rs ih =>
    simp only [List.length_cons] at h
    simp only [countLeadingLoop, countLeadingSpaces]
    by_cases hr : isWhiteSpace r = true
    · simp only [hr, Bool.not_true, if_true]
      rw [if_neg (by simp), ih (i + 1) (by omega)]; omega
    · simp only [Bool.not_eq_true] at hr
      simp [hr]

theorem countLeadingSpaces_append (a b : List Rune) (h : ∀ r ∈ a, isWhiteSpace r = true) :
    countLeadingSpaces (a ++ b) = a.length + countLeadingSpaces b := by
  induction a with
  | nil => simp
  | cons r a ih =>
    simp only [List.cons_append, countLeadingSpaces, h r (by simp), if_true, List.length_cons]
    rw [ih (fun r hr => h r (by simp [hr]))]; omega

theorem countTrailingLoop_eq (runes : List Rune) (n : Nat) : ∀ (a b : List Rune), a.length = n → runes = a ++ b →
    (∀ r ∈ b, isWhiteSpace r = true) →
    countTrailingLoop runes ((runes.length : Int) - 1) n = .ok (countTrailingSpaces runes : Int) := by
  induction n with
  | zero =>
    intro a b ha e hb
    have : a = [] := List.length_eq_zero_iff.1 ha
    subst this
    have e' : runes = b := by simpa using e
    subst e'
    simp only [countTrailingLoop, countTrailingSpaces]
    have := countLeadingSpaces_append runes.reverse [] (by simpa using hb)
    simp only [List.append_nil, countLeadingSpaces, Nat.add_zero, List.length_reverse] at this
    rw [this]
  | succ n ih =>
    intro a b ha e hb
    rcases List.eq_nil_or_concat a with rfl | ⟨a', r, rfl⟩
    · simp at ha
    · rw [List.concat_eq_append] at *
      have hn : a'.length = n := by simpa using ha
      have hg : goIndex runes (n : Int) = .ok r := by
        rw [e, List.append_assoc]
        exact goIndex_mid a' r b (by rw [hn])
      simp only [countTrailingLoop, hg, GoM.bind_ok]
      by_cases hr : isWhiteSpace r = true
      · rw [if_neg (by simp [hr])]
        refine ih a' (r :: b) hn (by rw [e]; simp) ?_
        intro x hx
        rcases List.mem_cons.1 hx with rfl | hx
        · exact hr
        · exact hb x hx
      · simp only [Bool.not_eq_true] at hr
        rw [if_pos (by simp [hr])]
        have : countTrailingSpaces runes = b.length := by
          unfold countTrailingSpaces
          rw [e, List.reverse_append, countLeadingSpaces_append _ _ (by simpa using hb)]
          simp [countLeadingSpaces, hr]
        rw [this, e]
        simp only [List.length_append, List.length_cons, List.length_nil, hn]
        congr 1; push_cast; omega

theorem countTrailingSpacesL_eq (runes : List Rune) :
    countTrailingSpacesL runes = .ok (countTrailingSpaces runes : Int) := by
  unfold countTrailingSpacesL
  by_cases h : runes.length = 0
  · have : runes = [] := List.length_eq_zero_iff.1 h
    subst this; rfl
  · simp only [if_neg h]
    have : goIndex runes ((runes.length : Int) - 1) = .ok runes[runes.length - 1] := by
      rw [show (runes.length : Int) - 1 = ((runes.length - 1 : Nat) : Int) by omega]
      exact goIndex_nat (by omega)
    rw [this, GoM.bind_ok]
    exact countTrailingLoop_eq runes _ runes [] rfl (by simp) (by simp)

theorem trimLoop_eq (runes : List Rune) (trailing : Int) (n : Nat) : ∀ (i : Nat) (out : List RuneChange),
    i + n ≤ runes.length →
    trimLoop runes ((i + n : Nat) - 1) trailing n i out
      = .ok (out ++ ((runes.drop i).take n).mapIdx fun k r => ⟨r, if k + 1 = n then -trailing else 0⟩) := by
  induction n with
  | zero => intro i out _; simp [trimLoop]
  | succ n ih =>
    intro i out h
    have hi : i < runes.length := by omega
    simp only [trimLoop, goIndex_nat hi, GoM.bind_ok]
    rw [show ((i : Int) + 1) = ((i + 1 : Nat) : Int) by omega,
      show ((i + (n + 1) : Nat) : Int) - 1 = ((i + 1 + n : Nat) : Int) - 1 by omega, ih (i + 1) _ (by omega)]
    rw [List.drop_eq_getElem_cons hi, List.take_succ_cons, List.mapIdx_cons]
    simp only [List.append_assoc, List.singleton_append]
    congr 3
    · congr 1
      by_cases hn : n = 0
      · subst hn; rw [if_pos (by push_cast; omega), if_pos (by rfl)]
      · rw [if_neg (by push_cast; omega), if_neg (by omega)]
    · congr 1
      funext k r
      congr 1
      by_cases hk : k + 1 = n
      · rw [if_pos hk, if_pos (by omega)]
      · rw [if_neg hk, if_neg (by omega)]

theorem countLeadingSpaces_le (rs : List Rune) : countLeadingSpaces rs ≤ rs.length := by
  induction rs with
  | nil => simp [countLeadingSpaces]
  | cons r rs ih => simp only [countLeadingSpaces]; split <;> simp; omega

/-- Leading and trailing white space do not overlap unless everything is white space. -/
theorem lead_trail_le (rs : List Rune) (h : countLeadingSpaces rs < rs.length) :
    countLeadingSpaces rs + countTrailingSpaces rs ≤ rs.length := by
  have key : ∀ rs : List Rune, countLeadingSpaces rs < rs.length →
      ∃ a r b, rs = a ++ r :: b ∧ a.length = countLeadingSpaces rs ∧ isWhiteSpace r = false := by
    intro rs
    induction rs with
    | nil => intro h; simp at h
    | cons r rs ih =>
      intro h
      by_cases hr : isWhiteSpace r = true
      · simp only [countLeadingSpaces, hr, if_true, List.length_cons] at h
        obtain ⟨a, x, b, e, h1, h2⟩ := ih (by omega)
        exact ⟨r :: a, x, b, by rw [e]; rfl, by simp [countLeadingSpaces, hr, h1], h2⟩
      · simp only [Bool.not_eq_true] at hr
        exact ⟨[], r, rs, rfl, by simp [countLeadingSpaces, hr], hr⟩
  obtain ⟨a, r, b, e, h1, h2⟩ := key rs h
  have hb : ∀ l : List Rune, ∀ t, countLeadingSpaces (l ++ r :: t) ≤ l.length := by
    intro l t
    induction l with
    | nil => simp [countLeadingSpaces, h2]
    | cons x l ih => simp only [List.cons_append, countLeadingSpaces]; split <;> simp; omega
  have : countTrailingSpaces rs ≤ b.length := by
    unfold countTrailingSpaces
    rw [e]
    have := hb b.reverse a.reverse
    simpa using this
  have hl := congrArg List.length e
  simp only [List.length_append, List.length_cons] at hl
  omega

/-- `TrimLeftRight` as written is `TrimLeftRight` of the model. -/
theorem trimLeftRightL_eq (ns : NS) (left right : Bool) : ns.trimLeftRightL left right = ns.trimLeftRight left right := by
  unfold NS.trimLeftRightL NS.trimLeftRight
  generalize runesOf ns.normalized = runes
  have hc := countLeadingLoop_eq runes runes 0 (by simp)
  rw [Nat.zero_add] at hc
  simp only [hc]
  generalize hL : (if left = true then countLeadingSpaces runes else 0) = L
  have hLi : (if left = true then (countLeadingSpaces runes : Int) else 0) = (L : Int) := by
    rw [← hL]; split <;> simp
  have hL2 : L = 0 ∨ L = countLeadingSpaces runes := by
    rw [← hL]; split
    · right; rfl
    · left; rfl
  rw [hLi]
  generalize hT : (if right = true ∧ L < runes.length then countTrailingSpaces runes else 0) = T
  have hTi : (if right = true ∧ (L : Int) < (runes.length : Int) then countTrailingSpacesL runes else pure 0) = .ok (T : Int) := by
    rw [← hT]
    by_cases h : right = true ∧ L < runes.length
    · rw [if_pos h, if_pos ⟨h.1, by omega⟩, countTrailingSpacesL_eq]
    · rw [if_neg h, if_neg (by intro h'; exact h ⟨h'.1, by omega⟩)]; rfl
  have hT2 : L + T ≤ runes.length := by
    have h1 := countLeadingSpaces_le runes
    have h2 : countTrailingSpaces runes ≤ runes.length := by
      have := countLeadingSpaces_le runes.reverse
      simpa [countTrailingSpaces] using this
    rw [← hT]
    split
    · rename_i h
      rcases hL2 with h0 | h0
      · omega
      · have := lead_trail_le runes (by omega); omega
    · omega
  rw [hTi, GoM.bind_ok]
  by_cases h0 : L = 0 ∧ T = 0
  · rw [if_pos (by omega), if_pos h0]
  · rw [if_neg (by omega), if_neg h0, if_neg (by omega)]
    have hn : ((runes.length : Int) - T - 1 - L + 1).toNat = runes.length - T - L := by omega
    have hl : (runes.length : Int) - T - 1 = ((L + (runes.length - T - L) : Nat) : Int) - 1 := by omega
    rw [hn, hl, trimLoop_eq runes T _ L [] (by omega), GoM.bind_ok]
    unfold NS.trimChanges
    have hk : ((runes.drop L).take (runes.length - T - L)).length = runes.length - T - L := by
      simp; omega
    simp only [List.nil_append, hk]

/-! ## The merge queue -/

namespace WMHeap

theorem lessL_nat {h : WMHeap} {i j : Nat} (hi : i < h.length) (hj : j < h.length) :
    lessL h (i : Int) (j : Int) = .ok (h.less i j) := by
  unfold lessL
  rw [goIndex_nat hi, GoM.bind_ok, goIndex_nat hj, GoM.bind_ok]
  unfold less WordMerge.less
  rw [at'_eq hi, at'_eq hj]
  split <;> rfl

theorem goSwap_eq {h : WMHeap} {i j : Nat} (hi : i < h.length) (hj : j < h.length) :
    goSwap h (i : Int) (j : Int) = .ok (h.swap i j) := by
  rw [goSwap_nat hi hj]
  unfold swap
  rw [at'_eq hi, at'_eq hj]

theorem parent_eq (j : Nat) : Int.tdiv ((j : Int) - 1) 2 = (((j - 1) / 2 : Nat) : Int) := by
  cases j with
  | zero => rfl
  | succ j =>
    rw [Int.tdiv_eq_ediv_of_nonneg (by omega)]
    omega

theorem upL_eq (fuel : Nat) : ∀ (f : Nat) (h : WMHeap) (j : Nat), j < fuel → j ≤ f → j < h.length →
    upL fuel h j = .ok (some (up f h j)) := by
  induction fuel with
  | zero => intro f h j hj; omega
  | succ fuel ih =>
    intro f h j hj hf hl
    simp only [upL, parent_eq]
    cases f with
    | zero =>
      have : j = 0 := by omega
      subst this
      rw [if_pos (by simp)]; rfl
    | succ f =>
      simp only [up]
      by_cases e : (j - 1) / 2 = j
      · rw [if_pos (by exact_mod_cast e), if_pos (Or.inl e)]
      · rw [if_neg (by exact_mod_cast e), lessL_nat hl (by omega), GoM.bind_ok]
        by_cases b : h.less j ((j - 1) / 2) = true
        · rw [if_neg (by simp [b]), if_neg (by simp [b, e]), goSwap_eq (by omega) hl, GoM.bind_ok]
          exact ih f _ _ (by omega) (by omega) (by rw [length_swap]; omega)
        · simp only [Bool.not_eq_true] at b
          rw [if_pos (by simp [b]), if_pos (by simp [b])]

theorem down_length (f : Nat) : ∀ (h : WMHeap) (i n : Nat), (down f h i n).length = h.length := by
  induction f with
  | zero => intro h i n; rfl
  | succ f ih =>
    intro h i n
    simp only [down]
    split
    · rfl
    · split <;> split <;> first | rfl | rw [ih, length_swap]

theorem downL_eq (fuel : Nat) : ∀ (f : Nat) (h : WMHeap) (i n : Nat), 0 < fuel → n < i + fuel → n ≤ i + f → n ≤ h.length →
    downL fuel h i n = .ok (some (down f h i n)) := by
  induction fuel with
  | zero => intro f h i n h0; omega
  | succ fuel ih =>
    intro f h i n _ h1 h2 hl
    simp only [downL]
    cases f with
    | zero => rw [if_pos (by omega)]; rfl
    | succ f =>
      simp only [down]
      by_cases e : 2 * i + 1 ≥ n
      · rw [if_pos (by omega), if_pos e]
      · rw [if_neg (by omega), if_neg e]
        have hj1 : (2 * (i : Int) + 1) = ((2 * i + 1 : Nat) : Int) := by omega
        have hj2 : (2 * (i : Int) + 1 + 1) = ((2 * i + 1 + 1 : Nat) : Int) := by omega
        have hr : (if (2 * (i : Int) + 1 + 1) < (n : Int) then lessL h (2 * (i : Int) + 1 + 1) (2 * (i : Int) + 1) else pure false)
            = .ok (decide (2 * i + 1 + 1 < n ∧ h.less (2 * i + 1 + 1) (2 * i + 1) = true)) := by
          by_cases c : 2 * i + 1 + 1 < n
          · rw [if_pos (by omega), hj1, show ((2 * i + 1 : Nat) : Int) + 1 = ((2 * i + 1 + 1 : Nat) : Int) by omega,
              lessL_nat (by omega) (by omega)]
            congr 1
            cases hb : h.less (2 * i + 1 + 1) (2 * i + 1) <;> simp [c]
          · rw [if_neg (by omega)]
            simp [c]
        rw [hr, GoM.bind_ok]
        have hj : (if decide (2 * i + 1 + 1 < n ∧ h.less (2 * i + 1 + 1) (2 * i + 1) = true) = true
              then (2 * (i : Int) + 1 + 1) else 2 * (i : Int) + 1)
            = ((if 2 * i + 1 + 1 < n ∧ h.less (2 * i + 1 + 1) (2 * i + 1) = true then 2 * i + 1 + 1 else 2 * i + 1 : Nat) : Int) := by
          by_cases c : 2 * i + 1 + 1 < n ∧ h.less (2 * i + 1 + 1) (2 * i + 1) = true
          · rw [if_pos (by simpa using c), if_pos c]; omega
          · rw [if_neg (by simpa using c), if_neg c]; omega
        rw [hj]
        generalize hjj : (if 2 * i + 1 + 1 < n ∧ h.less (2 * i + 1 + 1) (2 * i + 1) = true then 2 * i + 1 + 1 else 2 * i + 1) = j
        have hjb : i < j ∧ j < n := by
          rw [← hjj]; split <;> omega
        rw [lessL_nat (by omega) (by omega), GoM.bind_ok]
        by_cases b : h.less j i = true
        · rw [if_neg (by simp [b]), if_neg (by simp [b]), goSwap_eq (by omega) (by omega), GoM.bind_ok]
          exact ih f _ _ _ (by omega) (by omega) (by omega) (by rw [length_swap]; omega)
        · simp only [Bool.not_eq_true] at b
          rw [if_pos (by simp [b]), if_pos (by simp [b])]

/-- `heap.Push` as written, with checked accesses. -/
theorem pushL_eq (h : WMHeap) (x : WordMerge) : pushL h x = .ok (some (h.push x)) := by
  unfold pushL push
  simp only [List.length_append, List.length_cons, List.length_nil]
  rw [show ((h.length + (0 + 1) : Nat) : Int) - 1 = (h.length : Int) by omega]
  exact upL_eq _ _ _ _ (by omega) (by omega) (by simp)

/-- `heap.Pop` as written, with checked accesses: on a non-empty queue it does not panic. -/
theorem popL_eq (h : WMHeap) (hne : h ≠ []) : popL h = .ok (some h.pop) := by
  have hpos := List.length_pos_iff.2 hne
  unfold popL pop
  simp only []
  rw [show ((h.length : Int) - 1) = ((h.length - 1 : Nat) : Int) by omega]
  have hs := goSwap_eq (h := h) (i := 0) (j := h.length - 1) (by omega) (by omega)
  simp only [Int.natCast_zero] at hs
  rw [hs, GoM.bind_ok]
  have hd := downL_eq h.length (h.length - 1) (h.swap 0 (h.length - 1)) 0 (h.length - 1) hpos (by omega) (by omega)
    (by rw [length_swap]; omega)
  simp only [Int.natCast_zero] at hd
  rw [hd, GoM.bind_ok]
  simp only
  have hlen : (down (h.length - 1) (h.swap 0 (h.length - 1)) 0 (h.length - 1)).length = h.length := by
    rw [down_length, length_swap]
  generalize down (h.length - 1) (h.swap 0 (h.length - 1)) 0 (h.length - 1) = d at hlen
  unfold popLast
  simp only []
  rw [hlen, show ((h.length : Int) - 1) = ((h.length - 1 : Nat) : Int) by omega, goIndex_nat (by omega), GoM.bind_ok]
  have : goSlice d 0 ((h.length - 1 : Nat) : Int) = .ok (d.take (h.length - 1)) := by
    rw [goSlice_of (by omega) (by omega) (by omega)]
    simp
  rw [this, GoM.bind_ok, at'_eq (by omega)]
  rfl

/-- An empty queue would panic; `MergeAll` tests for it. -/
theorem popL_nil : popL [] = .panic := by decide +kernel

end WMHeap

/-! ## `MergeAll` -/

namespace Word

theorem addL_eq (w : Word) (id len : Int) : addL w id len = .ok (w.add id len) := by
  unfold addL add
  cases w with
  | nil => rfl
  | cons s w =>
    have hp : ((s :: w).length : Int) - 1 ≠ -1 := by simp only [List.length_cons]; omega
    have hi : (s :: w).length - 1 < (s :: w).length := by simp
    have hg := goIndex_nat (l := s :: w) hi
    rw [show (((s :: w).length - 1 : Nat) : Int) = ((s :: w).length : Int) - 1 by simp] at hg
    simp only [if_pos hp, hg, GoM.bind_ok]
    rw [goSet_of_index hg, GoM.bind_ok]
    have ht : (((s :: w).length : Int) - 1).toNat = (s :: w).length - 1 := by simp
    rw [ht, List.getElem?_eq_getElem hi]
    simp only [setAt, ht]
    rfl

theorem removeLoop_eq (fuel : Nat) : ∀ (a b : Word), b.length ≤ fuel →
    removeLoop fuel (a ++ b) a.length = .ok (some (a ++ b.filter fun s => s.length != 0)) := by
  induction fuel with
  | zero =>
    intro a b hb
    have : b = [] := List.length_eq_zero_iff.1 (by omega)
    subst this
    unfold removeLoop
    rw [if_neg (by simp)]
    simp
  | succ fuel ih =>
    intro a b hb
    unfold removeLoop
    cases b with
    | nil => rw [if_neg (by simp)]; simp
    | cons s b =>
      rw [if_pos (by simp; omega)]
      simp only
      rw [goIndex_mid a s b rfl, GoM.bind_ok]
      by_cases hs : s.length = 0
      · rw [if_pos hs]
        have hr : removeSymbol (a ++ s :: b) (a.length : Int) = .ok (a ++ b) := by
          unfold removeSymbol
          rw [goSlice_prefix a (s :: b) rfl, GoM.bind_ok]
          have := goSlice_suffix (a ++ [s]) b (a := (a.length : Int) + 1) (b := ((a ++ s :: b).length : Int))
            (by simp) (by simp; omega)
          rw [show a ++ [s] ++ b = a ++ s :: b by simp] at this
          rw [this]; rfl
        rw [hr, GoM.bind_ok, ih a b (by simp at hb; omega)]
        simp [hs]
      · rw [if_neg hs]
        have := ih (a ++ [s]) b (by simp at hb; omega)
        rw [show a ++ [s] ++ b = a ++ s :: b by simp, show (((a ++ [s]).length : Nat) : Int) = (a.length : Int) + 1 by simp] at this
        rw [this]
        simp [hs]

theorem initLoop_eq (merges : MergeMap) (w : Word) (n : Nat) : ∀ (k : Nat) (q : WMHeap), n = (w.drop k).length - 1 →
    initLoop merges w n k q = .ok (some (initQueue merges (w.drop k) k q)) := by
  induction n with
  | zero =>
    intro k q h
    have hd : w.drop k = [] ∨ ∃ s, w.drop k = [s] := by
      match hw : w.drop k with
      | [] => left; rfl
      | [s] => right; exact ⟨s, rfl⟩
      | _ :: _ :: _ => rw [hw] at h; simp at h
    rcases hd with e | ⟨s, e⟩ <;> rw [e] <;> rfl
  | succ n ih =>
    intro k q h
    match hw : w.drop k with
    | [] => rw [hw] at h; simp at h
    | [s] => rw [hw] at h; simp at h
    | a :: b :: rest =>
      have hwk : w = w.take k ++ a :: b :: rest := by rw [← hw, List.take_append_drop]
      have hk : k ≤ w.length := by
        have := congrArg List.length hw
        simp at this; omega
      have hlen : (w.take k).length = k := by simp; omega
      have g1 : goIndex w (k : Int) = .ok a := by
        rw [hwk]; exact goIndex_mid _ a _ (by rw [hlen])
      have g2 : goIndex w ((k : Int) + 1) = .ok b := by
        rw [hwk, show w.take k ++ a :: b :: rest = (w.take k ++ [a]) ++ b :: rest by simp]
        exact goIndex_mid _ b _ (by simp; omega)
      have hd : w.drop (k + 1) = b :: rest := by
        have : (w.drop k).drop 1 = b :: rest := by rw [hw]; rfl
        rw [List.drop_drop] at this
        exact this
      have hn : n = (w.drop (k + 1)).length - 1 := by
        rw [hd]; rw [hw] at h; simp at h ⊢; omega
      simp only [initLoop, g1, g2, GoM.bind_ok, initQueue]
      rw [show ((k : Int) + 1) = ((k + 1 : Nat) : Int) by omega]
      cases hm : merges.get a.id b.id with
      | none =>
        simp only
        rw [ih (k + 1) q hn, hd]
      | some m =>
        simp only
        rw [WMHeap.pushL_eq, GoM.bind_ok]
        simp only
        rw [ih (k + 1) _ hn, hd]

theorem pushAll_eq (ss : List WordMerge) (q : WMHeap) :
    pushAll ss q = .ok (some (ss.foldl (fun q s => WMHeap.push q s) q)) := by
  induction ss generalizing q with
  | nil => rfl
  | cons s ss ih =>
    simp only [pushAll, WMHeap.pushL_eq, GoM.bind_ok, List.foldl_cons]
    exact ih _

theorem pushPrevL_eq (merges : MergeMap) (w : Word) (q : WMHeap) (s : WordSymbol) :
    pushPrevL merges w q s = some <$> pushPrev merges w q s := by
  unfold pushPrevL pushPrev
  split
  · cases goIndex w s.prev with
    | panic => rfl
    | ok p =>
      simp only [GoM.bind_ok]
      cases merges.get p.id s.id with
      | none => rfl
      | some m => exact WMHeap.pushL_eq _ _
  · rfl

theorem pushNextL_eq (merges : MergeMap) (w : Word) (q : WMHeap) (s : WordSymbol) (pos : Int) :
    pushNextL merges w q s pos = some <$> pushNext merges w q s pos := by
  unfold pushNextL pushNext
  split
  · cases goIndex w s.next with
    | panic => rfl
    | ok p =>
      simp only [GoM.bind_ok]
      cases merges.get s.id p.id with
      | none => rfl
      | some m => exact WMHeap.pushL_eq _ _
  · rfl

theorem processL_eq (merges : MergeMap) (w : Word) (q : WMHeap) (top : WordMerge) :
    processL merges w q top = some <$> process merges w q top := by
  unfold processL process
  cases h1 : goIndex w top.pos with
  | panic => rfl
  | ok cur =>
    simp only [GoM.bind_ok]
    split
    · rfl
    · cases h2 : goIndex w cur.next with
      | panic => rfl
      | ok right =>
        simp only [GoM.bind_ok]
        cases merges.get cur.id right.id with
        | none => rfl
        | some m =>
          simp only
          split
          · rfl
          · rw [goSet_of_index h1, GoM.bind_ok]
            simp only [setAt]
            cases h3 : goIndex (w.set top.pos.toNat (cur.mergeWith right top.value.id)) cur.next with
            | panic => rfl
            | ok right' =>
              simp only [GoM.bind_ok]
              rw [goSet_of_index h3, GoM.bind_ok]
              cases relink ((w.set top.pos.toNat (cur.mergeWith right top.value.id)).set cur.next.toNat
                  { right' with length := 0 }) { right' with length := 0 } top.pos with
              | panic => rfl
              | ok w' =>
                simp only [GoM.bind_ok]
                cases goIndex w' top.pos with
                | panic => rfl
                | ok current =>
                  simp only [GoM.bind_ok, pushPrevL_eq]
                  cases pushPrev merges w' q current with
                  | panic => rfl
                  | ok q1 =>
                    simp only [GoM.map_ok, GoM.bind_ok, pushNextL_eq]
                    cases pushNext merges w' q1 current top.pos with
                    | panic => rfl
                    | ok q2 => rfl

theorem mergeStepL_eq (merges : MergeMap) (hd : Bool) (rnd : Nat → Bool) (st : MState) (hne : st.queue ≠ []) :
    mergeStepL merges hd rnd st = some <$> mergeStep merges hd rnd st := by
  unfold mergeStepL mergeStep
  rw [WMHeap.popL_eq _ hne, GoM.bind_ok]
  simp only
  split
  · rfl
  · rw [pushAll_eq, GoM.bind_ok]
    simp only [processL_eq]
    cases process merges st.word _ st.queue.pop.1 with
    | panic => rfl
    | ok x => rfl

theorem mergeLoopL_eq (merges : MergeMap) (hd : Bool) (rnd : Nat → Bool) (fuel : Nat) (st : MState) :
    mergeLoopL merges hd rnd fuel st = mergeLoop merges hd rnd fuel st := by
  induction fuel generalizing st with
  | zero => rfl
  | succ fuel ih =>
    unfold mergeLoopL mergeLoop
    by_cases h : st.queue.length = 0
    · rw [if_pos h, if_pos h]
    · rw [if_neg h, if_neg h]
      simp only
      rw [mergeStepL_eq _ _ _ _ (by intro e; rw [e] at h; exact h rfl)]
      cases mergeStep merges hd rnd st with
      | panic => rfl
      | ok st' => exact ih st'

/-- `MergeAll` as written — index loops, checked accesses, `container/heap` on the slice, removal in
place — is `MergeAll` of the model, for every word, table and sequence of draws. -/
theorem mergeAllL_eq (fuel : Nat) (merges : MergeMap) (hd : Bool) (rnd : Nat → Bool) (w : Word) :
    mergeAllL fuel merges hd rnd w = mergeAllFuel fuel merges hd rnd w := by
  unfold mergeAllL mergeAllFuel
  have h := initLoop_eq merges w (w.length - 1) 0 [] (by simp)
  simp only [Int.natCast_zero, List.drop_zero] at h
  rw [h, GoM.bind_ok]
  simp only [mergeLoopL_eq]
  cases mergeLoop merges hd rnd fuel ⟨w, initQueue merges w 0 [], [], 0⟩ with
  | panic => rfl
  | ok r =>
    cases r with
    | none => rfl
    | some st =>
      simp only [GoM.bind_ok]
      have := removeLoop_eq st.word.length [] st.word (by omega)
      simpa using this

end Word

end Verif
