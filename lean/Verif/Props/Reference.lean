import Verif.Spec.Reference
import Verif.Props.Bpe
import Verif.Props.BpeValues
import Verif.Props.Canonical
import Verif.Props.Json

/-! Property C82: from the two files to the tokens of the reference algorithm. -/

set_option autoImplicit false

namespace Verif
namespace Ref

/-! ## Lists of pieces -/

theorem mem_neighbours {w : List Str} {a b : Str} : (a, b) ∈ neighbours w ↔ ∃ A B, w = A ++ a :: b :: B := by
  induction w with
  | nil => simp [neighbours]
  | cons x w ih =>
    cases w with
    | nil =>
      simp only [neighbours, List.not_mem_nil, false_iff]
      rintro ⟨A, B, h⟩
      have := congrArg List.length h
      simp at this
      omega
    | cons y l =>
      simp only [neighbours, List.mem_cons, Prod.mk.injEq]
      rw [ih]
      constructor
      · rintro (⟨rfl, rfl⟩ | ⟨A, B, h⟩)
        · exact ⟨[], l, rfl⟩
        · exact ⟨x :: A, B, by rw [h]; rfl⟩
      · rintro ⟨A, B, h⟩
        cases A with
        | nil => simp at h; exact .inl ⟨h.1.symm, h.2.1.symm⟩
        | cons z A =>
          simp only [List.cons_append, List.cons.injEq] at h
          exact .inr ⟨A, B, h.2⟩

theorem mem_lastOnly {rules : List (Str × Str)} {r : Str × Str} : r ∈ lastOnly rules ↔ r ∈ rules := by
  induction rules with
  | nil => simp [lastOnly]
  | cons x l ih =>
    unfold lastOnly
    split
    · rename_i h
      rw [ih, List.mem_cons]
      exact ⟨.inr, fun h' => h'.elim (fun e => e ▸ h) id⟩
    · rw [List.mem_cons, List.mem_cons, ih]

/-- This is the last place of the rule. -/
def LastAt (rules : List (Str × Str)) (i : Nat) (r : Str × Str) : Prop :=
  rules[i]? = some r ∧ ∀ j : Nat, i < j → rules[j]? ≠ some r

theorem lastAt_zero {x r : Str × Str} {l : List (Str × Str)} : LastAt (x :: l) 0 r ↔ x = r ∧ r ∉ l := by
  unfold LastAt
  constructor
  · rintro ⟨h1, h2⟩
    refine ⟨by simpa using h1, fun h => ?_⟩
    obtain ⟨j, hj⟩ := List.getElem?_of_mem h
    exact h2 (j + 1) (by omega) (by simpa using hj)
  · rintro ⟨rfl, h⟩
    refine ⟨by simp, fun j hj e => ?_⟩
    obtain ⟨k, rfl⟩ : ∃ k, j = k + 1 := ⟨j - 1, by omega⟩
    rw [List.getElem?_cons_succ] at e
    exact h (List.mem_of_getElem? e)

theorem lastAt_succ {x r : Str × Str} {l : List (Str × Str)} {i : Nat} : LastAt (x :: l) (i + 1) r ↔ LastAt l i r := by
  unfold LastAt
  rw [List.getElem?_cons_succ]
  refine and_congr_right fun _ => ⟨fun h j hj => ?_, fun h j hj => ?_⟩
  · have := h (j + 1) (by omega)
    rwa [List.getElem?_cons_succ] at this
  · obtain ⟨k, rfl⟩ : ∃ k, j = k + 1 := ⟨j - 1, by omega⟩
    rw [List.getElem?_cons_succ]
    exact h k (by omega)

theorem exists_lastAt {rules : List (Str × Str)} {r : Str × Str} (h : r ∈ rules) : ∃ i, LastAt rules i r := by
  induction rules with
  | nil => simp at h
  | cons x l ih =>
    by_cases hr : r ∈ l
    · obtain ⟨i, hi⟩ := ih hr
      exact ⟨i + 1, lastAt_succ.2 hi⟩
    · exact ⟨0, lastAt_zero.2 ⟨((List.mem_cons.1 h).resolve_right hr).symm, hr⟩⟩

theorem firstRule_none {rules : List (Str × Str)} {w : List Str} :
    firstRule rules w = none ↔ ∀ r ∈ rules, r ∉ neighbours w := by
  simp [firstRule, mem_lastOnly]

theorem firstRule_some {rules : List (Str × Str)} {w : List Str} {r : Str × Str} :
    firstRule rules w = some r ↔ r ∈ neighbours w ∧ ∃ i : Nat, LastAt rules i r
      ∧ ∀ (j : Nat) (r' : Str × Str), j < i → LastAt rules j r' → r' ∉ neighbours w := by
  induction rules with
  | nil => simp [firstRule, lastOnly, LastAt]
  | cons x l ih =>
    have hskip : (x ∈ l ∨ x ∉ neighbours w) → (firstRule (x :: l) w = firstRule l w) := by
      intro h
      unfold firstRule
      rw [lastOnly]
      split
      · rfl
      · rename_i h'
        rw [List.find?_cons_of_neg (by simpa using h.resolve_left h')]
    by_cases hs : x ∈ l ∨ x ∉ neighbours w
    · rw [hskip hs, ih]
      refine and_congr_right fun hr => ⟨?_, ?_⟩
      · rintro ⟨i, h1, h2⟩
        refine ⟨i + 1, lastAt_succ.2 h1, fun j r' hj h' => ?_⟩
        cases j with
        | zero =>
          obtain ⟨rfl, h'⟩ := lastAt_zero.1 h'
          exact hs.resolve_left h'
        | succ j => exact h2 j r' (by omega) (lastAt_succ.1 h')
      · rintro ⟨i, h1, h2⟩
        cases i with
        | zero =>
          obtain ⟨rfl, h'⟩ := lastAt_zero.1 h1
          exact absurd hr (hs.resolve_left h')
        | succ i =>
          exact ⟨i, lastAt_succ.1 h1, fun j r' hj h' => h2 (j + 1) r' (by omega) (lastAt_succ.2 h')⟩
    · obtain ⟨hs1, hs2⟩ := not_or.1 hs
      have hs2 : x ∈ neighbours w := Classical.not_not.1 hs2
      have e : firstRule (x :: l) w = some x := by
        unfold firstRule
        rw [lastOnly, if_neg hs1, List.find?_cons_of_pos (by simpa using hs2)]
      rw [e]
      constructor
      · intro h
        simp only [Option.some.injEq] at h
        subst h
        exact ⟨hs2, 0, lastAt_zero.2 ⟨rfl, hs1⟩, fun j _ hj => by omega⟩
      · rintro ⟨-, i, h1, h2⟩
        cases i with
        | zero => rw [(lastAt_zero.1 h1).1]
        | succ i => exact absurd hs2 (h2 0 x (by omega) (lastAt_zero.2 ⟨rfl, hs1⟩))

/-- `mergeFirst` merges the leftmost occurrence. -/
theorem mergeFirst_split {a b : Str} {w : List Str} (h : (a, b) ∈ neighbours w) : ∃ A B, w = A ++ a :: b :: B
    ∧ mergeFirst a b w = A ++ (a ++ b) :: B ∧ ∀ A' B', w = A' ++ a :: b :: B' → A.length ≤ A'.length := by
  induction w with
  | nil => simp [neighbours] at h
  | cons x w ih =>
    cases w with
    | nil => simp [neighbours] at h
    | cons y l =>
      by_cases hc : x = a ∧ y = b
      · obtain ⟨rfl, rfl⟩ := hc
        exact ⟨[], l, rfl, by simp [mergeFirst], fun _ _ _ => by simp⟩
      · simp only [neighbours, List.mem_cons, Prod.mk.injEq] at h
        rcases h with ⟨rfl, rfl⟩ | h
        · exact absurd ⟨rfl, rfl⟩ hc
        · obtain ⟨A, B, h1, h2, h3⟩ := ih h
          refine ⟨x :: A, B, by rw [h1]; rfl, by rw [mergeFirst, if_neg hc, h2]; rfl, ?_⟩
          intro A' B' e
          cases A' with
          | nil => simp at e; exact absurd ⟨e.1, e.2.1⟩ hc
          | cons z A' =>
            simp only [List.cons_append, List.cons.injEq] at e
            have := h3 A' B' e.2
            simpa using this

theorem mergeFirst_eq {a b : Str} {A B : List Str} (h : ∀ A' B', A ++ a :: b :: B = A' ++ a :: b :: B' → A.length ≤ A'.length) :
    mergeFirst a b (A ++ a :: b :: B) = A ++ (a ++ b) :: B := by
  obtain ⟨A', B', h1, h2, h3⟩ := mergeFirst_split (mem_neighbours.2 ⟨A, B, rfl⟩)
  have g1 := h A' B' h1
  have g2 := h3 A B rfl
  obtain ⟨e1, e2⟩ := List.append_inj h1 (by omega)
  simp only [List.cons.injEq, true_and] at e2
  rw [h2, ← e1, ← e2]

theorem mergeFirst_length {a b : Str} {w : List Str} (h : (a, b) ∈ neighbours w) : (mergeFirst a b w).length + 1 = w.length := by
  obtain ⟨A, B, h1, h2, -⟩ := mergeFirst_split h
  rw [h2, h1]
  simp
  omega

/-! ## One merge at a time -/

theorem onePass_fuel {rules : List (Str × Str)} (n n' : Nat) (w : List Str) (h : w.length ≤ n) (h' : w.length ≤ n') :
    onePass rules n w = onePass rules n' w := by
  induction n generalizing n' w with
  | zero =>
    have : w = [] := List.length_eq_zero_iff.1 (by omega)
    subst this
    have : firstRule rules [] = none := firstRule_none.2 (by simp [neighbours])
    cases n' with
    | zero => rfl
    | succ n' => simp [onePass, this]
  | succ n ih =>
    cases n' with
    | zero =>
      have : w = [] := List.length_eq_zero_iff.1 (by omega)
      subst this
      have : firstRule rules [] = none := firstRule_none.2 (by simp [neighbours])
      simp [onePass, this]
    | succ n' =>
      unfold onePass
      cases hr : firstRule rules w with
      | none => rfl
      | some r =>
        have := mergeFirst_length (firstRule_some.1 hr).1
        exact ih n' _ (by omega) (by omega)

theorem bpe_none {rules : List (Str × Str)} {w : List Str} (h : firstRule rules w = none) : bpe rules w = w := by
  unfold bpe
  cases w.length with
  | zero => rfl
  | succ n => simp [onePass, h]

theorem bpe_some {rules : List (Str × Str)} {w : List Str} {a b : Str} (h : firstRule rules w = some (a, b)) :
    bpe rules w = bpe rules (mergeFirst a b w) := by
  have hl := mergeFirst_length (firstRule_some.1 h).1
  unfold bpe
  rw [show w.length = (mergeFirst a b w).length + 1 from hl.symm, onePass, h]

/-! ## All occurrences at once -/

theorem mergeEvery_none {a b : Str} {w : List Str} (h : (a, b) ∉ neighbours w) : mergeEvery a b w = w := by
  induction w with
  | nil => rfl
  | cons x w ih =>
    cases w with
    | nil => rfl
    | cons y l =>
      simp only [neighbours, List.mem_cons, Prod.mk.injEq, not_or] at h
      rw [mergeEvery, if_neg (by rintro ⟨rfl, rfl⟩; exact h.1 ⟨rfl, rfl⟩), ih h.2]

theorem mergeEvery_cons {a b x : Str} {w : List Str} (h : x ≠ a) : mergeEvery a b (x :: w) = x :: mergeEvery a b w := by
  cases w with
  | nil => rfl
  | cons y l => rw [mergeEvery, if_neg (fun e => h e.1)]

theorem mergeEvery_first {a b : Str} (ha : a ≠ []) (hb : b ≠ []) : ∀ (n : Nat) (w : List Str), w.length ≤ n →
    mergeEvery a b (mergeFirst a b w) = mergeEvery a b w := by
  have hne1 : a ++ b ≠ a := fun e => hb (by simpa using e)
  have hne2 : a ++ b ≠ b := fun e => ha (by simpa using e)
  intro n
  induction n with
  | zero => intro w h; rw [List.length_eq_zero_iff.1 (by omega : w.length = 0)]; rfl
  | succ n ih =>
    intro w h
    match w, h with
    | [], _ => rfl
    | [x], _ => rfl
    | x :: y :: l, h =>
      by_cases hc : x = a ∧ y = b
      · obtain ⟨rfl, rfl⟩ := hc
        rw [mergeFirst, if_pos ⟨rfl, rfl⟩, mergeEvery, if_pos ⟨rfl, rfl⟩, mergeEvery_cons hne1]
      · rw [mergeFirst, if_neg hc]
        have ih := ih (y :: l) (by simpa using h)
        rw [mergeEvery.eq_def a b (x :: y :: l)]
        simp only
        rw [if_neg hc, ← ih]
        cases hm : mergeFirst a b (y :: l) with
        | nil => rfl
        | cons z l' =>
          rw [mergeEvery, if_neg]
          rintro ⟨rfl, rfl⟩
          apply hc
          refine ⟨rfl, ?_⟩
          cases l with
          | nil => simp [mergeFirst] at hm; exact hm.1
          | cons y' l =>
            rw [mergeFirst] at hm
            split at hm
            · rename_i hy
              simp only [List.cons.injEq] at hm
              rw [hy.1, hy.2] at hm
              exact absurd hm.1 hne2
            · simp only [List.cons.injEq] at hm; exact hm.1

theorem mergeEvery_length_le (a b : Str) : ∀ (n : Nat) (w : List Str), w.length ≤ n → (mergeEvery a b w).length ≤ w.length := by
  intro n
  induction n with
  | zero => intro w h; rw [List.length_eq_zero_iff.1 (by omega : w.length = 0)]; simp [mergeEvery]
  | succ n ih =>
    intro w h
    match w, h with
    | [], _ => simp [mergeEvery]
    | [x], _ => simp [mergeEvery]
    | x :: y :: l, h =>
      simp only [List.length_cons] at h
      rw [mergeEvery]
      split
      · have := ih l (by omega)
        simp only [List.length_cons]; omega
      · have := ih (y :: l) (by simp only [List.length_cons]; omega)
        simp only [List.length_cons] at this ⊢; omega

theorem mergeEvery_length {a b : Str} (ha : a ≠ []) (hb : b ≠ []) {w : List Str} (h : (a, b) ∈ neighbours w) :
    (mergeEvery a b w).length + 1 ≤ w.length := by
  rw [← mergeEvery_first ha hb w.length w (Nat.le_refl _), ← mergeFirst_length h]
  have := mergeEvery_length_le a b _ (mergeFirst a b w) (Nat.le_refl _)
  omega

/-- Neighbours after a merge: old ones, or with the product. -/
theorem neighbours_merge {A B : List Str} {a b x y : Str} (h : (x, y) ∈ neighbours (A ++ (a ++ b) :: B)) :
    (x, y) ∈ neighbours (A ++ a :: b :: B) ∨ x = a ++ b ∨ y = a ++ b := by
  rw [mem_neighbours] at h
  obtain ⟨A', B', h⟩ := h
  rw [List.append_eq_append_iff] at h
  rcases h with ⟨C, rfl, h⟩ | ⟨C, rfl, h⟩
  · cases C with
    | nil => simp at h; exact .inr (.inl h.1.symm)
    | cons z C =>
      simp only [List.cons_append, List.cons.injEq] at h
      obtain ⟨rfl, rfl⟩ := h
      refine .inl (mem_neighbours.2 ⟨A ++ a :: b :: C, B', by simp⟩)
  · cases C with
    | nil => simp at h; exact .inr (.inl h.1)
    | cons z C =>
      simp only [List.cons_append, List.cons.injEq] at h
      obtain ⟨rfl, h⟩ := h
      cases C with
      | nil => simp at h; exact .inr (.inr h.1)
      | cons z' C =>
        simp only [List.cons_append, List.cons.injEq] at h
        obtain ⟨rfl, rfl⟩ := h
        refine .inl (mem_neighbours.2 ⟨A', C ++ a :: b :: B, by simp⟩)

theorem firstRule_again {rules : List (Str × Str)} (ho : InOrder rules) {w : List Str} {a b : Str}
    (h : firstRule rules w = some (a, b)) (h' : (a, b) ∈ neighbours (mergeFirst a b w)) :
    firstRule rules (mergeFirst a b w) = some (a, b) := by
  obtain ⟨h1, i, h2, h3⟩ := firstRule_some.1 h
  refine firstRule_some.2 ⟨h', i, h2, ?_⟩
  rintro j ⟨c, d⟩ hj hr hm
  obtain ⟨A, B, e1, e2, -⟩ := mergeFirst_split h1
  rw [e2] at hm
  rcases neighbours_merge hm with hm | hm
  · rw [← e1] at hm
    exact h3 j _ hj hr hm
  · have := ho i j a b c d h2.1 hr.1 hm
    omega

theorem bpe_every {rules : List (Str × Str)} (ho : InOrder rules) {a b : Str} (ha : a ≠ []) (hb : b ≠ []) :
    ∀ (n : Nat) (w : List Str), w.length ≤ n → firstRule rules w = some (a, b) → bpe rules w = bpe rules (mergeEvery a b w) := by
  intro n
  induction n with
  | zero =>
    intro w h hf
    rw [List.length_eq_zero_iff.1 (by omega : w.length = 0)] at hf
    have := (firstRule_some.1 hf).1
    simp [neighbours] at this
  | succ n ih =>
    intro w h hf
    have hl := mergeFirst_length (firstRule_some.1 hf).1
    rw [bpe_some hf, ← mergeEvery_first ha hb _ w (Nat.le_refl _)]
    by_cases hm : (a, b) ∈ neighbours (mergeFirst a b w)
    · exact ih _ (by omega) (firstRule_again ho hf hm)
    · rw [mergeEvery_none hm]

/-- With rules in order, both ways of merging end in the same pieces. -/
theorem gptBpe_eq {rules : List (Str × Str)} (ho : InOrder rules) (hne : ∀ r ∈ rules, r.1 ≠ [] ∧ r.2 ≠ []) (w : List Str) :
    gptBpe rules w = bpe rules w := by
  have key : ∀ (n : Nat) (w : List Str), w.length ≤ n → everyPass rules n w = bpe rules w := by
    intro n
    induction n with
    | zero =>
      intro w h
      rw [List.length_eq_zero_iff.1 (by omega : w.length = 0)]; rfl
    | succ n ih =>
      intro w h
      unfold everyPass
      cases hr : firstRule rules w with
      | none => exact (bpe_none hr).symm
      | some r =>
        obtain ⟨a, b⟩ := r
        have hm : (a, b) ∈ rules := by
          obtain ⟨-, i, hi, -⟩ := firstRule_some.1 hr
          exact List.mem_of_getElem? hi.1
        obtain ⟨ha, hb⟩ := hne _ hm
        simp only at ha hb ⊢
        have := mergeEvery_length ha hb (firstRule_some.1 hr).1
        rw [ih _ (by omega), bpe_every ho ha hb _ w (Nat.le_refl _) hr]
  exact key _ w (Nat.le_refl _)

/-- Rules as training makes them are in order. -/
theorem Trained.inOrder {rules : List (Str × Str)} (h : Trained rules) (hv : ∀ r ∈ rules, ValidUtf8 r.1 ∧ ValidUtf8 r.2)
    (hne : ∀ r ∈ rules, r.1 ≠ [] ∧ r.2 ≠ []) : InOrder rules := by
  intro i j a b c d hi hj hp
  obtain ⟨p, hp1, hp2⟩ : ∃ p ∈ [c, d], p = a ++ b := by
    rcases hp with rfl | rfl
    · exact ⟨_, by simp, rfl⟩
    · exact ⟨_, by simp, rfl⟩
  have hm := List.mem_of_getElem? hi
  rcases h.2 j c d hj p hp1 with ⟨r, hr, e⟩ | ⟨k, a', b', hk, hr, e⟩
  · exfalso
    obtain ⟨hva, hvb⟩ := hv _ hm
    obtain ⟨hna, hnb⟩ := hne _ hm
    obtain ⟨ra, ha, ea⟩ := hva
    obtain ⟨rb, hb, eb⟩ := hvb
    simp only at ea eb hna hnb
    have h1 : runesOf p = [r] := by
      have := runesOf_encodeRunes (rs := [r]) (by simpa using hr)
      rw [e]; simpa [encodeRunes] using this
    have h2 : runesOf p = ra ++ rb := by
      rw [hp2, ← ea, ← eb]
      have := runesOf_encodeRunes (rs := ra ++ rb) (by
        intro x hx
        rcases List.mem_append.1 hx with hx | hx
        · exact ha x hx
        · exact hb x hx)
      rw [← this]
      simp [encodeRunes]
    rw [h1] at h2
    have l1 : ra ≠ [] := by rintro rfl; exact hna (by rw [← ea]; rfl)
    have l2 : rb ≠ [] := by rintro rfl; exact hnb (by rw [← eb]; rfl)
    have := congrArg List.length h2
    have := List.length_pos_iff.2 l1
    have := List.length_pos_iff.2 l2
    simp at *
    omega
  · have hi' : (rules.map fun r => r.1 ++ r.2)[i]? = some p := by rw [List.getElem?_map, hi, hp2]; rfl
    have hk' : (rules.map fun r => r.1 ++ r.2)[k]? = some p := by rw [List.getElem?_map, hr, e]; rfl
    obtain ⟨li, ei⟩ := List.getElem?_eq_some_iff.1 hi'
    obtain ⟨lk, ek⟩ := List.getElem?_eq_some_iff.1 hk'
    have := (List.getElem_inj h.1 (h₀ := li) (h₁ := lk)).1 (by rw [ei, ek])
    omega

/-! ## From ids to texts -/

/-- The table holds the rules, and the vocabulary all their terms. -/
structure TableOf (v : Vocab) (rules : List (Str × Str)) (merges : MergeMap) : Prop where
  inv : v.Inverse
  known : ∀ r ∈ rules, ∃ i j k, v.getID r.1 = some i ∧ v.getID r.2 = some j ∧ v.getID (r.1 ++ r.2) = some k
  iff : ∀ i j m, merges.get i j = some m ↔ ∃ (k : Nat) (a b : Str), LastAt rules k (a, b) ∧ v.getID a = some i
    ∧ v.getID b = some j ∧ v.getID (a ++ b) = some m.id ∧ m.rank = k

/-- The symbols stand for these texts. -/
def Stands (v : Vocab) (l : List (Int × Int)) (w : List Str) : Prop := All2 (fun p x => v.getString p.1 = some x) l w

theorem Stands.split {v : Vocab} {l : List (Int × Int)} {w A B : List Str} {a b : Str} (h : Stands v l w) (e : w = A ++ a :: b :: B) :
    ∃ A' B' pa pb, l = A' ++ pa :: pb :: B' ∧ A'.length = A.length ∧ v.getString pa.1 = some a ∧ v.getString pb.1 = some b
      ∧ Stands v A' A ∧ Stands v B' B := by
  subst e
  obtain ⟨A', l2, rfl, h1, h2⟩ := All2.append_inv h
  cases h2 with
  | cons ga h2 =>
    cases h2 with
    | cons gb h2 => exact ⟨A', _, _, _, rfl, h1.length_eq, ga, gb, h1, h2⟩

theorem noPair_none {v : Vocab} {rules : List (Str × Str)} {merges : MergeMap} (ht : TableOf v rules merges)
    {l : List (Int × Int)} {w : List Str} (hn : NoPair merges l) (h : Stands v l w) : firstRule rules w = none := by
  rw [firstRule_none]
  rintro ⟨a, b⟩ hr hm
  obtain ⟨A, B, e⟩ := mem_neighbours.1 hm
  obtain ⟨A', B', pa, pb, e', -, ga, gb, -, -⟩ := h.split e
  obtain ⟨i, j, k, h1, h2, h3⟩ := ht.known _ hr
  obtain ⟨n, hn'⟩ := exists_lastAt hr
  have := (ht.iff pa.1 pb.1 ⟨n, k⟩).2 ⟨n, a, b, hn', (ht.inv _ _).2 ga, (ht.inv _ _).2 gb, h3, rfl⟩
  rw [hn A' B' pa pb e'] at this
  simp at this

theorem canonStep_first {v : Vocab} {rules : List (Str × Str)} {merges : MergeMap} (ht : TableOf v rules merges)
    {l l' : List (Int × Int)} {w : List Str} (hs : CanonStep merges l l') (h : Stands v l w) :
    ∃ a b, firstRule rules w = some (a, b) ∧ Stands v l' (mergeFirst a b w) := by
  cases hs with
  | mk A B pa pb m hm hbest =>
    obtain ⟨X, w2, rfl, h1, h2⟩ := BPE.all2_left_append h
    cases h2 with
    | cons ga h2 =>
      rename_i a w2
      cases h2 with
      | cons gb h2 =>
        rename_i b Y
        obtain ⟨k, a', b', hk, g1, g2, g3, g4⟩ := (ht.iff _ _ _).1 hm
        have ea : a' = a := by have := (ht.inv _ _).1 g1; rw [ga] at this; simpa using this.symm
        have eb : b' = b := by have := (ht.inv _ _).1 g2; rw [gb] at this; simpa using this.symm
        subst ea; subst eb
        have hl1 := h1.length_eq
        refine ⟨a', b', firstRule_some.2 ⟨mem_neighbours.2 ⟨X, Y, rfl⟩, k, hk, ?_⟩, ?_⟩
        · rintro j ⟨c, d⟩ hj hr hn
          obtain ⟨X', Y', e⟩ := mem_neighbours.1 hn
          obtain ⟨A', B', pc, pd, e', -, gc, gd, -, -⟩ := Stands.split h e
          obtain ⟨-, -, n, -, -, q⟩ := ht.known _ (List.mem_of_getElem? hr.1)
          have := (ht.iff pc.1 pd.1 ⟨j, n⟩).2 ⟨j, c, d, hr, (ht.inv _ _).2 gc, (ht.inv _ _).2 gd, q, rfl⟩
          have := hbest A' B' pc pd _ e' this
          simp only at this
          omega
        · rw [mergeFirst_eq]
          · exact h1.append (.cons ((ht.inv _ _).1 g3) h2)
          · intro X' Y' e
            obtain ⟨A', B', pc, pd, e', hl2, gc, gd, -, -⟩ := Stands.split h e
            have e1 : pc.1 = pa.1 := by
              have h1 := (ht.inv _ _).2 gc
              have h2 := (ht.inv _ _).2 ga
              rw [h1] at h2; simpa using h2
            have e2 : pd.1 = pb.1 := by
              have h1 := (ht.inv _ _).2 gd
              have h2 := (ht.inv _ _).2 gb
              rw [h1] at h2; simpa using h2
            have := hbest A' B' pc pd m e' (by rw [e1, e2]; exact hm)
            omega

theorem star_bpe {v : Vocab} {rules : List (Str × Str)} {merges : MergeMap} (ht : TableOf v rules merges)
    {l l' : List (Int × Int)} {w : List Str} (hs : Star (CanonStep merges) l l') (h : Stands v l w) :
    ∃ w', Stands v l' w' ∧ bpe rules w = bpe rules w' := by
  induction hs with
  | refl => exact ⟨w, h, rfl⟩
  | step _ hs ih =>
    obtain ⟨w', h1, h2⟩ := ih
    obtain ⟨a, b, h3, h4⟩ := canonStep_first ht hs h1
    exact ⟨_, h4, by rw [h2, bpe_some h3]⟩

theorem pending_all (m : BPE) (u : Int) (cs : List (Option Int × Int)) (h : ∀ c ∈ cs, c.1 ≠ none) :
    BPE.pending m u none cs = BPE.separate u cs := by
  induction cs with
  | nil => rfl
  | cons c cs ih =>
    obtain ⟨o, len⟩ := c
    cases o with
    | none => exact absurd rfl (h _ List.mem_cons_self)
    | some id =>
      have ih := ih fun c hc => h c (by simp [hc])
      simp only [BPE.pending, ih]
      rfl

theorem stands_values {v : Vocab} {ts : List Token} {w : List Str} {f : Token → Int}
    (h : Stands v (ts.map fun t => (t.id, f t)) w) (hv : ∀ t ∈ ts, v.getString t.id = some t.value) : ts.map (·.value) = w := by
  induction ts generalizing w with
  | nil => cases h; rfl
  | cons t ts ih =>
    simp only [List.map_cons] at h
    generalize e : ts.map (fun t => (t.id, f t)) = l at h
    cases h with
    | cons h1 h2 =>
      subst e
      have := hv t (by simp)
      simp only at h1
      rw [this] at h1
      simp only [Option.some.injEq] at h1
      rw [List.map_cons, ih h2 fun t ht => hv t (by simp [ht]), h1]

theorem tokenTiles_mem {v : Vocab} {a b : Int} {ts : List Token} (h : BPE.TokenTiles v a ts b) : ∀ t ∈ ts, v.getString t.id = some t.value := by
  induction ts generalizing a with
  | nil => simp
  | cons t ts ih =>
    obtain ⟨-, -, h3, h4⟩ := h
    intro x hx
    rcases List.mem_cons.1 hx with rfl | hx
    · exact h3
    · exact ih h4 x hx

theorem tokenTiles_placed {v : Vocab} {a b : Int} {ts : List Token} (h : BPE.TokenTiles v a ts b)
    (hl : ∀ t ∈ ts, t.offsets.stop - t.offsets.start = t.value.length) :
    ts.map (fun t => (t.value, t.offsets.start, t.offsets.stop)) = placed a (ts.map (·.value)) := by
  induction ts generalizing a with
  | nil => rfl
  | cons t ts ih =>
    obtain ⟨h1, -, -, h4⟩ := h
    have h2 := hl t (by simp)
    have h3 : t.offsets.stop = a + t.value.length := by omega
    simp only [List.map_cons, placed]
    rw [ih h4 fun t ht => hl t (by simp [ht]), h1, h3]

/-- Tokenizing with a table of rules. -/
theorem tokenize_bpe (m : BPE) (rnd : Nat → Bool) (s : Str) (hd : m.hasDropout = false) {rules : List (Str × Str)}
    (ht : TableOf m.vocab rules m.merges) (ha : Additive m.merges) (hs : ValidUtf8 s)
    (hu : m.unknownToken = [] ∨ m.vocab.getID m.unknownToken ≠ none)
    (hk : ∀ i r, (runesOf s)[i]? = some r → m.vocab.getID (m.affixed (runesOf s).length i r) ≠ none) :
    ∃ ts, m.tokenize rnd s = .ok (.ok (some ts))
      ∧ ts.map (·.value) = bpe rules ((runesOf s).mapIdx fun i r => m.affixed (runesOf s).length i r)
      ∧ BPE.TokenTiles m.vocab 0 ts s.length := by
  obtain ⟨ts, hts⟩ := BPE.C44_success m rnd s (fun t i h => by rw [(ht.inv _ _).1 h]; simp)
    (fun a b v h => by
      obtain ⟨k, x, y, -, -, -, h, -⟩ := (ht.iff _ _ _).1 h
      rw [(ht.inv _ _).1 h]; simp)
    (fun h => hu.resolve_left h)
  have hfound : ∀ c ∈ m.lookups s, c.1 ≠ none := by
    intro c hc
    unfold BPE.lookups at hc
    obtain ⟨i, hi, rfl⟩ := List.mem_mapIdx.1 hc
    simp only
    rw [BPE.lookupKey_affixed m _ i _ hi]
    exact hk i _ (List.getElem?_eq_getElem hi)
  have htile := BPE.C44_tiles m rnd s hs (.inr hfound) hts
  refine ⟨ts, hts, ?_, htile⟩
  by_cases hne : s = []
  · subst hne
    have : m.tokenize rnd [] = .ok (.ok (some [])) := rfl
    rw [this] at hts
    simp at hts
    subst hts
    have : runesOf [] = [] := rfl
    rw [this]
    rfl
  · rcases BPE.tokenize_eq m rnd s hne with ⟨-, h2⟩ | ⟨u, ss, w', hu', hss, hp, hw, -, htok⟩
    · rw [hts] at h2; simp at h2
    · have hwt : BPE.wordToTokens m.vocab w' 0 = .ok ts := by
        rw [hts] at htok
        cases hx : BPE.wordToTokens m.vocab w' 0 with
        | error e => rw [hx] at htok; simp [Except.map] at htok
        | ok ts' => rw [hx] at htok; simp [Except.map] at htok; rw [htok]
      rw [hd] at hw
      obtain ⟨h1, h2⟩ := C40_canonical m.merges ha rnd ss hp hw
      have h0 : Stands m.vocab ss ((runesOf s).mapIdx fun i r => m.affixed (runesOf s).length i r) := by
        rw [hss, pending_all m u _ hfound]
        have conv : ∀ {as : List (Option Int × Int)} {bs : List Str},
            All2 (fun c x => m.vocab.getString (c.1.getD u) = some x) as bs → Stands m.vocab (BPE.separate u as) bs := by
          intro as bs h
          induction h with
          | nil => exact .nil
          | cons h1 _ ih => exact .cons h1 ih
        refine conv (BPE.all2_mapIdx2 _ _ _ _ fun i hi => ?_)
        simp only
        rw [BPE.lookupKey_affixed m _ i _ hi]
        have := hk i _ (List.getElem?_eq_getElem hi)
        cases hg : m.vocab.getID (m.affixed (runesOf s).length i (runesOf s)[i]) with
        | none => exact absurd hg this
        | some id => exact (ht.inv _ _).1 hg
      obtain ⟨w1, g1, g2⟩ := star_bpe ht h1 h0
      rw [g2, bpe_none (noPair_none ht h2 g1)]
      have hvis := BPE.wordToTokens_visible hwt
      rw [← hvis] at g1
      exact stands_values g1 (tokenTiles_mem htile)

/-! ## The files -/

theorem readsTo_unique {v : Vocab} {p : Nat} {ls : List Str} {ps ps' : List ((Int × Int) × Int)}
    (h : ReadsTo v p ls ps) (h' : ReadsTo v p ls ps') : ps = ps' := by
  induction h generalizing ps' with
  | nil => cases h'; rfl
  | version hv _ ih =>
    cases h' with
    | version _ h2 => exact ih h2
    | merge hv' _ _ => rw [hv] at hv'; cases hv'
  | merge hv hl _ ih =>
    cases h' with
    | version hv' _ => rw [hv] at hv'; cases hv'
    | merge _ hl' h2 =>
      obtain ⟨t0, t1, e, -, g0, g1, g2⟩ := hl
      obtain ⟨u0, u1, e', -, k0, k1, k2⟩ := hl'
      obtain ⟨rfl, rfl⟩ := twoFields_unique e e'
      rw [ih h2]
      rw [g0] at k0; rw [g1] at k1; rw [g2] at k2
      simp only [Option.some.injEq] at k0 k1 k2
      rw [k0, k1, k2]

theorem takeWhile_all {α : Type} {p : α → Bool} {l : List α} (h : ∀ x ∈ l, p x = true) : l.takeWhile p = l := by
  induction l with
  | nil => rfl
  | cons a l ih => rw [List.takeWhile_cons, if_pos (h a (by simp)), ih fun x hx => h x (by simp [hx])]

theorem rules_file {v : Vocab} (hv : v.Inverse) {rules : List (Str × Str)}
    (hw : ∀ r ∈ rules, Writable r)
    (hk : ∀ r ∈ rules, ∃ i j k, v.getID r.1 = some i ∧ v.getID r.2 = some j ∧ v.getID (r.1 ++ r.2) = some k) :
    ∃ merges, mergeMapFromFile (writeRules rules) v 0 = .ok (.ok merges) ∧ TableOf v rules merges := by
  let line (r : Str × Str) : Str := r.1 ++ 0x20 :: r.2
  let idOf (t : Str) : Int := (v.getID t).getD 0
  let ps := rules.map fun r => ((idOf r.1, idOf r.2), idOf (r.1 ++ r.2))
  have hline : ∀ r ∈ rules, 10 ∉ line r ∧ (line r).length < 64 * 1024 ∧ stripCR (line r) = line r ∧ isVersion (line r) = false
      ∧ TwoFields (line r) r.1 r.2 := by
    intro r hr
    obtain ⟨h1, h2, h3, h4⟩ := hw r hr
    refine ⟨?_, ?_, ?_, ?_, rfl, ?_, ?_⟩
    · intro h
      simp only [line, List.mem_append, List.mem_cons] at h
      rcases h with h | h | h
      · exact (h1 _ (by simp [h])).2 rfl
      · exact absurd h (by decide)
      · exact (h1 _ (by simp [h])).2 rfl
    · simp only [line, List.length_append, List.length_cons]; omega
    · unfold stripCR
      rw [if_neg]
      simp only [line]
      intro h
      rcases List.eq_nil_or_concat r.2 with e | ⟨t, b, e⟩
      · rw [e] at h; simp at h
      · rw [e, List.concat_eq_append] at h h2
        rw [show r.1 ++ 0x20 :: (t ++ [b]) = (r.1 ++ 0x20 :: t) ++ [b] by simp, List.getLast?_concat] at h
        rw [List.getLast?_concat] at h2
        exact h2 h
    · cases hc : isVersion (line r) with
      | false => rfl
      | true =>
        exfalso
        unfold isVersion at hc
        rw [List.isPrefixOf_iff_prefix] at hc
        simp only [line] at hc
        obtain ⟨z, hz⟩ := hc
        rcases List.append_eq_append_iff.1 hz with ⟨t, ht, -⟩ | ⟨t, ht, hp⟩
        · exact h3 ⟨t, ht.symm⟩
        · cases t with
          | nil => simp at ht; apply h3; rw [← ht]; exact List.prefix_refl _
          | cons b t =>
            have hb : b = 0x20 := by simp at hp; exact hp.1.symm
            have : (0x20 : UInt8) ∈ versionPrefix := by rw [ht, hb]; simp
            exact absurd this (by decide)
    · intro h; exact (h1 _ (by simp [h])).1 rfl
    · intro h; exact (h1 _ (by simp [h])).1 rfl
  have hcontent : writeRules rules = ((b!"#version: 0.2" :: rules.map line).flatMap fun r => r ++ [10]) ++ [] := by
    unfold writeRules
    simp [List.flatMap_map, line]
  obtain ⟨s1, s2⟩ := scanLines_spec (b!"#version: 0.2" :: rules.map line) [] (by
    intro r hr
    rcases List.mem_cons.1 hr with rfl | hr
    · decide
    · obtain ⟨x, hx, rfl⟩ := List.mem_map.1 hr
      exact (hline x hx).1) (by simp)
  rw [← hcontent] at s1 s2
  have hlong : scanTooLong (writeRules rules) = false := by
    cases hc : scanTooLong (writeRules rules) with
    | false => rfl
    | true =>
      obtain ⟨r, hr, hl⟩ := s2.1 hc
      simp only [fileLines, if_true, List.append_nil] at hr
      rcases List.mem_cons.1 hr with rfl | hr
      · exact absurd hl (by decide)
      · obtain ⟨x, hx, rfl⟩ := List.mem_map.1 hr
        have := (hline x hx).2.1
        omega
  have hlines : scanLines (writeRules rules) = b!"#version: 0.2" :: rules.map line := by
    rw [s1]
    simp only [fileLines, if_true, List.append_nil]
    rw [takeWhile_all]
    · rw [List.map_cons, List.map_map]
      congr 1
      apply List.map_congr_left
      intro r hr
      exact (hline r hr).2.2.1
    · intro r hr
      simp only [decide_eq_true_eq]
      rcases List.mem_cons.1 hr with rfl | hr
      · decide
      · obtain ⟨x, hx, rfl⟩ := List.mem_map.1 hr
        exact (hline x hx).2.1
  have hreads : ReadsTo v 0 (scanLines (writeRules rules)) ps := by
    rw [hlines]
    refine .version (by decide) ?_
    have : ∀ rs : List (Str × Str), (∀ r ∈ rs, r ∈ rules) →
        ReadsTo v 0 (rs.map line) (rs.map fun r => ((idOf r.1, idOf r.2), idOf (r.1 ++ r.2))) := by
      intro rs
      induction rs with
      | nil => intro _; exact .nil
      | cons r rs ih =>
        intro h
        obtain ⟨i, j, k, g1, g2, g3⟩ := hk r (h r (by simp))
        obtain ⟨-, -, -, l4, l5⟩ := hline r (h r (by simp))
        refine .merge l4 ⟨r.1, r.2, l5, by omega, ?_, ?_, ?_⟩ (ih fun x hx => h x (by simp [hx]))
        · simp [idOf, g1]
        · simp [idOf, g2]
        · simp [idOf, g3]
    exact this rules fun _ h => h
  obtain ⟨m, hm⟩ := ((C51_outcomes (writeRules rules) v 0).1).1 ⟨hlong, ps, hreads⟩
  refine ⟨m, hm, hv, hk, ?_⟩
  rcases C51_read_partial (writeRules rules) v 0 (fun _ _ => by omega) with ⟨m', ps', h1, h2, -, h3⟩ | ⟨_, _, _, _, _, h1, -⟩ | ⟨_, h1, -⟩
  · rw [hm] at h1
    simp at h1
    subst h1
    rw [readsTo_unique h2 hreads] at h3
    have hget : ∀ (n : Nat) (i j c : Int), ps[n]? = some ((i, j), c) ↔ ∃ a b, rules[n]? = some (a, b) ∧ v.getID a = some i
        ∧ v.getID b = some j ∧ v.getID (a ++ b) = some c := by
      intro n i j c
      simp only [ps, List.getElem?_map, Option.map_eq_some_iff]
      constructor
      · rintro ⟨⟨a, b⟩, hr, e⟩
        obtain ⟨i', j', k', g1, g2, g3⟩ := hk _ (List.mem_of_getElem? hr)
        simp only [idOf, g1, g2, g3, Option.getD_some, Prod.mk.injEq] at e
        obtain ⟨⟨rfl, rfl⟩, rfl⟩ := e
        exact ⟨a, b, hr, g1, g2, g3⟩
      · rintro ⟨a, b, hr, g1, g2, g3⟩
        exact ⟨(a, b), hr, by simp [idOf, g1, g2, g3]⟩
    intro i j mv
    rw [h3]
    unfold IsLast
    constructor
    · rintro ⟨n, ⟨hn1, hn2⟩, hr⟩
      obtain ⟨a, b, g0, g1, g2, g3⟩ := (hget _ _ _ _).1 hn1
      exact ⟨n, a, b, ⟨g0, fun j' hj e => hn2 j' mv.id hj ((hget _ _ _ _).2 ⟨a, b, e, g1, g2, g3⟩)⟩, g1, g2, g3, hr⟩
    · rintro ⟨n, a, b, ⟨g0, gl⟩, g1, g2, g3, hr⟩
      refine ⟨n, ⟨(hget _ _ _ _).2 ⟨a, b, g0, g1, g2, g3⟩, ?_⟩, hr⟩
      intro j' c' hj hc
      obtain ⟨a', b', k0, k1, k2, -⟩ := (hget _ _ _ _).1 hc
      have ea : a' = a := by
        have h1 := (hv _ _).1 k1; have h2 := (hv _ _).1 g1
        rw [h1] at h2; simpa using h2
      have eb : b' = b := by
        have h1 := (hv _ _).1 k2; have h2 := (hv _ _).1 g2
        rw [h1] at h2; simpa using h2
      subst ea; subst eb
      exact gl j' hj k0
  · rw [hm] at h1
    simp at h1
  · rw [hm] at h1
    simp at h1

end Ref

open Ref Json

/-- The model that `New` makes of a vocabulary and merges, without dropout and without continuing-subword prefix. -/
def plainBPE (v : Vocab) (merges : MergeMap) (capacity : Int) (unk suffix : Str) (fuse : Bool) : BPE :=
  ⟨v, merges, ⟨capacity⟩, false, unk, [], suffix, fuse⟩

/-- The characters of a text, the last one with the suffix. -/
def suffixed (suffix : Str) (rs : List Rune) : List Str :=
  rs.mapIdx fun i r => encodeRune r ++ if i + 1 = rs.length then suffix else []

theorem suffixed_nil (rs : List Rune) : suffixed [] rs = rs.map encodeRune := by
  unfold suffixed
  apply List.ext_getElem
  · simp
  · intro i _ _; simp

/-- **C82, the files load.** Terms with ids, and rules on these terms, written to a vocabulary file and a merges file, are
read back. -/
theorem C82_files (m : Machine) (es : List (Str × Int)) (rules : List (Str × Str))
    (order : GoMap Str Int → List (Str × Int)) (ho : IterationOrder order)
    (hv : ∀ e ∈ es, ValidUtf8 e.1) (hi : ∀ e ∈ es, -(m.half : Int) ≤ e.2 ∧ e.2 < m.half)
    (hk : (es.map (·.1)).Nodup) (hid : (es.map (·.2)).Nodup) (hw : ∀ r ∈ rules, Writable r)
    (hr : ∀ r ∈ rules, ∀ t ∈ [r.1, r.2, r.1 ++ r.2], t ∈ es.map (·.1)) :
    ∃ v merges, Vocab.fromJSONFile m (writeVocab es) order = .ok v
      ∧ mergeMapFromFile (writeRules rules) v 0 = .ok (.ok merges)
      ∧ (∀ t i, v.getID t = some i ↔ (t, i) ∈ es) ∧ TableOf v rules merges := by
  obtain ⟨v, h1, h2, -, h4⟩ := C81_roundtrip m es order hv hi hk
  have h4 := h4 ho hid
  have hinv : v.Inverse := fun t i => by rw [h2, h4]
  obtain ⟨merges, h5, h6⟩ := rules_file hinv hw (by
    intro r hr'
    have key : ∀ t ∈ [r.1, r.2, r.1 ++ r.2], ∃ i, v.getID t = some i := by
      intro t ht
      obtain ⟨e, he, rfl⟩ := List.mem_map.1 (hr r hr' t ht)
      exact ⟨e.2, (h2 _ _).2 he⟩
    obtain ⟨i, hi⟩ := key r.1 (by simp)
    obtain ⟨j, hj⟩ := key r.2 (by simp)
    obtain ⟨k, hk⟩ := key (r.1 ++ r.2) (by simp)
    exact ⟨i, j, k, hi, hj, hk⟩)
  exact ⟨v, merges, h1, h5, h2, h6⟩

/-- Tokenizing with the vocabulary and the table of the two files. -/
theorem loaded_tokens {es : List (Str × Int)} {rules : List (Str × Str)} {v : Vocab} {merges : MergeMap}
    (hv : ∀ e ∈ es, ValidUtf8 e.1 ∧ e.1 ≠ []) (h2 : mergeMapFromFile (writeRules rules) v 0 = .ok (.ok merges))
    (h3 : ∀ t i, v.getID t = some i ↔ (t, i) ∈ es) (h4 : TableOf v rules merges)
    (capacity : Int) (unk suffix : Str) (fuse : Bool) (rnd : Nat → Bool) (rs : List Rune)
    (hu : unk = [] ∨ unk ∈ es.map (·.1)) (hrs : ∀ r ∈ rs, ValidRune r) (hx : ∀ x ∈ suffixed suffix rs, x ∈ es.map (·.1)) :
    ∃ ts, (plainBPE v merges capacity unk suffix fuse).tokenize rnd (encodeRunes rs) = .ok (.ok (some ts))
      ∧ ts.map (·.value) = bpe rules (suffixed suffix rs)
      ∧ (∀ t ∈ ts, (t.value, t.id) ∈ es)
      ∧ (suffix = [] → ts.map (fun t => (t.value, t.offsets.start, t.offsets.stop))
          = placed 0 (bpe rules (rs.map encodeRune))) := by
  have hadd : Additive merges := C40_file (writeRules rules) v h4.inv (by
    cases hc : v.getID [] with
    | none => rfl
    | some i => exact absurd rfl (hv _ ((h3 _ _).1 hc)).2) h2
  have hval : ValidUtf8 (encodeRunes rs) := ⟨rs, hrs, rfl⟩
  have hro : runesOf (encodeRunes rs) = rs := runesOf_encodeRunes rs hrs
  have haff : ∀ i r, (plainBPE v merges capacity unk suffix fuse).affixed rs.length i r
      = encodeRune r ++ if i + 1 = rs.length then suffix else [] := by
    intro i r
    simp [BPE.affixed, plainBPE]
  obtain ⟨ts, g1, g2, g3⟩ := tokenize_bpe (plainBPE v merges capacity unk suffix fuse) rnd (encodeRunes rs) rfl h4 hadd hval
    (by
      rcases hu with hu | hu
      · exact .inl hu
      · obtain ⟨e, he, rfl⟩ := List.mem_map.1 hu
        refine .inr ?_
        show v.getID e.1 ≠ none
        rw [(h3 _ _).2 he]; simp)
    (by
      intro i r hir
      rw [hro] at hir ⊢
      rw [haff]
      obtain ⟨e, he, hxe⟩ := List.mem_map.1 (hx (encodeRune r ++ if i + 1 = rs.length then suffix else []) (by
        unfold suffixed
        rw [List.mem_mapIdx]
        obtain ⟨hl, e⟩ := List.getElem?_eq_some_iff.1 hir
        exact ⟨i, hl, by rw [e]⟩))
      show v.getID _ ≠ none
      rw [← hxe, (h3 _ _).2 he]; simp)
  have hsuf : ((runesOf (encodeRunes rs)).mapIdx fun i r =>
      (plainBPE v merges capacity unk suffix fuse).affixed (runesOf (encodeRunes rs)).length i r) = suffixed suffix rs := by
    rw [hro]
    simp only [haff]
    rfl
  rw [hsuf] at g2
  refine ⟨ts, g1, g2, ?_, ?_⟩
  · intro t ht
    exact (h3 _ _).1 ((h4.inv _ _).2 (tokenTiles_mem g3 t ht))
  · rintro rfl
    have hchars := suffixed_nil rs
    rw [tokenTiles_placed g3, g2, hchars]
    intro t ht
    have := BPE.C45_values (plainBPE v merges capacity unk [] fuse) rnd (encodeRunes rs) hval rfl rfl
      (by
        intro r hr
        rw [hro] at hr
        obtain ⟨e, he, hxe⟩ := List.mem_map.1 (hx (encodeRune r) (by rw [hchars]; exact List.mem_map_of_mem hr))
        show v.getID _ ≠ none
        rw [← hxe, (h3 _ _).2 he]; simp)
      (fun t i h => (h4.inv _ _).1 h) (BPE.C45_file (writeRules rules) v h4.inv h2) g1 t ht
    have := goSlice_length this
    omega

/-- **C82.** Terms with ids and rules on these terms are written to a vocabulary file and a merges file, loaded by
`FromJSONFile` and `MergeMapFromFile`, and given to the model.  Then every text of known characters gets the pieces that
the rules, applied one merge at a time, make of its characters; the ids are those of the file; and without suffix each
token lies where its piece does. -/
theorem C82_tokens (m : Machine) (es : List (Str × Int)) (rules : List (Str × Str))
    (order : GoMap Str Int → List (Str × Int)) (ho : IterationOrder order)
    (hv : ∀ e ∈ es, ValidUtf8 e.1 ∧ e.1 ≠ []) (hi : ∀ e ∈ es, -(m.half : Int) ≤ e.2 ∧ e.2 < m.half)
    (hk : (es.map (·.1)).Nodup) (hid : (es.map (·.2)).Nodup) (hw : ∀ r ∈ rules, Writable r)
    (hr : ∀ r ∈ rules, ∀ t ∈ [r.1, r.2, r.1 ++ r.2], t ∈ es.map (·.1)) :
    ∃ v merges, Vocab.fromJSONFile m (writeVocab es) order = .ok v
      ∧ mergeMapFromFile (writeRules rules) v 0 = .ok (.ok merges)
      ∧ ∀ (capacity : Int) (unk suffix : Str) (fuse : Bool) (rnd : Nat → Bool) (rs : List Rune),
        unk = [] ∨ unk ∈ es.map (·.1) → (∀ r ∈ rs, ValidRune r) → (∀ x ∈ suffixed suffix rs, x ∈ es.map (·.1)) →
        ∃ ts, (plainBPE v merges capacity unk suffix fuse).tokenize rnd (encodeRunes rs) = .ok (.ok (some ts))
          ∧ ts.map (·.value) = bpe rules (suffixed suffix rs)
          ∧ (∀ t ∈ ts, (t.value, t.id) ∈ es)
          ∧ (suffix = [] → ts.map (fun t => (t.value, t.offsets.start, t.offsets.stop))
              = placed 0 (bpe rules (rs.map encodeRune))) := by
  obtain ⟨v, merges, h1, h2, h3, h4⟩ := C82_files m es rules order ho (fun e he => (hv e he).1) hi hk hid hw hr
  exact ⟨v, merges, h1, h2, fun capacity unk suffix fuse rnd rs hu hrs hx =>
    loaded_tokens hv h2 h3 h4 capacity unk suffix fuse rnd rs hu hrs hx⟩

/-- **C82, the GPT-2 reference.** If a rule that uses the product of another one comes after it, merging all occurrences
of a pair at once, as the reference implementation does, gives the same pieces. -/
theorem C82_gpt {rules : List (Str × Str)} (ho : InOrder rules) (hne : ∀ r ∈ rules, r.1 ≠ [] ∧ r.2 ≠ []) (w : List Str) :
    gptBpe rules w = bpe rules w := gptBpe_eq ho hne w

/-- **C82, training.** Rules as training makes them are in this order. -/
theorem C82_trained {rules : List (Str × Str)} (h : Trained rules) (hv : ∀ r ∈ rules, ValidUtf8 r.1 ∧ ValidUtf8 r.2)
    (hne : ∀ r ∈ rules, r.1 ≠ [] ∧ r.2 ≠ []) : InOrder rules := h.inOrder hv hne

/-- **C82, no rule left.** -/
theorem C82_done (rules : List (Str × Str)) (w : List Str) : ∀ r ∈ rules, r ∉ neighbours (bpe rules w) := by
  rw [← firstRule_none]
  have : ∀ (n : Nat) (w : List Str), w.length ≤ n → firstRule rules (bpe rules w) = none := by
    intro n
    induction n with
    | zero =>
      intro w h
      rw [List.length_eq_zero_iff.1 (by omega : w.length = 0)]
      exact firstRule_none.2 (by simp [bpe, onePass, neighbours])
    | succ n ih =>
      intro w h
      cases hr : firstRule rules w with
      | none => rw [bpe_none hr]; exact hr
      | some r =>
        obtain ⟨a, b⟩ := r
        have := mergeFirst_length (firstRule_some.1 hr).1
        rw [bpe_some hr]
        exact ih _ (by omega)
  exact this _ w (Nat.le_refl _)

/-- **C82, why the order matters.** With a rule for `bc b` before the rule for `b c`, merging one pair at a time makes
`bcb` and `c` of `b c b c`, the reference implementation `bc` twice. -/
theorem C82_order_counterexample :
    bpe [(b!"bc", b!"b"), (b!"b", b!"c")] [b!"b", b!"c", b!"b", b!"c"] = [b!"bcb", b!"c"]
    ∧ gptBpe [(b!"bc", b!"b"), (b!"b", b!"c")] [b!"b", b!"c", b!"b", b!"c"] = [b!"bc", b!"bc"] := by decide +kernel

/-- A vocabulary and rules. -/
def fileTerms : List (Str × Int) :=
  [(b!"l", 0), (b!"o", 1), (b!"w", 2), (b!"é", 3), (b!"lo", 4), (b!"low", 5), (b!"éé", 6), (b!"\"", 7)]
def fileRules : List (Str × Str) := [(b!"l", b!"o"), (b!"lo", b!"w"), (b!"é", b!"é")]

example : writeRules fileRules = b!"#version: 0.2\nl o\nlo w\né é\n" := by decide +kernel

/-- The hypotheses of `C82_tokens` hold for them. -/
example : (∀ e ∈ fileTerms, ValidUtf8 e.1 ∧ e.1 ≠ []) ∧ (fileTerms.map (·.1)).Nodup ∧ (fileTerms.map (·.2)).Nodup
    ∧ (∀ r ∈ fileRules, ∀ t ∈ [r.1, r.2, r.1 ++ r.2], t ∈ fileTerms.map (·.1)) := by decide +kernel

example : bpe fileRules [b!"l", b!"o", b!"w", b!"é", b!"é", b!"é", b!"o"] = [b!"low", b!"éé", b!"é", b!"o"] := by decide +kernel

/-- Of a rule on two lines the last line counts. -/
example : bpe [(b!"a", b!"b"), (b!"b", b!"c"), (b!"a", b!"b")] [b!"a", b!"b", b!"c", b!"a", b!"b"]
    = [b!"a", b!"bc", b!"ab"] := by decide +kernel

/-- The whole way. -/
example : ((Vocab.fromJSONFile Machine.go64 (writeVocab fileTerms) id).toOption.map fun v =>
      match mergeMapFromFile (writeRules fileRules) v 0 with
      | .ok (.ok merges) => (plainBPE v merges 0 [] [] false).tokenize (fun _ => false) b!"lowéo"
      | _ => .panic)
    = some (.ok (.ok (some [⟨5, b!"low", ⟨0, 3⟩⟩, ⟨3, b!"é", ⟨3, 5⟩⟩, ⟨1, b!"o", ⟨5, 6⟩⟩]))) := by decide +kernel

end Verif
