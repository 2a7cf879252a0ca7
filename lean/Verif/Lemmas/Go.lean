import Verif.Model.Go

set_option autoImplicit false

namespace Verif

theorem goSlice_eq_ok {α : Type} {l : List α} {a b : Int} {r : List α} :
    goSlice l a b = .ok r ↔
      (0 ≤ a ∧ a ≤ b ∧ b ≤ (l.length : Int)) ∧ r = (l.drop a.toNat).take (b - a).toNat := by
  unfold goSlice
  split
  · rename_i h; simp [h]; exact eq_comm
  · rename_i h; simp [h]

theorem goSlice_eq_panic {α : Type} {l : List α} {a b : Int} :
    goSlice l a b = .panic ↔ ¬ (0 ≤ a ∧ a ≤ b ∧ b ≤ (l.length : Int)) := by
  unfold goSlice
  split <;> simp [*]

theorem goSlice_of {α : Type} {l : List α} {a b : Int} (h0 : 0 ≤ a) (h1 : a ≤ b)
    (h2 : b ≤ (l.length : Int)) :
    goSlice l a b = .ok ((l.drop a.toNat).take (b - a).toNat) := by
  simp [goSlice, h0, h1, h2]

/-- Slicing out the middle of a concatenation. -/
theorem goSlice_mid {α : Type} (p m q : List α) {a b : Int} (ha : a = p.length)
    (hb : b = (p.length : Int) + m.length) : goSlice (p ++ m ++ q) a b = .ok m := by
  subst ha hb
  rw [goSlice_of (by omega) (by omega) (by simp; omega)]
  have : ((p.length : Int) + m.length - p.length).toNat = m.length := by omega
  rw [this]
  simp

theorem goSlice_prefix {α : Type} (p q : List α) {b : Int} (hb : b = p.length) :
    goSlice (p ++ q) 0 b = .ok p := by
  have := goSlice_mid [] p q (a := 0) (b := b) (by simp) (by simp [hb])
  simpa using this

theorem goSlice_suffix {α : Type} (p q : List α) {a b : Int} (ha : a = p.length)
    (hb : b = (p.length : Int) + q.length) :
    goSlice (p ++ q) a b = .ok q := by
  have := goSlice_mid p q [] (a := a) (b := b) ha hb
  simpa using this

theorem goSlice_length {α : Type} {l r : List α} {a b : Int} (h : goSlice l a b = .ok r) :
    (r.length : Int) = b - a := by
  obtain ⟨⟨h0, h1, h2⟩, rfl⟩ := goSlice_eq_ok.1 h
  simp; omega

/-- A slice that does not panic splits the list. -/
theorem goSlice_split {α : Type} {l r : List α} {a b : Int} (h : goSlice l a b = .ok r) :
    ∃ p q, l = p ++ r ++ q ∧ a = (p.length : Int) ∧ b = (p.length : Int) + r.length := by
  obtain ⟨⟨h0, h1, h2⟩, rfl⟩ := goSlice_eq_ok.1 h
  refine ⟨l.take a.toNat, l.drop b.toNat, ?_, ?_, ?_⟩
  · have : b.toNat = a.toNat + (b - a).toNat := by omega
    rw [this, ← List.drop_drop, List.append_assoc, List.take_append_drop, List.take_append_drop]
  · simp; omega
  · simp; omega

theorem goIndex_of_getElem? {α : Type} {l : List α} {i : Int} {x : α} (h0 : 0 ≤ i)
    (h : l[i.toNat]? = some x) : goIndex l i = .ok x := by
  simp [goIndex, h0, h]

theorem goIndex_eq_ok {α : Type} {l : List α} {i : Int} {x : α} :
    goIndex l i = .ok x ↔ 0 ≤ i ∧ l[i.toNat]? = some x := by
  unfold goIndex
  split
  · rename_i h
    cases hx : l[i.toNat]? <;> simp [h]
  · rename_i h; simp [h]

theorem goIndex_nat {α : Type} {l : List α} {i : Nat} (h : i < l.length) :
    goIndex l (i : Int) = .ok l[i] :=
  goIndex_of_getElem? (by omega) (by simp [h])

theorem goIndex_of_lt {α : Type} {l : List α} {i : Int} (h0 : 0 ≤ i) (h : i < (l.length : Int)) :
    ∃ x, goIndex l i = .ok x := by
  have hl : i.toNat < l.length := by omega
  exact ⟨l[i.toNat], goIndex_of_getElem? h0 (by simp [hl])⟩

theorem goIndex_mid {α : Type} (p : List α) (x : α) (q : List α) {i : Int} (hi : i = p.length) :
    goIndex (p ++ x :: q) i = .ok x := by
  subst hi
  apply goIndex_of_getElem? (by omega)
  simp

theorem goIndex_eq_panic {α : Type} {l : List α} {i : Int} :
    goIndex l i = .panic ↔ ¬ (0 ≤ i ∧ i < (l.length : Int)) := by
  unfold goIndex
  split
  · rename_i h
    cases hx : l[i.toNat]? with
    | none => simp only [true_iff]; have := List.getElem?_eq_none_iff.1 hx; omega
    | some x =>
      have := (List.getElem?_eq_some_iff.1 hx).1
      simp; omega
  · rename_i h; simp; omega

theorem goFor_append {α σ : Type} (xs ys : List α) (s : σ) (f : σ → α → GoM σ) :
    goFor (xs ++ ys) s f = (goFor xs s f >>= fun s' => goFor ys s' f) := by
  induction xs generalizing s with
  | nil => rfl
  | cons x xs ih =>
    simp only [List.cons_append, goFor_cons]
    cases f s x with
    | ok s' => simp [ih]
    | panic => rfl

/-- Loop invariant rule. -/
theorem goFor_inv {α σ : Type} (P : σ → Prop) (xs : List α) (s s' : σ) (f : σ → α → GoM σ)
    (h0 : P s) (hstep : ∀ s x s', x ∈ xs → P s → f s x = .ok s' → P s')
    (h : goFor xs s f = .ok s') : P s' := by
  induction xs generalizing s with
  | nil => simp at h; exact h ▸ h0
  | cons x xs ih =>
    rw [goFor_cons, GoM.bind_eq_ok] at h
    obtain ⟨s1, h1, h2⟩ := h
    exact ih s1 (hstep _ _ _ (by simp) h0 h1) (fun s x s' hx => hstep s x s' (by simp [hx])) h2

end Verif
