import Verif.Spec.Memory

/-! Reading and writing slices; what a write to a new array leaves alone. -/
set_option autoImplicit false

namespace Verif.Memory

/-- The window of the slice is inside its array. -/
def Slc.Ok (m : Mem) (s : Slc) : Prop :=
  s.len ≤ s.cap ∧ ∃ a, m[s.arr]? = some a ∧ s.off + s.cap ≤ a.length

theorem ext_getElem? {m m' : Mem} (h : m <+: m') {i : Nat} {a : List Align}
    (hi : m[i]? = some a) : m'[i]? = some a := by
  obtain ⟨t, rfl⟩ := h
  have : i < m.length := by
    rcases Nat.lt_or_ge i m.length with h | h
    · exact h
    · rw [List.getElem?_eq_none h] at hi; simp at hi
  rw [List.getElem?_append_left this]; exact hi

theorem Slc.Ok.ext {m m' : Mem} {s : Slc} (hs : s.Ok m) (h : m <+: m') : s.Ok m' := by
  obtain ⟨h1, a, h2, h3⟩ := hs
  exact ⟨h1, a, ext_getElem? h h2, h3⟩

theorem Slc.val_ext {m m' : Mem} {s : Slc} (hs : s.Ok m) (h : m <+: m') :
    s.val m' = s.val m := by
  obtain ⟨_, a, h2, _⟩ := hs
  simp only [Slc.val, h2, ext_getElem? h h2]

theorem Slc.val_length {m : Mem} {s : Slc} (hs : s.Ok m) : (s.val m).length = s.len := by
  obtain ⟨h1, a, h2, h3⟩ := hs
  simp only [Slc.val, h2, Option.getD_some, List.length_take, List.length_drop]
  omega

theorem Slc.Ok.arr_lt {m : Mem} {s : Slc} (hs : s.Ok m) : s.arr < m.length := by
  obtain ⟨_, a, h2, _⟩ := hs
  rcases Nat.lt_or_ge s.arr m.length with h | h
  · exact h
  · rw [List.getElem?_eq_none h] at h2; simp at h2

theorem modify_ext {m0 m : Mem} (h : m0 <+: m) {i : Nat} (hi : m0.length ≤ i)
    (f : List Align → List Align) : m0 <+: m.modify i f := by
  obtain ⟨t, rfl⟩ := h
  refine ⟨t.modify (i - m0.length) f, ?_⟩
  apply List.ext_getElem?
  intro j
  rcases Nat.lt_or_ge j m0.length with hj | hj
  · rw [List.getElem?_append_left hj, List.getElem?_modify, List.getElem?_append_left hj]
    have hij : i ≠ j := by omega
    simp [hij]
  · rw [List.getElem?_append_right hj, List.getElem?_modify, List.getElem?_modify,
      List.getElem?_append_right hj]
    have : (i - m0.length = j - m0.length) ↔ (i = j) := by omega
    simp only [this]

/-- A slice being built: it lies in an array allocated after `m0`. -/
structure Fresh (m0 m : Mem) (s : Slc) : Prop where
  ext : m0 <+: m
  ok : s.Ok m
  new : m0.length ≤ s.arr

theorem make_spec {m : Mem} {len cap : Int} {m' : Mem} {s : Slc}
    (h : Slc.make m len cap = .ok (m', s)) :
    Fresh m m' s ∧ s.val m' = List.replicate len.toNat zeroAlign ∧ s.len = len.toNat
      ∧ s.cap = cap.toNat ∧ s.off = 0 ∧ s.arr = m.length := by
  unfold Slc.make at h
  by_cases hc : 0 ≤ len ∧ len ≤ cap
  · rw [if_pos hc] at h
    injection h with h
    injection h with h1 h2
    subst h1; subst h2
    have hg : (m ++ [List.replicate cap.toNat zeroAlign])[m.length]?
        = some (List.replicate cap.toNat zeroAlign) := by simp
    refine ⟨⟨⟨_, rfl⟩, ⟨by simp only; omega, _, hg, by simp⟩, by simp⟩, ?_, rfl, rfl, rfl, rfl⟩
    simp only [Slc.val, hg, Option.getD_some, List.drop_zero, List.take_replicate]
    congr 1; omega
  · rw [if_neg hc] at h; cases h

theorem append_spec (rt : Rt) {m0 m : Mem} {s : Slc} (hf : Fresh m0 m s) (xs : List Align) :
    Fresh m0 (s.append rt m xs).1 (s.append rt m xs).2
      ∧ (s.append rt m xs).2.val (s.append rt m xs).1 = s.val m ++ xs
      ∧ (s.append rt m xs).2.len = s.len + xs.length
      ∧ (s.len + xs.length ≤ s.cap → (s.append rt m xs).2.cap = s.cap
          ∧ (s.append rt m xs).1.length = m.length) := by
  obtain ⟨he, ⟨h1, a, h2, h3⟩, hn⟩ := hf
  unfold Slc.append
  by_cases hc : s.len + xs.length ≤ s.cap
  · simp only [if_pos hc]
    have hg : (m.modify s.arr fun a => a.take (s.off + s.len) ++ xs
        ++ a.drop (s.off + (s.len + xs.length)))[s.arr]?
        = some (a.take (s.off + s.len) ++ xs ++ a.drop (s.off + (s.len + xs.length))) := by
      rw [List.getElem?_modify, h2]; simp
    refine ⟨⟨modify_ext he hn _, ⟨hc, _, hg, ?_⟩, hn⟩, ?_, trivial, fun _ => ⟨trivial, by simp⟩⟩
    · simp only [List.length_append, List.length_take, List.length_drop]; omega
    · simp only [Slc.val, hg, h2, Option.getD_some]
      rw [List.append_assoc, List.drop_append, List.take_append, List.drop_take]
      have e1 : s.off + s.len - s.off = s.len := by omega
      have e2 : s.off - (a.take (s.off + s.len)).length = 0 := by
        simp only [List.length_take]; omega
      have e3 : (List.take s.len (List.drop s.off a)).length = s.len := by
        simp only [List.length_take, List.length_drop]; omega
      rw [e1, e2, List.drop_zero, e3, List.take_take]
      congr 1
      · rw [Nat.min_eq_right (by omega)]
      · rw [show s.len + xs.length - s.len = xs.length by omega]; simp
  · simp only [if_neg hc]
    have hv : (s.val m).length = s.len := Slc.val_length ⟨h1, a, h2, h3⟩
    have hg : ∀ y : List Align, (m ++ [y])[m.length]? = some y := by intro y; simp
    refine ⟨⟨he.trans ⟨_, rfl⟩, ⟨by simp only; omega, _, hg _, ?_⟩, by have := he.length_le; simpa using this⟩,
      ?_, trivial, fun h => absurd h hc⟩
    · simp only [List.length_append, List.length_replicate, hv]; omega
    · simp only [Slc.val, hg, Option.getD_some, List.drop_zero]
      have : (List.take s.len (List.drop s.off (m[s.arr]?.getD [])) ++ xs).length
          = s.len + xs.length := by
        rw [List.length_append]
        have := hv
        simp only [Slc.val] at this
        rw [this]
      rw [List.take_append, this, List.take_of_length_le (by rw [this]; exact Nat.le_refl _)]
      simp

theorem appendN_spec (rt : Rt) (x : Align) {m0 : Mem} (n : Nat) :
    ∀ {m : Mem} {s : Slc}, Fresh m0 m s →
      Fresh m0 (appendN rt x n (m, s)).1 (appendN rt x n (m, s)).2
        ∧ (appendN rt x n (m, s)).2.val (appendN rt x n (m, s)).1
          = s.val m ++ List.replicate n x
        ∧ (appendN rt x n (m, s)).2.len = s.len + n
        ∧ (s.len + n ≤ s.cap → (appendN rt x n (m, s)).2.cap = s.cap
            ∧ (appendN rt x n (m, s)).1.length = m.length) := by
  induction n with
  | zero => intro m s hf; exact ⟨hf, by simp [appendN], by simp [appendN], fun _ => ⟨rfl, rfl⟩⟩
  | succ n ih =>
    intro m s hf
    obtain ⟨hf', hv, hl, hc⟩ := append_spec rt hf [x]
    obtain ⟨kf, kv, kl, kc⟩ := ih hf'
    simp only [appendN]
    refine ⟨kf, ?_, ?_, ?_⟩
    · rw [kv, hv, List.replicate_succ, List.append_assoc]; rfl
    · rw [kl, hl]; simp only [List.length_cons, List.length_nil]; omega
    · intro hle
      simp only [List.length_cons, List.length_nil] at hl hc
      obtain ⟨c1, c2⟩ := hc (by omega)
      obtain ⟨d1, d2⟩ := kc (by rw [hl, c1]; omega)
      exact ⟨by rw [d1, c1], by rw [d2, c2]⟩

theorem reslice_val {m : Mem} {s t : Slc} (hs : s.Ok m) {a b : Int}
    (h : s.reslice a b = .ok t) (hb : b ≤ s.len) :
    t.Ok m ∧ goSlice (s.val m) a b = .ok (t.val m) ∧ (t.len : Int) = b - a := by
  unfold Slc.reslice at h
  by_cases hc : 0 ≤ a ∧ a ≤ b ∧ b ≤ s.cap
  · rw [if_pos hc] at h
    injection h with h; subst h
    obtain ⟨h1, c, h2, h3⟩ := hs
    have hv := Slc.val_length (m := m) (s := s) ⟨h1, c, h2, h3⟩
    refine ⟨⟨by simp only; omega, c, h2, by simp only; omega⟩, ?_, by simp only; omega⟩
    unfold goSlice
    rw [if_pos ⟨hc.1, hc.2.1, by rw [hv]; exact hb⟩]
    simp only [Slc.val, h2, Option.getD_some, List.drop_take, List.take_take, List.drop_drop]
    rw [Nat.min_eq_left (by omega)]
  · rw [if_neg hc] at h; cases h

theorem reslice_eq {m : Mem} {s : Slc} (hs : s.Ok m) {a b : Int} (hb : b ≤ s.len) :
    (∃ t, s.reslice a b = .ok t ∧ t.Ok m ∧ goSlice (s.val m) a b = .ok (t.val m)
        ∧ (t.len : Int) = b - a)
      ∨ (s.reslice a b = .panic ∧ goSlice (s.val m) a b = .panic) := by
  cases hr : s.reslice a b with
  | ok t => exact .inl ⟨t, rfl, (reslice_val hs hr hb)⟩
  | panic =>
    refine .inr ⟨rfl, ?_⟩
    unfold Slc.reslice at hr
    unfold goSlice
    rw [Slc.val_length hs]
    by_cases hc : 0 ≤ a ∧ a ≤ b ∧ b ≤ (s.len : Int)
    · have := hs.1
      rw [if_pos ⟨hc.1, hc.2.1, by omega⟩] at hr; cases hr
    · rw [if_neg hc]

theorem set_spec {m0 m : Mem} {s : Slc} (hf : Fresh m0 m s) {i : Nat} (x : Align)
    (hi : i < s.len) :
    ∃ m', s.set m i x = .ok m' ∧ Fresh m0 m' s ∧ s.val m' = (s.val m).set i x := by
  obtain ⟨he, ⟨h1, a, h2, h3⟩, hn⟩ := hf
  refine ⟨m.modify s.arr fun a => a.set (s.off + i) x, ?_, ?_, ?_⟩
  · unfold Slc.set; rw [if_pos ⟨by omega, by omega⟩]; simp
  · have hg : (m.modify s.arr fun a => a.set (s.off + i) x)[s.arr]?
        = some (a.set (s.off + i) x) := by
      rw [List.getElem?_modify, h2]; simp
    exact ⟨modify_ext he hn _, ⟨h1, _, hg, by simpa using h3⟩, hn⟩
  · have hg : (m.modify s.arr fun a => a.set (s.off + i) x)[s.arr]?
        = some (a.set (s.off + i) x) := by
      rw [List.getElem?_modify, h2]; simp
    simp only [Slc.val, hg, h2, Option.getD_some]
    apply List.ext_getElem?
    intro j
    simp only [List.getElem?_take, List.getElem?_drop, List.getElem?_set]
    grind

end Verif.Memory
