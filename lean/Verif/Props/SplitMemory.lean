import Verif.Lemmas.SplitMemory
import Verif.Model.Notation

/-! Property C95: slices of splits and pointers to tokens in memory. -/
set_option autoImplicit false

namespace Verif.SplitMemory

/-- What a slice kept from `Splits` is: the slice of the object, or an array that no object has. -/
def KeptOk (n0 : Nat) (W : World) (s : Slc) : Kept → Prop
  | .live k => ∃ p, W.objs[k]? = some p ∧ p.splits = s
  | .past rs => shows W s = rs ∧ s.arr < W.arrs.length ∧ n0 ≤ s.arr ∧ ∀ (k : Nat) (p : Obj), W.objs[k]? = some p → p.splits.arr ≠ s.arr

/-- A program in memory and on values. -/
structure Sim (W0 : World) (R : Run) (V : VRun) : Prop where
  strs : R.world.strs = V.strs
  out : R.out = V.out
  objs : R.world.objs.map (state R.world) = V.objs
  whole : ∀ (k : Nat) (p : Obj), R.world.objs[k]? = some p → ∃ a, R.world.arrs[p.splits.arr]? = some a ∧ a.length = p.splits.len
  fresh : ∀ (k : Nat) (p : Obj), R.world.objs[k]? = some p → W0.arrs.length ≤ p.splits.arr
  apart : ∀ (k j : Nat) (p q : Obj), R.world.objs[k]? = some p → R.world.objs[j]? = some q → p.splits.arr = q.splits.arr → k = j
  valid : ∀ (i : Nat) (a : List Cell), W0.arrs.length ≤ i → R.world.arrs[i]? = some a → Ok R.world a
  nodup : ∀ (k : Nat) (p : Obj), R.world.objs[k]? = some p → (ptrs (cells R.world p.splits)).Nodup
  single : ∀ (k j : Nat) (p q : Obj), R.world.objs[k]? = some p → R.world.objs[j]? = some q →
    ∀ x ∈ ptrs (cells R.world p.splits), x ∈ ptrs (cells R.world q.splits) → k = j
  kept : All2 (KeptOk W0.arrs.length R.world) R.kept V.kept
  len : W0.arrs.length ≤ R.world.arrs.length
  old : ∀ i, i < W0.arrs.length → R.world.arrs[i]? = W0.arrs[i]?
  more : More W0 R.world

theorem cells_congr {W W' : World} {s : Slc} (h : W'.arrs[s.arr]? = W.arrs[s.arr]?) : cells W' s = cells W s := by
  unfold cells; rw [h]

theorem shows_congr {W W' : World} {s : Slc} (h : W'.arrs[s.arr]? = W.arrs[s.arr]?) (hm : More W W') (ho : Ok W (cells W s)) :
    shows W' s = shows W s := by
  unfold shows; rw [cells_congr h, hm.look ho]

theorem cells_whole {W : World} {s : Slc} {a : List Cell} (h : W.arrs[s.arr]? = some a) (hl : a.length = s.len) : cells W s = a := by
  unfold cells; rw [h, Option.getD_some, ← hl, List.take_length]

theorem Sim.obj {W0 : World} {R : Run} {V : VRun} (h : Sim W0 R V) (k : Nat) :
    V.objs[k]? = (R.world.objs[k]?).map (state R.world) := by rw [← h.objs, List.getElem?_map]

theorem Sim.ok {W0 : World} {R : Run} {V : VRun} (h : Sim W0 R V) {s : Slc} (hs : W0.arrs.length ≤ s.arr) : Ok R.world (cells R.world s) := by
  intro p hp
  unfold cells at hp
  cases ha : R.world.arrs[s.arr]? with
  | none => rw [ha] at hp; simp [ptrs] at hp
  | some a =>
    rw [ha] at hp
    exact h.valid _ _ hs ha p ((Sublist_ptrs (List.take_sublist _ _)).subset hp)

/-- Only strings and tokens are different. -/
theorem Sim.ext {W0 : World} {R : Run} {V : VRun} (h : Sim W0 R V) {W' : World} (hx : Ext R.world W') {out out' : List Out}
    (he : out = out') : Sim W0 ⟨W', R.kept, out⟩ ⟨W'.strs, V.objs, V.kept, out'⟩ := by
  have hc : ∀ s, cells W' s = cells R.world s := fun s => cells_congr (by rw [hx.arrs])
  have hs : ∀ s : Slc, W0.arrs.length ≤ s.arr → shows W' s = shows R.world s := fun s hs => shows_congr (by rw [hx.arrs]) hx.more (h.ok hs)
  refine ⟨rfl, he, ?_, ?_, ?_, ?_, ?_, ?_, ?_, ?_, ?_, ?_, h.more.trans hx.more⟩
  · simp only [hx.objs]
    rw [← h.objs]
    apply List.map_congr_left
    intro p hp
    obtain ⟨k, hk⟩ := List.getElem?_of_mem hp
    unfold state
    rw [hs _ (h.fresh k p hk)]
  · simpa only [hx.objs, hx.arrs] using h.whole
  · simpa only [hx.objs] using h.fresh
  · simpa only [hx.objs] using h.apart
  · intro i a hi ha
    rw [hx.arrs] at ha
    exact (h.valid i a hi ha).mono hx.more.length
  · simpa only [hx.objs, hc] using h.nodup
  · simpa only [hx.objs, hc] using h.single
  · refine h.kept.imp ?_
    intro s K _ _ hK
    cases K with
    | live k => simpa only [KeptOk, hx.objs] using hK
    | past rs =>
      obtain ⟨h1, h2, h3, h4⟩ := hK
      exact ⟨by rw [hs s h3]; exact h1, by rw [hx.arrs]; exact h2, h3, by rw [hx.objs]; exact h4⟩
  · rw [hx.arrs]; exact h.len
  · rw [hx.arrs]; exact h.old

/-- The object `k` gets the array `b`, new or in the place of its old one. -/
theorem Sim.update {W0 : World} {R : Run} {V : VRun} (h : Sim W0 R V) {k : Nat} {P : Obj} (hk : R.world.objs[k]? = some P)
    {W' : World} {s : Slc} {b : List Cell} (ho : W'.objs = R.world.objs.set k { P with splits := s })
    (hb : W'.arrs[s.arr]? = some b) (hbl : b.length = s.len) (hs : s.arr = P.splits.arr ∨ R.world.arrs.length = s.arr)
    (hsame : ∀ i, i < R.world.arrs.length → i ≠ s.arr → W'.arrs[i]? = R.world.arrs[i]?)
    (hlen : ∀ i a, W'.arrs[i]? = some a → i < R.world.arrs.length ∨ i = s.arr)
    (hgrow : R.world.arrs.length ≤ W'.arrs.length)
    (hm : More R.world W') (hok : Ok W' b) (hn : (ptrs b).Nodup)
    (hp : ∀ x ∈ ptrs b, x ∈ ptrs (cells R.world P.splits) ∨ R.world.toks.length ≤ x)
    {kept : List Kept} (hkept : All2 (KeptOk W0.arrs.length W') R.kept kept) {out out' : List Out} (he : out = out') :
    Sim W0 ⟨W', R.kept, out⟩ ⟨W'.strs, V.objs.set k ⟨P.original, b.map (look W')⟩, kept, out'⟩ := by
  have hkl : k < R.world.objs.length := (List.getElem?_eq_some_iff.1 hk).1
  have hs0 : W0.arrs.length ≤ s.arr := by
    rcases hs with h1 | h1
    · rw [h1]; exact h.fresh k P hk
    · rw [← h1]; exact h.len
  have hcb : cells W' s = b := cells_whole hb hbl
  -- the other objects
  have hother : ∀ (j : Nat) (q : Obj), W'.objs[j]? = some q → (j = k ∧ q = { P with splits := s }) ∨ (j ≠ k ∧ R.world.objs[j]? = some q) := by
    intro j q hq
    rw [ho, List.getElem?_set] at hq
    by_cases hj : k = j
    · subst hj
      simp only [if_true, hkl, Option.some.injEq] at hq
      exact .inl ⟨rfl, hq.symm⟩
    · simp only [hj, if_false] at hq
      exact .inr ⟨fun e => hj e.symm, hq⟩
  have hlt : ∀ (j : Nat) (q : Obj), R.world.objs[j]? = some q → q.splits.arr < R.world.arrs.length := by
    intro j q hq
    obtain ⟨a, ha, -⟩ := h.whole j q hq
    exact (List.getElem?_eq_some_iff.1 ha).1
  have hne : ∀ (j : Nat) (q : Obj), j ≠ k → R.world.objs[j]? = some q → q.splits.arr ≠ s.arr := by
    intro j q hj hq e
    rcases hs with h1 | h1
    · exact hj (h.apart j k q P hq hk (e.trans h1))
    · have := hlt j q hq; omega
  have hcell : ∀ (j : Nat) (q : Obj), j ≠ k → R.world.objs[j]? = some q → cells W' q.splits = cells R.world q.splits := by
    intro j q hj hq
    exact cells_congr (hsame _ (hlt j q hq) (hne j q hj hq))
  refine ⟨rfl, he, ?_, ?_, ?_, ?_, ?_, ?_, ?_, hkept, Nat.le_trans h.len hgrow, ?_, h.more.trans hm⟩
  · apply List.ext_getElem?
    intro j
    rw [List.getElem?_map, List.getElem?_set]
    by_cases hj : k = j
    · subst hj
      have hl : k < V.objs.length := by rw [← h.objs]; simpa using hkl
      rw [if_pos rfl, if_pos hl]
      simp only [ho]
      rw [List.getElem?_set_self hkl, Option.map_some]
      simp only [state, shows, hcb]
    · rw [if_neg hj, h.obj j]
      simp only [ho]
      rw [List.getElem?_set_ne hj]
      cases hq : R.world.objs[j]? with
      | none => rfl
      | some q =>
        simp only [Option.map_some, state]
        rw [shows_congr (hsame _ (hlt j q hq) (hne j q (fun e => hj e.symm) hq)) hm (h.ok (h.fresh j q hq))]
  · intro j q hq
    rcases hother j q hq with ⟨rfl, rfl⟩ | ⟨hj, hq⟩
    · exact ⟨b, hb, hbl⟩
    · obtain ⟨a, ha, hal⟩ := h.whole j q hq
      exact ⟨a, by rw [hsame _ (hlt j q hq) (hne j q hj hq)]; exact ha, hal⟩
  · intro j q hq
    rcases hother j q hq with ⟨rfl, rfl⟩ | ⟨hj, hq⟩
    · exact hs0
    · exact h.fresh j q hq
  · intro i j p q hi hj e
    rcases hother i p hi with ⟨rfl, rfl⟩ | ⟨hi', hi⟩ <;> rcases hother j q hj with ⟨rfl, rfl⟩ | ⟨hj', hj⟩
    · rfl
    · exact absurd e.symm (hne j q hj' hj)
    · exact absurd e (hne i p hi' hi)
    · exact h.apart i j p q hi hj e
  · intro i a hi ha
    by_cases hie : i = s.arr
    · subst hie
      rw [hb] at ha
      cases ha
      exact hok
    · have hil := (hlen i a ha).resolve_right hie
      rw [hsame i hil hie] at ha
      exact (h.valid i a hi ha).mono hm.length
  · intro j q hq
    rcases hother j q hq with ⟨rfl, rfl⟩ | ⟨hj, hq⟩
    · simp only; rw [hcb]; exact hn
    · simp only; rw [hcell j q hj hq]; exact h.nodup j q hq
  · intro i j p q hi hj x hx hy
    simp only at hx hy
    rcases hother i p hi with ⟨rfl, rfl⟩ | ⟨hi', hi⟩ <;> rcases hother j q hj with ⟨rfl, rfl⟩ | ⟨hj', hj⟩
    · rfl
    · rw [hcb] at hx
      rw [hcell j q hj' hj] at hy
      rcases hp x hx with h1 | h1
      · exact h.single i j P q hk hj x h1 hy
      · have := h.ok (h.fresh j q hj) x hy; omega
    · rw [hcb] at hy
      rw [hcell i p hi' hi] at hx
      rcases hp x hy with h1 | h1
      · exact h.single i j p P hi hk x hx h1
      · have := h.ok (h.fresh i p hi) x hx; omega
    · rw [hcell i p hi' hi] at hx
      rw [hcell j q hj' hj] at hy
      exact h.single i j p q hi hj x hx hy
  · intro i hi
    rw [hsame i (Nat.lt_of_lt_of_le hi h.len) (by omega)]
    exact h.old i hi

/-- A new object. -/
theorem Sim.insert {W0 : World} {R : Run} {V : VRun} (h : Sim W0 R V) {σ : Store} {a : Nat} {ns : NS} :
    Sim W0 ⟨⟨σ, R.world.toks, R.world.arrs ++ [[⟨a, none⟩]], R.world.objs ++ [⟨ns.getOriginal, ⟨R.world.arrs.length, 1⟩⟩]⟩, R.kept, R.out⟩
      ⟨σ, V.objs ++ [⟨ns.getOriginal, [⟨a, none⟩]⟩], V.kept, V.out⟩ := by
  have hlt : ∀ (j : Nat) (q : Obj), R.world.objs[j]? = some q → q.splits.arr < R.world.arrs.length := by
    intro j q hq
    obtain ⟨a, ha, -⟩ := h.whole j q hq
    exact (List.getElem?_eq_some_iff.1 ha).1
  generalize hW : (⟨σ, R.world.toks, R.world.arrs ++ [[⟨a, none⟩]], R.world.objs ++ [⟨ns.getOriginal, ⟨R.world.arrs.length, 1⟩⟩]⟩ : World) = W'
  have hWa : W'.arrs = R.world.arrs ++ [[⟨a, none⟩]] := by rw [← hW]
  have hWo : W'.objs = R.world.objs ++ [⟨ns.getOriginal, ⟨R.world.arrs.length, 1⟩⟩] := by rw [← hW]
  have hm : More R.world W' := ⟨[], by rw [← hW]; simp⟩
  have hsame : ∀ i, i < R.world.arrs.length → W'.arrs[i]? = R.world.arrs[i]? := by
    intro i hi; rw [hWa, List.getElem?_append_left hi]
  have hb : W'.arrs[R.world.arrs.length]? = some [⟨a, none⟩] := by rw [hWa]; simp
  have hcb : cells W' ⟨R.world.arrs.length, 1⟩ = [⟨a, none⟩] := cells_whole hb rfl
  have hother : ∀ (j : Nat) (q : Obj), W'.objs[j]? = some q →
      (j = R.world.objs.length ∧ q = ⟨ns.getOriginal, ⟨R.world.arrs.length, 1⟩⟩) ∨ R.world.objs[j]? = some q := by
    intro j q hq
    rw [hWo] at hq
    by_cases hj : j < R.world.objs.length
    · rw [List.getElem?_append_left hj] at hq; exact .inr hq
    · rw [List.getElem?_append_right (by omega)] at hq
      have : j - R.world.objs.length = 0 := by
        cases e : j - R.world.objs.length with
        | zero => rfl
        | succ n => rw [e] at hq; simp at hq
      rw [this] at hq
      simp only [List.getElem?_cons_zero, Option.some.injEq] at hq
      exact .inl ⟨by omega, hq.symm⟩
  have hcell : ∀ (j : Nat) (q : Obj), R.world.objs[j]? = some q → cells W' q.splits = cells R.world q.splits :=
    fun j q hq => cells_congr (hsame _ (hlt j q hq))
  refine ⟨by rw [← hW], h.out, ?_, ?_, ?_, ?_, ?_, ?_, ?_, ?_, ?_, ?_, h.more.trans hm⟩
  · simp only
    rw [hWo, List.map_append, ← h.objs]
    congr 1
    · apply List.map_congr_left
      intro p hp
      obtain ⟨k, hk⟩ := List.getElem?_of_mem hp
      unfold state
      rw [shows_congr (hsame _ (hlt k p hk)) hm (h.ok (h.fresh k p hk))]
    · simp only [List.map_cons, List.map_nil, state, shows, hcb]
      rfl
  · intro j q hq
    rcases hother j q hq with ⟨rfl, rfl⟩ | hq
    · exact ⟨_, hb, rfl⟩
    · obtain ⟨b, hb, hbl⟩ := h.whole j q hq
      exact ⟨b, by rw [hsame _ (hlt j q hq)]; exact hb, hbl⟩
  · intro j q hq
    rcases hother j q hq with ⟨rfl, rfl⟩ | hq
    · exact h.len
    · exact h.fresh j q hq
  · intro i j p q hi hj e
    rcases hother i p hi with ⟨rfl, rfl⟩ | hi <;> rcases hother j q hj with ⟨rfl, rfl⟩ | hj
    · rfl
    · have := hlt j q hj; simp only at e; omega
    · have := hlt i p hi; simp only at e; omega
    · exact h.apart i j p q hi hj e
  · intro i b hi hb'
    by_cases hie : i < R.world.arrs.length
    · simp only at hb'
      rw [hsame i hie] at hb'
      exact (h.valid i b hi hb').mono hm.length
    · have hb2 : W'.arrs[i]? = some b := hb'
      have : i = R.world.arrs.length := by
        have := (List.getElem?_eq_some_iff.1 hb2).1
        rw [hWa] at this; simp at this; omega
      rw [this, hb] at hb2
      cases hb2
      simp [Ok, ptrs]
  · intro j q hq
    rcases hother j q hq with ⟨rfl, rfl⟩ | hq
    · simp only; rw [hcb]; simp [ptrs]
    · simp only; rw [hcell j q hq]; exact h.nodup j q hq
  · intro i j p q hi hj x hx hy
    simp only at hx hy
    rcases hother i p hi with ⟨rfl, rfl⟩ | hi
    · rw [hcb] at hx; simp [ptrs] at hx
    · rcases hother j q hj with ⟨rfl, rfl⟩ | hj
      · rw [hcb] at hy; simp [ptrs] at hy
      · rw [hcell i p hi] at hx
        rw [hcell j q hj] at hy
        exact h.single i j p q hi hj x hx hy
  · refine h.kept.imp ?_
    intro s K _ _ hK
    cases K with
    | live k =>
      obtain ⟨p, hp, e⟩ := hK
      refine ⟨p, ?_, e⟩
      simp only
      rw [hWo, List.getElem?_append_left (List.getElem?_eq_some_iff.1 hp).1]
      exact hp
    | past rs =>
      obtain ⟨h1, h2, h3, h4⟩ := hK
      refine ⟨by simp only; rw [shows_congr (hsame _ h2) hm (h.ok h3)]; exact h1, ?_, h3, ?_⟩
      · simp only; rw [hWa]; simp; omega
      · intro k p hp
        rcases hother k p hp with ⟨rfl, rfl⟩ | hp
        · simp only; omega
        · exact h4 k p hp
  · simp only; rw [hWa]; have := h.len; simp; omega
  · intro i hi
    simp only
    rw [hsame i (Nat.lt_of_lt_of_le hi h.len)]
    exact h.old i hi


theorem getObj_none {W : World} {k : Nat} (h : W.objs[k]? = none) : getObj W k = .panic := by
  unfold getObj goIndex; simp [h]

theorem goIndex_none {α : Type} {l : List α} {k : Nat} (h : l[k]? = none) : goIndex l (k : Int) = .panic := by
  unfold goIndex; simp [h]

theorem All2.mapRight {α β γ : Type} {R : α → β → Prop} {S : α → γ → Prop} {f : β → γ} {as : List α} {bs : List β} (h : All2 R as bs)
    (hf : ∀ a b, R a b → S a (f b)) : All2 S as (bs.map f) := by
  induction h with
  | nil => exact .nil
  | cons h1 _ ih => exact .cons (hf _ _ h1) ih

theorem Sim.state {W0 : World} {R : Run} {V : VRun} (h : Sim W0 R V) {k : Nat} {P : Obj} (hk : R.world.objs[k]? = some P) :
    ∃ a, R.world.arrs[P.splits.arr]? = some a ∧ a.length = P.splits.len ∧ cells R.world P.splits = a
      ∧ V.objs[k]? = some ⟨P.original, a.map (look R.world)⟩ ∧ Ok R.world a ∧ (ptrs a).Nodup := by
  obtain ⟨a, ha, hl⟩ := h.whole k P hk
  have hc := cells_whole ha hl
  refine ⟨a, ha, hl, hc, ?_, h.valid _ _ (h.fresh k P hk) ha, hc ▸ h.nodup k P hk⟩
  rw [h.obj k, hk, Option.map_some, SplitMemory.state, shows, hc]

theorem set_same {α : Type} {l : List α} {k : Nat} {x : α} (h : l[k]? = some x) : l.set k x = l := by
  obtain ⟨hl, e⟩ := List.getElem?_eq_some_iff.1 h
  rw [← e]; simp

theorem Sim.say {W0 : World} {R : Run} {V : VRun} (h : Sim W0 R V) (o : Out) :
    Sim W0 { R with out := R.out ++ [o] } { V with out := V.out ++ [o] } :=
  ⟨h.strs, by simp only; rw [h.out], h.objs, h.whole, h.fresh, h.apart, h.valid, h.nodup, h.single, h.kept, h.len, h.old, h.more⟩

theorem Call.run_sim {W0 : World} {R : Run} {V : VRun} (h : Sim W0 R V) (c : Call) : Agree (Sim W0) (c.run R) (c.runV V) := by
  cases c with
  | fromString s =>
    have e : SplitMemory.fromString R.world s = .ok ⟨R.world.strs ++ [NS.fromString s], R.world.toks,
        R.world.arrs ++ [[⟨R.world.strs.length, none⟩]],
        R.world.objs ++ [⟨(NS.fromString s).getOriginal, ⟨R.world.arrs.length, 1⟩⟩]⟩ := by
      unfold SplitMemory.fromString SplitMemory.fromNormalizedString Store.load
      simp
    simp only [Call.run, Call.runV, e, GoM.bind_ok, GoM.pure_eq, RefPTS.fromString]
    have := h.insert (σ := R.world.strs ++ [NS.fromString s]) (a := R.world.strs.length) (ns := NS.fromString s)
    rw [h.strs] at this ⊢
    exact this
  | fromNormalizedString a =>
    simp only [Call.run, Call.runV, SplitMemory.fromNormalizedString, RefPTS.fromNormalizedString, h.strs]
    cases hl : V.strs.load a with
    | panic => trivial
    | ok ns =>
      simp only [GoM.bind_ok, GoM.pure_eq]
      have := h.insert (σ := R.world.strs) (a := a) (ns := ns)
      rw [h.strs] at this
      exact this
  | split k F =>
    simp only [Call.run, Call.runV, SplitMemory.split]
    cases hk : R.world.objs[k]? with
    | none =>
      rw [getObj_none hk, goIndex_none (by rw [h.obj k, hk]; rfl)]
      trivial
    | some P =>
      obtain ⟨a, ha, hl, hc, hV, hok, hn⟩ := h.state hk
      rw [show getObj R.world k = .ok P from goIndex_some hk, goIndex_some hV]
      simp only [GoM.bind_ok, RefPTS.split]
      have := splitLoop_spec F P.splits a hl a 0 R.world [] ha rfl hok hn
      rw [h.strs] at this
      rw [← hl]
      cases hr : RefPTS.splitLoop F 0 (a.map (look R.world)) V.strs with
      | panic => rw [hr] at this; simp only at this; rw [this]; trivial
      | ok x =>
        obtain ⟨σ, e | rs⟩ := x
        · rw [hr] at this
          obtain ⟨W', e1, hx, rfl⟩ := this
          simp only [e1, GoM.bind_ok, GoM.pure_eq, set_same hV]
          exact h.ext hx (by rw [h.out])
        · rw [hr] at this
          obtain ⟨W', cs, e1, hx, rfl, hlk, hok', hn', hp⟩ := this
          rw [List.nil_append] at e1
          have hk' : W'.objs[k]? = some P := by rw [hx.objs]; exact hk
          simp only [e1, GoM.bind_ok, GoM.pure_eq, show getObj W' k = .ok P from goIndex_some hk', if_true]
          generalize hW : (⟨W'.strs, W'.toks, W'.arrs ++ [cs], W'.objs.set k { P with splits := ⟨W'.arrs.length, cs.length⟩ }⟩ : World) = W2
          have hWa : W2.arrs = R.world.arrs ++ [cs] := by rw [← hW, hx.arrs]
          have hWo : W2.objs = R.world.objs.set k { P with splits := ⟨R.world.arrs.length, cs.length⟩ } := by rw [← hW, hx.objs, hx.arrs]
          have hWt : W2.toks = W'.toks := by rw [← hW]
          have hWs : W2.strs = W'.strs := by rw [← hW]
          have hlook : look W2 = look W' := by funext c; unfold look; rw [hWt]
          have hm : More R.world W2 := by
            obtain ⟨new, hnew⟩ := hx.more
            exact ⟨new, by rw [hWt, hnew]⟩
          have hPl : P.splits.arr < R.world.arrs.length := (List.getElem?_eq_some_iff.1 ha).1
          have hsame : ∀ i, i < R.world.arrs.length → W2.arrs[i]? = R.world.arrs[i]? := by
            intro i hi; rw [hWa, List.getElem?_append_left hi]
          rw [← hlk, ← hlook, ← hWs]
          refine h.update (s := ⟨R.world.arrs.length, cs.length⟩) hk hWo (by rw [hWa]; simp) rfl (.inr rfl)
            (fun i hi _ => hsame i hi) ?_ (by rw [hWa]; simp) hm ?_ hn' ?_ ?_ (by rw [h.out])
          · intro i b hb
            have := (List.getElem?_eq_some_iff.1 hb).1
            rw [hWa] at this; simp at this; simp only; omega
          · intro p hp; rw [hWt]; exact hok' p hp
          · rw [hc]; exact hp
          · refine All2.mapRight h.kept ?_
            intro s K hK
            cases K with
            | live j =>
              obtain ⟨p, hp1, hp2⟩ := hK
              by_cases hj : j = k
              · subst hj
                rw [hk] at hp1
                cases hp1
                simp only [Kept.leave, if_true]
                rw [← hp2]
                refine ⟨?_, by rw [hWa]; simp; omega, h.fresh j P hk, ?_⟩
                · rw [shows_congr (hsame _ hPl) hm (h.ok (h.fresh j P hk)), shows, hc]
                · intro i q hq
                  rw [hWo, List.getElem?_set] at hq
                  by_cases hi : j = i
                  · subst hi
                    rw [if_pos rfl, if_pos (List.getElem?_eq_some_iff.1 hk).1] at hq
                    cases hq
                    simp only; omega
                  · rw [if_neg hi] at hq
                    intro e
                    exact hi (h.apart i j q P hq hk e).symm
              · simp only [Kept.leave, hj, if_false]
                refine ⟨p, ?_, hp2⟩
                rw [hWo, List.getElem?_set_ne (fun e => hj e.symm)]
                exact hp1
            | past rs =>
              obtain ⟨h1, h2, h3, h4⟩ := hK
              refine ⟨by rw [shows_congr (hsame _ h2) hm (h.ok h3)]; exact h1, by rw [hWa]; simp; omega, h3, ?_⟩
              intro i q hq
              rw [hWo, List.getElem?_set] at hq
              by_cases hi : k = i
              · subst hi
                rw [if_pos rfl, if_pos (List.getElem?_eq_some_iff.1 hk).1] at hq
                cases hq
                simp only; omega
              · rw [if_neg hi] at hq
                exact h4 i q hq
  | normalize k N =>
    simp only [Call.run, Call.runV, SplitMemory.normalize]
    cases hk : R.world.objs[k]? with
    | none =>
      rw [getObj_none hk, goIndex_none (by rw [h.obj k, hk]; rfl)]
      trivial
    | some P =>
      obtain ⟨a, ha, hl, hc, hV, hok, hn⟩ := h.state hk
      rw [show getObj R.world k = .ok P from goIndex_some hk, goIndex_some hV]
      simp only [GoM.bind_ok, RefPTS.normalize]
      have := normalizeLoop_spec N P.splits a hl a 0 R.world ha rfl hok
      rw [h.strs] at this
      rw [← hl]
      cases hr : RefPTS.normalizeLoop N (a.map (look R.world)) V.strs with
      | panic => rw [hr] at this; simp only at this; rw [this]; trivial
      | ok x =>
        obtain ⟨σ, e⟩ := x
        rw [hr] at this
        simp only [this, GoM.bind_ok, GoM.pure_eq, set_same hV]
        exact h.ext (W' := { R.world with strs := σ }) ⟨rfl, rfl, ⟨[], by simp⟩⟩ (by rw [h.out])
  | tokenize k t =>
    simp only [Call.run, Call.runV, SplitMemory.tokenize]
    cases hk : R.world.objs[k]? with
    | none =>
      rw [getObj_none hk, goIndex_none (by rw [h.obj k, hk]; rfl)]
      trivial
    | some P =>
      obtain ⟨a, ha, hl, hc, hV, hok, hn⟩ := h.state hk
      rw [show getObj R.world k = .ok P from goIndex_some hk, goIndex_some hV]
      simp only [GoM.bind_ok, RefPTS.tokenize]
      have := tokenizeLoop_spec k t P.splits P rfl a 0 R.world a hl hk ha rfl hok hn
      rw [← hl, ← h.strs]
      cases hr : RefPTS.tokenizeLoop t R.world.strs (a.map (look R.world)) with
      | panic => rw [hr] at this; simp only at this; rw [this]; trivial
      | ok x =>
        obtain ⟨rs, e⟩ := x
        rw [hr] at this
        obtain ⟨toks, cs, e1, hm, hlk, hlen, hok', hn', hp⟩ := this
        rw [List.take_zero, List.nil_append] at e1
        simp only [e1, GoM.bind_ok, GoM.pure_eq]
        have hPl : P.splits.arr < R.world.arrs.length := (List.getElem?_eq_some_iff.1 ha).1
        generalize hW : ({ R.world with toks := toks, arrs := R.world.arrs.set P.splits.arr cs } : World) = W2
        have hWa : W2.arrs = R.world.arrs.set P.splits.arr cs := by rw [← hW]
        have hWo : W2.objs = R.world.objs := by rw [← hW]
        have hWt : W2.toks = toks := by rw [← hW]
        have hWs : W2.strs = R.world.strs := by rw [← hW]
        have hlook : look W2 = look { R.world with toks := toks } := by funext c; unfold look; rw [hWt]
        have hm2 : More R.world W2 := by
          obtain ⟨new, hnew⟩ := hm
          exact ⟨new, by rw [hWt]; exact hnew⟩
        have hsame : ∀ i, i ≠ P.splits.arr → W2.arrs[i]? = R.world.arrs[i]? := by
          intro i hi; rw [hWa, List.getElem?_set_ne (fun e => hi e.symm)]
        rw [← hlk, ← hlook, ← hWs]
        refine h.update (s := P.splits) hk (by rw [hWo, set_same hk]) (by rw [hWa]; simp [hPl]) (by rw [hlen, hl]) (.inl rfl)
          (fun i _ hi => hsame i hi) ?_ (by rw [hWa]; simp) hm2 ?_ hn' (by rw [hc]; exact hp) ?_ (by rw [h.out])
        · intro i b hb
          have := (List.getElem?_eq_some_iff.1 hb).1
          rw [hWa] at this; simp at this; exact .inl this
        · intro p hp; rw [hWt]; exact hok' p hp
        · refine h.kept.imp ?_
          intro s K _ _ hK
          cases K with
          | live j => simpa only [KeptOk, hWo] using hK
          | past rs =>
            obtain ⟨h1, h2, h3, h4⟩ := hK
            refine ⟨?_, by rw [hWa]; simpa using h2, h3, by rw [hWo]; exact h4⟩
            rw [shows_congr (hsame _ (fun e => h4 k P hk e.symm)) hm2 (h.ok h3)]
            exact h1
  | splits k =>
    simp only [Call.run, Call.runV, SplitMemory.splits]
    cases hk : R.world.objs[k]? with
    | none =>
      rw [getObj_none hk, goIndex_none (by rw [h.obj k, hk]; rfl)]
      trivial
    | some P =>
      obtain ⟨a, ha, hl, hc, hV, hok, hn⟩ := h.state hk
      rw [show getObj R.world k = .ok P from goIndex_some hk, goIndex_some hV]
      simp only [GoM.bind_ok, GoM.pure_eq]
      exact ⟨h.strs, h.out, h.objs, h.whole, h.fresh, h.apart, h.valid, h.nodup, h.single,
        h.kept.append (.cons ⟨P, hk, rfl⟩ .nil), h.len, h.old, h.more⟩
  | intoEncoding k w ty =>
    simp only [Call.run, Call.runV, SplitMemory.intoEncoding]
    cases hk : R.world.objs[k]? with
    | none =>
      rw [getObj_none hk, goIndex_none (by rw [h.obj k, hk]; rfl)]
      trivial
    | some P =>
      obtain ⟨a, ha, hl, hc, hV, hok, hn⟩ := h.state hk
      rw [show getObj R.world k = .ok P from goIndex_some hk, goIndex_some hV]
      simp only [GoM.bind_ok, RefPTS.intoEncoding, List.length_map]
      rw [← hl, allSplitsHaveTokens_spec ha hl a 0 rfl]
      have hall : ∀ b : List Cell, Ok R.world b → ((b.map (look R.world)).all fun r => r.tokens.isSome) = b.all fun c => c.tokens.isSome := by
        intro b
        induction b with
        | nil => intro _; rfl
        | cons c b ih => intro hb; rw [List.map_cons, List.all_cons, List.all_cons, ih hb.cons, look_tokens hb]
      rw [hall a hok]
      by_cases h0 : a.length = 0
      · simp only [h0, if_true, GoM.pure_eq, GoM.bind_ok]
        exact h.say _
      · simp only [h0, if_false, GoM.bind_ok]
        cases ht : a.all fun c => c.tokens.isSome with
        | false =>
          simp only [Bool.not_false, if_true, GoM.pure_eq, GoM.bind_ok]
          exact h.say _
        | true =>
          simp only [Bool.not_true, Bool.false_eq_true, if_false]
          rw [encodeSplits_spec ha hl w ty a 0 rfl hok ht, h.strs]
          cases RefPTS.encodeSplits V.strs w ty 0 (a.map (look R.world)) with
          | panic => trivial
          | ok seq => exact h.say _
  | originalByteSplits k =>
    simp only [Call.run, Call.runV, SplitMemory.getOriginalByteSplits]
    cases hk : R.world.objs[k]? with
    | none =>
      rw [getObj_none hk, goIndex_none (by rw [h.obj k, hk]; rfl)]
      trivial
    | some P =>
      obtain ⟨a, ha, hl, hc, hV, hok, hn⟩ := h.state hk
      rw [show getObj R.world k = .ok P from goIndex_some hk, goIndex_some hV]
      simp only [GoM.bind_ok, RefPTS.getOriginalByteSplits]
      rw [← hl, originalByteSplits_spec ha hl a 0 rfl hok, h.strs]
      cases RefPTS.originalByteSplitsLoop V.strs (a.map (look R.world)) with
      | panic => trivial
      | ok l => exact h.say _
  | normalizedByteSplits k =>
    simp only [Call.run, Call.runV, SplitMemory.getNormalizedByteSplits]
    cases hk : R.world.objs[k]? with
    | none =>
      rw [getObj_none hk, goIndex_none (by rw [h.obj k, hk]; rfl)]
      trivial
    | some P =>
      obtain ⟨a, ha, hl, hc, hV, hok, hn⟩ := h.state hk
      rw [show getObj R.world k = .ok P from goIndex_some hk, goIndex_some hV]
      simp only [GoM.bind_ok, RefPTS.getNormalizedByteSplits]
      rw [← hl, normalizedByteSplits_spec ha hl a 0 0 rfl hok, h.strs]
      cases RefPTS.normalizedByteSplitsLoop V.strs (a.map (look R.world)) 0 with
      | panic => trivial
      | ok l => exact h.say _

theorem runAll_sim {W0 : World} (cs : List Call) : ∀ {R : Run} {V : VRun}, Sim W0 R V → Agree (Sim W0) (runAll cs R) (runAllV cs V) := by
  induction cs with
  | nil => intro R V h; exact h
  | cons c cs ih =>
    intro R V h
    unfold runAll runAllV
    have := Call.run_sim h c
    revert this
    cases c.run R with
    | panic => cases c.runV V with
      | panic => intro _; trivial
      | ok _ => intro h; exact h.elim
    | ok _ => cases c.runV V with
      | panic => intro h; exact h.elim
      | ok _ => intro h; exact ih h

theorem Agree.mono {α β : Type} {R S : α → β → Prop} (h : ∀ a b, R a b → S a b) :
    ∀ {x : GoM α} {y : GoM β}, Agree R x y → Agree S x y
  | .panic, .panic, _ => trivial
  | .ok _, .ok _, k => h _ _ k

theorem Sim.start (W0 : World) (h0 : W0.objs = []) : Sim W0 ⟨W0, [], []⟩ ⟨W0.strs, [], [], []⟩ := by
  refine ⟨rfl, rfl, by simp [h0], by simp [h0], by simp [h0], by simp [h0], ?_, by simp [h0], by simp [h0], .nil, Nat.le_refl _,
    fun _ _ => rfl, .refl _⟩
  intro i a hi ha
  have := (List.getElem?_eq_some_iff.1 ha).1
  simp only at this; omega

theorem flatMap_nodup {α β : Type} {f : α → List β} : ∀ {l : List α}, (∀ (k : Nat) (x : α), l[k]? = some x → (f x).Nodup) →
    (∀ (k j : Nat) (x y : α), l[k]? = some x → l[j]? = some y → ∀ b ∈ f x, b ∈ f y → k = j) → (l.flatMap f).Nodup
  | [], _, _ => by simp
  | x :: l, h1, h2 => by
    rw [List.flatMap_cons, List.nodup_append]
    refine ⟨h1 0 x rfl, flatMap_nodup (fun k y hy => h1 (k + 1) y hy)
      (fun k j y z hy hz b hb hb' => by have := h2 (k + 1) (j + 1) y z hy hz b hb hb'; omega), ?_⟩
    intro b hb b' hb' e
    subst e
    obtain ⟨y, hy, hby⟩ := List.mem_flatMap.1 hb'
    obtain ⟨j, hj⟩ := List.getElem?_of_mem hy
    have := h2 0 (j + 1) x y rfl hj b hb hby
    omega

/-- **C95**.  A program that makes objects, calls `Split`, `Normalize` and `Tokenize` on them in any order, with callbacks that
keep to the strings, reads the objects with `IntoEncoding`, `GetOriginalByteSplits` and `GetNormalizedByteSplits`, and keeps slices
from `Splits`, ends in memory as it does when each object has its own list of splits with its
own tokens: with a panic, or with the same strings, results of calls and splits.  A kept slice shows the splits of the object as they are, also
tokens that come later, until a call of `Split` succeeds; from then on it shows what it showed before that call.  Arrays and tokens that were
in memory before do not change, and no two splits of the objects share their tokens. -/
theorem C95_values (W0 : World) (h0 : W0.objs = []) (cs : List Call) :
    Agree (fun (R : Run) (V : VRun) => R.world.strs = V.strs ∧ R.out = V.out ∧ R.world.objs.map (state R.world) = V.objs
        ∧ R.kept.map (shows R.world) = V.kept.map (Kept.shows V)
        ∧ (∀ i, i < W0.arrs.length → R.world.arrs[i]? = W0.arrs[i]?) ∧ (∀ p, p < W0.toks.length → R.world.toks[p]? = W0.toks[p]?)
        ∧ (pointers R.world).Nodup)
      (runAll cs ⟨W0, [], []⟩) (runAllV cs ⟨W0.strs, [], [], []⟩) := by
  refine (runAll_sim cs (Sim.start W0 h0)).mono fun R V h => ⟨h.strs, h.out, h.objs, ?_, h.old, fun p hp => h.more.get hp, ?_⟩
  · refine (All2.map_eq h.kept ?_).symm
    intro s K _ _ hK
    symm
    cases K with
    | live k =>
      obtain ⟨p, hp, rfl⟩ := hK
      rw [Kept.shows, h.obj k, hp]
      rfl
    | past rs => exact hK.1
  · exact flatMap_nodup (fun k p hp => h.nodup k p hp) (fun k j p q hp hq x hx hy => h.single k j p q hp hq x hx hy)

/-! ### Callbacks that use more than strings -/

/-- The tokenization function leaves the splits of the object `k` alone. -/
def LeavesSplits (k : Nat) (T : TokenizeFn) : Prop := ∀ (a : Nat) (W W' : World) (r : Except Err (List Token)), T a W = .ok (W', r) →
  W'.objs[k]? = W.objs[k]? ∧ ∀ P, W.objs[k]? = some P → W'.arrs[P.splits.arr]? = W.arrs[P.splits.arr]?

theorem tokenizeLoop_leaves {k : Nat} {T : TokenizeFn} (hT : LeavesSplits k T) {P : Obj} (rest : List Cell) :
    ∀ (i : Nat) (W W' : World) (a : List Cell) (e : Option Err), a.length = P.splits.len → W.objs[k]? = some P →
      W.arrs[P.splits.arr]? = some a → a.drop i = rest → tokenizeLoop k T P.splits rest.length i W = .ok (W', e) →
      W'.objs[k]? = some P ∧ ∃ cs, W'.arrs[P.splits.arr]? = some (a.take i ++ cs)
        ∧ All2 (fun c c' => c'.addr = c.addr ∧ (c.tokens.isSome → c' = c) ∧ (e = none → c'.tokens.isSome)) rest cs := by
  induction rest with
  | nil =>
    intro i W W' a e hl hk ha hd h
    simp only [List.length_nil, tokenizeLoop, GoM.ok.injEq, Prod.mk.injEq] at h
    obtain ⟨rfl, rfl⟩ := h
    refine ⟨hk, [], ?_, .nil⟩
    have : a.take i = a := by
      apply List.take_of_length_le
      have := congrArg List.length hd
      simp at this; omega
    rw [List.append_nil, this]; exact ha
  | cons c rest ih =>
    intro i W W' a e hl hk ha hd h
    have hi : i < a.length := by
      have := congrArg List.length hd
      simp at this; omega
    have hai : a[i]? = some c := by rw [← List.head?_drop, hd]; rfl
    have htake : ∀ (b : List Cell) (x : Cell), b[i]? = some x → b.take (i + 1) = b.take i ++ [x] := by
      intro b x hb
      rw [List.take_add_one, hb]; rfl
    simp only [List.length_cons, tokenizeLoop, readAt_spec ha hl hd, GoM.bind_ok] at h
    cases hc : c.tokens with
    | some p =>
      rw [hc] at h
      obtain ⟨h1, cs, h2, h3⟩ := ih (i + 1) W W' a e hl hk ha (drop_next hd) h
      refine ⟨h1, c :: cs, ?_, .cons ⟨rfl, fun _ => rfl, fun _ => by simp [hc]⟩ h3⟩
      rw [h2, htake a c hai]; simp
    | none =>
      rw [hc] at h
      simp only [GoM.bind_eq_ok] at h
      obtain ⟨⟨W1, r⟩, hr, h⟩ := h
      obtain ⟨g1, g2⟩ := hT _ _ _ _ hr
      have g2 := g2 P hk
      cases r with
      | error err =>
        simp only [GoM.pure_eq, GoM.ok.injEq, Prod.mk.injEq] at h
        obtain ⟨rfl, rfl⟩ := h
        refine ⟨by rw [g1]; exact hk, c :: rest, by rw [g2, ← hd, List.take_append_drop]; exact ha, ?_⟩
        have : ∀ l : List Cell, All2 (fun c c' => c'.addr = c.addr ∧ (c.tokens.isSome → c' = c) ∧ (some err = none → c'.tokens.isSome)) l l := by
          intro l
          induction l with
          | nil => exact .nil
          | cons x l ih => exact .cons ⟨rfl, fun _ => rfl, by simp⟩ ih
        exact this _
      | ok ts =>
        have hk1 : W1.objs[k]? = some P := by rw [g1]; exact hk
        have ha1 : W1.arrs[P.splits.arr]? = some a := by rw [g2]; exact ha
        simp only [show getObj W1 k = .ok P from goIndex_some hk1, GoM.bind_ok] at h
        rw [writeTokens_spec (W := { W1 with toks := W1.toks ++ [ts] }) W1.toks.length ha1 hl hd] at h
        simp only [GoM.bind_ok] at h
        have hs : P.splits.arr < W1.arrs.length := (List.getElem?_eq_some_iff.1 ha1).1
        obtain ⟨h1, cs, h2, h3⟩ := ih (i + 1) ⟨W1.strs, W1.toks ++ [ts], W1.arrs.set P.splits.arr (a.set i { c with tokens := some W1.toks.length }), W1.objs⟩ W' (a.set i { c with tokens := some W1.toks.length }) e (by simpa using hl) hk1
          (by simp [hs]) (by rw [List.drop_set_of_lt (by omega)]; exact drop_next hd) h
        refine ⟨h1, { c with tokens := some W1.toks.length } :: cs, ?_, .cons ⟨rfl, by simp [hc], by simp⟩ h3⟩
        rw [h2, htake (a.set i _) { c with tokens := some W1.toks.length } (by simp [hi]), List.take_set_of_le (Nat.le_refl i)]
        simp

/-- **C95**, `Tokenize` with any function that leaves the splits of the object alone, whatever else it does to memory: the object
keeps its splits, those that had tokens keep them, and unless there is an error all have tokens afterwards. -/
theorem C95_tokenize {k : Nat} {T : TokenizeFn} (hT : LeavesSplits k T) {W W' : World} {P : Obj} {a : List Cell} {e : Option Err}
    (hk : W.objs[k]? = some P) (ha : W.arrs[P.splits.arr]? = some a) (hl : a.length = P.splits.len)
    (h : tokenize k T W = .ok (W', e)) :
    W'.objs[k]? = some P ∧ ∃ cs, W'.arrs[P.splits.arr]? = some cs
      ∧ All2 (fun c c' => c'.addr = c.addr ∧ (c.tokens.isSome → c' = c) ∧ (e = none → c'.tokens.isSome)) a cs := by
  unfold tokenize at h
  rw [show getObj W k = .ok P from goIndex_some hk] at h
  simp only [GoM.bind_ok] at h
  rw [← hl] at h
  simpa using tokenizeLoop_leaves hT a 0 W W' a e hl hk ha rfl h

/-! ### Cases -/

/-- One token for the whole text. -/
def wholeToken (ns : NS) : GoM (Except Err (List Token)) := .ok (.ok [⟨7, ns.get, ⟨0, ns.len⟩⟩])

/-- `Split` at spaces, which are left out. -/
def atSpaces : RefSplitFunc := refSplitByPattern (fromRune 32) .removed

def noWorld : World := ⟨[], [], [], []⟩

/-- The text of a split and its tokens, if it has any. -/
structure Shown where
  text : Option Str
  tokens : Option (List Str)
deriving DecidableEq

def shown (W : World) (s : Slc) : List Shown :=
  (shows W s).map fun r => ⟨W.strs[r.addr]?.map (·.get), r.tokens.map (·.map (·.value))⟩

/-- What the kept slices show. -/
def keptShown (R : Run) : List (List Shown) := R.kept.map (shown R.world)

-- the second slice sees the tokens that come later; the first, kept before `Split`, does not
example : (runAll [.fromString b!"ab c", .splits 0, .split 0 atSpaces, .splits 0, .tokenize 0 wholeToken] ⟨noWorld, [], []⟩ >>= fun R =>
    pure (keptShown R)) = .ok [[⟨some b!"ab c", none⟩], [⟨some b!"ab", some [b!"ab"]⟩, ⟨some b!"c", some [b!"c"]⟩]] := by decide +kernel

-- an encoding, read through the pointers
example : (runAll [.fromString b!"ab c", .split 0 atSpaces, .intoEncoding 0 (-1) 0, .tokenize 0 wholeToken, .intoEncoding 0 (-1) 0]
      ⟨noWorld, [], []⟩ >>= fun R => pure (R.out.map fun | .encoding (.ok e) => some (e.tokens, e.words) | _ => none))
    = .ok [none, none, none, some ([b!"ab", b!"c"], [0, 1])] := by decide +kernel

-- tokens are not taken away by a `Split` in between; two objects do not meet
example : (runAll [.fromString b!"ab c", .fromString b!"d", .tokenize 1 wholeToken, .splits 1, .split 0 atSpaces, .split 1 atSpaces,
      .tokenize 0 wholeToken, .splits 0] ⟨noWorld, [], []⟩ >>= fun R => pure (keptShown R))
    = .ok [[⟨some b!"d", some [b!"d"]⟩], [⟨some b!"ab", some [b!"ab"]⟩, ⟨some b!"c", some [b!"c"]⟩]] := by decide +kernel

/-- A tokenization function that splits the object it is called for at spaces. -/
def splittingTokenize (k : Nat) : TokenizeFn := fun a W => do
  let (W, _) ← split k (onStrings atSpaces) W
  tokenizeOnStrings wholeToken a W

/-- The splits of all objects. -/
def objectsShown (W : World) : List (List Shown) := W.objs.map fun p => shown W p.splits

/-- **C95**: the condition on the callbacks is needed.  A function passed to `Tokenize` that calls `Split` on the same object:
the tokens of a text are given to its first part, the other part has none, and there is no error; and where `Split` leaves nothing,
`Tokenize` panics. -/
theorem C95_counterexample :
    (fromString noWorld b!"ab c" >>= fun W => tokenize 0 (splittingTokenize 0) W >>= fun x => pure (objectsShown x.1, x.2))
      = .ok ([[⟨some b!"ab", some [b!"ab c"]⟩, ⟨some b!"c", none⟩]], none)
    ∧ (fromString noWorld b!" " >>= fun W => tokenize 0 (splittingTokenize 0) W) = .panic := by decide +kernel

end Verif.SplitMemory
