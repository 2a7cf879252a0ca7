import Verif.Model.WordMemory
import Verif.Props.Literal

/-! A word in memory and the list of its symbols: each operation on the one does what the operation on the other does. -/
set_option autoImplicit false

namespace Verif.WordMemory

open Memory (Slc)

/-- The word `w` is in order, its pointers are `ps`, no two of them equal, and the symbols behind them are `v`. -/
structure Holds (m : WMem) (w : Slc) (ps : List Nat) (v : Word) : Prop where
  le : w.len ≤ w.cap
  arr : ∃ a, m.arrs[w.arr]? = some a ∧ w.off + w.cap ≤ a.length
  ptr : ptrs m w = ps.map some
  nodup : ps.Nodup
  val : ps.map (fun p => m.syms[p]?) = v.map some

/-- What an operation on the word `w` with the pointers `ps` may change. -/
structure Effect (m : WMem) (w : Slc) (ps : List Nat) (m' : WMem) (w' : Slc) (ps' : List Nat) : Prop where
  symsLe : m.syms.length ≤ m'.syms.length
  symsEq : ∀ p, p < m.syms.length → p ∉ ps → m'.syms[p]? = m.syms[p]?
  arrsLe : m.arrs.length ≤ m'.arrs.length
  arrsEq : ∀ i, i < m.arrs.length → i ≠ w.arr → m'.arrs[i]? = m.arrs[i]?
  arr : w'.arr = w.arr ∨ m.arrs.length ≤ w'.arr
  ptr : ∀ p ∈ ps', p ∈ ps ∨ m.syms.length ≤ p

theorem Effect.refl (m : WMem) (w : Slc) (ps : List Nat) : Effect m w ps m w ps :=
  ⟨Nat.le_refl _, fun _ _ _ => rfl, Nat.le_refl _, fun _ _ _ => rfl, .inl rfl, fun _ h => .inl h⟩

theorem Effect.trans {m m1 m2 : WMem} {w w1 w2 : Slc} {ps ps1 ps2 : List Nat} (a : Effect m w ps m1 w1 ps1)
    (b : Effect m1 w1 ps1 m2 w2 ps2) : Effect m w ps m2 w2 ps2 := by
  have h1 := a.symsLe; have h2 := b.symsLe; have h3 := a.arrsLe; have h4 := b.arrsLe
  refine ⟨by omega, ?_, by omega, ?_, ?_, ?_⟩
  · intro p hp hn
    rw [b.symsEq p (by omega), a.symsEq p hp hn]
    intro h
    rcases a.ptr p h with h | h
    · exact hn h
    · omega
  · intro i hi hn
    rw [b.arrsEq i (by omega), a.arrsEq i hi hn]
    rcases a.arr with h | h
    · rw [h]; exact hn
    · omega
  · rcases b.arr with h | h
    · rw [h]; exact a.arr
    · exact .inr (by omega)
  · intro p hp
    rcases b.ptr p hp with h | h
    · exact a.ptr p h
    · exact .inr (by omega)

namespace Holds

variable {m : WMem} {w : Slc} {ps : List Nat} {v : Word}

theorem length_ps (h : Holds m w ps v) : ps.length = w.len := by
  obtain ⟨a, h1, h2⟩ := h.arr
  have h3 := h.le
  have := congrArg List.length h.ptr
  simp only [ptrs, h1, Option.getD_some, List.length_take, List.length_drop, List.length_map] at this
  omega

theorem length_v (h : Holds m w ps v) : v.length = w.len := by
  have := congrArg List.length h.val
  simp only [List.length_map] at this
  rw [← h.length_ps, this]

theorem get_val (h : Holds m w ps v) {k p : Nat} (hp : ps[k]? = some p) : m.syms[p]? = v[k]? := by
  have := congrArg (·[k]?) h.val
  simp only [List.getElem?_map, hp, Option.map_some] at this
  cases hv : v[k]? with
  | none => rw [hv] at this; simp at this
  | some s => rw [hv] at this; simpa using this

theorem lt_syms (h : Holds m w ps v) {p : Nat} (hp : p ∈ ps) : p < m.syms.length := by
  obtain ⟨k, hk⟩ := List.getElem?_of_mem hp
  have h1 := h.get_val hk
  have : k < v.length := by rw [h.length_v, ← h.length_ps]; exact (List.getElem?_eq_some_iff.1 hk).1
  rw [List.getElem?_eq_getElem this] at h1
  exact (List.getElem?_eq_some_iff.1 h1).1

theorem lt_arrs (h : Holds m w ps v) : w.arr < m.arrs.length := by
  obtain ⟨a, h1, _⟩ := h.arr
  exact (List.getElem?_eq_some_iff.1 h1).1

/-- An index that is in the list gives a pointer to the symbol. -/
theorem at_ok (h : Holds m w ps v) {i : Int} {s : WordSymbol} (hi : goIndex v i = .ok s) :
    ∃ p, at' m w i = .ok p ∧ ps[i.toNat]? = some p ∧ load m p = .ok s ∧ v[i.toNat]? = some s := by
  obtain ⟨h0, h1⟩ := goIndex_eq_ok.1 hi
  have hk : i.toNat < ps.length := by rw [h.length_ps, ← h.length_v]; exact (List.getElem?_eq_some_iff.1 h1).1
  have hp := List.getElem?_eq_getElem hk
  refine ⟨ps[i.toNat], ?_, hp, ?_, h1⟩
  · unfold at'
    rw [h.ptr, goIndex_of_getElem? h0 (x := some ps[i.toNat]) (by simp [hp])]
    rfl
  · unfold load
    apply goIndex_of_getElem? (by omega)
    rw [Int.toNat_natCast, h.get_val hp, h1]

theorem at_panic (h : Holds m w ps v) {i : Int} (hi : goIndex v i = .panic) : at' m w i = .panic := by
  have : goIndex (ptrs m w) i = .panic := by
    rw [goIndex_eq_panic] at hi ⊢
    rw [h.ptr, List.length_map, h.length_ps, ← h.length_v]; exact hi
  unfold at'
  rw [this]; rfl

/-- Reading through a pointer of the word is reading the list. -/
theorem deref (h : Holds m w ps v) {β : Type} (i : Int) (f : WordSymbol → GoM β) :
    (at' m w i >>= fun p => load m p >>= f) = goIndex v i >>= f := by
  cases hi : goIndex v i with
  | panic => rw [h.at_panic hi]; rfl
  | ok s =>
    obtain ⟨p, h1, _, h2, _⟩ := h.at_ok hi
    rw [h1, GoM.bind_ok, h2]

theorem load_of (h : Holds m w ps v) {k p : Nat} {s : WordSymbol} (hp : ps[k]? = some p) (hs : v[k]? = some s) :
    load m p = .ok s := by
  unfold load
  apply goIndex_of_getElem? (by omega)
  rw [Int.toNat_natCast, h.get_val hp, hs]

theorem inj (h : Holds m w ps v) {j k p : Nat} (hj : ps[j]? = some p) (hk : ps[k]? = some p) : j = k := by
  obtain ⟨h1, h2⟩ := List.getElem?_eq_some_iff.1 hj
  obtain ⟨h3, h4⟩ := List.getElem?_eq_some_iff.1 hk
  have hd := List.pairwise_iff_getElem.1 h.nodup
  rcases Nat.lt_trichotomy j k with hl | hl | hl
  · exact absurd (h2.trans h4.symm) (hd j k h1 h3 hl)
  · exact hl
  · exact absurd (h4.trans h2.symm) (hd k j h3 h1 hl)

/-- Writing through a pointer of the word is writing to the list. -/
theorem store_ok (h : Holds m w ps v) {k p : Nat} (hp : ps[k]? = some p) (s : WordSymbol) :
    ∃ m', store m p s = .ok m' ∧ Holds m' w ps (v.set k s) ∧ Effect m w ps m' w ps := by
  have hm : p ∈ ps := List.mem_of_getElem? hp
  have hlt := h.lt_syms hm
  refine ⟨{ m with syms := m.syms.set p s }, ?_, ⟨h.le, h.arr, h.ptr, h.nodup, ?_⟩, ?_⟩
  · unfold store goSet
    rw [if_pos ⟨by omega, by omega⟩]; rfl
  · apply List.ext_getElem?
    intro j
    have hval := congrArg (·[j]?) h.val
    simp only [List.getElem?_map] at hval ⊢
    cases hj : ps[j]? with
    | none =>
      have : v.length ≤ j := by rw [h.length_v, ← h.length_ps]; exact List.getElem?_eq_none_iff.1 hj
      rw [List.getElem?_eq_none (by simpa using this)]; rfl
    | some q =>
      rw [hj, Option.map_some] at hval
      simp only [Option.map_some, List.getElem?_set]
      by_cases hkj : k = j
      · subst hkj
        have hq : p = q := by rw [hp] at hj; injection hj
        subst hq
        have hkv : k < v.length := by rw [h.length_v, ← h.length_ps]; exact (List.getElem?_eq_some_iff.1 hp).1
        simp [hlt, hkv]
      · have : p ≠ q := fun e => hkj (h.inj hp (e ▸ hj))
        rw [if_neg this, if_neg hkj]; exact hval
  · refine ⟨by simp, ?_, Nat.le_refl _, fun _ _ _ => rfl, .inl rfl, fun _ h => .inl h⟩
    intro q _ hq
    have : p ≠ q := fun e => hq (e ▸ hm)
    simp [this]

end Holds

variable {m : WMem} {w : Slc} {ps : List Nat} {v : Word}

theorem getSymbolID_eq (h : Holds m w ps v) (i : Int) : getSymbolID m w i = goIndex v i >>= fun s => pure s.id :=
  h.deref i _

theorem initLoop_sim (merges : MergeMap) (h : Holds m w ps v) (n : Nat) : ∀ (i : Int) (q : WMHeap),
    initLoop merges m w n i q = Word.initLoop merges v n i q := by
  induction n with
  | zero => intro i q; rfl
  | succ n ih =>
    intro i q
    simp only [initLoop, Word.initLoop, getSymbolID_eq h, ih, bind_assoc, pure_bind]
    rfl

/-- A symbol of the list and the pointer to it. -/
theorem mergeWith_sim (h : Holds m w ps v) {k j p r : Nat} {cur right : WordSymbol} (hk : ps[k]? = some p) (hj : ps[j]? = some r)
    (hc : v[k]? = some cur) (hr : v[j]? = some right) (id : Int) :
    ∃ m', mergeWith m p r id = .ok m' ∧ Holds m' w ps (v.set k (cur.mergeWith right id)) ∧ Effect m w ps m' w ps := by
  have hkv : k < v.length := (List.getElem?_eq_some_iff.1 hc).1
  obtain ⟨m1, e1, h1, f1⟩ := h.store_ok hk { cur with id := id }
  have c1 : (v.set k { cur with id := id })[k]? = some { cur with id := id } := by simp [hkv]
  obtain ⟨right1, r1, rl, rn⟩ : ∃ x, (v.set k { cur with id := id })[j]? = some x ∧ x.length = right.length ∧ x.next = right.next := by
    by_cases hjk : k = j
    · subst hjk
      have : cur = right := by rw [hc] at hr; injection hr
      subst this
      exact ⟨_, c1, rfl, rfl⟩
    · exact ⟨right, by rw [List.getElem?_set, if_neg hjk, hr], rfl, rfl⟩
  obtain ⟨m2, e2, h2, f2⟩ := h1.store_ok hk { cur with id := id, length := cur.length + right.length }
  have c2 : ((v.set k { cur with id := id }).set k { cur with id := id, length := cur.length + right.length })[k]?
      = some { cur with id := id, length := cur.length + right.length } := by simp [hkv]
  obtain ⟨right2, r2, rn2⟩ : ∃ x, ((v.set k { cur with id := id }).set k { cur with id := id, length := cur.length + right.length })[j]?
      = some x ∧ x.next = right.next := by
    by_cases hjk : k = j
    · subst hjk
      have : cur = right := by rw [hc] at hr; injection hr
      subst this
      exact ⟨_, c2, rfl⟩
    · exact ⟨right1, by rw [List.getElem?_set, if_neg hjk, r1], rn⟩
  obtain ⟨m3, e3, h3, f3⟩ := h2.store_ok hk (cur.mergeWith right id)
  refine ⟨m3, ?_, ?_, (f1.trans f2).trans f3⟩
  · unfold mergeWith
    rw [h.load_of hk hc, GoM.bind_ok, e1, GoM.bind_ok, h1.load_of hj r1, GoM.bind_ok, h1.load_of hk c1, GoM.bind_ok]
    simp only [rl]
    rw [e2, GoM.bind_ok, h2.load_of hj r2, GoM.bind_ok, h2.load_of hk c2, GoM.bind_ok, rn2]
    exact e3
  · simpa using h3

theorem relink_sim (h : Holds m w ps v) {j r : Nat} {right : WordSymbol} (hj : ps[j]? = some r) (hr : v[j]? = some right) (pos : Int) :
    match Word.relink v right pos with
    | .panic => relink m w r pos = .panic
    | .ok v' => ∃ m', relink m w r pos = .ok m' ∧ Holds m' w ps v' ∧ Effect m w ps m' w ps := by
  unfold Word.relink relink
  rw [h.load_of hj hr, GoM.bind_ok, h.length_v]
  by_cases hc : right.hasNext ∧ right.next < (w.len : Int)
  · rw [if_pos hc, if_pos hc]
    cases hi : goIndex v right.next with
    | panic => simp only [GoM.bind_panic]; rw [h.at_panic hi]; rfl
    | ok s =>
      obtain ⟨p, h1, h2, h3, _⟩ := h.at_ok hi
      obtain ⟨m', e, h', f⟩ := h.store_ok h2 { s with prev := pos }
      simp only [GoM.bind_ok, GoM.pure_eq]
      exact ⟨m', by rw [h1, GoM.bind_ok, h3, GoM.bind_ok, e], h', f⟩
  · rw [if_neg hc, if_neg hc]
    exact ⟨m, rfl, h, Effect.refl _ _ _⟩

theorem pushPrev_sim (merges : MergeMap) (h : Holds m w ps v) {k p : Nat} {s : WordSymbol} (hk : ps[k]? = some p) (hs : v[k]? = some s)
    (q : WMHeap) : pushPrev merges m w q p = Word.pushPrevL merges v q s := by
  unfold pushPrev Word.pushPrevL
  rw [h.load_of hk hs, GoM.bind_ok]
  split
  · exact h.deref _ _
  · rfl

theorem pushNext_sim (merges : MergeMap) (h : Holds m w ps v) {k p : Nat} {s : WordSymbol} (hk : ps[k]? = some p) (hs : v[k]? = some s)
    (q : WMHeap) (pos : Int) : pushNext merges m w q p pos = Word.pushNextL merges v q s pos := by
  unfold pushNext Word.pushNextL
  rw [h.load_of hk hs, GoM.bind_ok, h.length_v]
  split
  · exact h.deref _ _
  · rfl

/-- The outcome of a step of `MergeAll` in memory is that of the step on the list. -/
def Matches {α β : Type} (R : α → β → Prop) : GoM (Option α) → GoM (Option β) → Prop
  | .panic, .panic => True
  | .ok none, .ok none => True
  | .ok (some a), .ok (some b) => R a b
  | _, _ => False

theorem Matches.mono {α β : Type} {R S : α → β → Prop} (h : ∀ a b, R a b → S a b) :
    ∀ {x : GoM (Option α)} {y : GoM (Option β)}, Matches R x y → Matches S x y
  | .panic, .panic, _ => trivial
  | .ok none, .ok none, _ => trivial
  | .ok (some a), .ok (some b), g => h a b g
  | .panic, .ok none, g => g.elim
  | .panic, .ok (some _), g => g.elim
  | .ok none, .panic, g => g.elim
  | .ok none, .ok (some _), g => g.elim
  | .ok (some _), .panic, g => g.elim
  | .ok (some _), .ok none, g => g.elim

theorem process_sim (merges : MergeMap) (h : Holds m w ps v) (q : WMHeap) (top : WordMerge) :
    Matches (fun (a : WMem × WMHeap) (b : Word × WMHeap) => a.2 = b.2 ∧ Holds a.1 w ps b.1 ∧ Effect m w ps a.1 w ps)
      (process merges m w q top) (Word.processL merges v q top) := by
  unfold process Word.processL
  cases hi : goIndex v top.pos with
  | panic => rw [h.at_panic hi]; trivial
  | ok cur =>
    obtain ⟨p, p1, p2, p3, p4⟩ := h.at_ok hi
    simp only [p1, GoM.bind_ok, p3]
    by_cases hc : cur.length = 0 ∨ (!cur.hasNext) = true
    · rw [if_pos hc, if_pos hc]; exact ⟨rfl, h, Effect.refl _ _ _⟩
    · rw [if_neg hc, if_neg hc]
      cases hi2 : goIndex v cur.next with
      | panic => rw [h.at_panic hi2]; trivial
      | ok right =>
        obtain ⟨r, r1, r2, r3, r4⟩ := h.at_ok hi2
        simp only [r1, GoM.bind_ok, r3]
        cases merges.get cur.id right.id with
        | none => exact ⟨rfl, h, Effect.refl _ _ _⟩
        | some mv =>
          dsimp only
          by_cases hm : mv.id ≠ top.value.id
          · rw [if_pos hm, if_pos hm]; exact ⟨rfl, h, Effect.refl _ _ _⟩
          · rw [if_neg hm, if_neg hm]
            obtain ⟨m1, e1, h1, f1⟩ := mergeWith_sim h p2 r2 p4 r4 top.value.id
            rw [e1, GoM.bind_ok, goSet_of_index hi, GoM.bind_ok]
            -- the symbol at `nextPos` after the merge
            have hn0 : 0 ≤ cur.next := (goIndex_eq_ok.1 hi2).1
            have hl : cur.next.toNat < (v.set top.pos.toNat (cur.mergeWith right top.value.id)).length := by
              rw [List.length_set]; exact (List.getElem?_eq_some_iff.1 r4).1
            have hg := goIndex_of_getElem? hn0 (List.getElem?_eq_getElem hl)
            generalize hx : (v.set top.pos.toNat (cur.mergeWith right top.value.id))[cur.next.toNat] = x at hg
            obtain ⟨r', a1, a2, a3, a4⟩ := h1.at_ok hg
            have hrr : r' = r := by rw [r2] at a2; injection a2 with a2; exact a2.symm
            subst hrr
            rw [a1, GoM.bind_ok, a3, GoM.bind_ok, hg, GoM.bind_ok]
            obtain ⟨m2, e2, h2, f2⟩ := h1.store_ok r2 { x with length := 0 }
            rw [e2, GoM.bind_ok]
            rw [goSet_of_index hg, GoM.bind_ok]
            have hx2 : ((v.set top.pos.toNat (cur.mergeWith right top.value.id)).set cur.next.toNat { x with length := 0 })[cur.next.toNat]?
                = some { x with length := 0 } := by
              rw [List.getElem?_set, if_pos rfl, if_pos hl]
            have hrel := relink_sim h2 r2 hx2 top.pos
            cases hq : Word.relink ((v.set top.pos.toNat (cur.mergeWith right top.value.id)).set cur.next.toNat { x with length := 0 })
                { x with length := 0 } top.pos with
            | panic => rw [hq] at hrel; rw [hrel]; trivial
            | ok v3 =>
              rw [hq] at hrel
              obtain ⟨m3, e3, h3, f3⟩ := hrel
              rw [e3, GoM.bind_ok, GoM.bind_ok]
              cases hi4 : goIndex v3 top.pos with
              | panic => rw [h3.at_panic hi4]; trivial
              | ok current =>
                obtain ⟨c, c1, c2, c3, c4⟩ := h3.at_ok hi4
                rw [c1, GoM.bind_ok, GoM.bind_ok, pushPrev_sim merges h3 c2 c4]
                cases Word.pushPrevL merges v3 q current with
                | panic => trivial
                | ok o =>
                  rw [GoM.bind_ok, GoM.bind_ok]
                  cases o with
                  | none => trivial
                  | some q2 =>
                    dsimp only
                    rw [pushNext_sim merges h3 c2 c4]
                    cases Word.pushNextL merges v3 q2 current top.pos with
                    | panic => trivial
                    | ok o =>
                      rw [GoM.bind_ok, GoM.bind_ok]
                      cases o with
                      | none => trivial
                      | some q3 => exact ⟨rfl, h3, (f1.trans f2).trans f3⟩

/-- The state of the main loop in memory and on the list. -/
def SimState (m : WMem) (w : Slc) (ps : List Nat) (a : PState) (b : Word.MState) : Prop :=
  a.queue = b.queue ∧ a.skip = b.skip ∧ a.draws = b.draws ∧ Holds a.mem w ps b.word ∧ Effect m w ps a.mem w ps

theorem mergeStep_sim (merges : MergeMap) (hd : Bool) (rnd : Nat → Bool) {a : PState} {b : Word.MState}
    (h : SimState m w ps a b) : Matches (SimState m w ps) (mergeStep merges hd rnd w a) (Word.mergeStepL merges hd rnd b) := by
  obtain ⟨h1, h2, h3, h4, h5⟩ := h
  unfold mergeStep Word.mergeStepL
  rw [h1, h2, h3]
  cases b.queue.popL with
  | panic => trivial
  | ok o =>
    rw [GoM.bind_ok, GoM.bind_ok]
    cases o with
    | none => trivial
    | some tq =>
      obtain ⟨top, q⟩ := tq
      dsimp only
      split
      · exact ⟨rfl, rfl, rfl, h4, h5⟩
      · cases Word.pushAll b.skip q with
        | panic => trivial
        | ok o =>
          rw [GoM.bind_ok, GoM.bind_ok]
          cases o with
          | none => trivial
          | some q2 =>
            dsimp only
            have := process_sim merges h4 q2 top
            revert this
            cases process merges a.mem w q2 top with
            | panic => cases Word.processL merges b.word q2 top with
              | panic => intro _; trivial
              | ok o => intro h; cases o <;> exact h.elim
            | ok o =>
              cases Word.processL merges b.word q2 top with
              | panic => intro h; cases o <;> exact h.elim
              | ok o' =>
                intro h
                cases o with
                | none => cases o' with
                  | none => trivial
                  | some _ => exact h.elim
                | some x => cases o' with
                  | none => exact h.elim
                  | some y => exact ⟨h.1, rfl, rfl, h.2.1, h5.trans h.2.2⟩

theorem mergeLoop_sim (merges : MergeMap) (hd : Bool) (rnd : Nat → Bool) (fuel : Nat) : ∀ {a : PState} {b : Word.MState},
    SimState m w ps a b → Matches (SimState m w ps) (mergeLoop merges hd rnd w fuel a) (Word.mergeLoopL merges hd rnd fuel b) := by
  induction fuel with
  | zero =>
    intro a b h
    unfold mergeLoop Word.mergeLoopL
    rw [h.1]
    split
    · exact h
    · trivial
  | succ fuel ih =>
    intro a b h
    unfold mergeLoop Word.mergeLoopL
    rw [h.1]
    split
    · exact h
    · dsimp only
      have := mergeStep_sim merges hd rnd h
      revert this
      cases mergeStep merges hd rnd w a with
      | panic => cases Word.mergeStepL merges hd rnd b with
        | panic => intro _; trivial
        | ok o => intro h; cases o <;> exact h.elim
      | ok o =>
        cases Word.mergeStepL merges hd rnd b with
        | panic => intro h; cases o <;> exact h.elim
        | ok o' =>
          intro h
          cases o with
          | none => cases o' with
            | none => trivial
            | some _ => exact h.elim
          | some x => cases o' with
            | none => exact h.elim
            | some y => exact ih h

/-- `append` of new pointers: in place behind the word, or in a new array. -/
theorem append_sim (grow : Nat → Nat → Nat) (h : Holds m w ps v) (qs : List Nat) (u : Word) (hn : (ps ++ qs).Nodup)
    (hu : qs.map (fun p => m.syms[p]?) = u.map some) :
    Holds (append grow m w (qs.map some)).1 (append grow m w (qs.map some)).2 (ps ++ qs) (v ++ u)
    ∧ (append grow m w (qs.map some)).1.syms = m.syms
    ∧ m.arrs.length ≤ (append grow m w (qs.map some)).1.arrs.length
    ∧ (∀ i, i < m.arrs.length → i ≠ w.arr → (append grow m w (qs.map some)).1.arrs[i]? = m.arrs[i]?)
    ∧ ((append grow m w (qs.map some)).2.arr = w.arr ∨ m.arrs.length ≤ (append grow m w (qs.map some)).2.arr) := by
  obtain ⟨a, ha1, ha2⟩ := h.arr
  have hle := h.le
  have hpl := h.length_ps
  have hptr : (a.drop w.off).take w.len = ps.map some := by
    have := h.ptr
    simpa only [ptrs, ha1, Option.getD_some] using this
  have hval : (ps ++ qs).map (fun p => m.syms[p]?) = (v ++ u).map some := by
    rw [List.map_append, List.map_append, h.val, hu]
  unfold append
  simp only [List.length_map]
  split
  · rename_i hc
    refine ⟨⟨hc, ?_, ?_, hn, hval⟩, rfl, by simp, ?_, .inl rfl⟩
    · refine ⟨a.take (w.off + w.len) ++ qs.map some ++ a.drop (w.off + (w.len + qs.length)), ?_, ?_⟩
      · simp [ha1]
      · simp only [List.length_append, List.length_take, List.length_map, List.length_drop]; omega
    · have e : a.take (w.off + w.len) = a.take w.off ++ ps.map some := by
        rw [List.take_add, hptr]
      have hlt : (a.take w.off).length = w.off := by rw [List.length_take]; omega
      simp only [ptrs, List.getElem?_modify, if_pos, ha1, Option.map_some, Option.getD_some, e, List.append_assoc, Functor.map]
      rw [List.drop_append_of_le_length (by omega), List.drop_of_length_le (by omega), List.nil_append, ← List.append_assoc,
        ← List.map_append]
      rw [List.take_append_of_le_length (by simp; omega), List.take_of_length_le (by simp; omega)]
    · intro i _ hi
      have : w.arr ≠ i := fun e => hi e.symm
      simp [this]
  · rename_i hc
    refine ⟨⟨?_, ?_, ?_, hn, hval⟩, rfl, by simp, ?_, .inr (Nat.le_refl _)⟩
    · dsimp only; omega
    · refine ⟨ptrs m w ++ qs.map some ++ List.replicate (max (w.len + qs.length) (grow w.cap (w.len + qs.length)) - (w.len + qs.length)) none,
        by simp, ?_⟩
      rw [h.ptr]
      simp only [List.length_append, List.length_map, List.length_replicate]; omega
    · have e : ∀ x, (m.arrs ++ [x])[m.arrs.length]? = some x := by intro x; simp
      simp only [ptrs, e, Option.getD_some, List.drop_zero]
      simp only [← ptrs.eq_def, h.ptr, ← List.map_append]
      rw [List.take_append_of_le_length (by simp; omega), List.take_of_length_le (by simp; omega)]
    · intro i hi _
      dsimp only
      rw [List.getElem?_append_left hi]

theorem newWord_sim (m : WMem) (cap : Int) (hc : 0 ≤ cap) : ∃ m' w, newWord m cap = .ok (m', w)
    ∧ Holds m' w [] [] ∧ m'.syms = m.syms ∧ m.arrs <+: m'.arrs ∧ w.arr = m.arrs.length := by
  unfold newWord
  rw [if_pos hc]
  refine ⟨_, _, rfl, ⟨by simp, ⟨List.replicate cap.toNat none, by simp, by simp⟩, by simp [ptrs], by simp, rfl⟩, rfl, by simp, rfl⟩

theorem add_sim (grow : Nat → Nat → Nat) (h : Holds m w ps v) (id len : Int) :
    ∃ m' w' ps', add grow m w id len = .ok (m', w') ∧ Holds m' w' ps' (v.add id len) ∧ Effect m w ps m' w' ps' := by
  -- the symbols with the new one
  obtain ⟨m0, hm0⟩ : ∃ m0 : WMem, m0 = { m with syms := m.syms ++ [⟨id, len, (w.len : Int) - 1, -1⟩] } := ⟨_, rfl⟩
  have h0 : Holds m0 w ps v := by
    subst hm0
    refine ⟨h.le, h.arr, h.ptr, h.nodup, ?_⟩
    rw [← h.val]
    apply List.map_congr_left
    intro p hp
    rw [List.getElem?_append_left (h.lt_syms hp)]
  have f0 : Effect m w ps m0 w ps := by
    subst hm0
    refine ⟨by simp, ?_, Nat.le_refl _, fun _ _ _ => rfl, .inl rfl, fun _ h => .inl h⟩
    intro p hp _
    dsimp only
    rw [List.getElem?_append_left hp]
  have hadd := Word.addL_eq v id len
  unfold Word.addL at hadd
  simp only [h.length_v] at hadd
  -- the write to the last symbol
  have hw : ∃ m1 v1, (if (w.len : Int) - 1 ≠ -1 then do
        let p ← at' m0 w ((w.len : Int) - 1)
        let s ← load m0 p
        store m0 p { s with next := w.len }
      else pure m0) = .ok m1
      ∧ v.add id len = v1 ++ [⟨id, len, (w.len : Int) - 1, -1⟩]
      ∧ Holds m1 w ps v1 ∧ Effect m w ps m1 w ps ∧ m1.syms[m.syms.length]? = some ⟨id, len, (w.len : Int) - 1, -1⟩ := by
    by_cases hc : (w.len : Int) - 1 ≠ -1
    · rw [if_pos hc] at hadd ⊢
      cases hi : goIndex v ((w.len : Int) - 1) with
      | panic => rw [hi] at hadd; simp at hadd
      | ok s =>
        obtain ⟨p, p1, p2, p3, _⟩ := h0.at_ok hi
        obtain ⟨m1, e1, h1, f1⟩ := h0.store_ok p2 { s with next := w.len }
        rw [hi, GoM.bind_ok, goSet_of_index hi, GoM.bind_ok, GoM.pure_eq, GoM.ok.injEq] at hadd
        refine ⟨m1, _, by rw [p1, GoM.bind_ok, p3, GoM.bind_ok, e1], hadd.symm, h1, f0.trans f1, ?_⟩
        rw [f1.symsEq]
        · simp [hm0]
        · simp [hm0]
        · intro hmem
          have := h.lt_syms hmem
          omega
    · rw [if_neg hc] at hadd ⊢
      rw [GoM.pure_eq, GoM.bind_ok, GoM.pure_eq, GoM.ok.injEq] at hadd
      exact ⟨_, _, rfl, hadd.symm, h0, f0, by simp [hm0]⟩
  obtain ⟨m1, v1, e1, e2, h1, f1, hs⟩ := hw
  have hn : (ps ++ [m.syms.length]).Nodup := by
    rw [List.nodup_append]
    refine ⟨h.nodup, by simp, ?_⟩
    intro a ha b hb
    have := h.lt_syms ha
    rw [List.mem_singleton] at hb
    omega
  obtain ⟨g1, g2, g3, g4, g5⟩ := append_sim grow h1 [m.syms.length] [⟨id, len, (w.len : Int) - 1, -1⟩] hn (by simp [hs])
  refine ⟨_, _, ps ++ [m.syms.length], ?_, by rw [e2]; exact g1, ?_⟩
  · unfold add
    dsimp only
    rw [← hm0]
    refine Eq.trans ?_ (congrArg (fun x => x >>= fun m2 => GoM.ok (append grow m2 w [some m.syms.length])) e1)
    split <;> simp [bind_assoc]
  · have hle := f1.arrsLe
    refine ⟨by rw [g2]; exact f1.symsLe, ?_, by omega, ?_, ?_, ?_⟩
    · intro p hp hn; rw [g2]; exact f1.symsEq p hp hn
    · intro i hi hn; rw [g4 i (by omega) hn]; exact f1.arrsEq i hi hn
    · rcases g5 with g5 | g5
      · exact .inl g5
      · exact .inr (by omega)
    · intro p hp
      rcases List.mem_append.1 hp with hp | hp
      · exact .inl hp
      · rw [List.mem_singleton] at hp; exact .inr (by omega)

theorem map_eraseIdx {α β : Type} (f : α → β) : ∀ (l : List α) (k : Nat), (l.eraseIdx k).map f = (l.map f).eraseIdx k
  | [], _ => rfl
  | _ :: _, 0 => rfl
  | a :: l, k + 1 => by simp [map_eraseIdx f l k]

/-- Removing a symbol moves the pointers behind it to the left, in the same array. -/
theorem removeSymbol_sim (grow : Nat → Nat → Nat) (h : Holds m w ps v) {i : Int} (h0 : 0 ≤ i) (hi : i < (w.len : Int)) :
    ∃ m' w', removeSymbol grow m w i = .ok (m', w') ∧ Holds m' w' (ps.eraseIdx i.toNat) (v.eraseIdx i.toNat)
      ∧ Effect m w ps m' w' (ps.eraseIdx i.toNat) := by
  obtain ⟨k, rfl⟩ : ∃ k : Nat, i = k := ⟨i.toNat, by omega⟩
  have hk : k < w.len := by omega
  rw [Int.toNat_natCast]
  obtain ⟨a, ha1, ha2⟩ := h.arr
  have hle := h.le
  have hpl := h.length_ps
  have hvl := h.length_v
  have hptr : (a.drop w.off).take w.len = ps.map some := by
    have := h.ptr
    simpa only [ptrs, ha1, Option.getD_some] using this
  have r1 : w.reslice 0 k = .ok ⟨w.arr, w.off, k, w.cap⟩ := by
    unfold Slc.reslice
    rw [if_pos ⟨by omega, by omega, by omega⟩]
    simp
  have r2 : w.reslice ((k : Int) + 1) w.len = .ok ⟨w.arr, w.off + (k + 1), w.len - (k + 1), w.cap - (k + 1)⟩ := by
    unfold Slc.reslice
    rw [if_pos ⟨by omega, by omega, by omega⟩]
    have e1 : ((k : Int) + 1).toNat = k + 1 := by omega
    have e2 : ((w.len : Int) - ((k : Int) + 1)).toNat = w.len - (k + 1) := by omega
    rw [e1, e2]
  -- the part that stays
  have hA : Holds m ⟨w.arr, w.off, k, w.cap⟩ (ps.take k) (v.take k) := by
    refine ⟨by dsimp only; omega, ⟨a, ha1, ha2⟩, ?_, h.nodup.sublist (List.take_sublist _ _), ?_⟩
    · simp only [ptrs, ha1, Option.getD_some]
      rw [List.map_take, ← hptr, List.take_take, Nat.min_eq_left (by omega)]
    · rw [List.map_take, h.val, ← List.map_take]
  -- the part that moves
  have hB : ptrs m ⟨w.arr, w.off + (k + 1), w.len - (k + 1), w.cap - (k + 1)⟩ = (ps.drop (k + 1)).map some := by
    simp only [ptrs, ha1, Option.getD_some]
    rw [List.map_drop, ← hptr, List.drop_take, List.drop_drop]
  have hps : ps.take k ++ ps.drop (k + 1) = ps.eraseIdx k := (List.eraseIdx_eq_take_drop_succ ps k).symm
  have hv : v.take k ++ v.drop (k + 1) = v.eraseIdx k := (List.eraseIdx_eq_take_drop_succ v k).symm
  obtain ⟨g1, g2, g3, g4, g5⟩ := append_sim grow hA (ps.drop (k + 1)) (v.drop (k + 1))
    (by rw [hps]; exact h.nodup.sublist (List.eraseIdx_sublist _ _))
    (by rw [List.map_drop, h.val, ← List.map_drop])
  rw [hps, hv] at g1
  refine ⟨_, _, ?_, g1, ?_⟩
  · unfold removeSymbol
    rw [r1, GoM.bind_ok, r2, GoM.bind_ok, hB]; rfl
  · exact ⟨by rw [g2]; exact Nat.le_refl _, fun p _ _ => by rw [g2], g3, g4, g5, fun p hp => .inl (List.mem_of_mem_eraseIdx hp)⟩

theorem removeSymbolL_eq {i : Int} (h0 : 0 ≤ i) (hi : i < (v.length : Int)) :
    Word.removeSymbol v i = .ok (v.eraseIdx i.toNat) := by
  unfold Word.removeSymbol goSlice
  rw [if_pos ⟨by omega, by omega, by omega⟩, GoM.bind_ok, if_pos ⟨by omega, by omega, by omega⟩, GoM.bind_ok]
  have e1 : (i - 0).toNat = i.toNat := by omega
  have e2 : (i + 1).toNat = i.toNat + 1 := by omega
  rw [List.eraseIdx_eq_take_drop_succ, e1, e2, List.take_of_length_le (i := ((v.length : Int) - (i + 1)).toNat) (by
    rw [List.length_drop]; omega)]
  simp

theorem removeLoop_sim (grow : Nat → Nat → Nat) (fuel : Nat) : ∀ {m : WMem} {w : Slc} {ps : List Nat} {v : Word}, Holds m w ps v →
    ∀ {i : Int}, 0 ≤ i → Matches (fun (a : WMem × Slc) (b : Word) => ∃ ps', Holds a.1 a.2 ps' b ∧ Effect m w ps a.1 a.2 ps')
      (removeLoop grow fuel m w i) (Word.removeLoop fuel v i) := by
  induction fuel with
  | zero =>
    intro m w ps v h i h0
    unfold removeLoop Word.removeLoop
    rw [h.length_v]
    split
    · trivial
    · exact ⟨ps, h, Effect.refl _ _ _⟩
  | succ fuel ih =>
    intro m w ps v h i h0
    unfold removeLoop Word.removeLoop
    rw [h.length_v]
    split
    · rename_i hi
      dsimp only
      rw [h.deref]
      obtain ⟨s, hs⟩ := goIndex_of_lt (l := v) h0 (by rw [h.length_v]; exact hi)
      rw [hs, GoM.bind_ok, GoM.bind_ok]
      split
      · obtain ⟨m', w', e, h', f⟩ := removeSymbol_sim grow h h0 hi
        rw [e, removeSymbolL_eq h0 (by rw [h.length_v]; exact hi), GoM.bind_ok, GoM.bind_ok]
        dsimp only
        exact (ih h' h0).mono fun _ _ ⟨ps', g1, g2⟩ => ⟨ps', g1, f.trans g2⟩
      · exact ih h (by omega)
    · exact ⟨ps, h, Effect.refl _ _ _⟩

/-- `MergeAll` in memory is `MergeAll` on the list. -/
theorem mergeAll_sim (grow : Nat → Nat → Nat) (fuel : Nat) (merges : MergeMap) (hd : Bool) (rnd : Nat → Bool) (h : Holds m w ps v) :
    Matches (fun (a : WMem × Slc) (b : Word) => ∃ ps', Holds a.1 a.2 ps' b ∧ Effect m w ps a.1 a.2 ps')
      (mergeAll grow fuel merges hd rnd m w) (Word.mergeAllFuel fuel merges hd rnd v) := by
  rw [← Word.mergeAllL_eq]
  unfold mergeAll Word.mergeAllL
  rw [initLoop_sim merges h, h.length_v]
  cases Word.initLoop merges v (w.len - 1) 0 [] with
  | panic => trivial
  | ok o =>
    rw [GoM.bind_ok, GoM.bind_ok]
    cases o with
    | none => trivial
    | some q =>
      dsimp only
      have := mergeLoop_sim (m := m) (w := w) (ps := ps) merges hd rnd fuel (a := ⟨m, q, [], 0⟩) (b := ⟨v, q, [], 0⟩)
        ⟨rfl, rfl, rfl, h, Effect.refl _ _ _⟩
      revert this
      cases mergeLoop merges hd rnd w fuel ⟨m, q, [], 0⟩ with
      | panic => cases Word.mergeLoopL merges hd rnd fuel ⟨v, q, [], 0⟩ with
        | panic => intro _; trivial
        | ok o => intro h; cases o <;> exact h.elim
      | ok o =>
        cases Word.mergeLoopL merges hd rnd fuel ⟨v, q, [], 0⟩ with
        | panic => intro h; cases o <;> exact h.elim
        | ok o' =>
          cases o with
          | none => cases o' with
            | none => exact id
            | some _ => intro h; exact h.elim
          | some a => cases o' with
            | none => intro h; exact h.elim
            | some b =>
              rintro ⟨-, -, -, g4, g5⟩
              rw [GoM.bind_ok, GoM.bind_ok]
              dsimp only
              rw [g4.length_v]
              exact (removeLoop_sim grow w.len g4 (i := 0) (by omega)).mono fun _ _ ⟨ps', p1, p2⟩ => ⟨ps', p1, g5.trans p2⟩

end Verif.WordMemory
