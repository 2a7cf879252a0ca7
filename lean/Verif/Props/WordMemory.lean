import Verif.Spec.WordMemory
import Verif.Lemmas.WordMemory
import Verif.Model.Notation

/-! # C85: words are slices of pointers, and behave as lists of symbols -/
set_option autoImplicit false

namespace Verif.WordMemory

open Memory (Slc)

variable {m : WMem} {w : Slc} {ps : List Nat} {v : Word}

theorem symbolStep_sim (grow : Nat → Nat → Nat) (b : BPE) (uid : Int) (last : Nat) (unk : Option (Int × Int)) (ir : Nat × Rune)
    (h : Holds m w ps v) : ∃ m' w' ps', symbolStep grow b uid last m w unk ir
        = .ok (m', w', (b.symbolStep uid last (v, unk) ir).2)
      ∧ Holds m' w' ps' (b.symbolStep uid last (v, unk) ir).1 ∧ Effect m w ps m' w' ps' := by
  unfold symbolStep BPE.symbolStep
  dsimp only
  cases b.vocab.getID (b.lookupKey ir.1 last ir.2) with
  | some id =>
    cases unk with
    | some u =>
      obtain ⟨m1, w1, ps1, e1, h1, f1⟩ := add_sim grow h u.1 u.2
      obtain ⟨m2, w2, ps2, e2, h2, f2⟩ := add_sim grow h1 id (encodeRune ir.2).length
      exact ⟨m2, w2, ps2, by simp only [e1, e2, GoM.bind_ok, GoM.pure_eq], h2, f1.trans f2⟩
    | none =>
      obtain ⟨m2, w2, ps2, e2, h2, f2⟩ := add_sim grow h id (encodeRune ir.2).length
      exact ⟨m2, w2, ps2, by simp only [e2, GoM.bind_ok, GoM.pure_eq], h2, f2⟩
  | none =>
    dsimp only
    split
    · cases unk with
      | some u =>
        dsimp only
        split
        · exact ⟨m, w, ps, rfl, h, Effect.refl _ _ _⟩
        · obtain ⟨m1, w1, ps1, e1, h1, f1⟩ := add_sim grow h u.1 u.2
          exact ⟨m1, w1, ps1, by simp only [e1, GoM.bind_ok, GoM.pure_eq], h1, f1⟩
      | none => exact ⟨m, w, ps, rfl, h, Effect.refl _ _ _⟩
    · exact ⟨m, w, ps, rfl, h, Effect.refl _ _ _⟩

theorem symbolLoop_sim (grow : Nat → Nat → Nat) (b : BPE) (uid : Int) (last : Nat) (irs : List (Nat × Rune)) :
    ∀ {m : WMem} {w : Slc} {ps : List Nat} {v : Word} (unk : Option (Int × Int)), Holds m w ps v →
      ∃ m' w' ps', symbolLoop grow b uid last irs m w unk = .ok (m', w', (irs.foldl (b.symbolStep uid last) (v, unk)).2)
        ∧ Holds m' w' ps' (irs.foldl (b.symbolStep uid last) (v, unk)).1 ∧ Effect m w ps m' w' ps' := by
  induction irs with
  | nil => intro m w ps v unk h; exact ⟨m, w, ps, rfl, h, Effect.refl _ _ _⟩
  | cons ir irs ih =>
    intro m w ps v unk h
    obtain ⟨m1, w1, ps1, e1, h1, f1⟩ := symbolStep_sim grow b uid last unk ir h
    obtain ⟨m2, w2, ps2, e2, h2, f2⟩ := ih (b.symbolStep uid last (v, unk) ir).2 h1
    refine ⟨m2, w2, ps2, ?_, h2, f1.trans f2⟩
    unfold symbolLoop
    rw [e1, GoM.bind_ok]
    exact e2

theorem buildWord_sim (grow : Nat → Nat → Nat) (b : BPE) (rnd : Nat → Bool) (s : Str) (uid : Int) (h : Holds m w ps []) (v : Word)
    (hv : v = (let runes := runesOf s
      let (word, unk) := (BPE.indexed runes).foldl (b.symbolStep uid (runes.length - 1)) ([], none)
      match unk with
      | some (uid, ulen) => word.add uid ulen
      | none => word)) :
    Matches (fun (a : WMem × Slc) (b : Word) => ∃ ps', Holds a.1 a.2 ps' b ∧ Effect m w ps a.1 a.2 ps')
      (buildWord grow b rnd m w s uid) (v.mergeAll b.merges b.hasDropout rnd) := by
  obtain ⟨m1, w1, ps1, e1, h1, f1⟩ := symbolLoop_sim grow b uid ((runesOf s).length - 1) (BPE.indexed (runesOf s)) none h
  unfold buildWord
  dsimp only
  rw [e1, GoM.bind_ok]
  dsimp only at hv ⊢
  revert h1 e1 hv
  generalize (BPE.indexed (runesOf s)).foldl (b.symbolStep uid ((runesOf s).length - 1)) ([], none) = r
  obtain ⟨word, unk⟩ := r
  intro hv e1 h1
  have : ∃ m2 w2 ps2, (match unk with
      | some (uid, ulen) => add grow m1 w1 uid ulen
      | none => pure (m1, w1)) = .ok (m2, w2) ∧ Holds m2 w2 ps2 v ∧ Effect m w ps m2 w2 ps2 := by
    subst hv
    cases unk with
    | none => exact ⟨m1, w1, ps1, rfl, h1, f1⟩
    | some u =>
      obtain ⟨m2, w2, ps2, e2, h2, f2⟩ := add_sim grow h1 u.1 u.2
      exact ⟨m2, w2, ps2, e2, h2, f1.trans f2⟩
  obtain ⟨m2, w2, ps2, e2, h2, f2⟩ := this
  unfold Word.mergeAll
  rw [h2.length_v]
  have key := (mergeAll_sim grow (Word.mergeFuel w2.len) b.merges b.hasDropout rnd h2).mono
    (S := fun (a : WMem × Slc) (b : Word) => ∃ ps', Holds a.1 a.2 ps' b ∧ Effect m w ps a.1 a.2 ps')
    fun _ _ ⟨ps', g1, g2⟩ => ⟨ps', g1, f2.trans g2⟩
  cases unk with
  | none =>
    simp only [GoM.pure_eq, GoM.ok.injEq, Prod.mk.injEq] at e2
    obtain ⟨rfl, rfl⟩ := e2
    exact key
  | some u =>
    dsimp only at e2 ⊢
    rw [e2]; exact key

/-- `wordToTokens` reads the symbols. -/
theorem tokensLoop_sim (vocab : Vocab) (m : WMem) : ∀ (ps : List Nat) (v : Word) (off : Int),
    ps.map (fun p => m.syms[p]?) = v.map some → tokensLoop vocab m (ps.map some) off = .ok (BPE.wordToTokens vocab v off)
  | [], [], _, _ => rfl
  | [], _ :: _, _, h => by simp at h
  | _ :: _, [], _, h => by simp at h
  | p :: ps, s :: v, off, h => by
    simp only [List.map_cons, List.cons.injEq] at h
    have hl : load m p = .ok s := by
      unfold load
      exact goIndex_of_getElem? (by omega) (by rw [Int.toNat_natCast]; exact h.1)
    simp only [List.map_cons, tokensLoop, hl, GoM.bind_ok, BPE.wordToTokens]
    cases vocab.getString s.id with
    | none => rfl
    | some value =>
      dsimp only
      rw [tokensLoop_sim vocab m ps v (off + s.length) h.2, GoM.bind_ok]
      cases BPE.wordToTokens vocab v (off + s.length) <;> rfl

theorem wordToTokens_sim (vocab : Vocab) (h : Holds m w ps v) : wordToTokens vocab m w = .ok (BPE.wordToTokens vocab v 0) := by
  unfold wordToTokens
  rw [h.ptr]
  exact tokensLoop_sim vocab m ps v 0 h.val

/-- Memory `m'` has everything `m` has, unchanged. -/
def Keeps (m m' : WMem) : Prop :=
  m.syms.length ≤ m'.syms.length ∧ (∀ p, p < m.syms.length → m'.syms[p]? = m.syms[p]?)
  ∧ m.arrs.length ≤ m'.arrs.length ∧ ∀ i, i < m.arrs.length → m'.arrs[i]? = m.arrs[i]?

/-- A word made of memory that is not in `m`. -/
def NewIn (m : WMem) (m' : WMem) (w : Slc) (v : Word) : Prop :=
  Keeps m m' ∧ m.arrs.length ≤ w.arr ∧ ∃ ps, Holds m' w ps v ∧ ∀ p ∈ ps, m.syms.length ≤ p

/-- The outcomes of `mergeWord` in memory and on lists. -/
def MergeMatches (m : WMem) : GoM (Option (WMem × Except Err Slc)) → GoM (Except Err (Option Word)) → Prop
  | .panic, .panic => True
  | .ok none, .ok (.ok none) => True
  | .ok (some (m', .error e)), .ok (.error e') => e = e' ∧ Keeps m m'
  | .ok (some (m', .ok w)), .ok (.ok (some v)) => NewIn m m' w v
  | _, _ => False

theorem mergeWord_sim (grow : Nat → Nat → Nat) (b : BPE) (rnd : Nat → Bool) (m : WMem) (s : Str) :
    MergeMatches m (mergeWord grow b rnd m s) (b.mergeWord rnd s) := by
  obtain ⟨m1, w1, e1, h1, f1, f2, f3⟩ := newWord_sim m s.length (by omega)
  obtain ⟨t, ht⟩ := f2
  have hlen : m.arrs.length < m1.arrs.length := by rw [← f3]; exact h1.lt_arrs
  have hk1 : Keeps m m1 := by
    refine ⟨by rw [f1]; omega, fun p _ => by rw [f1], by omega, fun i hi => ?_⟩
    rw [← ht, List.getElem?_append_left hi]
  unfold mergeWord BPE.mergeWord BPE.initialWord
  rw [e1, GoM.bind_ok]
  dsimp only
  have key : ∀ (uid : Int) (v : Word), (v = (let runes := runesOf s
      let (word, unk) := (BPE.indexed runes).foldl (b.symbolStep uid (runes.length - 1)) ([], none)
      match unk with
      | some (uid, ulen) => word.add uid ulen
      | none => word)) →
      MergeMatches m (do
        let r ← buildWord grow b rnd m1 w1 s uid
        pure (r.map fun (m, word) => (m, .ok word))) (do
        let r ← v.mergeAll b.merges b.hasDropout rnd
        pure (.ok r)) := by
    intro uid v hv
    have := buildWord_sim grow b rnd s uid h1 v hv
    revert this
    cases buildWord grow b rnd m1 w1 s uid with
    | panic => cases v.mergeAll b.merges b.hasDropout rnd with
      | panic => intro _; trivial
      | ok o => intro h; cases o <;> exact h.elim
    | ok o =>
      cases v.mergeAll b.merges b.hasDropout rnd with
      | panic => intro h; cases o <;> exact h.elim
      | ok o' =>
        cases o with
        | none => cases o' with
          | none => exact id
          | some _ => intro h; exact h.elim
        | some a => cases o' with
          | none => intro h; exact h.elim
          | some v' =>
            rintro ⟨ps', g1, g2⟩
            obtain ⟨m2, w2⟩ := a
            dsimp only at g1 g2
            have k1 := g2.symsLe
            have k2 := g2.arrsLe
            refine ⟨⟨by rw [← f1]; exact k1, ?_, by omega, ?_⟩, ?_, ps', g1, ?_⟩
            · intro p hp
              rw [g2.symsEq p (by rw [f1]; exact hp) (by simp), f1]
            · intro i hi
              rw [g2.arrsEq i (by omega) (by omega)]
              exact hk1.2.2.2 i hi
            · rcases g2.arr with h | h <;> omega
            · intro p hp
              rcases g2.ptr p hp with h | h
              · simp at h
              · rw [f1] at h; exact h
  split
  · cases b.vocab.getID b.unknownToken with
    | none => exact ⟨rfl, hk1⟩
    | some id => exact key id _ rfl
  · exact key 0 _ rfl

/-! ## Programs -/

/-- The words of a program: each in its own array with its own symbols, none in the memory the program started from. -/
structure Good (m0 m : WMem) (ws : List Slc) (vs : List Word) (P : Nat → List Nat) : Prop where
  keeps : Keeps m0 m
  len : ws.length = vs.length
  holds : ∀ k w v, ws[k]? = some w → vs[k]? = some v →
    Holds m w (P k) v ∧ m0.arrs.length ≤ w.arr ∧ ∀ p ∈ P k, m0.syms.length ≤ p
  apart : ∀ k l w w', k ≠ l → ws[k]? = some w → ws[l]? = some w' → w.arr ≠ w'.arr ∧ ∀ p ∈ P k, p ∉ P l

theorem Keeps.refl (m : WMem) : Keeps m m := ⟨Nat.le_refl _, fun _ _ => rfl, Nat.le_refl _, fun _ _ => rfl⟩

theorem Keeps.trans {a b c : WMem} (h : Keeps a b) (g : Keeps b c) : Keeps a c := by
  obtain ⟨h1, h2, h3, h4⟩ := h
  obtain ⟨g1, g2, g3, g4⟩ := g
  exact ⟨by omega, fun p hp => by rw [g2 p (by omega), h2 p hp], by omega, fun i hi => by rw [g4 i (by omega), h4 i hi]⟩

/-- A word is the same in a memory where its array and its symbols are the same. -/
theorem Holds.same {m' : WMem} (h : Holds m w ps v) (ha : m'.arrs[w.arr]? = m.arrs[w.arr]?)
    (hs : ∀ p ∈ ps, m'.syms[p]? = m.syms[p]?) : Holds m' w ps v := by
  refine ⟨h.le, by rw [ha]; exact h.arr, ?_, h.nodup, ?_⟩
  · have := h.ptr
    unfold ptrs at this ⊢
    rw [ha]; exact this
  · rw [← h.val]
    exact List.map_congr_left hs

theorem getElem?_snoc {α : Type} {l : List α} {a b : α} {k : Nat} (h : (l ++ [a])[k]? = some b) :
    l[k]? = some b ∨ l.length ≤ k ∧ [a][k - l.length]? = some b := by
  rcases Nat.lt_or_ge k l.length with hk | hk
  · rw [List.getElem?_append_left hk] at h; exact .inl h
  · rw [List.getElem?_append_right hk] at h; exact .inr ⟨hk, h⟩

namespace Good

variable {m0 m' : WMem} {ws : List Slc} {vs : List Word} {P : Nat → List Nat}

theorem get (h : Good m0 m ws vs P) {k : Nat} {w : Slc} (hw : ws[k]? = some w) : ∃ v, vs[k]? = some v := by
  have : k < vs.length := by rw [← h.len]; exact (List.getElem?_eq_some_iff.1 hw).1
  exact ⟨vs[k], List.getElem?_eq_getElem this⟩

theorem get_none (h : Good m0 m ws vs P) {k : Nat} (hw : ws[k]? = none) : vs[k]? = none := by
  rw [List.getElem?_eq_none_iff] at hw ⊢
  rw [← h.len]; exact hw

/-- A call on one word. -/
theorem update (h : Good m0 m ws vs P) {k : Nat} {w w' : Slc} {v' : Word} {ps' : List Nat} (hw : ws[k]? = some w)
    (h' : Holds m' w' ps' v') (f : Effect m w (P k) m' w' ps') :
    Good m0 m' (ws.set k w') (vs.set k v') (fun j => if j = k then ps' else P j) := by
  obtain ⟨v, hv⟩ := h.get hw
  obtain ⟨hk1, hk2, hk3⟩ := h.holds k w v hw hv
  obtain ⟨g1, g2, g3, g4⟩ := h.keeps
  have f1 := f.symsLe
  have f2 := f.arrsLe
  -- the pointers and the array of the new word are old ones of this word, or new
  have hnew : w'.arr = w.arr ∨ m.arrs.length ≤ w'.arr := f.arr
  have hother : ∀ j u, j ≠ k → ws[j]? = some u → u.arr < m.arrs.length ∧ w'.arr ≠ u.arr ∧ (∀ p ∈ P j, p < m.syms.length ∧ p ∉ ps') := by
    intro j u hj hu
    obtain ⟨x, hx⟩ := h.get hu
    obtain ⟨q1, q2, q3⟩ := h.holds j u x hu hx
    obtain ⟨a1, a2⟩ := h.apart j k u w hj hu hw
    have := q1.lt_arrs
    refine ⟨this, ?_, ?_⟩
    · rcases hnew with e | e
      · rw [e]; exact fun e => a1 e.symm
      · omega
    · intro p hp
      have hlt := q1.lt_syms hp
      refine ⟨hlt, fun hp' => ?_⟩
      rcases f.ptr p hp' with e | e
      · exact a2 p hp e
      · omega
  refine ⟨⟨by omega, ?_, by omega, ?_⟩, by simp [h.len], ?_, ?_⟩
  · intro p hp
    rw [f.symsEq p (by omega) (fun hm => by have := hk3 p hm; omega), g2 p hp]
  · intro i hi
    rw [f.arrsEq i (by omega) (by omega), g4 i hi]
  · intro j u x hu hx
    by_cases hj : j = k
    · subst hj
      have hkl : j < ws.length := (List.getElem?_eq_some_iff.1 hw).1
      have hvl : j < vs.length := (List.getElem?_eq_some_iff.1 hv).1
      rw [List.getElem?_set, if_pos rfl, if_pos hkl, Option.some.injEq] at hu
      rw [List.getElem?_set, if_pos rfl, if_pos hvl, Option.some.injEq] at hx
      subst hu hx
      rw [if_pos rfl]
      refine ⟨h', ?_, ?_⟩
      · rcases hnew with e | e <;> omega
      · intro p hp
        rcases f.ptr p hp with e | e
        · exact hk3 p e
        · omega
    · have hkj : k ≠ j := fun e => hj e.symm
      rw [List.getElem?_set, if_neg hkj] at hu
      rw [List.getElem?_set, if_neg hkj] at hx
      rw [if_neg hj]
      obtain ⟨q1, q2, q3⟩ := h.holds j u x hu hx
      obtain ⟨o1, o2, o3⟩ := hother j u hj hu
      obtain ⟨a1, a2⟩ := h.apart j k u w hj hu hw
      exact ⟨q1.same (f.arrsEq _ o1 a1) (fun p hp => f.symsEq p (o3 p hp).1 (a2 p hp)), q2, q3⟩
  · intro i j u u' hij hu hu'
    have hkl : k < ws.length := (List.getElem?_eq_some_iff.1 hw).1
    rw [List.getElem?_set] at hu hu'
    by_cases hi : i = k
    · have hj : j ≠ k := fun e => hij (hi.trans e.symm)
      subst hi
      rw [if_pos rfl, if_pos hkl, Option.some.injEq] at hu
      rw [if_neg (fun e => hj e.symm)] at hu'
      subst hu
      obtain ⟨o1, o2, o3⟩ := hother j u' hj hu'
      simp only [if_true, if_neg hj]
      exact ⟨o2, fun p hp hp' => (o3 p hp').2 hp⟩
    · rw [if_neg (fun e => hi e.symm)] at hu
      by_cases hj : j = k
      · subst hj
        rw [if_pos rfl, if_pos hkl, Option.some.injEq] at hu'
        subst hu'
        obtain ⟨o1, o2, o3⟩ := hother i u hi hu
        simp only [if_true, if_neg hi]
        exact ⟨fun e => o2 e.symm, fun p hp hp' => (o3 p hp).2 hp'⟩
      · rw [if_neg (fun e => hj e.symm)] at hu'
        simp only [if_neg hi, if_neg hj]
        exact h.apart i j u u' hij hu hu'

/-- A call that only takes new memory. -/
theorem keep (h : Good m0 m ws vs P) (hk : Keeps m m') : Good m0 m' ws vs P := by
  refine ⟨h.keeps.trans hk, h.len, ?_, h.apart⟩
  intro k w v hw hv
  obtain ⟨q1, q2, q3⟩ := h.holds k w v hw hv
  exact ⟨q1.same (hk.2.2.2 _ q1.lt_arrs) (fun p hp => hk.2.1 p (q1.lt_syms hp)), q2, q3⟩

/-- A new word. -/
theorem insert (h : Good m0 m ws vs P) {w : Slc} {v : Word} (hn : NewIn m m' w v) :
    ∃ P', Good m0 m' (ws ++ [w]) (vs ++ [v]) P' := by
  obtain ⟨hk, ha, ps, hh, hp⟩ := hn
  have h1 := h.keep hk
  obtain ⟨g1, g2, g3, g4⟩ := h.keeps
  have hold : ∀ j u, ws[j]? = some u → j ≠ ws.length ∧ u.arr < m.arrs.length ∧ ∀ p ∈ P j, p < m.syms.length := by
    intro j u hu
    obtain ⟨x, hx⟩ := h.get hu
    obtain ⟨q1, _, _⟩ := h.holds j u x hu hx
    have := (List.getElem?_eq_some_iff.1 hu).1
    exact ⟨by omega, q1.lt_arrs, fun p hp => q1.lt_syms hp⟩
  refine ⟨fun j => if j = ws.length then ps else P j, h1.keeps, by simp [h.len], ?_, ?_⟩
  · intro k u x hu hx
    rcases getElem?_snoc hu with hu | ⟨hle, hu⟩
    · have hkl := (List.getElem?_eq_some_iff.1 hu).1
      rw [List.getElem?_append_left (by rw [← h.len]; exact hkl)] at hx
      rw [if_neg (hold k u hu).1]
      exact h1.holds k u x hu hx
    · have hk0 : k = ws.length := by
        have := (List.getElem?_eq_some_iff.1 hu).1
        simp only [List.length_singleton] at this; omega
      subst hk0
      rw [h.len, List.getElem?_append_right (Nat.le_refl _)] at hx
      simp only [Nat.sub_self, List.getElem?_cons_zero, Option.some.injEq] at hu hx
      subst hu hx
      rw [if_pos rfl]
      exact ⟨hh, by omega, fun p h => by have := hp p h; omega⟩
  · intro k l u u' hkl hu hu'
    rcases getElem?_snoc hu with hu | ⟨hle, hu⟩
    · obtain ⟨c1, c2, c3⟩ := hold k u hu
      rcases getElem?_snoc hu' with hu' | ⟨hle', hu'⟩
      · simp only [if_neg c1, if_neg (hold l u' hu').1]
        exact h.apart k l u u' hkl hu hu'
      · have hl0 : l = ws.length := by
          have := (List.getElem?_eq_some_iff.1 hu').1
          simp only [List.length_singleton] at this; omega
        subst hl0
        simp only [Nat.sub_self, List.getElem?_cons_zero, Option.some.injEq] at hu'
        subst hu'
        simp only [if_neg c1, if_true]
        exact ⟨by omega, fun p h1 h2 => by have := c3 p h1; have := hp p h2; omega⟩
    · have hk0 : k = ws.length := by
        have := (List.getElem?_eq_some_iff.1 hu).1
        simp only [List.length_singleton] at this; omega
      subst hk0
      simp only [Nat.sub_self, List.getElem?_cons_zero, Option.some.injEq] at hu
      subst hu
      rcases getElem?_snoc hu' with hu' | ⟨hle', hu'⟩
      · obtain ⟨c1, c2, c3⟩ := hold l u' hu'
        simp only [if_neg c1, if_true]
        exact ⟨by omega, fun p h1 h2 => by have := c3 p h2; have := hp p h1; omega⟩
      · have := (List.getElem?_eq_some_iff.1 hu').1
        simp only [List.length_singleton] at this; omega

end Good

/-- What a world in memory and lists of symbols have in common. -/
def Same (m0 : WMem) (W : World) (L : Lists) : Prop := W.out = L.out ∧ ∃ P, Good m0 W.mem W.words L.words P

theorem Call.run_sim (grow : Nat → Nat → Nat) {m0 : WMem} {W : World} {L : Lists} (h : Same m0 W L) (c : Call) :
    Matches (Same m0) (c.run grow W) (c.runL L) := by
  obtain ⟨ho, P, hg⟩ := h
  cases c with
  | newWord cap =>
    simp only [Call.run, Call.runL]
    by_cases hc : 0 ≤ cap
    · obtain ⟨m', w, e, h1, h2, h3, h4⟩ := newWord_sim W.mem cap hc
      rw [e, if_pos hc, GoM.bind_ok]
      refine ⟨ho, hg.insert ⟨⟨by rw [h2]; omega, fun p _ => by rw [h2], h3.length_le, ?_⟩, Nat.le_of_eq h4.symm, [], h1, by simp⟩⟩
      intro i hi
      obtain ⟨t, ht⟩ := h3
      rw [← ht, List.getElem?_append_left hi]
    · rw [if_neg hc]
      unfold WordMemory.newWord
      rw [if_neg hc]; trivial
  | add k id len =>
    simp only [Call.run, Call.runL]
    cases hw : W.words[k]? with
    | none => rw [hg.get_none hw]; exact ⟨ho, P, hg⟩
    | some w =>
      obtain ⟨v, hv⟩ := hg.get hw
      rw [hv]
      obtain ⟨m', w', ps', e, h1, f⟩ := add_sim grow (hg.holds k w v hw hv).1 id len
      dsimp only
      rw [e, GoM.bind_ok]
      exact ⟨ho, _, hg.update hw h1 f⟩
  | mergeAll k fuel merges hd rnd =>
    simp only [Call.run, Call.runL]
    cases hw : W.words[k]? with
    | none => rw [hg.get_none hw]; exact ⟨ho, P, hg⟩
    | some w =>
      obtain ⟨v, hv⟩ := hg.get hw
      rw [hv]
      dsimp only
      have := mergeAll_sim grow fuel merges hd rnd (hg.holds k w v hw hv).1
      revert this
      cases WordMemory.mergeAll grow fuel merges hd rnd W.mem w with
      | panic => cases v.mergeAllFuel fuel merges hd rnd with
        | panic => intro _; trivial
        | ok o => intro h; cases o <;> exact h.elim
      | ok o =>
        cases v.mergeAllFuel fuel merges hd rnd with
        | panic => intro h; cases o <;> exact h.elim
        | ok o' =>
          cases o with
          | none => cases o' with
            | none => exact id
            | some _ => intro h; exact h.elim
          | some a => cases o' with
            | none => intro h; exact h.elim
            | some v' => rintro ⟨ps', g1, g2⟩; exact ⟨ho, _, hg.update hw g1 g2⟩
  | mergeWord b rnd s =>
    simp only [Call.run, Call.runL]
    have := mergeWord_sim grow b rnd W.mem s
    revert this
    cases WordMemory.mergeWord grow b rnd W.mem s with
    | panic => cases b.mergeWord rnd s with
      | panic => intro _; trivial
      | ok o => intro h; cases o <;> exact h.elim
    | ok o =>
      cases b.mergeWord rnd s with
      | panic => intro h; rcases o with _ | ⟨_, _ | _⟩ <;> exact h.elim
      | ok o' =>
        rcases o with _ | ⟨m', e | w⟩
        · rcases o' with e' | _ | v'
          · intro h; exact h.elim
          · intro _; trivial
          · intro h; exact h.elim
        · rcases o' with e' | _ | v'
          · rintro ⟨rfl, hk⟩; exact ⟨by rw [← ho], P, hg.keep hk⟩
          · intro h; exact h.elim
          · intro h; exact h.elim
        · rcases o' with e' | _ | v'
          · intro h; exact h.elim
          · intro h; exact h.elim
          · intro h; exact ⟨ho, hg.insert h⟩
  | tokens k vocab =>
    simp only [Call.run, Call.runL]
    cases hw : W.words[k]? with
    | none => rw [hg.get_none hw]; exact ⟨ho, P, hg⟩
    | some w =>
      obtain ⟨v, hv⟩ := hg.get hw
      rw [hv]
      dsimp only
      rw [wordToTokens_sim vocab (hg.holds k w v hw hv).1, GoM.bind_ok]
      exact ⟨by rw [← ho], P, hg⟩

theorem runAll_sim (grow : Nat → Nat → Nat) {m0 : WMem} (cs : List Call) : ∀ {W : World} {L : Lists}, Same m0 W L →
    Matches (Same m0) (runAll grow cs W) (runAllL cs L) := by
  induction cs with
  | nil => intro W L h; exact h
  | cons c cs ih =>
    intro W L h
    unfold runAll runAllL
    have := Call.run_sim grow h c
    revert this
    cases c.run grow W with
    | panic => cases c.runL L with
      | panic => intro _; trivial
      | ok o => intro h; cases o <;> exact h.elim
    | ok o =>
      cases c.runL L with
      | panic => intro h; cases o <;> exact h.elim
      | ok o' =>
        cases o with
        | none => cases o' with
          | none => exact id
          | some _ => intro h; exact h.elim
        | some a => cases o' with
          | none => intro h; exact h.elim
          | some b => intro h; exact ih h

theorem Good.symbols {m0 m : WMem} {ws : List Slc} {vs : List Word} {P : Nat → List Nat} (h : Good m0 m ws vs P) :
    ws.map (symbolsOf m) = vs.map (·.map some) := by
  apply List.ext_getElem?
  intro k
  rw [List.getElem?_map, List.getElem?_map]
  cases hw : ws[k]? with
  | none => rw [h.get_none hw]; rfl
  | some w =>
    obtain ⟨v, hv⟩ := h.get hw
    obtain ⟨q, -, -⟩ := h.holds k w v hw hv
    rw [hv, Option.map_some, Option.map_some, symbolsOf, q.ptr, List.map_map, ← q.val]
    rfl

/-- **C85**. A program that makes words, calls `Add` and `MergeAll` on them in any order, and lets the model build words and
read tokens, ends in memory as it does on lists of symbols: with a panic, without end, or with the same symbols in every word and the same
tokens.  Nothing that was in memory before is changed.  For any memory, any growth of slices, any vocabulary, merges and draws. -/
theorem C85_values (grow : Nat → Nat → Nat) (m0 : WMem) (cs : List Call) :
    Matches (fun (W : World) (L : Lists) => W.words.map (symbolsOf W.mem) = L.words.map (·.map some) ∧ W.out = L.out
      ∧ (∀ p, p < m0.syms.length → W.mem.syms[p]? = m0.syms[p]?) ∧ ∀ i, i < m0.arrs.length → W.mem.arrs[i]? = m0.arrs[i]?)
      (runAll grow cs ⟨m0, [], []⟩) (runAllL cs ⟨[], []⟩) := by
  have h0 : Same m0 ⟨m0, [], []⟩ ⟨[], []⟩ := ⟨rfl, fun _ => [], Keeps.refl m0, rfl, by simp, by simp⟩
  exact (runAll_sim grow cs h0).mono fun W L ⟨ho, P, hg⟩ => ⟨hg.symbols, ho, hg.keeps.2.1, hg.keeps.2.2.2⟩

/-! ### Cases -/

/-- Merges `1 1 → 2` and `2 1 → 3`. -/
def memMerges : MergeMap := [((1, 1), ⟨0, 2⟩), ((2, 1), ⟨1, 3⟩)]

/-- A model with the letters `a` and `b` and the tokens `aa` and `aaa`. -/
def memModel : BPE :=
  let terms := [(b!"b", (0 : Int)), (b!"a", 1), (b!"aa", 2), (b!"aaa", 3)]
  ⟨Vocab.fromJSON (some terms) terms, memMerges, ⟨10⟩, false, [], [], [], false⟩

-- two words growing side by side, with room for one symbol more than needed and with no room at all
example : ((runAll (fun _ n => n + 1) [.newWord 1, .newWord 0, .add 0 1 1, .add 1 5 2, .add 0 1 1, .add 1 6 3, .add 0 1 1,
      .mergeAll 0 40 memMerges false (fun _ => false), .add 0 7 1] ⟨⟨[], []⟩, [], []⟩) >>= fun o => pure (o.map fun W => W.words.map (symbolsOf W.mem)))
    = .ok (some [[some ⟨3, 3, -1, 1⟩, some ⟨7, 1, 0, -1⟩], [some ⟨5, 2, -1, 1⟩, some ⟨6, 3, 0, -1⟩]]) := by decide +kernel

/-- The model on two words, then the tokens of the first. -/
def memWorld : GoM (Option World) := runAll (fun c _ => 2 * c) [.mergeWord memModel (fun _ => false) b!"aab",
  .mergeWord memModel (fun _ => false) b!"aaa", .tokens 0 memModel.vocab] ⟨⟨[], []⟩, [], []⟩

-- the first word is as it was before the second; removed symbols and stale pointers stay in memory
example : (memWorld >>= fun o => pure (o.map fun W => W.words.map (symbolsOf W.mem)))
    = .ok (some [[some ⟨2, 2, -1, 2⟩, some ⟨0, 1, 0, -1⟩], [some ⟨3, 3, -1, -1⟩]]) := by decide +kernel
example : (memWorld >>= fun o => pure (o.map fun W => W.mem.arrs))
    = .ok (some [[some 0, some 2, some 2], [some 3, some 5, some 5]]) := by decide +kernel
example : (memWorld >>= fun o => pure (o.map fun W => W.out.map fun r => r.toOption.map (·.map (·.value))))
    = .ok (some [some [b!"aa", b!"b"]]) := by decide +kernel

/-- **C85**: the condition on the pointers is needed.  A `Word` written by hand with one symbol at two positions is not the
list of its symbols: `MergeAll` empties it, while on the list a symbol stays. -/
theorem C85_counterexample : symbolsOf ⟨[⟨1, 1, -1, 1⟩], [[some 0, some 0]]⟩ ⟨0, 0, 2, 2⟩ = [some ⟨1, 1, -1, 1⟩, some ⟨1, 1, -1, 1⟩]
    ∧ (mergeAll (fun c _ => 2 * c) 40 memMerges false (fun _ => false) ⟨[⟨1, 1, -1, 1⟩], [[some 0, some 0]]⟩ ⟨0, 0, 2, 2⟩ >>= fun o =>
        pure (o.map fun x => symbolsOf x.1 x.2)) = .ok (some [])
    ∧ Word.mergeAllFuel 40 memMerges false (fun _ => false) [⟨1, 1, -1, 1⟩, ⟨1, 1, -1, 1⟩] = .ok (some [⟨3, 2, -1, 1⟩]) := by decide +kernel

/-- **C85**: so is the condition that words do not share an array.  After `c := *w` an `Add` to `w` and one to `c` write to the
same place: `w` shows the symbol added to `c`. -/
theorem C85_copied : (do
      let (m, w) ← newWord ⟨[], []⟩ 2
      let (m, w) ← add (fun c _ => 2 * c) m w 1 1
      let c := w
      let (m, w) ← add (fun c _ => 2 * c) m w 2 1
      let (m, _) ← add (fun c _ => 2 * c) m c 3 1
      pure (symbolsOf m w)) = .ok [some ⟨1, 1, -1, 1⟩, some ⟨3, 1, 0, -1⟩] := by decide +kernel

end Verif.WordMemory
