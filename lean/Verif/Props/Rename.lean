import Verif.Model.Notation
import Verif.Model.WordPiece
import Verif.Props.Bpe

/-!
Only the identity of ids and the order of ranks matter to a BPE model, and only the entries for the characters of the word and
for the pairs that can arise from them.
-/

set_option autoImplicit false

namespace Verif.Rename

/-- A merge value with another rank and id. -/
def value (f g : Int → Int) (m : MergeValue) : MergeValue := ⟨g m.rank, f m.id⟩

/-- `M'` is `M` with ids renamed by `f` and ranks by `g`, as far as ids in `S` and ranks in `P` go. -/
structure Renames (f g : Int → Int) (S P : Int → Prop) (M M' : MergeMap) : Prop where
  inj : ∀ a b, S a → S b → f a = f b → a = b
  mono : ∀ a b, P a → P b → (g a < g b ↔ a < b)
  get : ∀ a b, S a → S b → M'.get (f a) (f b) = (M.get a b).map (value f g)
  closed : ∀ a b m, S a → S b → M.get a b = some m → S m.id ∧ P m.rank

/-! ## The queue -/

/-- An entry renamed. -/
def entry (f g : Int → Int) (x : WordMerge) : WordMerge := ⟨value f g x.value, x.pos⟩

/-- The ids and ranks of the entries are in the sets. -/
def QIn (S P : Int → Prop) (h : WMHeap) : Prop := ∀ x ∈ h, S x.value.id ∧ P x.value.rank

section
variable {f g : Int → Int} {S P : Int → Prop} {M M' : MergeMap}

theorem less_entry (hr : Renames f g S P M M') {x y : WordMerge} (hx : P x.value.rank) (hy : P y.value.rank) :
    (entry f g x).less (entry f g y) = x.less y := by
  have h1 := hr.mono _ _ hx hy
  have h2 := hr.mono _ _ hy hx
  unfold WordMerge.less entry value
  simp only
  by_cases h : x.value.rank = y.value.rank
  · simp [h]
  · have : g x.value.rank ≠ g y.value.rank := by omega
    simp only [h, this, ne_eq, not_false_eq_true, if_true, h1]

theorem at_map {h : WMHeap} {i : Nat} (hi : i < h.length) : WMHeap.at' (h.map (entry f g)) i = entry f g (h.at' i) := by
  rw [WMHeap.at'_eq hi, WMHeap.at'_eq (by simpa using hi)]
  simp

theorem at_mem {h : WMHeap} {i : Nat} (hi : i < h.length) : h.at' i ∈ h := by
  rw [WMHeap.at'_eq hi]; exact List.getElem_mem hi

theorem less_map (hr : Renames f g S P M M') {h : WMHeap} (hq : QIn S P h) {i j : Nat} (hi : i < h.length) (hj : j < h.length) :
    WMHeap.less (h.map (entry f g)) i j = h.less i j := by
  unfold WMHeap.less
  rw [at_map hi, at_map hj]
  exact less_entry hr (hq _ (at_mem hi)).2 (hq _ (at_mem hj)).2

theorem swap_map {h : WMHeap} {i j : Nat} (hi : i < h.length) (hj : j < h.length) :
    WMHeap.swap (h.map (entry f g)) i j = (h.swap i j).map (entry f g) := by
  unfold WMHeap.swap
  rw [at_map hi, at_map hj, List.map_set, List.map_set]

theorem swap_in {h : WMHeap} (hq : QIn S P h) {i j : Nat} (hi : i < h.length) (hj : j < h.length) : QIn S P (h.swap i j) :=
  fun x hx => hq x ((WMHeap.swap_perm hi hj).mem_iff.1 hx)

theorem up_map (hr : Renames f g S P M M') (fuel : Nat) : ∀ {h : WMHeap}, QIn S P h → ∀ {j : Nat}, j < h.length →
    WMHeap.up fuel (h.map (entry f g)) j = (WMHeap.up fuel h j).map (entry f g) ∧ QIn S P (WMHeap.up fuel h j) := by
  induction fuel with
  | zero => intro h hq j _; exact ⟨rfl, hq⟩
  | succ fuel ih =>
    intro h hq j hj
    have hi : (j - 1) / 2 < h.length := by omega
    rw [WMHeap.up, WMHeap.up]
    simp only [less_map hr hq hj hi]
    split
    · exact ⟨rfl, hq⟩
    · rw [swap_map hi hj]
      exact ih (swap_in hq hi hj) (by rw [WMHeap.length_swap]; exact hi)

theorem down_map (hr : Renames f g S P M M') (fuel : Nat) : ∀ {h : WMHeap}, QIn S P h → ∀ {i n : Nat}, i < h.length → n ≤ h.length →
    WMHeap.down fuel (h.map (entry f g)) i n = (WMHeap.down fuel h i n).map (entry f g) ∧ QIn S P (WMHeap.down fuel h i n)
      ∧ (WMHeap.down fuel h i n).length = h.length := by
  induction fuel with
  | zero => intro h hq i n _ _; exact ⟨rfl, hq, rfl⟩
  | succ fuel ih =>
    intro h hq i n hi hn
    rw [WMHeap.down, WMHeap.down]
    by_cases h1 : 2 * i + 1 ≥ n
    · simp only [h1, if_true]; exact ⟨trivial, hq, trivial⟩
    · simp only [h1, if_false]
      have hc : (2 * i + 1 + 1 < n ∧ WMHeap.less (h.map (entry f g)) (2 * i + 1 + 1) (2 * i + 1) = true)
          ↔ (2 * i + 1 + 1 < n ∧ h.less (2 * i + 1 + 1) (2 * i + 1) = true) := by
        constructor
        · rintro ⟨a, b⟩; rw [less_map hr hq (by omega) (by omega)] at b; exact ⟨a, b⟩
        · rintro ⟨a, b⟩; refine ⟨a, ?_⟩; rw [less_map hr hq (by omega) (by omega)]; exact b
      simp only [hc]
      generalize hj : (if 2 * i + 1 + 1 < n ∧ h.less (2 * i + 1 + 1) (2 * i + 1) = true then 2 * i + 1 + 1 else 2 * i + 1) = j
      have hjl : j < h.length := by rw [← hj]; split <;> omega
      rw [less_map hr hq hjl hi]
      split
      · exact ⟨rfl, hq, rfl⟩
      · rw [swap_map hi hjl]
        have := ih (swap_in hq hi hjl) (i := j) (n := n) (by rw [WMHeap.length_swap]; exact hjl) (by rw [WMHeap.length_swap]; exact hn)
        rwa [WMHeap.length_swap] at this

theorem push_map (hr : Renames f g S P M M') {h : WMHeap} (hq : QIn S P h) {x : WordMerge} (hx : S x.value.id ∧ P x.value.rank) :
    WMHeap.push (h.map (entry f g)) (entry f g x) = (h.push x).map (entry f g) ∧ QIn S P (h.push x) := by
  have hq' : QIn S P (h ++ [x]) := by
    intro y hy
    rcases List.mem_append.1 hy with hy | hy
    · exact hq y hy
    · rw [List.mem_singleton.1 hy]; exact hx
  have := up_map hr h.length hq' (j := h.length) (by simp)
  unfold WMHeap.push
  simpa using this

theorem pop_map (hr : Renames f g S P M M') {h : WMHeap} (hq : QIn S P h) (hne : h.length ≠ 0) :
    WMHeap.pop (h.map (entry f g)) = (entry f g h.pop.1, h.pop.2.map (entry f g)) ∧ S h.pop.1.value.id ∧ P h.pop.1.value.rank
      ∧ QIn S P h.pop.2 := by
  have h0 : 0 < h.length := by omega
  have hn : h.length - 1 < h.length := by omega
  obtain ⟨d1, d2, d3⟩ := down_map hr (h.length - 1) (swap_in hq h0 hn) (i := 0) (n := h.length - 1)
    (by rw [WMHeap.length_swap]; exact h0) (by rw [WMHeap.length_swap]; omega)
  rw [WMHeap.length_swap] at d3
  unfold WMHeap.pop
  simp only [List.length_map]
  rw [swap_map h0 hn, d1, at_map (by rw [d3]; exact hn), List.map_take]
  have hm := d2 _ (at_mem (by rw [d3]; exact hn : h.length - 1 < _))
  exact ⟨rfl, hm.1, hm.2, fun x hx => d2 x (List.mem_of_mem_take hx)⟩

theorem foldl_push_map (hr : Renames f g S P M M') (xs : List WordMerge) : ∀ {h : WMHeap}, QIn S P h → QIn S P xs →
    (xs.map (entry f g)).foldl (fun q s => WMHeap.push q s) (h.map (entry f g))
      = (xs.foldl (fun q s => WMHeap.push q s) h).map (entry f g) ∧ QIn S P (xs.foldl (fun q s => WMHeap.push q s) h) := by
  induction xs with
  | nil => intro h hq _; exact ⟨rfl, hq⟩
  | cons x xs ih =>
    intro h hq hx
    obtain ⟨p1, p2⟩ := push_map hr hq (hx x (by simp))
    simp only [List.map_cons, List.foldl_cons, p1]
    exact ih p2 (fun y hy => hx y (by simp [hy]))

/-! ## Merging -/

/-- A symbol renamed. -/
def sym (f : Int → Int) (s : WordSymbol) : WordSymbol := { s with id := f s.id }

/-- The ids of the symbols are in the set. -/
def WIn (S : Int → Prop) (w : Word) : Prop := ∀ s ∈ w, S s.id

theorem goIndex_map (w : Word) (i : Int) : goIndex (w.map (sym f)) i = sym f <$> goIndex w i := by
  unfold goIndex
  split
  · rw [List.getElem?_map]
    cases w[i.toNat]? <;> rfl
  · rfl

theorem goIndex_in {w : Word} (hw : WIn S w) {i : Int} {s : WordSymbol} (h : goIndex w i = .ok s) : S s.id := by
  unfold goIndex at h
  split at h
  · split at h
    · rename_i a ha
      injection h with h
      subst h
      exact hw _ (List.mem_of_getElem? ha)
    · simp at h
  · simp at h

theorem setAt_map (w : Word) (i : Int) (s : WordSymbol) : Word.setAt (w.map (sym f)) i (sym f s) = (w.setAt i s).map (sym f) := by
  unfold Word.setAt
  rw [List.map_set]

theorem setAt_in {w : Word} (hw : WIn S w) (i : Int) {s : WordSymbol} (hs : S s.id) : WIn S (w.setAt i s) := by
  intro t ht
  rcases List.mem_or_eq_of_mem_set ht with h | h
  · exact hw t h
  · rw [h]; exact hs

theorem relink_map {w : Word} (hw : WIn S w) (right : WordSymbol) (pos : Int) :
    Word.relink (w.map (sym f)) (sym f right) pos = List.map (sym f) <$> w.relink right pos
      ∧ ∀ w', w.relink right pos = .ok w' → WIn S w' := by
  unfold Word.relink
  simp only [List.length_map]
  have h1 : (sym f right).hasNext = right.hasNext := rfl
  have h2 : (sym f right).next = right.next := rfl
  rw [h1, h2]
  split
  · rw [goIndex_map]
    cases hi : goIndex w right.next with
    | panic => simp
    | ok nn =>
      simp only [GoM.map_ok, GoM.bind_ok, GoM.pure_eq, GoM.ok.injEq]
      refine ⟨setAt_map w right.next { nn with prev := pos }, ?_⟩
      rintro w' rfl
      exact setAt_in hw _ (s := { nn with prev := pos }) (goIndex_in hw hi : S nn.id)
  · exact ⟨rfl, fun w' h => by injection h with h; subst h; exact hw⟩

theorem pushPrev_map (hr : Renames f g S P M M') {w : Word} (hw : WIn S w) {q : WMHeap} (hq : QIn S P q) {c : WordSymbol} (hc : S c.id) :
    Word.pushPrev M' (w.map (sym f)) (q.map (entry f g)) (sym f c) = List.map (entry f g) <$> Word.pushPrev M w q c
      ∧ ∀ q', Word.pushPrev M w q c = .ok q' → QIn S P q' := by
  unfold Word.pushPrev
  have h1 : (sym f c).hasPrev = c.hasPrev := rfl
  have h2 : (sym f c).prev = c.prev := rfl
  rw [h1, h2]
  split
  · rw [goIndex_map]
    cases hi : goIndex w c.prev with
    | panic => simp
    | ok p =>
      have hp := goIndex_in hw hi
      have hg := hr.get _ _ hp hc
      simp only [GoM.map_ok, GoM.bind_ok]
      have e1 : (sym f p).id = f p.id := rfl
      have e2 : (sym f c).id = f c.id := rfl
      rw [e1, e2, hg]
      cases hm : M.get p.id c.id with
      | none => exact ⟨rfl, fun q' h => by injection h with h; subst h; exact hq⟩
      | some m =>
        obtain ⟨p1, p2⟩ := push_map hr hq (x := ⟨m, c.prev⟩) (hr.closed _ _ _ hp hc hm)
        refine ⟨?_, fun q' h => by injection h with h; subst h; exact p2⟩
        simp only [Option.map_some, GoM.pure_eq, GoM.map_ok, GoM.ok.injEq]
        exact p1
  · exact ⟨rfl, fun q' h => by injection h with h; subst h; exact hq⟩

theorem pushNext_map (hr : Renames f g S P M M') {w : Word} (hw : WIn S w) {q : WMHeap} (hq : QIn S P q) {c : WordSymbol} (hc : S c.id)
    (pos : Int) :
    Word.pushNext M' (w.map (sym f)) (q.map (entry f g)) (sym f c) pos = List.map (entry f g) <$> Word.pushNext M w q c pos
      ∧ ∀ q', Word.pushNext M w q c pos = .ok q' → QIn S P q' := by
  unfold Word.pushNext
  have h1 : (sym f c).hasNext = c.hasNext := rfl
  have h2 : (sym f c).next = c.next := rfl
  rw [h1, h2, List.length_map]
  split
  · rw [goIndex_map]
    cases hi : goIndex w c.next with
    | panic => simp
    | ok p =>
      have hp := goIndex_in hw hi
      have hg := hr.get _ _ hc hp
      simp only [GoM.map_ok, GoM.bind_ok]
      have e1 : (sym f p).id = f p.id := rfl
      have e2 : (sym f c).id = f c.id := rfl
      rw [e1, e2, hg]
      cases hm : M.get c.id p.id with
      | none => exact ⟨rfl, fun q' h => by injection h with h; subst h; exact hq⟩
      | some m =>
        obtain ⟨p1, p2⟩ := push_map hr hq (x := ⟨m, pos⟩) (hr.closed _ _ _ hc hp hm)
        refine ⟨?_, fun q' h => by injection h with h; subst h; exact p2⟩
        simp only [Option.map_some, GoM.pure_eq, GoM.map_ok, GoM.ok.injEq]
        exact p1
  · exact ⟨rfl, fun q' h => by injection h with h; subst h; exact hq⟩

/-- A word and a queue renamed. -/
def both (f g : Int → Int) (x : Word × WMHeap) : Word × WMHeap := (x.1.map (sym f), x.2.map (entry f g))

theorem process_map (hr : Renames f g S P M M') {w : Word} (hw : WIn S w) {q : WMHeap} (hq : QIn S P q) {top : WordMerge}
    (ht : S top.value.id) :
    Word.process M' (w.map (sym f)) (q.map (entry f g)) (entry f g top) = both f g <$> Word.process M w q top
      ∧ ∀ x, Word.process M w q top = .ok x → WIn S x.1 ∧ QIn S P x.2 := by
  have hsame : ∀ x : Word × WMHeap, (pure (w, q) : GoM _) = .ok x → WIn S x.1 ∧ QIn S P x.2 := by
    intro x h; injection h with h; subst h; exact ⟨hw, hq⟩
  unfold Word.process
  have hpos : (entry f g top).pos = top.pos := rfl
  rw [hpos, goIndex_map]
  cases hi : goIndex w top.pos with
  | panic => simp
  | ok cur =>
    have hcur := goIndex_in hw hi
    simp only [GoM.map_ok, GoM.bind_ok]
    have e0 : (sym f cur).length = cur.length := rfl
    have e1 : (sym f cur).hasNext = cur.hasNext := rfl
    have e2 : (sym f cur).next = cur.next := rfl
    rw [e0, e1, e2]
    split
    · exact ⟨rfl, hsame⟩
    · rw [goIndex_map]
      cases hj : goIndex w cur.next with
      | panic => simp
      | ok right =>
        have hright := goIndex_in hw hj
        simp only [GoM.map_ok, GoM.bind_ok]
        have e3 : (sym f cur).id = f cur.id := rfl
        have e4 : (sym f right).id = f right.id := rfl
        rw [e3, e4, hr.get _ _ hcur hright]
        cases hm : M.get cur.id right.id with
        | none => exact ⟨rfl, hsame⟩
        | some m =>
          have hmi := (hr.closed _ _ _ hcur hright hm).1
          simp only [Option.map_some]
          have e5 : ((value f g m).id ≠ (entry f g top).value.id) ↔ (m.id ≠ top.value.id) := by
            constructor
            · intro h e; exact h (by simp only [value, entry, e])
            · intro h e; exact h (hr.inj _ _ hmi ht e)
          by_cases hne : m.id ≠ top.value.id
          · rw [if_pos hne, if_pos (e5.2 hne)]
            exact ⟨rfl, hsame⟩
          · rw [if_neg hne, if_neg (fun h => hne (e5.1 h))]
            have e6 : (sym f cur).mergeWith (sym f right) (entry f g top).value.id = sym f (cur.mergeWith right top.value.id) := rfl
            rw [e6, setAt_map]
            have hw1 : WIn S (w.setAt top.pos (cur.mergeWith right top.value.id)) := setAt_in hw _ ht
            generalize w.setAt top.pos (cur.mergeWith right top.value.id) = w1 at hw1
            rw [goIndex_map]
            cases hk : goIndex w1 cur.next with
            | panic => simp
            | ok r1 =>
              have hr1 := goIndex_in hw1 hk
              simp only [GoM.map_ok, GoM.bind_ok]
              have e7 : { sym f r1 with length := 0 } = sym f { r1 with length := 0 } := rfl
              rw [e7, setAt_map]
              have hw2 : WIn S (w1.setAt cur.next { r1 with length := 0 }) := setAt_in hw1 _ hr1
              generalize w1.setAt cur.next { r1 with length := 0 } = w2 at hw2
              obtain ⟨l1, l2⟩ := relink_map (f := f) hw2 { r1 with length := 0 } top.pos
              rw [l1]
              cases hl : w2.relink { r1 with length := 0 } top.pos with
              | panic => simp
              | ok w3 =>
                have hw3 := l2 _ hl
                simp only [GoM.map_ok, GoM.bind_ok]
                rw [goIndex_map]
                cases hc : goIndex w3 top.pos with
                | panic => simp
                | ok c =>
                  have hc' := goIndex_in hw3 hc
                  simp only [GoM.map_ok, GoM.bind_ok]
                  obtain ⟨p1, p2⟩ := pushPrev_map hr hw3 hq hc'
                  rw [p1]
                  cases hp : Word.pushPrev M w3 q c with
                  | panic => simp
                  | ok q1 =>
                    have hq1 := p2 _ hp
                    simp only [GoM.map_ok, GoM.bind_ok]
                    obtain ⟨n1, n2⟩ := pushNext_map hr hw3 hq1 hc' top.pos
                    rw [n1]
                    cases hn : Word.pushNext M w3 q1 c top.pos with
                    | panic => simp
                    | ok q2 =>
                      refine ⟨rfl, ?_⟩
                      intro x h
                      injection h with h
                      subst h
                      exact ⟨hw3, n2 _ hn⟩

/-- The state of the loop renamed. -/
def state (f g : Int → Int) (st : Word.MState) : Word.MState :=
  ⟨st.word.map (sym f), st.queue.map (entry f g), st.skip.map (entry f g), st.draws⟩

/-- The ids and ranks of a state are in the sets. -/
def StIn (S P : Int → Prop) (st : Word.MState) : Prop := WIn S st.word ∧ QIn S P st.queue ∧ QIn S P st.skip

theorem mergeStep_map (hr : Renames f g S P M M') (d : Bool) (rnd : Nat → Bool) {st : Word.MState} (hs : StIn S P st)
    (hne : st.queue.length ≠ 0) :
    Word.mergeStep M' d rnd (state f g st) = state f g <$> Word.mergeStep M d rnd st
      ∧ ∀ st', Word.mergeStep M d rnd st = .ok st' → StIn S P st' := by
  obtain ⟨hw, hq, hk⟩ := hs
  obtain ⟨o1, o2, o3, o4⟩ := pop_map hr hq hne
  unfold Word.mergeStep
  have e1 : (state f g st).queue = st.queue.map (entry f g) := rfl
  have e2 : (state f g st).draws = st.draws := rfl
  have e3 : (state f g st).word = st.word.map (sym f) := rfl
  have e4 : (state f g st).skip = st.skip.map (entry f g) := rfl
  rw [e1, e2, e3, e4, o1]
  simp only
  split
  · refine ⟨?_, ?_⟩
    · simp [state]
    · intro st' h
      injection h with h
      subst h
      refine ⟨hw, o4, ?_⟩
      intro x hx
      rcases List.mem_append.1 hx with hx | hx
      · exact hk x hx
      · rw [List.mem_singleton.1 hx]; exact ⟨o2, o3⟩
  · obtain ⟨p1, p2⟩ := foldl_push_map hr st.skip o4 hk
    obtain ⟨c1, c2⟩ := process_map hr hw p2 o2
    rw [p1, c1]
    cases hp : Word.process M st.word (st.skip.foldl (fun q s => WMHeap.push q s) st.queue.pop.2) st.queue.pop.1 with
    | panic => simp
    | ok x =>
      have hx := c2 x hp
      refine ⟨rfl, ?_⟩
      intro st' h
      injection h with h
      subst h
      exact ⟨hx.1, hx.2, fun y hy => by simp at hy⟩

theorem mergeLoop_map (hr : Renames f g S P M M') (d : Bool) (rnd : Nat → Bool) (fuel : Nat) : ∀ {st : Word.MState}, StIn S P st →
    Word.mergeLoop M' d rnd fuel (state f g st) = Option.map (state f g) <$> Word.mergeLoop M d rnd fuel st
      ∧ ∀ st', Word.mergeLoop M d rnd fuel st = .ok (some st') → StIn S P st' := by
  induction fuel with
  | zero =>
    intro st hs
    rw [Word.mergeLoop.eq_def, Word.mergeLoop.eq_def]
    have e1 : (state f g st).queue.length = st.queue.length := by simp [state]
    simp only [e1]
    split
    · exact ⟨rfl, fun st' h => by injection h with h; injection h with h; subst h; exact hs⟩
    · exact ⟨rfl, fun st' h => by simp at h⟩
  | succ fuel ih =>
    intro st hs
    rw [Word.mergeLoop.eq_def, Word.mergeLoop.eq_def]
    have e1 : (state f g st).queue.length = st.queue.length := by simp [state]
    simp only [e1]
    split
    · exact ⟨rfl, fun st' h => by injection h with h; injection h with h; subst h; exact hs⟩
    · rename_i hne
      obtain ⟨m1, m2⟩ := mergeStep_map hr d rnd hs hne
      simp only [m1]
      cases hm : Word.mergeStep M d rnd st with
      | panic => simp
      | ok st1 => exact ih (m2 _ hm)

theorem initQueue_map (hr : Renames f g S P M M') (w : Word) : ∀ (i : Nat) {q : WMHeap}, WIn S w → QIn S P q →
    Word.initQueue M' (w.map (sym f)) i (q.map (entry f g)) = (Word.initQueue M w i q).map (entry f g) ∧ QIn S P (Word.initQueue M w i q) := by
  induction w with
  | nil => intro i q _ hq; exact ⟨rfl, hq⟩
  | cons a w ih =>
    intro i q hw hq
    cases w with
    | nil => exact ⟨rfl, hq⟩
    | cons b rest =>
      have ha := hw a (by simp)
      have hb := hw b (by simp)
      have hw' : WIn S (b :: rest) := fun s hs => hw s (by simp at hs ⊢; right; exact hs)
      simp only [List.map_cons, Word.initQueue]
      have e1 : (sym f a).id = f a.id := rfl
      have e2 : (sym f b).id = f b.id := rfl
      rw [e1, e2, hr.get _ _ ha hb]
      cases hm : M.get a.id b.id with
      | none => exact ih _ hw' hq
      | some m =>
        obtain ⟨p1, p2⟩ := push_map hr hq (x := ⟨m, i⟩) (hr.closed _ _ _ ha hb hm)
        simp only [Option.map_some]
        have e3 : (⟨value f g m, i⟩ : WordMerge) = entry f g ⟨m, i⟩ := rfl
        rw [e3, p1]
        exact ih _ hw' p2

theorem filter_map (w : Word) :
    (w.map (sym f)).filter (fun s => s.length != 0) = (w.filter fun s => s.length != 0).map (sym f) := by
  rw [List.filter_map]
  rfl

theorem mergeAll_map (hr : Renames f g S P M M') (d : Bool) (rnd : Nat → Bool) {w : Word} (hw : WIn S w) :
    Word.mergeAll M' d rnd (w.map (sym f)) = Option.map (List.map (sym f)) <$> Word.mergeAll M d rnd w
      ∧ ∀ w', Word.mergeAll M d rnd w = .ok (some w') → WIn S w' := by
  obtain ⟨q1, q2⟩ := initQueue_map hr w 0 (q := []) hw (fun x hx => by simp at hx)
  unfold Word.mergeAll Word.mergeAllFuel
  simp only [List.map_nil] at q1
  rw [q1, List.length_map]
  have hs : StIn S P ⟨w, Word.initQueue M w 0 [], [], 0⟩ := ⟨hw, q2, fun x hx => by simp at hx⟩
  obtain ⟨l1, l2⟩ := mergeLoop_map hr d rnd (Word.mergeFuel w.length) hs
  have e : state f g ⟨w, Word.initQueue M w 0 [], [], 0⟩ = ⟨w.map (sym f), (Word.initQueue M w 0 []).map (entry f g), [], 0⟩ := rfl
  rw [e] at l1
  simp only [l1]
  cases hl : Word.mergeLoop M d rnd (Word.mergeFuel w.length) ⟨w, Word.initQueue M w 0 [], [], 0⟩ with
  | panic => simp
  | ok o =>
    cases o with
    | none => exact ⟨rfl, fun w' h => by simp at h⟩
    | some st =>
      simp only [GoM.map_ok, GoM.bind_ok, Option.map_some, GoM.pure_eq, GoM.ok.injEq, Option.some.injEq]
      refine ⟨filter_map st.word, ?_⟩
      rintro w' rfl
      exact fun s hs => (l2 _ hl).1 s (List.mem_filter.1 hs).1

end

/-! ## Tokenizing -/

/-- The strings that `Tokenize` looks up for a sequence: its characters, with the prefix on the first and the suffix on the last,
and the unknown token if there is one. -/
def Key (m : BPE) (s k : Str) : Prop :=
  (m.unknownToken ≠ [] ∧ k = m.unknownToken)
    ∨ ∃ (i : Nat) (r : Rune), (runesOf s)[i]? = some r
        ∧ k = (if i = 0 then m.continuingSubwordPrefix else []) ++ encodeRune r ++ (if i + 1 = (runesOf s).length then m.endOfWordSuffix else [])

/-- The two models have the same options. -/
def SameOptions (m m' : BPE) : Prop :=
  m'.hasDropout = m.hasDropout ∧ m'.unknownToken = m.unknownToken ∧ m'.continuingSubwordPrefix = m.continuingSubwordPrefix
    ∧ m'.endOfWordSuffix = m.endOfWordSuffix ∧ m'.unknownFusionEnabled = m.unknownFusionEnabled

/-- A token with another id. -/
def token (f : Int → Int) (t : Token) : Token := { t with id := f t.id }

/-- An error about an id is about another id. -/
def error (f : Int → Int) : Err → Err
  | .idNotFound i => .idNotFound (f i)
  | e => e

/-- What `Tokenize` returns, with other ids. -/
def result (f : Int → Int) : Except Err (Option (List Token)) → Except Err (Option (List Token))
  | .ok o => .ok (o.map (List.map (token f)))
  | .error e => .error (error f e)

section
variable {f g : Int → Int} {S P : Int → Prop}

/-- A symbol to come, renamed. -/
def pair (f : Int → Int) (p : Int × Int) : Int × Int := (f p.1, p.2)

theorem add_map (w : Word) (p : Int × Int) : Word.add (w.map (sym f)) (f p.1) p.2 = (w.add p.1 p.2).map (sym f) := by
  unfold Word.add
  simp only [List.length_map, List.map_append, List.map_cons, List.map_nil]
  congr 1
  split
  · rw [List.getElem?_map]
    cases hw : w[((w.length : Int) - 1).toNat]? with
    | none => rfl
    | some s => exact setAt_map w _ { s with next := w.length }
  · rfl

theorem add_in {w : Word} (hw : WIn S w) {i : Int} (hi : S i) (n : Int) : WIn S (w.add i n) := by
  intro s hs
  unfold Word.add at hs
  rcases List.mem_append.1 hs with h | h
  · split at h
    · split at h
      · rename_i t ht
        exact setAt_in hw _ (s := { t with next := w.length }) (hw t (List.mem_of_getElem? ht)) s h
      · exact hw s h
    · exact hw s h
  · rw [List.mem_singleton.1 h]; exact hi

theorem foldl_add_map (l : List (Int × Int)) : ∀ w : Word,
    (l.map (pair f)).foldl (fun (w : Word) p => w.add p.1 p.2) (w.map (sym f)) = (l.foldl (fun (w : Word) p => w.add p.1 p.2) w).map (sym f) := by
  induction l with
  | nil => intro w; rfl
  | cons p l ih =>
    intro w
    simp only [List.map_cons, List.foldl_cons]
    have := add_map (f := f) w p
    simp only [pair]
    rw [this]
    exact ih _

theorem built_map (l : List (Int × Int)) : built (l.map (pair f)) = (built l).map (sym f) := foldl_add_map l []

theorem foldl_add_in (l : List (Int × Int)) : ∀ w : Word, WIn S w → (∀ p ∈ l, S p.1) → WIn S (l.foldl (fun w p => w.add p.1 p.2) w) := by
  induction l with
  | nil => intro w hw _; exact hw
  | cons p l ih =>
    intro w hw hl
    exact ih _ (add_in hw (hl p (by simp)) _) (fun q hq => hl q (by simp [hq]))

theorem built_in {l : List (Int × Int)} (h : ∀ p ∈ l, S p.1) : WIn S (built l) :=
  foldl_add_in l [] (fun s hs => by simp at hs) h

theorem hasUnknown_same {m m' : BPE} (h : m'.unknownToken = m.unknownToken) : m'.hasUnknownToken = m.hasUnknownToken := by
  unfold BPE.hasUnknownToken; rw [h]

theorem pending_map {m m' : BPE} (ho : SameOptions m m') {u u' : Int} (hu : m.hasUnknownToken = true → u' = f u)
    (cs : List (Option Int × Int)) : ∀ p : Option (Int × Int),
    BPE.pending m' u' (p.map (pair f)) (cs.map fun c => (c.1.map f, c.2)) = (BPE.pending m u p cs).map (pair f) := by
  obtain ⟨-, h1, -, -, h2⟩ := ho
  have h3 := hasUnknown_same h1
  induction cs with
  | nil => intro p; cases p <;> rfl
  | cons c cs ih =>
    obtain ⟨o, len⟩ := c
    intro p
    cases o with
    | some id =>
      simp only [List.map_cons, Option.map_some, BPE.pending, List.map_append]
      have := ih none
      simp only [Option.map_none] at this
      rw [this]
      cases p <;> rfl
    | none =>
      cases p with
      | none =>
        simp only [List.map_cons, Option.map_none, BPE.pending, h3]
        split
        · rename_i h
          have e := ih (some (u, len))
          simp only [Option.map_some, pair, ← hu h] at e
          exact e
        · exact ih none
      | some p =>
        simp only [List.map_cons, Option.map_none, Option.map_some, BPE.pending, h3, h2]
        split
        · rename_i h
          split
          · exact ih (some (p.1, p.2 + len))
          · rw [List.map_cons]
            congr 1
            have e := ih (some (u, len))
            simp only [Option.map_some, pair, ← hu h] at e
            exact e
        · exact ih (some p)

theorem pending_in (m : BPE) {u : Int} (hu : m.hasUnknownToken = true → S u) (cs : List (Option Int × Int))
    (hc : ∀ c ∈ cs, ∀ i, c.1 = some i → S i) : ∀ p : Option (Int × Int), (∀ q, p = some q → S q.1) → ∀ x ∈ BPE.pending m u p cs, S x.1 := by
  induction cs with
  | nil =>
    intro p hp x hx
    cases p with
    | none => simp [BPE.pending] at hx
    | some q =>
      simp [BPE.pending] at hx
      subst hx
      exact hp _ rfl
  | cons c cs ih =>
    obtain ⟨o, len⟩ := c
    have ih' := ih (fun c h => hc c (by simp [h]))
    intro p hp x hx
    cases o with
    | some id =>
      simp only [BPE.pending, List.mem_append, List.mem_cons] at hx
      rcases hx with h | h | h
      · cases p with
        | none => simp at h
        | some q => simp at h; subst h; exact hp _ rfl
      · subst h; exact hc (some id, len) (by simp) id rfl
      · exact ih' none (by simp) x h
    | none =>
      cases p with
      | none =>
        simp only [BPE.pending] at hx
        split at hx
        · rename_i h
          exact ih' (some (u, len)) (by intro q hq; injection hq with hq; subst hq; exact hu h) x hx
        · exact ih' none (by simp) x hx
      | some q =>
        have hq := hp q rfl
        simp only [BPE.pending] at hx
        split at hx
        · rename_i h
          split at hx
          · exact ih' (some (q.1, q.2 + len)) (by intro y hy; injection hy with hy; subst hy; exact hq) x hx
          · rcases List.mem_cons.1 hx with hx | hx
            · subst hx; exact hq
            · exact ih' (some (u, len)) (by intro y hy; injection hy with hy; subst hy; exact hu h) x hx
        · exact ih' (some q) hp x hx

theorem lookupKey_same {m m' : BPE} (ho : SameOptions m m') (i last : Nat) (r : Rune) : m'.lookupKey i last r = m.lookupKey i last r := by
  obtain ⟨-, -, h1, h2, -⟩ := ho
  unfold BPE.lookupKey BPE.hasContinuingSubwordPrefix BPE.hasEndOfWordSuffix
  rw [h1, h2]

theorem key_lookup (m : BPE) (s : Str) {i : Nat} {r : Rune} (h : (runesOf s)[i]? = some r) :
    Key m s (m.lookupKey i ((runesOf s).length - 1) r) := by
  have hi : i < (runesOf s).length := (List.getElem?_eq_some_iff.1 h).1
  have hl : (i = (runesOf s).length - 1) ↔ (i + 1 = (runesOf s).length) := by omega
  refine Or.inr ⟨i, r, h, ?_⟩
  unfold BPE.lookupKey BPE.hasContinuingSubwordPrefix BPE.hasEndOfWordSuffix
  simp only [hl]
  by_cases hp : m.continuingSubwordPrefix = [] <;> by_cases hs : m.endOfWordSuffix = [] <;>
    by_cases h0 : i = 0 <;> simp [hp, hs, h0] <;> split <;> simp

theorem lookups_map {m m' : BPE} (ho : SameOptions m m') (s : Str)
    (hk : ∀ k, Key m s k → m'.vocab.getID k = (m.vocab.getID k).map f) :
    m'.lookups s = (m.lookups s).map fun c => (c.1.map f, c.2) := by
  unfold BPE.lookups
  apply List.ext_getElem?
  intro i
  simp only [List.getElem?_map, List.getElem?_mapIdx]
  cases hr : (runesOf s)[i]? with
  | none => rfl
  | some r =>
    simp only [Option.map_some, Option.some.injEq, Prod.mk.injEq, and_true]
    rw [lookupKey_same ho]
    exact hk _ (key_lookup m s hr)

theorem lookups_in {m : BPE} (s : Str) (hk : ∀ k i, Key m s k → m.vocab.getID k = some i → S i) :
    ∀ c ∈ m.lookups s, ∀ i, c.1 = some i → S i := by
  intro c hc i hi
  unfold BPE.lookups at hc
  rw [List.mem_mapIdx] at hc
  obtain ⟨j, hj, rfl⟩ := hc
  exact hk _ i (key_lookup m s (List.getElem?_eq_getElem hj)) hi

theorem wordToTokens_map {v v' : Vocab} (hv : ∀ i, S i → v'.getString (f i) = v.getString i) (w : Word) : ∀ (o : Int), WIn S w →
    BPE.wordToTokens v' (w.map (sym f)) o = match BPE.wordToTokens v w o with
      | .ok ts => .ok (ts.map (token f))
      | .error e => .error (error f e) := by
  induction w with
  | nil => intro o _; rfl
  | cons s w ih =>
    intro o hw
    have h1 := hv _ (hw s (by simp))
    have h2 := ih (o + s.length) (fun t ht => hw t (by simp [ht]))
    simp only [List.map_cons, BPE.wordToTokens]
    have e1 : (sym f s).id = f s.id := rfl
    have e2 : (sym f s).length = s.length := rfl
    rw [e1, e2, h1, h2]
    cases v.getString s.id with
    | none => rfl
    | some t => cases BPE.wordToTokens v w (o + s.length) <;> rfl

/-- **C100.** If the second model is the first one with ids renamed and ranks changed so that their order stays, `Tokenize` gives
the same tokens with the new ids, whatever the random numbers.  Only the ids in `S` matter: those of the strings that are looked
up and those that merging makes from them. -/
theorem C100_bpe {m m' : BPE} (ho : SameOptions m m') (hr : Renames f g S P m.merges m'.merges) (s : Str)
    (hk : ∀ k, Key m s k → m'.vocab.getID k = (m.vocab.getID k).map f)
    (hS : ∀ k i, Key m s k → m.vocab.getID k = some i → S i)
    (hv : ∀ i, S i → m'.vocab.getString (f i) = m.vocab.getString i) (rnd : Nat → Bool) :
    m'.tokenize rnd s = result f <$> m.tokenize rnd s := by
  by_cases hs : s = []
  · subst hs; rfl
  have hu1 : m.hasUnknownToken = true → Key m s m.unknownToken := by
    intro h
    refine Or.inl ⟨?_, rfl⟩
    intro h0
    simp [BPE.hasUnknownToken, h0] at h
  have hun := hasUnknown_same ho.2.1
  rcases BPE.tokenize_eq m rnd s hs with ⟨a1, a2⟩ | ⟨u, ss, w, a1, a2, -, a4, -, a6⟩
  · have b1 : m'.unkID = none := by
      unfold BPE.unkID at a1 ⊢
      rw [hun, ho.2.1]
      split at a1
      · rename_i h
        rw [if_pos h, hk _ (hu1 h), a1]; rfl
      · simp at a1
    rcases BPE.tokenize_eq m' rnd s hs with ⟨-, b2⟩ | ⟨u', ss', w', b1', -⟩
    · rw [a2, b2]; rfl
    · rw [b1] at b1'; simp at b1'
  · have hex : ∃ u', m'.unkID = some u' ∧ (m.hasUnknownToken = true → u' = f u ∧ S u) := by
      unfold BPE.unkID at a1 ⊢
      rw [hun, ho.2.1]
      split at a1
      · rename_i h
        refine ⟨f u, ?_, fun _ => ⟨rfl, hS _ _ (hu1 h) a1⟩⟩
        rw [if_pos h, hk _ (hu1 h), a1]; rfl
      · rename_i h
        exact ⟨0, by rw [if_neg h], fun h' => (h h').elim⟩
    obtain ⟨u', b1, hu'⟩ := hex
    rcases BPE.tokenize_eq m' rnd s hs with ⟨b1', -⟩ | ⟨u2, ss', w', b1', b2, -, b4, -, b6⟩
    · rw [b1] at b1'; simp at b1'
    · rw [b1] at b1'
      injection b1' with b1'
      subst b1'
      have e1 : ss' = ss.map (pair f) := by
        rw [b2, a2, lookups_map ho s hk]
        exact pending_map ho (fun h => (hu' h).1) (m.lookups s) none
      have e2 : ∀ p ∈ ss, S p.1 := by
        rw [a2]
        exact pending_in m (fun h => (hu' h).2) _ (lookups_in s hS) none (by simp)
      obtain ⟨c1, c2⟩ := mergeAll_map hr m.hasDropout rnd (built_in e2)
      rw [e1, built_map, ho.1, c1, a4] at b4
      simp only [GoM.map_ok, Option.map_some, GoM.ok.injEq, Option.some.injEq] at b4
      subst b4
      rw [a6, b6, wordToTokens_map hv w 0 (c2 w a4)]
      cases BPE.wordToTokens m.vocab w 0 <;> rfl

end

/-! ## Vocabularies with the same terms -/

/-- The id in `v'` of the term that has id `i` in `v`. -/
def idIn (v v' : Vocab) (i : Int) : Int :=
  match v.getString i with
  | some t => (v'.getID t).getD 0
  | none => 0

/-- The ids of a vocabulary. -/
def IdOf (v : Vocab) (i : Int) : Prop := ∃ t, v.getID t = some i

/-- The two vocabularies have the same terms. -/
def SameTerms (v v' : Vocab) : Prop := ∀ t, (v'.getID t).isSome = (v.getID t).isSome

/-- A merge map with other ids. -/
def table (f : Int → Int) (M : MergeMap) : MergeMap := M.map fun e => ((f e.1.1, f e.1.2), ⟨e.2.rank, f e.2.id⟩)

section
variable {v v' : Vocab}

theorem getID_idIn (hv : v.Inverse) (ht : SameTerms v v') (t : Str) : v'.getID t = (v.getID t).map (idIn v v') := by
  have h := ht t
  cases h1 : v.getID t with
  | none =>
    rw [h1] at h
    cases h2 : v'.getID t with
    | none => rfl
    | some j => rw [h2] at h; simp at h
  | some i =>
    rw [h1] at h
    cases h2 : v'.getID t with
    | none => rw [h2] at h; simp at h
    | some j =>
      have : v.getString i = some t := (hv t i).1 h1
      simp [idIn, this, h2]

theorem idIn_inj (hv : v.Inverse) (hv' : v'.Inverse) (ht : SameTerms v v') (a b : Int) (ha : IdOf v a) (hb : IdOf v b)
    (h : idIn v v' a = idIn v v' b) : a = b := by
  obtain ⟨t, h1⟩ := ha
  obtain ⟨u, h2⟩ := hb
  have e1 := getID_idIn hv ht t
  have e2 := getID_idIn hv ht u
  rw [h1] at e1
  rw [h2] at e2
  simp only [Option.map_some] at e1 e2
  have e3 := (hv' _ _).1 e1
  have e4 := (hv' _ _).1 e2
  rw [h, e4] at e3
  injection e3 with e3
  subst e3
  rw [h1] at h2
  injection h2

theorem getString_idIn (hv : v.Inverse) (hv' : v'.Inverse) (ht : SameTerms v v') (i : Int) (hi : IdOf v i) :
    v'.getString (idIn v v' i) = v.getString i := by
  obtain ⟨t, h1⟩ := hi
  have e1 := getID_idIn hv ht t
  rw [h1] at e1
  rw [(hv _ _).1 h1]
  exact (hv' _ _).1 e1

/-- All ids of a merge map are in the set. -/
def TableIn (S : Int → Prop) (M : MergeMap) : Prop := ∀ e ∈ M, S e.1.1 ∧ S e.1.2 ∧ S e.2.id

variable {f : Int → Int} {S : Int → Prop}

theorem table_get (hf : ∀ a b, S a → S b → f a = f b → a = b) (M : MergeMap) (hM : TableIn S M) {a b : Int} (ha : S a) (hb : S b) :
    (table f M).get (f a) (f b) = (M.get a b).map (value f id) := by
  unfold MergeMap.get
  induction M with
  | nil => rfl
  | cons e M ih =>
    obtain ⟨⟨x, y⟩, m⟩ := e
    have h := hM ((x, y), m) (by simp)
    have ih' := ih (fun e he => hM e (by simp [he]))
    simp only [table, List.map_cons, GoMap.get?]
    have e1 : ((f x, f y) = (f a, f b)) ↔ ((x, y) = (a, b)) := by
      simp only [Prod.mk.injEq]
      exact ⟨fun ⟨p, q⟩ => ⟨hf _ _ h.1 ha p, hf _ _ h.2.1 hb q⟩, fun ⟨p, q⟩ => ⟨by rw [p], by rw [q]⟩⟩
    simp only [e1]
    split
    · rfl
    · exact ih'

theorem table_set (hf : ∀ a b, S a → S b → f a = f b → a = b) (M : MergeMap) (hM : TableIn S M) {a b : Int} (ha : S a) (hb : S b)
    (m : MergeValue) : (table f M).set (f a) (f b) ⟨m.rank, f m.id⟩ = table f (M.set a b m) := by
  unfold MergeMap.set
  induction M with
  | nil => rfl
  | cons e M ih =>
    obtain ⟨⟨x, y⟩, m'⟩ := e
    have h := hM ((x, y), m') (by simp)
    have ih' := ih (fun e he => hM e (by simp [he]))
    simp only [table, List.map_cons, GoMap.set]
    have e1 : ((f x, f y) = (f a, f b)) ↔ ((x, y) = (a, b)) := by
      simp only [Prod.mk.injEq]
      exact ⟨fun ⟨p, q⟩ => ⟨hf _ _ h.1 ha p, hf _ _ h.2.1 hb q⟩, fun ⟨p, q⟩ => ⟨by rw [p], by rw [q]⟩⟩
    simp only [e1]
    split
    · rfl
    · simp only [List.map_cons]
      congr 1

theorem tableIn_set (M : MergeMap) (hM : TableIn S M) {a b : Int} (ha : S a) (hb : S b) {m : MergeValue} (hm : S m.id) :
    TableIn S (M.set a b m) := by
  unfold MergeMap.set
  induction M with
  | nil =>
    intro e he
    simp only [GoMap.set, List.mem_singleton] at he
    subst he
    exact ⟨ha, hb, hm⟩
  | cons x M ih =>
    obtain ⟨k, m'⟩ := x
    have ih' := ih (fun e he => hM e (by simp [he]))
    intro e he
    simp only [GoMap.set] at he
    split at he
    · rcases List.mem_cons.1 he with h | h
      · subst h; exact ⟨ha, hb, hm⟩
      · exact hM e (by simp [h])
    · rcases List.mem_cons.1 he with h | h
      · exact hM e (by simp [h])
      · exact ih' e h

theorem parseMergeLine_map (hg : ∀ t, v'.getID t = (v.getID t).map f) (n : Int) (line : Nat) (rank : Int) (s : Str) :
    parseMergeLine v' n line rank s
        = Except.map (fun x => ((f x.1.1, f x.1.2), ⟨x.2.rank, f x.2.id⟩)) <$> parseMergeLine v n line rank s
      ∧ ∀ x, parseMergeLine v n line rank s = .ok (.ok x) → IdOf v x.1.1 ∧ IdOf v x.1.2 ∧ IdOf v x.2.id := by
  unfold parseMergeLine
  split
  · rename_i t0 t1 _
    rw [hg t0]
    cases h0 : v.getID t0 with
    | none => exact ⟨rfl, fun x h => by simp at h⟩
    | some a =>
      simp only [Option.map_some]
      rw [hg t1]
      cases h1 : v.getID t1 with
      | none => exact ⟨rfl, fun x h => by simp at h⟩
      | some b =>
        simp only [Option.map_some]
        cases h2 : goSlice t1 n t1.length with
        | panic => exact ⟨rfl, fun x h => by simp at h⟩
        | ok rest =>
          simp only
          rw [hg (t0 ++ rest)]
          cases h3 : v.getID (t0 ++ rest) with
          | none => exact ⟨rfl, fun x h => by simp at h⟩
          | some c =>
            refine ⟨rfl, fun x h => ?_⟩
            simp only [GoM.ok.injEq, Except.ok.injEq] at h
            subst h
            exact ⟨⟨_, h0⟩, ⟨_, h1⟩, ⟨_, h3⟩⟩
  · exact ⟨rfl, fun x h => by simp at h⟩

theorem mergeMapLoop_map (hg : ∀ t, v'.getID t = (v.getID t).map f) (hf : ∀ a b, IdOf v a → IdOf v b → f a = f b → a = b) (n : Int)
    (lines : List Str) : ∀ (k : Nat) (rank : Int) (M : MergeMap), TableIn (IdOf v) M →
    mergeMapLoop v' n lines k rank (table f M) = Except.map (table f) <$> mergeMapLoop v n lines k rank M
      ∧ ∀ M', mergeMapLoop v n lines k rank M = .ok (.ok M') → TableIn (IdOf v) M' := by
  induction lines with
  | nil =>
    intro k rank M hM
    exact ⟨rfl, fun M' h => by simp only [mergeMapLoop, GoM.ok.injEq, Except.ok.injEq] at h; subst h; exact hM⟩
  | cons line rest ih =>
    intro k rank M hM
    simp only [mergeMapLoop]
    split
    · exact ih _ _ _ hM
    · obtain ⟨p1, p2⟩ := parseMergeLine_map hg n k rank line
      rw [p1]
      cases hp : parseMergeLine v n k rank line with
      | panic => exact ⟨rfl, fun x h => by simp at h⟩
      | ok r =>
        cases r with
        | error e => exact ⟨rfl, fun x h => by simp at h⟩
        | ok x =>
          obtain ⟨q1, q2, q3⟩ := p2 x hp
          simp only [GoM.map_ok, Except.map]
          have e := table_set (f := f) hf M hM q1 q2 x.2
          rw [e]
          exact ih _ _ _ (tableIn_set M hM q1 q2 q3)

theorem mergeMapFromFile_map (hg : ∀ t, v'.getID t = (v.getID t).map f) (hf : ∀ a b, IdOf v a → IdOf v b → f a = f b → a = b) (n : Int)
    (content : Str) :
    mergeMapFromFile content v' n = Except.map (table f) <$> mergeMapFromFile content v n
      ∧ ∀ M, mergeMapFromFile content v n = .ok (.ok M) → TableIn (IdOf v) M := by
  obtain ⟨l1, l2⟩ := mergeMapLoop_map hg hf n (scanLines content) 1 0 [] (fun e he => by simp at he)
  have e0 : table f [] = [] := rfl
  rw [e0] at l1
  unfold mergeMapFromFile
  rw [l1]
  cases hl : mergeMapLoop v n (scanLines content) 1 0 [] with
  | panic => exact ⟨rfl, fun x h => by simp at h⟩
  | ok r =>
    cases r with
    | error e => exact ⟨rfl, fun x h => by simp at h⟩
    | ok M =>
      simp only [GoM.map_ok, Except.map]
      split
      · exact ⟨rfl, fun x h => by simp at h⟩
      · refine ⟨rfl, fun x h => ?_⟩
        simp only [GoM.ok.injEq, Except.ok.injEq] at h
        subst h
        exact l2 M hl

/-- **C100, files.** Two vocabularies with the same terms and different ids, and one merges file: reading it fails for both or for
none, with the same error; and the models tokenize every sequence into the same values and offsets, each with its ids. -/
theorem C100_files (hv : v.Inverse) (hv' : v'.Inverse) (ht : SameTerms v v') (content : Str) (n : Int) :
    (∀ e, mergeMapFromFile content v n = .ok (.error e) → mergeMapFromFile content v' n = .ok (.error e))
    ∧ (mergeMapFromFile content v n = .panic → mergeMapFromFile content v' n = .panic)
    ∧ ∀ M, mergeMapFromFile content v n = .ok (.ok M) → ∃ M', mergeMapFromFile content v' n = .ok (.ok M')
        ∧ ∀ (m m' : BPE), m.vocab = v → m.merges = M → m'.vocab = v' → m'.merges = M' → SameOptions m m' →
            ∀ (rnd : Nat → Bool) (s : Str), m'.tokenize rnd s = result (idIn v v') <$> m.tokenize rnd s := by
  have hg := getID_idIn hv ht
  have hf := idIn_inj hv hv' ht
  obtain ⟨l1, l2⟩ := mergeMapFromFile_map (f := idIn v v') hg hf n content
  refine ⟨fun e h => by rw [l1, h]; rfl, fun h => by rw [l1, h]; rfl, fun M h => ?_⟩
  refine ⟨table (idIn v v') M, by rw [l1, h]; rfl, ?_⟩
  rintro m m' rfl rfl rfl h' ho rnd s
  have hM := l2 _ h
  have hr : Renames (idIn m.vocab m'.vocab) id (IdOf m.vocab) (fun _ => True) m.merges m'.merges := by
    refine ⟨hf, fun _ _ _ _ => Iff.rfl, ?_, ?_⟩
    · intro a b ha hb
      rw [h']
      exact table_get hf _ hM ha hb
    · intro a b x ha hb hx
      refine ⟨?_, trivial⟩
      have : ∀ (M : MergeMap), TableIn (IdOf m.vocab) M → GoMap.get? M (a, b) = some x → IdOf m.vocab x.id := by
        intro M
        induction M with
        | nil => intro _ h; simp [GoMap.get?] at h
        | cons e M ih =>
          intro hM h
          obtain ⟨k, y⟩ := e
          simp only [GoMap.get?] at h
          split at h
          · injection h with h; subst h; exact (hM (k, y) (by simp)).2.2
          · exact ih (fun e he => hM e (by simp [he])) h
      exact this _ hM hx
  exact C100_bpe ho hr s (fun k _ => hg k) (fun k i _ h => ⟨k, h⟩) (getString_idIn hv hv' ht) rnd

end

/-! ## WordPiece -/

/-- The strings that `Tokenize` of a WordPiece model looks up: parts of the sequence, with the prefix unless they are at its
start, and the unknown token. -/
def WKey (m : WordPiece) (s k : Str) : Prop :=
  k = m.unknownToken ∨ ∃ start stop : Nat, k = (if start = 0 then [] else m.continuingSubwordPrefix) ++ (s.drop start).take (stop - start)

section
variable {m m' : WordPiece} {f : Int → Int} {s : Str}

theorem subStr_same (hp : m'.continuingSubwordPrefix = m.continuingSubwordPrefix) (a b : Nat) : m'.subStr s a b = m.subStr s a b := by
  unfold WordPiece.subStr; rw [hp]

theorem wkey_subStr (a b : Nat) : WKey m s (m.subStr s a b) := by
  refine Or.inr ⟨a, b, ?_⟩
  unfold WordPiece.subStr
  by_cases h : a = 0
  · simp [h]
  · simp [h, Nat.pos_of_ne_zero h]

theorem findToken_map (hp : m'.continuingSubwordPrefix = m.continuingSubwordPrefix)
    (hk : ∀ k, WKey m s k → m'.vocab.getID k = (m.vocab.getID k).map f) (start fuel : Nat) : ∀ stop : Int,
    m'.findToken s start fuel stop = (m.findToken s start fuel stop).map (token f) := by
  induction fuel with
  | zero => intro stop; rfl
  | succ fuel ih =>
    intro stop
    simp only [WordPiece.findToken]
    split
    · rw [subStr_same hp, hk _ (wkey_subStr start stop.toNat)]
      cases m.vocab.getID (m.subStr s start stop.toNat) with
      | some id => rfl
      | none =>
        simp only [Option.map_none]
        cases (m.subStr s start stop.toNat).getLast? with
        | some b => exact ih _
        | none => exact ih _
    · rfl

theorem tokenLoop_map (hp : m'.continuingSubwordPrefix = m.continuingSubwordPrefix)
    (hk : ∀ k, WKey m s k → m'.vocab.getID k = (m.vocab.getID k).map f) (fuel : Nat) : ∀ start : Nat,
    m'.tokenLoop s fuel start = (m.tokenLoop s fuel start).map (List.map (token f)) := by
  induction fuel with
  | zero =>
    intro start
    rw [WordPiece.tokenLoop.eq_def, WordPiece.tokenLoop.eq_def]
    simp only
    split <;> rfl
  | succ fuel ih =>
    intro start
    rw [WordPiece.tokenLoop.eq_def, WordPiece.tokenLoop.eq_def]
    simp only
    split
    · rw [findToken_map hp hk]
      cases m.findToken s start s.length s.length with
      | none => rfl
      | some t =>
        simp only [Option.map_some]
        have e : (token f t).offsets = t.offsets := rfl
        rw [e, ih]
        cases m.tokenLoop s fuel t.offsets.stop.toNat <;> rfl
    · rfl

/-- **C100, WordPiece.** Two models with the same options; the ids of the second are those of the first under any `f`, for the
strings that are looked up.  Then the tokens are the same except for the ids. -/
theorem C100_wordPiece (hu : m'.unknownToken = m.unknownToken) (hp : m'.continuingSubwordPrefix = m.continuingSubwordPrefix)
    (hx : m'.maxInputCharsPerWord = m.maxInputCharsPerWord)
    (hk : ∀ k, WKey m s k → m'.vocab.getID k = (m.vocab.getID k).map f) :
    m'.tokenize s = (m.tokenize s).map (List.map (token f)) := by
  have h1 : m'.unknown s = (m.unknown s).map (List.map (token f)) := by
    unfold WordPiece.unknown
    rw [hu, hk _ (Or.inl rfl)]
    cases m.vocab.getID m.unknownToken <;> rfl
  unfold WordPiece.tokenize
  rw [hx]
  split
  · exact h1
  · rw [tokenLoop_map hp hk]
    cases m.tokenLoop s s.length 0 with
    | none => exact h1
    | some ts => rfl

end

/-! ## What tokenizing looks at -/

/-- The ids that can arise in a word: those of the strings that are looked up, and what the merge map makes of two that arise. -/
inductive Arises (m : BPE) (s : Str) : Int → Prop
  | key {k : Str} {i : Int} : Key m s k → m.vocab.getID k = some i → Arises m s i
  | merge {a b : Int} {x : MergeValue} : Arises m s a → Arises m s b → m.merges.get a b = some x → Arises m s x.id

theorem value_id (o : Option MergeValue) : o.map (value id id) = o := by cases o <;> rfl

theorem result_id (r : Except Err (Option (List Token))) : result id r = r := by
  have h : (token id) = (id : Token → Token) := rfl
  cases r with
  | error e => cases e <;> rfl
  | ok o => cases o <;> simp [result, h]

theorem map_result_id (r : GoM (Except Err (Option (List Token)))) : result id <$> r = r := by
  cases r with
  | panic => rfl
  | ok r => rw [GoM.map_ok, result_id]

/-- **C101.** `Tokenize` of a BPE model looks at nothing but the ids of the characters (with affixes) and of the unknown token, the
merges of pairs of ids that can arise from these, and their strings: models that agree there give the same tokens. -/
theorem C101_bpe {m m' : BPE} (ho : SameOptions m m') (s : Str) (hk : ∀ k, Key m s k → m'.vocab.getID k = m.vocab.getID k)
    (hm : ∀ a b, Arises m s a → Arises m s b → m'.merges.get a b = m.merges.get a b)
    (hv : ∀ i, Arises m s i → m'.vocab.getString i = m.vocab.getString i) (rnd : Nat → Bool) :
    m'.tokenize rnd s = m.tokenize rnd s := by
  have hr : Renames id id (Arises m s) (fun _ => True) m.merges m'.merges :=
    ⟨fun _ _ _ _ h => h, fun _ _ _ _ => Iff.rfl, fun a b ha hb => by rw [value_id]; exact hm a b ha hb,
      fun a b x ha hb hx => ⟨.merge ha hb hx, trivial⟩⟩
  have := C100_bpe ho hr s (fun k h => by rw [hk k h]; simp) (fun k i h e => .key h e) hv rnd
  rw [this, map_result_id]

theorem sameOptions_refl (m : BPE) : SameOptions m m := ⟨rfl, rfl, rfl, rfl, rfl⟩

theorem addTerm_getID {v v' : Vocab} {t k : Str} (h : v.addTerm t = .ok v') (hk : k ≠ t) : v'.getID k = v.getID k := by
  unfold Vocab.addTerm at h
  split at h
  · injection h with h; rw [h]
  · split at h
    · simp at h
    · rename_i mp hmp
      injection h with h
      subst h
      simp only [Vocab.getID, Option.getD_some, hmp, GoMap.get?_set]
      rw [if_neg (fun e => hk e.symm)]

theorem addTerm_getString {v v' : Vocab} {t : Str} (h : v.addTerm t = .ok v') {i : Int} (hi : i ≠ v.size) : v'.getString i = v.getString i := by
  unfold Vocab.addTerm at h
  split at h
  · injection h with h; rw [h]
  · split at h
    · simp at h
    · injection h with h
      subst h
      simp only [Vocab.getString, GoMap.get?_set]
      rw [if_neg (fun e => hi e.symm)]

/-- **C101, adding a term** that is not looked up for a sequence does not change its tokens, if the new id is not one that arises. -/
theorem C101_addTerm (m : BPE) (s t : Str) {v' : Vocab} (h : m.vocab.addTerm t = .ok v') (ht : ¬ Key m s t) (hi : ¬ Arises m s m.vocab.size)
    (rnd : Nat → Bool) : { m with vocab := v' }.tokenize rnd s = m.tokenize rnd s :=
  C101_bpe (m' := { m with vocab := v' }) (sameOptions_refl m) s (fun _ hk => addTerm_getID h (fun e => ht (e ▸ hk))) (fun _ _ _ _ => rfl)
    (fun _ ha => addTerm_getString h (fun e => hi (e ▸ ha))) rnd

/-- **C101, adding a merge** of a pair one side of which does not arise does not change the tokens. -/
theorem C101_setMerge (m : BPE) (s : Str) (a b : Int) (x : MergeValue) (h : ¬ Arises m s a ∨ ¬ Arises m s b) (rnd : Nat → Bool) :
    { m with merges := m.merges.set a b x }.tokenize rnd s = m.tokenize rnd s := by
  refine C101_bpe (m' := { m with merges := m.merges.set a b x }) (sameOptions_refl m) s (fun _ _ => rfl) ?_ (fun _ _ => rfl) rnd
  intro c d hc hd
  show GoMap.get? (GoMap.set m.merges (a, b) x) (c, d) = GoMap.get? m.merges (c, d)
  rw [GoMap.get?_set, if_neg]
  intro e
  injection e with e1 e2
  subst e1 e2
  exact h.elim (fun h => h hc) (fun h => h hd)

/-- A merge map with other ranks. -/
def ranked (g : Int → Int) (M : MergeMap) : MergeMap := M.map fun e => (e.1, ⟨g e.2.rank, e.2.id⟩)

/-- **C101, ranks.** Changing ranks so that their order stays changes nothing. -/
theorem C101_ranks (m : BPE) (g : Int → Int) (hg : ∀ e ∈ m.merges, ∀ e' ∈ m.merges, (g e.2.rank < g e'.2.rank ↔ e.2.rank < e'.2.rank))
    (rnd : Nat → Bool) (s : Str) :
    { m with merges := ranked g m.merges }.tokenize rnd s = m.tokenize rnd s := by
  have hget : ∀ (M : MergeMap) (a b : Int), GoMap.get? (ranked g M) (a, b)
      = (GoMap.get? M (a, b)).map (value id g) := by
    intro M a b
    induction M with
    | nil => rfl
    | cons e M ih =>
      obtain ⟨k, x⟩ := e
      simp only [ranked, List.map_cons, GoMap.get?]
      split
      · rfl
      · exact ih
  have hmem : ∀ (M : MergeMap) (a b : Int) (x : MergeValue), GoMap.get? M (a, b) = some x → ∃ k, (k, x) ∈ M := by
    intro M a b x
    induction M with
    | nil => intro h; simp [GoMap.get?] at h
    | cons e M ih =>
      obtain ⟨k, y⟩ := e
      intro h
      simp only [GoMap.get?] at h
      split at h
      · injection h with h; subst h; exact ⟨k, by simp⟩
      · obtain ⟨k', hk⟩ := ih h
        exact ⟨k', by simp [hk]⟩
  let m' : BPE := { m with merges := ranked g m.merges }
  have hr : Renames id g (fun _ => True) (fun r => ∃ e ∈ m.merges, e.2.rank = r) m.merges m'.merges := by
    refine ⟨fun _ _ _ _ h => h, ?_, fun a b _ _ => hget _ _ _, ?_⟩
    · rintro _ _ ⟨e, he, rfl⟩ ⟨e', he', rfl⟩
      exact hg e he e' he'
    · intro a b x _ _ hx
      obtain ⟨k, hk⟩ := hmem _ _ _ _ hx
      exact ⟨trivial, _, hk, rfl⟩
  have := C100_bpe (m' := m') (sameOptions_refl m) hr s (fun k _ => by simp [m']) (fun _ _ _ _ => trivial) (fun _ _ => rfl) rnd
  exact this.trans (map_result_id _)

/-- **C101, WordPiece.** Only the ids of the unknown token and of the parts of the sequence (with the prefix, if not at its start)
matter; so adding any other term changes nothing. -/
theorem C101_wordPiece {m m' : WordPiece} {s : Str} (hu : m'.unknownToken = m.unknownToken)
    (hp : m'.continuingSubwordPrefix = m.continuingSubwordPrefix) (hx : m'.maxInputCharsPerWord = m.maxInputCharsPerWord)
    (hk : ∀ k, WKey m s k → m'.vocab.getID k = m.vocab.getID k) : m'.tokenize s = m.tokenize s := by
  rw [C100_wordPiece (f := id) hu hp hx (fun k h => by rw [hk k h]; simp)]
  have h : (token id) = (id : Token → Token) := rfl
  cases m.tokenize s <;> simp [Except.map, h]

theorem C101_wordPiece_addTerm (m : WordPiece) (s t : Str) {v' : Vocab} (h : m.vocab.addTerm t = .ok v') (ht : ¬ WKey m s t) :
    { m with vocab := v' }.tokenize s = m.tokenize s :=
  C101_wordPiece (m' := { m with vocab := v' }) rfl rfl rfl (fun _ hk => addTerm_getID h (fun e => ht (e ▸ hk)))

/-! ## Concrete cases -/

/-- Terms `a`, `b`, `ab` with these ids, and the merge of the first two into the third with this rank. -/
def small (a b ab rank : Int) : BPE :=
  ⟨⟨some [(b!"a", a), (b!"b", b), (b!"ab", ab)], [(a, b!"a"), (b, b!"b"), (ab, b!"ab")]⟩, [((a, b), ⟨rank, ab⟩)], ⟨0⟩, false, [], [], [], false⟩

example : (small 0 1 2 0).tokenize (fun _ => false) b!"aab" = .ok (.ok (some [⟨0, b!"a", ⟨0, 1⟩⟩, ⟨2, b!"ab", ⟨1, 3⟩⟩])) := by decide +kernel

example : (small 7 9 5 3).tokenize (fun _ => false) b!"aab" = .ok (.ok (some [⟨7, b!"a", ⟨0, 1⟩⟩, ⟨5, b!"ab", ⟨1, 3⟩⟩])) := by decide +kernel

/-- The new ids of the example. -/
example : [0, 1, 2].map (idIn (small 0 1 2 0).vocab (small 7 9 5 3).vocab) = [7, 9, 5] := by decide +kernel

/-- Two ids that become the same: renaming needs different ids. -/
example : (small 0 1 2 0).tokenize (fun _ => false) b!"ba" = .ok (.ok (some [⟨1, b!"b", ⟨0, 1⟩⟩, ⟨0, b!"a", ⟨1, 2⟩⟩]))
    ∧ (small 7 7 5 0).tokenize (fun _ => false) b!"ba" = .ok (.ok (some [⟨5, b!"ab", ⟨0, 2⟩⟩])) := by decide +kernel

/-- **C101, the condition on the new id is needed**: a vocabulary with a gap in its ids, as a JSON file can have.  `AddTerm` of a term
that does not occur in the sequence gives it an id that is in use, and the sequence `ab` is now tokenized as `zz`. -/
theorem C101_counterexample_id : ∃ v', (small 0 1 3 0).vocab.addTerm b!"zz" = .ok v'
    ∧ (small 0 1 3 0).tokenize (fun _ => false) b!"ab" = .ok (.ok (some [⟨3, b!"ab", ⟨0, 2⟩⟩]))
    ∧ { small 0 1 3 0 with vocab := v' }.tokenize (fun _ => false) b!"ab" = .ok (.ok (some [⟨3, b!"zz", ⟨0, 2⟩⟩])) :=
  ⟨⟨some [(b!"a", 0), (b!"b", 1), (b!"ab", 3), (b!"zz", 3)], [(0, b!"a"), (1, b!"b"), (3, b!"zz")]⟩, by decide +kernel⟩

/-- A WordPiece model of three terms. -/
def smallPiece (a b unk : Int) : WordPiece := ⟨⟨some [(b!"a", a), (b!"##b", b), (b!"?", unk)], []⟩, b!"?", b!"##", 100⟩

example : (smallPiece 0 1 2).tokenize b!"ab" = .ok [⟨0, b!"a", ⟨0, 1⟩⟩, ⟨1, b!"##b", ⟨1, 2⟩⟩]
    ∧ (smallPiece 5 5 4).tokenize b!"ab" = .ok [⟨5, b!"a", ⟨0, 1⟩⟩, ⟨5, b!"##b", ⟨1, 2⟩⟩] := by decide +kernel

end Verif.Rename
