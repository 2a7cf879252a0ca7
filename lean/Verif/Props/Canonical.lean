import Verif.Props.MergeAll
import Verif.Props.MergeFile
import Verif.Model.Notation

/-! Property C40: without dropout, `MergeAll` is the canonical greedy BPE. -/

set_option autoImplicit false

namespace Verif

/-! ## Hypotheses on the table -/

/-- The merged id identifies the merged text: ids can be given positive weights (lengths of
text) such that each merge adds up the weights of its parts. -/
def Additive (merges : MergeMap) : Prop :=
  ∃ wt : Int → Nat, (∀ i, 0 < wt i) ∧ ∀ a b m, merges.get a b = some m → wt m.id = wt a + wt b

/-- The merged id identifies the rank. -/
def RankById (merges : MergeMap) : Prop :=
  ∀ a b a' b' m m', merges.get a b = some m → merges.get a' b' = some m' → m.id = m'.id → m.rank = m'.rank

/-! ## The canonical strategy is deterministic -/

theorem append_pair_unique {A A' B B' : List (Int × Int)} {a b a' b' : Int × Int}
    (e : A ++ a :: b :: B = A' ++ a' :: b' :: B') (hl : A.length = A'.length) :
    A = A' ∧ a = a' ∧ b = b' ∧ B = B' := by
  obtain ⟨h1, h2⟩ := List.append_inj e hl
  simp at h2
  exact ⟨h1, h2⟩

/-- The canonical step is a function of the symbols. -/
theorem CanonStep.unique {merges : MergeMap} {l x y : List (Int × Int)} (h1 : CanonStep merges l x)
    (h2 : CanonStep merges l y) : x = y := by
  cases h1 with
  | mk A B a b m hm hbest =>
    generalize he : A ++ a :: b :: B = l at h2
    cases h2 with
    | mk A' B' a' b' m' hm' hbest' =>
      have g1 := hbest A' B' a' b' m' he hm'
      have g2 := hbest' A B a b m he.symm hm
      have hl : A.length = A'.length := by omega
      obtain ⟨rfl, rfl, rfl, rfl⟩ := append_pair_unique he hl
      rw [hm] at hm'
      simp at hm'
      subst hm'
      rfl

theorem CanonStep.mergeOne {merges : MergeMap} {l x : List (Int × Int)} (h : CanonStep merges l x) : MergeOne merges l x := by
  cases h with
  | mk A B a b m hm _ => exact .mk A B a b m hm

theorem NoPair.stop {merges : MergeMap} {l x : List (Int × Int)} (h : NoPair merges l) (hs : CanonStep merges l x) : False := by
  cases hs with
  | mk A B a b m hm _ =>
    have := h A B a b rfl
    rw [hm] at this
    simp at this

theorem Star.trans' {α : Type} {R : α → α → Prop} {a b c : α} (h1 : Star R a b) (h2 : Star R b c) : Star R a c := by
  induction h2 with
  | refl => exact h1
  | step _ h ih => exact .step ih h

theorem Star.head_cases {α : Type} {R : α → α → Prop} {a c : α} (h : Star R a c) : a = c ∨ ∃ b, R a b ∧ Star R b c := by
  induction h with
  | refl => exact .inl rfl
  | @step b c _ hs ih =>
    right
    rcases ih with rfl | ⟨d, h1, h2⟩
    · exact ⟨c, hs, .refl _⟩
    · exact ⟨d, h1, .step h2 hs⟩

theorem star_canon_unique_aux {merges : MergeMap} {l x y : List (Int × Int)} (h1 : Star (CanonStep merges) l x)
    (nx : NoPair merges x) (h2 : Star (CanonStep merges) l y) : Star (CanonStep merges) y x := by
  induction h2 with
  | refl => exact h1
  | step _ hs ih =>
    rcases ih.head_cases with rfl | ⟨d, hd, hr⟩
    · exact (nx.stop hs).elim
    · rw [hs.unique hd]; exact hr

/-- Only one list of symbols is reached by the canonical strategy and has no pair left. -/
theorem C40_unique {merges : MergeMap} {l x y : List (Int × Int)}
    (h1 : Star (CanonStep merges) l x) (nx : NoPair merges x)
    (h2 : Star (CanonStep merges) l y) (ny : NoPair merges y) : x = y := by
  rcases (star_canon_unique_aux h1 nx h2).head_cases with rfl | ⟨d, hd, -⟩
  · rfl
  · exact (ny.stop hd).elim

/-! ## Each executed entry is the canonical one -/

theorem canon_of_top {merges : MergeMap} {q : List WordMerge} {A B : List Sym} {s t : Sym} {top : WordMerge} {m : MergeValue}
    (hsort : (A ++ s :: t :: B).Pairwise fun a b => a.pos < b.pos)
    (hc : Complete merges q (A ++ s :: t :: B)) (hle : ∀ y ∈ q, top.Le y)
    (hl : Live merges (A ++ s :: t :: B) A s t B top m) (hr : m.rank = top.value.rank) :
    CanonStep merges ((A ++ s :: t :: B).map fun s => (s.id, s.len))
      ((A ++ mergedSym s t top.value.id :: B).map fun s => (s.id, s.len)) := by
  obtain ⟨-, hpos, hm, hid⟩ := hl
  have := CanonStep.mk (merges := merges) (A.map fun s => (s.id, s.len)) (B.map fun s => (s.id, s.len))
    (s.id, s.len) (t.id, t.len) m hm ?_
  · simpa [mergedSym, hid] using this
  · intro A' B' a' b' m' e hm'
    have e' : (A ++ s :: t :: B).map (fun s => (s.id, s.len)) = A' ++ a' :: b' :: B' := by simpa using e
    obtain ⟨A2, s2, t2, B2, e2, rfl, rfl, rfl, rfl⟩ := map_pairs_split e'
    have hq := hle _ (hc A2 s2 t2 B2 m' e2 hm')
    unfold WordMerge.Le at hq
    simp only at hq
    rw [← hr, hpos] at hq
    rcases hq with hq | ⟨hq1, hq2⟩
    · exact .inl hq
    · refine .inr ⟨hq1, ?_⟩
      simp only [List.length_map]
      apply Classical.byContradiction
      intro hlt
      -- `s2` is before `s`
      have h2 : s2 ∈ A := by
        have g : (A ++ s :: t :: B)[A2.length]? = some s2 := by rw [e2]; simp
        rw [List.getElem?_append_left (by omega)] at g
        exact List.mem_of_getElem? g
      rw [List.pairwise_append] at hsort
      have := hsort.2.2 s2 h2 s (by simp)
      omega

/-- Every entry comes from the table. -/
def FromTable (merges : MergeMap) (q : List WordMerge) : Prop :=
  ∀ e ∈ q, ∃ a b, merges.get a b = some e.value

/-- Every entry at a present symbol with a successor is either exactly the value of that pair
or is about less text than the pair covers. -/
def Shorter (merges : MergeMap) (wt : Int → Nat) (q : List WordMerge) (L : List Sym) : Prop :=
  ∀ e ∈ q, ∀ A s t B, L = A ++ s :: t :: B → e.pos = (s.pos : Int) →
    merges.get s.id t.id = some e.value ∨ wt e.value.id < wt s.id + wt t.id

theorem fromTable_step {merges : MergeMap} {rnd : Nat → Bool} {n : Nat} {st st' : Word.MState} {L L' : List Sym}
    (hg : Good n false st L) (hk : StepKind merges false rnd st st' L L') (hf : FromTable merges st.queue) :
    FromTable merges st'.queue := by
  have hskip := hg.noSkip rfl
  cases hk with
  | drop top rest h1 => simp at h1
  | stale top rest h1 h3 h4 h5 h6 h7 =>
    intro e he
    rw [hskip] at h6
    have := h6.mem_iff.1 he
    exact hf e (h3.mem_iff.2 (by simp at this; simp [this]))
  | merge top rest A s t B m h1 h3 h4 h5 h6 h7 =>
    intro e he
    rw [hskip] at h6
    rcases List.mem_append.1 (h6.mem_iff.1 he) with h | h
    · rcases newEntries_mem h with ⟨A', x, m', -, hm', rfl⟩ | ⟨y, B', m', -, hm', rfl⟩
      · exact ⟨_, _, hm'⟩
      · exact ⟨_, _, hm'⟩
    · exact hf e (h3.mem_iff.2 (by simp at h; simp [h]))

theorem shorter_step {merges : MergeMap} {wt : Int → Nat} (hw : ∀ i, 0 < wt i)
    (ha : ∀ a b m, merges.get a b = some m → wt m.id = wt a + wt b)
    {rnd : Nat → Bool} {n : Nat} {st st' : Word.MState} {L L' : List Sym}
    (hg : Good n false st L) (hg' : Good n false st' L') (hk : StepKind merges false rnd st st' L L')
    (hf : Shorter merges wt st.queue L) : Shorter merges wt st'.queue L' := by
  have hskip := hg.noSkip rfl
  have hsort' := hg'.holds.sorted
  cases hk with
  | drop top rest h1 => simp at h1
  | stale top rest h1 h3 h4 h5 h6 h7 =>
    intro e he
    rw [hskip] at h6
    have := h6.mem_iff.1 he
    exact hf e (h3.mem_iff.2 (by simp at this; simp [this]))
  | merge top rest A s t B m h1 h3 h4 h5 h6 h7 =>
    obtain ⟨rfl, hpos, hm, hid⟩ := h5
    have hwc : wt top.value.id = wt s.id + wt t.id := by rw [← hid]; exact ha _ _ _ hm
    intro e he A' x y B' e1 hp
    rw [hskip] at h6
    rcases List.mem_append.1 (h6.mem_iff.1 he) with h | h
    · left
      rcases newEntries_mem h with ⟨A2, x2, m2, rfl, hm2, rfl⟩ | ⟨y2, B2, m2, rfl, hm2, rfl⟩
      · -- the entry with the previous symbol
        simp only [List.append_assoc, List.singleton_append] at e1 hsort'
        obtain ⟨rfl, rfl, hr⟩ := sorted_pos_inj hsort' e1 (by simp only at hp; omega)
        simp at hr
        rw [← hr.1]
        exact hm2
      · obtain ⟨rfl, rfl, hr⟩ := sorted_pos_inj hsort' e1 (by simp only at hp; omega)
        simp at hr
        rw [← hr.1]
        exact hm2
    · have hq : e ∈ st.queue := h3.mem_iff.2 (by simp at h; simp [h])
      rcases pair_after_merge e1 with ⟨A'', rfl, rfl, rfl, rfl⟩ | ⟨rfl, rfl, rfl⟩ | ⟨C, rfl, rfl⟩ | ⟨C, rfl, rfl⟩
      · right
        have hwt := hw t.id
        have := hf e hq A' x s (t :: B') (by simp) hp
        show wt e.value.id < wt x.id + wt top.value.id
        rcases this with g | g
        · have := ha _ _ _ g; omega
        · omega
      · right
        have hwy := hw y.id
        have := hf e hq A' s t (y :: B') (by simp) hp
        show wt e.value.id < wt top.value.id + wt y.id
        rcases this with g | g
        · have := ha _ _ _ g; omega
        · omega
      · exact hf e hq A' x y (C ++ s :: t :: B) (by simp) hp
      · exact hf e hq (A ++ s :: t :: C) x y B' (by simp) hp

theorem start_fromTable (merges : MergeMap) {l : List (Int × Int)} (hp : Positive l) :
    FromTable merges (startState merges l).queue := by
  intro e he
  obtain ⟨A, s, t, B, m, -, hm, rfl⟩ := pairEntries_mem.1 ((start_good merges false hp).2.mem_iff.1 he)
  exact ⟨_, _, hm⟩

theorem start_shorter (merges : MergeMap) (wt : Int → Nat) {l : List (Int × Int)} (hp : Positive l) :
    Shorter merges wt (startState merges l).queue (symsFrom 0 l) := by
  intro e he A s t B e1 hpos
  obtain ⟨A', s', t', B', m, e2, hm, rfl⟩ := pairEntries_mem.1 ((start_good merges false hp).2.mem_iff.1 he)
  have hs := symsFrom_sorted 0 l
  rw [e2] at hs
  obtain ⟨-, rfl, hr⟩ := sorted_pos_inj hs (e2.symm.trans e1) (by simp only at hpos; omega)
  simp at hr
  rw [← hr.1]
  exact .inl hm

theorem canon_step {merges : MergeMap} {rnd : Nat → Bool} {n : Nat} {st st' : Word.MState} {L L' : List Sym}
    {l : List (Int × Int)} (hg : Good n false st L) (hk : StepKind merges false rnd st st' L L')
    (hc : Complete merges st.queue L) (hs : Star (CanonStep merges) l (L.map fun s => (s.id, s.len)))
    (hr : ∀ top ∈ st.queue, ∀ A s t B m, Live merges L A s t B top m → m.rank = top.value.rank) :
    Star (CanonStep merges) l (L'.map fun s => (s.id, s.len)) := by
  cases hk with
  | drop => exact hs
  | stale => exact hs
  | merge top rest A s t B m h1 h3 h4 h5 h6 h7 =>
    have hl := h5
    have := hr top (h3.mem_iff.2 (by simp)) A s t B m hl
    obtain ⟨rfl, -, -, -⟩ := h5
    exact .step hs (canon_of_top hg.holds.sorted hc h4 hl this)

/-! ## The theorems -/

/-- **C40.** Without dropout, for every table whose merged ids identify the merged text,
`MergeAll` performs the merges of the canonical strategy (lowest rank, then leftmost) until no
pair is left. -/
theorem C40_canonical (merges : MergeMap) (ha : Additive merges) (rnd : Nat → Bool) (l : List (Int × Int))
    (hp : Positive l) {w' : Word} (h : (built l).mergeAll merges false rnd = .ok (some w')) :
    Star (CanonStep merges) l (visible w') ∧ NoPair merges (visible w') := by
  refine ⟨?_, C41_no_pair_left merges rnd l hp h⟩
  obtain ⟨wt, hw, ha⟩ := ha
  obtain ⟨w'', st', L', h1, h2, -, -, h3, -⟩ := mergeAll_rule
    (P := fun st L => Complete merges st.queue L ∧ Shorter merges wt st.queue L
      ∧ Star (CanonStep merges) l (L.map fun s => (s.id, s.len)))
    (d := false) (rnd := rnd) (merges := merges) hp
    ⟨complete_start merges hp, start_shorter merges wt hp, by rw [symsFrom_pairs]; exact .refl _⟩
    (by
      rintro st st' L L' hg hg' hk ⟨hc, hs, hr⟩
      refine ⟨complete_step hg hk hc, shorter_step hw ha hg hg' hk hs, canon_step hg hk hc hr ?_⟩
      rintro top ht A s t B m ⟨e, hpos, hm, hid⟩
      rcases hs top ht A s t B e hpos with g | g
      · rw [hm] at g; simp at g; rw [g]
      · have := ha _ _ _ hm; rw [hid] at this; omega)
  rw [h] at h1
  simp at h1; subst h1
  rw [h2]
  exact h3.2.2

/-- **C40, by rank.** The same for every table in which pairs merging to the same id have the
same rank. -/
theorem C40_canonical_rank (merges : MergeMap) (ha : RankById merges) (rnd : Nat → Bool) (l : List (Int × Int))
    (hp : Positive l) {w' : Word} (h : (built l).mergeAll merges false rnd = .ok (some w')) :
    Star (CanonStep merges) l (visible w') ∧ NoPair merges (visible w') := by
  refine ⟨?_, C41_no_pair_left merges rnd l hp h⟩
  obtain ⟨w'', st', L', h1, h2, -, -, h3, -⟩ := mergeAll_rule
    (P := fun st L => Complete merges st.queue L ∧ FromTable merges st.queue
      ∧ Star (CanonStep merges) l (L.map fun s => (s.id, s.len)))
    (d := false) (rnd := rnd) (merges := merges) hp
    ⟨complete_start merges hp, start_fromTable merges hp, by rw [symsFrom_pairs]; exact .refl _⟩
    (by
      rintro st st' L L' hg hg' hk ⟨hc, hs, hr⟩
      refine ⟨complete_step hg hk hc, fromTable_step hg hk hs, canon_step hg hk hc hr ?_⟩
      rintro top ht A s t B m ⟨e, hpos, hm, hid⟩
      obtain ⟨a, b, hab⟩ := hs top ht
      exact ha _ _ _ _ _ _ hm hab hid)
  rw [h] at h1
  simp at h1; subst h1
  rw [h2]
  exact h3.2.2

/-- Text lengths as weights. -/
def termWeight (v : Vocab) (i : Int) : Nat := match v.getString i with
  | some t => if t.length = 0 then 1 else t.length
  | none => 1

theorem readsTo_mem {vocab : Vocab} {p : Nat} {ls : List Str} {ps : List ((Int × Int) × Int)}
    (h : ReadsTo vocab p ls ps) {a b c : Int} (hm : ((a, b), c) ∈ ps) : ∃ line, MergeLine vocab p line a b c := by
  induction h with
  | nil => simp at hm
  | version _ _ ih => exact ih hm
  | merge _ hl _ ih =>
    rcases List.mem_cons.1 hm with e | hm
    · simp at e
      obtain ⟨⟨rfl, rfl⟩, rfl⟩ := e
      exact ⟨_, hl⟩
    · exact ih hm

/-- **C40, from files.** A table read from a merges file without a prefix, on a one-to-one
vocabulary with no empty term, always satisfies the hypothesis of `C40_canonical`. -/
theorem C40_file (content : Str) (v : Vocab) (hv : v.Inverse) (he : v.getID [] = none) {merges : MergeMap}
    (h : mergeMapFromFile content v 0 = .ok (.ok merges)) : Additive merges := by
  rcases C51_read_partial content v 0 (fun _ _ => by omega) with ⟨m, ps, h1, h2, -, h3⟩ | ⟨_, _, _, _, _, h1, -⟩ | ⟨_, h1, -⟩
  · simp only [Int.natCast_zero] at h1
    rw [h] at h1
    simp at h1; subst h1
    refine ⟨termWeight v, ?_, ?_⟩
    · intro i
      unfold termWeight
      split
      · split <;> omega
      · omega
    · intro a b m hm
      obtain ⟨i, hl, -⟩ := (h3 a b m).1 hm
      obtain ⟨line, t0, t1, -, -, g0, g1, g2⟩ := readsTo_mem h2 (List.mem_of_getElem? hl.1)
      have n0 : t0 ≠ [] := by rintro rfl; rw [he] at g0; simp at g0
      have n1 : t1 ≠ [] := by rintro rfl; rw [he] at g1; simp at g1
      have l0 := List.length_pos_iff.2 n0
      have l1 := List.length_pos_iff.2 n1
      simp only [List.drop_zero] at g2
      unfold termWeight
      rw [(hv _ _).1 g0, (hv _ _).1 g1, (hv _ _).1 g2]
      simp only [List.length_append]
      rw [if_neg (by omega), if_neg (by omega), if_neg (by omega)]
  · simp only [Int.natCast_zero] at h1
    rw [h] at h1
    simp at h1
  · simp only [Int.natCast_zero] at h1
    rw [h] at h1
    simp at h1

/-- **C40, why a hypothesis is needed.** Ids 0 to 4 are A to E.  The table merges A B and A D
to the same id with different ranks.  The queue entry of the gone pair A B (rank 5) is then
taken for the pair A D (rank 7), ahead of D E (rank 6). -/
theorem C40_counterexample :
    let merges : MergeMap := [((0, 1), ⟨5, 5⟩), ((1, 2), ⟨3, 3⟩), ((0, 3), ⟨7, 5⟩), ((3, 4), ⟨6, 6⟩)]
    let l : List (Int × Int) := [(0, 1), (1, 1), (2, 1), (4, 1)]
    ((built l).mergeAll merges false (fun _ => false)
        = .ok (some [⟨5, 3, -1, 3⟩, ⟨4, 1, 0, -1⟩]))
    ∧ Star (CanonStep merges) l [(0, 1), (6, 3)] ∧ NoPair merges [(0, 1), (6, 3)] := by
  refine ⟨by decide +kernel, ?_, ?_⟩
  · have split3 : ∀ {A' B' : List (Int × Int)} {a b c a' b' : Int × Int}, [a, b, c] = A' ++ a' :: b' :: B' →
        (a' = a ∧ b' = b ∧ A'.length = 0) ∨ (a' = b ∧ b' = c ∧ A'.length = 1) := by
      intro A' B' a b c a' b' e
      rcases A' with _ | ⟨x, _ | ⟨y, A'⟩⟩
      · simp at e; simp [e]
      · simp at e; simp [e]
      · have := congrArg List.length e; simp at this; omega
    refine .step (b := [(0, 1), (3, 2), (4, 1)]) (.step (.refl _) ?_) ?_
    · refine CanonStep.mk [(0, 1)] [(4, 1)] (1, 1) (2, 1) ⟨3, 3⟩ (by decide +kernel) ?_
      intro A' B' a' b' m' e hm
      rcases A' with _ | ⟨x, A'⟩
      · simp at e
        obtain ⟨rfl, rfl, -⟩ := e
        have : m' = ⟨5, 5⟩ := by
          have h : MergeMap.get [((0, 1), ⟨5, 5⟩), ((1, 2), ⟨3, 3⟩), ((0, 3), ⟨7, 5⟩), ((3, 4), ⟨6, 6⟩)] 0 1 = some ⟨5, 5⟩ := by
            decide +kernel
          simp_all
        subst this; left; decide
      · simp only [List.cons_append, List.nil_append, List.cons.injEq] at e
        obtain ⟨-, e⟩ := e
        rcases split3 e with ⟨rfl, rfl, hl⟩ | ⟨rfl, rfl, hl⟩
        · right
          have : m' = ⟨3, 3⟩ := by
            have h : MergeMap.get [((0, 1), ⟨5, 5⟩), ((1, 2), ⟨3, 3⟩), ((0, 3), ⟨7, 5⟩), ((3, 4), ⟨6, 6⟩)] 1 2 = some ⟨3, 3⟩ := by
              decide +kernel
            simp_all
          subst this; simp
        · exfalso
          have h : MergeMap.get [((0, 1), ⟨5, 5⟩), ((1, 2), ⟨3, 3⟩), ((0, 3), ⟨7, 5⟩), ((3, 4), ⟨6, 6⟩)] 2 4 = none := by
            decide +kernel
          simp_all
    · refine CanonStep.mk [(0, 1)] [] (3, 2) (4, 1) ⟨6, 6⟩ (by decide +kernel) ?_
      intro A' B' a' b' m' e hm
      simp only [List.cons_append, List.nil_append] at e
      rcases split3 e with ⟨rfl, rfl, hl⟩ | ⟨rfl, rfl, hl⟩
      · have : m' = ⟨7, 5⟩ := by
          have h : MergeMap.get [((0, 1), ⟨5, 5⟩), ((1, 2), ⟨3, 3⟩), ((0, 3), ⟨7, 5⟩), ((3, 4), ⟨6, 6⟩)] 0 3 = some ⟨7, 5⟩ := by
            decide +kernel
          simp_all
        subst this; left; decide
      · right
        have : m' = ⟨6, 6⟩ := by
          have h : MergeMap.get [((0, 1), ⟨5, 5⟩), ((1, 2), ⟨3, 3⟩), ((0, 3), ⟨7, 5⟩), ((3, 4), ⟨6, 6⟩)] 3 4 = some ⟨6, 6⟩ := by
            decide +kernel
          simp_all
        subst this; simp [hl]
  · intro A B a b e
    rcases A with _ | ⟨x, A⟩
    · simp at e
      obtain ⟨rfl, rfl, -⟩ := e
      decide +kernel
    · have := congrArg List.length e
      simp at this
      omega

/-- Non-vacuity: "hug" on the table h u (rank 1), u g (rank 0) and h ug (rank 2). -/
example : (built [(0, 1), (1, 1), (2, 1)]).mergeAll [((0, 1), ⟨1, 3⟩), ((1, 2), ⟨0, 4⟩), ((0, 4), ⟨2, 5⟩)] false (fun _ => false)
    = .ok (some [⟨5, 3, -1, -1⟩]) := by decide +kernel

/-- Non-vacuity: that table is additive. -/
example : Additive [((0, 1), ⟨1, 3⟩), ((1, 2), ⟨0, 4⟩), ((0, 4), ⟨2, 5⟩)] := by
  refine ⟨fun i => if i = 3 ∨ i = 4 then 2 else if i = 5 then 3 else 1, ?_, ?_⟩
  · intro i; simp only; split <;> (try split) <;> omega
  · intro a b m hm
    simp only [MergeMap.get, GoMap.get?] at hm
    by_cases h1 : a = 0 ∧ b = 1
    · obtain ⟨rfl, rfl⟩ := h1; simp at hm; subst hm; decide
    · by_cases h2 : a = 1 ∧ b = 2
      · obtain ⟨rfl, rfl⟩ := h2; simp at hm; subst hm; decide
      · by_cases h3 : a = 0 ∧ b = 4
        · obtain ⟨rfl, rfl⟩ := h3; simp at hm; subst hm; decide
        · simp at hm
          grind

end Verif
