import Verif.Lemmas.Go
import Verif.Props.Heap
import Verif.Model.Word

/-! The linked list inside a `Word` and what one iteration of `MergeAll` does to it. -/

set_option autoImplicit false

namespace Verif

/-- A symbol that is still part of the word: its index, id and length. -/
structure Sym where
  pos : Nat
  id : Int
  len : Int
deriving DecidableEq, Repr

def headPos : List Sym → Int → Int
  | [], nx => nx
  | s :: _, _ => s.pos

def lastPos : Int → List Sym → Int
  | p, [] => p
  | _, s :: r => lastPos s.pos r

/-- The symbols `L` are stored in `w` at their positions and linked to each other; `p` and
`nx` are what the ends point to. -/
def Seg (w : Word) : Int → List Sym → Int → Prop
  | _, [], _ => True
  | p, s :: r, nx => w[s.pos]? = some ⟨s.id, s.len, p, headPos r nx⟩ ∧ Seg w s.pos r nx

theorem seg_append {w : Word} {p nx : Int} {A R : List Sym} :
    Seg w p (A ++ R) nx ↔ Seg w p A (headPos R nx) ∧ Seg w (lastPos p A) R nx := by
  induction A generalizing p with
  | nil => simp [Seg, lastPos]
  | cons s A ih =>
    simp only [List.cons_append, Seg, ih, lastPos]
    have : headPos (A ++ R) nx = headPos A (headPos R nx) := by cases A <;> rfl
    rw [this, and_assoc]

theorem seg_congr {w w' : Word} {p nx : Int} {L : List Sym} (h : ∀ s ∈ L, w'[s.pos]? = w[s.pos]?)
    (hs : Seg w p L nx) : Seg w' p L nx := by
  induction L generalizing p with
  | nil => trivial
  | cons s L ih =>
    exact ⟨by rw [h s (by simp)]; exact hs.1, ih (fun x hx => h x (by simp [hx])) hs.2⟩

theorem lastPos_append (p : Int) (A : List Sym) (s : Sym) : lastPos p (A ++ [s]) = s.pos := by
  induction A generalizing p with
  | nil => rfl
  | cons a A ih => exact ih _

/-- `w` holds exactly the symbols `L`, in order; all other positions are removed ones. -/
structure Holds (w : Word) (L : List Sym) : Prop where
  seg : Seg w (-1) L (-1)
  sorted : L.Pairwise fun a b => a.pos < b.pos
  bound : ∀ s ∈ L, s.pos < w.length
  positive : ∀ s ∈ L, 0 < s.len
  dead : ∀ i, i < w.length → (∀ s ∈ L, s.pos ≠ i) → ∃ x, w[i]? = some x ∧ x.length = 0

theorem goIndex_some {α : Type} {l : List α} {k : Nat} {a : α} (h : l[k]? = some a) :
    goIndex l (k : Int) = .ok a := by
  unfold goIndex
  rw [if_pos (by omega), Int.toNat_natCast, h]

/-- What the queue gains when `c` appears between `A` and `B`. -/
def newEntries (merges : MergeMap) (A : List Sym) (c : Sym) (B : List Sym) : List WordMerge :=
  (match A.getLast? with
    | none => []
    | some a => match merges.get a.id c.id with
      | some m => [⟨m, a.pos⟩]
      | none => [])
  ++ (match B.head? with
    | none => []
    | some b => match merges.get c.id b.id with
      | some m => [⟨m, c.pos⟩]
      | none => [])

theorem newEntries_length (merges : MergeMap) (A : List Sym) (c : Sym) (B : List Sym) :
    (newEntries merges A c B).length ≤ 2 := by
  unfold newEntries
  rw [List.length_append]
  have h1 : ∀ (o : Option Sym), (match o with
    | none => ([] : List WordMerge)
    | some a => match merges.get a.id c.id with
      | some m => [⟨m, a.pos⟩]
      | none => []).length ≤ 1 := by
    intro o
    cases o with
    | none => simp
    | some a => simp only; split <;> simp
  have h2 : ∀ (o : Option Sym), (match o with
    | none => ([] : List WordMerge)
    | some b => match merges.get c.id b.id with
      | some m => [⟨m, c.pos⟩]
      | none => []).length ≤ 1 := by
    intro o
    cases o with
    | none => simp
    | some a => simp only; split <;> simp
  have := h1 A.getLast?
  have := h2 B.head?
  omega

/-- The entry of the queue matches a present adjacent pair and will be executed. -/
def Live (merges : MergeMap) (L A : List Sym) (s t : Sym) (B : List Sym) (top : WordMerge) (m : MergeValue) : Prop :=
  L = A ++ s :: t :: B ∧ top.pos = s.pos ∧ merges.get s.id t.id = some m ∧ m.id = top.value.id

/-- The symbol resulting from a merge. -/
def mergedSym (s t : Sym) (id : Int) : Sym := ⟨s.pos, id, s.len + t.len⟩

theorem foldl_push_snoc (q : WMHeap) (xs ys : List WordMerge) :
    (xs ++ ys).foldl (fun q x => WMHeap.push q x) q = ys.foldl (fun q x => WMHeap.push q x) (xs.foldl (fun q x => WMHeap.push q x) q) := by
  rw [List.foldl_append]

theorem setAt_nat (w : Word) (k : Nat) (x : WordSymbol) : w.setAt (k : Int) x = w.set k x := by
  unfold Word.setAt
  rw [Int.toNat_natCast]

theorem headPos_cons (s : Sym) (r : List Sym) (nx : Int) : headPos (s :: r) nx = s.pos := rfl

theorem relink_some {w : Word} {right : WordSymbol} {pos : Int} {k : Nat} {x : WordSymbol}
    (hn : right.next = (k : Int)) (h : w[k]? = some x) :
    Word.relink w right pos = .ok (w.set k { x with prev := pos }) := by
  have hk := (List.getElem?_eq_some_iff.1 h).1
  unfold Word.relink
  rw [hn, if_pos ⟨by simp [WordSymbol.hasNext, hn], by omega⟩, goIndex_some h]
  simp [setAt_nat]

theorem process_live {merges : MergeMap} {w : Word} {A B : List Sym} {s t : Sym} {top : WordMerge} {m : MergeValue}
    {q : WMHeap} (h : Holds w (A ++ s :: t :: B)) (hl : Live merges (A ++ s :: t :: B) A s t B top m) :
    ∃ w', Word.process merges w q top
        = .ok (w', (newEntries merges A (mergedSym s t top.value.id) B).foldl (fun q x => WMHeap.push q x) q)
      ∧ Holds w' (A ++ mergedSym s t top.value.id :: B) ∧ w'.length = w.length := by
  obtain ⟨-, hpos, hm, hid⟩ := hl
  obtain ⟨hseg, hsort, hb, hp, hd⟩ := h
  rw [seg_append] at hseg
  obtain ⟨hA, hs, ht, hB⟩ := hseg
  have hsort' := hsort
  rw [List.pairwise_append] at hsort
  obtain ⟨sA, sR, sAR⟩ := hsort
  rw [List.pairwise_cons] at sR
  obtain ⟨ss, sR⟩ := sR
  rw [List.pairwise_cons] at sR
  obtain ⟨st, sB⟩ := sR
  have hst := ss t (by simp)
  have hsl := hb s (by simp)
  have htl := hb t (by simp)
  simp only [headPos_cons] at hs hA
  -- the intermediate words
  let c : WordSymbol := ⟨top.value.id, s.len + t.len, lastPos (-1) A, headPos B (-1)⟩
  let w1 : Word := w.set s.pos c
  let w2 : Word := w1.set t.pos ⟨t.id, 0, s.pos, headPos B (-1)⟩
  have e1 : w1[t.pos]? = some ⟨t.id, t.len, s.pos, headPos B (-1)⟩ := by
    show (w.set s.pos c)[t.pos]? = _
    rw [List.getElem?_set_ne (by omega)]
    exact ht
  have l2 : w2.length = w.length := by simp [w2, w1]
  -- the new previous symbol of `B`
  obtain ⟨w3, hw3, l3, g3, g3'⟩ : ∃ w3 : Word,
      Word.relink w2 ⟨t.id, 0, s.pos, headPos B (-1)⟩ s.pos = GoM.ok w3
      ∧ w3.length = w.length
      ∧ Seg w3 s.pos B (-1)
      ∧ ∀ i, (∀ b ∈ B, b.pos ≠ i) → w3[i]? = w2[i]? := by
    cases B with
    | nil => exact ⟨w2, by simp [Word.relink, headPos, WordSymbol.hasNext], l2, trivial, fun _ _ => rfl⟩
    | cons b B =>
      have hbl := hb b (by simp)
      have hsb := ss b (by simp)
      have htb := st b (by simp)
      have e2 : w2[b.pos]? = some ⟨b.id, b.len, t.pos, headPos B (-1)⟩ := by
        show ((w.set s.pos c).set t.pos _)[b.pos]? = _
        rw [List.getElem?_set_ne (by omega), List.getElem?_set_ne (by omega)]
        exact hB.1
      refine ⟨w2.set b.pos ⟨b.id, b.len, s.pos, headPos B (-1)⟩, relink_some rfl e2, by simp [l2], ?_, ?_⟩
      · refine ⟨by rw [List.getElem?_set_self (by omega)], ?_⟩
        apply seg_congr (w := w) _ hB.2
        intro x hx
        rw [List.pairwise_cons] at sB
        have := sB.1 x hx
        show (((w.set s.pos c).set t.pos _).set b.pos _)[x.pos]? = _
        rw [List.getElem?_set_ne (by omega), List.getElem?_set_ne (by omega), List.getElem?_set_ne (by omega)]
      · intro i hi
        rw [List.getElem?_set_ne]
        exact hi b (by simp)
  have g2 : ∀ i, i ≠ s.pos → i ≠ t.pos → w2[i]? = w[i]? := by
    intro i h1 h2
    show ((w.set s.pos c).set t.pos _)[i]? = _
    rw [List.getElem?_set_ne (by omega), List.getElem?_set_ne (by omega)]
  have notB_s : ∀ b ∈ B, b.pos ≠ s.pos := fun b hb' => by have := ss b (by simp [hb']); omega
  have notB_t : ∀ b ∈ B, b.pos ≠ t.pos := fun b hb' => by have := st b hb'; omega
  have e3 : w3[s.pos]? = some c := by
    rw [g3' s.pos notB_s]
    show ((w.set s.pos c).set t.pos _)[s.pos]? = _
    rw [List.getElem?_set_ne (by omega), List.getElem?_set_self (by omega)]
  have e3t : w3[t.pos]? = some ⟨t.id, 0, s.pos, headPos B (-1)⟩ := by
    rw [g3' t.pos notB_t]
    show (w1.set t.pos _)[t.pos]? = _
    rw [List.getElem?_set_self (by simp [w1]; omega)]
  have hsegA : Seg w3 (-1) A s.pos := by
    apply seg_congr (w := w) _ hA
    intro a ha
    have h1 := sAR a ha s (by simp)
    have h2 := sAR a ha t (by simp)
    rw [g3' a.pos (fun b hb' => by have := sAR a ha b (by simp [hb']); omega), g2 a.pos (by omega) (by omega)]
  refine ⟨w3, ?_, ?_, l3⟩
  · -- the computation
    have hi := goIndex_some hs
    have hi2 := goIndex_some ht
    have hi3 := goIndex_some e1
    have hi4 := goIndex_some e3
    unfold Word.process
    rw [hpos, hi]
    simp only [GoM.bind_ok]
    have hlen : ¬(s.len = 0 ∨ (!WordSymbol.hasNext ⟨s.id, s.len, lastPos (-1) A, (t.pos : Int)⟩) = true) := by
      have := hp s (by simp)
      simp [WordSymbol.hasNext]
      omega
    rw [if_neg hlen]
    rw [hi2]
    simp only [GoM.bind_ok, hm]
    rw [if_neg (by simp [hid])]
    simp only [WordSymbol.mergeWith]
    rw [setAt_nat, show w.set s.pos ⟨top.value.id, s.len + t.len, lastPos (-1) A, headPos B (-1)⟩ = w1 from rfl, hi3]
    simp only [GoM.bind_ok]
    rw [setAt_nat, show w1.set t.pos ⟨t.id, 0, s.pos, headPos B (-1)⟩ = w2 from rfl]
    rw [hw3]
    simp only [GoM.bind_ok]
    rw [hi4]
    simp only [GoM.bind_ok]
    have hprev : Word.pushPrev merges w3 q c = .ok ((match A.getLast? with
        | none => []
        | some a => match merges.get a.id top.value.id with
          | some m => [(⟨m, a.pos⟩ : WordMerge)]
          | none => []).foldl (fun q x => WMHeap.push q x) q) := by
      rcases List.eq_nil_or_concat A with rfl | ⟨A', a, rfl⟩
      · simp [Word.pushPrev, c, lastPos, WordSymbol.hasPrev]
      · rw [List.concat_eq_append] at hsegA ⊢
        rw [seg_append] at hsegA
        have hg := goIndex_some hsegA.2.1
        have hc : c.prev = (a.pos : Int) := by show lastPos (-1) (A'.concat a) = _; rw [List.concat_eq_append, lastPos_append]
        have hc' : c.hasPrev = true := by simp [WordSymbol.hasPrev, hc]
        unfold Word.pushPrev
        rw [if_pos hc', hc, hg]
        simp only [GoM.bind_ok, List.getLast?_append, List.getLast?_singleton, Option.some_or]
        show (match merges.get a.id top.value.id with
          | some m => pure (q.push ⟨m, a.pos⟩)
          | none => pure q) = _
        cases merges.get a.id top.value.id <;> rfl
    have hnext : ∀ q : WMHeap, Word.pushNext merges w3 q c s.pos = .ok ((match B.head? with
        | none => []
        | some b => match merges.get top.value.id b.id with
          | some m => [(⟨m, s.pos⟩ : WordMerge)]
          | none => []).foldl (fun q x => WMHeap.push q x) q) := by
      intro q
      cases B with
      | nil => simp [Word.pushNext, c, headPos, WordSymbol.hasNext]
      | cons b B =>
        have hg := goIndex_some g3.1
        have hc : c.next = (b.pos : Int) := rfl
        have hc' : c.hasNext = true := by simp [WordSymbol.hasNext, hc]
        have := hb b (by simp)
        unfold Word.pushNext
        rw [if_pos ⟨hc', by rw [hc, l3]; omega⟩, hc, hg]
        simp only [GoM.bind_ok, List.head?_cons]
        show (match merges.get top.value.id b.id with
          | some m => pure (q.push ⟨m, s.pos⟩)
          | none => pure q) = _
        cases merges.get top.value.id b.id <;> rfl
    rw [hprev]
    simp only [GoM.bind_ok]
    rw [hnext]
    simp only [GoM.bind_ok, GoM.pure_eq, newEntries, mergedSym, List.foldl_append]
  · refine ⟨?_, ?_, ?_, ?_, ?_⟩
    · rw [seg_append]
      exact ⟨hsegA, e3, g3⟩
    · rw [List.pairwise_append, List.pairwise_cons]
      refine ⟨sA, ⟨fun b hb' => ss b (by simp [hb']), sB⟩, ?_⟩
      intro a ha b hb'
      rcases List.mem_cons.1 hb' with rfl | hb'
      · exact sAR a ha s (by simp)
      · exact sAR a ha b (by simp [hb'])
    · intro x hx
      rw [l3]
      simp only [List.mem_append, List.mem_cons] at hx
      rcases hx with hx | rfl | hx
      · exact hb x (by simp [hx])
      · exact hsl
      · exact hb x (by simp [hx])
    · intro x hx
      simp only [List.mem_append, List.mem_cons] at hx
      rcases hx with hx | rfl | hx
      · exact hp x (by simp [hx])
      · have := hp s (by simp)
        have := hp t (by simp)
        simp only [mergedSym]; omega
      · exact hp x (by simp [hx])
    · intro i hi hn
      rw [l3] at hi
      by_cases hit : i = t.pos
      · subst hit; exact ⟨_, e3t, rfl⟩
      · have hns : i ≠ s.pos := fun e => hn (mergedSym s t top.value.id) (by simp) e.symm
        obtain ⟨x, hx, hx0⟩ := hd i hi (by
          intro y hy
          simp only [List.mem_append, List.mem_cons] at hy
          rcases hy with hy | rfl | rfl | hy
          · exact hn y (by simp [hy])
          · omega
          · omega
          · exact hn y (by simp [hy]))
        refine ⟨x, ?_, hx0⟩
        rw [g3' i (fun b hb' => hn b (by simp [hb'])), g2 i hns hit]
        exact hx

/-- No present adjacent pair matches the entry. -/
def Stale (merges : MergeMap) (L : List Sym) (top : WordMerge) : Prop :=
  ∀ A s t B m, ¬Live merges L A s t B top m

theorem process_stale {merges : MergeMap} {w : Word} {L : List Sym} {top : WordMerge} {q : WMHeap} {k : Nat}
    (h : Holds w L) (hk : top.pos = (k : Int)) (hl : k < w.length) (hs : Stale merges L top) :
    Word.process merges w q top = .ok (w, q) := by
  unfold Word.process
  rw [hk]
  by_cases hm : ∃ s ∈ L, s.pos = k
  · obtain ⟨s, hs1, rfl⟩ := hm
    obtain ⟨A, R, rfl⟩ := List.append_of_mem hs1
    have hseg := h.seg
    rw [seg_append] at hseg
    have hg := hseg.2.1
    rw [goIndex_some hg]
    simp only [GoM.bind_ok]
    have hpos := h.positive s (by simp)
    cases R with
    | nil => rw [if_pos (.inr (by simp [headPos, WordSymbol.hasNext]))]; rfl
    | cons t B =>
      have ht := hseg.2.2.1
      rw [if_neg (by simp [headPos_cons, WordSymbol.hasNext]; omega)]
      simp only [headPos_cons]
      rw [goIndex_some ht]
      simp only [GoM.bind_ok]
      cases hg : merges.get s.id t.id with
      | none => rfl
      | some m =>
        simp only
        rw [if_pos]
        · rfl
        · intro e
          exact hs A s t B m ⟨rfl, hk, hg, e⟩
  · obtain ⟨x, hx, hx0⟩ := h.dead k hl (fun s hs e => hm ⟨s, hs, e⟩)
    rw [goIndex_some hx]
    simp only [GoM.bind_ok]
    rw [if_pos (.inl hx0)]
    rfl

theorem foldl_push_spec (xs : List WordMerge) {q : WMHeap} (hq : WMHeap.Inv q) :
    WMHeap.Inv (xs.foldl (fun q x => WMHeap.push q x) q)
    ∧ (xs.foldl (fun q x => WMHeap.push q x) q).Perm (xs ++ q) := by
  induction xs generalizing q with
  | nil => exact ⟨hq, List.Perm.refl _⟩
  | cons x xs ih =>
    obtain ⟨h1, h2⟩ := WMHeap.push_spec hq x
    obtain ⟨h3, h4⟩ := ih h1
    exact ⟨h3, h4.trans ((h2.append_left xs).trans List.perm_middle)⟩

/-- The entry points into the word. -/
def EntryOk (n : Nat) (e : WordMerge) : Prop := ∃ k : Nat, e.pos = (k : Int) ∧ k < n

/-- What holds at every iteration of `MergeAll`, on a word of `n` symbols of which `L` remain. -/
structure Good (n : Nat) (hasDropout : Bool) (st : Word.MState) (L : List Sym) : Prop where
  holds : Holds st.word L
  len : st.word.length = n
  inv : WMHeap.Inv st.queue
  queueOk : ∀ e ∈ st.queue, EntryOk n e
  skipOk : ∀ e ∈ st.skip, EntryOk n e
  noSkip : hasDropout = false → st.skip = []

theorem newEntries_ok {merges : MergeMap} {n : Nat} {A B : List Sym} {c : Sym}
    (hb : ∀ s ∈ A ++ c :: B, s.pos < n) : ∀ e ∈ newEntries merges A c B, EntryOk n e := by
  intro e he
  unfold newEntries at he
  rcases List.mem_append.1 he with he | he
  · cases hA : A.getLast? with
    | none => rw [hA] at he; simp at he
    | some a =>
      rw [hA] at he
      simp only at he
      have ha := List.mem_of_getLast? hA
      cases hg : merges.get a.id c.id with
      | none => rw [hg] at he; simp at he
      | some m =>
        rw [hg] at he; simp at he; subst he
        exact ⟨a.pos, rfl, hb a (by simp [ha])⟩
  · cases hB : B.head? with
    | none => rw [hB] at he; simp at he
    | some b =>
      rw [hB] at he
      simp only at he
      cases hg : merges.get c.id b.id with
      | none => rw [hg] at he; simp at he
      | some m =>
        rw [hg] at he; simp at he; subst he
        exact ⟨c.pos, rfl, hb c (by simp)⟩

/-- The three things one iteration can do. -/
inductive StepKind (merges : MergeMap) (hasDropout : Bool) (rnd : Nat → Bool) (st st' : Word.MState) (L : List Sym) :
    List Sym → Prop
  | drop (top : WordMerge) (rest : List WordMerge) : hasDropout = true → rnd st.draws = true →
      st.queue.Perm (top :: rest) → (∀ y ∈ st.queue, top.Le y) →
      st'.queue = rest → st'.skip = st.skip ++ [top] → st'.word = st.word → st'.draws = st.draws + 1 →
      StepKind merges hasDropout rnd st st' L L
  | stale (top : WordMerge) (rest : List WordMerge) : (hasDropout = true → rnd st.draws = false) →
      st.queue.Perm (top :: rest) → (∀ y ∈ st.queue, top.Le y) → Stale merges L top →
      st'.queue.Perm (st.skip ++ rest) → st'.skip = [] →
      StepKind merges hasDropout rnd st st' L L
  | merge (top : WordMerge) (rest : List WordMerge) (A : List Sym) (s t : Sym) (B : List Sym) (m : MergeValue) :
      (hasDropout = true → rnd st.draws = false) →
      st.queue.Perm (top :: rest) → (∀ y ∈ st.queue, top.Le y) → Live merges L A s t B top m →
      st'.queue.Perm (newEntries merges A (mergedSym s t top.value.id) B ++ (st.skip ++ rest)) → st'.skip = [] →
      StepKind merges hasDropout rnd st st' L (A ++ mergedSym s t top.value.id :: B)

theorem mergeStep_spec {merges : MergeMap} {hasDropout : Bool} {rnd : Nat → Bool} {n : Nat} {st : Word.MState}
    {L : List Sym} (h : Good n hasDropout st L) (hne : st.queue ≠ []) :
    ∃ st' L', Word.mergeStep merges hasDropout rnd st = .ok st' ∧ Good n hasDropout st' L'
      ∧ StepKind merges hasDropout rnd st st' L L' := by
  obtain ⟨p1, p2, p3⟩ := WMHeap.pop_spec h.inv hne
  unfold Word.mergeStep
  generalize hpop : st.queue.pop = tr at *
  obtain ⟨top, rest⟩ := tr
  simp only at p1 p2 p3 ⊢
  have topOk := h.queueOk top (p2.mem_iff.2 (by simp))
  have restOk : ∀ e ∈ rest, EntryOk n e := fun e he => h.queueOk e (p2.mem_iff.2 (by simp [he]))
  by_cases hd : hasDropout = true ∧ rnd st.draws = true
  · rw [if_pos hd]
    refine ⟨_, L, rfl, ⟨h.holds, h.len, p1, restOk, ?_, ?_⟩, .drop top rest hd.1 hd.2 p2 p3 rfl rfl rfl rfl⟩
    · intro e he
      simp only [List.mem_append, List.mem_singleton] at he
      rcases he with he | rfl
      · exact h.skipOk e he
      · exact topOk
    · intro hf; rw [hd.1] at hf; simp at hf
  · rw [if_neg hd]
    have hd' : hasDropout = true → rnd st.draws = false := by
      intro h1
      cases h2 : rnd st.draws with
      | false => rfl
      | true => exact absurd ⟨h1, h2⟩ hd
    obtain ⟨q1, q2⟩ := foldl_push_spec st.skip p1
    generalize hq : st.skip.foldl (fun q s => WMHeap.push q s) rest = q at *
    have qOk : ∀ e ∈ q, EntryOk n e := by
      intro e he
      rcases List.mem_append.1 (q2.mem_iff.1 he) with he | he
      · exact h.skipOk e he
      · exact restOk e he
    by_cases hl : ∃ A s t B m, Live merges L A s t B top m
    · obtain ⟨A, s, t, B, m, hl⟩ := hl
      obtain ⟨rfl, -⟩ := id hl
      obtain ⟨w', e, hw, hlen⟩ := process_live (q := q) h.holds hl
      rw [e]
      simp only [GoM.bind_ok, GoM.pure_eq]
      obtain ⟨r1, r2⟩ := foldl_push_spec (newEntries merges A (mergedSym s t top.value.id) B) q1
      have hlen' : w'.length = n := by rw [hlen, h.len]
      refine ⟨_, _, rfl, ⟨hw, hlen', r1, ?_, by simp, fun _ => rfl⟩,
        .merge top rest A s t B m hd' p2 p3 hl (r2.trans (q2.append_left _)) rfl⟩
      intro e he
      rcases List.mem_append.1 (r2.mem_iff.1 he) with he | he
      · exact newEntries_ok (fun x hx => by rw [← hlen']; exact hw.bound x hx) e he
      · exact qOk e he
    · have hs : Stale merges L top := fun A s t B m hx => hl ⟨A, s, t, B, m, hx⟩
      obtain ⟨k, hk, hkn⟩ := topOk
      rw [process_stale (q := q) h.holds hk (by rw [h.len]; exact hkn) hs]
      simp only [GoM.bind_ok, GoM.pure_eq]
      exact ⟨_, L, rfl, ⟨h.holds, h.len, q1, qOk, by simp, fun _ => rfl⟩,
        .stale top rest hd' p2 p3 hs q2 rfl⟩

/-! ## Termination -/

/-- Twice the symbols plus the waiting entries. -/
def potential (st : Word.MState) (L : List Sym) : Nat := 2 * L.length + st.queue.length + st.skip.length

theorem potential_step {merges : MergeMap} {hasDropout : Bool} {rnd : Nat → Bool} {st st' : Word.MState}
    {L L' : List Sym} (h : StepKind merges hasDropout rnd st st' L L') :
    (potential st' L' = potential st L ∧ st'.queue.length + 1 = st.queue.length) ∨ potential st' L' < potential st L := by
  unfold potential
  cases h with
  | drop top rest h1 h2 h3 h4 h5 h6 h7 =>
    left
    have := h3.length_eq
    rw [h5, h6]
    simp at this ⊢
    omega
  | stale top rest h1 h3 h4 h5 h6 h7 =>
    right
    have := h3.length_eq
    have := h6.length_eq
    rw [h7]
    simp at *
    omega
  | merge top rest A s t B m h1 h3 h4 h5 h6 h7 =>
    right
    have := h3.length_eq
    have := h6.length_eq
    have := newEntries_length merges A (mergedSym s t top.value.id) B
    obtain ⟨rfl, -⟩ := h5
    rw [h7]
    simp at *
    omega

/-- The general rule for the loop: an invariant `P` of the iterations holds at the end, the
queue is empty then, and the loop ends within the fuel. -/
theorem mergeLoop_rule {merges : MergeMap} {hasDropout : Bool} {rnd : Nat → Bool} {n : Nat}
    {P : Word.MState → List Sym → Prop}
    (hP : ∀ st st' L L', Good n hasDropout st L → Good n hasDropout st' L' →
      StepKind merges hasDropout rnd st st' L L' → P st L → P st' L')
    (Φ : Nat) (fuel : Nat) (st : Word.MState) (L : List Sym) (hg : Good n hasDropout st L) (h0 : P st L)
    (hΦ : potential st L ≤ Φ) (hf : potential st L * (Φ + 1) + st.queue.length ≤ fuel) :
    ∃ st' L', Word.mergeLoop merges hasDropout rnd fuel st = .ok (some st') ∧ Good n hasDropout st' L'
      ∧ P st' L' ∧ st'.queue = [] := by
  induction fuel generalizing st L with
  | zero =>
    unfold Word.mergeLoop
    have : st.queue.length = 0 := by omega
    rw [if_pos this]
    exact ⟨st, L, rfl, hg, h0, List.length_eq_zero_iff.1 this⟩
  | succ fuel ih =>
    unfold Word.mergeLoop
    by_cases hq : st.queue.length = 0
    · rw [if_pos hq]
      exact ⟨st, L, rfl, hg, h0, List.length_eq_zero_iff.1 hq⟩
    · rw [if_neg hq]
      obtain ⟨st', L', h1, h2, h3⟩ := mergeStep_spec (merges := merges) (rnd := rnd) hg (by rintro e; rw [e] at hq; simp at hq)
      rw [h1]
      simp only
      have hst := potential_step h3
      apply ih st' L' h2 (hP _ _ _ _ hg h2 h3 h0)
      · omega
      · rcases hst with ⟨e1, e2⟩ | hlt
        · rw [e1]; omega
        · have hql : st'.queue.length ≤ potential st' L' := by unfold potential; omega
          have : (potential st' L' + 1) * (Φ + 1) ≤ potential st L * (Φ + 1) := Nat.mul_le_mul_right _ hlt
          rw [Nat.add_mul] at this
          omega

end Verif
