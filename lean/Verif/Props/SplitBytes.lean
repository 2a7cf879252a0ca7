import Verif.Props.AnyBytes
import Verif.Props.MapSplit
import Verif.Props.Exact

/-! C131: cutting any bytes, with every one of the five behaviours of `Split`. -/

set_option autoImplicit false

namespace Verif

/-! ## The groups, in bytes -/

/-- Segments with the offsets that `FindMatches` gives them. -/
def laidOut : Int → List (Bool × List Chunk) → List (Int × Int × Bool × List Chunk)
  | _, [] => []
  | i, [(b, g)] => [(i, i + seen g, b, g)]
  | i, (b, g) :: x :: t => (i, i + (textOf g).length, b, g) :: laidOut (i + (textOf g).length) (x :: t)

/-- The capture of a segment. -/
def capOf (x : Int × Int × Bool × List Chunk) : Capture := ⟨⟨x.1, x.2.1⟩, x.2.2.1⟩

theorem laidOut_caps : ∀ (t : List (Bool × List Chunk)) (i : Int), (laidOut i t).map capOf = chunkCaps i t
  | [], _ => rfl
  | [_], _ => rfl
  | (b, g) :: x :: t, i => by
    simp only [laidOut, List.map_cons, chunkCaps, laidOut_caps (x :: t)]
    rfl

theorem laidOut_segs : ∀ (t : List (Bool × List Chunk)) (i : Int), (laidOut i t).map (fun x => x.2.2) = t
  | [], _ => rfl
  | [_], _ => rfl
  | (b, g) :: x :: t, i => by
    simp only [laidOut, List.map_cons, laidOut_segs (x :: t)]

theorem grp_flatten {α : Type} (m : α → Bool) {b : Behavior} (hb : b ≠ .removed) (l : List α) :
    (grp m b l).flatten = l := by
  cases b with
  | removed => exact absurd rfl hb
  | isolated => simp only [grp]; induction l <;> simp_all
  | mergedWithPrevious =>
    show (grpPrev m l).flatten = l
    induction l using grpPrev.induct (m := m) with
    | case1 => rfl
    | case2 a => rfl
    | case3 a b rest hc ih => simp only [grpPrev, hc, if_true, List.flatten_cons, ih]; rfl
    | case4 a b rest hc ih => simp only [grpPrev, hc, Bool.false_eq_true, if_false, List.flatten_cons, ih]; rfl
  | mergedWithNext =>
    show (grpNext m l).flatten = l
    induction l using grpNext.induct (m := m) with
    | case1 => rfl
    | case2 a => rfl
    | case3 a b rest hc ih => simp only [grpNext, hc, if_true, List.flatten_cons, ih]; rfl
    | case4 a b rest hc ih => simp only [grpNext, hc, Bool.false_eq_true, if_false, List.flatten_cons, ih]; rfl
  | contiguous =>
    show (grpRuns m l).flatten = l
    induction l with
    | nil => rfl
    | cons a rest ih =>
      simp only [grpRuns]
      revert ih
      rcases grpRuns m rest with _ | ⟨_ | ⟨b, g⟩, gs⟩
      · intro h; simpa using h
      · intro h; simpa using h
      · intro h
        simp only
        split <;> simpa using h

theorem laidOut_append : ∀ (t : List (Bool × List Chunk)) (x : Bool × List Chunk) (u : List (Bool × List Chunk)) (i : Int),
    ∃ h, laidOut i (t ++ x :: u) = h ++ laidOut (i + (textOf (t.flatMap (·.2))).length) (x :: u)
      ∧ h.map (fun x => x.2.2) = t ∧ (∀ y ∈ h.head?, y.1 = i)
      ∧ ∀ y ∈ h.getLast?, y.2.1 = i + (textOf (t.flatMap (·.2))).length
  | [], x, u, i => ⟨[], by simp, rfl, by simp, by simp⟩
  | (b, g) :: t, x, u, i => by
    obtain ⟨h, e1, e2, e3, e4⟩ := laidOut_append t x u (i + (textOf g).length)
    refine ⟨(i, i + (textOf g).length, b, g) :: h, ?_, by simp [e2], by simp, ?_⟩
    · have : laidOut i (((b, g) :: t) ++ x :: u)
          = (i, i + (textOf g).length, b, g) :: laidOut (i + (textOf g).length) (t ++ x :: u) := by
        cases t <;> rfl
      rw [this, e1]
      simp [Int.add_assoc]
    · intro y hy
      cases h with
      | nil =>
        have : t = [] := by cases t with
          | nil => rfl
          | cons _ _ => cases e2
        subst this
        simp at hy; subst hy; simp
      | cons z h =>
        rw [List.getLast?_cons_cons] at hy
        rw [e4 y hy]; simp [Int.add_assoc]

theorem laidOut_whole : ∀ (t : List (Bool × List Chunk)) (i : Int), t ≠ [] → (∀ x ∈ t, x.2 ≠ []) →
    (∀ y ∈ (laidOut i t).head?, y.1 = i) ∧ ∀ y ∈ (laidOut i t).getLast?, y.2.1 = i + seen (t.flatMap (·.2))
  | [], _, h, _ => absurd rfl h
  | [(b, g)], i, _, _ => by simp [laidOut]
  | (b, g) :: x :: t, i, _, hne => by
    have ih := (laidOut_whole (x :: t) (i + (textOf g).length) (by simp) (fun y hy => hne y (by simp [hy]))).2
    refine ⟨by simp [laidOut], ?_⟩
    intro y hy
    have hl : laidOut (i + (textOf g).length) (x :: t) ≠ [] := by
      intro h
      have := congrArg (List.map fun x => x.2.2) h
      rw [laidOut_segs] at this
      cases this
    simp only [laidOut] at hy
    rw [List.getLast?_cons, List.getLast?_eq_some_getLast hl] at hy
    have := ih y (by rw [List.getLast?_eq_some_getLast hl]; simpa using hy)
    rw [this]
    have hx := hne x (by simp)
    have hf : (x :: t).flatMap (·.2) ≠ [] := by simp [hx]
    obtain ⟨q, c, e⟩ : ∃ q c, (x :: t).flatMap (·.2) = q ++ [c] :=
      ⟨_, ((x :: t).flatMap (·.2)).getLast hf, (List.dropLast_concat_getLast hf).symm⟩
    rw [e, List.flatMap_cons, e, ← List.append_assoc, seen_append, seen_append]
    simp [Int.add_assoc]

theorem spanMatch_ends {g : List (Int × Int × Bool × List Chunk)} (hg : g ≠ []) {i j : Int} (h1 : ∀ y ∈ g.head?, y.1 = i)
    (h2 : ∀ y ∈ g.getLast?, y.2.1 = j) : spanMatch (g.map capOf) = ⟨⟨i, j⟩, false⟩ := by
  cases g with
  | nil => exact absurd rfl hg
  | cons a g =>
    have e1 := h1 a (by simp)
    have e2 := h2 ((a :: g).getLast (by simp)) (by rw [List.getLast?_eq_some_getLast (by simp)]; rfl)
    have e3 : ((a :: g).map capOf).getLast (by simp) = capOf ((a :: g).getLast (by simp)) := by
      rw [List.getLast_map]
    simp only [spanMatch, span, List.map_cons]
    rw [show (capOf a :: List.map capOf g).getLast (by simp) = capOf ((a :: g).getLast (by simp)) from e3]
    simp [capOf, e1, e2]

/-- Groups of segments, each taken as one segment. -/
def fused (G : List (List (Int × Int × Bool × List Chunk))) : List (Bool × List Chunk) :=
  G.map fun g => (false, g.flatMap fun x => x.2.2.2)

theorem fused_caps : ∀ (G : List (List (Int × Int × Bool × List Chunk))) (t : List (Bool × List Chunk)) (i : Int),
    G.flatten = laidOut i t → (∀ g ∈ G, g ≠ []) → (∀ x ∈ t, x.2 ≠ []) →
    G.map (fun g => spanMatch (g.map capOf)) = splitMatches .isolated (chunkCaps i (fused G)) := by
  intro G
  induction G with
  | nil => intro t i _ _ _; rfl
  | cons g G ih =>
    intro t i he hG ht
    have hg := hG g (by simp)
    have hs := congrArg (List.map fun x => x.2.2) he
    rw [laidOut_segs, List.flatten_cons, List.map_append] at hs
    have fm : ∀ l : List (Int × Int × Bool × List Chunk), (l.map fun x => x.2.2).flatMap (·.2) = l.flatMap fun x => x.2.2.2 := by
      intro l; rw [List.flatMap_map]
    cases G with
    | nil =>
      simp only [List.flatten_nil, List.map_nil, List.append_nil, List.flatten_cons] at hs he
      have htn : t ≠ [] := by
        rw [← hs]; simpa using hg
      obtain ⟨w1, w2⟩ := laidOut_whole t i htn ht
      rw [← he] at w1 w2
      rw [← hs, fm] at w2
      simp only [List.map_cons, List.map_nil, fused, spanMatch_ends hg w1 w2]
      rfl
    | cons g2 G =>
      have hg2 := hG g2 (by simp)
      obtain ⟨x, u, hu⟩ : ∃ x u, ((g2 :: G).flatten.map fun x => x.2.2) = x :: u := by
        cases g2 with
        | nil => exact absurd rfl hg2
        | cons a g2 => exact ⟨_, _, rfl⟩
      rw [hu] at hs
      obtain ⟨h, e1, e2, e3, e4⟩ := laidOut_append (g.map fun x => x.2.2) x u i
      rw [hs] at e1
      rw [e1, List.flatten_cons] at he
      have hlen : g.length = h.length := by
        have := congrArg List.length e2
        simpa using this.symm
      obtain ⟨k1, k2⟩ := List.append_inj he hlen
      subst k1
      rw [fm] at k2 e4
      have := ih (x :: u) _ k2 (fun y hy => hG y (by simp [hy])) (fun y hy => ht y (by
        rw [← hs]; simp only [List.mem_append]; exact .inr hy))
      rw [List.map_cons, this, spanMatch_ends hg e3 e4]
      rfl

/-- What becomes of a call of `Split` that removes nothing: the segments are grouped as the behaviour says. -/
theorem split_fused {ns : NS} (ht : Tidy ns) {f : Rune → Bool} (hf : f 0xFFFD = false) {b : Behavior} (hb : b ≠ .removed)
    (hne : ns.get ≠ []) :
    ∃ G, G = grp (fun x => x.2.2.1) b (laidOut 0 (chunkSegs f (chunks ns.get)))
      ∧ (firstFate (fates ns true 0 (fused G))).Of (ns.split (fromFunc f) b)
      ∧ (∀ x ∈ fused G, GoodChunks x.2 ∧ x.2 ≠ []) ∧ (fused G).flatMap (·.2) = chunks ns.get := by
  refine ⟨_, rfl, ?_⟩
  have hinf := grp_infix (fun x : Int × Int × Bool × List Chunk => x.2.2.1) b (laidOut 0 (chunkSegs f (chunks ns.get)))
  have hfl := grp_flatten (fun x : Int × Int × Bool × List Chunk => x.2.2.1) hb (laidOut 0 (chunkSegs f (chunks ns.get)))
  have hgrp : splitGroups b (chunkCaps 0 (chunkSegs f (chunks ns.get)))
      = (grp (fun x => x.2.2.1) b (laidOut 0 (chunkSegs f (chunks ns.get)))).map (List.map capOf) := by
    rw [splitGroups_grp, ← laidOut_caps, grp_map]
    rfl
  generalize grp (fun x : Int × Int × Bool × List Chunk => x.2.2.1) b (laidOut 0 (chunkSegs f (chunks ns.get))) = G at *
  have hG : ∀ g ∈ G, g ≠ [] := fun g hg => (hinf g hg).1
  have htn := chunkSegs_ne_nil f (chunks ns.get)
  have fm : (fused G).flatMap (·.2) = chunks ns.get := by
    have h1 : (fused G).flatMap (·.2) = G.flatten.flatMap fun x => x.2.2.2 := by
      unfold fused
      rw [List.flatMap_map]
      clear hfl hgrp hinf hG
      induction G with
      | nil => rfl
      | cons g G ih => simp [ih]
    rw [h1, hfl]
    have h2 := congrArg (fun l : List (Bool × List Chunk) => l.flatMap (·.2)) (laidOut_segs (chunkSegs f (chunks ns.get)) 0)
    simp only [List.flatMap_map, chunkSegs_flatten] at h2
    exact h2
  have hne2 : ∀ x ∈ fused G, x.2 ≠ [] := by
    intro x hx
    obtain ⟨g, hg, rfl⟩ := List.mem_map.1 hx
    cases hgg : g with
    | nil => exact absurd hgg (hG g hg)
    | cons a l =>
      have ha : a ∈ laidOut 0 (chunkSegs f (chunks ns.get)) := by
        rw [← hfl]; exact List.mem_flatten.2 ⟨g, hg, by rw [hgg]; simp⟩
      have := htn a.2.2 (by
        have := List.mem_map_of_mem (f := fun x : Int × Int × Bool × List Chunk => x.2.2) ha
        rwa [laidOut_segs] at this)
      simp [this]
  have hgood : ∀ x ∈ fused G, GoodChunks x.2 ∧ x.2 ≠ [] := by
    intro x hx
    refine ⟨fun c hc => ?_, hne2 x hx⟩
    refine goodChunks ns.get c ?_
    rw [← fm]
    exact List.mem_flatMap.2 ⟨x, hx, hc⟩
  refine ⟨?_, hgood, fm⟩
  have hp : fromFunc f ns.normalized = .ok (.ok (chunkCaps 0 (chunkSegs f (chunks ns.get)))) := by
    show GoM.ok (Except.ok (funcFindMatches f ns.get)) = _
    rw [funcFindMatches_chunks f hf, if_neg hne]
  simp only [NS.split, hp, GoM.bind_ok]
  rw [sliceAll_removed, splitMatches_groups, hgrp, List.map_map]
  have := fused_caps G _ 0 hfl hG htn
  simp only [Function.comp_def]
  rw [this]
  exact sliceAll_fates ht true (fused G) [] (by rw [fm, textOf_chunks]; rfl) hgood

/-! ## Which cuts are refused, which panic -/

/-- A stray continuation byte starts a piece other than the first. -/
def CutAtStray (t : List (Bool × List Chunk)) : Prop :=
  ∃ p y z q, t = p ++ y :: z :: q ∧ contFirst (textOf z.2) = true

theorem firstFate_cases (fs : List Fate) : (firstFate fs = .fine ∧ ∀ v ∈ fs, v = .fine)
    ∨ ∃ as v bs, fs = as ++ v :: bs ∧ (∀ w ∈ as, w = .fine) ∧ v ≠ .fine ∧ firstFate fs = v := by
  induction fs with
  | nil => exact .inl ⟨rfl, by simp⟩
  | cons v fs ih =>
    cases v with
    | fine =>
      rcases ih with ⟨h1, h2⟩ | ⟨as, v, bs, h1, h2, h3, h4⟩
      · exact .inl ⟨h1, by simpa using h2⟩
      · refine .inr ⟨.fine :: as, v, bs, by rw [h1]; rfl, ?_, h3, h4⟩
        intro w hw
        rcases List.mem_cons.1 hw with rfl | hw
        · rfl
        · exact h2 w hw
    | refused => exact .inr ⟨[], .refused, fs, rfl, by simp, by simp, rfl⟩
    | panics => exact .inr ⟨[], .panics, fs, rfl, by simp, by simp, rfl⟩

theorem fates_at (ns : NS) : ∀ (t : List (Bool × List Chunk)) (i : Nat) (as : List Fate) (v : Fate) (bs : List Fate),
    fates ns true i t = as ++ v :: bs → ∃ p y q, t = p ++ y :: q
      ∧ v = segFate ns (i + (textOf (p.flatMap (·.2))).length) y.2 (q.flatMap (·.2))
      ∧ ∀ p1 z p2, p = p1 ++ z :: p2 →
        segFate ns (i + (textOf (p1.flatMap (·.2))).length) z.2 ((p2 ++ y :: q).flatMap (·.2)) ∈ as := by
  intro t
  induction t with
  | nil => intro i as v bs h; cases as <;> cases h
  | cons x t ih =>
    intro i as v bs h
    obtain ⟨b, g⟩ := x
    simp only [fates, Bool.true_or, if_true, List.singleton_append] at h
    cases as with
    | nil =>
      simp only [List.nil_append, List.cons.injEq] at h
      exact ⟨[], (b, g), t, rfl, by simp [← h.1], by rintro p1 z p2 h; cases p1 <;> cases h⟩
    | cons a as =>
      simp only [List.cons_append, List.cons.injEq] at h
      obtain ⟨p, y, q, e1, e2, e3⟩ := ih _ _ _ _ h.2
      refine ⟨(b, g) :: p, y, q, by rw [e1]; rfl, by rw [e2]; simp [Nat.add_assoc], ?_⟩
      rintro p1 z p2 hp
      cases p1 with
      | nil =>
        simp only [List.nil_append, List.cons.injEq] at hp
        obtain ⟨rfl, rfl⟩ := hp
        rw [← e1, ← h.1]; simp
      | cons w p1 =>
        simp only [List.cons_append, List.cons.injEq] at hp
        obtain ⟨rfl, hp⟩ := hp
        have := e3 p1 z p2 hp
        simp only [List.flatMap_cons, textOf_append, List.length_append, ← Nat.add_assoc, List.mem_cons] at this ⊢
        exact .inr this

/-- Alignments can end beyond the original only behind the first bad byte, if that is the last chunk or the last but one, and then the
last does. -/
structure Tail (ns : NS) : Prop where
  first : ∀ k, k < ns.get.length → Over ns k → ∃ p c u, chunks ns.get = p ++ c :: u ∧ (∀ d ∈ p, d.isBad = false) ∧ c.isBad = true
    ∧ (textOf p).length ≤ k ∧ u.length ≤ 1
  last : ∀ k, k < ns.get.length → Over ns k → Over ns (ns.get.length - 1)

theorem text_pos {cs : List Chunk} (hg : GoodChunks cs) (h : cs ≠ []) : 0 < (textOf cs).length := by
  cases cs with
  | nil => exact absurd rfl h
  | cons c cs =>
    have := List.length_pos_iff.2 (hg c (by simp)).1
    simp; omega

theorem append_text_inj {a b c d : List Chunk} (h : a ++ b = c ++ d) (hg : GoodChunks (a ++ b))
    (hl : (textOf a).length = (textOf c).length) : a = c ∧ b = d := by
  rcases List.append_eq_append_iff.1 h with ⟨m, h1, h2⟩ | ⟨m, h1, h2⟩
  · have : m = [] := by
      apply Classical.byContradiction
      intro hm
      have := text_pos (cs := m) (fun x hx => hg x (by rw [h2]; simp [hx])) hm
      rw [h1, textOf_append, List.length_append] at hl; omega
    subst this
    exact ⟨by simpa using h1.symm, by simpa using h2⟩
  · have : m = [] := by
      apply Classical.byContradiction
      intro hm
      have := text_pos (cs := m) (fun x hx => hg x (by rw [h1]; simp [hx])) hm
      rw [h1, textOf_append, List.length_append] at hl; omega
    subst this
    exact ⟨by simpa using h1, by simpa using h2.symm⟩

theorem bad_one {c : Chunk} (hg : c.bytes ≠ [] ∧ (c.bytes = encodeRune c.rune ∨ (c.bytes.length = 1 ∧ c.rune = 0xFFFD)))
    (hb : c.isBad = true) : c.bytes.length = 1 := by
  rcases hg.2 with h | h
  · simp [Chunk.isBad, h] at hb
  · exact h.1

theorem stray_bad {c : Chunk} {g : List Chunk}
    (hg : c.bytes ≠ [] ∧ (c.bytes = encodeRune c.rune ∨ (c.bytes.length = 1 ∧ c.rune = 0xFFFD)))
    (h : contFirst (textOf (c :: g)) = true) : c.isBad = true := by
  obtain ⟨x, h1, h2, h3⟩ := (contFirst_chunk hg).1 h
  simp only [Chunk.isBad, bne_iff_ne, ne_eq]
  intro e
  obtain ⟨z, t, e1, e2, -⟩ := encodeRune_bytes c.rune
  rw [e, e1] at h1; cases h1; rw [e2] at h2; cases h2

theorem contFirst_append {a : Str} (h : a ≠ []) (b : Str) : contFirst (a ++ b) = contFirst a := by
  cases a with
  | nil => exact absurd rfl h
  | cons _ _ => rfl

theorem refused_cut {ns : NS} {t : List (Bool × List Chunk)} (hg : ∀ x ∈ t, GoodChunks x.2 ∧ x.2 ≠ []) :
    .refused ∈ fates ns true 0 t ↔ CutAtStray t ∨ EndsBad (t.flatMap (·.2)) := by
  have tne : ∀ x ∈ t, textOf x.2 ≠ [] := fun x hx => List.length_pos_iff.1 (text_pos (hg x hx).1 (hg x hx).2)
  rw [mem_fates]
  constructor
  · rintro ⟨p, y, q, e1, -, e3⟩
    unfold segFate at e3
    split at e3
    · rename_i h
      simp only [Bool.or_eq_true, Bool.and_eq_true, decide_eq_true_eq, List.isEmpty_iff] at h
      rcases h with (⟨h1, h2⟩ | h) | ⟨h1, h2⟩
      · left
        rcases List.eq_nil_or_concat p with rfl | ⟨p', z, rfl⟩
        · simp at h1
        · exact ⟨p', z, y, q, by rw [e1]; simp, h2⟩
      · left
        cases q with
        | nil => cases h
        | cons z q =>
          refine ⟨p, y, z, q, e1, ?_⟩
          rwa [List.flatMap_cons, textOf_append, contFirst_append (tne z (by rw [e1]; simp))] at h
      · right
        have hy := (hg y (by rw [e1]; simp)).2
        refine ⟨p.flatMap (·.2) ++ y.2.dropLast, y.2.getLast hy, ?_, ?_⟩
        · rw [e1, List.append_assoc, List.dropLast_concat_getLast hy]
          simp [h1]
        · rw [List.getLast?_eq_some_getLast hy] at h2; simpa using h2
    · split at e3 <;> cases e3
  · rintro (⟨p, y, z, q, e, h⟩ | ⟨a, c, e, hb⟩)
    · refine ⟨p ++ [y], z, q, by rw [e]; simp, rfl, ?_⟩
      have hp := text_pos (hg y (by rw [e]; simp)).1 (hg y (by rw [e]; simp)).2
      have : 0 < 0 + (textOf ((p ++ [y]).flatMap (·.2))).length := by simp; omega
      unfold segFate
      simp only [h, this, decide_true, Bool.and_true, Bool.true_or, if_true]
    · rcases List.eq_nil_or_concat t with rfl | ⟨p, y, rfl⟩
      · simp at e
      · have hy := (hg y (by simp)).2
        refine ⟨p, y, [], by simp, rfl, ?_⟩
        have hlast : y.2.getLast? = some c := by
          have := congrArg List.getLast? e
          simp only [List.concat_eq_append, List.flatMap_append, List.flatMap_cons, List.flatMap_nil, List.append_nil,
            List.getLast?_append, List.getLast?_singleton, Option.some_or] at this
          rw [List.getLast?_eq_some_getLast hy] at this ⊢
          simpa using this
        simp [segFate, hlast, hb]

/-- **What becomes of the pieces.** The segments `t` cover the text, and no cut is between two bad bytes. -/
theorem cut_fates {ns : NS} (hT : Tail ns) {t : List (Bool × List Chunk)} (hg : ∀ x ∈ t, GoodChunks x.2 ∧ x.2 ≠ [])
    (hfl : t.flatMap (·.2) = chunks ns.get) (hne : ns.get ≠ [])
    (hcut : ∀ p y z q, t = p ++ y :: z :: q → ∀ c d, y.2.getLast? = some c → z.2.head? = some d → c.isBad = true →
      d.isBad = true → False) :
    (CutAtStray t ∨ EndsBad (chunks ns.get) → firstFate (fates ns true 0 t) = .refused)
    ∧ (¬ (CutAtStray t ∨ EndsBad (chunks ns.get)) → Over ns (ns.get.length - 1) → firstFate (fates ns true 0 t) = .panics)
    ∧ (¬ (CutAtStray t ∨ EndsBad (chunks ns.get)) → ¬ Over ns (ns.get.length - 1) → firstFate (fates ns true 0 t) = .fine) := by
  have ref := refused_cut (ns := ns) hg
  rw [hfl] at ref
  have hlen : (textOf (t.flatMap (·.2))).length = ns.get.length := by rw [hfl, textOf_chunks]
  have good := goodChunks ns.get
  -- the byte at which a piece ends
  have over : ∀ p y q, t = p ++ y :: q →
      segFate ns (0 + (textOf (p.flatMap (·.2))).length) y.2 (q.flatMap (·.2)) = .panics →
      Over ns ((textOf (p.flatMap (·.2))).length + (textOf y.2).length - 1)
      ∧ 0 < (textOf y.2).length
      ∧ (textOf (p.flatMap (·.2))).length + (textOf y.2).length + (textOf (q.flatMap (·.2))).length = ns.get.length := by
    intro p y q e h
    refine ⟨?_, text_pos (hg y (by rw [e]; simp)).1 (hg y (by rw [e]; simp)).2, ?_⟩
    · unfold segFate at h
      split at h
      · cases h
      · split at h
        · rename_i ho; simpa using ho
        · cases h
    · rw [← hlen, e]; simp; omega
  refine ⟨?_, ?_, ?_⟩
  · intro hr
    have hm := ref.2 hr
    rcases firstFate_cases (fates ns true 0 t) with ⟨-, h⟩ | ⟨as, v, bs, h1, h2, h3, h4⟩
    · have := h _ hm; cases this
    · rw [h4]
      cases v with
      | fine => exact absurd rfl h3
      | refused => rfl
      | panics =>
        exfalso
        obtain ⟨p, y, q, e1, e2, e3⟩ := fates_at ns t 0 as _ bs h1
        obtain ⟨o1, o2, o3⟩ := over p y q e1 e2.symm
        have hy := hg y (by rw [e1]; simp)
        have flat : p.flatMap (·.2) ++ y.2 ++ q.flatMap (·.2) = chunks ns.get := by rw [← hfl, e1]; simp
        obtain ⟨P, c, u, k1, k2, k3, k4, k5⟩ := hT.first _ (by omega) o1
        have hc1 := bad_one (good c (by rw [k1]; simp)) k3
        have hL : ns.get.length = (textOf P).length + 1 + (textOf u).length := by
          rw [← textOf_chunks ns.get, k1]; simp [hc1]; omega
        -- the last piece does not end in a bad byte
        have atEnd : (textOf (q.flatMap (·.2))).length = 0 → ∀ d, (chunks ns.get).getLast? = some d → d.isBad = true → False := by
          intro h0 d hd hb
          have hq : q.flatMap (·.2) = [] := by
            apply Classical.byContradiction
            intro hq
            have := text_pos (cs := q.flatMap (·.2)) (fun x hx => good x (by rw [← flat]; simp only [List.mem_append]; exact .inr hx)) hq
            omega
          rw [hq] at flat e2
          simp only [List.append_nil] at flat
          rw [← flat, List.getLast?_append, List.getLast?_eq_some_getLast hy.2, Option.some_or] at hd
          unfold segFate at e2
          rw [List.getLast?_eq_some_getLast hy.2, hd] at e2
          simp [hb] at e2
        cases u with
        | nil =>
          simp only [textOf_nil, List.length_nil] at hL
          exact atEnd (by omega) c (by rw [k1]; simp) k3
        | cons d u =>
          have hu : u = [] := by
            simp only [List.length_cons] at k5
            exact List.length_eq_zero_iff.1 (by omega)
          subst hu
          have hd := good d (by rw [k1]; simp)
          cases hdb : d.isBad with
          | true =>
            have hd1 := bad_one hd hdb
            by_cases h0 : (textOf (q.flatMap (·.2))).length = 0
            · exact atEnd h0 d (by rw [k1]; simp) hdb
            · simp [hd1] at hL
              obtain ⟨i1, i2⟩ := append_text_inj (a := p.flatMap (·.2) ++ y.2) (b := q.flatMap (·.2)) (c := P ++ [c]) (d := [d])
                (by rw [flat, k1]; simp) (by rw [flat]; exact good) (by simp [hc1]; omega)
              cases q with
              | nil => simp at i2
              | cons z q =>
                have hz := (hg z (by rw [e1]; simp)).2
                refine hcut p y z q e1 c d ?_ ?_ k3 hdb
                · have := congrArg List.getLast? i1
                  rw [List.getLast?_append, List.getLast?_eq_some_getLast hy.2] at this
                  rw [List.getLast?_eq_some_getLast hy.2]
                  simpa using this
                · cases hzz : z.2 with
                  | nil => exact absurd hzz hz
                  | cons w g =>
                    rw [List.flatMap_cons, hzz, List.cons_append, List.cons.injEq] at i2
                    rw [i2.1]; rfl
          | false =>
            rcases hr with ⟨p', y', z', q', f1, f2⟩ | ⟨a, c', f1, f2⟩
            · have hz := hg z' (by rw [f1]; simp)
              cases hzz : z'.2 with
              | nil => exact hz.2 hzz
              | cons w g =>
                rw [hzz] at f2 hz
                have hw := stray_bad (hz.1 w (by simp)) f2
                have hflat' : (p' ++ [y']).flatMap (·.2) ++ w :: (g ++ q'.flatMap (·.2)) = P ++ [c, d] := by
                  rw [← k1, ← hfl, f1]; simp [hzz]
                obtain ⟨j1, j2, j3⟩ := only_bad hflat' k2 hdb hw
                have hP : (textOf P).length = (textOf (p'.flatMap (·.2))).length + (textOf y'.2).length := by
                  rw [← j1]; simp
                have hfate : ∀ i, segFate ns i y'.2 ((z' :: q').flatMap (·.2)) = .refused := by
                  intro i
                  have : contFirst (textOf ((z' :: q').flatMap (·.2))) = true := by
                    rw [List.flatMap_cons, hzz, textOf_append, contFirst_append (by
                      have := text_pos hz.1 (by simp); exact List.length_pos_iff.1 this)]
                    exact f2
                  unfold segFate
                  simp only [this, Bool.or_true, Bool.true_or, if_true]
                rw [e1] at f1
                rcases List.append_eq_append_iff.1 f1 with ⟨m, g1, g2⟩ | ⟨m, g1, g2⟩
                · -- y is y' or comes before it
                  cases m with
                  | nil =>
                    simp only [List.nil_append, List.cons.injEq, List.append_nil] at g1 g2
                    rw [g1, ← g2.1] at hP; omega
                  | cons w' m =>
                    simp only [List.cons_append, List.cons.injEq] at g2
                    rw [g1, ← g2.1] at hP
                    simp at hP; omega
                · cases m with
                  | nil =>
                    simp only [List.nil_append, List.cons.injEq, List.append_nil] at g1 g2
                    rw [← g1, g2.1] at hP; omega
                  | cons w' m =>
                    simp only [List.cons_append, List.cons.injEq] at g2
                    have := e3 p' w' m g1
                    rw [← g2.2, ← g2.1, hfate] at this
                    have := h2 _ this
                    cases this
            · rw [k1] at f1
              have := congrArg List.getLast? f1
              simp at this
              rw [this, f2] at hdb; cases hdb
  · intro hr ho
    have hnm : Fate.refused ∉ fates ns true 0 t := fun h => hr (ref.1 h)
    refine firstFate_panics hnm ?_
    rcases List.eq_nil_or_concat t with rfl | ⟨p, y, rfl⟩
    · simp at hlen; exact absurd (List.length_eq_zero_iff.1 hlen.symm) hne
    · have hy := hg y (by simp)
      have hyp := text_pos hy.1 hy.2
      have hmem : segFate ns (0 + (textOf (p.flatMap (·.2))).length) y.2 (([] : List (Bool × List Chunk)).flatMap (·.2)) ∈ fates ns true 0 (p.concat y) :=
        mem_fates.2 ⟨p, y, [], by simp, rfl, rfl⟩
      have hl : (textOf (p.flatMap (·.2))).length + (textOf y.2).length = ns.get.length := by
        rw [← hlen]; simp
      unfold segFate at hmem
      split at hmem
      · exact absurd hmem hnm
      · rw [if_pos (by rw [Nat.zero_add, hl]; exact ho)] at hmem
        exact hmem
  · intro hr ho
    have hnm : Fate.refused ∉ fates ns true 0 t := fun h => hr (ref.1 h)
    refine firstFate_fine hnm ?_
    intro h
    obtain ⟨p, y, q, e1, -, e3⟩ := mem_fates.1 h
    obtain ⟨o1, o2, o3⟩ := over p y q e1 e3.symm
    exact ho (hT.last _ (by omega) o1)

/-! ## Where the behaviours cut -/

section
variable {α : Type}

/-- `MergedWithNext` never cuts between a delimiter and what is none. -/
theorem grpNext_cut (m : α → Bool) (l : List α) : ∀ P g1 g2 Q, grpNext m l = P ++ g1 :: g2 :: Q → ∀ x y, g1.getLast? = some x →
    g2.head? = some y → m x = true → m y = true := by
  have hd : ∀ l : List α, ∀ g Q, grpNext m l = g :: Q → g.head? = l.head? := by
    intro l g Q h
    match l with
    | [] => cases h
    | [a] => simp only [grpNext, List.cons.injEq] at h; rw [← h.1]
    | a :: b :: rest =>
      simp only [grpNext] at h
      split at h <;> (simp only [List.cons.injEq] at h; rw [← h.1]; rfl)
  induction l using grpNext.induct (m := m) with
  | case1 => intro P g1 g2 Q h; cases P <;> cases h
  | case2 a =>
    intro P g1 g2 Q h
    have := congrArg List.length h
    simp [grpNext] at this
    omega
  | case3 a b rest hc ih =>
    intro P g1 g2 Q h x y hx hy hm
    simp only [grpNext, hc, if_true] at h
    cases P with
    | nil =>
      simp only [List.nil_append, List.cons.injEq] at h
      rw [← h.1] at hx
      simp at hx
      simp only [Bool.and_eq_true, Bool.not_eq_true'] at hc
      rw [← hx, hc.2] at hm; cases hm
    | cons _ P =>
      simp only [List.cons_append, List.cons.injEq] at h
      exact ih P g1 g2 Q h.2 x y hx hy hm
  | case4 a b rest hc ih =>
    intro P g1 g2 Q h x y hx hy hm
    simp only [grpNext, hc, Bool.false_eq_true, if_false] at h
    cases P with
    | nil =>
      simp only [List.nil_append, List.cons.injEq] at h
      have e := hd _ _ _ h.2
      rw [hy] at e
      rw [← h.1] at hx
      simp at hx e
      subst hx e
      cases hy : m y with
      | true => rfl
      | false => simp [hm, hy] at hc
    | cons _ P =>
      simp only [List.cons_append, List.cons.injEq] at h
      exact ih P g1 g2 Q h.2 x y hx hy hm

theorem grpRuns_head (m : α → Bool) (a : α) (l : List α) : ∃ g gs, grpRuns m (a :: l) = (a :: g) :: gs := by
  simp only [grpRuns]
  rcases grpRuns m l with _ | ⟨_ | ⟨b, g⟩, gs⟩
  · exact ⟨_, _, rfl⟩
  · exact ⟨_, _, rfl⟩
  · simp only
    split <;> exact ⟨_, _, rfl⟩

/-- The other behaviours always cut there. -/
theorem grp_cut (m : α → Bool) {b : Behavior} (h1 : b ≠ .removed) (h2 : b ≠ .mergedWithNext) {x y : α} (hx : m x = true)
    (hy : m y = false) (A B : List α) : grp m b (A ++ x :: y :: B) = grp m b (A ++ [x]) ++ grp m b (y :: B) := by
  cases b with
  | removed => exact absurd rfl h1
  | mergedWithNext => exact absurd rfl h2
  | isolated => simp [grp]
  | mergedWithPrevious =>
    show grpPrev m _ = grpPrev m _ ++ grpPrev m _
    have base : grpPrev m (x :: y :: B) = [x] :: grpPrev m (y :: B) := by simp [grpPrev, hx]
    induction A using grpPrev.induct (m := m) with
    | case1 => rw [List.nil_append, base]; rfl
    | case2 a =>
      simp only [List.cons_append, List.nil_append, grpPrev, hx, Bool.and_true]
      split
      · rfl
      · simp
    | case3 a b rest hc ih => simp only [List.cons_append, grpPrev, hc, if_true, ih]
    | case4 a b rest hc ih =>
      rw [List.cons_append, List.cons_append] at ih
      simp only [List.cons_append, grpPrev, hc, Bool.false_eq_true, if_false, ih]
  | contiguous =>
    show grpRuns m _ = grpRuns m _ ++ grpRuns m _
    induction A with
    | nil =>
      obtain ⟨g, gs, e⟩ := grpRuns_head m y B
      rw [List.nil_append, grpRuns, e]
      simp [hx, hy, grpRuns]
    | cons a A ih =>
      obtain ⟨c, l, e⟩ : ∃ c l, A ++ [x] = c :: l := by cases A <;> exact ⟨_, _, rfl⟩
      obtain ⟨g, gs, e2⟩ := grpRuns_head m c l
      have step : ∀ l' : List α, grpRuns m (a :: l') = match grpRuns m l' with
          | (b :: g) :: gs => if m a = m b then (a :: b :: g) :: gs else [a] :: (b :: g) :: gs
          | gs => [a] :: gs := fun _ => rfl
      rw [List.cons_append, List.cons_append, step, step, ih, e, e2]
      simp only [List.cons_append]
      split <;> rfl

end

theorem fused_cut {G : List (List (Int × Int × Bool × List Chunk))} (hG : ∀ g ∈ G, g ≠ []) {p q : List (Bool × List Chunk)}
    {y z : Bool × List Chunk} (h : fused G = p ++ y :: z :: q) : ∃ P g1 g2 Q u v, G = P ++ g1 :: g2 :: Q ∧ g1.getLast? = some u ∧
      g2.head? = some v ∧ y.2 = g1.flatMap (fun x => x.2.2.2) ∧ z.2 = g2.flatMap (fun x => x.2.2.2)
      ∧ ∃ A B, G.flatten = A ++ u :: v :: B := by
  obtain ⟨P, R, e1, -, e2⟩ := List.map_eq_append_iff.1 h
  match R, e2 with
  | g1 :: g2 :: Q, e2 =>
    simp only [List.map_cons, List.cons.injEq] at e2
    obtain ⟨e2, e3, -⟩ := e2
    have n1 := hG g1 (by rw [e1]; simp)
    have n2 := hG g2 (by rw [e1]; simp)
    cases g2 with
    | nil => exact absurd rfl n2
    | cons v g2 =>
      refine ⟨P, g1, v :: g2, Q, g1.getLast n1, v, e1, List.getLast?_eq_some_getLast n1, rfl, by rw [← e2], by rw [← e3], ?_⟩
      refine ⟨P.flatten ++ g1.dropLast, g2 ++ Q.flatten, ?_⟩
      rw [e1]
      have := List.dropLast_concat_getLast n1
      simp only [List.flatten_append, List.flatten_cons]
      conv => lhs; rw [← this]
      simp

theorem laidOut_pair {t : List (Bool × List Chunk)} {i : Int} {A B : List (Int × Int × Bool × List Chunk)}
    {u v : Int × Int × Bool × List Chunk} (h : laidOut i t = A ++ u :: v :: B) :
    t = A.map (fun x => x.2.2) ++ u.2.2 :: v.2.2 :: B.map (fun x => x.2.2) := by
  rw [← laidOut_segs t i, h]; simp

/-- **Where a stray continuation byte starts a piece.** -/
theorem cutAtStray_iff {f : Rune → Bool} (hf : f 0xFFFD = false) {b : Behavior} (hb : b ≠ .removed) (s : Str) :
    CutAtStray (fused (grp (fun x => x.2.2.1) b (laidOut 0 (chunkSegs f (chunks s)))))
      ↔ b ≠ .mergedWithNext ∧ StrayAfter f (chunks s) := by
  have hG : ∀ g ∈ grp (fun x : Int × Int × Bool × List Chunk => x.2.2.1) b (laidOut 0 (chunkSegs f (chunks s))), g ≠ [] :=
    fun g hg => (grp_infix _ b _ g hg).1
  have hfl := grp_flatten (fun x : Int × Int × Bool × List Chunk => x.2.2.1) hb (laidOut 0 (chunkSegs f (chunks s)))
  have good := goodChunks s
  constructor
  · rintro ⟨p, y, z, q, e, hz⟩
    obtain ⟨P, g1, g2, Q, u, v, e1, e2, e3, e4, e5, A, B, e6⟩ := fused_cut hG e
    rw [hfl] at e6
    have e7 := laidOut_pair e6
    have hv : v.2.2.2 ≠ [] := chunkSegs_ne_nil f (chunks s) v.2.2 (by rw [e7]; simp)
    cases g2 with
    | nil => cases e3
    | cons v' g2 =>
      simp only [List.head?_cons, Option.some.injEq] at e3
      subst e3
      cases hvv : v'.2.2.2 with
      | nil => exact absurd hvv hv
      | cons w g =>
        have hw : w ∈ chunks s := by
          rw [← chunkSegs_flatten f (chunks s), e7]; simp [hvv]
        rw [e5, List.flatMap_cons, hvv, List.cons_append] at hz
        obtain ⟨x, k1, k2, k3⟩ := (contFirst_chunk (good w hw)).1 hz
        have hvf : v'.2.2.1 = false := by
          cases hc : v'.2.2.1 with
          | false => rfl
          | true =>
            obtain ⟨d, m1, m2, -⟩ := chunkSegs_match f (chunks s) v'.2.2 (by rw [e7]; simp) hc
            rw [hvv] at m1; cases m1
            rw [k3, hf] at m2; cases m2
        have huf : u.2.2.1 = true := by
          rcases chunkSegs_adj f (chunks s) e7 with h | h
          · exact h
          · rw [hvf] at h; cases h
        constructor
        · rintro rfl
          have := grpNext_cut _ _ P g1 (v' :: g2) Q e1 u v' e2 rfl huf
          rw [hvf] at this; cases this
        · obtain ⟨d, m1, m2, -⟩ := chunkSegs_match f (chunks s) u.2.2 (by rw [e7]; simp) huf
          refine ⟨(A.map fun x => x.2.2).flatMap (·.2), d, w, g ++ (B.map fun x => x.2.2).flatMap (·.2), x, ?_, m2, k1, k2⟩
          rw [← chunkSegs_flatten f (chunks s), e7]
          simp [m1, hvv]
  · rintro ⟨hb2, hs⟩
    obtain ⟨a, d, c, r, x, e, h1, h2, h3, h4, h5⟩ := strayAfter_bad hs
    obtain ⟨g, tl, hg⟩ := chunkSegs_run f (c := c) (by rw [h5]; exact hf) r
    have hsegs : chunkSegs f (chunks s) = chunkSegs f a ++ (true, [d]) :: (false, c :: g) :: tl := by
      rw [e, chunkSegs_at f h1, hg]
    have hl := laidOut_segs (chunkSegs f (chunks s)) 0
    obtain ⟨A, R, e1, -, e2⟩ := List.map_eq_append_iff.1 (hl.trans hsegs)
    match R, e2 with
    | [_], e2 => simp at e2
    | u :: v :: B, e2 =>
      simp only [List.map_cons, List.cons.injEq] at e2
      obtain ⟨e2, e3, -⟩ := e2
      have cut := grp_cut (fun x : Int × Int × Bool × List Chunk => x.2.2.1) hb hb2 (x := u) (y := v) (by rw [e2]) (by rw [e3]) A B
      rw [e1, cut]
      have hne1 : grp (fun x : Int × Int × Bool × List Chunk => x.2.2.1) b (A ++ [u]) ≠ [] := by
        intro h
        have := grp_flatten (fun x : Int × Int × Bool × List Chunk => x.2.2.1) hb (A ++ [u])
        rw [h] at this; simp at this
      have h2fl := grp_flatten (fun x : Int × Int × Bool × List Chunk => x.2.2.1) hb (v :: B)
      have h2ne := grp_infix (fun x : Int × Int × Bool × List Chunk => x.2.2.1) b (v :: B)
      cases hgr : grp (fun x : Int × Int × Bool × List Chunk => x.2.2.1) b (v :: B) with
      | nil => rw [hgr] at h2fl; cases h2fl
      | cons g2 Q =>
        rw [hgr] at h2fl h2ne
        cases g2 with
        | nil => exact absurd rfl (h2ne [] (by simp)).1
        | cons v' g2 =>
          simp only [List.flatten_cons, List.cons_append, List.cons.injEq] at h2fl
          have hv' := h2fl.1
          subst hv'
          rw [← List.dropLast_concat_getLast hne1]
          refine ⟨_, _, _, _, by
            unfold fused
            rw [List.append_assoc, List.map_append, List.singleton_append, List.map_cons, List.map_cons], ?_⟩
          simp only [List.flatMap_cons, e3, List.cons_append]
          exact (contFirst_chunk (good c (by rw [e]; simp))).2 ⟨x, h2, h3, h5⟩

/-! ## Fresh strings -/

theorem tail_fromString (s : Str) : Tail (NS.fromString s) := by
  have good := goodChunks s
  constructor
  · intro k hk ho
    obtain ⟨p, c, u, h1, h2, h3, h4, h5⟩ := (over_fromString (s := s) hk).1 ho
    refine ⟨p, c, u, h1, h2, h3, h4, ?_⟩
    have hl : s.length = (textOf p).length + c.bytes.length + (textOf u).length := by
      rw [← textOf_chunks s, h1]; simp; omega
    have hc := List.length_pos_iff.2 (good c (by rw [h1]; simp)).1
    match u, h1, hl with
    | [], _, _ => simp
    | [_], _, _ => simp
    | d :: d' :: u, h1, hl =>
      have k1 := List.length_pos_iff.2 (good d (by rw [h1]; simp)).1
      have k2 := List.length_pos_iff.2 (good d' (by rw [h1]; simp)).1
      simp only [textOf_cons, List.length_append] at hl
      omega
  · intro k hk ho
    have hk' : k < s.length := hk
    obtain ⟨p, c, u, h1, h2, h3, h4, h5⟩ := (over_fromString (s := s) hk).1 ho
    refine (over_fromString (show s.length - 1 < s.length by omega)).2 ⟨p, c, u, h1, h2, h3, by omega, h5⟩

theorem over_last {s : Str} (hs : s ≠ []) (he : ¬ EndsBad (chunks s)) : Over (NS.fromString s) (s.length - 1) ↔ BadBeforeLast s := by
  have good := goodChunks s
  have h0 := List.length_pos_iff.2 hs
  rw [over_fromString (by omega)]
  constructor
  · rintro ⟨p, c, u, h1, h2, h3, h4, h5⟩
    obtain ⟨x, hcx, hx80⟩ := (reads_chunks s).bad_byte c (by rw [h1]; simp) h3
    have hl : s.length = (textOf p).length + 1 + (textOf u).length := by
      rw [← textOf_chunks s, h1]; simp [hcx]; omega
    cases u with
    | nil => exact absurd ⟨p, c, h1, h3⟩ he
    | cons d u =>
      have hd := good d (by rw [h1]; simp)
      have hdp := List.length_pos_iff.2 hd.1
      simp only [textOf_cons, List.length_append] at hl
      have hu : u = [] := by
        apply Classical.byContradiction
        intro hu
        have := text_pos (cs := u) (fun z hz => good z (by rw [h1]; simp [hz])) hu
        omega
      subst hu
      have hd1 : d.bytes.length = 1 := by simp at hl; omega
      cases hdb : d.isBad with
      | true => exact absurd ⟨p ++ [c], d, by rw [h1]; simp, hdb⟩ he
      | false =>
        simp only [Chunk.isBad, bne_eq_false_iff_eq] at hdb
        match hb : d.bytes, hd1 with
        | [z], _ =>
          refine ⟨textOf p, x, z, ?_, valid_of_good h1 h2, hx80, ?_⟩
          · rw [← textOf_chunks s, h1]; simp [hcx, hb]
          · rw [hb] at hdb; exact encode_ascii hdb.symm
  · rintro ⟨t, x, c, rfl, w1, w2, w3⟩
    obtain ⟨ct, v1, v2, v3⟩ := chunks_tail w1 w2 w3
    refine ⟨ct, _, _, v3, v1, ?_, ?_, ?_⟩
    · unfold Chunk.isBad
      simp only [bne_iff_ne, ne_eq]
      intro h
      have := congrArg List.length h
      rw [List.length_singleton] at this
      revert this; decide +kernel
    · rw [v2]; simp
    · rw [v2]; simp

/-- No cut is between two bad bytes. -/
theorem fused_bad {f : Rune → Bool} (hf : f 0xFFFD = false) {b : Behavior} (hb : b ≠ .removed) (s : Str) :
    ∀ p y z q, fused (grp (fun x => x.2.2.1) b (laidOut 0 (chunkSegs f (chunks s)))) = p ++ y :: z :: q →
      ∀ c d, y.2.getLast? = some c → z.2.head? = some d → c.isBad = true → d.isBad = true → False := by
  have hG : ∀ g ∈ grp (fun x : Int × Int × Bool × List Chunk => x.2.2.1) b (laidOut 0 (chunkSegs f (chunks s))), g ≠ [] :=
    fun g hg => (grp_infix _ b _ g hg).1
  have hfl := grp_flatten (fun x : Int × Int × Bool × List Chunk => x.2.2.1) hb (laidOut 0 (chunkSegs f (chunks s)))
  intro p y z q e c d hc hd hcb hdb
  obtain ⟨P, g1, g2, Q, u, v, e1, e2, e3, e4, e5, A, B, e6⟩ := fused_cut hG e
  rw [hfl] at e6
  have e7 := laidOut_pair e6
  have bad : ∀ w ∈ chunks s, w.isBad = true → w.rune = 0xFFFD := by
    intro w hw hb
    rcases (goodChunks s w hw).2 with h | h
    · simp [Chunk.isBad, h] at hb
    · exact h.2
  have no : ∀ x ∈ chunkSegs f (chunks s), ∀ w ∈ x.2, w.isBad = true → x.1 = false := by
    intro x hx w hw hwb
    cases hxf : x.1 with
    | false => rfl
    | true =>
      obtain ⟨w', m1, m2, m3⟩ := chunkSegs_match f (chunks s) x hx hxf
      rw [m1] at hw; simp at hw; subst hw
      rw [bad w m3 hwb, hf] at m2; cases m2
  have hu : c ∈ u.2.2.2 := by
    have hne : u.2.2.2 ≠ [] := chunkSegs_ne_nil f (chunks s) u.2.2 (by rw [e7]; simp)
    obtain ⟨g, rfl⟩ : ∃ g, g1 = g ++ [u] := by
      have n1 : g1 ≠ [] := by rintro rfl; cases e2
      rw [List.getLast?_eq_some_getLast n1, Option.some.injEq] at e2
      exact ⟨g1.dropLast, by rw [← e2, List.dropLast_concat_getLast n1]⟩
    rw [e4, List.flatMap_append] at hc
    simp only [List.flatMap_cons, List.flatMap_nil, List.append_nil] at hc
    rw [List.getLast?_append, List.getLast?_eq_some_getLast hne] at hc
    simp at hc
    rw [← hc]; exact List.getLast_mem hne
  have hv : d ∈ v.2.2.2 := by
    have hne : v.2.2.2 ≠ [] := chunkSegs_ne_nil f (chunks s) v.2.2 (by rw [e7]; simp)
    cases g2 with
    | nil => cases e3
    | cons v' g2 =>
      simp only [List.head?_cons, Option.some.injEq] at e3
      subst e3
      rw [e5, List.flatMap_cons] at hd
      cases hvv : v'.2.2.2 with
      | nil => exact absurd hvv hne
      | cons w g =>
        rw [hvv] at hd
        simp at hd
        rw [← hd]; simp
  rcases chunkSegs_adj f (chunks s) e7 with h | h
  · rw [no u.2.2 (by rw [e7]; simp) c hu hcb] at h; cases h
  · rw [no v.2.2 (by rw [e7]; simp) d hv hdb] at h; cases h

/-- What becomes of a call of `Split` on a string whose alignments overrun only at the end. -/
theorem split_tail {ns : NS} (ht : Tidy ns) (hT : Tail ns) {f : Rune → Bool} (hf : f 0xFFFD = false) {b : Behavior} (hb : b ≠ .removed)
    (hne : ns.get ≠ []) :
    ((b ≠ .mergedWithNext ∧ StrayAfter f (chunks ns.get)) ∨ EndsBad (chunks ns.get) →
      ns.split (fromFunc f) b = .ok (.error .badSplit))
    ∧ (¬ ((b ≠ .mergedWithNext ∧ StrayAfter f (chunks ns.get)) ∨ EndsBad (chunks ns.get)) → Over ns (ns.get.length - 1) →
      ns.split (fromFunc f) b = .panic)
    ∧ (¬ ((b ≠ .mergedWithNext ∧ StrayAfter f (chunks ns.get)) ∨ EndsBad (chunks ns.get)) → ¬ Over ns (ns.get.length - 1) →
      ∃ pieces, ns.split (fromFunc f) b = .ok (.ok pieces)) := by
  obtain ⟨G, rfl, h1, h2, h3⟩ := split_fused ht hf hb hne
  obtain ⟨c1, c2, c3⟩ := cut_fates hT h2 h3 hne (fused_bad hf hb ns.get)
  rw [cutAtStray_iff hf hb] at c1 c2 c3
  refine ⟨fun h => ?_, fun h ho => ?_, fun h ho => ?_⟩
  · rw [c1 h] at h1; exact h1
  · rw [c2 h ho] at h1; exact h1
  · rw [c3 h ho] at h1; exact h1

/-- **C131, Split.** Cutting a fresh string of any bytes at the runes that satisfy `f`, with any behaviour.  It is refused exactly when
the last byte is bad or, unless a delimiter goes with what follows it, a stray continuation byte stands right after a
delimiter.  Otherwise it panics exactly when the only bad byte is the last but one and ASCII follows it.  Otherwise it succeeds. -/
theorem C131_split {f : Rune → Bool} (hf : f 0xFFFD = false) (b : Behavior) (s : Str) :
    ((NS.fromString s).split (fromFunc f) b = .ok (.error .badSplit)
      ↔ (b ≠ .mergedWithNext ∧ StrayAfter f (chunks s)) ∨ EndsBad (chunks s))
    ∧ ((NS.fromString s).split (fromFunc f) b = .panic
      ↔ BadBeforeLast s ∧ ¬ (b ≠ .mergedWithNext ∧ StrayAfter f (chunks s)))
    ∧ ((∃ pieces, (NS.fromString s).split (fromFunc f) b = .ok (.ok pieces))
      ↔ ¬ BadBeforeLast s ∧ ¬ (b ≠ .mergedWithNext ∧ StrayAfter f (chunks s)) ∧ ¬ EndsBad (chunks s)) := by
  by_cases hb : b = .removed
  · subst hb
    simpa using C124_split hf false s
  by_cases hs : s = []
  · subst hs
    have e : ∃ ps, (NS.fromString []).split (fromFunc f) b = .ok (.ok ps) := by cases b <;> exact ⟨_, rfl⟩
    obtain ⟨ps, e⟩ := e
    have n1 : ¬ StrayAfter f (chunks []) := by
      rintro ⟨a, d, c, b, x, e, -⟩
      have := congrArg List.length e
      simp [chunks, chunksAux] at this
    have n2 : ¬ EndsBad (chunks []) := by
      rintro ⟨a, c, e, -⟩
      have := congrArg List.length e
      simp [chunks, chunksAux] at this
    have n3 : ¬ BadBeforeLast [] := by
      rintro ⟨t, x, c, e, -⟩
      have := congrArg List.length e
      simp at this
    rw [e]
    simp [n1, n2, n3]
  obtain ⟨c1, c2, c3⟩ := split_tail (tidy_fromString s) (tail_fromString s) hf hb (show (NS.fromString s).get ≠ [] from hs)
  have hget : (NS.fromString s).get = s := rfl
  rw [hget] at c1 c2 c3
  by_cases hr : (b ≠ .mergedWithNext ∧ StrayAfter f (chunks s)) ∨ EndsBad (chunks s)
  · rw [c1 hr]
    refine ⟨by simp [hr], ?_, ?_⟩
    · constructor
      · intro h; cases h
      · rintro ⟨h1, h2⟩
        rcases hr with h | h
        · exact absurd h h2
        · exact absurd h (not_endsBad h1)
    · constructor
      · rintro ⟨ps, h⟩; cases h
      · rintro ⟨-, h2, h3⟩
        rcases hr with h | h
        · exact absurd h h2
        · exact absurd h h3
  · have hE : ¬ EndsBad (chunks s) := fun h => hr (.inr h)
    have hS : ¬ (b ≠ .mergedWithNext ∧ StrayAfter f (chunks s)) := fun h => hr (.inl h)
    have c2 := c2 hr
    have c3 := c3 hr
    rw [over_last hs hE] at c2 c3
    by_cases hB : BadBeforeLast s
    · rw [c2 hB]
      exact ⟨⟨(fun h => by cases h), fun h => absurd h hr⟩, ⟨fun _ => ⟨hB, hS⟩, fun _ => rfl⟩,
        ⟨(by rintro ⟨_, h⟩; cases h), fun h => absurd hB h.1⟩⟩
    · obtain ⟨ps, e⟩ := c3 hB
      rw [e]
      exact ⟨⟨fun h => by simp at h, fun h => absurd h hr⟩, ⟨(fun h => by cases h), fun h => absurd h.1 hB⟩,
        ⟨fun _ => ⟨hB, hS, hE⟩, fun _ => ⟨_, rfl⟩⟩⟩

end Verif
