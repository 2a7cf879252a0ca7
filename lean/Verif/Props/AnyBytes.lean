import Verif.Props.Bytes
import Verif.Props.StrUtils
import Verif.Model.Unicode

/-! C124: which byte strings the splitting pre-tokenizers cut, refuse, or panic on. -/

set_option autoImplicit false

namespace Verif

/-! ## The conditions -/

/-- A chunk that satisfies `f` stands right before a stray continuation byte. -/
def StrayAfter (f : Rune → Bool) (cs : List Chunk) : Prop :=
  ∃ (a : List Chunk) (d c : Chunk) (b : List Chunk) (x : UInt8),
    cs = a ++ d :: c :: b ∧ f d.rune = true ∧ c.bytes = [x] ∧ isCont x = true

/-- The last chunk is a bad byte. -/
def EndsBad (cs : List Chunk) : Prop := ∃ (a : List Chunk) (c : Chunk), cs = a ++ [c] ∧ c.isBad = true

/-- The only bad byte is the last byte but one, and an ASCII byte follows it. -/
def BadBeforeLast (s : Str) : Prop :=
  ∃ (t : Str) (x c : UInt8), s = t ++ [x, c] ∧ ValidUtf8 t ∧ 0x80 ≤ x.toNat ∧ c.toNat < 0x80

/-! ## A single `Slice` -/

/-- What can become of a call. -/
inductive Fate where
  | fine | refused | panics
deriving DecidableEq

/-- A result has this fate. -/
def Fate.Of {α : Type} (r : GoM (Except Err α)) : Fate → Prop
  | .fine => ∃ x, r = .ok (.ok x)
  | .refused => r = .ok (.error .badSplit)
  | .panics => r = .panic

/-- Alignments that start one after the other, at least one for every byte of the text. -/
structure Tidy (ns : NS) : Prop where
  len : ns.normalized.length ≤ ns.alignments.length
  nonneg : ∀ x ∈ ns.alignments, 0 ≤ x.start ∧ x.start ≤ x.stop
  mono : ns.alignments.Pairwise fun x y => x.start ≤ y.start

/-- The alignment of byte `k` ends beyond the original. -/
def Over (ns : NS) (k : Nat) : Prop := ∃ al, ns.alignments[k]? = some al ∧ (ns.original.length : Int) < al.stop

instance (ns : NS) (k : Nat) : Decidable (Over ns k) :=
  match h : ns.alignments[k]? with
  | none => .isFalse (by rintro ⟨al, h1, -⟩; rw [h] at h1; cases h1)
  | some al =>
    if h2 : (ns.original.length : Int) < al.stop then .isTrue ⟨al, h, h2⟩
    else .isFalse (by rintro ⟨al', h1, h3⟩; rw [h] at h1; cases h1; exact h2 h3)

theorem pairwise_le {l : List Align} {v : Align → Int} (h : l.Pairwise fun x y => v x ≤ v y) {i j : Nat}
    {x y : Align} (hij : i ≤ j) (hx : l[i]? = some x) (hy : l[j]? = some y) : v x ≤ v y := by
  by_cases he : i = j
  · subst he; rw [hx] at hy; cases hy; omega
  · obtain ⟨hi, hx⟩ := List.getElem?_eq_some_iff.1 hx
    obtain ⟨hj, hy⟩ := List.getElem?_eq_some_iff.1 hy
    subst hx hy
    exact List.pairwise_iff_getElem.1 h i j hi hj (by omega)

theorem slice_fate {ns : NS} (ht : Tidy ns) {a b : Nat} (hab : a < b) (hb : b ≤ ns.normalized.length) :
    if isRuneBoundary ns.normalized a && isRuneBoundary ns.normalized b then
      if Over ns (b - 1) then ns.slice (.normalized a b) = .panic
      else ∃ p, ns.slice (.normalized a b) = .ok (some p)
    else ns.slice (.normalized a b) = .ok none := by
  have hl := ht.len
  cases hv : (isRuneBoundary ns.normalized a && isRuneBoundary ns.normalized b) with
  | false =>
    simp only [Bool.false_eq_true, if_false]
    simp [NS.slice, NS.rangeIsValid, Rng.start, Rng.stop, hv]
  | true =>
    simp only [if_true]
    have hx : ns.alignments[a]? = some (ns.alignments[a]'(by omega)) := List.getElem?_eq_getElem _
    have hy : ns.alignments[b - 1]? = some (ns.alignments[b - 1]'(by omega)) := List.getElem?_eq_getElem _
    generalize ns.alignments[a]'(by omega) = x at hx
    generalize ns.alignments[b - 1]'(by omega) = y at hy
    have e1 : goSlice ns.alignments (a : Int) (b : Int) = .ok ((ns.alignments.drop a).take (b - a)) := by
      rw [goSlice_of (by omega) (by omega) (by omega)]
      congr 2; omega
    have hlen : ((ns.alignments.drop a).take (b - a)).length = b - a := by simp; omega
    have e2 : goIndex ((ns.alignments.drop a).take (b - a)) 0 = .ok x := by
      refine goIndex_eq_ok.2 ⟨by omega, ?_⟩
      rw [List.getElem?_take, if_pos (by simp; omega)]
      simpa using hx
    have e3 : goIndex ((ns.alignments.drop a).take (b - a))
        ((((ns.alignments.drop a).take (b - a)).length : Int) - 1) = .ok y := by
      rw [hlen]
      refine goIndex_eq_ok.2 ⟨by omega, ?_⟩
      have e : (((b - a : Nat) : Int) - 1).toNat = b - a - 1 := by omega
      rw [e, List.getElem?_take, if_pos (by omega), List.getElem?_drop]
      have e : a + (b - a - 1) = b - 1 := by omega
      rw [e]; exact hy
    have hne : ¬ ((b : Int) - a = 0) := by omega
    have hgt : ¬ ((a : Int) > b) := by omega
    have hnz : ¬ (ns.normalized.length = 0 ∧ (a : Int) = 0 ∧ (b : Int) = 0) := by omega
    have e4 : ns.coerceRangeToOriginal (.normalized a b) = .ok (some (x.start, y.stop)) := by
      simp only [NS.coerceRangeToOriginal, hne, hgt, hnz, if_false, e1, e2, e3, GoM.bind_ok, GoM.pure_eq]
    have e5 : ns.getRange (.normalized a b) = .ok (some ((ns.normalized.drop a).take (b - a))) := by
      simp only [NS.getRange, NS.coerceRangeToNormalized]
      rw [goSlice_of (by omega) (by omega) (by omega)]
      simp only [GoM.bind_ok, GoM.pure_eq, GoM.ok.injEq, Option.some.injEq]
      congr 1; omega
    have hs : ns.slice (.normalized a b) = (goSlice ns.original x.start y.stop).bind fun o => .ok (some
        ⟨o, (ns.normalized.drop a).take (b - a),
          ((ns.alignments.drop a).take (b - a)).map fun al => ⟨al.start - x.start, al.stop - x.start⟩,
          ns.originalShift + x.start⟩) := by
      simp only [NS.slice, NS.rangeIsValid, Rng.start, Rng.stop, hv, Bool.not_true, Bool.false_eq_true, if_false,
        NS.coerceRangeToNormalized, e4, e5, GoM.bind_ok, NS.getOriginalRange, e1]
      cases goSlice ns.original x.start y.stop <;> rfl
    have h0 := ht.nonneg x (List.mem_of_getElem? hx)
    have h00 := ht.nonneg y (List.mem_of_getElem? hy)
    have h1 := pairwise_le ht.mono (show a ≤ b - 1 by omega) hx hy
    rw [hs]
    by_cases ho : Over ns (b - 1)
    · rw [if_pos ho]
      obtain ⟨al, h2, h3⟩ := ho
      rw [hy] at h2; cases h2
      rw [(goSlice_eq_panic (l := ns.original) (a := x.start) (b := y.stop)).2 (by omega)]
      rfl
    · rw [if_neg ho]
      have h3 : y.stop ≤ ns.original.length := by
        by_cases h : y.stop ≤ ns.original.length
        · exact h
        · exact absurd ⟨y, hy, by omega⟩ ho
      rw [goSlice_of (by omega) (by omega) h3]
      exact ⟨_, rfl⟩

/-- The pieces of a tidy state are tidy; if the alignments also end one after the other, those of
the pieces stay within their originals. -/
theorem slice_tidy {ns p : NS} (ht : Tidy ns) {a b : Nat} (hab : a < b) (hb : b ≤ ns.normalized.length)
    (h : ns.slice (.normalized a b) = .ok (some p)) :
    Tidy p ∧ ((ns.alignments.Pairwise fun x y => x.stop ≤ y.stop) → ∀ k, ¬ Over p k) := by
  have hl := ht.len
  obtain ⟨-, na, nb, oa, ob, als, k1, k2, k3, k4, k5, k6, -⟩ := slice_ok h
  simp only [NS.coerceRangeToNormalized, Option.some.injEq, Prod.mk.injEq] at k1
  obtain ⟨rfl, rfl⟩ := k1
  have hx : ns.alignments[a]? = some (ns.alignments[a]'(by omega)) := List.getElem?_eq_getElem _
  have hy : ns.alignments[b - 1]? = some (ns.alignments[b - 1]'(by omega)) := List.getElem?_eq_getElem _
  generalize ns.alignments[a]'(by omega) = x at hx
  generalize ns.alignments[b - 1]'(by omega) = y at hy
  obtain ⟨-, hals⟩ := goSlice_eq_ok.1 k5
  have hals : als = (ns.alignments.drop a).take (b - a) := by rw [hals]; congr 1; omega
  have hlen : als.length = b - a := by rw [hals]; simp; omega
  have get : ∀ i, i < b - a → als[i]? = ns.alignments[a + i]? := by
    intro i hi
    rw [hals, List.getElem?_take, if_pos hi, List.getElem?_drop]
  have hoo : oa = x.start ∧ ob = y.stop := by
    have hne : ¬ ((b : Int) - a = 0) := by omega
    have hgt : ¬ ((a : Int) > b) := by omega
    have hnz : ¬ (ns.normalized.length = 0 ∧ (a : Int) = 0 ∧ (b : Int) = 0) := by omega
    simp only [NS.coerceRangeToOriginal, hne, hgt, hnz, if_false, k5, GoM.bind_eq_ok] at k2
    obtain ⟨_, h0, f, h1, l, h2, h3⟩ := k2
    cases h0
    simp only [GoM.pure_eq, GoM.ok.injEq, Option.some.injEq, Prod.mk.injEq] at h3
    have h1 := (goIndex_eq_ok.1 h1).2
    have h2 := (goIndex_eq_ok.1 h2).2
    have e : ((als.length : Int) - 1).toNat = b - a - 1 := by omega
    rw [e, get _ (by omega), show a + (b - a - 1) = b - 1 by omega, hy] at h2
    rw [show (0 : Int).toNat = 0 from rfl, get _ (by omega), Nat.add_zero, hx] at h1
    cases h1; cases h2
    exact ⟨h3.1.symm, h3.2.symm⟩
  obtain ⟨rfl, rfl⟩ := hoo
  have k3 := goSlice_length k3
  have k4 := goSlice_length k4
  have within : ∀ z ∈ als, x.start ≤ z.start ∧ z.start ≤ z.stop
      ∧ ((ns.alignments.Pairwise fun x y => x.stop ≤ y.stop) → z.stop ≤ y.stop) := by
    intro z hz
    obtain ⟨i, hi, he⟩ := List.mem_iff_getElem.1 hz
    have hz' : ns.alignments[a + i]? = some z := by
      rw [← get i (by omega), List.getElem?_eq_getElem hi, he]
    have h1 := pairwise_le ht.mono (show a ≤ a + i by omega) hx hz'
    have h3 := ht.nonneg z (List.mem_of_getElem? hz')
    exact ⟨h1, h3.2, fun hm => pairwise_le hm (show a + i ≤ b - 1 by omega) hz' hy⟩
  refine ⟨⟨?_, ?_, ?_⟩, ?_⟩
  · rw [k6, List.length_map]; omega
  · rw [k6]
    intro z hz
    obtain ⟨w, hw, rfl⟩ := List.mem_map.1 hz
    obtain ⟨h1, h2, -⟩ := within w hw
    simp only; omega
  · rw [k6, List.pairwise_map]
    have : als.Pairwise fun x y => x.start ≤ y.start := by
      rw [hals]
      exact (ht.mono.sublist (List.drop_sublist _ _)).sublist (List.take_sublist _ _)
    exact this.imp fun h => by simp only; omega
  · rintro hm k ⟨al, h1, h2⟩
    rw [k6] at h1
    obtain ⟨w, hw, rfl⟩ := List.mem_map.1 (List.mem_of_getElem? h1)
    have := (within w hw).2.2 hm
    simp only at h2
    omega

/-! ## Boundaries at chunks -/

theorem isRuneBoundary_mid {pre post : Str} (h1 : pre ≠ []) {x : UInt8} :
    isRuneBoundary (pre ++ x :: post) pre.length = !isCont x := by
  have := List.length_pos_iff.2 h1
  unfold isRuneBoundary
  rw [if_neg (by simp only [List.length_append, List.length_cons]; omega),
    if_neg (by simp only [List.length_append, List.length_cons]; omega)]
  rw [Int.toNat_natCast, List.getElem?_append_right (by omega), Nat.sub_self, List.getElem?_cons_zero]
  exact signedTest x

theorem isRuneBoundary_zero (s : Str) : isRuneBoundary s 0 = true := by simp [isRuneBoundary]

theorem isRuneBoundary_end (s : Str) : isRuneBoundary s s.length = true := by simp [isRuneBoundary]

theorem isRuneBoundary_beyond (s : Str) {i : Int} (h : (s.length : Int) < i) : isRuneBoundary s i = false := by
  unfold isRuneBoundary
  rw [if_neg (by omega), if_pos (by omega)]

/-- The text starts with a continuation byte. -/
def contFirst (s : Str) : Bool :=
  match s with
  | [] => false
  | x :: _ => isCont x

theorem boundary_cut (pre post : Str) :
    isRuneBoundary (pre ++ post) pre.length = !(decide (pre ≠ []) && contFirst post) := by
  by_cases h : pre = []
  · subst h; simp [isRuneBoundary]
  · cases post with
    | nil => simp [isRuneBoundary, contFirst]
    | cons x post => rw [isRuneBoundary_mid h]; simp [h, contFirst]

/-! ## The pieces one after the other -/

/-- What becomes of the piece `g`, which starts at byte `i`; `rest` are the chunks that follow. -/
def segFate (ns : NS) (i : Nat) (g rest : List Chunk) : Fate :=
  if (decide (0 < i) && contFirst (textOf g)) || contFirst (textOf rest)
      || (rest.isEmpty && (g.getLast?.map Chunk.isBad).getD false) then .refused
  else if Over ns (i + (textOf g).length - 1) then .panics else .fine

/-- What becomes of every kept piece. -/
def fates (ns : NS) (keep : Bool) : Nat → List (Bool × List Chunk) → List Fate
  | _, [] => []
  | i, (b, g) :: t =>
    (if keep || !b then [segFate ns i g (t.flatMap (·.2))] else []) ++ fates ns keep (i + (textOf g).length) t

/-- The first that is not fine decides. -/
def firstFate : List Fate → Fate
  | [] => .fine
  | .fine :: fs => firstFate fs
  | f :: _ => f

theorem sliceAll_fates {ns : NS} (ht : Tidy ns) (keep : Bool) : ∀ (t : List (Bool × List Chunk)) (pre : Str),
    ns.get = pre ++ textOf (t.flatMap (·.2)) → (∀ x ∈ t, GoodChunks x.2 ∧ x.2 ≠ []) →
    (firstFate (fates ns keep pre.length t)).Of
      (ns.sliceAll (splitMatches (if keep then .isolated else .removed) (chunkCaps pre.length t))) := by
  have one : ∀ (b : Bool) (o : ByteOffsets) (l : List Capture),
      splitMatches (if keep then .isolated else .removed) (⟨o, b⟩ :: l)
        = ⟨o, !(keep || !b)⟩ :: splitMatches (if keep then .isolated else .removed) l := by
    intro b o l
    cases keep <;> cases b <;> rfl
  intro t
  induction t with
  | nil =>
    intro pre _ _
    have : splitMatches (if keep then .isolated else .removed) [] = [] := by cases keep <;> rfl
    simp only [chunkCaps, this, fates, firstFate, NS.sliceAll]
    exact ⟨[], rfl⟩
  | cons x t ih =>
    intro pre he hg
    obtain ⟨b, g⟩ := x
    obtain ⟨hg1, hg2⟩ := hg (b, g) (by simp)
    have hpos : 0 < (textOf g).length := by
      cases g with
      | nil => exact absurd rfl hg2
      | cons c g =>
        have := List.length_pos_iff.2 (hg1 c (by simp)).1
        simp; omega
    have he' : ns.get = (pre ++ textOf g) ++ textOf (t.flatMap (·.2)) := by rw [he]; simp
    have next := ih (pre ++ textOf g) he' (fun x hx => hg x (by simp [hx]))
    have el : (((pre ++ textOf g).length : Nat) : Int) = (pre.length : Int) + (textOf g).length := by simp
    rw [el] at next
    -- the capture, and the boundary test at its end
    obtain ⟨stop, hcap, hstop⟩ : ∃ stop : Int,
        chunkCaps pre.length ((b, g) :: t) = ⟨⟨pre.length, stop⟩, b⟩ :: chunkCaps (pre.length + (textOf g).length) t
        ∧ ((t = [] ∧ (g.getLast?.map Chunk.isBad).getD false = true ∧ (ns.normalized.length : Int) < stop)
          ∨ (¬ (t = [] ∧ (g.getLast?.map Chunk.isBad).getD false = true)
            ∧ stop = (pre.length : Int) + (textOf g).length)) := by
      cases t with
      | nil =>
        refine ⟨_, rfl, ?_⟩
        by_cases hle : seen g ≤ (textOf g).length
        · obtain ⟨s1, s2⟩ := seen_le hg1 hle
          refine .inr ⟨?_, by rw [s1]⟩
          rintro ⟨-, h⟩
          cases hgl : g.getLast? with
          | none => rw [hgl] at h; cases h
          | some c => rw [hgl] at h; have := s2 c hgl; simp [this] at h
        · refine .inl ⟨rfl, ?_, ?_⟩
          · obtain ⟨q, c, rfl⟩ : ∃ q c, g = q ++ [c] := ⟨g.dropLast, g.getLast hg2, (List.dropLast_concat_getLast hg2).symm⟩
            rw [seen_append] at hle
            simp only [List.getLast?_append, List.getLast?_singleton, Option.some_or, Option.map_some, Option.getD_some]
            cases hb : c.isBad with
            | true => rfl
            | false =>
              have := (isBad_iff (hg1 c (by simp)).2).2 hb
              exfalso; apply hle
              simp [this, runeLen]
          · have := congrArg List.length he
            simp [NS.get] at this
            omega
      | cons y t =>
        refine ⟨_, rfl, .inr ⟨(by rintro ⟨h, -⟩; cases h), rfl⟩⟩
    have htn : t = [] ↔ t.flatMap (·.2) = [] := by
      constructor
      · intro h; rw [h]; rfl
      · intro h
        cases t with
        | nil => rfl
        | cons y t =>
          have := (hg y (by simp)).2
          simp at h; exact absurd h.1 this
    have hbeg : isRuneBoundary ns.normalized pre.length = !(decide (0 < pre.length) && contFirst (textOf g)) := by
      have e : ns.normalized = pre ++ (textOf g ++ textOf (t.flatMap (·.2))) := by rw [← List.append_assoc]; exact he'
      rw [e, boundary_cut]
      have : contFirst (textOf g ++ textOf (t.flatMap (·.2))) = contFirst (textOf g) := by
        cases hh : textOf g with
        | nil => rw [hh] at hpos; simp at hpos
        | cons y ys => rfl
      rw [this]
      congr 2
      simp [List.length_pos_iff]
    have hend : isRuneBoundary ns.normalized ((pre.length + (textOf g).length : Nat) : Int)
        = !contFirst (textOf (t.flatMap (·.2))) := by
      have e : ns.normalized = (pre ++ textOf g) ++ textOf (t.flatMap (·.2)) := he'
      have := boundary_cut (pre ++ textOf g) (textOf (t.flatMap (·.2)))
      rw [← e, List.length_append] at this
      rw [this]
      have : pre ++ textOf g ≠ [] := by
        intro h
        have := congrArg List.length h
        rw [List.length_append, List.length_nil] at this
        omega
      simp [this]
    have hlen : pre.length + (textOf g).length ≤ ns.normalized.length := by
      have := congrArg List.length he'
      simp only [NS.get, List.length_append] at this
      omega
    rw [hcap, one, fates]
    simp only [NS.sliceAll]
    cases hk : (keep || !b) with
    | false =>
      simp only [Bool.false_eq_true, if_false, List.nil_append, Bool.not_false, if_true]
      rw [List.length_append] at next
      exact next
    | true =>
      simp only [if_true, Bool.not_true, Bool.false_eq_true, if_false, List.singleton_append]
      have sl : (segFate ns pre.length g (t.flatMap (·.2)) = .refused ∧
            ns.slice (.normalized pre.length stop) = .ok none)
          ∨ (segFate ns pre.length g (t.flatMap (·.2)) = .panics ∧ ns.slice (.normalized pre.length stop) = .panic)
          ∨ (segFate ns pre.length g (t.flatMap (·.2)) = .fine ∧
            ∃ p, ns.slice (.normalized pre.length stop) = .ok (some p)) := by
        rcases hstop with ⟨h1, h2, h3⟩ | ⟨h1, h2⟩
        · refine .inl ⟨?_, ?_⟩
          · have := htn.1 h1
            simp [segFate, this, h2]
          · have := isRuneBoundary_beyond ns.normalized h3
            simp [NS.slice, NS.rangeIsValid, Rng.stop, this]
        · have e : stop = ((pre.length + (textOf g).length : Nat) : Int) := by rw [h2]; simp
          have key := slice_fate ht (a := pre.length) (b := pre.length + (textOf g).length) (by omega) hlen
          rw [hbeg, hend] at key
          rw [e]
          have h3 : ((t.flatMap (·.2)).isEmpty && (g.getLast?.map Chunk.isBad).getD false) = false := by
            cases hh : (t.flatMap (·.2)).isEmpty with
            | false => rfl
            | true =>
              cases hq : (g.getLast?.map Chunk.isBad).getD false with
              | false => rfl
              | true => exact absurd ⟨htn.2 (List.isEmpty_iff.1 hh), hq⟩ h1
          unfold segFate
          rw [h3]
          generalize (decide (0 < pre.length) && contFirst (textOf g)) = B1 at key ⊢
          generalize contFirst (textOf (t.flatMap (·.2))) = B2 at key ⊢
          cases B1 <;> cases B2 <;>
            simp only [Bool.not_true, Bool.not_false, Bool.and_true, Bool.and_false, Bool.false_eq_true, if_false,
              if_true, Bool.or_false, Bool.or_true, true_and] at key ⊢
          · by_cases ho : Over ns (pre.length + (textOf g).length - 1)
            · rw [if_pos ho] at key ⊢
              exact .inr (.inl ⟨rfl, key⟩)
            · rw [if_neg ho] at key ⊢
              exact .inr (.inr ⟨rfl, key⟩)
          · exact .inl key
          · exact .inl key
          · exact .inl key
      rcases sl with ⟨h1, h2⟩ | ⟨h1, h2⟩ | ⟨h1, p, h2⟩
      · rw [h1, h2]; rfl
      · rw [h1, h2]; rfl
      · rw [h1, h2]
        simp only [firstFate, GoM.bind_ok]
        rw [List.length_append] at next
        cases hf : firstFate (fates ns keep (pre.length + (textOf g).length) t) with
        | fine =>
          rw [hf] at next
          obtain ⟨ps, next⟩ := next
          rw [next]; exact ⟨_, rfl⟩
        | refused =>
          rw [hf] at next
          simp only [Fate.Of] at next ⊢
          rw [next]; rfl
        | panics =>
          rw [hf] at next
          simp only [Fate.Of] at next ⊢
          rw [next]; rfl

/-- What becomes of a call of `Split`. -/
theorem split_fates {ns : NS} (ht : Tidy ns) {f : Rune → Bool} (hf : f 0xFFFD = false) (keep : Bool)
    (hne : ns.get ≠ []) :
    (firstFate (fates ns keep 0 (chunkSegs f (chunks ns.get)))).Of
      (ns.split (fromFunc f) (if keep then .isolated else .removed)) := by
  have hp : fromFunc f ns.normalized = .ok (.ok (chunkCaps 0 (chunkSegs f (chunks ns.get)))) := by
    show GoM.ok (Except.ok (funcFindMatches f ns.get)) = _
    rw [funcFindMatches_chunks f hf, if_neg hne]
  simp only [NS.split, hp, GoM.bind_ok]
  refine sliceAll_fates ht keep (chunkSegs f (chunks ns.get)) [] ?_ ?_
  · rw [chunkSegs_flatten, textOf_chunks]; rfl
  · intro x hx
    refine ⟨?_, chunkSegs_ne_nil f _ x hx⟩
    obtain ⟨a, b, e⟩ := chunkSegs_infix f _ hx
    intro c hc
    exact goodChunks ns.get c (by rw [e]; simp [hc])

/-! ## Which pieces are refused -/

theorem firstFate_fine {fs : List Fate} (h1 : .refused ∉ fs) (h2 : .panics ∉ fs) : firstFate fs = .fine := by
  induction fs with
  | nil => rfl
  | cons f fs ih =>
    simp only [List.mem_cons, not_or] at h1 h2
    cases f with
    | fine => exact ih h1.2 h2.2
    | refused => exact absurd rfl h1.1
    | panics => exact absurd rfl h2.1

theorem firstFate_refused {as bs : List Fate} (h : .panics ∉ as) : firstFate (as ++ .refused :: bs) = .refused := by
  induction as with
  | nil => rfl
  | cons f fs ih =>
    simp only [List.mem_cons, not_or] at h
    cases f with
    | fine => exact ih h.2
    | refused => rfl
    | panics => exact absurd rfl h.1

theorem firstFate_panics {fs : List Fate} (h : .refused ∉ fs) (h2 : .panics ∈ fs) : firstFate fs = .panics := by
  induction fs with
  | nil => cases h2
  | cons f fs ih =>
    simp only [List.mem_cons, not_or] at h h2
    cases f with
    | fine => exact ih h.2 (by simpa using h2)
    | refused => exact absurd rfl h.1
    | panics => rfl

theorem fates_append (ns : NS) (keep : Bool) : ∀ (t1 : List (Bool × List Chunk)) (i : Nat) (x : Bool × List Chunk)
    (t2 : List (Bool × List Chunk)),
    ∃ A, fates ns keep i (t1 ++ x :: t2)
      = A ++ fates ns keep (i + (textOf (t1.flatMap (·.2))).length) (x :: t2)
    ∧ (∀ v ∈ A, ∃ p y q, t1 = p ++ y :: q ∧ v = segFate ns (i + (textOf (p.flatMap (·.2))).length) y.2
        ((q ++ x :: t2).flatMap (·.2))) := by
  intro t1
  induction t1 with
  | nil => intro i x t2; exact ⟨[], by simp, by simp⟩
  | cons z t1 ih =>
    intro i x t2
    obtain ⟨b, g⟩ := z
    obtain ⟨A, h1, h2⟩ := ih (i + (textOf g).length) x t2
    refine ⟨(if keep || !b then [segFate ns i g ((t1 ++ x :: t2).flatMap (·.2))] else []) ++ A, ?_, ?_⟩
    · rw [List.cons_append, fates, h1]
      simp [Nat.add_assoc]
    · intro v hv
      rcases List.mem_append.1 hv with hv | hv
      · refine ⟨[], (b, g), t1, rfl, ?_⟩
        by_cases hk : (keep || !b) = true
        · rw [if_pos hk] at hv; simpa using hv
        · rw [if_neg hk] at hv; cases hv
      · obtain ⟨p, y, q, e1, e2⟩ := h2 v hv
        refine ⟨(b, g) :: p, y, q, by rw [e1]; rfl, ?_⟩
        rw [e2]
        simp [Nat.add_assoc]

/-- A fate is that of some kept piece. -/
theorem mem_fates {ns : NS} {keep : Bool} {v : Fate} : ∀ {t : List (Bool × List Chunk)} {i : Nat},
    v ∈ fates ns keep i t ↔ ∃ p y q, t = p ++ y :: q ∧ (keep || !y.1) = true
      ∧ v = segFate ns (i + (textOf (p.flatMap (·.2))).length) y.2 (q.flatMap (·.2)) := by
  intro t
  induction t with
  | nil => intro i; simp [fates]
  | cons z t ih =>
    intro i
    obtain ⟨b, g⟩ := z
    rw [fates, List.mem_append, ih]
    constructor
    · rintro (h | ⟨p, y, q, e1, e2, e3⟩)
      · by_cases hk : (keep || !b) = true
        · rw [if_pos hk] at h
          exact ⟨[], (b, g), t, rfl, hk, by simpa using h⟩
        · rw [if_neg hk] at h; cases h
      · refine ⟨(b, g) :: p, y, q, by rw [e1]; rfl, e2, ?_⟩
        rw [e3]; simp [Nat.add_assoc]
    · rintro ⟨p, y, q, e1, e2, e3⟩
      cases p with
      | nil =>
        simp only [List.nil_append, List.cons.injEq] at e1
        obtain ⟨rfl, rfl⟩ := e1
        left; rw [if_pos e2]; simpa using e3
      | cons w p =>
        simp only [List.cons_append, List.cons.injEq] at e1
        obtain ⟨rfl, rfl⟩ := e1
        right
        refine ⟨p, y, q, rfl, e2, ?_⟩
        rw [e3]; simp [Nat.add_assoc]

/-- Two runs between delimiters never touch. -/
theorem chunkSegs_adj (f : Rune → Bool) : ∀ (cs : List Chunk) {a : List (Bool × List Chunk)} {x y : Bool × List Chunk}
    {b : List (Bool × List Chunk)}, chunkSegs f cs = a ++ x :: y :: b → x.1 = true ∨ y.1 = true := by
  intro cs
  induction cs with
  | nil => intro a x y b h; simp [chunkSegs] at h
  | cons c cs ih =>
    intro a x y b h
    simp only [chunkSegs] at h
    split at h
    · cases a with
      | nil =>
        simp only [List.nil_append, List.cons.injEq] at h
        rw [← h.1]; exact .inl rfl
      | cons w a =>
        simp only [List.cons_append, List.cons.injEq] at h
        exact ih h.2
    · split at h
      · rename_i g t hh
        cases a with
        | nil =>
          simp only [List.nil_append, List.cons.injEq] at h
          obtain ⟨rfl, rfl⟩ := h
          have := ih (a := []) hh
          simpa using this
        | cons w a =>
          simp only [List.cons_append, List.cons.injEq] at h
          exact ih (a := (false, g) :: a) (by rw [hh, h.2]; rfl)
      · rename_i hh
        cases a with
        | nil =>
          simp only [List.nil_append, List.cons.injEq] at h
          obtain ⟨h1, h2⟩ := h
          right
          obtain ⟨yb, yg⟩ := y
          cases yb with
          | true => rfl
          | false => exact absurd h2 (hh _ _)
        | cons w a =>
          simp only [List.cons_append, List.cons.injEq] at h
          exact ih h.2

/-- A delimiter cuts the segments in two. -/
theorem chunkSegs_at (f : Rune → Bool) {d : Chunk} (hd : f d.rune = true) : ∀ (a r : List Chunk),
    chunkSegs f (a ++ d :: r) = chunkSegs f a ++ (true, [d]) :: chunkSegs f r := by
  intro a
  induction a with
  | nil => intro r; simp [chunkSegs, hd]
  | cons c a ih =>
    intro r
    rw [List.cons_append]
    simp only [chunkSegs, ih]
    split
    · rfl
    · cases chunkSegs f a with
      | nil => rfl
      | cons z t =>
        obtain ⟨b, g⟩ := z
        cases b <;> rfl

theorem chunkSegs_run (f : Rune → Bool) {c : Chunk} (hc : f c.rune = false) (r : List Chunk) :
    ∃ g t, chunkSegs f (c :: r) = (false, c :: g) :: t := by
  simp only [chunkSegs, hc, Bool.false_eq_true, if_false]
  split
  · exact ⟨_, _, rfl⟩
  · exact ⟨[], _, rfl⟩

theorem contFirst_chunk {c : Chunk} {g : List Chunk}
    (hc : c.bytes ≠ [] ∧ (c.bytes = encodeRune c.rune ∨ (c.bytes.length = 1 ∧ c.rune = 0xFFFD))) :
    contFirst (textOf (c :: g)) = true ↔ ∃ x, c.bytes = [x] ∧ isCont x = true ∧ c.rune = 0xFFFD := by
  rw [textOf_cons]
  obtain ⟨-, h | ⟨h1, h2⟩⟩ := hc
  · obtain ⟨b, t, e1, e2, e3⟩ := encodeRune_bytes c.rune
    rw [h, e1]
    simp only [List.cons_append, contFirst, e2]
    constructor
    · intro h; cases h
    · rintro ⟨x, e, h, -⟩
      cases e; rw [e2] at h; cases h
  · match hb : c.bytes, h1 with
    | [x], _ =>
      simp only [List.cons_append, contFirst]
      constructor
      · intro h; exact ⟨x, rfl, h, h2⟩
      · rintro ⟨y, e, h, -⟩; cases e; exact h

/-- **Refusal.** Some kept piece is refused exactly when a stray continuation byte stands right after a
delimiter or the text ends in a bad byte. -/
theorem refused_iff (ns : NS) {f : Rune → Bool} (hf : f 0xFFFD = false) (keep : Bool) {s : Str} :
    .refused ∈ fates ns keep 0 (chunkSegs f (chunks s)) ↔ StrayAfter f (chunks s) ∨ EndsBad (chunks s) := by
  have good := goodChunks s
  have flat := chunkSegs_flatten f (chunks s)
  have hgood : ∀ {p : List (Bool × List Chunk)} {y : Bool × List Chunk} {q : List (Bool × List Chunk)},
      chunkSegs f (chunks s) = p ++ y :: q → GoodChunks y.2 ∧ y.2 ≠ [] := by
    intro p y q e
    have hy : y ∈ chunkSegs f (chunks s) := by rw [e]; simp
    refine ⟨?_, chunkSegs_ne_nil f _ y hy⟩
    obtain ⟨a, b, e⟩ := chunkSegs_infix f _ hy
    intro c hc
    exact good c (by rw [e]; simp [hc])
  -- a segment that starts with a continuation byte stands after a delimiter
  have stray : ∀ {p : List (Bool × List Chunk)} {y : Bool × List Chunk} {q : List (Bool × List Chunk)},
      chunkSegs f (chunks s) = p ++ y :: q → p ≠ [] → contFirst (textOf y.2) = true → StrayAfter f (chunks s) := by
    intro p y q e hp hc
    obtain ⟨hg1, hg2⟩ := hgood e
    obtain ⟨yb, yg⟩ := y
    simp only at hc hg1 hg2
    cases yg with
    | nil => exact absurd rfl hg2
    | cons c g =>
      obtain ⟨x, e1, e2, e3⟩ := (contFirst_chunk (hg1 c (by simp))).1 hc
      have hyb : yb = false := by
        cases yb with
        | false => rfl
        | true =>
          obtain ⟨d, k1, k2, -⟩ := chunkSegs_match f (chunks s) (true, c :: g) (by rw [e]; simp) rfl
          simp only [List.cons.injEq] at k1
          rw [← k1.1, e3, hf] at k2; cases k2
      subst hyb
      obtain ⟨p', z, rfl⟩ : ∃ p' z, p = p' ++ [z] := ⟨p.dropLast, p.getLast hp, (List.dropLast_concat_getLast hp).symm⟩
      have hz : z.1 = true := by
        have := chunkSegs_adj f (chunks s) (a := p') (x := z) (y := (false, c :: g)) (b := q) (by rw [e]; simp)
        simpa using this
      obtain ⟨d, k1, k2, -⟩ := chunkSegs_match f (chunks s) z (by rw [e]; simp) hz
      refine ⟨p'.flatMap (·.2), d, c, g ++ q.flatMap (·.2), x, ?_, k2, e1, e2⟩
      rw [← flat, e]
      simp [k1]
  rw [mem_fates]
  constructor
  · rintro ⟨p, y, q, e1, e2, e3⟩
    obtain ⟨hg1, hg2⟩ := hgood e1
    unfold segFate at e3
    split at e3
    · rename_i h
      simp only [Bool.or_eq_true, Bool.and_eq_true, decide_eq_true_eq, List.isEmpty_iff] at h
      rcases h with (⟨h1, h2⟩ | h) | ⟨h1, h2⟩
      · refine .inl (stray e1 ?_ h2)
        rintro rfl; simp at h1
      · left
        cases q with
        | nil => cases h
        | cons z q =>
          have e1' : chunkSegs f (chunks s) = (p ++ [y]) ++ z :: q := by rw [e1]; simp
          refine stray e1' (by simp) ?_
          obtain ⟨hz1, hz2⟩ := hgood e1'
          cases hz : z.2 with
          | nil => exact absurd hz hz2
          | cons c g =>
            rw [hz] at hz1
            obtain ⟨x, k1, k2, k3⟩ := (contFirst_chunk (g := g ++ q.flatMap (·.2)) (hz1 c (by simp))).1 (by
              simpa [hz] using h)
            exact (contFirst_chunk (hz1 c (by simp))).2 ⟨x, k1, k2, k3⟩
      · right
        obtain ⟨g, c, hgc⟩ : ∃ g c, y.2 = g ++ [c] := ⟨y.2.dropLast, y.2.getLast hg2, (List.dropLast_concat_getLast hg2).symm⟩
        refine ⟨p.flatMap (·.2) ++ g, c, ?_, ?_⟩
        · rw [← flat, e1]
          simp [h1, hgc]
        · rw [hgc] at h2; simpa using h2
    · split at e3 <;> cases e3
  · rintro (⟨a, d, c, b, x, e, hd, hx, hxc⟩ | ⟨a, c, e, hb⟩)
    · have hcb := good c (by rw [e]; simp)
      have hcr : c.rune = 0xFFFD := by
        rcases hcb.2 with h | h
        · obtain ⟨z, t, e1, e2, -⟩ := encodeRune_bytes c.rune
          rw [h, e1] at hx; cases hx; rw [e2] at hxc; cases hxc
        · exact h.2
      obtain ⟨g, t, hg⟩ := chunkSegs_run f (c := c) (by rw [hcr]; exact hf) b
      refine ⟨chunkSegs f a ++ [(true, [d])], (false, c :: g), t, ?_, by simp, ?_⟩
      · rw [e, chunkSegs_at f hd, hg]; simp
      · unfold segFate
        have h1 : contFirst (textOf (c :: g)) = true := (contFirst_chunk hcb).2 ⟨x, hx, hxc, hcr⟩
        have h2 : 0 < d.bytes.length := List.length_pos_iff.2 (good d (by rw [e]; simp)).1
        have h3 : 0 < 0 + (textOf ((chunkSegs f a ++ [(true, [d])]).flatMap (·.2))).length := by
          simp; omega
        simp only [h1, h3, decide_true, Bool.and_true, Bool.true_or, if_true]
    · have hcr : c.rune = 0xFFFD := by
        rcases (good c (by rw [e]; simp)).2 with h | h
        · simp [Chunk.isBad, h] at hb
        · exact h.2
      have hne : chunkSegs f (chunks s) ≠ [] := by
        intro h; rw [h] at flat; rw [e] at flat; simp at flat
      obtain ⟨p, y, hp⟩ : ∃ (p : List (Bool × List Chunk)) (y : Bool × List Chunk), chunkSegs f (chunks s) = p ++ [y] :=
        ⟨_, (chunkSegs f (chunks s)).getLast hne, (List.dropLast_concat_getLast hne).symm⟩
      have hy2 := (hgood (q := []) hp).2
      have hlast : y.2.getLast? = some c := by
        have := congrArg List.getLast? flat
        rw [hp, e] at this
        simp only [List.flatMap_append, List.flatMap_cons, List.flatMap_nil, List.append_nil, List.getLast?_append,
          List.getLast?_singleton, Option.some_or] at this
        rw [List.getLast?_eq_some_getLast hy2] at this ⊢
        simpa using this
      refine ⟨p, y, [], hp, ?_, ?_⟩
      · cases hyb : y.1 with
        | false => simp
        | true =>
          obtain ⟨d, k1, k2, -⟩ := chunkSegs_match f (chunks s) y (by rw [hp]; simp) hyb
          rw [k1] at hlast
          simp at hlast; rw [hlast, hcr, hf] at k2; cases k2
      · simp [segFate, hlast, hb]

/-! ## The alignments of a fresh string -/

/-- The number of alignments made for these chunks. -/
def wide (cs : List Chunk) : Nat := (encodeRunes (cs.map (·.rune))).length

theorem wide_cons (c : Chunk) (cs : List Chunk) : wide (c :: cs) = runeLen c.rune + wide cs := by
  simp [wide, runeLen]

/-- The alignments of chunks, the first of which stands at byte `i`. -/
def chunkAligns (i : Nat) (cs : List Chunk) : List Align :=
  (rangeChunks i cs).flatMap fun q =>
    List.replicate (runeLen q.2) ⟨(q.1 : Int), ((q.1 + runeLen q.2 : Nat) : Int)⟩

theorem chunkAligns_cons (i : Nat) (c : Chunk) (cs : List Chunk) :
    chunkAligns i (c :: cs) = List.replicate (runeLen c.rune) ⟨(i : Int), ((i + runeLen c.rune : Nat) : Int)⟩
      ++ chunkAligns (i + c.bytes.length) cs := rfl

theorem fromString_aligns (s : Str) : (NS.fromString s).alignments = chunkAligns 0 (chunks s) := by
  show alignmentsFromString s = _
  unfold alignmentsFromString chunkAligns
  rw [rangeStr_chunks]
  rfl

theorem chunkAligns_length : ∀ (cs : List Chunk) (i : Nat), (chunkAligns i cs).length = wide cs := by
  intro cs
  induction cs with
  | nil => intro i; rfl
  | cons c cs ih => intro i; rw [chunkAligns_cons, wide_cons]; simp [ih]

/-- An alignment is that of some chunk. -/
theorem chunkAligns_get : ∀ {cs : List Chunk} {i k : Nat} {al : Align}, (chunkAligns i cs)[k]? = some al →
    ∃ p c u, cs = p ++ c :: u ∧ wide p ≤ k ∧ k < wide p + runeLen c.rune
      ∧ al = ⟨((i + (textOf p).length : Nat) : Int), ((i + (textOf p).length + runeLen c.rune : Nat) : Int)⟩ := by
  intro cs
  induction cs with
  | nil => intro i k al h; simp [chunkAligns, rangeChunks] at h
  | cons c cs ih =>
    intro i k al h
    rw [chunkAligns_cons] at h
    by_cases hk : k < runeLen c.rune
    · rw [List.getElem?_append_left (by simpa using hk)] at h
      have := List.eq_of_mem_replicate (List.mem_of_getElem? h)
      exact ⟨[], c, cs, rfl, Nat.zero_le _, by simpa [wide] using hk, by simpa using this⟩
    · rw [List.getElem?_append_right (by simpa using hk), List.length_replicate] at h
      obtain ⟨p, d, u, e1, e2, e3, e4⟩ := ih h
      refine ⟨c :: p, d, u, by rw [e1]; rfl, by rw [wide_cons]; omega, by rw [wide_cons]; omega, ?_⟩
      rw [e4]
      simp [Nat.add_assoc]

theorem chunkAligns_at : ∀ (p : List Chunk) {c : Chunk} {u : List Chunk} {i k : Nat}, wide p ≤ k →
    k < wide p + runeLen c.rune → (chunkAligns i (p ++ c :: u))[k]?
      = some ⟨((i + (textOf p).length : Nat) : Int), ((i + (textOf p).length + runeLen c.rune : Nat) : Int)⟩ := by
  intro p
  induction p with
  | nil =>
    intro c u i k _ h
    rw [List.nil_append, chunkAligns_cons, List.getElem?_append_left (by simpa [wide] using h)]
    rw [List.getElem?_replicate, if_pos (by simpa [wide] using h)]
    simp
  | cons d p ih =>
    intro c u i k h1 h2
    rw [wide_cons] at h1 h2
    rw [List.cons_append, chunkAligns_cons, List.getElem?_append_right (by simp; omega), List.length_replicate,
      ih (by omega) (by omega)]
    simp [Nat.add_assoc]

theorem chunkAligns_starts : ∀ (cs : List Chunk) (i : Nat), (∀ al ∈ chunkAligns i cs, (i : Int) ≤ al.start) ∧
    (chunkAligns i cs).Pairwise fun x y => x.start ≤ y.start := by
  intro cs
  induction cs with
  | nil => intro i; simp [chunkAligns, rangeChunks]
  | cons c cs ih =>
    intro i
    obtain ⟨h1, h2⟩ := ih (i + c.bytes.length)
    rw [chunkAligns_cons]
    constructor
    · intro al hal
      rcases List.mem_append.1 hal with h | h
      · have := List.eq_of_mem_replicate h
        subst this; simp
      · have := h1 al h; omega
    · rw [List.pairwise_append]
      refine ⟨?_, h2, ?_⟩
      · rw [List.pairwise_replicate]; simp
      · intro a ha b hb
        have := List.eq_of_mem_replicate ha
        have := h1 b hb
        subst a; simp only; omega

theorem wide_ge {cs : List Chunk} (h : GoodChunks cs) : (textOf cs).length ≤ wide cs := by
  induction cs with
  | nil => simp
  | cons c cs ih =>
    have h1 := ih fun x hx => h x (by simp [hx])
    have h2 : c.bytes.length ≤ runeLen c.rune := by
      rcases (h c (by simp)).2 with h | h
      · rw [h]; exact Nat.le_refl _
      · have := runeLen_pos c.rune; omega
    rw [wide_cons, textOf_cons, List.length_append]; omega

theorem wide_good {cs : List Chunk} (h : ∀ c ∈ cs, c.isBad = false) : wide cs = (textOf cs).length := by
  induction cs with
  | nil => simp [wide]
  | cons c cs ih =>
    have h1 := ih fun x hx => h x (by simp [hx])
    have h2 := h c (by simp)
    simp only [Chunk.isBad, bne_eq_false_iff_eq] at h2
    rw [wide_cons, textOf_cons, List.length_append, h1, h2]; rfl

theorem wide_bad {cs : List Chunk} (h : GoodChunks cs) {c : Chunk} (hc : c ∈ cs) (hb : c.isBad = true) :
    (textOf cs).length + 2 ≤ wide cs := by
  induction cs with
  | nil => cases hc
  | cons d cs ih =>
    have hg : GoodChunks cs := fun x hx => h x (by simp [hx])
    have hd := (h d (by simp)).2
    rw [wide_cons, textOf_cons, List.length_append]
    rcases List.mem_cons.1 hc with rfl | hc
    · have := wide_ge hg
      rcases hd with h1 | ⟨h1, h2⟩
      · simp [Chunk.isBad, h1] at hb
      · have : runeLen (0xFFFD : Rune) = 3 := by decide +kernel
        rw [h1, h2]; omega
    · have := ih hg hc
      have h2 : d.bytes.length ≤ runeLen d.rune := by
        rcases hd with h | h
        · rw [h]; exact Nat.le_refl _
        · have := runeLen_pos d.rune; omega
      omega

theorem tidy_fromString (s : Str) : Tidy (NS.fromString s) := by
  refine ⟨?_, ?_, ?_⟩
  · rw [fromString_aligns, chunkAligns_length]
    have := wide_ge (goodChunks s)
    rw [textOf_chunks] at this
    exact this
  · rw [fromString_aligns]
    intro x hx
    obtain ⟨k, hk, e⟩ := List.mem_iff_getElem.1 hx
    obtain ⟨p, c, u, -, -, -, e2⟩ := chunkAligns_get (by rw [List.getElem?_eq_getElem hk, e])
    subst e2; simp only; omega
  · rw [fromString_aligns]; exact (chunkAligns_starts _ _).2

/-- An alignment that ends beyond the text is that of the first bad byte, and that is one of the
last two bytes. -/
theorem over_fromString {s : Str} {k : Nat} (hk : k < s.length) : Over (NS.fromString s) k ↔
    ∃ p c u, chunks s = p ++ c :: u ∧ (∀ d ∈ p, d.isBad = false) ∧ c.isBad = true ∧ (textOf p).length ≤ k
      ∧ s.length < (textOf p).length + 3 := by
  have good := goodChunks s
  have h3 : runeLen (0xFFFD : Rune) = 3 := by decide +kernel
  have hso : (NS.fromString s).original.length = s.length := rfl
  constructor
  · rintro ⟨al, h1, h2⟩
    rw [fromString_aligns] at h1
    obtain ⟨p, c, u, e1, e2, e3, e4⟩ := chunkAligns_get h1
    have hlen : s.length = (textOf p).length + c.bytes.length + (textOf u).length := by
      rw [← textOf_chunks s, e1]; simp; omega
    rw [e4, hso] at h2
    simp only at h2
    have hgp : GoodChunks p := fun x hx => good x (by rw [e1]; simp [hx])
    have hp := wide_ge hgp
    rcases (good c (by rw [e1]; simp)).2 with h | ⟨h4, h5⟩
    · rw [h] at hlen
      unfold runeLen at h2
      omega
    · have hb : c.isBad = true := by
        unfold Chunk.isBad
        simp only [bne_iff_ne, ne_eq]
        intro h
        have := congrArg List.length h
        rw [h4, h5] at this
        unfold runeLen at h3; omega
      rw [h5, h3] at h2
      refine ⟨p, c, u, e1, ?_, hb, by omega, by omega⟩
      intro d hd
      cases hdb : d.isBad with
      | false => rfl
      | true =>
        have := wide_bad hgp hd hdb
        omega
  · rintro ⟨p, c, u, e1, e2, e3, e4, e5⟩
    have hc : c.rune = 0xFFFD := by
      rcases (good c (by rw [e1]; simp)).2 with h | h
      · simp [Chunk.isBad, h] at e3
      · exact h.2
    have hw := wide_good e2
    refine ⟨⟨((0 + (textOf p).length : Nat) : Int), ((0 + (textOf p).length + runeLen c.rune : Nat) : Int)⟩, ?_, ?_⟩
    · rw [fromString_aligns, e1, chunkAligns_at p (by omega) (by rw [hc]; omega)]
    · rw [hc, hso]; simp only; omega

/-! ## The last two bytes -/

/-- An ASCII byte is the encoding of a rune. -/
theorem ascii_rune {c : UInt8} (h : c.toNat < 0x80) : ValidRune (c.toNat : Int) ∧ encodeRune (c.toNat : Int) = [c] := by
  have hv : ValidRune (c.toNat : Int) := by left; omega
  refine ⟨hv, ?_⟩
  unfold encodeRune
  rw [sanitize_of_valid hv]
  unfold encodeNat
  have e : ((c.toNat : Int)).toNat = c.toNat := by omega
  rw [e, if_pos (by omega)]
  simp

/-- A single byte that is the encoding of a rune is ASCII. -/
theorem encode_ascii {r : Rune} {c : UInt8} (h : encodeRune r = [c]) : c.toNat < 0x80 := by
  have h1 : runeLen r = 1 := by unfold runeLen; rw [h]; rfl
  obtain ⟨h2, h3⟩ := runeLen_eq_one.1 h1
  have hv : ValidRune r := by left; omega
  unfold encodeRune at h
  rw [sanitize_of_valid hv] at h
  unfold encodeNat at h
  rw [if_pos (by omega)] at h
  simp only [List.cons.injEq, and_true] at h
  rw [← h]
  have : r.toNat < 256 := by omega
  simp [Nat.mod_eq_of_lt this]
  omega

theorem Reads.bad_byte {s : Str} {cs : List Chunk} (h : Reads s cs) :
    ∀ c ∈ cs, c.isBad = true → ∃ x : UInt8, c.bytes = [x] ∧ 0x80 ≤ x.toNat := by
  induction h with
  | nil => simp
  | rune _ _ ih =>
    intro c hc hb
    rcases List.mem_cons.1 hc with rfl | hc
    · simp [Chunk.isBad] at hb
    · exact ih c hc hb
  | @bad b t cs hbad _ ih =>
    intro c hc hb
    rcases List.mem_cons.1 hc with rfl | hc
    · refine ⟨b, rfl, ?_⟩
      by_cases h : b.toNat < 0x80
      · obtain ⟨h1, h2⟩ := ascii_rune h
        exact absurd (by rw [h2]; rfl) (hbad _ t h1)
      · omega
    · exact ih c hc hb

theorem reads_runes (rs : List Rune) (hr : ∀ r ∈ rs, ValidRune r) {u : Str} {cs : List Chunk} (h : Reads u cs) :
    Reads (encodeRunes rs ++ u) (rs.map (fun r => ⟨encodeRune r, r⟩) ++ cs) := by
  induction rs with
  | nil => exact h
  | cons r rs ih =>
    rw [encodeRunes_cons, List.append_assoc]
    exact .rune (hr r (by simp)) (ih fun x hx => hr x (by simp [hx]))

/-- How a text with a bad byte before its last, ASCII, byte is read. -/
theorem chunks_tail {t : Str} {x c : UInt8} (ht : ValidUtf8 t) (hx : 0x80 ≤ x.toNat) (hc : c.toNat < 0x80) :
    ∃ ct : List Chunk, (∀ d ∈ ct, d.isBad = false) ∧ textOf ct = t
      ∧ chunks (t ++ [x, c]) = ct ++ [⟨[x], 0xFFFD⟩, ⟨[c], (c.toNat : Int)⟩] := by
  obtain ⟨rs, hr, rfl⟩ := ht
  obtain ⟨h1, h2⟩ := ascii_rune hc
  refine ⟨rs.map fun r => ⟨encodeRune r, r⟩, ?_, ?_, ?_⟩
  · intro d hd
    obtain ⟨r, -, rfl⟩ := List.mem_map.1 hd
    simp [Chunk.isBad]
  · have := (reads_runes rs hr .nil).text_eq
    simpa using this
  · apply Reads.chunks_eq
    apply reads_runes rs hr
    refine .bad ?_ ?_
    · intro r t' hv e
      obtain ⟨b, tl, e1, -, e3⟩ := encodeRune_bytes r
      rw [e1, List.cons_append, List.cons.injEq] at e
      obtain ⟨rfl, e⟩ := e
      cases tl with
      | nil => have := encode_ascii e1; omega
      | cons z tl =>
        rw [List.cons_append, List.cons.injEq] at e
        have := e3 z (by simp)
        rw [← e.1] at this
        simp [isCont] at this
        omega
    · have := Reads.rune h1 Reads.nil
      rw [h2] at this
      exact this

theorem valid_of_good {s : Str} {p u : List Chunk} (h : chunks s = p ++ u) (hg : ∀ d ∈ p, d.isBad = false) :
    ValidUtf8 (textOf p) := by
  refine ⟨p.map (·.rune), ?_, ?_⟩
  · intro r hr
    obtain ⟨c, hc, rfl⟩ := List.mem_map.1 hr
    exact ((reads_chunks s).chunk c (by rw [h]; simp [hc])).2.1
  · clear h
    induction p with
    | nil => rfl
    | cons c p ih =>
      have h1 := hg c (by simp)
      simp only [Chunk.isBad, bne_eq_false_iff_eq] at h1
      rw [List.map_cons, encodeRunes_cons, textOf_cons, ih fun d hd => hg d (by simp [hd]), h1]

/-- The only bad chunk of a list. -/
theorem only_bad {a b ct : List Chunk} {c x d : Chunk} (h : a ++ c :: b = ct ++ [x, d]) (hct : ∀ d ∈ ct, d.isBad = false)
    (hd : d.isBad = false) (hc : c.isBad = true) : a = ct ∧ c = x ∧ b = [d] := by
  rcases List.append_eq_append_iff.1 h with ⟨m, h1, h2⟩ | ⟨m, h1, h2⟩
  · cases m with
    | nil =>
      simp only [List.append_nil, List.nil_append, List.cons.injEq] at h1 h2
      exact ⟨h1.symm, h2.1, h2.2⟩
    | cons y m =>
      simp only [List.cons_append, List.cons.injEq] at h2
      have := hct c (by rw [h1, h2.1]; simp)
      rw [hc] at this; cases this
  · cases m with
    | nil =>
      simp only [List.append_nil, List.nil_append, List.cons.injEq] at h1 h2
      exact ⟨h1, h2.1.symm, h2.2.symm⟩
    | cons y m =>
      simp only [List.cons_append, List.cons.injEq] at h2
      have h3 : c ∈ [d] := by rw [h2.2]; simp
      simp at h3; rw [h3, hd] at hc; cases hc

/-- A text with a bad byte before its last, ASCII, byte does not end in a bad byte. -/
theorem not_endsBad {s : Str} (h : BadBeforeLast s) : ¬ EndsBad (chunks s) := by
  obtain ⟨t, x, c, rfl, h1, h2, h3⟩ := h
  obtain ⟨ct, -, -, e⟩ := chunks_tail h1 h2 h3
  rintro ⟨a, d, e2, hd⟩
  rw [e] at e2
  have := congrArg List.getLast? e2
  simp only [List.getLast?_append, List.getLast?_cons_cons, List.getLast?_singleton, Option.some_or,
    Option.some.injEq] at this
  rw [← this] at hd
  simp [Chunk.isBad, (ascii_rune h3).2] at hd

/-- **Panics.** A piece whose alignments end beyond the text: then the text has its first bad byte before
its last, ASCII, byte. -/
theorem panics_only {f : Rune → Bool} (hf : f 0xFFFD = false) (keep : Bool) {s : Str}
    (h : .panics ∈ fates (NS.fromString s) keep 0 (chunkSegs f (chunks s))) : BadBeforeLast s := by
  have good := goodChunks s
  have flat := chunkSegs_flatten f (chunks s)
  obtain ⟨p, y, q, e1, -, e3⟩ := mem_fates.1 h
  have hy : y ∈ chunkSegs f (chunks s) := by rw [e1]; simp
  have hyne := chunkSegs_ne_nil f _ y hy
  rw [e1] at flat
  simp only [List.flatMap_append, List.flatMap_cons] at flat
  have hlen : s.length = (textOf (p.flatMap (·.2))).length + (textOf y.2).length + (textOf (q.flatMap (·.2))).length := by
    rw [← textOf_chunks s, ← flat]; simp; omega
  have hypos : 0 < (textOf y.2).length := by
    cases hy2 : y.2 with
    | nil => exact absurd hy2 hyne
    | cons c g =>
      have := List.length_pos_iff.2 (good c (by rw [← flat, hy2]; simp)).1
      simp; omega
  have pos : ∀ l : List Chunk, (∀ c ∈ l, c ∈ chunks s) → (textOf l).length = 0 → l = [] := by
    intro l hl h0
    cases l with
    | nil => rfl
    | cons c l =>
      have := List.length_pos_iff.2 (good c (hl c (by simp))).1
      simp only [textOf_cons, List.length_append] at h0
      omega
  unfold segFate at e3
  split at e3
  · cases e3
  · rename_i hnr
    split at e3
    · rename_i hov
      rw [over_fromString (by omega)] at hov
      obtain ⟨P, c, u, k1, k2, k3, k4, k5⟩ := hov
      obtain ⟨x, hcx, hx80⟩ := (reads_chunks s).bad_byte c (by rw [k1]; simp) k3
      have hs2 : s.length = (textOf P).length + 1 + (textOf u).length := by
        rw [← textOf_chunks s, k1]; simp [hcx]; omega
      have hcr : c.rune = 0xFFFD := by
        rcases (good c (by rw [k1]; simp)).2 with h | h
        · simp [Chunk.isBad, h] at k3
        · exact h.2
      -- the piece at the very end must not end in a bad byte
      have atEnd : (textOf (q.flatMap (·.2))).length = 0 → ∀ d, (chunks s).getLast? = some d → d.isBad = true → False := by
        intro h0 d hd hb
        have hq := pos (q.flatMap (·.2)) (by intro z hz; rw [← flat]; simp only [List.mem_append]; exact .inr (.inr hz)) h0
        rw [hq] at flat
        simp only [List.append_nil] at flat
        rw [← flat, List.getLast?_append, List.getLast?_eq_some_getLast hyne, Option.some_or] at hd
        apply hnr
        rw [hq, List.getLast?_eq_some_getLast hyne, hd]
        simp [hb]
      cases u with
      | nil =>
        exfalso
        simp only [textOf_nil, List.length_nil] at hs2
        exact atEnd (by omega) c (by rw [k1]; simp) k3
      | cons d u =>
        have hd := good d (by rw [k1]; simp)
        have hdpos := List.length_pos_iff.2 hd.1
        simp only [textOf_cons, List.length_append] at hs2
        have hu : u = [] := pos u (by intro z hz; rw [k1]; simp [hz]) (by omega)
        subst hu
        have hd1 : d.bytes.length = 1 := by simp at hs2; omega
        cases hdb : d.isBad with
        | false =>
          simp only [Chunk.isBad, bne_eq_false_iff_eq] at hdb
          match hb : d.bytes, hd1 with
          | [z], _ =>
            refine ⟨textOf P, x, z, ?_, valid_of_good k1 k2, hx80, ?_⟩
            · rw [← textOf_chunks s, k1]; simp [hcx, hb]
            · rw [hb] at hdb; exact encode_ascii hdb.symm
        | true =>
          exfalso
          by_cases h0 : (textOf (q.flatMap (·.2))).length = 0
          · exact atEnd h0 d (by rw [k1]; simp) hdb
          · have hdr : d.rune = 0xFFFD := by
              rcases hd.2 with h | h
              · simp [Chunk.isBad, h] at hdb
              · exact h.2
            have hq1 : (textOf (q.flatMap (·.2))).length = 1 := by simp at hs2; omega
            -- the rest is the last bad byte alone, and the piece ends in the one before
            obtain ⟨hl1, hl2⟩ : p.flatMap (·.2) ++ y.2 = P ++ [c] ∧ q.flatMap (·.2) = [d] := by
              have e : (p.flatMap (·.2) ++ y.2) ++ q.flatMap (·.2) = (P ++ [c]) ++ [d] := by
                rw [List.append_assoc, flat, k1]; simp
              have hl : (q.flatMap (·.2)).length = 1 := by
                cases hh : q.flatMap (·.2) with
                | nil => rw [hh] at hq1; simp at hq1
                | cons a l =>
                  rw [hh] at hq1
                  have hap := List.length_pos_iff.2 (good a (by
                    rw [← flat]; simp only [List.mem_append]; right; right; rw [hh]; simp)).1
                  simp only [textOf_cons, List.length_append] at hq1
                  have := pos l (by
                    intro z hz; rw [← flat]; simp only [List.mem_append]; right; right; rw [hh]; simp [hz]) (by omega)
                  rw [this]; rfl
              exact List.append_inj' e (by rw [hl]; rfl)
            cases q with
            | nil => simp at hl2
            | cons z q =>
              have hz := chunkSegs_ne_nil f _ z (by rw [e1]; simp)
              have hz2 : d ∈ z.2 := by
                cases hzz : z.2 with
                | nil => exact absurd hzz hz
                | cons w g =>
                  rw [List.flatMap_cons, hzz, List.cons_append, List.cons.injEq] at hl2
                  rw [hl2.1]; simp
              have hy2 : c ∈ y.2 := by
                have := congrArg List.getLast? hl1
                rw [List.getLast?_append, List.getLast?_append, List.getLast?_eq_some_getLast hyne] at this
                simp at this
                rw [← this]; exact List.getLast_mem hyne
              have run : ∀ w ∈ chunkSegs f (chunks s), ∀ e ∈ w.2, e.rune = 0xFFFD → w.1 = false := by
                intro w hw e he hr
                cases hb : w.1 with
                | false => rfl
                | true =>
                  obtain ⟨e', m1, m2, -⟩ := chunkSegs_match f (chunks s) w hw hb
                  rw [m1] at he; simp at he
                  rw [← he, hr, hf] at m2; cases m2
              have r1 := run y hy c hy2 hcr
              have r2 := run z (by rw [e1]; simp) d hz2 hdr
              rcases chunkSegs_adj f (chunks s) e1 with h | h
              · rw [r1] at h; cases h
              · rw [r2] at h; cases h
    · cases e3

/-! ## Split -/

theorem strayAfter_bad {f : Rune → Bool} {s : Str} (h : StrayAfter f (chunks s)) :
    ∃ a d c b x, chunks s = a ++ d :: c :: b ∧ f d.rune = true ∧ c.bytes = [x] ∧ isCont x = true ∧ c.isBad = true
      ∧ c.rune = 0xFFFD := by
  obtain ⟨a, d, c, b, x, e, h1, h2, h3⟩ := h
  have hc := (goodChunks s c (by rw [e]; simp)).2
  have hne : c.bytes ≠ encodeRune c.rune := by
    intro h
    obtain ⟨z, t, e1, e2, -⟩ := encodeRune_bytes c.rune
    rw [h, e1] at h2; cases h2; rw [e2] at h3; cases h3
  exact ⟨a, d, c, b, x, e, h1, h2, h3, by simpa [Chunk.isBad] using hne, (hc.resolve_left hne).2⟩

/-- **C124, Split.** What becomes of cutting a fresh string at the runes that satisfy `f`, whatever its bytes:
refused if a stray continuation byte stands right after such a rune or the last byte is bad; otherwise a
panic if the only bad byte is the last but one and ASCII follows; otherwise fine. -/
theorem C124_split {f : Rune → Bool} (hf : f 0xFFFD = false) (keep : Bool) (s : Str) :
    ((NS.fromString s).split (fromFunc f) (if keep then .isolated else .removed) = .ok (.error .badSplit)
      ↔ StrayAfter f (chunks s) ∨ EndsBad (chunks s))
    ∧ ((NS.fromString s).split (fromFunc f) (if keep then .isolated else .removed) = .panic
      ↔ BadBeforeLast s ∧ ¬ StrayAfter f (chunks s))
    ∧ ((∃ pieces, (NS.fromString s).split (fromFunc f) (if keep then .isolated else .removed) = .ok (.ok pieces))
      ↔ ¬ BadBeforeLast s ∧ ¬ StrayAfter f (chunks s) ∧ ¬ EndsBad (chunks s)) := by
  have key : (StrayAfter f (chunks s) ∨ EndsBad (chunks s) →
        (NS.fromString s).split (fromFunc f) (if keep then .isolated else .removed) = .ok (.error .badSplit))
      ∧ (BadBeforeLast s ∧ ¬ StrayAfter f (chunks s) →
        (NS.fromString s).split (fromFunc f) (if keep then .isolated else .removed) = .panic)
      ∧ (¬ BadBeforeLast s ∧ ¬ StrayAfter f (chunks s) ∧ ¬ EndsBad (chunks s) →
        ∃ pieces, (NS.fromString s).split (fromFunc f) (if keep then .isolated else .removed) = .ok (.ok pieces)) := by
    by_cases hs : s = []
    · subst hs
      refine ⟨?_, ?_, ?_⟩
      · rintro (⟨a, d, c, b, x, e, -⟩ | ⟨a, c, e, -⟩)
        · have := congrArg List.length e
          simp [chunks, chunksAux] at this
        · have := congrArg List.length e
          simp [chunks, chunksAux] at this
      · rintro ⟨⟨t, x, c, e, -⟩, -⟩
        have := congrArg List.length e
        simp at this
      · intro _
        cases keep
        · exact ⟨_, rfl⟩
        · exact ⟨_, rfl⟩
    · have out := split_fates (tidy_fromString s) hf keep (show (NS.fromString s).get ≠ [] from hs)
      have hget : (NS.fromString s).get = s := rfl
      rw [hget] at out
      have ref := refused_iff (NS.fromString s) hf keep (s := s)
      refine ⟨?_, ?_, ?_⟩
      · intro h
        suffices hh : firstFate (fates (NS.fromString s) keep 0 (chunkSegs f (chunks s))) = .refused by
          rw [hh] at out; exact out
        by_cases hbl : BadBeforeLast s
        · obtain ⟨a, d, c, b, x, e, h1, h2, h3, h4, h5⟩ := strayAfter_bad (h.resolve_right (not_endsBad hbl))
          obtain ⟨t, x', c', rfl, w1, w2, w3⟩ := hbl
          obtain ⟨ct, v1, v2, v3⟩ := chunks_tail w1 w2 w3
          have good := goodChunks (t ++ [x', c'])
          have hd : Chunk.isBad ⟨[c'], (c'.toNat : Int)⟩ = false := by simp [Chunk.isBad, (ascii_rune w3).2]
          obtain ⟨u1, u2, u3⟩ := only_bad (a := a ++ [d]) (c := c) (b := b) (by
            rw [← v3, e]; simp) v1 hd h4
          obtain ⟨g, tl, hg⟩ := chunkSegs_run f (c := c) (by rw [h5]; exact hf) b
          have hsegs : chunkSegs f (chunks (t ++ [x', c'])) = (chunkSegs f a ++ [(true, [d])]) ++ (false, c :: g) :: tl := by
            rw [e, chunkSegs_at f h1, hg]; simp
          obtain ⟨A, e1, e2⟩ := fates_append (NS.fromString (t ++ [x', c'])) keep (chunkSegs f a ++ [(true, [d])]) 0
            (false, c :: g) tl
          rw [hsegs, e1, fates]
          have hflat : (chunkSegs f a ++ [(true, [d])]).flatMap (·.2) = ct := by
            rw [List.flatMap_append, chunkSegs_flatten, ← u1]; rfl
          have hr : segFate (NS.fromString (t ++ [x', c'])) (0 + (textOf ct).length) (c :: g)
              (tl.flatMap (·.2)) = .refused := by
            unfold segFate
            have k1 : contFirst (textOf (c :: g)) = true :=
              (contFirst_chunk (good c (by rw [e]; simp))).2 ⟨x, h2, h3, h5⟩
            have k2 : 0 < 0 + (textOf ct).length := by
              have := List.length_pos_iff.2 (good d (by rw [e]; simp)).1
              rw [← u1]; simp; omega
            simp only [k1, k2, decide_true, Bool.and_true, Bool.true_or, if_true]
          rw [hflat]
          simp only [Bool.not_false, Bool.or_true, if_true, List.singleton_append, hr]
          apply firstFate_refused
          intro hp
          obtain ⟨p, y, q, m1, m2⟩ := e2 _ hp
          have hne : y.2 ≠ [] := chunkSegs_ne_nil f (chunks (t ++ [x', c'])) y (by rw [hsegs, m1]; simp)
          have hct : ct = p.flatMap (·.2) ++ (y.2 ++ q.flatMap (·.2)) := by rw [← hflat, m1]; simp
          have hyp : 0 < (textOf y.2).length := by
            cases hy : y.2 with
            | nil => exact absurd hy hne
            | cons z l =>
              have := List.length_pos_iff.2 (good z (by rw [v3, hct, hy]; simp)).1
              simp; omega
          have hle : (textOf (p.flatMap (·.2))).length + (textOf y.2).length ≤ t.length := by
            rw [← v2, hct]; simp
          unfold segFate at m2
          split at m2
          · cases m2
          · split at m2
            · rename_i hov
              rw [over_fromString (by simp; omega)] at hov
              obtain ⟨P, c2, u, k1, k2, k3, k4, k5⟩ := hov
              have := (only_bad (by rw [← v3, k1]) v1 hd k3).1
              rw [this, v2] at k4
              omega
            · cases m2
        · have hm := ref.2 h
          obtain ⟨as, bs, e⟩ := List.append_of_mem hm
          rw [e]
          apply firstFate_refused
          intro hp
          exact hbl (panics_only hf keep (by rw [e]; simp [hp]))
      · rintro ⟨hbl, hns⟩
        suffices hh : firstFate (fates (NS.fromString s) keep 0 (chunkSegs f (chunks s))) = .panics by
          rw [hh] at out; exact out
        apply firstFate_panics
        · intro hr
          rcases ref.1 hr with h | h
          · exact hns h
          · exact not_endsBad hbl h
        · obtain ⟨t, x, c, rfl, w1, w2, w3⟩ := id hbl
          obtain ⟨ct, v1, v2, v3⟩ := chunks_tail w1 w2 w3
          have flat := chunkSegs_flatten f (chunks (t ++ [x, c]))
          have hX : (⟨[x], 0xFFFD⟩ : Chunk) ∈ (chunkSegs f (chunks (t ++ [x, c]))).flatMap (·.2) := by
            rw [flat, v3]; simp
          have hXb : Chunk.isBad ⟨[x], 0xFFFD⟩ = true := by
            unfold Chunk.isBad
            simp only [bne_iff_ne, ne_eq]
            intro h
            have := congrArg List.length h
            rw [List.length_singleton] at this
            revert this; decide +kernel
          have hd : Chunk.isBad ⟨[c], (c.toNat : Int)⟩ = false := by simp [Chunk.isBad, (ascii_rune w3).2]
          obtain ⟨y, hy, hXy⟩ := List.mem_flatMap.1 hX
          obtain ⟨p, q, e1⟩ := List.append_of_mem hy
          obtain ⟨g1, g2, e2⟩ := List.append_of_mem hXy
          have hyb : y.1 = false := by
            cases hb : y.1 with
            | false => rfl
            | true =>
              obtain ⟨e', m1, m2, -⟩ := chunkSegs_match f _ y hy hb
              rw [m1] at hXy; simp at hXy
              rw [← hXy, hf] at m2; cases m2
          obtain ⟨u1, -, u3⟩ := only_bad (a := p.flatMap (·.2) ++ g1) (c := ⟨[x], 0xFFFD⟩) (b := g2 ++ q.flatMap (·.2)) (by
            rw [← v3, ← flat, e1]; simp [e2]) v1 hd hXb
          have hv : segFate (NS.fromString (t ++ [x, c])) (0 + (textOf (p.flatMap (·.2))).length) y.2 (q.flatMap (·.2))
              = .panics := by
            have hnr : segFate (NS.fromString (t ++ [x, c])) (0 + (textOf (p.flatMap (·.2))).length) y.2
                (q.flatMap (·.2)) ≠ .refused := by
              intro h
              have : Fate.refused ∈ fates (NS.fromString (t ++ [x, c])) keep 0 (chunkSegs f (chunks (t ++ [x, c]))) :=
                mem_fates.2 ⟨p, y, q, e1, by simp [hyb], h.symm⟩
              rcases ref.1 this with h | h
              · exact hns h
              · exact not_endsBad hbl h
            have hov : Over (NS.fromString (t ++ [x, c])) (0 + (textOf (p.flatMap (·.2))).length + (textOf y.2).length - 1) := by
              have l1 : (textOf (p.flatMap (·.2))).length + (textOf g1).length = t.length := by
                rw [← v2, ← u1]; simp
              have l2 : (textOf g2).length + (textOf (q.flatMap (·.2))).length = 1 := by
                have := congrArg (fun l => (textOf l).length) u3
                simpa using this
              have l3 : (textOf y.2).length = (textOf g1).length + 1 + (textOf g2).length := by
                rw [e2]; simp; omega
              rw [over_fromString (by simp; omega)]
              exact ⟨ct, _, _, v3, v1, hXb, by rw [v2]; omega, by rw [v2]; simp⟩
            unfold segFate at hnr ⊢
            split
            · rename_i h; rw [if_pos h] at hnr; exact absurd rfl hnr
            · first | rfl | rw [if_pos hov]
          exact mem_fates.2 ⟨p, y, q, e1, by simp [hyb], hv.symm⟩
      · rintro ⟨h1, h2, h3⟩
        suffices hh : firstFate (fates (NS.fromString s) keep 0 (chunkSegs f (chunks s))) = .fine by
          rw [hh] at out; exact out
        apply firstFate_fine
        · intro hr
          exact (ref.1 hr).elim h2 h3
        · intro hp
          exact h1 (panics_only hf keep hp)
  obtain ⟨k1, k2, k3⟩ := key
  have excl : BadBeforeLast s → ¬ EndsBad (chunks s) := not_endsBad
  by_cases c1 : StrayAfter f (chunks s) ∨ EndsBad (chunks s)
  · have r := k1 c1
    rw [r]
    refine ⟨by simp [c1], ?_, ?_⟩
    · constructor
      · intro h; cases h
      · rintro ⟨h1, h2⟩; exact absurd (c1.resolve_left h2) (excl h1)
    · constructor
      · rintro ⟨_, h⟩; cases h
      · rintro ⟨-, h1, h2⟩; exact absurd c1 (by simp [h1, h2])
  · obtain ⟨c1a, c1b⟩ := not_or.1 c1
    by_cases c2 : BadBeforeLast s
    · have r := k2 ⟨c2, c1a⟩
      rw [r]
      refine ⟨?_, by simp [c2, c1a], ?_⟩
      · constructor
        · intro h; cases h
        · intro h; exact absurd h c1
      · constructor
        · rintro ⟨_, h⟩; cases h
        · rintro ⟨h, -⟩; exact absurd c2 h
    · obtain ⟨ps, r⟩ := k3 ⟨c2, c1a, c1b⟩
      rw [r]
      refine ⟨?_, ?_, ?_⟩
      · constructor
        · intro h; cases h
        · intro h; exact absurd h c1
      · constructor
        · intro h; cases h
        · rintro ⟨h, -⟩; exact absurd h c2
      · exact ⟨fun _ => ⟨c2, c1a, c1b⟩, fun _ => ⟨ps, rfl⟩⟩

/-! ## The pre-tokenizers -/

theorem pts_split_one (ns : NS) (pat : SplitPattern) (b : Behavior) :
    (PTS.fromNormalizedString ns).split (splitByPattern pat b) =
      (ns.split pat b).bind fun r => match r with
        | .error e => .ok (PTS.fromNormalizedString ns, some e)
        | .ok nss => .ok (⟨ns.getOriginal, (splitsFromNormalizedStrings nss).filter fun it => !it.ns.isEmpty⟩, none) := by
  simp only [PTS.split, PTS.fromNormalizedString, PTS.splitLoop, splitByPattern]
  cases ns.split pat b with
  | panic => rfl
  | ok r =>
    cases r with
    | error e => rfl
    | ok nss => simp [GoM.bind, GoM.pure_eq]

theorem pts_fates {f : Rune → Bool} (hf : f 0xFFFD = false) (s : Str) :
    ((∃ p, (PTS.fromString s).split (splitByPattern (fromFunc f) .removed) = .ok (p, some .badSplit))
      ↔ StrayAfter f (chunks s) ∨ EndsBad (chunks s))
    ∧ ((PTS.fromString s).split (splitByPattern (fromFunc f) .removed) = .panic
      ↔ BadBeforeLast s ∧ ¬ StrayAfter f (chunks s))
    ∧ ((∃ p, (PTS.fromString s).split (splitByPattern (fromFunc f) .removed) = .ok (p, none))
      ↔ ¬ BadBeforeLast s ∧ ¬ StrayAfter f (chunks s) ∧ ¬ EndsBad (chunks s)) := by
  obtain ⟨h1, h2, h3⟩ := C124_split hf false s
  simp only [Bool.false_eq_true, if_false] at h1 h2 h3
  rw [PTS.fromString, pts_split_one, ← h1, ← h2, ← h3]
  cases (NS.fromString s).split (fromFunc f) .removed with
  | panic => simp [GoM.bind]
  | ok r => cases r <;> simp [GoM.bind]

/-- **C124, white space.** On any byte string, the white-space-split pre-tokenizer reports an error exactly when a stray
continuation byte stands right after white space or the last byte is bad; it panics exactly when, this apart,
the only bad byte is the last but one and ASCII follows it; in all other cases it succeeds. -/
theorem C124_whiteSpaceSplit (s : Str) :
    ((∃ p, whiteSpaceSplit (PTS.fromString s) = .ok (p, some .badSplit))
      ↔ StrayAfter isWhiteSpace (chunks s) ∨ EndsBad (chunks s))
    ∧ (whiteSpaceSplit (PTS.fromString s) = .panic ↔ BadBeforeLast s ∧ ¬ StrayAfter isWhiteSpace (chunks s))
    ∧ ((∃ p, whiteSpaceSplit (PTS.fromString s) = .ok (p, none))
      ↔ ¬ BadBeforeLast s ∧ ¬ StrayAfter isWhiteSpace (chunks s) ∧ ¬ EndsBad (chunks s)) :=
  pts_fates (by decide +kernel) s

/-- **C124, delimiter.** The same for the rune-delimiter pre-tokenizer, for any delimiter except U+FFFD. -/
theorem C124_runeDelimiter {d : Rune} (hd : d ≠ 0xFFFD) (s : Str) :
    ((∃ p, runeDelimiter d (PTS.fromString s) = .ok (p, some .badSplit))
      ↔ StrayAfter (fun r => r == d) (chunks s) ∨ EndsBad (chunks s))
    ∧ (runeDelimiter d (PTS.fromString s) = .panic ↔ BadBeforeLast s ∧ ¬ StrayAfter (fun r => r == d) (chunks s))
    ∧ ((∃ p, runeDelimiter d (PTS.fromString s) = .ok (p, none))
      ↔ ¬ BadBeforeLast s ∧ ¬ StrayAfter (fun r => r == d) (chunks s) ∧ ¬ EndsBad (chunks s)) :=
  pts_fates (f := fun r => r == d) (by simpa using fun e => hd e.symm) s

/-! ## The BERT pre-tokenizer, which cuts twice -/

/-- A bad byte stands right before an ASCII byte. -/
def BadBeforeAscii (cs : List Chunk) : Prop :=
  ∃ (a : List Chunk) (c d : Chunk) (b : List Chunk), cs = a ++ c :: d :: b ∧ c.isBad = true ∧ d.rune < 0x80

theorem badBeforeLast_ascii {s : Str} (h : BadBeforeLast s) : BadBeforeAscii (chunks s) := by
  obtain ⟨t, x, c, rfl, h1, h2, h3⟩ := h
  obtain ⟨ct, -, -, e⟩ := chunks_tail h1 h2 h3
  refine ⟨ct, _, _, [], e, ?_, by simp only; omega⟩
  unfold Chunk.isBad
  simp only [bne_iff_ne, ne_eq]
  intro h
  have := congrArg List.length h
  rw [List.length_singleton] at this
  revert this; decide +kernel

/-- Unless a bad byte stands right before an ASCII byte, the alignments also end one after the other. -/
theorem chunkAligns_stops : ∀ (cs : List Chunk) (i : Nat), GoodChunks cs → ¬ BadBeforeAscii cs →
    (∀ c ∈ cs.head?, ∀ al ∈ chunkAligns i cs, ((i + runeLen c.rune : Nat) : Int) ≤ al.stop) ∧
    (chunkAligns i cs).Pairwise fun x y => x.stop ≤ y.stop := by
  intro cs
  induction cs with
  | nil => intro i _ _; simp [chunkAligns, rangeChunks]
  | cons c cs ih =>
    intro i hg hn
    obtain ⟨h1, h2⟩ := ih (i + c.bytes.length) (fun x hx => hg x (by simp [hx])) (by
      rintro ⟨a, x, y, b, e, h⟩
      exact hn ⟨c :: a, x, y, b, by rw [e]; rfl, h⟩)
    have step : ∀ al ∈ chunkAligns (i + c.bytes.length) cs, ((i + runeLen c.rune : Nat) : Int) ≤ al.stop := by
      intro al hal
      cases cs with
      | nil => simp [chunkAligns, rangeChunks] at hal
      | cons d cs =>
        have := h1 d (by simp) al hal
        have hp := runeLen_pos d.rune
        have : runeLen c.rune ≤ c.bytes.length + runeLen d.rune := by
          rcases (hg c (by simp)).2 with h | ⟨h3, h4⟩
          · rw [h]; unfold runeLen; omega
          · have h5 : runeLen (0xFFFD : Rune) = 3 := by decide +kernel
            have h6 : 2 ≤ runeLen d.rune := by
              by_cases h7 : runeLen d.rune = 1
              · have h8 := runeLen_eq_one.1 h7
                refine absurd ⟨[], c, d, cs, rfl, ?_, h8.2⟩ hn
                unfold Chunk.isBad
                simp only [bne_iff_ne, ne_eq]
                intro h
                have := congrArg List.length h
                rw [h3, h4] at this
                unfold runeLen at h5; omega
              · omega
            rw [h3, h4, h5]; omega
        omega
    rw [chunkAligns_cons]
    constructor
    · intro c' hc' al hal
      simp only [List.head?_cons, Option.mem_def, Option.some.injEq] at hc'
      subst hc'
      rcases List.mem_append.1 hal with h | h
      · have := List.eq_of_mem_replicate h
        subst this; simp
      · exact step al h
    · rw [List.pairwise_append]
      refine ⟨?_, h2, ?_⟩
      · rw [List.pairwise_replicate]; simp
      · intro a ha b hb
        have := List.eq_of_mem_replicate ha
        subst this
        exact step b hb

/-- The pieces a function pattern cuts off a tidy state. -/
theorem split_tidy {ns : NS} (ht : Tidy ns) (hm : ns.alignments.Pairwise fun x y => x.stop ≤ y.stop)
    {f : Rune → Bool} (hf : f 0xFFFD = false) (hne : ns.get ≠ []) {pieces : List NS}
    (h : ns.split (fromFunc f) .removed = .ok (.ok pieces)) : ∀ q ∈ pieces, Tidy q ∧ ∀ k, ¬ Over q k := by
  have hx := C76_split hf false hne (pieces := pieces) (by simpa using h)
  have h1 := split_inv (caps := chunkCaps 0 (chunkSegs f (chunks ns.get))) (by
    show GoM.ok (Except.ok (funcFindMatches f ns.get)) = _
    rw [funcFindMatches_chunks f hf, if_neg hne]) h
  intro q hq
  have hqne : q.get ≠ [] := by
    have : q.get ∈ pieces.map NS.get := List.mem_map.2 ⟨q, hq, rfl⟩
    rw [hx.1, List.mem_map] at this
    obtain ⟨g, hg, e⟩ := this
    have := chunkPieces_ne false f _ g hg
    rw [e] at this; exact this
  have gen : ∀ {gs : List (List Capture)} {ps : List NS},
      All2 (fun g p => ns.slice (.normalized (span g).1 (span g).2) = .ok (some p)) gs ps → q ∈ ps →
      ∃ a b : Int, ns.slice (.normalized a b) = .ok (some q) := by
    intro gs ps hh
    induction hh with
    | nil => intro h; cases h
    | cons a _ ih =>
      intro h
      rcases List.mem_cons.1 h with rfl | h
      · exact ⟨_, _, a⟩
      · exact ih h
  obtain ⟨a, b, hs⟩ := gen h1 hq
  obtain ⟨-, na, nb, oa, ob, als, k1, -, -, k4, -⟩ := slice_ok hs
  simp only [NS.coerceRangeToNormalized, Option.some.injEq, Prod.mk.injEq] at k1
  obtain ⟨rfl, rfl⟩ := k1
  obtain ⟨⟨l1, l2, l3⟩, l4⟩ := goSlice_eq_ok.1 k4
  have l5 := goSlice_length k4
  have l6 : 0 < q.normalized.length := List.length_pos_iff.2 hqne
  have e1 : (a.toNat : Int) = a := by omega
  have e2 : (b.toNat : Int) = b := by omega
  have := slice_tidy ht (a := a.toNat) (b := b.toNat) (by omega) (by omega) (by rw [e1, e2]; exact hs)
  exact ⟨this.1, this.2 hm⟩

/-- Cutting a tidy state whose alignments stay within the original never panics, and is refused for the
same reasons as before. -/
theorem split_within {ns : NS} (ht : Tidy ns) (ho : ∀ k, ¬ Over ns k) {f : Rune → Bool} (hf : f 0xFFFD = false)
    (keep : Bool) (hne : ns.get ≠ []) :
    (StrayAfter f (chunks ns.get) ∨ EndsBad (chunks ns.get) →
      ns.split (fromFunc f) (if keep then .isolated else .removed) = .ok (.error .badSplit))
    ∧ (¬ (StrayAfter f (chunks ns.get) ∨ EndsBad (chunks ns.get)) →
      ∃ pieces, ns.split (fromFunc f) (if keep then .isolated else .removed) = .ok (.ok pieces)) := by
  have out := split_fates ht hf keep hne
  have ref := refused_iff ns hf keep (s := ns.get)
  have nop : .panics ∉ fates ns keep 0 (chunkSegs f (chunks ns.get)) := by
    intro h
    obtain ⟨p, y, q, -, -, e⟩ := mem_fates.1 h
    unfold segFate at e
    split at e
    · cases e
    · rw [if_neg (ho _)] at e; cases e
  constructor
  · intro h
    obtain ⟨as, bs, e⟩ := List.append_of_mem (ref.2 h)
    have : firstFate (fates ns keep 0 (chunkSegs f (chunks ns.get))) = .refused := by
      rw [e]
      apply firstFate_refused
      intro hp
      exact nop (by rw [e]; simp [hp])
    rw [this] at out; exact out
  · intro h
    have : firstFate (fates ns keep 0 (chunkSegs f (chunks ns.get))) = .fine :=
      firstFate_fine (fun hr => h (ref.1 hr)) nop
    rw [this] at out; exact out

theorem splitLoop_within {f : Rune → Bool} (hf : f 0xFFFD = false) : ∀ (ps : List Piece) (i : Nat),
    (∀ p ∈ ps, p.tokens = none ∧ Tidy p.ns ∧ (∀ k, ¬ Over p.ns k) ∧ p.ns.get ≠ []) →
    ((∃ p ∈ ps, StrayAfter f (chunks p.ns.get) ∨ EndsBad (chunks p.ns.get)) →
      ∃ old, PTS.splitLoop (splitByPattern (fromFunc f) .isolated) i ps = .ok (old, .error .badSplit))
    ∧ ((∀ p ∈ ps, ¬ (StrayAfter f (chunks p.ns.get) ∨ EndsBad (chunks p.ns.get))) →
      ∃ old new, PTS.splitLoop (splitByPattern (fromFunc f) .isolated) i ps = .ok (old, .ok new)) := by
  intro ps
  induction ps with
  | nil =>
    intro i _
    refine ⟨?_, ?_⟩
    · rintro ⟨p, hp, -⟩; cases hp
    · intro _; exact ⟨[], [], rfl⟩
  | cons p ps ih =>
    intro i hps
    obtain ⟨h1, h2, h3, h4⟩ := hps p (by simp)
    obtain ⟨pns, ptok⟩ := p
    simp only at h1 h2 h3 h4
    subst h1
    obtain ⟨s1, s2⟩ := split_within h2 h3 hf true h4
    simp only [if_true] at s1 s2
    obtain ⟨i1, i2⟩ := ih (i + 1) fun q hq => hps q (by simp [hq])
    by_cases hp : StrayAfter f (chunks pns.get) ∨ EndsBad (chunks pns.get)
    · constructor
      · intro _
        refine ⟨⟨pns, none⟩ :: ps, ?_⟩
        simp only [PTS.splitLoop, splitByPattern, s1 hp, GoM.bind_ok, GoM.pure_eq]
      · intro h; exact absurd hp (h ⟨pns, none⟩ (by simp))
    · obtain ⟨nss, e⟩ := s2 hp
      constructor
      · rintro ⟨q, hq, hq2⟩
        rcases List.mem_cons.1 hq with rfl | hq
        · exact absurd hq2 hp
        · obtain ⟨old, e2⟩ := i1 ⟨q, hq, hq2⟩
          refine ⟨⟨pns, none⟩ :: old, ?_⟩
          have e3 : splitByPattern (fromFunc f) .isolated i pns = .ok (pns, .ok (splitsFromNormalizedStrings nss)) := by
            simp only [splitByPattern, e, GoM.bind_ok, GoM.pure_eq]
          simp only [PTS.splitLoop, e3, e2, GoM.bind_ok, GoM.pure_eq]
      · intro h
        obtain ⟨old, new, e2⟩ := i2 fun q hq => h q (by simp [hq])
        refine ⟨⟨pns, none⟩ :: old,
          (splitsFromNormalizedStrings nss).filter (fun it => !it.ns.isEmpty) ++ new, ?_⟩
        have e3 : splitByPattern (fromFunc f) .isolated i pns = .ok (pns, .ok (splitsFromNormalizedStrings nss)) := by
          simp only [splitByPattern, e, GoM.bind_ok, GoM.pure_eq]
        simp only [PTS.splitLoop, e3, e2, GoM.bind_ok, GoM.pure_eq]

/-- **C124, BERT.** On any byte string in which no bad byte stands right before an ASCII byte, the BERT pre-tokenizer
does not panic; it reports an error exactly when the text ends in a bad byte, a stray continuation byte stands
right after white space, or one of the words between white space ends in a bad byte or has a stray continuation
byte right after punctuation. -/
theorem C124_bert (u : Uni) (hu : u.isPunct 0xFFFD = false) {s : Str} (hs : ¬ BadBeforeAscii (chunks s)) :
    let wrong := StrayAfter isWhiteSpace (chunks s) ∨ EndsBad (chunks s)
      ∨ ∃ w ∈ chunkPieces false isWhiteSpace (chunks s), StrayAfter u.isPunct w ∨ EndsBad w
    (wrong → ∃ p, bertPreTokenize u (PTS.fromString s) = .ok (p, some .badSplit))
    ∧ (¬ wrong → ∃ p, bertPreTokenize u (PTS.fromString s) = .ok (p, none)) := by
  intro wrong
  have hw : isWhiteSpace 0xFFFD = false := by decide +kernel
  obtain ⟨h1, h2, h3⟩ := C124_whiteSpaceSplit s
  have hbl : ¬ BadBeforeLast s := fun h => hs (badBeforeLast_ascii h)
  by_cases c1 : StrayAfter isWhiteSpace (chunks s) ∨ EndsBad (chunks s)
  · obtain ⟨p, e⟩ := h1.2 c1
    constructor
    · intro _
      refine ⟨p, ?_⟩
      unfold whiteSpaceSplit at e
      simp only [bertPreTokenize, e, GoM.bind_ok, GoM.pure_eq]
    · intro h; exact absurd (c1.imp id .inl) h
  · obtain ⟨k1, k2⟩ := not_or.1 c1
    obtain ⟨p, e⟩ := h3.2 ⟨hbl, k1, k2⟩
    have e' := e
    unfold whiteSpaceSplit at e'
    -- the pieces after the first cut
    have hsplits : ∀ q ∈ p.splits, q.tokens = none ∧ Tidy q.ns ∧ (∀ k, ¬ Over q.ns k) ∧ q.ns.get ≠ [] := by
      rw [PTS.fromString, pts_split_one] at e'
      cases hsp : (NS.fromString s).split (fromFunc isWhiteSpace) .removed with
      | panic => rw [hsp] at e'; cases e'
      | ok r =>
        rw [hsp] at e'
        cases r with
        | error er => cases e'
        | ok nss =>
          simp only [GoM.bind, GoM.ok.injEq, Prod.mk.injEq, and_true] at e'
          subst e'
          intro q hq
          simp only [splitsFromNormalizedStrings, List.mem_filter, List.mem_map] at hq
          obtain ⟨⟨n, hn, rfl⟩, hne⟩ := hq
          have hne' : n.get ≠ [] := by
            intro h0
            have : n.normalized = [] := h0
            simp [NS.isEmpty, this] at hne
          by_cases hs0 : s = []
          · subst hs0
            have : nss = [⟨[], [], [], 0⟩] := by
              have e0 : (NS.fromString []).split (fromFunc isWhiteSpace) .removed = .ok (.ok [⟨[], [], [], 0⟩]) := by
                decide +kernel
              rw [e0] at hsp; simpa using hsp.symm
            rw [this] at hn
            simp at hn
            rw [hn] at hne'
            exact absurd rfl hne'
          · have hm : (NS.fromString s).alignments.Pairwise fun x y => x.stop ≤ y.stop := by
              rw [fromString_aligns]
              exact (chunkAligns_stops (chunks s) 0 (goodChunks s) hs).2
            have := split_tidy (tidy_fromString s) hm hw (show (NS.fromString s).get ≠ [] from hs0) hsp n hn
            exact ⟨rfl, this.1, this.2, hne'⟩
    have texts := C76_whiteSpaceSplit e
    have hcut : (PTS.fromString s).splits.flatMap (cutTexts false isWhiteSpace)
        = (chunkPieces false isWhiteSpace (chunks s)).map textOf := by
      simp [PTS.fromString, PTS.fromNormalizedString, cutTexts, NS.fromString, NS.get]
    rw [hcut] at texts
    have hmem : (∃ q ∈ p.splits, StrayAfter u.isPunct (chunks q.ns.get) ∨ EndsBad (chunks q.ns.get))
        ↔ ∃ w ∈ chunkPieces false isWhiteSpace (chunks s), StrayAfter u.isPunct w ∨ EndsBad w := by
      have own : ∀ w ∈ chunkPieces false isWhiteSpace (chunks s), chunks (textOf w) = w := by
        intro w hw
        simp only [chunkPieces, List.mem_map, List.mem_filter] at hw
        obtain ⟨x, ⟨hx, -⟩, rfl⟩ := hw
        obtain ⟨a, b, e⟩ := chunkSegs_infix _ _ hx
        exact chunks_infix e
      constructor
      · rintro ⟨q, hq, h⟩
        have : q.ns.get ∈ p.splits.map (fun q => q.ns.get) := List.mem_map.2 ⟨q, hq, rfl⟩
        rw [texts, List.mem_map] at this
        obtain ⟨w, hw, e⟩ := this
        rw [← e, own w hw] at h
        exact ⟨w, hw, h⟩
      · rintro ⟨w, hw, h⟩
        have : textOf w ∈ p.splits.map (fun q => q.ns.get) := by
          rw [texts]; exact List.mem_map.2 ⟨w, hw, rfl⟩
        obtain ⟨q, hq, e⟩ := List.mem_map.1 this
        exact ⟨q, hq, by rw [e, own w hw]; exact h⟩
    obtain ⟨l1, l2⟩ := splitLoop_within hu p.splits 0 hsplits
    constructor
    · intro h
      have h' := (h.resolve_left k1).resolve_left k2
      obtain ⟨old, e2⟩ := l1 (hmem.2 h')
      refine ⟨{ p with splits := old }, ?_⟩
      simp only [bertPreTokenize, e', GoM.bind_ok]
      simp only [PTS.split, e2, GoM.bind_ok, GoM.pure_eq]
    · intro h
      obtain ⟨old, new, e2⟩ := l2 (by
        intro q hq hh
        exact h (.inr (.inr (hmem.1 ⟨q, hq, hh⟩))))
      refine ⟨{ p with splits := new }, ?_⟩
      simp only [bertPreTokenize, e', GoM.bind_ok]
      simp only [PTS.split, e2, GoM.bind_ok, GoM.pure_eq]

/-- **C124, valid text.** On valid UTF-8 none of this happens. -/
theorem C124_valid {s : Str} (hs : ValidUtf8 s) (f : Rune → Bool) :
    ¬ StrayAfter f (chunks s) ∧ ¬ EndsBad (chunks s) ∧ ¬ BadBeforeLast s ∧ ¬ BadBeforeAscii (chunks s) := by
  have all : ∀ c ∈ chunks s, c.isBad = false := by
    obtain ⟨rs, hr, rfl⟩ := hs
    have := (reads_runes rs hr .nil).chunks_eq
    simp only [List.append_nil] at this
    rw [this]
    intro d hd
    obtain ⟨r, -, rfl⟩ := List.mem_map.1 hd
    simp [Chunk.isBad]
  have n4 : ¬ BadBeforeAscii (chunks s) := by
    rintro ⟨a, c, d, b, e, h, -⟩
    rw [all c (by rw [e]; simp)] at h; cases h
  refine ⟨?_, ?_, fun h => n4 (badBeforeLast_ascii h), n4⟩
  · intro h
    obtain ⟨a, d, c, b, x, e, -, -, -, h, -⟩ := strayAfter_bad h
    rw [all c (by rw [e]; simp)] at h; cases h
  · rintro ⟨a, c, e, h⟩
    rw [all c (by rw [e]; simp)] at h; cases h

/-- The white-space-split pre-tokenizer panics on `"\xffa"`, and on `"\xff "`; the error comes first for `" \x80a"`. -/
example : whiteSpaceSplit (PTS.fromString [0xFF, 0x61]) = .panic ∧ whiteSpaceSplit (PTS.fromString [0xFF, 0x20]) = .panic
    ∧ (NS.fromString [0x20, 0x80, 0x61]).split (fromFunc isWhiteSpace) .removed = .ok (.error .badSplit) := by
  decide +kernel

/-- **C124, a word cut twice.** The BERT pre-tokenizer panics on `"\xff!bc"`, which the white-space-split
pre-tokenizer takes. -/
theorem C124_bert_panics : bertPreTokenize Unicode.uni (PTS.fromString [0xFF, 0x21, 0x62, 0x63]) = .panic
    ∧ (whiteSpaceSplit (PTS.fromString [0xFF, 0x21, 0x62, 0x63])).bind (fun r => .ok r.2) = .ok none := by
  decide +kernel

end Verif
