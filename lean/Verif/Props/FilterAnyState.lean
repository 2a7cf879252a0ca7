import Verif.Props.TransformAnyState
import Verif.Props.BertBytes

/-! `Map`, `Filter` and `TrimLeftRight` in any state whatever, exactly (C140). -/

set_option autoImplicit false

namespace Verif

/-! ## Specification -/

/-- Where the alignment of rune number `k` is looked up when `k0` is the first rune kept: at byte number `k0`, moved by the length of the
encodings of as many runes as there are from `k0` to `k`, read from byte number `k0` on. -/
def placeKept (ns : NS) (k0 k : Nat) : Nat := k0 + (encodeRunes ((runesOf (ns.normalized.drop k0)).take (k - k0))).length

/-- The runes number `ks` of the text can be kept, and `ps` are the alignments they get. -/
structure KeepsRunes (ns : NS) (ks : List Nat) (ps : List Align) : Prop where
  behind : ns.normalized.length ≤ ns.alignments.length
  enough : ∀ k0 ∈ ks.head?, (runesOf ns.normalized).length ≤ k0 + (runesOf (ns.normalized.drop k0)).length
  each : ps.map some = ks.map fun k => ns.alignments[placeKept ns (ks.headD 0) k]?

/-- The text is `out`, each rune with its alignment for every byte; alignments beyond the old text stay. -/
def keeping (ns : NS) (out : List Rune) (ps : List Align) : NS :=
  { ns with
    normalized := encodeRunes out
    alignments := (out.zip ps).flatMap (fun x => List.replicate (encodeRune x.1).length x.2) ++ ns.alignments.drop ns.normalized.length }

/-- The call returns `out` on the runes number `ks` if they can be kept, and panics otherwise. -/
def KeepsOrPanics (ns : NS) (call : GoM NS) (ks : List Nat) (out : List Rune) : Prop :=
  (∀ ps, KeepsRunes ns ks ps → call = .ok (keeping ns out ps)) ∧ ((¬ ∃ ps, KeepsRunes ns ks ps) → call = .panic)

/-! ## Proofs -/

/-- Each change stands at the rune of its number. -/
inductive Numbered : Nat → List RuneChange → List Nat → Prop
  | nil (i : Nat) : Numbered i [] []
  | cons {i : Nat} {rc : RuneChange} {dest : List RuneChange} {ks : List Nat} :
      rc.change ≤ 0 → Numbered (i + takes rc) dest ks → Numbered i (rc :: dest) (i :: ks)

theorem Numbered.length {i : Nat} {dest : List RuneChange} {ks : List Nat} (h : Numbered i dest ks) : dest.length = ks.length := by
  induction h with
  | nil => rfl
  | cons _ _ ih => simp [ih]

theorem Numbered.calm {i : Nat} {dest : List RuneChange} {ks : List Nat} (h : Numbered i dest ks) : ∀ rc ∈ dest, rc.change ≤ 0 := by
  induction h with
  | nil => simp
  | cons h1 _ ih =>
    intro rc hrc
    rcases List.mem_cons.1 hrc with rfl | hrc
    · exact h1
    · exact ih rc hrc

theorem Numbered.at {i : Nat} {dest : List RuneChange} {ks : List Nat} (h : Numbered i dest ks) :
    ∀ (j k : Nat), ks[j]? = some k → i + consumed (dest.take j) = k := by
  induction h with
  | nil => simp
  | cons h1 _ ih =>
    intro j k hj
    cases j with
    | zero => simp only [List.getElem?_cons_zero, Option.some.injEq] at hj; simp [consumed, hj]
    | succ j =>
      simp only [List.getElem?_cons_succ] at hj
      rw [List.take_succ_cons, consumed_cons, ← ih j k hj]
      omega

theorem Numbered.head {i : Nat} {dest : List RuneChange} {ks : List Nat} (h : Numbered i dest ks) : ∀ k ∈ ks.head?, k = i := by
  cases h with
  | nil => simp
  | cons => simp

theorem keeps_any (ns : NS) (dest : List RuneChange) (i : Nat) (ks : List Nat) (hn : Numbered i dest ks) (hi : i ≤ ns.normalized.length)
    (ht : dest ≠ [] → i + consumed dest = (runesOf ns.normalized).length) :
    KeepsOrPanics ns (ns.transform dest i) ks (dest.map (·.rune)) := by
  have hrd : ((ns.normalized.drop (0 + (i : Int)).toNat).take ((ns.normalized.length : Int) - (0 + (i : Int))).toNat)
      = ns.normalized.drop i := by
    rw [show (0 + (i : Int)).toNat = i by omega, List.take_of_length_le]
    rw [List.length_drop]
    omega
  have hx := C138_exact ns 0 ns.normalized.length dest i
  rw [hrd] at hx
  have hdo : ns.transform dest i = ns.transformRange (.normalized 0 ns.normalized.length) dest i := rfl
  have hplace : ∀ (j k : Nat) rc, dest[j]? = some rc → ks[j]? = some k →
      alignFor ns.alignments rc (placeOf (runesOf (ns.normalized.drop i)) (0 + i) dest j) = ns.alignments[placeKept ns (ks.headD 0) k]? := by
    intro j k rc hj hk
    have hc := hn.calm rc (List.mem_of_getElem? hj)
    have hk' := hn.at j k hk
    have hh : ks.headD 0 = i := by
      cases ks with
      | nil => simp at hk
      | cons k0 ks => exact hn.head k0 (by simp)
    rw [hh]
    simp only [alignFor, if_neg (show ¬ 1 ≤ rc.change by omega), placeOf, placeKept]
    rw [show k - i = consumed (dest.take j) by omega]
    congr 1
    omega
  have hconv : ∀ ps, KeepsRunes ns ks ps ↔ Possible ns 0 ns.normalized.length dest i (runesOf (ns.normalized.drop i)) ps := by
    intro ps
    constructor
    · intro h
      have hl : ps.length = ks.length := by simpa using congrArg List.length h.each
      refine ⟨⟨by omega, by omega, by omega⟩, ⟨by omega, by omega⟩, by have := h.behind; omega, ?_, by rw [hl, hn.length], ?_⟩
      · cases hn with
        | nil => exact Nat.zero_le _
        | cons h1 h2 =>
          have := ht (by simp)
          have := h.enough i (by simp)
          omega
      · intro j rc hj
        have hj' : j < ks.length := by rw [← hn.length]; exact (List.getElem?_eq_some_iff.1 hj).1
        rw [hplace j ks[j] rc hj (List.getElem?_eq_getElem hj')]
        have := congrArg (·[j]?) h.each
        simp only [List.getElem?_map, List.getElem?_eq_getElem hj', Option.map_some] at this
        rw [List.getElem?_eq_getElem (by omega : j < ps.length)] at this ⊢
        simp only [Option.map_some, Option.some.injEq] at this
        exact this.symm
    · intro h
      have hl := h.length
      have hkl := hn.length
      refine ⟨by have := h.behind; omega, ?_, ?_⟩
      · intro k0 hk0
        have := hn.head k0 hk0
        subst this
        cases hn with
        | nil => simp at hk0
        | cons h1 h2 =>
          have := ht (by simp)
          have := h.enough
          omega
      · apply List.ext_getElem?
        intro j
        by_cases hj : j < ks.length
        · have hd : j < dest.length := by omega
          have := h.picks j dest[j] (List.getElem?_eq_getElem hd)
          rw [hplace j ks[j] dest[j] (List.getElem?_eq_getElem hd) (List.getElem?_eq_getElem hj)] at this
          simp only [List.getElem?_map, List.getElem?_eq_getElem hj, Option.map_some]
          rw [this, List.getElem?_eq_getElem (by omega : j < ps.length)]
          rfl
        · rw [List.getElem?_eq_none (by simp; omega), List.getElem?_eq_none (by simp; omega)]
  refine ⟨?_, ?_⟩
  · intro ps h
    rw [hdo, hx.1 ps ((hconv ps).1 h)]
    simp only [changed, keeping, Int.toNat_zero, List.take_zero, List.nil_append, Int.toNat_natCast, List.drop_length, List.append_nil]
    rw [List.zip_map_left, List.flatMap_map]
    rfl
  · intro h
    rw [hdo]
    exact hx.2 fun ⟨ps, hp⟩ => h ⟨ps, (hconv ps).2 hp⟩

theorem numbered_steps : ∀ (dest : List RuneChange) (i : Nat), (∀ rc ∈ dest, rc.change ≤ 0) →
    (∀ j rc, j + 1 < dest.length → dest[j]? = some rc → takes rc = 1) → Numbered i dest (List.range' i dest.length) := by
  intro dest
  induction dest with
  | nil => intro i _ _; exact .nil i
  | cons rc dest ih =>
    intro i h1 h2
    refine .cons (h1 rc (by simp)) ?_
    cases dest with
    | nil => exact .nil _
    | cons rc' dest =>
      rw [h2 0 rc (by simp) rfl]
      exact ih (i + 1) (fun x hx => h1 x (by simp [hx])) (fun j x hj hx => h2 (j + 1) x (by simpa using hj) (by simpa using hx))

theorem consumed_eachOne (dest : List RuneChange) (h : ∀ rc ∈ dest, takes rc = 1) : consumed dest = dest.length := by
  induction dest with
  | nil => rfl
  | cons rc dest ih =>
    rw [consumed_cons, h rc (by simp), ih fun x hx => h x (by simp [hx])]
    simp; omega

theorem consumed_concat (dest : List RuneChange) (rc : RuneChange) : consumed (dest ++ [rc]) = consumed dest + takes rc := by
  induction dest with
  | nil => simp [consumed_cons, consumed]
  | cons x dest ih => rw [List.cons_append, consumed_cons, consumed_cons, ih]; omega

theorem filterGo_numbered (keep : Rune → Bool) : ∀ (rs : List Rune) (lr : Rune) (n i : Nat),
    Numbered i (filterGo keep lr n rs) (i :: ((rs.zipIdx (i + n + 1)).filter (fun x => keep x.1)).map (·.2))
      ∧ consumed (filterGo keep lr n rs) = n + 1 + rs.length := by
  intro rs
  induction rs with
  | nil =>
    intro lr n i
    refine ⟨.cons (by simp only; omega) (.nil _), ?_⟩
    simp only [filterGo, consumed_cons, takes, consumed]
    rw [if_neg (by omega)]
    simp; omega
  | cons r rs ih =>
    intro lr n i
    have htk : takes ⟨lr, -(n : Int)⟩ = n + 1 := by
      simp only [takes]
      rw [if_neg (by omega)]
      omega
    by_cases hk : keep r = true
    · obtain ⟨h1, h2⟩ := ih r 0 (i + n + 1)
      simp only [filterGo, hk, if_true, List.zipIdx_cons, List.filter_cons, List.map_cons]
      refine ⟨.cons (by simp only; omega) ?_, ?_⟩
      · rw [htk]; exact h1
      · rw [consumed_cons, h2, htk]; simp; omega
    · obtain ⟨h1, h2⟩ := ih lr (n + 1) i
      simp only [filterGo, hk, Bool.false_eq_true, if_false, List.zipIdx_cons, List.filter_cons]
      refine ⟨?_, ?_⟩
      · have : i + n + 1 + 1 = i + (n + 1) + 1 := by omega
        rw [this]; exact h1
      · rw [h2]; simp; omega

/-- **C140, Map.** -/
theorem C140_map (ns : NS) (f : Rune → Rune) :
    KeepsOrPanics ns (ns.map f) (List.range (runesOf ns.normalized).length) ((runesOf ns.normalized).map f) := by
  have hc : ∀ rc ∈ (runesOf ns.normalized).map (fun r => (⟨f r, 0⟩ : RuneChange)), takes rc = 1 := by
    intro rc hrc
    obtain ⟨r, -, rfl⟩ := List.mem_map.1 hrc
    rfl
  have h := keeps_any ns ((runesOf ns.normalized).map fun r => ⟨f r, 0⟩) 0 (List.range (runesOf ns.normalized).length) (by
    have := numbered_steps ((runesOf ns.normalized).map fun r => (⟨f r, 0⟩ : RuneChange)) 0
      (by intro rc hrc; obtain ⟨r, -, rfl⟩ := List.mem_map.1 hrc; exact Int.le_refl _)
      (fun j rc _ hj => hc rc (List.mem_of_getElem? hj))
    rwa [List.length_map, ← List.range_eq_range'] at this) (Nat.zero_le _) (by
      intro _
      rw [consumed_eachOne _ hc]; simp)
  rw [List.map_map] at h
  exact h

theorem filterChanges_numbered (keep : Rune → Bool) (rs : List Rune) :
    Numbered (NS.filterChanges keep rs).2 (NS.filterChanges keep rs).1 ((rs.zipIdx.filter fun x => keep x.1).map (·.2))
      ∧ ((NS.filterChanges keep rs).1 ≠ [] → (NS.filterChanges keep rs).2 + consumed (NS.filterChanges keep rs).1 = rs.length) := by
  have hsplit := List.takeWhile_append_dropWhile (p := fun r => !keep r) (l := rs)
  have hl : ∀ r ∈ rs.takeWhile (fun r => !keep r), keep r = false := by
    intro r hr
    have := List.all_eq_true.1 (List.all_takeWhile (p := fun r => !keep r) (l := rs)) r hr
    simpa using this
  have hh : ∀ r ∈ (rs.dropWhile (fun r => !keep r)).head?, keep r = true := by
    intro r hr
    have := List.head?_dropWhile_not (fun r => !keep r) rs
    rw [Option.mem_def.1 hr] at this
    simpa using this
  generalize rs.takeWhile (fun r => !keep r) = lead at *
  generalize rs.dropWhile (fun r => !keep r) = rest at *
  subst hsplit
  have hlead : ∀ n, (lead.zipIdx n).filter (fun x => keep x.1) = [] := by
    intro n
    rw [List.filter_eq_nil_iff]
    intro x hx
    have := List.fst_mem_of_mem_zipIdx hx
    simp [hl x.1 this]
  cases rest with
  | nil =>
    rw [List.append_nil, filterChanges_none keep lead hl, hlead]
    exact ⟨.nil _, fun h => absurd rfl h⟩
  | cons r rest =>
    have hr := hh r (by simp)
    rw [filterChanges_eq keep lead r rest hl hr]
    obtain ⟨h1, h2⟩ := filterGo_numbered keep rest r 0 lead.length
    refine ⟨?_, fun _ => ?_⟩
    · rw [List.zipIdx_append, List.filter_append, hlead, List.nil_append, List.zipIdx_cons, List.filter_cons, if_pos hr, List.map_cons]
      simpa using h1
    · simp only [h2, List.length_append, List.length_cons]
      omega

/-- **C140, Filter.** -/
theorem C140_filter (ns : NS) (keep : Rune → Bool) :
    KeepsOrPanics ns (ns.filter keep) (((runesOf ns.normalized).zipIdx.filter fun x => keep x.1).map (·.2))
      ((runesOf ns.normalized).filter keep) := by
  have hru := filterChanges_runes keep (runesOf ns.normalized)
  obtain ⟨h1, h2⟩ := filterChanges_numbered keep (runesOf ns.normalized)
  rw [← hru]
  exact keeps_any ns _ _ _ h1 (filterChanges_start keep ns.normalized) h2

theorem leadingSpaces_takeWhile (rs : List Rune) : countLeadingSpaces rs = (rs.takeWhile isWhiteSpace).length := by
  induction rs with
  | nil => rfl
  | cons r rs ih =>
    by_cases h : isWhiteSpace r = true
    · simp [countLeadingSpaces, h, ih]
    · simp [countLeadingSpaces, h]

theorem trimChanges_numbered (rs : List Rune) (l t : Nat) (hlt : l + t ≤ rs.length) :
    Numbered l (NS.trimChanges rs l t) (List.range' l (rs.length - t - l))
      ∧ (NS.trimChanges rs l t).map (·.rune) = (rs.drop l).take (rs.length - t - l)
      ∧ (NS.trimChanges rs l t ≠ [] → l + consumed (NS.trimChanges rs l t) = rs.length) := by
  have hlen : ((rs.drop l).take (rs.length - t - l)).length = rs.length - t - l := by
    rw [List.length_take, List.length_drop]; omega
  have hcalm := trimChanges_calm rs l t
  unfold NS.trimChanges at *
  generalize hk : (rs.drop l).take (rs.length - t - l) = kept at *
  simp only at *
  refine ⟨?_, ?_, ?_⟩
  · have := numbered_steps (kept.mapIdx fun i r => ⟨r, if i + 1 = kept.length then -(t : Int) else 0⟩) l hcalm (by
      intro j rc hj hx
      rw [List.length_mapIdx] at hj
      rw [List.getElem?_mapIdx] at hx
      obtain ⟨r, -, rfl⟩ := Option.map_eq_some_iff.1 hx
      simp only [takes]
      rw [if_neg (by omega : ¬ j + 1 = kept.length)]
      rfl)
    rw [List.length_mapIdx] at this
    rw [← hlen]
    exact this
  · apply List.ext_getElem?
    intro i
    simp only [List.getElem?_map, List.getElem?_mapIdx]
    cases kept[i]? <;> rfl
  · intro hne
    rcases List.eq_nil_or_concat kept with rfl | ⟨ini, r, rfl⟩
    · exact absurd rfl hne
    · rw [List.concat_eq_append] at *
      rw [List.mapIdx_concat, consumed_concat, consumed_eachOne]
      · simp only [takes, List.length_mapIdx, List.length_append, List.length_cons, List.length_nil] at hlen ⊢
        simp only [if_true]
        rw [if_neg (by omega)]
        omega
      · intro rc hrc
        obtain ⟨i, hi, rfl⟩ := List.mem_mapIdx.1 hrc
        simp only [takes, List.length_append, List.length_cons, List.length_nil]
        rw [if_neg (by omega : ¬ i + 1 = ini.length + (0 + 1))]
        rfl

theorem takeWhile_length_le {α : Type} (p : α → Bool) (l : List α) : (l.takeWhile p).length ≤ l.length := by
  have := congrArg List.length (List.takeWhile_append_dropWhile (p := p) (l := l))
  rw [List.length_append] at this
  omega

theorem takeWhile_stops {α : Type} (p : α → Bool) (l : List α) (x : α) (r : List α) (hx : p x = false) :
    ((l ++ x :: r).takeWhile p).length ≤ l.length := by
  induction l with
  | nil => simp [hx]
  | cons y l ih =>
    by_cases hy : p y = true
    · simpa [hy] using ih
    · simp [hy]

theorem trimmed_le (rs : List Rune) (left right : Bool) :
    let lead := if left then (rs.takeWhile isWhiteSpace).length else 0
    lead + (if right ∧ lead < rs.length then (rs.reverse.takeWhile isWhiteSpace).length else 0) ≤ rs.length := by
  intro lead
  have hl : lead ≤ rs.length := by
    simp only [lead]
    split
    · exact takeWhile_length_le _ _
    · exact Nat.zero_le _
  split
  · rename_i hc
    cases left with
    | false =>
      have := takeWhile_length_le isWhiteSpace rs.reverse
      rw [List.length_reverse] at this
      simp only [lead, Bool.false_eq_true, if_false]
      omega
    | true =>
      have hs := List.takeWhile_append_dropWhile (p := isWhiteSpace) (l := rs)
      have hh := List.head?_dropWhile_not isWhiteSpace rs
      have hlead : lead = (rs.takeWhile isWhiteSpace).length := by simp [lead]
      rw [hlead] at hc ⊢
      generalize rs.takeWhile isWhiteSpace = w at *
      generalize rs.dropWhile isWhiteSpace = d at *
      subst hs
      cases d with
      | nil => simp at hc
      | cons x d =>
        simp only [List.head?_cons] at hh
        have := takeWhile_stops isWhiteSpace d.reverse x w.reverse (by simpa using hh)
        rw [List.reverse_append, List.reverse_cons, List.append_assoc]
        simp only [List.cons_append, List.nil_append, List.length_reverse, List.length_append, List.length_cons] at this ⊢
        omega
  · omega

/-- **C140, TrimLeftRight.** `lead` and `trail` are the numbers of white-space runes at the two ends, 0 for an end that is not to be
trimmed; if all is white space only one of them counts. -/
theorem C140_trim (ns : NS) (left right : Bool) :
    let rs := runesOf ns.normalized
    let lead := if left then (rs.takeWhile isWhiteSpace).length else 0
    let trail := if right ∧ lead < rs.length then (rs.reverse.takeWhile isWhiteSpace).length else 0
    (lead = 0 ∧ trail = 0 → ns.trimLeftRight left right = .ok ns)
    ∧ (¬ (lead = 0 ∧ trail = 0) →
      KeepsOrPanics ns (ns.trimLeftRight left right) (List.range' lead (rs.length - trail - lead))
        ((rs.drop lead).take (rs.length - trail - lead))) := by
  intro rs lead trail
  have hl : (if left then countLeadingSpaces rs else 0) = lead := by rw [leadingSpaces_takeWhile]
  have ht : (if right ∧ lead < rs.length then countTrailingSpaces rs else 0) = trail := by
    rw [countTrailingSpaces, leadingSpaces_takeWhile]
  have hdef : ns.trimLeftRight left right = if lead = 0 ∧ trail = 0 then .ok ns else ns.transform (NS.trimChanges rs lead trail) lead := by
    simp only [NS.trimLeftRight]
    rw [show runesOf ns.normalized = rs from rfl, hl, ht]
  have hle : lead + trail ≤ rs.length := trimmed_le rs left right
  constructor
  · intro h
    rw [hdef, if_pos h]
  · intro h
    rw [hdef, if_neg h]
    obtain ⟨h1, h2, h3⟩ := trimChanges_numbered rs lead trail hle
    rw [← h2]
    refine keeps_any ns _ _ _ h1 ?_ h3
    have : rs.length ≤ ns.normalized.length := runesOf_length_le _
    omega

/-! ## Concrete -/

/-- Two letters behind a bad byte: `Map` looks up the alignments of the letters two bytes too far, which works as long as there are that
many, and `Filter`, when it takes the bad byte away, at their own bytes; `Trim` panics with an alignment short. -/
theorem C140_example :
    (⟨[0xFF, 0x61, 0x62], [0xFF, 0x61, 0x62], [⟨0, 1⟩, ⟨1, 2⟩, ⟨2, 3⟩, ⟨3, 4⟩, ⟨4, 5⟩], 0⟩ : NS).filter (· != 0xFFFD)
      = .ok ⟨[0xFF, 0x61, 0x62], b!"ab", [⟨1, 2⟩, ⟨2, 3⟩, ⟨3, 4⟩, ⟨4, 5⟩], 0⟩
    ∧ (⟨[0xFF, 0x61, 0x62], [0xFF, 0x61, 0x62], [⟨0, 1⟩, ⟨1, 2⟩, ⟨2, 3⟩, ⟨3, 4⟩, ⟨4, 5⟩], 0⟩ : NS).map (fun r => r)
      = .ok ⟨[0xFF, 0x61, 0x62], b!"\uFFFDab", [⟨0, 1⟩, ⟨0, 1⟩, ⟨0, 1⟩, ⟨3, 4⟩, ⟨4, 5⟩, ⟨3, 4⟩, ⟨4, 5⟩], 0⟩
    ∧ (⟨[0xFF, 0x61, 0x62], [0xFF, 0x61, 0x62], [⟨0, 1⟩, ⟨1, 2⟩, ⟨2, 3⟩], 0⟩ : NS).map (fun r => r) = .panic
    ∧ (⟨b!" a", b!" a", [⟨0, 1⟩], 0⟩ : NS).trimLeftRight true true = .panic := by
  decide +kernel

end Verif
