import Verif.Props.ByteLevelPre
import Verif.Spec.Gpt
import Verif.Props.FromString

/-! Property C60 for the default expression: the pieces of the byte-level pre-tokenizer. -/

set_option autoImplicit false

namespace Verif

/-! ## What the parts of the expression match -/

theorem lit_matches (lower : Rune → Rune) : ∀ (c : List Rune) (rs : List Rune), c ≠ [] →
    (Re.lit lower c).matches' rs = if (rs.take c.length).map lower = c then [c.length] else [] := by
  intro c
  induction c with
  | nil => intro rs h; exact absurd rfl h
  | cons a c ih =>
    intro rs _
    cases c with
    | nil =>
      cases rs with
      | nil => simp [Re.lit, Re.matches']
      | cons r rs => simp [Re.lit, Re.matches']
    | cons b c =>
      cases rs with
      | nil => simp [Re.lit, Re.matches']
      | cons r rs =>
        have i1 := ih rs (by simp)
        simp only [Re.lit, Re.matches']
        by_cases h : lower r = a
        · simp only [h, beq_self_eq_true, if_true, List.flatMap_cons, List.flatMap_nil, List.append_nil,
            List.drop_succ_cons, List.drop_zero, i1]
          by_cases h2 : (rs.take (b :: c).length).map lower = b :: c
          · rw [if_pos h2, if_pos (by simpa [h] using h2)]
            simp; omega
          · rw [if_neg h2, if_neg (by simpa [h] using h2)]
            rfl
        · simp [h]

/-- The length of the leading run of a class. -/
def lead (p : Rune → Bool) (rs : List Rune) : Nat := (rs.takeWhile p).length

theorem spacedRun_first (u : RxUni) (hu : SaneTables u) (p : Rune → Bool) (rs : List Rune) :
    (spacedRun u p).first rs =
      if rs.head? = some 32 ∧ lead p (rs.drop 1) ≠ 0 then some (1 + lead p (rs.drop 1))
      else if lead p rs ≠ 0 then some (lead p rs) else none := by
  have hl := lit_matches u.lower [32] rs (by simp)
  have hh : (rs.take 1).map u.lower = [32] ↔ rs.head? = some 32 := by
    cases rs with
    | nil => simp
    | cons r rs => simp [hu.lower32]
  unfold Re.first spacedRun
  simp only [Re.matches', hl, List.length_cons, List.length_nil, Nat.zero_add, List.head?_flatMap,
    List.head?_map, List.findSome?_append]
  have hr : ∀ n : Nat, (((List.range n).reverse.map (· + 1)).head?) = if n = 0 then none else some n :=
    Re.range_rev_head
  simp only [List.head?_map] at hr
  have e : ∀ l, (List.takeWhile p l).length = lead p l := fun _ => rfl
  simp only [e]
  by_cases h : rs.head? = some 32
  · rw [if_pos (hh.2 h)]
    simp only [List.findSome?_cons, List.findSome?_nil, hr, List.drop_zero, h, true_and]
    generalize lead p (rs.drop 1) = x
    generalize lead p rs = y
    cases x <;> cases y <;> simp
  · rw [if_neg (fun h' => h (hh.1 h'))]
    simp only [List.findSome?_cons, List.findSome?_nil, hr, List.drop_zero, h, false_and, if_false]
    generalize lead p rs = y
    cases y <;> simp

theorem lead_le (p : Rune → Bool) (rs : List Rune) : lead p rs ≤ rs.length :=
  (List.takeWhile_prefix (p := p) (l := rs)).length_le

/-- The rune behind the leading run is not of the class. -/
theorem lead_stop (p : Rune → Bool) (rs : List Rune) : ∀ r ∈ (rs.drop (lead p rs)).head?, p r = false := by
  unfold lead; rw [drop_takeWhile]; exact takeWhile_head rs

theorem lead_all (p : Rune → Bool) (rs : List Rune) : ∀ r ∈ rs.take (lead p rs), p r = true := by
  unfold lead; rw [take_takeWhile]
  exact fun r hr => List.all_eq_true.1 List.all_takeWhile r hr

theorem notAhead_matches (p : Rune → Bool) (rs : List Rune) :
    (Re.notAhead p).matches' rs = if (rs.head?.any p) then [] else [0] := by
  cases rs with
  | nil => rfl
  | cons r rs => cases h : p r <;> simp [Re.matches', h]

theorem space_before_first (u : RxUni) (rs : List Rune) :
    (Re.seq (.plus u.space) (.notAhead fun r => !u.space r)).first rs =
      if lead u.space rs = 0 then none
      else if lead u.space rs = rs.length then some rs.length
      else if lead u.space rs = 1 then none else some (lead u.space rs - 1) := by
  have hle := lead_le u.space rs
  have hstop := lead_stop u.space rs
  have hall := lead_all u.space rs
  unfold Re.first
  simp only [Re.matches', List.head?_flatMap, List.head?_map, notAhead_matches]
  rw [show (rs.takeWhile u.space).length = lead u.space rs from rfl]
  cases hn : lead u.space rs with
  | zero => rfl
  | succ n =>
    rw [hn] at hle hstop hall
    simp only [List.range_succ, List.reverse_append, List.reverse_cons, List.reverse_nil, List.nil_append,
      List.cons_append, List.map_cons, List.findSome?_cons]
    by_cases he : n + 1 = rs.length
    · have : rs.drop (n + 1) = [] := List.drop_eq_nil_of_le (by omega)
      rw [this, if_neg (show ¬ n + 1 = 0 by omega), if_pos he, ← he]
      rfl
    · have hd : ∃ r t, rs.drop (n + 1) = r :: t := by
        cases h : rs.drop (n + 1) with
        | nil =>
          have := congrArg List.length h
          simp only [List.length_drop, List.length_nil] at this; omega
        | cons r t => exact ⟨r, t, rfl⟩
      obtain ⟨r, t, hd⟩ := hd
      have hr := hstop r (by simp [hd])
      cases n with
      | zero => simp [hd, hr, he]
      | succ m =>
        have hm : ∃ t, rs.drop (m + 1) = rs[m + 1]'(by omega) :: t := ⟨_, List.drop_eq_getElem_cons (by omega)⟩
        obtain ⟨t', hm⟩ := hm
        have hs : u.space (rs[m + 1]'(by omega)) = true := hall _ (by
          rw [List.mem_take_iff_getElem]
          exact ⟨m + 1, by omega, rfl⟩)
        rw [hd, if_neg (show ¬ m + 1 + 1 = 0 by omega), if_neg he, if_neg (show ¬ m + 1 + 1 = 1 by omega)]
        simp only [List.range_succ, List.reverse_append, List.reverse_cons, List.reverse_nil, List.nil_append,
          List.cons_append, List.map_cons, List.findSome?_cons, hm]
        simp [hr, hs]

theorem first_alt (a b : Re) (rs : List Rune) : (Re.alt a b).first rs = (a.first rs).or (b.first rs) := by
  simp [Re.first, Re.matches', List.head?_append]

theorem lit_first (lower : Rune → Rune) {c : List Rune} (hc : c ≠ []) (rs : List Rune) :
    (Re.lit lower c).first rs = if (rs.take c.length).map lower = c then some c.length else none := by
  unfold Re.first
  rw [lit_matches lower c rs hc]
  split <;> rfl

/-! ## The piece at the start of a text -/

theorem sort4_letter (u : RxUni) (r : Rune) : sort4 u r = .letter ↔ u.letter r = true := by
  unfold sort4; cases u.letter r <;> cases u.number r <;> cases u.space r <;> simp

theorem sort4_number {u : RxUni} (hu : SaneTables u) (r : Rune) : sort4 u r = .number ↔ u.number r = true := by
  have := hu.letter_number r
  unfold sort4; cases h1 : u.letter r <;> cases h2 : u.number r <;> cases u.space r <;> simp_all

theorem sort4_white {u : RxUni} (hu : SaneTables u) (r : Rune) : sort4 u r = .white ↔ u.space r = true := by
  have h1 := hu.letter_space r
  have h2 := hu.number_space r
  unfold sort4; cases h3 : u.letter r <;> cases h4 : u.number r <;> cases h5 : u.space r <;> simp_all

theorem sort4_other (u : RxUni) (r : Rune) : sort4 u r = .other ↔ u.other r = true := by
  unfold sort4 RxUni.other; cases u.letter r <;> cases u.number r <;> cases u.space r <;> simp

theorem sort4_space {u : RxUni} (hu : SaneTables u) : sort4 u 32 = .white := by
  rw [sort4_white hu, hu.space]; decide +kernel

/-- A run found by ` ?p+` is a piece. -/
theorem spacedRun_piece {u : RxUni} (hu : SaneTables u) {p : Rune → Bool} {k : Sort4}
    (hp : ∀ r, sort4 u r = k ↔ p r = true) (hk : k ≠ .white) {rs : List Rune} (hc : ¬ StartsContraction u rs)
    {n : Nat} (h : (spacedRun u p).first rs = some n) : 0 < n ∧ GptPiece u (rs.take n) (rs.drop n) := by
  rw [spacedRun_first u hu] at h
  split at h
  · rename_i h1
    obtain ⟨h1, h2⟩ := h1
    cases rs with
    | nil => simp at h1
    | cons r rs =>
      simp only [List.head?_cons, Option.some.injEq] at h1; subst h1
      simp only [List.drop_succ_cons, List.drop_zero, Option.some.injEq] at h h2
      subst h
      rw [Nat.add_comm]
      refine ⟨by omega, ?_⟩
      rw [List.take_succ_cons, List.drop_succ_cons]
      refine GptPiece.run (sp := [32]) (k := k) (Or.inr rfl) ?_ hk ?_ ?_ ?_
      · intro h
        have := congrArg List.length h
        have := lead_le p rs
        simp only [List.length_take, List.length_nil] at *; omega
      · intro r hr; exact (hp r).2 (lead_all p rs r hr)
      · intro r hr h; have := lead_stop p rs r hr; rw [(hp r).1 h] at this; simp at this
      · rw [List.append_assoc, List.take_append_drop]; exact hc
  · split at h
    · rename_i h2
      simp only [Option.some.injEq] at h; subst h
      refine ⟨by omega, ?_⟩
      refine GptPiece.run (sp := []) (k := k) (Or.inl rfl) ?_ hk ?_ ?_ ?_
      · intro h
        have := congrArg List.length h
        have := lead_le p rs
        simp only [List.length_take, List.length_nil] at *; omega
      · intro r hr; exact (hp r).2 (lead_all p rs r hr)
      · intro r hr h; have := lead_stop p rs r hr; rw [(hp r).1 h] at this; simp at this
      · rw [List.nil_append, List.take_append_drop]; exact hc
    · simp at h

/-- Where ` ?p+` finds nothing there is no rune of the class, also not behind a space. -/
theorem spacedRun_none {u : RxUni} (hu : SaneTables u) {p : Rune → Bool} {rs : List Rune}
    (h : (spacedRun u p).first rs = none) :
    (∀ r ∈ rs.head?, p r = false) ∧ (rs.head? = some 32 → ∀ r ∈ (rs.drop 1).head?, p r = false) := by
  have key : ∀ l : List Rune, lead p l = 0 → ∀ r ∈ l.head?, p r = false := by
    intro l hl r hr
    have := lead_stop p l r
    rw [hl, List.drop_zero] at this
    exact this hr
  rw [spacedRun_first u hu] at h
  split at h
  · simp at h
  · rename_i h1
    split at h
    · simp at h
    · rename_i h2
      refine ⟨key _ (by simpa using h2), fun h3 => key _ ?_⟩
      apply Classical.byContradiction
      exact fun h4 => h1 ⟨h3, h4⟩

/-- **The expression finds the GPT-2 pieces.** At the start of every non-empty text it matches
exactly such a piece. -/
theorem splittingRegexp_first {u : RxUni} (hu : SaneTables u) {rs : List Rune} (hne : rs ≠ []) :
    ∃ k, (splittingRegexp u).first rs = some k ∧ 0 < k ∧ GptPiece u (rs.take k) (rs.drop k) := by
  unfold splittingRegexp
  simp only [first_alt]
  have hlit : ∀ c, c ∈ contractions → ∀ X : Option Nat,
      ((StartsContraction u rs ∧ ¬ (rs.take c.length).map u.lower = c) ∨ ¬ StartsContraction u rs →
        ∃ k, X = some k ∧ 0 < k ∧ GptPiece u (rs.take k) (rs.drop k)) →
      ∃ k, ((Re.lit u.lower c).first rs).or X = some k ∧ 0 < k ∧ GptPiece u (rs.take k) (rs.drop k) := by
    intro c hc X hX
    have hcne : c ≠ [] := by
      intro h; subst h; revert hc; decide
    rw [lit_first u.lower hcne]
    by_cases h : (rs.take c.length).map u.lower = c
    · rw [if_pos h]
      exact ⟨_, rfl, List.length_pos_iff.2 hcne, .contraction (by rw [h]; exact hc)⟩
    · rw [if_neg h]
      apply hX
      by_cases hs : StartsContraction u rs
      · exact Or.inl ⟨hs, h⟩
      · exact Or.inr hs
  by_cases hs : StartsContraction u rs
  · -- one of the seven
    refine hlit _ (by decide) _ fun h1 => hlit _ (by decide) _ fun h2 => hlit _ (by decide) _ fun h3 =>
      hlit _ (by decide) _ fun h4 => hlit _ (by decide) _ fun h5 => hlit _ (by decide) _ fun h6 =>
      hlit _ (by decide) _ fun h7 => ?_
    exfalso
    obtain ⟨c, hc, h⟩ := hs
    simp only [contractions, List.mem_cons, List.not_mem_nil, or_false] at hc
    have hs : StartsContraction u rs := ⟨c, by simpa [contractions] using hc, h⟩
    simp only [hs, true_and, not_true_eq_false, or_false] at h1 h2 h3 h4 h5 h6 h7
    rcases hc with rfl | rfl | rfl | rfl | rfl | rfl | rfl <;> contradiction
  · refine hlit _ (by decide) _ fun _ => hlit _ (by decide) _ fun _ => hlit _ (by decide) _ fun _ =>
      hlit _ (by decide) _ fun _ => hlit _ (by decide) _ fun _ => hlit _ (by decide) _ fun _ =>
      hlit _ (by decide) _ fun _ => ?_
    have hrun : ∀ {p : Rune → Bool} {k : Sort4} {X : Option Nat}, (∀ r, sort4 u r = k ↔ p r = true) → k ≠ .white →
        ((spacedRun u p).first rs = none → ∃ n, X = some n ∧ 0 < n ∧ GptPiece u (rs.take n) (rs.drop n)) →
        ∃ n, ((spacedRun u p).first rs).or X = some n ∧ 0 < n ∧ GptPiece u (rs.take n) (rs.drop n) := by
      intro p k X hp hk hX
      cases h : (spacedRun u p).first rs with
      | none => exact hX h
      | some n => exact ⟨n, rfl, spacedRun_piece hu hp hk hs h⟩
    refine hrun (sort4_letter u) (by simp) fun h1 => hrun (sort4_number hu) (by simp) fun h2 =>
      hrun (sort4_other u) (by simp) fun h3 => ?_
    have h1 := spacedRun_none hu h1
    have h2 := spacedRun_none hu h2
    have h3 := spacedRun_none hu h3
    -- only white space is left
    have hwhite : ∀ r, u.letter r = false → u.number r = false → u.other r = false → u.space r = true := by
      intro r a b c
      simpa [RxUni.other, a, b] using c
    have hpl : (Re.plus u.space).first rs = if lead u.space rs = 0 then none else some (lead u.space rs) :=
      Re.range_rev_head _
    rw [space_before_first, hpl]
    have hle := lead_le u.space rs
    have hall := lead_all u.space rs
    have hstop := lead_stop u.space rs
    have hall' : ∀ n ≤ lead u.space rs, ∀ r ∈ rs.take n, sort4 u r = .white := by
      intro n hn r hr
      rw [sort4_white hu]
      exact hall r (List.take_subset_take_left rs hn hr)
    have hpos : 0 < lead u.space rs := by
      cases rs with
      | nil => exact absurd rfl hne
      | cons r rs =>
        have := hwhite r (h1.1 r (by simp)) (h2.1 r (by simp)) (h3.1 r (by simp))
        simp [lead, List.takeWhile_cons_of_pos this]
    have htake : ∀ n, 0 < n → rs.take n ≠ [] := by
      intro n hn h
      have := congrArg List.length h
      have := List.length_pos_iff.2 hne
      simp only [List.length_take, List.length_nil] at *; omega
    have h0 : ¬ lead u.space rs = 0 := by omega
    simp only [if_neg h0]
    by_cases he : lead u.space rs = rs.length
    · rw [if_pos he]
      refine ⟨_, rfl, by omega, ?_⟩
      rw [List.drop_length]
      refine .atEnd (htake _ (by omega)) (hall' _ (by omega)) ?_
      rwa [List.take_length]
    · rw [if_neg he]
      have hrest : rs.drop (lead u.space rs) ≠ [] := by
        intro h
        have := congrArg List.length h
        simp only [List.length_drop, List.length_nil] at this; omega
      have hnw : ∀ r ∈ (rs.drop (lead u.space rs)).head?, sort4 u r ≠ .white := by
        intro r hr h
        have := hstop r hr
        rw [(sort4_white hu r).1 h] at this; simp at this
      by_cases h1' : lead u.space rs = 1
      · rw [if_pos h1', h1']
        rw [h1'] at hrest hnw hall'
        refine ⟨1, rfl, by omega, ?_⟩
        cases rs with
        | nil => exact absurd rfl hne
        | cons w rs =>
          simp only [List.take_succ_cons, List.take_zero, List.drop_succ_cons, List.drop_zero] at hrest hnw hall' ⊢
          refine .single (hall' 1 (by omega) w (by simp)) ?_ hrest hnw hs
          intro hw
          subst hw
          cases rs with
          | nil => exact absurd rfl hrest
          | cons r rs =>
            have := hwhite r (h1.2 rfl r (by simp)) (h2.2 rfl r (by simp)) (h3.2 rfl r (by simp))
            exact hnw r (by simp) ((sort4_white hu r).2 this)
      · rw [if_neg h1']
        refine ⟨_, rfl, by omega, ?_⟩
        have hd : rs.drop (lead u.space rs - 1) = rs[lead u.space rs - 1]'(by omega) :: rs.drop (lead u.space rs) := by
          rw [List.drop_eq_getElem_cons (by omega)]
          congr 2; omega
        rw [hd]
        refine .before (htake _ (by omega)) (hall' _ (by omega)) ?_ hrest hnw ?_
        · exact hall' _ (Nat.le_refl _) _ (by
            rw [List.mem_take_iff_getElem]
            exact ⟨lead u.space rs - 1, by omega, rfl⟩)
        · rw [← hd, List.take_append_drop]; exact hs

/-! ## All the pieces -/

theorem splittingRegexp_nil (u : RxUni) : (splittingRegexp u).first [] = none := by
  simp [splittingRegexp, Re.first, Re.matches', spacedRun, Re.lit]

theorem splittingRegexp_pieces {u : RxUni} (hu : SaneTables u) (n : Nat) : ∀ (rs : List Rune), rs.length ≤ n →
    ∀ (i : Nat) (pre : List Rune),
    GptPieces u pre rs (locate true pre (matchSegs i ((splittingRegexp u).scan rs i 0) rs))
      ∧ ∀ m ∈ (splittingRegexp u).scan rs i 0, 0 < m.2 := by
  induction n with
  | zero =>
    intro rs h i pre
    have : rs = [] := List.length_eq_zero_iff.1 (by omega)
    subst this
    have : (splittingRegexp u).scan [] i 0 = [] := by simp [Re.scan, splittingRegexp_nil]
    rw [this]
    exact ⟨.nil, by simp⟩
  | succ n ih =>
    intro rs h i pre
    by_cases hne : rs = []
    · subst hne; exact ih [] (by simp) i pre
    · obtain ⟨k, h1, h2, h3⟩ := splittingRegexp_first hu hne
      have hpos := List.length_pos_iff.2 hne
      obtain ⟨i1, i2⟩ := ih (rs.drop k) (by simp; omega) (i + k) (pre ++ rs.take k)
      rw [Re.scan_match h1 h2 i]
      refine ⟨?_, ?_⟩
      · have := GptPieces.cons (pre := pre) (g := rs.take k) (post := rs.drop k) (by
          intro h
          have := congrArg List.length h
          simp only [List.length_take, List.length_nil] at this; omega) h3 i1
        rw [List.take_append_drop] at this
        simpa [matchSegs, locate] using this
      · intro m hm
        rcases List.mem_cons.1 hm with rfl | hm
        · exact h2
        · exact i2 m hm

/-! ## Fresh inputs -/

/-- The runes with the added space. -/
def spacedRunes (prefixSpace : Bool) (rs : List Rune) : List Rune :=
  match rs with
  | [] => []
  | r :: rs => if prefixSpace && !isWhiteSpace r then 32 :: r :: rs else r :: rs

theorem spaced_runes (b : Bool) (cs : List Ch) : (spaced b cs).map (·.1) = spacedRunes b (cs.map (·.1)) := by
  cases cs with
  | nil => rfl
  | cons c cs => simp only [spaced, spacedRunes, List.map_cons]; split <;> rfl

/-- The text with one table rune for every byte. -/
def tableText (g : List Rune) : Str := encodeRunes ((encodeRunes g).map byteToRune)

theorem map_locate (ns : NS) (F : List Rune × List Rune → ByteSplit) (full : List Ch)
    (hF : ∀ A B C : List Ch, full = A ++ B ++ C → B ≠ [] → byteSplitOf ns B = F (A.map (·.1), B.map (·.1))) :
    ∀ (t : List (Bool × List Ch)) (A : List Ch), (∀ x ∈ t, x.2 ≠ []) → full = A ++ t.flatMap (·.2) →
    (t.map fun x => byteSplitOf ns x.2) = (locate true (A.map (·.1)) (segRunes t)).map F := by
  intro t
  induction t with
  | nil => intro A _ _; rfl
  | cons x t ih =>
    intro A hne h
    have h' : full = A ++ x.2 ++ t.flatMap (·.2) := by rw [h]; simp
    have i1 := ih (A ++ x.2) (fun y hy => hne y (by simp [hy])) h'
    have := hF A x.2 _ h' (hne x (by simp))
    simp only [List.map_cons, segRunes, locate, Bool.not_true, Bool.and_false, Bool.false_eq_true, if_false,
      List.singleton_append] at i1 ⊢
    rw [this, i1, List.map_append]

theorem selfChars_cut {i : Nat} {rs : List Rune} {A B C : List Ch} (h : selfChars i rs = A ++ B ++ C) :
    A = selfChars i (A.map (·.1)) ∧ B = selfChars (i + (encodeRunes (A.map (·.1))).length) (B.map (·.1)) := by
  have e : rs = A.map (·.1) ++ (B.map (·.1) ++ C.map (·.1)) := by
    have := congrArg (List.map (·.1)) h
    rw [selfChars_map_fst] at this
    simpa using this
  have hl : ∀ i (l : List Rune), (selfChars i l).length = l.length := by
    intro i l
    have := congrArg List.length (selfChars_map_fst i l)
    simpa using this
  rw [e, selfChars_append, selfChars_append, List.append_assoc] at h
  obtain ⟨h1, h2⟩ := List.append_inj h (by simp [hl])
  obtain ⟨h3, -⟩ := List.append_inj h2 (by simp [hl])
  exact ⟨h1.symm, h3.symm⟩

theorem firstAlign_self {i : Nat} {g : List Rune} (h : g ≠ []) : (firstAlign (selfChars i g)).start = i := by
  cases g with
  | nil => exact absurd rfl h
  | cons r g => rfl

theorem lastAlign_self {i : Nat} {g : List Rune} (h : g ≠ []) :
    (lastAlign (selfChars i g)).stop = (i : Int) + (encodeRunes g).length := by
  obtain ⟨l, h1, h2⟩ := selfChars_last (i := i) h
  simp [lastAlign, h1, h2]

/-- The byte split of the piece `x.2` standing after `x.1` in the text with the added space: the
offsets are those in the input, so the added space counts for nothing; if it is a piece of its own
it has the offsets of the first character. -/
def spacedSplit (first : Rune) (x : List Rune × List Rune) : ByteSplit :=
  ⟨tableText x.2, ⟨((encodeRunes x.1).length - 1 : Nat),
    if x.1 ++ x.2 = [32] then (encodeRune first).length else ((encodeRunes (x.1 ++ x.2)).length - 1 : Nat)⟩, none⟩

/-- The byte split of the piece `x.2` standing after `x.1` in the input. -/
def plainSplit (x : List Rune × List Rune) : ByteSplit :=
  ⟨tableText x.2, ⟨(encodeRunes x.1).length, (encodeRunes (x.1 ++ x.2)).length⟩, none⟩

theorem byteSplitOf_plain {ns : NS} (h0 : ns.originalShift = 0) {rs : List Rune} {A B C : List Ch}
    (h : selfChars 0 rs = A ++ B ++ C) (hB : B ≠ []) :
    byteSplitOf ns B = plainSplit (A.map (·.1), B.map (·.1)) := by
  obtain ⟨-, h2⟩ := selfChars_cut h
  have hne : B.map (·.1) ≠ [] := by simpa using hB
  have e1 := firstAlign_self (i := 0 + (encodeRunes (A.map (·.1))).length) hne
  have e2 := lastAlign_self (i := 0 + (encodeRunes (A.map (·.1))).length) hne
  rw [← h2] at e1 e2
  simp [byteSplitOf, plainSplit, h0, e1, e2, tableText, text]

theorem byteSplitOf_spaced {ns : NS} (h0 : ns.originalShift = 0) {c : Rune} {rs : List Rune} {A B C : List Ch}
    (h : ((32 : Int), (⟨0, (encodeRune c).length⟩ : Align)) :: selfChars 0 (c :: rs) = A ++ B ++ C) (hB : B ≠ []) :
    byteSplitOf ns B = spacedSplit c (A.map (·.1), B.map (·.1)) := by
  have h32 : encodeRune 32 = [32] := by decide +kernel
  cases A with
  | cons a A =>
    simp only [List.cons_append, List.cons.injEq] at h
    obtain ⟨rfl, h⟩ := h
    have := byteSplitOf_plain h0 h hB
    have hne : B.map (·.1) ≠ [] := by simpa using hB
    rw [this]
    simp [plainSplit, spacedSplit, h32, hB]
  | nil =>
    cases B with
    | nil => exact absurd rfl hB
    | cons b B =>
      simp only [List.nil_append, List.cons_append, List.cons.injEq] at h
      obtain ⟨rfl, h⟩ := h
      by_cases hB' : B = []
      · subst hB'
        simp [byteSplitOf, spacedSplit, firstAlign, lastAlign, h0, tableText, text]
      · have h' : selfChars 0 (c :: rs) = [] ++ B ++ C := by simpa using h
        obtain ⟨-, h2⟩ := selfChars_cut h'
        have hne : B.map (·.1) ≠ [] := by simpa using hB'
        have e2 := lastAlign_self (i := 0) hne
        simp only [List.map_nil, encodeRunes_nil, List.length_nil, Nat.add_zero] at h2
        rw [← h2] at e2
        have e3 : lastAlign (((32 : Int), (⟨0, (encodeRune c).length⟩ : Align)) :: B) = lastAlign B :=
          lastAlign_append_of_ne (as := [_]) hB'
        simp [byteSplitOf, spacedSplit, h0, e2, e3, firstAlign, tableText, text, h32, hB']

/-- **C60, any engine, fresh inputs.** For every valid non-empty input and every engine whose
matches are not empty, in order and in bounds, the byte-level pre-tokenizer succeeds and its byte
splits are the matches and the gaps between them, in the input with the added space. -/
theorem C60_engine (findAll2 : List Rune → Except Err (List (Nat × Nat))) (b : Bool) {r : Rune} {rs : List Rune}
    (hv : ∀ x ∈ r :: rs, ValidRune x) {ms : List (Nat × Nat)} (he : findAll2 (spacedRunes b (r :: rs)) = .ok ms)
    (ho : Ordered2 ms 0 (spacedRunes b (r :: rs)).length) (hp : ∀ m ∈ ms, 0 < m.2) :
    ∃ pts, byteLevel findAll2 b (PTS.fromString (encodeRunes (r :: rs))) = .ok (pts, none)
      ∧ pts.getOriginalByteSplits = (locate true [] (matchSegs 0 ms (spacedRunes b (r :: rs)))).map
        (if b && !isWhiteSpace r then spacedSplit r else plainSplit) := by
  have hr := fromString_repr (s := encodeRunes (r :: rs)) ⟨_, hv, rfl⟩
  rw [runesOf_encodeRunes _ hv] at hr
  have hwf := fromString_wf (s := encodeRunes (r :: rs)) ⟨_, hv, rfl⟩
  have hsp := spaced_runes b (selfChars 0 (r :: rs))
  rw [selfChars_map_fst] at hsp
  have hlen : (spaced b (selfChars 0 (r :: rs))).length = (spacedRunes b (r :: rs)).length := by
    rw [← hsp, List.length_map]
  obtain ⟨pts, k1, -, k3⟩ := C60_state findAll2 b (encodeRunes (r :: rs)) hwf hr (by simp [selfChars])
    (by rw [hsp]; exact he) (by rw [hlen]; exact ho) hp
  have hsh : (NS.fromString (encodeRunes (r :: rs))).originalShift = 0 := rfl
  refine ⟨pts, k1, ?_⟩
  rw [k3, ← hsp, ← matchSegs_map]
  have hfl : (matchSegs 0 ms (spaced b (selfChars 0 (r :: rs)))).flatMap (·.2) = spaced b (selfChars 0 (r :: rs)) := by
    rcases matchSegs_flatten ms 0 (spaced b (selfChars 0 (r :: rs))) with h | h
    · exact h
    · exact absurd (by rw [Nat.zero_add, hlen]; exact ho) h
  have hseg := matchSegs_ne_nil ms 0 (spaced b (selfChars 0 (r :: rs))) hp (by rw [Nat.zero_add, hlen]; exact ho)
  refine map_locate _ _ (spaced b (selfChars 0 (r :: rs))) ?_ _ [] hseg (by rw [hfl]; rfl)
  intro A B C h hB
  by_cases hc : (b && !isWhiteSpace r) = true
  · rw [if_pos hc]
    refine byteSplitOf_spaced hsh (rs := rs) (C := C) ?_ hB
    rw [← h]
    simp [spaced, selfChars, hc, runeLen]
  · rw [if_neg hc]
    refine byteSplitOf_plain hsh (rs := r :: rs) (C := C) ?_ hB
    rw [← h]
    simp [spaced, selfChars, hc]

/-! ## The default expression on fresh inputs -/

/-- The pieces put together are the text, in order. -/
theorem GptPieces.flatten {u : RxUni} {pre rest : List Rune} {L : List (List Rune × List Rune)}
    (h : GptPieces u pre rest L) : L.flatMap (·.2) = rest := by
  induction h with
  | nil => rfl
  | cons _ _ _ ih => simp [ih]

/-- Every piece stands where its prefix says. -/
theorem GptPieces.located {u : RxUni} {pre rest : List Rune} {L : List (List Rune × List Rune)}
    (h : GptPieces u pre rest L) : ∀ x ∈ L, x.2 ≠ [] ∧ ∃ mid post, x.1 = pre ++ mid ∧ rest = mid ++ x.2 ++ post
      ∧ GptPiece u x.2 post := by
  induction h with
  | nil => simp
  | @cons pre g post L hg hp _ ih =>
    intro x hx
    rcases List.mem_cons.1 hx with rfl | hx
    · exact ⟨hg, [], post, by simp, by simp, hp⟩
    · obtain ⟨h1, mid, po, h2, h3, h4⟩ := ih x hx
      exact ⟨h1, g ++ mid, po, by simp [h2], by simp [h3], h4⟩

/-- A space before something else than white space is never a piece of its own. -/
theorem GptPiece.not_space {u : RxUni} (hu : SaneTables u) {r : Rune} {rs g post : List Rune}
    (hr : isWhiteSpace r = false) (h : GptPiece u g post) (e : 32 :: r :: rs = g ++ post) : g ≠ [32] := by
  have hw : sort4 u r ≠ .white := by
    intro h; rw [sort4_white hu, hu.space, hr] at h; simp at h
  have h32 := (hu.lower32 32).2 rfl
  intro hg
  subst hg
  have hpost : post = r :: rs := by simpa using e.symm
  generalize hG : ([32] : List Rune) = G at h
  cases h with
  | contraction hc =>
    subst hG
    simp [contractions, h32] at hc
  | run h1 h2 h3 h4 _ _ =>
    rcases h1 with rfl | rfl
    · rw [List.nil_append] at hG
      subst hG
      exact h3 ((h4 32 (by simp)).symm.trans (sort4_space hu))
    · simp at hG
      exact h2 (by simpa using hG)
  | atEnd => simp at hpost
  | before _ _ h1 =>
    simp only [List.cons.injEq] at hpost
    exact hw (hpost.1 ▸ h1)
  | single _ h1 => simp at hG; exact h1 hG.symm

/-- The offsets follow each other without gap or overlap from `i` to `n`. -/
def TileOffsets : List ByteOffsets → Int → Int → Prop
  | [], i, n => i = n
  | o :: os, i, n => o.start = i ∧ i ≤ o.stop ∧ TileOffsets os o.stop n

/-- The number of bytes added in front of the input. -/
def addedBytes (b : Bool) (rs : List Rune) : Nat := (spacedRunes b rs).length - rs.length

/-- **C60.** For every valid input the byte-level pre-tokenizer with the default expression
succeeds.  Its byte splits are the GPT-2 pieces of the input with the added space, each written
with one table rune per byte, with the offsets of the piece in the input. -/
theorem C60_byteLevel {u : RxUni} (hu : SaneTables u) (b : Bool) (rs : List Rune) (hv : ∀ r ∈ rs, ValidRune r) :
    ∃ pts L, byteLevel (splittingRegexp u).findAll b (PTS.fromString (encodeRunes rs)) = .ok (pts, none)
      ∧ GptPieces u [] (spacedRunes b rs) L
      ∧ pts.getOriginalByteSplits = L.map fun x => ⟨tableText x.2,
        ⟨((encodeRunes x.1).length - addedBytes b rs : Nat),
          ((encodeRunes (x.1 ++ x.2)).length - addedBytes b rs : Nat)⟩, none⟩ := by
  cases rs with
  | nil =>
    obtain ⟨pts, h1, h2⟩ := C60_empty (splittingRegexp u).findAll b
    exact ⟨pts, [], h1, .nil, by simp [PTS.getOriginalByteSplits, h2]⟩
  | cons r rs =>
    obtain ⟨h1, h2⟩ := splittingRegexp_pieces hu (spacedRunes b (r :: rs)).length (spacedRunes b (r :: rs))
      (Nat.le_refl _) 0 []
    obtain ⟨pts, k1, k2⟩ := C60_engine (splittingRegexp u).findAll b hv rfl
      ((splittingRegexp u).findAll_ordered _) h2
    refine ⟨pts, _, k1, h1, ?_⟩
    rw [k2]
    apply List.map_congr_left
    intro x hx
    obtain ⟨hxne, mid, post, hpre, hrest, hpiece⟩ := h1.located x hx
    by_cases hc : (b && !isWhiteSpace r) = true
    · have e : spacedRunes b (r :: rs) = 32 :: r :: rs := by simp only [spacedRunes, if_pos hc]
      have hd : addedBytes b (r :: rs) = 1 := by rw [addedBytes, e]; simp
      have hne : x.1 ++ x.2 ≠ [32] := by
        intro h
        rw [e] at hrest
        rw [List.nil_append] at hpre
        have hm : mid = [] := by
          have h1 := congrArg List.length h
          have h2 := List.length_pos_iff.2 hxne
          rw [hpre] at h1
          simp only [List.length_append, List.length_cons, List.length_nil] at h1
          exact List.length_eq_zero_iff.1 (by omega)
        rw [hpre, hm, List.nil_append] at h
        rw [hm, List.nil_append] at hrest
        have hr : isWhiteSpace r = false := by
          simp only [Bool.and_eq_true, Bool.not_eq_true'] at hc; exact hc.2
        exact hpiece.not_space hu hr hrest h
      rw [if_pos hc, spacedSplit, if_neg hne, hd]
    · have e : spacedRunes b (r :: rs) = r :: rs := by simp only [spacedRunes, if_neg hc]
      have hd : addedBytes b (r :: rs) = 0 := by rw [addedBytes, e]; simp
      rw [if_neg hc, plainSplit, hd]
      rfl

/-- What was added is nothing or one space. -/
theorem spacedRunes_cases (b : Bool) (rs : List Rune) :
    (spacedRunes b rs = rs ∧ addedBytes b rs = 0)
      ∨ (∃ r t, rs = r :: t ∧ isWhiteSpace r = false ∧ b = true ∧ spacedRunes b rs = 32 :: rs ∧ addedBytes b rs = 1) := by
  cases rs with
  | nil => left; exact ⟨rfl, rfl⟩
  | cons r t =>
    by_cases hc : (b && !isWhiteSpace r) = true
    · right
      have e : spacedRunes b (r :: t) = 32 :: r :: t := by simp only [spacedRunes, if_pos hc]
      simp only [Bool.and_eq_true, Bool.not_eq_true'] at hc
      exact ⟨r, t, rfl, hc.2, hc.1, e, by rw [addedBytes, e]; simp⟩
    · left
      have e : spacedRunes b (r :: t) = r :: t := by simp only [spacedRunes, if_neg hc]
      exact ⟨e, by rw [addedBytes, e]; simp⟩

theorem tableText_decode (g : List Rune) : (runesOf (tableText g)).map runeToByte = encodeRunes g := by
  unfold tableText
  rw [runesOf_encodeRunes _ (by
    intro r hr
    obtain ⟨b, -, rfl⟩ := List.mem_map.1 hr
    exact (byteToRune_good b).1), List.map_map]
  have e : runeToByte ∘ byteToRune = id := funext runeToByte_byteToRune
  rw [e, List.map_id]

/-- **C60, nothing is lost.** Reading the splits through the inverse table gives back the input,
after the added space if there is one; and the offsets of the splits tile the input. -/
theorem C60_lossless {u : RxUni} (hu : SaneTables u) (b : Bool) (rs : List Rune) (hv : ∀ r ∈ rs, ValidRune r)
    {pts : PTS} (h : byteLevel (splittingRegexp u).findAll b (PTS.fromString (encodeRunes rs)) = .ok (pts, none)) :
    (pts.getOriginalByteSplits.flatMap fun s => (runesOf s.string).map runeToByte) = encodeRunes (spacedRunes b rs)
      ∧ TileOffsets (pts.getOriginalByteSplits.map (·.offsets)) 0 (encodeRunes rs).length := by
  obtain ⟨pts', L, k1, k2, k3⟩ := C60_byteLevel hu b rs hv
  rw [k1] at h
  simp at h; subst h
  rw [k3]
  constructor
  · rw [List.flatMap_map]
    simp only [tableText_decode]
    rw [← k2.flatten]
    clear k1 k2 k3
    induction L with
    | nil => rfl
    | cons x L ih => simp [ih]
  · have h32 : (encodeRune 32).length = 1 := by decide +kernel
    have hlen : (encodeRunes rs).length + addedBytes b rs = (encodeRunes (spacedRunes b rs)).length := by
      rcases spacedRunes_cases b rs with ⟨e1, e2⟩ | ⟨r, t, -, -, -, e1, e2⟩
      · rw [e1, e2]; rfl
      · rw [e1, e2]; simp [h32]; omega
    have key : ∀ {pre rest : List Rune} {L : List (List Rune × List Rune)}, GptPieces u pre rest L →
        TileOffsets (L.map fun x => (⟨((encodeRunes x.1).length - addedBytes b rs : Nat),
          ((encodeRunes (x.1 ++ x.2)).length - addedBytes b rs : Nat)⟩ : ByteOffsets))
          ((encodeRunes pre).length - addedBytes b rs : Nat)
          ((encodeRunes (pre ++ rest)).length - addedBytes b rs : Nat) := by
      intro pre rest L h
      induction h with
      | nil => simp [TileOffsets]
      | cons _ _ _ ih =>
        refine ⟨rfl, ?_, ?_⟩
        · simp only [encodeRunes_append, List.length_append]; omega
        · simp only [List.append_assoc] at ih ⊢; exact ih
    have := key k2
    rw [List.nil_append, ← hlen] at this
    simpa [Function.comp_def] using this

/-- **C60, the default.** `NewDefault` adds the space: for every valid input its splits are the GPT-2
pieces of the input with the added space, and reading them through the inverse table gives the input
after a space, unless it begins with white space. -/
theorem C60_default {u : RxUni} (hu : SaneTables u) (r : Rune) (rs : List Rune) (hv : ∀ x ∈ r :: rs, ValidRune x) :
    ∃ pts L, byteLevelDefault u (PTS.fromString (encodeRunes (r :: rs))) = .ok (pts, none)
      ∧ GptPieces u [] (spacedRunes true (r :: rs)) L
      ∧ pts.getOriginalByteSplits.map (·.string) = (L.map fun x => tableText x.2)
      ∧ (pts.getOriginalByteSplits.flatMap fun s => (runesOf s.string).map runeToByte)
        = (if isWhiteSpace r then [] else [32]) ++ encodeRunes (r :: rs) := by
  obtain ⟨pts, L, h1, h2, h3⟩ := C60_byteLevel hu true (r :: rs) hv
  refine ⟨pts, L, h1, h2, by simp [h3], ?_⟩
  rw [(C60_lossless hu true (r :: rs) hv h1).1]
  have h32 : encodeRune 32 = [32] := by decide +kernel
  cases hw : isWhiteSpace r <;> simp [spacedRunes, hw, h32]

/-- **C60, the offsets are right.** The bytes of the input at the offsets of a split are those of
its piece, without the added space. -/
theorem C60_offsets {u : RxUni} (hu : SaneTables u) (b : Bool) (rs : List Rune) (hv : ∀ r ∈ rs, ValidRune r)
    {pts : PTS} (h : byteLevel (splittingRegexp u).findAll b (PTS.fromString (encodeRunes rs)) = .ok (pts, none)) :
    ∀ s ∈ pts.getOriginalByteSplits, goSlice (encodeRunes rs) s.offsets.start s.offsets.stop = .ok
      (if s.offsets.start = 0 then ((runesOf s.string).map runeToByte).drop (addedBytes b rs)
        else (runesOf s.string).map runeToByte) := by
  obtain ⟨pts', L, k1, k2, k3⟩ := C60_byteLevel hu b rs hv
  rw [k1] at h
  simp at h; subst h
  intro s hs
  rw [k3] at hs
  obtain ⟨x, hx, rfl⟩ := List.mem_map.1 hs
  obtain ⟨hxne, mid, post, hpre, hrest, hpiece⟩ := k2.located x hx
  rw [List.nil_append] at hpre
  subst hpre
  simp only [tableText_decode]
  have h32 : encodeRune 32 = [32] := by decide +kernel
  have hpos : ∀ r : Rune, 0 < (encodeRune r).length := fun r => List.length_pos_iff.2 (encodeRune_ne_nil r)
  rcases spacedRunes_cases b rs with ⟨e1, e2⟩ | ⟨r, t, hrs, hr, -, e1, e2⟩
  · rw [e1] at hrest
    rw [e2, hrest]
    simp only [encodeRunes_append, Nat.sub_zero, List.drop_zero, ite_self]
    exact goSlice_mid _ _ _ rfl (by simp)
  · -- no piece stands right behind the added space
    have hfirst : ∀ y ∈ L, y.1 ≠ [32] := by
      rw [e1, hrs] at k2
      generalize hP : (32 : Int) :: r :: t = P at k2
      cases k2 with
      | nil => simp
      | @cons _ g post L hg hgp hL =>
        intro y hy he
        rcases List.mem_cons.1 hy with rfl | hy
        · simp at he
        · obtain ⟨-, mid, -, h1, -⟩ := hL.located y hy
          rw [h1, List.nil_append] at he
          cases g with
          | nil => exact hg rfl
          | cons c g =>
            simp only [List.cons_append, List.cons.injEq, List.append_eq_nil_iff] at he
            obtain ⟨rfl, rfl, -⟩ := he
            exact hgp.not_space hu hr hP rfl
    rw [e1] at hrest
    rw [e2]
    cases hm : x.1 with
    | nil =>
      rw [hm, List.nil_append] at hrest
      cases hx2 : x.2 with
      | nil => exact absurd hx2 hxne
      | cons c g =>
        rw [hx2] at hrest
        simp only [List.cons_append, List.cons.injEq] at hrest
        obtain ⟨rfl, hrest⟩ := hrest
        rw [hrest]
        simp only [List.nil_append, encodeRunes_nil, List.length_nil, Nat.zero_sub, encodeRunes_append,
          encodeRunes_cons, h32]
        have := goSlice_mid [] (encodeRunes g) (encodeRunes post) (a := ((0 : Nat) : Int))
          (b := (([32] ++ encodeRunes g).length - 1 : Nat)) rfl (by simp)
        simpa using this
    | cons c p =>
      rw [hm] at hrest
      simp only [List.cons_append, List.cons.injEq] at hrest
      obtain ⟨rfl, hrest⟩ := hrest
      rw [hrest]
      simp only [List.cons_append, encodeRunes_append, encodeRunes_cons, h32]
      -- a piece behind the first one starts behind the first character
      have hp : p ≠ [] := by
        intro hp
        exact hfirst x hx (by rw [hm, hp])
      have hppos := encodeRunes_pos hp
      rw [if_neg (by simp only [List.length_append, List.length_cons, List.length_nil]; omega)]
      have := goSlice_mid (encodeRunes p) (encodeRunes x.2) (encodeRunes post)
        (a := (([32] ++ encodeRunes p).length - 1 : Nat))
        (b := (([32] ++ (encodeRunes p ++ encodeRunes x.2)).length - 1 : Nat)) (by simp) (by simp)
      simpa using this

/-! ## The pieces are determined -/

theorem lead_append {p : Rune → Bool} : ∀ {g post : List Rune}, (∀ r ∈ g, p r = true) →
    (∀ r ∈ post.head?, p r = false) → lead p (g ++ post) = g.length := by
  intro g
  induction g with
  | nil =>
    intro post _ h
    cases post with
    | nil => rfl
    | cons r post => simp [lead, h r (by simp)]
  | cons r g ih =>
    intro post h1 h2
    have := ih (fun x hx => h1 x (by simp [hx])) h2
    unfold lead at this ⊢
    simp [List.takeWhile_cons_of_pos (h1 r (by simp)), this]

private def isSort (u : RxUni) (k : Sort4) (r : Rune) : Bool := decide (sort4 u r = k)

/-- The length of the piece of a text that does not start with a contraction. -/
private def pieceLen (u : RxUni) (t : List Rune) : Nat :=
  let n := lead (isSort u .white) t
  if n = t.length then n
  else match t with
    | [] => 0
    | r :: t =>
      if n = 0 then lead (isSort u (sort4 u r)) (r :: t)
      else if n = 1 then
        if r = 32 then 1 + match t with | [] => 0 | c :: t => lead (isSort u (sort4 u c)) (c :: t)
        else 1
      else n - 1

private theorem GptPiece.length_eq {u : RxUni} (hu : SaneTables u) {g post : List Rune} (h : GptPiece u g post) :
    StartsContraction u (g ++ post) ∧ g.map u.lower ∈ contractions
      ∨ ¬ StartsContraction u (g ++ post) ∧ g.length = pieceLen u (g ++ post) := by
  have hs32 := sort4_space hu
  cases h with
  | contraction h =>
    left
    refine ⟨⟨_, h, ?_⟩, h⟩
    rw [List.length_map, List.take_left]
  | @run sp g _ k h1 h2 h3 h4 h5 h6 =>
    right
    refine ⟨h6, ?_⟩
    cases g with
    | nil => exact absurd rfl h2
    | cons c g =>
      have hc := h4 c (by simp)
      have hl : lead (isSort u k) ((c :: g) ++ post) = (c :: g).length :=
        lead_append (fun r hr => by simp [isSort, h4 r hr]) (fun r hr => by simp [isSort, h5 r hr])
      have hnw : ∀ r ∈ ((c :: g) ++ post).head?, isSort u .white r = false := by
        intro r hr
        simp at hr; subst hr
        simp [isSort, hc, h3]
      rcases h1 with rfl | rfl
      · have hn : lead (isSort u .white) ((c :: g) ++ post) = 0 :=
          lead_append (g := []) (by simp) hnw
        simp only [List.nil_append, List.cons_append] at hn hl ⊢
        simp [pieceLen, hn, hc, hl]
      · have hn : lead (isSort u .white) ([32] ++ ((c :: g) ++ post)) = 1 :=
          lead_append (g := [32]) (by simp [isSort, hs32]) hnw
        simp only [List.nil_append, List.cons_append] at hn hl ⊢
        simp [pieceLen, hn, hc, hl]
        omega
  | atEnd h1 h2 h3 =>
    right
    rw [List.append_nil]
    refine ⟨h3, ?_⟩
    have hn := lead_append (p := isSort u .white) (g := g) (post := []) (fun r hr => by simp [isSort, h2 r hr]) (by simp)
    rw [List.append_nil] at hn
    simp [pieceLen, hn]
  | @before _ post w h1 h2 h3 h4 h5 h6 =>
    right
    refine ⟨h6, ?_⟩
    have hn := lead_append (p := isSort u .white) (g := g ++ [w]) (post := post)
      (fun r hr => by
        rcases List.mem_append.1 hr with hr | hr
        · simp [isSort, h2 r hr]
        · simp at hr; subst hr; simp [isSort, h3])
      (fun r hr => by simp [isSort, h5 r hr])
    rw [List.append_assoc] at hn
    have hp := List.length_pos_iff.2 h4
    cases g with
    | nil => exact absurd rfl h1
    | cons c g =>
      simp only [List.cons_append, List.nil_append, List.length_append, List.length_cons, List.length_nil] at hn ⊢
      simp only [pieceLen, hn, List.length_append, List.length_cons]
      rw [if_neg (by omega), if_neg (by omega), if_neg (by omega)]
      omega
  | @single w _ h1 h2 h3 h4 h5 =>
    right
    refine ⟨h5, ?_⟩
    have hn := lead_append (p := isSort u .white) (g := [w]) (post := post)
      (fun r hr => by simp at hr; subst hr; simp [isSort, h1]) (fun r hr => by simp [isSort, h4 r hr])
    have hp := List.length_pos_iff.2 h3
    simp only [List.cons_append, List.nil_append, List.length_cons, List.length_nil] at hn ⊢
    simp only [pieceLen, hn, List.length_cons]
    rw [if_neg (by omega), if_neg (by omega), if_pos trivial, if_neg h2]

/-- At any place of a text there is only one piece. -/
theorem GptPiece.unique {u : RxUni} (hu : SaneTables u) {g post g' post' : List Rune} (h : GptPiece u g post)
    (h' : GptPiece u g' post') (e : g ++ post = g' ++ post') : g = g' := by
  have hlen : g.length = g'.length := by
    have a := h.length_eq hu
    have b := h'.length_eq hu
    rw [← e] at b
    rcases a with ⟨a1, a2⟩ | ⟨a1, a2⟩
    · rcases b with ⟨b1, b2⟩ | ⟨b1, -⟩
      · have key : ∀ c ∈ contractions, ∀ c' ∈ contractions, c <+: c' → c.length = c'.length := by decide
        rcases Nat.le_total g.length g'.length with hl | hl
        · have hp : g <+: g' := by
            refine ⟨g'.drop g.length, ?_⟩
            have := congrArg (List.take g.length) e
            rw [List.take_left, List.take_append_of_le_length hl] at this
            conv => lhs; lhs; rw [this]
            exact List.take_append_drop _ _
          have := key _ a2 _ b2 (by obtain ⟨d, rfl⟩ := hp; exact ⟨d.map u.lower, by simp⟩)
          simpa using this
        · have hp : g' <+: g := by
            refine ⟨g.drop g'.length, ?_⟩
            have := congrArg (List.take g'.length) e.symm
            rw [List.take_left, List.take_append_of_le_length hl] at this
            conv => lhs; lhs; rw [this]
            exact List.take_append_drop _ _
          have := key _ b2 _ a2 (by obtain ⟨d, rfl⟩ := hp; exact ⟨d.map u.lower, by simp⟩)
          simpa using this.symm
      · exact absurd a1 b1
    · rcases b with ⟨b1, -⟩ | ⟨-, b2⟩
      · exact absurd b1 a1
      · rw [a2, b2]
  exact (List.append_inj e hlen).1

/-- There is only one way to cut a text into pieces. -/
theorem GptPieces.unique {u : RxUni} (hu : SaneTables u) {pre rest : List Rune} {L M : List (List Rune × List Rune)}
    (hL : GptPieces u pre rest L) (hM : GptPieces u pre rest M) : L = M := by
  induction hL generalizing M with
  | nil =>
    generalize hr : ([] : List Rune) = rest at hM
    cases hM with
    | nil => rfl
    | cons hg => simp at hr; exact absurd hr.1 hg
  | @cons pre g post L hg hp _ ih =>
    generalize hr : g ++ post = rest at hM
    cases hM with
    | nil => simp at hr; exact absurd hr.1 hg
    | @cons _ g' post' M hg' hp' hM =>
      have := hp.unique hu hp' hr
      subst this
      have := List.append_cancel_left hr
      subst this
      rw [ih hM]

/-! ## Concrete cases -/

theorem sane_ascii : SaneTables Tests.asciiUni := by
  have hl : ∀ r : Rune, Tests.asciiUni.lower r = if 65 ≤ r ∧ r ≤ 90 then r + 32 else r := fun _ => rfl
  have hw : ∀ r : Rune, (65 ≤ r ∧ r ≤ 90) ∨ (97 ≤ r ∧ r ≤ 122) ∨ (48 ≤ r ∧ r ≤ 57) → isWhiteSpace r = false := by
    intro r hr
    simp only [isWhiteSpace]
    simp; omega
  refine ⟨?_, ?_, ?_, ?_, ?_⟩ <;> intro r
  · show isWhiteSpace (Tests.asciiUni.lower r) = _
    rw [hl]
    split
    · rw [hw _ (by omega), hw _ (by omega)]
    · rfl
  · rw [hl]; split <;> omega
  · simp only [RxUni.letter, RxUni.number, Tests.asciiUni, decide_eq_true_eq, decide_eq_false_iff_not]
    omega
  · intro h
    have h : decide (97 ≤ Tests.asciiUni.lower r ∧ Tests.asciiUni.lower r ≤ 122) = true := h
    exact hw _ (by simp only [decide_eq_true_eq] at h; omega)
  · intro h
    have h : decide (48 ≤ Tests.asciiUni.lower r ∧ Tests.asciiUni.lower r ≤ 57) = true := h
    exact hw _ (by simp only [decide_eq_true_eq] at h; omega)

/-- `"I'll  go"`: the contraction, the first of two spaces, the second one with the word. -/
example : Tests.origSplits (byteLevelDefault Tests.asciiUni) b!"I'll  go"
    = .ok ([(b!"ĠI", 0, 1), (b!"'ll", 1, 4), (b!"Ġ", 4, 5), (b!"Ġgo", 5, 8)], none) := by decide +kernel

/-- An engine that makes the added space a piece of its own: it gets the offsets of the first
character, which the next piece has too. -/
example : Tests.origSplits (byteLevel (fun rs => .ok (rs.mapIdx fun i _ => (i, 1))) true) b!"éa"
    = .ok ([(b!"Ġ", 0, 2), (b!"Ã©", 0, 2), (b!"a", 2, 3)], none) := by decide +kernel

end Verif
