import Verif.Props.HistoryBytes

/-! The functions on ranges in any state whatever, exactly (C137). -/

set_option autoImplicit false

namespace Verif

/-! ## Specification -/

/-- How many alignments at the front end at or before `b`. -/
def leading (ns : NS) (b : Int) : Nat := (ns.alignments.takeWhile fun al => decide (al.stop ≤ b)).length

/-- `a` and `b` are the ends of a part of the list. -/
def FitsIn {α : Type} (l : List α) (a b : Int) : Prop := 0 ≤ a ∧ a ≤ b ∧ b ≤ (l.length : Int)

/-- The first and last alignments of the part from `a` to `b` name a part of the original. -/
def NamesPart (ns : NS) (a b : Int) : Prop :=
  ∃ f l, ns.alignments[a.toNat]? = some f ∧ ns.alignments[(b - 1).toNat]? = some l ∧ FitsIn ns.original f.start l.stop

/-! ## Proofs -/

theorem leading_le (ns : NS) (b : Int) : leading ns b ≤ ns.alignments.length := (List.takeWhile_prefix _).length_le

theorem getRange_panic (ns : NS) (r : Rng) :
    ns.getRange r = .panic ↔ ∃ x y, ns.coerceRangeToNormalized r = some (x, y) ∧ ¬ FitsIn ns.normalized x y := by
  unfold NS.getRange
  cases h : ns.coerceRangeToNormalized r with
  | none => simp
  | some p =>
    obtain ⟨x, y⟩ := p
    have hp := goSlice_eq_panic (l := ns.normalized) (a := x) (b := y)
    cases hs : goSlice ns.normalized x y with
    | panic => simp only [hs, GoM.bind_panic, true_iff]; exact ⟨x, y, rfl, hp.1 hs⟩
    | ok t =>
      simp only [hs, GoM.bind_ok, GoM.pure_eq, Option.some.injEq, Prod.mk.injEq]
      refine ⟨nofun, ?_⟩
      rintro ⟨_, _, ⟨rfl, rfl⟩, hn⟩
      rw [hp.2 hn] at hs; cases hs

theorem getOriginalRange_panic (ns : NS) (r : Rng) : ns.getOriginalRange r = .panic ↔ ns.coerceRangeToOriginal r = .panic
    ∨ ∃ x y, ns.coerceRangeToOriginal r = .ok (some (x, y)) ∧ ¬ FitsIn ns.original x y := by
  unfold NS.getOriginalRange
  cases h : ns.coerceRangeToOriginal r with
  | panic => simp
  | ok o =>
    cases o with
    | none => simp
    | some p =>
      obtain ⟨x, y⟩ := p
      have hp := goSlice_eq_panic (l := ns.original) (a := x) (b := y)
      cases hs : goSlice ns.original x y with
      | panic => simp only [hs, GoM.bind_ok, GoM.bind_panic, true_iff]; exact .inr ⟨x, y, rfl, hp.1 hs⟩
      | ok t =>
        simp only [hs, GoM.bind_ok, GoM.pure_eq, GoM.ok.injEq, Option.some.injEq, Prod.mk.injEq]
        refine ⟨nofun, ?_⟩
        rintro (h | ⟨_, _, ⟨rfl, rfl⟩, hn⟩)
        · cases h
        · rw [hp.2 hn] at hs; cases hs

/-- **C137, to the normalized.** In any state, what `CoerceRangeToNormalized` makes of a range of the original: nothing if not even
the first alignment ends by its end; else up to the last of the alignments at the front that end by its end, from the first of these
that is not empty and begins no earlier than the range. -/
theorem C137_to_normalized (ns : NS) {a b : Int} (hab : a < b) :
    (ns.coerceRangeToNormalized (.original a b) = none ↔ leading ns b = 0)
    ∧ ∀ x y, ns.coerceRangeToNormalized (.original a b) = some (x, y) →
      y = leading ns b ∧ 0 ≤ x ∧ x ≤ y
      ∧ (∀ (i : Nat) al, ns.alignments[i]? = some al → (i : Int) < x → al.start < a ∨ al.start = al.stop)
      ∧ (x < y → ∃ al, ns.alignments[x.toNat]? = some al ∧ a ≤ al.start ∧ al.start ≠ al.stop) := by
  rw [coerceRangeToNormalized_original hab]
  have hpre := List.takeWhile_prefix (l := ns.alignments) fun al => decide (al.stop ≤ b)
  unfold leading
  generalize (ns.alignments.takeWhile fun al => decide (al.stop ≤ b)) = pre at hpre
  have get : ∀ {i : Nat}, i < pre.length → ns.alignments[i]? = pre[i]? := by
    intro i hi
    obtain ⟨t, ht⟩ := hpre
    rw [← ht, List.getElem?_append_left hi]
  simp only
  by_cases hp : pre = []
  · simp [hp]
  · have hpos := List.length_pos_iff.2 hp
    rw [if_neg hp]
    cases hf : pre.findIdx? (startTest a) with
    | some j =>
      simp only
      refine ⟨⟨nofun, fun h => by omega⟩, ?_⟩
      intro x y hxy
      simp only [Option.some.injEq, Prod.mk.injEq] at hxy
      obtain ⟨rfl, rfl⟩ := hxy
      obtain ⟨hj, h1, h2⟩ := List.findIdx?_eq_some_iff_getElem.1 hf
      refine ⟨rfl, by omega, by omega, ?_, ?_⟩
      · intro i al hal hi
        have hi' : i < j := by omega
        rw [get (by omega), List.getElem?_eq_getElem (by omega)] at hal
        have := h2 i hi'
        simp only [Option.some.injEq] at hal
        rw [hal] at this
        simp [startTest] at this
        omega
      · intro _
        refine ⟨pre[j], ?_, ?_⟩
        · rw [Int.toNat_natCast, get hj, List.getElem?_eq_getElem hj]
        · simp [startTest] at h1
          omega
    | none =>
      simp only
      refine ⟨⟨nofun, fun h => by omega⟩, ?_⟩
      intro x y hxy
      simp only [Option.some.injEq, Prod.mk.injEq] at hxy
      obtain ⟨rfl, rfl⟩ := hxy
      refine ⟨rfl, by omega, by omega, ?_, fun h => by omega⟩
      intro i al hal hi
      rw [get (by omega)] at hal
      have := List.findIdx?_eq_none_iff.1 hf al (List.mem_of_getElem? hal)
      simp [startTest] at this
      omega

theorem toOriginal_panic (ns : NS) (a b : Int) :
    ns.coerceRangeToOriginal (.normalized a b) = .panic ↔ a < b ∧ ¬ FitsIn ns.alignments a b := by
  by_cases h1 : a < b
  · by_cases h2 : FitsIn ns.alignments a b
    · obtain ⟨f, l, -, -, e⟩ := coerceRangeToOriginal_normalized (ns := ns) h2.1 h1 h2.2.2
      simp [e, h2]
    · have : goSlice ns.alignments a b = .panic := goSlice_eq_panic.2 h2
      simp only [NS.coerceRangeToOriginal]
      rw [if_neg (by omega), if_neg (by omega), if_neg (by omega), this]
      simp [h1, h2]
  · simp only [NS.coerceRangeToOriginal]
    by_cases h2 : b - a = 0
    · simp [h2, h1]
    · rw [if_neg h2, if_pos (by omega)]; simp [h1]

/-- **C137, panics.** In any state and for any range: when the conversion to the original, `GetRange` and `GetOriginalRange` panic. -/
theorem C137_panics (ns : NS) (a b : Int) :
    (ns.coerceRangeToOriginal (.normalized a b) = .panic ↔ a < b ∧ ¬ FitsIn ns.alignments a b)
    ∧ ns.coerceRangeToOriginal (.original a b) ≠ .panic
    ∧ (ns.getRange (.normalized a b) = .panic ↔ ¬ FitsIn ns.normalized a b)
    ∧ (ns.getRange (.original a b) = .panic
        ↔ (a = b ∧ ¬ FitsIn ns.normalized a b) ∨ (a < b ∧ ns.normalized.length < leading ns b))
    ∧ (ns.getOriginalRange (.normalized a b) = .panic
        ↔ (a = b ∧ ¬ FitsIn ns.original a b) ∨ (a < b ∧ ¬ (FitsIn ns.alignments a b ∧ NamesPart ns a b)))
    ∧ (ns.getOriginalRange (.original a b) = .panic ↔ ¬ FitsIn ns.original a b) := by
  refine ⟨toOriginal_panic ns a b, by simp [NS.coerceRangeToOriginal], ?_, ?_, ?_, ?_⟩
  · rw [getRange_panic]
    simp only [NS.coerceRangeToNormalized, Option.some.injEq, Prod.mk.injEq]
    exact ⟨by rintro ⟨_, _, ⟨rfl, rfl⟩, h⟩; exact h, fun h => ⟨a, b, ⟨rfl, rfl⟩, h⟩⟩
  · rw [getRange_panic]
    by_cases h1 : a < b
    · obtain ⟨k1, k2⟩ := C137_to_normalized ns h1
      constructor
      · rintro ⟨x, y, e, hn⟩
        obtain ⟨e1, e2, e3, -, -⟩ := k2 x y e
        refine .inr ⟨h1, ?_⟩
        simp only [FitsIn] at hn
        omega
      · rintro (⟨h, -⟩ | ⟨-, h⟩)
        · omega
        · cases hc : ns.coerceRangeToNormalized (.original a b) with
          | none => have := k1.1 hc; omega
          | some p =>
            obtain ⟨x, y⟩ := p
            obtain ⟨e1, e2, e3, -, -⟩ := k2 x y hc
            exact ⟨x, y, rfl, by simp only [FitsIn]; omega⟩
    · by_cases h2 : a = b
      · subst h2
        simp [NS.coerceRangeToNormalized]
        exact ⟨by rintro ⟨_, _, ⟨rfl, rfl⟩, h⟩; exact h, fun h => ⟨a, a, ⟨rfl, rfl⟩, h⟩⟩
      · have : ns.coerceRangeToNormalized (.original a b) = none := by
          simp only [NS.coerceRangeToNormalized]
          rw [if_neg (by omega), if_pos (by omega)]
        simp [this, h1, h2]
  · rw [getOriginalRange_panic, toOriginal_panic]
    by_cases h1 : a < b
    · by_cases h2 : FitsIn ns.alignments a b
      · obtain ⟨f, l, f1, f2, e⟩ := coerceRangeToOriginal_normalized (ns := ns) h2.1 h1 h2.2.2
        simp only [e, GoM.ok.injEq, Option.some.injEq, Prod.mk.injEq, h1, h2, not_true_eq_false, and_false, false_or, true_and]
        constructor
        · rintro ⟨_, _, ⟨rfl, rfl⟩, hn⟩
          refine .inr ?_
          rintro ⟨f', l', g1, g2, g⟩
          have k1 : f = f' := by rw [f1] at g1; simpa using g1
          have k2 : l = l' := by
            rw [show (b - 1).toNat = b.toNat - 1 by omega] at g2
            simp only [show (b - 1).toNat = b.toNat - 1 by omega] at f2
            rw [f2] at g2; simpa using g2
          subst k1 k2
          exact hn g
        · rintro (⟨h, -⟩ | hn)
          · omega
          · refine ⟨_, _, ⟨rfl, rfl⟩, fun g => hn ⟨f, l, f1, ?_, g⟩⟩
            exact f2
      · simp [h1, h2]
    · by_cases h2 : a = b
      · subst h2
        simp [NS.coerceRangeToOriginal]
        exact ⟨by rintro ⟨_, _, ⟨rfl, rfl⟩, h⟩; exact h, fun h => ⟨a, a, ⟨rfl, rfl⟩, h⟩⟩
      · have : ns.coerceRangeToOriginal (.normalized a b) = .ok none := by
          simp only [NS.coerceRangeToOriginal]
          rw [if_neg (by omega), if_pos (by omega)]
        simp [this, h1, h2]
  · rw [getOriginalRange_panic]
    simp only [NS.coerceRangeToOriginal, GoM.ok.injEq, Option.some.injEq, Prod.mk.injEq]
    constructor
    · rintro (h | ⟨_, _, ⟨rfl, rfl⟩, h⟩)
      · cases h
      · exact h
    · exact fun h => .inr ⟨a, b, ⟨rfl, rfl⟩, h⟩

theorem slice_panic (ns : NS) (r : Rng) : ns.slice r = .panic ↔ ns.rangeIsValid r = true
    ∧ ∃ na nb, ns.coerceRangeToNormalized r = some (na, nb)
      ∧ (ns.coerceRangeToOriginal r = .panic
        ∨ (ns.coerceRangeToOriginal r ≠ .ok none
          ∧ (ns.getOriginalRange r = .panic ∨ ns.getRange r = .panic ∨ ¬ FitsIn ns.alignments na nb))) := by
  unfold NS.slice
  by_cases hv : ns.rangeIsValid r = true
  · simp only [hv, Bool.not_true, Bool.false_eq_true, if_false, true_and]
    cases hc : ns.coerceRangeToNormalized r with
    | none => simp
    | some p =>
      obtain ⟨na, nb⟩ := p
      simp only [Option.some.injEq, Prod.mk.injEq]
      have ex : ∀ (Q : Int → Int → Prop), (∃ x y, (na = x ∧ nb = y) ∧ Q x y) ↔ Q na nb :=
        fun Q => ⟨by rintro ⟨_, _, ⟨rfl, rfl⟩, h⟩; exact h, fun h => ⟨na, nb, ⟨rfl, rfl⟩, h⟩⟩
      rw [ex fun x y => _]
      cases ho : ns.coerceRangeToOriginal r with
      | panic => simp
      | ok o =>
        cases o with
        | none => simp
        | some q =>
          obtain ⟨oa, ob⟩ := q
          have hp := goSlice_eq_panic (l := ns.alignments) (a := na) (b := nb)
          cases h1 : ns.getOriginalRange r with
          | panic => simp
          | ok g1 =>
            cases h2 : ns.getRange r with
            | panic => simp
            | ok g2 =>
              cases h3 : goSlice ns.alignments na nb with
              | panic => simpa [h3, FitsIn] using hp.1 h3
              | ok g3 =>
                simp only [GoM.bind_ok, GoM.pure_eq]
                refine ⟨nofun, ?_⟩
                rintro (h | ⟨-, h | h | h⟩)
                · cases h
                · cases h
                · cases h
                · rw [hp.2 h] at h3; cases h3
  · simp [hv]

/-- **C137, Slice.** In any state, for any range: when `Slice` panics. -/
theorem C137_slice (ns : NS) (a b : Int) :
    (ns.slice (.normalized a b) = .panic ↔ isRuneBoundary ns.normalized a = true ∧ isRuneBoundary ns.normalized b = true ∧ a ≤ b
      ∧ ((ns.alignments.length : Int) < b ∨ (a = b ∧ ns.originalLen < a) ∨ (a < b ∧ ¬ NamesPart ns a b)))
    ∧ (ns.slice (.original a b) = .panic ↔ isRuneBoundary ns.original a = true ∧ isRuneBoundary ns.original b = true
      ∧ ((a = b ∧ (ns.len < a ∨ (ns.alignments.length : Int) < a)) ∨ (a < b ∧ ns.normalized.length < leading ns b))) := by
  obtain ⟨p1, p2, p3, p4, p5, p6⟩ := C137_panics ns a b
  constructor
  · rw [slice_panic, p1, p3, p5]
    simp only [NS.rangeIsValid, Rng.start, Rng.stop, Bool.and_eq_true, and_assoc]
    refine and_congr_right fun ha => and_congr_right fun hb => ?_
    have ba := isRuneBoundary_bounds ha
    have bb := isRuneBoundary_bounds hb
    simp only [NS.originalLen]
    constructor
    · rintro ⟨na, nb, e, h⟩
      simp only [NS.coerceRangeToNormalized, Option.some.injEq, Prod.mk.injEq] at e
      obtain ⟨rfl, rfl⟩ := e
      rcases h with ⟨h1, h2⟩ | ⟨h0, h⟩
      · simp only [FitsIn] at h2
        exact ⟨by omega, .inl (by omega)⟩
      · have hab : a ≤ b := by
          apply Classical.byContradiction
          intro hn
          apply h0
          simp only [NS.coerceRangeToOriginal]
          rw [if_neg (by omega), if_pos (by omega)]
        refine ⟨hab, ?_⟩
        by_cases hl : (ns.alignments.length : Int) < b
        · exact .inl hl
        · rcases h with (⟨h1, h2⟩ | ⟨h1, h2⟩) | h | h
          · simp only [FitsIn] at h2; exact .inr (.inl ⟨h1, by omega⟩)
          · exact .inr (.inr ⟨h1, fun hp => h2 ⟨⟨by omega, by omega, by omega⟩, hp⟩⟩)
          · simp only [FitsIn] at h; omega
          · simp only [FitsIn] at h; omega
    · rintro ⟨hab, h⟩
      refine ⟨a, b, rfl, ?_⟩
      by_cases hl : a < b ∧ ¬ FitsIn ns.alignments a b
      · exact .inl hl
      · refine .inr ⟨?_, ?_⟩
        · intro e
          by_cases h2 : b - a = 0
          · simp [NS.coerceRangeToOriginal, h2] at e
          · have hf : FitsIn ns.alignments a b := Classical.byContradiction fun hn => hl ⟨by omega, hn⟩
            obtain ⟨f, l, -, -, e'⟩ := coerceRangeToOriginal_normalized (ns := ns) (s := a) (e := b) (by omega) (by omega) hf.2.2
            rw [e'] at e; simp at e
        · rcases h with h | ⟨h1, h2⟩ | ⟨h1, h2⟩
          · exact .inr (.inr (fun hf => by simp only [FitsIn] at hf; omega))
          · exact .inl (.inl ⟨h1, fun hf => by simp only [FitsIn] at hf; omega⟩)
          · exact .inl (.inr ⟨h1, fun hf => h2 hf.2⟩)
  · rw [slice_panic, p4, p6]
    simp only [NS.rangeIsValid, Rng.start, Rng.stop, Bool.and_eq_true, and_assoc]
    refine and_congr_right fun ha => and_congr_right fun hb => ?_
    have ba := isRuneBoundary_bounds ha
    have bb := isRuneBoundary_bounds hb
    simp only [NS.len]
    have hle := leading_le ns b
    constructor
    · rintro ⟨na, nb, e, h⟩
      have hab := coerceRangeToNormalized_original_le e
      rcases h with h | ⟨-, h⟩
      · exact absurd h p2
      · rcases h with h | (⟨h1, h2⟩ | h) | h
        · simp only [FitsIn] at h; omega
        · simp only [FitsIn] at h2; exact .inl ⟨h1, .inl (by omega)⟩
        · exact .inr h
        · by_cases h1 : a < b
          · obtain ⟨e1, e2, e3, -, -⟩ := (C137_to_normalized ns h1).2 na nb e
            simp only [FitsIn] at h; omega
          · have h2 : a = b := by omega
            subst h2
            simp [NS.coerceRangeToNormalized] at e
            obtain ⟨rfl, rfl⟩ := e
            simp only [FitsIn] at h
            exact .inl ⟨rfl, .inr (by omega)⟩
    · intro h
      have hab : a ≤ b := by omega
      rcases h with ⟨rfl, h⟩ | ⟨h1, h2⟩
      · refine ⟨a, a, by simp [NS.coerceRangeToNormalized], .inr ⟨by simp [NS.coerceRangeToOriginal], ?_⟩⟩
        rcases h with h | h
        · exact .inr (.inl (.inl ⟨rfl, fun hf => by simp only [FitsIn] at hf; omega⟩))
        · exact .inr (.inr fun hf => by simp only [FitsIn] at hf; omega)
      · cases hc : ns.coerceRangeToNormalized (.original a b) with
        | none => have := (C137_to_normalized ns h1).1.1 hc; omega
        | some p =>
          exact ⟨p.1, p.2, rfl, .inr ⟨by simp [NS.coerceRangeToOriginal], .inr (.inl (.inr ⟨h1, h2⟩))⟩⟩

/-! ## Concrete -/

/-- After a bad byte the original range up to the end stands for two more bytes than the text has: `GetRange` and `Slice` panic. -/
theorem C137_example : let ns := NS.fromString (0xFF :: b!"ab")
    leading ns 3 = 5 ∧ ns.len = 3 ∧ ns.coerceRangeToNormalized (.original 0 3) = some (0, 5) ∧ ns.getRange (.original 0 3) = .panic
    ∧ ns.slice (.original 0 3) = .panic ∧ ns.getOriginalRange (.normalized 0 3) = .ok (some (0xFF :: b!"ab"))
    ∧ ns.coerceRangeToNormalized (.original 0 2) = none := by decide +kernel

end Verif
