import Verif.Props.RangesAnyState

/-! `TransformRange` in any state whatever, exactly (C138). -/

set_option autoImplicit false

namespace Verif

/-! ## Specification -/

/-- How far in the text the runes reach that come before change `k`, if the text from byte `p` on reads as `rs` (a bad byte counts as
the three bytes of U+FFFD). -/
def placeOf (rs : List Rune) (p : Int) (dest : List RuneChange) (k : Nat) : Int :=
  p + (encodeRunes (rs.take (consumed (dest.take k)))).length

/-- The alignment that the rune of a change gets at byte `pos`: that of the byte, for a rune put in that of the byte before, and (0,0)
at the front. -/
def alignFor (als : List Align) (rc : RuneChange) (pos : Int) : Option Align :=
  if 1 ≤ rc.change then (if pos < 1 then some ⟨0, 0⟩ else als[(pos - 1).toNat]?) else als[pos.toNat]?

/-- The change can be made to the text from `a` to `b`, and `ps` are the alignments that the runes get. -/
structure Possible (ns : NS) (a b : Int) (dest : List RuneChange) (io : Int) (rs : List Rune) (ps : List Align) : Prop where
  range : FitsIn ns.normalized a b
  offset : 0 ≤ io ∧ io ≤ b - a
  behind : b ≤ (ns.alignments.length : Int)
  enough : consumed dest ≤ rs.length
  length : ps.length = dest.length
  picks : ∀ (k : Nat) rc, dest[k]? = some rc → alignFor ns.alignments rc (placeOf rs (a + io) dest k) = ps[k]?

/-- The bytes from `a` to `b` replaced by the runes of the changes. -/
def changed (ns : NS) (a b : Int) (dest : List RuneChange) (ps : List Align) : NS :=
  { ns with
    normalized := ns.normalized.take a.toNat ++ encodeRunes (dest.map (·.rune)) ++ ns.normalized.drop b.toNat
    alignments := ns.alignments.take a.toNat
      ++ (dest.zip ps).flatMap (fun x => List.replicate (encodeRune x.1.rune).length x.2) ++ ns.alignments.drop b.toNat }

/-! ## Proofs -/

/-- How many runes one change consumes. -/
def takes (rc : RuneChange) : Nat := if 1 ≤ rc.change then 0 else 1 + (-rc.change).toNat

/-- The same, one change after the other. -/
def Picks (als : List Align) : List Rune → Int → List RuneChange → List Align → Prop
  | _, _, [], ps => ps = []
  | _, _, _ :: _, [] => False
  | rs, pos, rc :: dest, p :: ps => takes rc ≤ rs.length ∧ alignFor als rc pos = some p
      ∧ Picks als (rs.drop (takes rc)) (pos + (encodeRunes (rs.take (takes rc))).length) dest ps

theorem transformStep_any (als : List Align) (st : TState) (rc : RuneChange) (h0 : 0 ≤ st.offset) :
    (∀ p, takes rc ≤ st.repl.length → alignFor als rc st.offset = some p → transformStep als st rc = .ok
      { offset := st.offset + (encodeRunes (st.repl.take (takes rc))).length
        repl := st.repl.drop (takes rc)
        aligns := st.aligns ++ List.replicate (encodeRune rc.rune).length p
        out := st.out ++ encodeRune rc.rune })
    ∧ ((¬ ∃ p, takes rc ≤ st.repl.length ∧ alignFor als rc st.offset = some p) → transformStep als st rc = .panic) := by
  obtain ⟨pos, rs, A, o⟩ := st
  simp only at h0 ⊢
  by_cases hc : 1 ≤ rc.change
  · have hc' : ¬ rc.change ≤ 0 := by omega
    have hc'' : ¬ rc.change ≤ -1 := by omega
    simp only [takes, alignFor, if_pos hc, transformStep, ge_iff_le, hc', hc'', if_false, GoM.pure_eq, GoM.bind_ok]
    by_cases hp : pos < 1
    · simp only [if_pos hp, GoM.bind_ok]
      refine ⟨?_, fun h => absurd ⟨_, Nat.zero_le _, rfl⟩ h⟩
      intro p _ e
      simp only [Option.some.injEq] at e
      subst e
      simp [encodeRunes]
    · simp only [if_neg hp]
      cases hg : als[(pos - 1).toNat]? with
      | none =>
        have : goIndex als (pos - 1) = .panic := goIndex_eq_panic.2 (by
          have := List.getElem?_eq_none_iff.1 hg; omega)
        simp [this]
      | some x =>
        have : goIndex als (pos - 1) = .ok x := goIndex_eq_ok.2 ⟨by omega, hg⟩
        simp [this, encodeRunes]
  · have hc0 : rc.change ≤ 0 := by omega
    simp only [takes, alignFor, if_neg hc, transformStep, ge_iff_le, hc0, if_true]
    cases hg : als[pos.toNat]? with
    | none =>
      have : goIndex als pos = .panic := goIndex_eq_panic.2 (by
        have := List.getElem?_eq_none_iff.1 hg; omega)
      simp [this]
    | some x =>
      have : goIndex als pos = .ok x := goIndex_eq_ok.2 ⟨by omega, hg⟩
      simp only [this, GoM.bind_ok]
      cases rs with
      | nil =>
        have : goIndex ([] : List Rune) 0 = .panic := goIndex_eq_panic.2 (by simp)
        simp only [this, GoM.bind_panic]
        exact ⟨fun p h => by simp at h, fun _ => trivial⟩
      | cons r rs =>
        have : goIndex (r :: rs) 0 = .ok r := goIndex_eq_ok.2 ⟨by simp, rfl⟩
        simp only [this, GoM.bind_ok, GoM.pure_eq, List.drop_succ_cons, List.drop_zero]
        by_cases h1 : rc.change ≤ -1
        · simp only [if_pos h1]
          by_cases hl : (-rc.change).toNat ≤ rs.length
          · have s1 : goSlice rs 0 (-rc.change) = .ok (rs.take (-rc.change).toNat) := goSlice_eq_ok.2 ⟨by omega, by simp⟩
            have s2 : goSlice rs (-rc.change) rs.length = .ok (rs.drop (-rc.change).toNat) := goSlice_eq_ok.2 ⟨by omega, by
              rw [List.take_of_length_le]; simp; omega⟩
            simp only [s1, s2, GoM.bind_ok]
            refine ⟨?_, fun h => absurd ⟨x, by simp only [List.length_cons]; omega, rfl⟩ h⟩
            intro p _ e
            simp only [Option.some.injEq] at e
            subst e
            simp only [Nat.add_comm 1, List.take_succ_cons, List.drop_succ_cons, GoM.ok.injEq, TState.mk.injEq, and_true]
            rw [show r :: rs.take (-rc.change).toNat = [r] ++ rs.take (-rc.change).toNat from rfl, encodeRunes_append]
            simp only [List.length_append]
            have : (encodeRunes [r]).length = (encodeRune r).length := by simp [encodeRunes]
            omega
          · have s1 : goSlice rs 0 (-rc.change) = .panic := goSlice_eq_panic.2 (by omega)
            simp only [s1, GoM.bind_panic]
            refine ⟨?_, fun _ => trivial⟩
            intro p h
            simp only [List.length_cons] at h
            omega
        · have hz : (-rc.change).toNat = 0 := by omega
          simp only [if_neg h1, hz]
          refine ⟨?_, fun h => absurd ⟨x, by simp, rfl⟩ h⟩
          intro p _ e
          simp only [Option.some.injEq] at e
          subst e
          simp [encodeRunes]

theorem picks_loop (als : List Align) : ∀ (dest : List RuneChange) (st : TState), 0 ≤ st.offset →
    (∀ ps, Picks als st.repl st.offset dest ps → ∃ st', goFor dest st (transformStep als) = .ok st'
      ∧ st'.aligns = st.aligns ++ (dest.zip ps).flatMap (fun x => List.replicate (encodeRune x.1.rune).length x.2)
      ∧ st'.out = st.out ++ encodeRunes (dest.map (·.rune)))
    ∧ ((¬ ∃ ps, Picks als st.repl st.offset dest ps) → goFor dest st (transformStep als) = .panic) := by
  intro dest
  induction dest with
  | nil =>
    intro st _
    refine ⟨?_, fun h => absurd ⟨[], rfl⟩ h⟩
    intro ps h
    simp only [Picks] at h
    subst h
    exact ⟨st, by simp, by simp, by simp [encodeRunes]⟩
  | cons rc dest ih =>
    intro st h0
    obtain ⟨k1, k2⟩ := transformStep_any als st rc h0
    by_cases hs : ∃ p, takes rc ≤ st.repl.length ∧ alignFor als rc st.offset = some p
    · obtain ⟨p, e1, e2⟩ := hs
      have e := k1 p e1 e2
      obtain ⟨i1, i2⟩ := ih (⟨st.offset + (encodeRunes (st.repl.take (takes rc))).length, st.repl.drop (takes rc),
        st.aligns ++ List.replicate (encodeRune rc.rune).length p, st.out ++ encodeRune rc.rune⟩ : TState) (by simp only; omega)
      rw [goFor_cons, e, GoM.bind_ok]
      refine ⟨?_, ?_⟩
      · intro ps h
        cases ps with
        | nil => exact absurd h (by simp [Picks])
        | cons p' ps =>
          obtain ⟨-, h2, h3⟩ := h
          rw [e2] at h2
          cases h2
          obtain ⟨st', g1, g2, g3⟩ := i1 ps h3
          refine ⟨st', g1, ?_, ?_⟩
          · rw [g2]; simp
          · rw [g3]; simp [encodeRunes]
      · intro h
        exact i2 fun ⟨ps, hp⟩ => h ⟨p :: ps, e1, e2, hp⟩
    · rw [goFor_cons, k2 hs, GoM.bind_panic]
      refine ⟨?_, fun _ => rfl⟩
      intro ps h
      cases ps with
      | nil => exact absurd h (by simp [Picks])
      | cons p ps => exact absurd ⟨p, h.1, h.2.1⟩ hs

theorem consumed_cons (rc : RuneChange) (dest : List RuneChange) : consumed (rc :: dest) = takes rc + consumed dest := rfl

theorem picks_iff (als : List Align) : ∀ (dest : List RuneChange) (rs : List Rune) (p : Int) (ps : List Align),
    Picks als rs p dest ps ↔ consumed dest ≤ rs.length ∧ ps.length = dest.length
      ∧ ∀ (k : Nat) rc, dest[k]? = some rc → alignFor als rc (placeOf rs p dest k) = ps[k]? := by
  intro dest
  induction dest with
  | nil => intro rs p ps; simp [Picks, consumed]
  | cons rc dest ih =>
    intro rs p ps
    cases ps with
    | nil => simp [Picks]
    | cons q ps =>
      simp only [Picks, ih, consumed_cons, List.length_cons, List.length_drop]
      have hplace : ∀ k, placeOf (rs.drop (takes rc)) (p + (encodeRunes (rs.take (takes rc))).length) dest k
          = placeOf rs p (rc :: dest) (k + 1) := by
        intro k
        simp only [placeOf, List.take_succ_cons, consumed_cons]
        rw [List.take_add, encodeRunes_append]
        simp only [List.length_append]
        omega
      have h00 : placeOf rs p (rc :: dest) 0 = p := by simp [placeOf, consumed, encodeRunes]
      constructor
      · rintro ⟨h1, h2, h3, h4, h5⟩
        refine ⟨by omega, by omega, ?_⟩
        intro k rc' hk
        cases k with
        | zero =>
          simp only [List.getElem?_cons_zero, Option.some.injEq] at hk ⊢
          subst hk
          rw [h00, h2]
        | succ k =>
          simp only [List.getElem?_cons_succ] at hk ⊢
          rw [← hplace]
          exact h5 k rc' hk
      · rintro ⟨h1, h2, h3⟩
        refine ⟨by omega, ?_, by omega, by omega, ?_⟩
        · have := h3 0 rc rfl
          rw [h00] at this
          simpa using this
        · intro k rc' hk
          rw [hplace]
          simpa using h3 (k + 1) rc' (by simpa using hk)

theorem transformNormalized_any (ns : NS) (a b : Int) (dest : List RuneChange) (io : Int) :
    let rs := runesOf ((ns.normalized.drop (a + io).toNat).take (b - (a + io)).toNat)
    (∀ ps, Possible ns a b dest io rs ps → ns.transformNormalized a b dest io = .ok (changed ns a b dest ps))
    ∧ ((¬ ∃ ps, Possible ns a b dest io rs ps) → ns.transformNormalized a b dest io = .panic) := by
  intro rs
  have conv : ∀ ps, Possible ns a b dest io rs ps ↔ (FitsIn ns.normalized a b ∧ (0 ≤ io ∧ io ≤ b - a) ∧ b ≤ (ns.alignments.length : Int)
      ∧ Picks ns.alignments rs (a + io) dest ps) := by
    intro ps
    rw [picks_iff]
    exact ⟨fun h => ⟨h.range, h.offset, h.behind, h.enough, h.length, h.picks⟩, fun ⟨h1, h2, h3, h4, h5, h6⟩ => ⟨h1, h2, h3, h4, h5, h6⟩⟩
  simp only [conv]
  unfold NS.transformNormalized
  by_cases h1 : FitsIn ns.normalized a b
  · have g1 : goSlice ns.normalized a b = .ok ((ns.normalized.drop a.toNat).take (b - a).toNat) := goSlice_eq_ok.2 ⟨h1, rfl⟩
    obtain ⟨a1, a2, a3⟩ := h1
    have hl := goSlice_length g1
    rw [g1, GoM.bind_ok]
    by_cases h2 : 0 ≤ io ∧ io ≤ b - a
    · have g2 := goSlice_of (l := (ns.normalized.drop a.toNat).take (b - a).toNat) (a := 0) (b := io) (by omega) (by omega) (by omega)
      have g3 := goSlice_of (l := (ns.normalized.drop a.toNat).take (b - a).toNat) (a := io)
        (b := (((ns.normalized.drop a.toNat).take (b - a).toNat).length : Int)) (by omega) (by omega) (by omega)
      have hl2 := goSlice_length g2
      have htail : (((ns.normalized.drop a.toNat).take (b - a).toNat).drop io.toNat).take
          ((((ns.normalized.drop a.toNat).take (b - a).toNat).length : Int) - io).toNat
          = (ns.normalized.drop (a + io).toNat).take (b - (a + io)).toNat := by
        rw [List.take_of_length_le (by rw [List.length_drop]; omega), List.drop_take, List.drop_drop]
        congr 1
        · omega
        · congr 1; omega
      rw [g2, GoM.bind_ok, g3, GoM.bind_ok, htail]
      have hoff : ((((ns.normalized.drop a.toNat).take (b - a).toNat).drop (0 : Int).toNat).take (io - 0).toNat).length + a = a + io := by omega
      rw [hoff]
      obtain ⟨k1, k2⟩ := picks_loop ns.alignments dest ⟨a + io, rs, [], []⟩ (by simp only; omega)
      by_cases h3 : ∃ ps, Picks ns.alignments rs (a + io) dest ps
      · obtain ⟨ps0, h3⟩ := h3
        obtain ⟨st, e1, e2, e3⟩ := k1 ps0 h3
        have e1 : goFor dest ⟨a + io, runesOf ((ns.normalized.drop (a + io).toNat).take (b - (a + io)).toNat), [], []⟩
            (transformStep ns.alignments) = .ok st := e1
        rw [e1, GoM.bind_ok]
        by_cases h4 : b ≤ (ns.alignments.length : Int)
        · have s1 := goSlice_of (l := ns.alignments) (a := 0) (b := a) (by omega) (by omega) (by omega)
          have s2 := goSlice_of (l := ns.alignments) (a := b) (b := ns.alignments.length) (by omega) (by omega) (by omega)
          have s3 := goSlice_of (l := ns.normalized) (a := 0) (b := a) (by omega) (by omega) (by omega)
          have s4 := goSlice_of (l := ns.normalized) (a := b) (b := ns.normalized.length) (by omega) (by omega) (by omega)
          rw [s1, s2, s3, s4]
          simp only [GoM.bind_ok, GoM.pure_eq]
          refine ⟨?_, fun h => absurd ⟨ps0, ⟨a1, a2, a3⟩, h2, h4, h3⟩ h⟩
          rintro ps ⟨-, -, -, hp⟩
          obtain ⟨st', f1, f2, f3⟩ := k1 ps hp
          rw [e1] at f1
          cases f1
          rw [f2, f3]
          simp only [GoM.ok.injEq, changed, NS.mk.injEq, true_and, and_true]
          refine ⟨?_, ?_⟩
          · rw [List.take_of_length_le (l := ns.normalized.drop b.toNat) (by rw [List.length_drop]; omega)]
            simp
          · rw [List.take_of_length_le (l := ns.alignments.drop b.toNat) (by rw [List.length_drop]; omega)]
            simp
        · refine ⟨fun ps h => absurd h.2.2.1 h4, fun _ => ?_⟩
          have s2 : goSlice ns.alignments b ns.alignments.length = .panic := goSlice_eq_panic.2 (by omega)
          rw [s2]
          cases goSlice ns.alignments 0 a <;> simp
      · refine ⟨fun ps h => absurd ⟨ps, h.2.2.2⟩ h3, fun _ => ?_⟩
        have e1 : goFor dest ⟨a + io, runesOf ((ns.normalized.drop (a + io).toNat).take (b - (a + io)).toNat), [], []⟩
            (transformStep ns.alignments) = .panic := k2 h3
        rw [e1, GoM.bind_panic]
    · refine ⟨fun ps h => absurd h.2.1 h2, fun _ => ?_⟩
      have : goSlice ((ns.normalized.drop a.toNat).take (b - a).toNat) 0 io = .panic := goSlice_eq_panic.2 (by omega)
      rw [this, GoM.bind_panic]
  · refine ⟨fun ps h => absurd h.1 h1, fun _ => ?_⟩
    rw [goSlice_eq_panic.2 h1, GoM.bind_panic]

/-- **C138.** In any state, `TransformRange` on a normalized range, with any changes and initial offset: it panics exactly if the change
is not possible, and else replaces the range by the runes of the changes with the alignments that the changes say. -/
theorem C138_exact (ns : NS) (a b : Int) (dest : List RuneChange) (io : Int) :
    (∀ ps, Possible ns a b dest io (runesOf ((ns.normalized.drop (a + io).toNat).take (b - (a + io)).toNat)) ps →
      ns.transformRange (.normalized a b) dest io = .ok (changed ns a b dest ps))
    ∧ ((¬ ∃ ps, Possible ns a b dest io (runesOf ((ns.normalized.drop (a + io).toNat).take (b - (a + io)).toNat)) ps) →
      ns.transformRange (.normalized a b) dest io = .panic) :=
  transformNormalized_any ns a b dest io

/-- **C138, original ranges.** It acts on what the conversion to the normalized gives, and does nothing if that fails. -/
theorem C138_original (ns : NS) (a b : Int) (dest : List RuneChange) (io : Int) :
    (∀ x y, ns.coerceRangeToNormalized (.original a b) = some (x, y) →
      ns.transformRange (.original a b) dest io = ns.transformRange (.normalized x y) dest io)
    ∧ (ns.coerceRangeToNormalized (.original a b) = none → ns.transformRange (.original a b) dest io = .ok ns) := by
  constructor
  · intro x y h
    have : ns.coerceRangeToNormalized (.normalized x y) = some (x, y) := rfl
    simp only [NS.transformRange, h, this]
  · intro h
    simp only [NS.transformRange, h]

/-! ## Concrete -/

/-- "é" and a letter: the first dropped with the letter in its place, another put in front. -/
example : (NS.fromString b!"éa").transformRange (.normalized 0 3) [⟨u!"x", 1⟩, ⟨u!"y", -1⟩] 0
    = .ok ⟨b!"éa", b!"xy", [⟨0, 0⟩, ⟨0, 2⟩], 0⟩ := by decide +kernel

example : Possible (NS.fromString b!"éa") 0 3 [⟨u!"x", 1⟩, ⟨u!"y", -1⟩] 0 [u!"é", u!"a"] [⟨0, 0⟩, ⟨0, 2⟩] := by
  refine ⟨⟨by decide, by decide, by decide +kernel⟩, by decide, by decide +kernel, by decide +kernel, rfl, ?_⟩
  intro k rc hk
  match k with
  | 0 => cases hk; decide +kernel
  | 1 => cases hk; decide +kernel
  | k + 2 => simp at hk

/-- Keeping both runes of a bad byte and a letter works on `FromString`, which has alignments to spare, and panics on a string with one
alignment for each byte. -/
theorem C138_example :
    (NS.fromString [0xFF, 0x61]).transformRange (.normalized 0 2) [⟨u!"x", 0⟩, ⟨u!"y", 0⟩] 0
      = .ok ⟨[0xFF, 0x61], b!"xy", [⟨0, 3⟩, ⟨1, 2⟩, ⟨0, 3⟩, ⟨1, 2⟩], 0⟩
    ∧ (⟨[0xFF, 0x61], [0xFF, 0x61], [⟨0, 1⟩, ⟨1, 2⟩], 0⟩ : NS).transformRange (.normalized 0 2) [⟨u!"x", 0⟩, ⟨u!"y", 0⟩] 0 = .panic := by
  decide +kernel

end Verif
