import Verif.Props.MapAnyState

/-! The normalizers in any state whatever, exactly (C144). -/

set_option autoImplicit false

namespace Verif

/-! ## Specification -/

/-- What the runes `rs`, read from byte `p` on, become when Chinese characters get spaces on both sides, each rune with the place of its
alignment: the space in front gets that of the first byte of the character, the character and the space behind that of its last byte. -/
def spacedOut (p : Nat) : List Rune → List (Rune × Nat)
  | [] => []
  | r :: rs =>
    let q := p + (encodeRune r).length
    (if isChinese r then [(32, p), (r, q - 1), (32, q - 1)] else [(r, p)]) ++ spacedOut q rs

/-- The steps of the BERT normalizer, one after the other, as far as they are enabled. -/
def inOrder (steps : List (Bool × (NS → GoM NS))) (ns : NS) : GoM NS :=
  steps.foldl (fun x step => if step.1 then x.bind step.2 else x) (.ok ns)

/-! ## Proofs -/

theorem spacedOut_picks (als : List Align) : ∀ (rs : List Rune) (p : Nat) (ps : List Align),
    Picks als rs p (rs.flatMap chineseChange) ps ↔ ps.map some = (spacedOut p rs).map fun x => als[x.2]? := by
  intro rs
  induction rs with
  | nil =>
    intro p ps
    simp [Picks, spacedOut]
  | cons r rs ih =>
    intro p ps
    have hpos := encodeRune_length_pos r
    have hq : (p : Int) + ((encodeRunes [r]).length : Int) = ((p + (encodeRune r).length : Nat) : Int) := by
      simp [encodeRunes]
    by_cases hc : isChinese r = true
    · simp only [List.flatMap_cons, chineseChange, hc, if_true, List.cons_append, List.nil_append, spacedOut, List.map_cons]
      have ht0 : takes ⟨32, 0⟩ = 1 := rfl
      have ht1 : ∀ x : Rune, takes ⟨x, 1⟩ = 0 := fun _ => rfl
      cases ps with
      | nil => simp [Picks]
      | cons p0 ps =>
        cases ps with
        | nil => simp [Picks]
        | cons p1 ps =>
          cases ps with
          | nil => simp [Picks]
          | cons p2 ps =>
            have hl : ¬ ((p + (encodeRune r).length : Nat) : Int) < 1 := by omega
            have hi : (((p + (encodeRune r).length : Nat) : Int) - 1).toNat = p + (encodeRune r).length - 1 := by omega
            have hz : ∀ x : Int, x + ((encodeRunes []).length : Int) = x := by intro x; simp [encodeRunes]
            simp only [Picks, ht0, ht1, List.take_succ_cons, List.take_zero, List.drop_succ_cons, List.drop_zero, hq, hz, alignFor,
              Int.le_refl, if_true, if_neg hl, hi, ih, List.map_cons, List.cons.injEq, List.length_cons, Nat.zero_le, true_and,
              Int.toNat_natCast]
            rw [if_neg (by omega)]
            constructor
            · rintro ⟨-, h1, h2, h3, h4⟩
              exact ⟨h1.symm, h2.symm, h3.symm, h4⟩
            · rintro ⟨h1, h2, h3, h4⟩
              exact ⟨by omega, h1.symm, h2.symm, h3.symm, h4⟩
    · simp only [List.flatMap_cons, chineseChange, hc, Bool.false_eq_true, if_false, List.cons_append, List.nil_append, spacedOut, List.map_cons]
      have ht0 : takes ⟨r, 0⟩ = 1 := rfl
      cases ps with
      | nil => simp [Picks]
      | cons p0 ps =>
        simp only [Picks, ht0, List.take_succ_cons, List.take_zero, List.drop_succ_cons, List.drop_zero, hq, alignFor,
          ih, List.map_cons, List.cons.injEq, List.length_cons, Int.toNat_natCast]
        rw [if_neg (by omega)]
        constructor
        · rintro ⟨-, h1, h2⟩
          exact ⟨h1.symm, h2⟩
        · rintro ⟨h1, h2⟩
          exact ⟨by omega, h1.symm, h2⟩

theorem spacedOut_runes : ∀ (rs : List Rune) (p : Nat), (rs.flatMap chineseChange).map (·.rune) = (spacedOut p rs).map (·.1) := by
  intro rs
  induction rs with
  | nil => intro p; rfl
  | cons r rs ih =>
    intro p
    simp only [List.flatMap_cons, List.map_append, spacedOut, ← ih (p + (encodeRune r).length)]
    congr 1
    simp only [chineseChange]
    split <;> rfl

/-- **C144, Chinese characters.** -/
theorem C144_chinese (ns : NS) :
    (∀ ps : List Align, ns.normalized.length ≤ ns.alignments.length →
      ps.map some = (spacedOut 0 (runesOf ns.normalized)).map (fun x => ns.alignments[x.2]?) →
      handleChineseChars ns = .ok (keeping ns ((spacedOut 0 (runesOf ns.normalized)).map (·.1)) ps))
    ∧ ((¬ ∃ ps : List Align, ns.normalized.length ≤ ns.alignments.length ∧
      ps.map some = (spacedOut 0 (runesOf ns.normalized)).map (fun x => ns.alignments[x.2]?)) → handleChineseChars ns = .panic) := by
  have hx := C138_exact ns 0 ns.normalized.length ((runesOf ns.normalized).flatMap chineseChange) 0
  have hrd : ((ns.normalized.drop (0 + (0 : Int)).toNat).take ((ns.normalized.length : Int) - (0 + (0 : Int))).toNat) = ns.normalized := by
    rw [show (0 + (0 : Int)).toNat = 0 by rfl, List.drop_zero, List.take_of_length_le]
    omega
  rw [hrd] at hx
  have hdef : handleChineseChars ns = ns.transformRange (.normalized 0 ns.normalized.length) ((runesOf ns.normalized).flatMap chineseChange) 0 := rfl
  have hconv : ∀ ps, Possible ns 0 ns.normalized.length ((runesOf ns.normalized).flatMap chineseChange) 0 (runesOf ns.normalized) ps
      ↔ ns.normalized.length ≤ ns.alignments.length ∧ ps.map some = (spacedOut 0 (runesOf ns.normalized)).map (fun x => ns.alignments[x.2]?) := by
    intro ps
    rw [← spacedOut_picks, picks_iff]
    constructor
    · intro h
      exact ⟨by have := h.behind; omega, h.enough, h.length, h.picks⟩
    · rintro ⟨h1, h2, h3, h4⟩
      exact ⟨⟨by omega, by omega, by omega⟩, ⟨by omega, by omega⟩, by omega, h2, h3, h4⟩
  constructor
  · intro ps h1 h2
    rw [hdef, hx.1 ps ((hconv ps).2 ⟨h1, h2⟩)]
    simp only [changed, keeping, Int.toNat_zero, List.take_zero, List.nil_append, Int.toNat_natCast, List.drop_length, List.append_nil,
      ← spacedOut_runes]
    rw [List.zip_map_left, List.flatMap_map]
    rfl
  · intro h
    rw [hdef]
    exact hx.2 fun ⟨ps, hp⟩ => h ⟨ps, (hconv ps).1 hp⟩

/-- **C144, cleaning**: one `Filter`, with every kept white-space rune made a space; no panic is added. -/
theorem C144_clean (u : Uni) (ns : NS) :
    KeepsOrPanics ns (cleanText u ns) (((runesOf ns.normalized).zipIdx.filter fun x => cleanKeep u x.1).map (·.2))
      (((runesOf ns.normalized).filter (cleanKeep u)).map fun r => if bertIsWhitespace r then 32 else r) := by
  have h := C142_filter ns (cleanKeep u) cleanMap
  have hs : ((runesOf ns.normalized).filter (cleanKeep u)).map (fun r => cleanMap (sanitize r))
      = ((runesOf ns.normalized).filter (cleanKeep u)).map fun r => if bertIsWhitespace r then 32 else r := by
    apply List.map_congr_left
    intro r hr
    rw [sanitize_of_valid (runesOf_valid _ r (List.mem_filter.1 hr).1)]
    rfl
  rw [hs] at h
  exact h

/-- **C144, the BERT normalizer** does its steps in this order and never returns an error. -/
theorem C144_bert (u : Uni) (c : BertCfg) (ns : NS) :
    bertNormalize u c ns = (inOrder [(c.textCleaning, cleanText u), (c.chineseCharsHandling, handleChineseChars),
      (c.accentsStripping, fun ns => ns.filter fun r => !u.isMn r), (c.lowerCaseEnabled, fun ns => ns.map u.toLower)] ns).bind fun ns' => .ok (ns', none) := by
  unfold bertNormalize inOrder
  have hassoc : ∀ {α β γ : Type} (x : GoM α) (f : α → GoM β) (g : β → GoM γ), (x.bind f).bind g = x.bind fun a => (f a).bind g := by
    intro α β γ x f g
    cases x <;> rfl
  cases c.textCleaning <;> cases c.chineseCharsHandling <;> cases c.accentsStripping <;> cases c.lowerCaseEnabled <;>
    simp only [List.foldl_cons, List.foldl_nil, if_true, Bool.false_eq_true, if_false, hassoc] <;> rfl

/-! ## Concrete -/

/-- A Chinese character whose bytes have different alignments, and one without enough of them. -/
theorem C144_example :
    handleChineseChars ⟨b!"abc", b!"中", [⟨0, 1⟩, ⟨1, 2⟩, ⟨2, 3⟩], 0⟩
      = .ok ⟨b!"abc", b!" 中 ", [⟨0, 1⟩, ⟨2, 3⟩, ⟨2, 3⟩, ⟨2, 3⟩, ⟨2, 3⟩], 0⟩
    ∧ handleChineseChars ⟨b!"abc", b!"中", [⟨0, 1⟩, ⟨1, 2⟩], 0⟩ = .panic := by
  decide +kernel

end Verif
