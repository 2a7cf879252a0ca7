import Verif.Props.NormalizersAnyState
import Verif.Props.ByteLevelBytes

/-! The byte-level transformation in any state whatever, exactly (C146). -/

set_option autoImplicit false

namespace Verif

/-! ## Specification -/

/-- Where the bytes of the runes `rs`, the first beginning at byte `p`, get their alignments from: the first byte of a rune from its own
place, the others from the place of the last byte of the rune. -/
def bytePlaces (p : Nat) : List Rune → List Nat
  | [] => []
  | r :: rs => (p :: List.replicate ((encodeRune r).length - 1) (p + (encodeRune r).length - 1)) ++ bytePlaces (p + (encodeRune r).length) rs

/-! ## Proofs -/

theorem picks_inserted (als : List Align) (rs : List Rune) (q : Nat) (hq : 1 ≤ q) (dest : List RuneChange) (X : List (Option Align))
    (h : ∀ ps, Picks als rs q dest ps ↔ ps.map some = X) : ∀ (xs : List Rune) (ps : List Align),
    Picks als rs q (xs.map (fun x => ⟨x, 1⟩) ++ dest) ps ↔ ps.map some = List.replicate xs.length als[q - 1]? ++ X := by
  intro xs
  induction xs with
  | nil => intro ps; simpa using h ps
  | cons x xs ih =>
    intro ps
    have ht : takes ⟨x, 1⟩ = 0 := rfl
    cases ps with
    | nil => simp [Picks, List.replicate_succ]
    | cons p ps =>
      have hz : (q : Int) + ((encodeRunes []).length : Int) = q := by simp [encodeRunes]
      have hi : ((q : Int) - 1).toNat = q - 1 := by omega
      simp only [List.map_cons, List.cons_append, Picks, ht, List.take_zero, List.drop_zero, hz, ih, alignFor, Int.le_refl, if_true,
        if_neg (show ¬ (q : Int) < 1 by omega), hi, List.length_cons, List.replicate_succ, List.cons.injEq, Nat.zero_le, true_and]
      exact and_congr_left fun _ => ⟨Eq.symm, Eq.symm⟩

theorem bytePlaces_picks (als : List Align) : ∀ (rs : List Rune) (p : Nat) (ps : List Align),
    Picks als rs p (rs.flatMap fun r => byteChanges (encodeRune r)) ps ↔ ps.map some = (bytePlaces p rs).map fun k => als[k]? := by
  intro rs
  induction rs with
  | nil => intro p ps; simp [Picks, bytePlaces]
  | cons r rs ih =>
    intro p ps
    have hpos := encodeRune_length_pos r
    have hq : (p : Int) + ((encodeRunes [r]).length : Int) = ((p + (encodeRune r).length : Nat) : Int) := by simp [encodeRunes]
    rw [List.flatMap_cons]
    cases he : encodeRune r with
    | nil => rw [he] at hpos; simp at hpos
    | cons b bs =>
      rw [he] at hq
      have hins := picks_inserted als rs (p + (b :: bs).length) (by simp; omega) (rs.flatMap fun r => byteChanges (encodeRune r)) _
        (fun ps => ih (p + (b :: bs).length) ps) (bs.map byteToRune)
      have ht : takes ⟨byteToRune b, 0⟩ = 1 := rfl
      rw [byteChanges_cons, List.cons_append]
      cases ps with
      | nil => simp [Picks, bytePlaces]
      | cons p0 ps =>
        simp only [Picks, ht, List.take_succ_cons, List.take_zero, List.drop_succ_cons, List.drop_zero, hq, hins, alignFor, bytePlaces, he,
          List.map_cons, List.cons_append, List.map_append, List.map_replicate, List.cons.injEq, List.length_map, Int.toNat_natCast]
        rw [if_neg (by omega)]
        simp only [List.length_cons, Nat.add_sub_cancel]
        constructor
        · rintro ⟨-, h1, h2⟩
          exact ⟨h1.symm, h2⟩
        · rintro ⟨h1, h2⟩
          exact ⟨by omega, h1.symm, h2⟩

theorem bytePlaces_lt : ∀ (rs : List Rune) (p : Nat), ∀ k ∈ bytePlaces p rs, k < p + (encodeRunes rs).length := by
  intro rs
  induction rs with
  | nil => intro p k h; simp [bytePlaces] at h
  | cons r rs ih =>
    intro p k h
    have hpos := encodeRune_length_pos r
    rw [encodeRunes_cons, List.length_append]
    simp only [bytePlaces, List.cons_append, List.mem_cons, List.mem_append, List.mem_replicate] at h
    rcases h with rfl | ⟨-, rfl⟩ | h
    · omega
    · omega
    · have := ih _ k h
      omega

theorem byteChanges_runes : ∀ rs : List Rune, (rs.flatMap fun r => byteChanges (encodeRune r)).map (·.rune) = (encodeRunes rs).map byteToRune := by
  intro rs
  induction rs with
  | nil => rfl
  | cons r rs ih =>
    rw [List.flatMap_cons, List.map_append, ih, encodeRunes_cons, List.map_append]
    congr 1
    cases encodeRune r with
    | nil => rfl
    | cons b bs =>
      rw [byteChanges_cons]
      simp

/-- **C146.** In any state: the byte-level transformation panics exactly if the text is not valid UTF-8 or has more bytes than there are
alignments; otherwise every byte becomes its rune, with the alignment of its place. -/
theorem C146_bytes (ns : NS) :
    (∀ ps : List Align, ValidUtf8 ns.normalized → ns.normalized.length ≤ ns.alignments.length →
      ps.map some = (bytePlaces 0 (runesOf ns.normalized)).map (fun k => ns.alignments[k]?) →
      byteLevelNormalize ns = .ok (keeping ns (ns.normalized.map byteToRune) ps, none))
    ∧ (ValidUtf8 ns.normalized → ns.normalized.length ≤ ns.alignments.length →
      ∃ ps : List Align, ps.map some = (bytePlaces 0 (runesOf ns.normalized)).map (fun k => ns.alignments[k]?))
    ∧ (¬ (ValidUtf8 ns.normalized ∧ ns.normalized.length ≤ ns.alignments.length) → byteLevelNormalize ns = .panic) := by
  have hloop : ValidUtf8 ns.normalized → byteLevelLoop ns.get (runesOf ns.get) 0
      = .ok ((runesOf ns.normalized).flatMap fun r => byteChanges (encodeRune r)) := by
    intro hv
    have := byteLevelLoop_eq (runesOf ns.normalized) []
    rw [List.nil_append, hv.runes] at this
    exact this
  have hx := C138_exact ns 0 ns.normalized.length ((runesOf ns.normalized).flatMap fun r => byteChanges (encodeRune r)) 0
  have hrd : ((ns.normalized.drop (0 + (0 : Int)).toNat).take ((ns.normalized.length : Int) - (0 + (0 : Int))).toNat) = ns.normalized := by
    rw [show (0 + (0 : Int)).toNat = 0 by rfl, List.drop_zero, List.take_of_length_le]
    omega
  rw [hrd] at hx
  have hdef : ValidUtf8 ns.normalized → byteLevelNormalize ns
      = (ns.transformRange (.normalized 0 ns.normalized.length) ((runesOf ns.normalized).flatMap fun r => byteChanges (encodeRune r)) 0).bind
          fun ns' => .ok (ns', none) := by
    intro hv
    unfold byteLevelNormalize
    rw [hloop hv]
    rfl
  refine ⟨?_, ?_, ?_⟩
  · intro ps hv h1 h2
    rw [← bytePlaces_picks, picks_iff] at h2
    have hp : Possible ns 0 ns.normalized.length ((runesOf ns.normalized).flatMap fun r => byteChanges (encodeRune r)) 0 (runesOf ns.normalized) ps :=
      ⟨⟨by omega, by omega, by omega⟩, ⟨by omega, by omega⟩, by omega, h2.1, h2.2.1, h2.2.2⟩
    rw [hdef hv, hx.1 ps hp]
    have hr := byteChanges_runes (runesOf ns.normalized)
    rw [hv.runes] at hr
    simp only [changed, keeping, GoM.bind, Int.toNat_zero, List.take_zero, List.nil_append, Int.toNat_natCast, List.drop_length, List.append_nil,
      ← hr]
    rw [List.zip_map_left, List.flatMap_map]
    rfl
  · intro hv h1
    have hlt := bytePlaces_lt (runesOf ns.normalized) 0
    rw [hv.runes] at hlt
    refine ⟨(bytePlaces 0 (runesOf ns.normalized)).map fun k => ns.alignments.getD k ⟨0, 0⟩, ?_⟩
    rw [List.map_map]
    apply List.map_congr_left
    intro k hk
    have := hlt k hk
    have hk' : k < ns.alignments.length := by omega
    simp [List.getD, List.getElem?_eq_getElem hk']
  · intro h
    by_cases hv : ValidUtf8 ns.normalized
    · rw [hdef hv, hx.2]
      · rfl
      · rintro ⟨ps, hp⟩
        have := hp.behind
        exact h ⟨hv, by omega⟩
    · exact C125_byteLevelNormalize hv

/-! ## Concrete -/

/-- "é" with different alignments for its two bytes and one alignment too many; and with one too few. -/
theorem C146_example :
    byteLevelNormalize ⟨b!"ab", b!"é", [⟨0, 1⟩, ⟨1, 2⟩, ⟨2, 2⟩], 0⟩
      = .ok (⟨b!"ab", b!"Ã©", [⟨0, 1⟩, ⟨0, 1⟩, ⟨1, 2⟩, ⟨1, 2⟩, ⟨2, 2⟩], 0⟩, none)
    ∧ byteLevelNormalize ⟨b!"ab", b!"é", [⟨0, 1⟩], 0⟩ = .panic := by decide +kernel

end Verif
