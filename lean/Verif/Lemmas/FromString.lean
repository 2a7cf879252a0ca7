import Verif.Lemmas.Coerce

set_option autoImplicit false

namespace Verif

/-- The characters of a text aligned to itself, starting at byte `i`. -/
def selfChars : Nat → List Rune → List Ch
  | _, [] => []
  | i, r :: rs => (r, ⟨(i : Int), ((i + runeLen r : Nat) : Int)⟩) :: selfChars (i + runeLen r) rs

theorem selfChars_map_fst (i : Nat) (rs : List Rune) : (selfChars i rs).map (·.1) = rs := by
  induction rs generalizing i with
  | nil => rfl
  | cons r rs ih => simp [selfChars, ih]

theorem selfChars_append (i : Nat) (as bs : List Rune) :
    selfChars i (as ++ bs) = selfChars i as ++ selfChars (i + (encodeRunes as).length) bs := by
  induction as generalizing i with
  | nil => simp [selfChars]
  | cons r rs ih => simp [selfChars, ih, runeLen]; congr 1; omega

theorem text_selfChars (i : Nat) (rs : List Rune) : text (selfChars i rs) = encodeRunes rs := by
  simp [text, selfChars_map_fst]

theorem validChars_selfChars {i : Nat} {rs : List Rune} (h : ∀ r ∈ rs, ValidRune r) :
    ValidChars (selfChars i rs) := by
  intro c hc
  apply h
  rw [← selfChars_map_fst i rs]
  exact List.mem_map_of_mem hc

theorem rangeSpec_aligns (i : Nat) (rs : List Rune) :
    ((rangeSpec i rs).flatMap fun x => List.replicate (encodeRune x.2).length
      (⟨(x.1 : Int), ((x.1 + (encodeRune x.2).length : Nat) : Int)⟩ : Align))
      = aligns (selfChars i rs) := by
  induction rs generalizing i with
  | nil => rfl
  | cons r rs ih =>
    simp only [rangeSpec, selfChars, List.flatMap_cons, aligns_cons, ih]
    rfl

theorem fromString_repr {s : Str} (h : ValidUtf8 s) :
    Repr (NS.fromString s) (selfChars 0 (runesOf s)) := by
  obtain ⟨rs, hv, rfl⟩ := h
  have hr := runesOf_encodeRunes rs hv
  refine ⟨?_, ?_, ?_⟩
  · rw [hr, text_selfChars]; rfl
  · rw [hr, ← rangeSpec_aligns]
    simp only [NS.fromString, alignmentsFromString, rangeStr_encodeRunes rs hv]
  · rw [hr]; exact validChars_selfChars hv

theorem selfChars_bounds (i : Nat) (rs : List Rune) : ∀ c ∈ selfChars i rs,
    (i : Int) ≤ c.2.start ∧ c.2.start < c.2.stop ∧ c.2.stop ≤ ((i + (encodeRunes rs).length : Nat) : Int) := by
  induction rs generalizing i with
  | nil => simp [selfChars]
  | cons r rs ih =>
    intro c hc
    have hp := runeLen_pos r
    have hl : (encodeRunes (r :: rs)).length = runeLen r + (encodeRunes rs).length := by simp [runeLen]
    simp only [selfChars, List.mem_cons] at hc
    rcases hc with rfl | hc
    · simp only; omega
    · have := ih _ c hc; omega

theorem selfChars_ordered (i : Nat) (rs : List Rune) :
    ((selfChars i rs).map (·.2)).Pairwise AlignLE := by
  induction rs generalizing i with
  | nil => simp [selfChars]
  | cons r rs ih =>
    simp only [selfChars, List.map_cons, List.pairwise_cons]
    refine ⟨?_, ih _⟩
    intro b hb
    obtain ⟨c, hc, rfl⟩ := List.mem_map.1 hb
    have := selfChars_bounds _ _ c hc
    right; simp only; omega

theorem pairwise_aligns {cs : List Ch} (h : (cs.map (·.2)).Pairwise AlignLE) :
    (aligns cs).Pairwise AlignLE := by
  induction cs with
  | nil => simp
  | cons c cs ih =>
    simp only [List.map_cons, List.pairwise_cons] at h
    rw [aligns_cons, List.pairwise_append]
    refine ⟨?_, ih h.2, ?_⟩
    · rw [List.pairwise_replicate]; right; exact AlignLE.refl _
    · intro a ha b hb
      obtain ⟨-, rfl⟩ := List.mem_replicate.1 ha
      obtain ⟨d, hd, rfl⟩ := mem_aligns.1 hb
      exact h.1 _ (List.mem_map_of_mem hd)

theorem fromString_wf {s : Str} (h : ValidUtf8 s) : WF (NS.fromString s) := by
  have hr := fromString_repr h
  refine ⟨hr.len_eq, ?_, ?_⟩
  · rw [hr.aligns_eq]; exact pairwise_aligns (selfChars_ordered _ _)
  · intro a ha
    rw [hr.aligns_eq] at ha
    obtain ⟨c, hc, rfl⟩ := mem_aligns.1 ha
    have := selfChars_bounds _ _ c hc
    rw [h.runes] at this
    simp only [NS.fromString] at *
    omega

/-! ## Decoding, backwards -/

/-- A first rune is spelled by the first bytes, or is U+FFFD of width 1. -/
theorem decodeRune_cases (s : Str) (hs : s ≠ []) : decodeRune s = (runeError, 1) ∨
    ∃ rest, s = encodeRune (decodeRune s).1 ++ rest := by
  have key : ∀ n : Nat, ∀ rest : Str, ValidRune (n : Int) →
      encodeRune (n : Int) ++ rest = encodeNat n ++ rest := by
    intro n rest h
    simp [encodeRune, sanitize_of_valid h]
  have hv := decodeRune_valid s
  unfold decodeRune at hv ⊢
  split
  · exact absurd rfl hs
  · rename_i b0 t
    have hb0 := b0.toNat_lt
    simp only at hv ⊢
    split
    · rename_i h
      right
      refine ⟨t, ?_⟩
      rw [if_pos h] at hv
      rw [key _ _ hv]
      simp [encodeNat, h]
    · split
      · left; rfl
      · split
        · split
          · split
            · rename_i b1 t' hc
              have hb1 := b1.toNat_lt
              simp [isCont] at hc
              right; refine ⟨t', ?_⟩
              rw [key _ _ (by left; simp; omega)]
              unfold encodeNat
              rw [if_neg (by omega), if_pos (by omega)]
              have e1 : 0xC0 + ((b0.toNat - 0xC0) * 64 + (b1.toNat - 0x80)) / 64 = b0.toNat := by omega
              have e2 : 0x80 + ((b0.toNat - 0xC0) * 64 + (b1.toNat - 0x80)) % 64 = b1.toNat := by omega
              rw [e1, e2]; simp
            · left; rfl
          · left; rfl
        · split
          · split
            · split
              · rename_i b1 b2 t' hc
                have hb1 := b1.toNat_lt
                have hb2 := b2.toNat_lt
                simp [isCont] at hc
                right; refine ⟨t', ?_⟩
                rw [key _ _ (by unfold ValidRune; simp; omega)]
                unfold encodeNat
                rw [if_neg (by omega), if_neg (by omega), if_pos (by omega)]
                have e1 : 0xE0 + ((b0.toNat - 0xE0) * 4096 + (b1.toNat - 0x80) * 64 + (b2.toNat - 0x80)) / 4096 = b0.toNat := by omega
                have e2 : 0x80 + ((b0.toNat - 0xE0) * 4096 + (b1.toNat - 0x80) * 64 + (b2.toNat - 0x80)) / 64 % 64 = b1.toNat := by omega
                have e3 : 0x80 + ((b0.toNat - 0xE0) * 4096 + (b1.toNat - 0x80) * 64 + (b2.toNat - 0x80)) % 64 = b2.toNat := by omega
                rw [e1, e2, e3]; simp
              · left; rfl
            · left; rfl
          · split
            · split
              · split
                · rename_i b1 b2 b3 t' hc
                  have hb1 := b1.toNat_lt
                  have hb2 := b2.toNat_lt
                  have hb3 := b3.toNat_lt
                  simp [isCont] at hc
                  right; refine ⟨t', ?_⟩
                  rw [key _ _ (by unfold ValidRune; simp; omega)]
                  unfold encodeNat
                  rw [if_neg (by omega), if_neg (by omega), if_neg (by omega)]
                  have e1 : 0xF0 + ((b0.toNat - 0xF0) * 262144 + (b1.toNat - 0x80) * 4096 + (b2.toNat - 0x80) * 64 + (b3.toNat - 0x80)) / 262144 = b0.toNat := by omega
                  have e2 : 0x80 + ((b0.toNat - 0xF0) * 262144 + (b1.toNat - 0x80) * 4096 + (b2.toNat - 0x80) * 64 + (b3.toNat - 0x80)) / 4096 % 64 = b1.toNat := by omega
                  have e3 : 0x80 + ((b0.toNat - 0xF0) * 262144 + (b1.toNat - 0x80) * 4096 + (b2.toNat - 0x80) * 64 + (b3.toNat - 0x80)) / 64 % 64 = b2.toNat := by omega
                  have e4 : 0x80 + ((b0.toNat - 0xF0) * 262144 + (b1.toNat - 0x80) * 4096 + (b2.toNat - 0x80) * 64 + (b3.toNat - 0x80)) % 64 = b3.toNat := by omega
                  rw [e1, e2, e3, e4]; simp
                · left; rfl
              · left; rfl
            · left; rfl

/-- A decoded rune other than U+FFFD is spelled by the first bytes. -/
theorem decodeRune_inv (s : Str) : (decodeRune s).1 = runeError ∨
    ∃ rest, s = encodeRune (decodeRune s).1 ++ rest := by
  by_cases hs : s = []
  · subst hs; left; rfl
  · rcases decodeRune_cases s hs with h | h
    · left; rw [h]
    · exact .inr h

theorem runesOf_cons_decode (b : UInt8) (bs : Str) :
    ∃ rs, runesOf (b :: bs) = (decodeRune (b :: bs)).1 :: rs := by
  simp only [runesOf, rangeStr, rangeAux, List.map_cons]
  exact ⟨_, rfl⟩

end Verif
