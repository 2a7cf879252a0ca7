import Verif.Spec.Utf8

set_option autoImplicit false

namespace Verif

/-! ## Sanitizing -/

theorem validRune_runeError : ValidRune runeError := by decide

theorem sanitize_valid (r : Rune) : ValidRune (sanitize r) := by
  unfold sanitize; split
  · assumption
  · exact validRune_runeError

theorem sanitize_of_valid {r : Rune} (h : ValidRune r) : sanitize r = r := by
  simp [sanitize, h]

@[simp] theorem sanitize_sanitize (r : Rune) : sanitize (sanitize r) = sanitize r :=
  sanitize_of_valid (sanitize_valid r)

@[simp] theorem encodeRune_sanitize (r : Rune) : encodeRune (sanitize r) = encodeRune r := by
  simp [encodeRune]

@[simp] theorem runeLen_sanitize (r : Rune) : runeLen (sanitize r) = runeLen r := by
  simp [runeLen]

/-! ## Length of encodings -/

theorem encodeNat_length_pos (c : Nat) : 0 < (encodeNat c).length := by
  unfold encodeNat; split <;> (try split) <;> (try split) <;> simp

theorem encodeRune_length_pos (r : Rune) : 0 < (encodeRune r).length := encodeNat_length_pos _

theorem encodeRune_ne_nil (r : Rune) : encodeRune r ≠ [] :=
  List.ne_nil_of_length_pos (encodeRune_length_pos r)

theorem runeLen_pos (r : Rune) : 0 < runeLen r := encodeRune_length_pos r

theorem runeLen_le_four (r : Rune) : runeLen r ≤ 4 := by
  unfold runeLen encodeRune encodeNat; split <;> (try split) <;> (try split) <;> simp

@[simp] theorem encodeRunes_nil : encodeRunes [] = [] := rfl

@[simp] theorem encodeRunes_cons (r : Rune) (rs : List Rune) :
    encodeRunes (r :: rs) = encodeRune r ++ encodeRunes rs := rfl

@[simp] theorem encodeRunes_append (as bs : List Rune) :
    encodeRunes (as ++ bs) = encodeRunes as ++ encodeRunes bs := by
  simp [encodeRunes]

theorem encodeRunes_eq_nil {rs : List Rune} : encodeRunes rs = [] ↔ rs = [] := by
  cases rs with
  | nil => simp
  | cons r rs => simp [encodeRune_ne_nil]

theorem length_le_encodeRunes (rs : List Rune) : rs.length ≤ (encodeRunes rs).length := by
  induction rs with
  | nil => simp
  | cons r rs ih => have := encodeRune_length_pos r; simp; omega

/-! ## Decoding an encoded rune -/

private theorem u8 {n : Nat} (h : n < 256) : (UInt8.ofNat n).toNat = n := by
  simp [UInt8.toNat_ofNat']; omega

theorem decodeRune_encodeNat (c : Nat) (h : c < 0xD800 ∨ (0xDFFF < c ∧ c ≤ 0x10FFFF)) (rest : Str) :
    decodeRune (encodeNat c ++ rest) = ((c : Int), (encodeNat c).length) := by
  unfold encodeNat
  split
  · rename_i h1
    simp [decodeRune]
    rw [if_pos (by omega)]
    simp; omega
  · split
    · have h0 : 0xC0 + c / 64 < 256 := by omega
      have h1 : 0x80 + c % 64 < 256 := by omega
      simp only [decodeRune, List.cons_append, List.nil_append, u8 h0, u8 h1, isCont]
      rw [if_neg (by omega), if_neg (by omega), if_pos (by omega)]
      rw [if_pos (by simp; omega)]
      simp; omega
    · split
      · have h0 : 0xE0 + c / 4096 < 256 := by omega
        have h1 : 0x80 + c / 64 % 64 < 256 := by omega
        have h2 : 0x80 + c % 64 < 256 := by omega
        simp only [decodeRune, List.cons_append, List.nil_append, u8 h0, u8 h1, u8 h2, isCont]
        rw [if_neg (by omega), if_neg (by omega), if_neg (by omega), if_pos (by omega)]
        rw [if_pos (by simp; omega)]
        simp; omega
      · have h0 : 0xF0 + c / 262144 < 256 := by omega
        have h1 : 0x80 + c / 4096 % 64 < 256 := by omega
        have h2 : 0x80 + c / 64 % 64 < 256 := by omega
        have h3 : 0x80 + c % 64 < 256 := by omega
        simp only [decodeRune, List.cons_append, List.nil_append, u8 h0, u8 h1, u8 h2, u8 h3, isCont]
        rw [if_neg (by omega), if_neg (by omega), if_neg (by omega), if_neg (by omega), if_pos (by omega)]
        rw [if_pos (by simp; omega)]
        simp; omega

theorem decodeRune_encodeRune {r : Rune} (h : ValidRune r) (rest : Str) :
    decodeRune (encodeRune r ++ rest) = (r, (encodeRune r).length) := by
  have hr : (r.toNat : Int) = r := by rcases h with h | h <;> omega
  have := decodeRune_encodeNat r.toNat (by rcases h with h | h <;> omega) rest
  simp only [encodeRune, sanitize_of_valid h]
  rw [this, hr]

/-! ## `range` over encoded runes -/

theorem rangeAux_skip (pre rest : Str) (i : Nat) :
    rangeAux (pre ++ rest) i pre.length = rangeAux rest (i + pre.length) 0 := by
  induction pre generalizing i with
  | nil => simp
  | cons b pre ih =>
    simp only [List.cons_append, List.length_cons, rangeAux]
    rw [ih]; congr 1; omega

theorem rangeAux_encodeRune {r : Rune} (h : ValidRune r) (rest : Str) (i : Nat) :
    rangeAux (encodeRune r ++ rest) i 0
      = (i, r) :: rangeAux rest (i + (encodeRune r).length) 0 := by
  have hd := decodeRune_encodeRune h rest
  have hp := encodeRune_length_pos r
  generalize encodeRune r = e at *
  cases e with
  | nil => simp at hp
  | cons b bs =>
    simp only [List.cons_append, List.length_cons] at *
    simp only [rangeAux, hd, Nat.add_sub_cancel]
    rw [rangeAux_skip]
    congr 2; omega

/-- `range` over a string made of encoded valid runes. -/
def rangeSpec : Nat → List Rune → List (Nat × Rune)
  | _, [] => []
  | i, r :: rs => (i, r) :: rangeSpec (i + runeLen r) rs

theorem rangeAux_encodeRunes (rs : List Rune) (h : ∀ r ∈ rs, ValidRune r) (i : Nat) :
    rangeAux (encodeRunes rs) i 0 = rangeSpec i rs := by
  induction rs generalizing i with
  | nil => simp [rangeAux, rangeSpec]
  | cons r rs ih =>
    simp only [encodeRunes_cons, rangeSpec]
    rw [rangeAux_encodeRune (h r (by simp)), ih (fun r hr => h r (by simp [hr]))]
    rfl

theorem rangeStr_encodeRunes (rs : List Rune) (h : ∀ r ∈ rs, ValidRune r) :
    rangeStr (encodeRunes rs) = rangeSpec 0 rs := rangeAux_encodeRunes rs h 0

theorem rangeSpec_map_snd (i : Nat) (rs : List Rune) : (rangeSpec i rs).map (·.2) = rs := by
  induction rs generalizing i with
  | nil => rfl
  | cons r rs ih => simp [rangeSpec, ih]

theorem runesOf_encodeRunes (rs : List Rune) (h : ∀ r ∈ rs, ValidRune r) :
    runesOf (encodeRunes rs) = rs := by
  rw [runesOf, rangeStr_encodeRunes rs h, rangeSpec_map_snd]

theorem encodeRunes_sanitize (rs : List Rune) : encodeRunes (rs.map sanitize) = encodeRunes rs := by
  induction rs with
  | nil => rfl
  | cons r rs ih => simp [ih]

theorem runesOf_encodeRunes' (rs : List Rune) : runesOf (encodeRunes rs) = rs.map sanitize := by
  rw [← encodeRunes_sanitize, runesOf_encodeRunes]
  intro r hr
  obtain ⟨x, -, rfl⟩ := List.mem_map.1 hr
  exact sanitize_valid x

/-- Encoding is injective on valid runes. -/
theorem encodeRunes_inj {as bs : List Rune} (ha : ∀ r ∈ as, ValidRune r) (hb : ∀ r ∈ bs, ValidRune r)
    (h : encodeRunes as = encodeRunes bs) : as = bs := by
  rw [← runesOf_encodeRunes as ha, ← runesOf_encodeRunes bs hb, h]

/-! ## Every decoded rune is a valid one -/

theorem decodeRune_valid (s : Str) : ValidRune (decodeRune s).1 := by
  unfold decodeRune
  split
  · exact validRune_runeError
  · rename_i b0 t
    have hb0 := b0.toNat_lt
    simp only
    split
    · left; simp; omega
    · split
      · exact validRune_runeError
      · split
        · split
          · split
            · rename_i h; simp [isCont] at h; left; simp; omega
            · exact validRune_runeError
          · exact validRune_runeError
        · split
          · split
            · split
              · rename_i h; simp [isCont] at h
                unfold ValidRune; simp; omega
              · exact validRune_runeError
            · exact validRune_runeError
          · split
            · split
              · split
                · rename_i h; simp [isCont] at h
                  unfold ValidRune; simp; omega
                · exact validRune_runeError
              · exact validRune_runeError
            · exact validRune_runeError

theorem rangeAux_valid (s : Str) (i k : Nat) : ∀ p ∈ rangeAux s i k, ValidRune p.2 := by
  induction s generalizing i k with
  | nil => simp [rangeAux]
  | cons b bs ih =>
    cases k with
    | zero =>
      intro p hp
      simp only [rangeAux, List.mem_cons] at hp
      rcases hp with rfl | hp
      · exact decodeRune_valid _
      · exact ih _ _ p hp
    | succ k => exact ih _ _

theorem runesOf_valid (s : Str) : ∀ r ∈ runesOf s, ValidRune r := by
  intro r hr
  obtain ⟨p, hp, rfl⟩ := List.mem_map.1 hr
  exact rangeAux_valid _ _ _ p hp

/-! ## Number of runes -/

theorem rangeAux_length_le (s : Str) (i k : Nat) : (rangeAux s i k).length ≤ s.length := by
  induction s generalizing i k with
  | nil => simp [rangeAux]
  | cons b bs ih =>
    cases k with
    | zero => simp only [rangeAux, List.length_cons]; have := ih (i + 1) ((decodeRune (b :: bs)).2 - 1); omega
    | succ k => simp only [rangeAux, List.length_cons]; have := ih (i + 1) k; omega

theorem runesOf_length_le (s : Str) : (runesOf s).length ≤ s.length := by
  simp only [runesOf, List.length_map]; exact rangeAux_length_le s 0 0

theorem runesOf_eq_nil {s : Str} : runesOf s = [] ↔ s = [] := by
  cases s with
  | nil => simp [runesOf, rangeStr, rangeAux]
  | cons b bs => simp [runesOf, rangeStr, rangeAux]

/-! ## Valid UTF-8 strings -/

theorem ValidUtf8.runes {s : Str} (h : ValidUtf8 s) : encodeRunes (runesOf s) = s := by
  obtain ⟨rs, hv, rfl⟩ := h
  rw [runesOf_encodeRunes rs hv]

theorem validUtf8_iff {s : Str} : ValidUtf8 s ↔ encodeRunes (runesOf s) = s :=
  ⟨ValidUtf8.runes, fun h => ⟨runesOf s, runesOf_valid s, h⟩⟩

instance (s : Str) : Decidable (ValidUtf8 s) := decidable_of_iff _ validUtf8_iff.symm

theorem validUtf8_encodeRunes (rs : List Rune) : ValidUtf8 (encodeRunes rs) := by
  refine ⟨rs.map sanitize, ?_, encodeRunes_sanitize rs⟩
  intro r hr
  obtain ⟨x, -, rfl⟩ := List.mem_map.1 hr
  exact sanitize_valid x

theorem ValidUtf8.append {s t : Str} (hs : ValidUtf8 s) (ht : ValidUtf8 t) : ValidUtf8 (s ++ t) := by
  obtain ⟨a, ha, rfl⟩ := hs
  obtain ⟨b, hb, rfl⟩ := ht
  exact ⟨a ++ b, by
    intro r hr; rcases List.mem_append.1 hr with h | h
    · exact ha r h
    · exact hb r h, by simp⟩

/-! ## Byte classes -/

/-- All bytes of an encoding except the first are continuation bytes, the first is not. -/
theorem encodeNat_bytes (c : Nat) (h : c < 0x110000) :
    ∃ b t, encodeNat c = b :: t ∧ isCont b = false ∧ ∀ x ∈ t, isCont x = true := by
  unfold encodeNat
  split
  · refine ⟨_, _, rfl, ?_, by simp⟩
    rw [isCont, u8 (by omega)]; simp; omega
  · split
    · refine ⟨_, _, rfl, ?_, ?_⟩
      · rw [isCont, u8 (by omega)]; simp; omega
      · simp only [List.mem_singleton, forall_eq]
        rw [isCont, u8 (by omega)]; simp; omega
    · split
      · refine ⟨_, _, rfl, ?_, ?_⟩
        · rw [isCont, u8 (by omega)]; simp; omega
        · simp only [List.mem_cons, List.not_mem_nil, or_false, forall_eq_or_imp, forall_eq]
          refine ⟨?_, ?_⟩ <;> rw [isCont, u8 (by omega)] <;> simp <;> omega
      · refine ⟨_, _, rfl, ?_, ?_⟩
        · rw [isCont, u8 (by omega)]; simp; omega
        · simp only [List.mem_cons, List.not_mem_nil, or_false, forall_eq_or_imp, forall_eq]
          refine ⟨?_, ?_, ?_⟩ <;> rw [isCont, u8 (by omega)] <;> simp <;> omega

theorem encodeRune_bytes (r : Rune) :
    ∃ b t, encodeRune r = b :: t ∧ isCont b = false ∧ ∀ x ∈ t, isCont x = true := by
  apply encodeNat_bytes
  have := sanitize_valid r
  rcases this with h | h <;> omega

/-- A rune is encoded in one byte iff it is ASCII. -/
theorem runeLen_eq_one {r : Rune} : runeLen r = 1 ↔ 0 ≤ r ∧ r < 0x80 := by
  unfold runeLen encodeRune encodeNat
  by_cases hv : ValidRune r
  · rw [sanitize_of_valid hv]
    have h0 : 0 ≤ r := by rcases hv with h | h <;> omega
    split
    · simp; omega
    · split <;> (try split) <;> simp <;> omega
  · have : sanitize r = runeError := by simp [sanitize, hv]
    rw [this]
    simp [runeError]
    unfold ValidRune at hv
    omega

end Verif
