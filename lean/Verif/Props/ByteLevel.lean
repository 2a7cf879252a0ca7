import Verif.Props.MetaSpace

/-! Property C33 (and C53): the byte-level mapping. -/

set_option autoImplicit false

namespace Verif

/-! ## The table -/

theorem byte_forall (P : Nat → Bool) (h : (List.range 256).all P = true) (b : UInt8) : P b.toNat = true := by
  rw [List.all_eq_true] at h
  exact h _ (List.mem_range.2 (UInt8.toNat_lt b))

/-- The inverse of the table: the first byte mapped to the rune (0 if there is none). -/
def runeToByte (r : Rune) : UInt8 := UInt8.ofNat (byteTable.findIdx fun x => x == r)

/-- Every byte is found back from its rune. -/
theorem runeToByte_byteToRune (b : UInt8) : runeToByte (byteToRune b) = b := by
  have := byte_forall (fun n => decide (byteTable.findIdx (fun x => x == byteTable.getD n 0) = n))
    (by decide +kernel) b
  simp only [decide_eq_true_eq] at this
  unfold runeToByte byteToRune
  rw [this]
  simp

/-- A control character (category Cc). -/
def IsControl (r : Rune) : Prop := (0 ≤ r ∧ r < 0x20) ∨ (0x7f ≤ r ∧ r < 0xa0)

instance (r : Rune) : Decidable (IsControl r) := inferInstanceAs (Decidable (_ ∨ _))

/-- The table gives valid runes that are neither white space nor control characters. -/
theorem byteToRune_good (b : UInt8) :
    ValidRune (byteToRune b) ∧ isWhiteSpace (byteToRune b) = false ∧ ¬ IsControl (byteToRune b) := by
  have := byte_forall (fun n => decide (ValidRune (byteTable.getD n 0) ∧ isWhiteSpace (byteTable.getD n 0) = false
    ∧ ¬ IsControl (byteTable.getD n 0))) (by decide +kernel) b
  simp only [decide_eq_true_eq] at this
  exact this

/-- **C33, the table.** It has 256 entries and is injective, and no entry is white space or a
control character; printable ASCII is mapped to itself. -/
theorem C33_table :
    byteTable.length = 256 ∧ (∀ a b : UInt8, byteToRune a = byteToRune b → a = b)
      ∧ (∀ b, isWhiteSpace (byteToRune b) = false ∧ ¬ IsControl (byteToRune b))
      ∧ (∀ b : UInt8, 33 ≤ b.toNat → b.toNat ≤ 126 → byteToRune b = b.toNat) := by
  refine ⟨by decide +kernel, ?_, fun b => (byteToRune_good b).2, ?_⟩
  · intro a b h
    rw [← runeToByte_byteToRune a, h, runeToByte_byteToRune]
  · intro b h1 h2
    have := byte_forall (fun n => decide (33 ≤ n → n ≤ 126 → byteTable.getD n 0 = (n : Int)))
      (by decide +kernel) b
    simp only [decide_eq_true_eq] at this
    exact this h1 h2

/-! ## The normalization -/

theorem byteLevelLoop_eq (rs : List Rune) : ∀ (pre : Str),
    byteLevelLoop (pre ++ encodeRunes rs) rs pre.length
      = .ok (rs.flatMap fun r => byteChanges (encodeRune r)) := by
  induction rs with
  | nil => intro pre; rfl
  | cons r rs ih =>
    intro pre
    have h1 : goSlice (pre ++ encodeRunes (r :: rs)) pre.length (pre.length + (encodeRune r).length : Int)
        = .ok (encodeRune r) := by
      rw [encodeRunes_cons, ← List.append_assoc]
      exact goSlice_mid pre (encodeRune r) (encodeRunes rs) rfl rfl
    have h2 := ih (pre ++ encodeRune r)
    simp only [List.length_append, Int.natCast_add, List.append_assoc] at h2
    simp only [byteLevelLoop, h1, GoM.bind_ok, List.flatMap_cons]
    rw [encodeRunes_cons, h2]
    rfl

theorem byteChanges_cons (b : UInt8) (bs : Str) :
    byteChanges (b :: bs) = ⟨byteToRune b, 0⟩ :: (bs.map byteToRune).map (fun r => ⟨r, 1⟩) := by
  unfold byteChanges
  rw [List.mapIdx_cons]
  congr 1
  rw [List.map_map]
  apply List.ext_getElem
  · simp
  · intro i h1 h2
    simp

/-- One table rune per byte of each character, all with the character's alignment. -/
def byteChars (cs : List Ch) : List Ch := cs.flatMap fun c => (encodeRune c.1).map fun b => (byteToRune b, c.2)

theorem specTransform_bytes (prev : Align) (cs : List Ch) :
    specTransform prev (cs.flatMap fun c => byteChanges (encodeRune c.1)) cs = some (byteChars cs) := by
  induction cs generalizing prev with
  | nil => simp [specTransform, byteChars]
  | cons c cs ih =>
    have hne := encodeRune_ne_nil c.1
    rw [List.flatMap_cons]
    unfold byteChars
    rw [List.flatMap_cons]
    cases he : encodeRune c.1 with
    | nil => exact absurd he hne
    | cons b bs =>
      have hs : ∀ b, sanitize (byteToRune b) = byteToRune b := fun b => sanitize_of_valid (byteToRune_good b).1
      rw [byteChanges_cons, List.cons_append]
      simp only [specTransform]
      rw [if_neg (by omega)]
      simp only [Int.neg_zero, Int.toNat_zero, Nat.not_lt_zero, if_false, List.take_zero, List.drop_zero]
      rw [specTransform_ones, ih]
      simp only [Option.map_some, hs, List.map_cons, List.map_map, List.cons_append]
      congr 2
      congr 1
      apply List.map_congr_left
      intro x _
      simp [hs, lastAlign]

/-- **C33, the normalization.** On every valid state the byte-level normalization succeeds and
turns each rune into one table rune per byte of its encoding, all aligned to the rune's
original range. -/
theorem C33_normalize {ns : NS} {cs : List Ch} (h : Repr ns cs) :
    ∃ ns', byteLevelNormalize ns = .ok (ns', none) ∧ Repr ns' (byteChars cs)
      ∧ ns'.original = ns.original ∧ ns'.originalShift = ns.originalShift := by
  have h1 := byteLevelLoop_eq (cs.map (·.1)) []
  simp only [List.nil_append, List.length_nil, Int.natCast_zero, List.flatMap_map] at h1
  have ht : ns.get = encodeRunes (cs.map (·.1)) := h.text_eq
  have h2 := transform_spec (ns := ns) (skip := []) (mid := cs) (by simpa using h)
    (cs.flatMap fun c => byteChanges (encodeRune c.1)) (io := 0) (by simp)
  rw [specTransform_bytes] at h2
  obtain ⟨ns', k1, k2⟩ := h2
  refine ⟨ns', ?_, k2⟩
  simp only [byteLevelNormalize]
  have hru : runesOf ns.get = cs.map (·.1) := h.runes
  rw [hru, ht, h1, GoM.bind_ok, k1]
  rfl

theorem byteChars_runes (cs : List Ch) : (byteChars cs).map (·.1) = (text cs).map byteToRune := by
  induction cs with
  | nil => rfl
  | cons c cs ih =>
    simp only [byteChars, List.flatMap_cons, List.map_append, text, List.map_cons, encodeRunes_cons] at ih ⊢
    rw [ih]
    simp [Function.comp_def]

/-- **C33, decoding.** The runes of the byte-level text are the table runes of the bytes of the
old text, one for one; reading them through the inverse table gives the text back. -/
theorem C33_decode {ns ns' : NS} {cs : List Ch} (h : Repr ns cs) (hn : byteLevelNormalize ns = .ok (ns', none)) :
    runesOf ns'.get = ns.get.map byteToRune ∧ (runesOf ns'.get).map runeToByte = ns.get := by
  obtain ⟨n2, h1, h2, -⟩ := C33_normalize h
  rw [h1] at hn
  simp at hn; subst hn
  have : runesOf n2.get = ns.get.map byteToRune := by
    show runesOf n2.normalized = ns.normalized.map byteToRune
    rw [h2.runes, byteChars_runes, h.text_eq]
  refine ⟨this, ?_⟩
  rw [this, List.map_map]
  have e : runeToByte ∘ byteToRune = id := funext runeToByte_byteToRune
  rw [e, List.map_id]

/-- Outside valid UTF-8 the loop reads three bytes for a wrong one and panics. -/
theorem C33_counterexample_invalid : byteLevelNormalize (NS.fromString [0xff]) = .panic := by decide +kernel

example : byteLevelNormalize (NS.fromString b!" é") = .ok (⟨b!" é", b!"ĠÃ©",
    [⟨0, 1⟩, ⟨0, 1⟩, ⟨1, 3⟩, ⟨1, 3⟩, ⟨1, 3⟩, ⟨1, 3⟩], 0⟩, none) := by decide +kernel

end Verif
