import Verif.Lemmas.Chars
import Verif.Lemmas.Go
import Verif.Model.Notation
import Verif.Model.StrUtils

/-! C18 and C19: the `strutils` package. -/

set_option autoImplicit false

namespace Verif

/-- The signed-byte test of `IsRuneBoundary` is "not a continuation byte". -/
theorem signedTest (b : UInt8) :
    decide (((if b.toNat < 128 then (b.toNat : Int) else (b.toNat : Int) - 256)) ≥ -0x40) = !isCont b := by
  have := b.toNat_lt
  unfold isCont
  by_cases h1 : b.toNat < 128
  · rw [if_pos h1]
    simp; omega
  · rw [if_neg h1]
    by_cases h2 : b.toNat ≤ 191
    · have h3 : 128 ≤ b.toNat := by omega
      simp [h2, h3]; omega
    · simp [h2]; omega

theorem boundary_of_notCont : ∀ (rs : List Rune), (∀ r ∈ rs, ValidRune r) → ∀ (i : Nat) (b : UInt8),
    (encodeRunes rs)[i]? = some b → isCont b = false → IsBoundary (encodeRunes rs) i := by
  intro rs
  induction rs with
  | nil => intro _ i b h; simp at h
  | cons r rs ih =>
    intro hv i b hb hc
    have hvr : ∀ x ∈ rs, ValidRune x := fun x hx => hv x (by simp [hx])
    obtain ⟨c, t, he, -, ht⟩ := encodeRune_bytes r
    rw [encodeRunes_cons] at hb ⊢
    by_cases h0 : i = 0
    · subst h0
      exact ⟨[], _, ⟨[], by simp, rfl⟩, ⟨r :: rs, hv, by simp⟩, rfl, by simp⟩
    · by_cases hi : i < (encodeRune r).length
      · exfalso
        rw [List.getElem?_append_left hi, he] at hb
        obtain ⟨k, rfl⟩ : ∃ k, i = k + 1 := ⟨i - 1, by omega⟩
        simp at hb
        have := ht b (List.mem_of_getElem? hb)
        rw [this] at hc; simp at hc
      · rw [List.getElem?_append_right (by omega)] at hb
        obtain ⟨u, v, hu, hv2, e1, e2⟩ := ih hvr _ b hb hc
        refine ⟨encodeRune r ++ u, v, ?_, hv2, by rw [e1]; simp, by simp; omega⟩
        have : ValidUtf8 (encodeRune r) := ⟨[r], by simpa using hv r (by simp), by simp⟩
        exact this.append hu

/-- **C18.** On valid UTF-8, `IsRuneBoundary(s, i)` holds iff `s` is a whole number of
encoded runes on both sides of `i` (in particular `0 ≤ i ≤ len(s)`). -/
theorem C18_isRuneBoundary {s : Str} (hs : ValidUtf8 s) (i : Int) :
    isRuneBoundary s i = true ↔ IsBoundary s i := by
  obtain ⟨rs, hv, rfl⟩ := hs
  unfold isRuneBoundary
  constructor
  · intro h
    split at h
    · rename_i h0
      rcases h0 with rfl | rfl
      · exact ⟨[], _, ⟨[], by simp, rfl⟩, ⟨rs, hv, rfl⟩, rfl, by simp⟩
      · exact ⟨_, [], ⟨rs, hv, rfl⟩, ⟨[], by simp, rfl⟩, by simp, rfl⟩
    · split at h
      · simp at h
      · split at h
        · rename_i b hb
          rw [signedTest] at h
          have := boundary_of_notCont rs hv i.toNat b hb (by simpa using h)
          have e : ((i.toNat : Nat) : Int) = i := by omega
          rwa [e] at this
        · simp at h
  · rintro ⟨u, v, hu, ⟨ws, hw, rfl⟩, e, rfl⟩
    rw [e]
    split
    · rfl
    · rename_i h0
      split
      · rename_i h1; simp at h1; omega
      · cases ws with
        | nil => simp at h0
        | cons w ws =>
          obtain ⟨c, t, he, hc, -⟩ := encodeRune_bytes w
          have : (u ++ encodeRunes (w :: ws))[(u.length : Int).toNat]? = some c := by
            simp [he]
          rw [this]
          simp only
          rw [signedTest, hc]; rfl

/-- Boundaries are in range. -/
theorem IsBoundary.bounds {s : Str} {i : Int} (h : IsBoundary s i) : 0 ≤ i ∧ i ≤ s.length := by
  obtain ⟨u, v, -, -, rfl, rfl⟩ := h
  simp; omega

/-- `IsRuneBoundary` never accepts an index outside the string, valid or not. -/
theorem isRuneBoundary_bounds {s : Str} {i : Int} (h : isRuneBoundary s i = true) :
    0 ≤ i ∧ i ≤ s.length := by
  unfold isRuneBoundary at h
  split at h
  · omega
  · split at h
    · simp at h
    · omega

/-- A boundary in the sense of the specification is accepted (`s` is then valid). -/
theorem isRuneBoundary_of {s : Str} {i : Int} (h : IsBoundary s i) : isRuneBoundary s i = true := by
  obtain ⟨u, v, hu, hv, e, hi⟩ := id h
  exact (C18_isRuneBoundary (by rw [e]; exact hu.append hv) i).2 h

/-- Non-vacuity: in "a€b" the boundaries are 0, 1, 4 and 5. -/
example : ((List.range 8).filter fun (i : Nat) => isRuneBoundary b!"a€b" (i : Int)) = [0, 1, 4, 5]
    ∧ ValidUtf8 b!"a€b" := by decide +kernel

/-! ## C19 -/

theorem converter_encodeRunes (rs : List Rune) (hv : ∀ r ∈ rs, ValidRune r) :
    newBytesToRuneOffsetConverter (encodeRunes rs)
      = (rangeSpec 0 rs).flatMap fun (i, r) => List.replicate (runeLen r) (i : Int) := by
  unfold newBytesToRuneOffsetConverter
  rw [rangeStr_encodeRunes rs hv]
  rfl

theorem rangeSpec_append (i : Nat) (us vs : List Rune) :
    rangeSpec i (us ++ vs) = rangeSpec i us ++ rangeSpec (i + (encodeRunes us).length) vs := by
  induction us generalizing i with
  | nil => simp [rangeSpec]
  | cons u us ih =>
    simp only [List.cons_append, rangeSpec, ih, encodeRunes_cons, List.length_append]
    congr 3
    show i + runeLen u + _ = i + (runeLen u + _)
    omega

theorem converter_length (i : Nat) (rs : List Rune) :
    ((rangeSpec i rs).flatMap fun (i, r) => List.replicate (runeLen r) (i : Int)).length
      = (encodeRunes rs).length := by
  induction rs generalizing i with
  | nil => simp [rangeSpec]
  | cons r rs ih =>
    rw [rangeSpec, List.flatMap_cons, List.length_append, ih, encodeRunes_cons, List.length_append]
    simp [runeLen]

/-- The converter maps every byte of a rune to the *byte* index at which the rune starts. -/
theorem converter_getElem (us : List Rune) (r : Rune) (vs : List Rune)
    (hv : ∀ x ∈ us ++ r :: vs, ValidRune x) (k : Nat) (hk : k < runeLen r) :
    (newBytesToRuneOffsetConverter (encodeRunes (us ++ r :: vs)))[(encodeRunes us).length + k]?
      = some ((encodeRunes us).length : Int) := by
  rw [converter_encodeRunes _ hv, rangeSpec_append, List.flatMap_append,
    List.getElem?_append_right (by rw [converter_length]; omega), converter_length]
  rw [rangeSpec, List.flatMap_cons, List.getElem?_append_left (by simp; omega)]
  simp [hk]

/-- What `Convert` computes on rune boundaries `a < b`: `a` itself, and `b` itself unless
`b` is the end of the text, where it is the start of the last rune plus one. -/
theorem C19_actual (us ms vs : List Rune) (hv : ∀ x ∈ us ++ ms ++ vs, ValidRune x) (hm : ms ≠ []) :
    convertOffsets (newBytesToRuneOffsetConverter (encodeRunes (us ++ ms ++ vs)))
      ⟨(encodeRunes us).length, (encodeRunes (us ++ ms)).length⟩
    = .ok ⟨(encodeRunes us).length,
        if vs = [] then (encodeRunes (us ++ ms.dropLast)).length + 1 else (encodeRunes (us ++ ms)).length⟩ := by
  obtain ⟨m, ms', rfl⟩ := List.exists_cons_of_ne_nil hm
  have hlen : (newBytesToRuneOffsetConverter (encodeRunes (us ++ (m :: ms') ++ vs))).length
      = (encodeRunes (us ++ (m :: ms') ++ vs)).length := by
    rw [converter_encodeRunes _ hv, converter_length]
  have hpos := encodeRune_length_pos m
  have h1 : goIndex (newBytesToRuneOffsetConverter (encodeRunes (us ++ (m :: ms') ++ vs)))
      ((encodeRunes us).length : Int) = .ok ((encodeRunes us).length : Int) := by
    apply goIndex_of_getElem? (by omega)
    have := converter_getElem us m (ms' ++ vs) (by simpa using hv) 0 hpos
    simpa using this
  unfold convertOffsets
  rw [if_neg (by rw [hlen]; simp [encodeRunes_append]; intro _; exact fun h => absurd h (encodeRune_ne_nil m))]
  simp only [h1, GoM.bind_ok, hlen]
  by_cases hvs : vs = []
  · subst hvs
    simp only [List.append_nil, if_true] at *
    -- the last byte belongs to the last rune
    have e0 : us ++ m :: ms' = (us ++ (m :: ms').dropLast) ++ (m :: ms').getLast (by simp) :: [] := by
      rw [List.append_assoc, List.dropLast_concat_getLast]
    generalize (m :: ms').getLast (by simp) = l at e0
    generalize (m :: ms').dropLast = d at e0 ⊢
    have hl := encodeRune_length_pos l
    have h2 : goIndex (newBytesToRuneOffsetConverter (encodeRunes (us ++ m :: ms')))
        (((encodeRunes (us ++ m :: ms')).length : Int) - 1) = .ok ((encodeRunes (us ++ d)).length : Int) := by
      have elen : (encodeRunes (us ++ m :: ms')).length = (encodeRunes (us ++ d)).length + (encodeRune l).length := by
        rw [e0, encodeRunes_append, List.length_append]; simp
      apply goIndex_of_getElem? (by omega)
      have := converter_getElem (us ++ d) l [] (by rw [← e0]; exact hv) (runeLen l - 1) (by unfold runeLen; omega)
      rw [← e0] at this
      rw [← this]
      congr 1
      unfold runeLen
      omega
    rw [h2]
    simp
  · obtain ⟨w, ws, rfl⟩ := List.exists_cons_of_ne_nil hvs
    have hw := encodeRune_length_pos w
    rw [if_neg (by simp [encodeRunes_append]; omega), if_neg (by simp)]
    have h2 : goIndex (newBytesToRuneOffsetConverter (encodeRunes (us ++ (m :: ms') ++ w :: ws)))
        ((encodeRunes (us ++ m :: ms')).length : Int) = .ok ((encodeRunes (us ++ m :: ms')).length : Int) := by
      apply goIndex_of_getElem? (by omega)
      have := converter_getElem (us ++ m :: ms') w ws (by simpa using hv) 0 hw
      rw [Nat.add_zero] at this
      exact this
    rw [h2]
    rfl

theorem encodeRunes_ascii_length (rs : List Rune) (h : ∀ r ∈ rs, 0 ≤ r ∧ r < 0x80) :
    (encodeRunes rs).length = rs.length := by
  induction rs with
  | nil => simp
  | cons r rs ih =>
    rw [encodeRunes_cons, List.length_append, ih (fun x hx => h x (by simp [hx]))]
    have : runeLen r = 1 := runeLen_eq_one.2 (h r (by simp))
    unfold runeLen at this
    simp [this]; omega

/-- **C19 (partial).**  `Convert((a,b))` is the pair of rune counts when the runes before
`b` are all ASCII.  Missing from the full property: non-ASCII text before `b`, for which it
is false (`C19_counterexample`). -/
theorem C19_convert_partial (us ms vs : List Rune) (hv : ∀ x ∈ us ++ ms ++ vs, ValidRune x)
    (hm : ms ≠ []) (hascii : ∀ r ∈ us ++ ms, 0 ≤ r ∧ r < 0x80) :
    convertOffsets (newBytesToRuneOffsetConverter (encodeRunes (us ++ ms ++ vs)))
      ⟨(encodeRunes us).length, (encodeRunes (us ++ ms)).length⟩
    = .ok ⟨us.length, (us ++ ms).length⟩ := by
  rw [C19_actual us ms vs hv hm, encodeRunes_ascii_length us (fun r hr => hascii r (by simp [hr])),
    encodeRunes_ascii_length (us ++ ms) hascii,
    encodeRunes_ascii_length (us ++ ms.dropLast) (fun r hr => hascii r (by
      rcases List.mem_append.1 hr with h | h
      · simp [h]
      · simp [List.dropLast_subset _ h]))]
  congr 2
  split
  · have : 0 < ms.length := List.length_pos_iff.2 hm
    simp; omega
  · rfl

/-- **C19 is false**: in "éa", the byte offsets (2,3) of 'a' should become the rune offsets
(1,2), but stay (2,3). -/
theorem C19_counterexample :
    ¬ ∀ us ms vs : List Rune, (∀ x ∈ us ++ ms ++ vs, ValidRune x) → ms ≠ [] →
      convertOffsets (newBytesToRuneOffsetConverter (encodeRunes (us ++ ms ++ vs)))
        ⟨(encodeRunes us).length, (encodeRunes (us ++ ms)).length⟩ = .ok ⟨us.length, (us ++ ms).length⟩ := by
  intro h
  have := h [u!"é"] [u!"a"] [] (by decide) (by decide)
  revert this
  decide +kernel

example : convertOffsets (newBytesToRuneOffsetConverter b!"abcé") ⟨1, 3⟩ = .ok ⟨1, 3⟩ := by decide +kernel

end Verif
