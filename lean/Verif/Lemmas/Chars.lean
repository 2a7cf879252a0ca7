import Verif.Spec.Chars
import Verif.Lemmas.Utf8
import Verif.Lemmas.Go

set_option autoImplicit false

namespace Verif

@[simp] theorem text_nil : text [] = [] := rfl
@[simp] theorem aligns_nil : aligns [] = [] := rfl

@[simp] theorem text_cons (c : Ch) (cs : List Ch) : text (c :: cs) = encodeRune c.1 ++ text cs := rfl
@[simp] theorem aligns_cons (c : Ch) (cs : List Ch) :
    aligns (c :: cs) = List.replicate (runeLen c.1) c.2 ++ aligns cs := rfl

@[simp] theorem text_append (as bs : List Ch) : text (as ++ bs) = text as ++ text bs := by
  simp [text]
@[simp] theorem aligns_append (as bs : List Ch) : aligns (as ++ bs) = aligns as ++ aligns bs := by
  simp [aligns]

@[simp] theorem aligns_length (cs : List Ch) : (aligns cs).length = (text cs).length := by
  induction cs with
  | nil => rfl
  | cons c cs ih => simp [ih, runeLen]

theorem ValidChars.append {as bs : List Ch} (ha : ValidChars as) (hb : ValidChars bs) :
    ValidChars (as ++ bs) := by
  intro c hc
  rcases List.mem_append.1 hc with h | h
  · exact ha c h
  · exact hb c h

theorem validChars_append {as bs : List Ch} :
    ValidChars (as ++ bs) ↔ ValidChars as ∧ ValidChars bs := by
  constructor
  · intro h; exact ⟨fun c hc => h c (by simp [hc]), fun c hc => h c (by simp [hc])⟩
  · rintro ⟨ha, hb⟩; exact ha.append hb

theorem validChars_cons {c : Ch} {cs : List Ch} :
    ValidChars (c :: cs) ↔ ValidRune c.1 ∧ ValidChars cs := by
  simp [ValidChars]

@[simp] theorem validChars_nil : ValidChars [] := by simp [ValidChars]

theorem ValidChars.runes {cs : List Ch} (h : ValidChars cs) : ∀ r ∈ cs.map (·.1), ValidRune r := by
  intro r hr
  obtain ⟨c, hc, rfl⟩ := List.mem_map.1 hr
  exact h c hc

theorem runesOf_text {cs : List Ch} (h : ValidChars cs) : runesOf (text cs) = cs.map (·.1) :=
  runesOf_encodeRunes _ h.runes

theorem validUtf8_text (cs : List Ch) : ValidUtf8 (text cs) := validUtf8_encodeRunes _

theorem text_eq_nil {cs : List Ch} : text cs = [] ↔ cs = [] := by
  simp [text, encodeRunes_eq_nil]

theorem text_length_eq_zero {cs : List Ch} : (text cs).length = 0 ↔ cs = [] := by
  rw [List.length_eq_zero_iff, text_eq_nil]

theorem length_le_text (cs : List Ch) : cs.length ≤ (text cs).length := by
  have := length_le_encodeRunes (cs.map (·.1)); simpa [text] using this

/-! ## Cutting at rune boundaries -/

theorem encodeRune_inj_prefix {r r' : Rune} {s t : Str} (hr : ValidRune r) (hr' : ValidRune r')
    (h : encodeRune r ++ s = encodeRune r' ++ t) : r = r' ∧ s = t := by
  have h1 := decodeRune_encodeRune hr s
  have h2 := decodeRune_encodeRune hr' t
  rw [h, h2] at h1
  have : r' = r := (Prod.ext_iff.1 h1).1
  subst this
  exact ⟨rfl, List.append_cancel_left h⟩

/-- Cutting the text of a list of characters at a rune boundary cuts the list. -/
theorem chars_cut {cs : List Ch} (hv : ValidChars cs) {u v : Str} (hu : ValidUtf8 u)
    (h : text cs = u ++ v) : ∃ pre post, cs = pre ++ post ∧ text pre = u ∧ text post = v := by
  obtain ⟨rs, hrs, rfl⟩ := hu
  induction rs generalizing cs with
  | nil => exact ⟨[], cs, rfl, rfl, by simpa using h⟩
  | cons r rs ih =>
    cases cs with
    | nil =>
      have := congrArg List.length h
      have := encodeRune_length_pos r
      simp at *; omega
    | cons c cs =>
      simp only [text_cons, encodeRunes_cons, List.append_assoc] at h
      obtain ⟨h1, h2⟩ := encodeRune_inj_prefix (hv c (by simp)) (hrs r (by simp)) h
      obtain ⟨pre, post, rfl, hp, hq⟩ := ih (validChars_cons.1 hv).2 (fun r hr => hrs r (by simp [hr])) h2
      exact ⟨c :: pre, post, rfl, by simp [h1, hp], hq⟩

theorem chars_cut_boundary {cs : List Ch} (hv : ValidChars cs) {i : Int}
    (h : IsBoundary (text cs) i) :
    ∃ pre post, cs = pre ++ post ∧ i = ((text pre).length : Int) := by
  obtain ⟨u, v, hu, -, he, rfl⟩ := h
  obtain ⟨pre, post, hc, hp, -⟩ := chars_cut hv hu he
  exact ⟨pre, post, hc, by rw [hp]⟩

theorem isBoundary_text (pre post : List Ch) :
    IsBoundary (text (pre ++ post)) ((text pre).length : Int) :=
  ⟨text pre, text post, validUtf8_text _, validUtf8_text _, by simp, rfl⟩

/-- Two boundaries cut the list in three. -/
theorem chars_cut2 {cs : List Ch} (hv : ValidChars cs) {i j : Int} (hij : i ≤ j)
    (hi : IsBoundary (text cs) i) (hj : IsBoundary (text cs) j) :
    ∃ pre mid post, cs = pre ++ mid ++ post ∧ i = ((text pre).length : Int)
      ∧ j = ((text pre).length : Int) + (text mid).length := by
  obtain ⟨p1, q1, h1, rfl⟩ := chars_cut_boundary hv hi
  obtain ⟨p2, q2, h2, rfl⟩ := chars_cut_boundary hv hj
  have h : p1 ++ q1 = p2 ++ q2 := h1 ▸ h2
  rcases List.append_eq_append_iff.1 h with ⟨m, hm, -⟩ | ⟨m, hm, -⟩
  · refine ⟨p1, m, q2, ?_, rfl, ?_⟩
    · rw [h2, hm]
    · rw [hm]; simp
  · -- p1 = p2 ++ m, with |text p1| ≤ |text p2|, so m is empty
    have : m = [] := by
      rw [hm] at hij
      apply text_length_eq_zero.1
      simp at hij; omega
    subst this
    refine ⟨p1, [], q1, ?_, rfl, ?_⟩
    · simp [h1]
    · simp at hm; simp [hm]

/-! ## Alignments of a byte -/

theorem mem_aligns {cs : List Ch} {a : Align} : a ∈ aligns cs ↔ ∃ c ∈ cs, c.2 = a := by
  simp only [aligns, List.mem_flatMap, List.mem_replicate]
  constructor
  · rintro ⟨c, hc, -, rfl⟩; exact ⟨c, hc, rfl⟩
  · rintro ⟨c, hc, rfl⟩; exact ⟨c, hc, by have := runeLen_pos c.1; omega, rfl⟩

instance (cs : List Ch) : Decidable (ValidChars cs) := by unfold ValidChars; infer_instance

theorem repr_iff {ns : NS} {cs : List Ch} :
    Repr ns cs ↔ ns.normalized = text cs ∧ ns.alignments = aligns cs ∧ ValidChars cs :=
  ⟨fun h => ⟨h.1, h.2, h.3⟩, fun h => ⟨h.1, h.2.1, h.2.2⟩⟩

instance (ns : NS) (cs : List Ch) : Decidable (Repr ns cs) := decidable_of_iff _ repr_iff.symm

theorem Repr.text_length {ns : NS} {cs : List Ch} (h : Repr ns cs) :
    ns.normalized.length = (text cs).length := by rw [h.text_eq]

theorem Repr.len_eq {ns : NS} {cs : List Ch} (h : Repr ns cs) :
    ns.alignments.length = ns.normalized.length := by
  rw [h.text_eq, h.aligns_eq]; simp

theorem Repr.runes {ns : NS} {cs : List Ch} (h : Repr ns cs) :
    runesOf ns.normalized = cs.map (·.1) := by rw [h.text_eq, runesOf_text h.valid]

theorem Repr.validUtf8 {ns : NS} {cs : List Ch} (h : Repr ns cs) : ValidUtf8 ns.normalized := by
  rw [h.text_eq]; exact validUtf8_text cs

end Verif
