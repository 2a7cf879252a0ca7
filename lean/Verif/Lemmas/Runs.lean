import Verif.Props.Split
import Verif.Spec.Runs

/-! Facts about segments and the captures of function patterns. -/

set_option autoImplicit false

namespace Verif

/-- Cutting encoded runes after a valid prefix cuts the runes. -/
theorem runes_cut : ∀ (rs : List Rune), (∀ r ∈ rs, ValidRune r) → ∀ {u v : Str}, ValidUtf8 u →
    encodeRunes rs = u ++ v → ∃ a b, rs = a ++ b ∧ encodeRunes a = u ∧ encodeRunes b = v := by
  intro rs hv u v hu
  obtain ⟨us, hus, rfl⟩ := hu
  revert rs
  induction us with
  | nil => intro rs _ h; exact ⟨[], rs, rfl, rfl, by simpa using h⟩
  | cons w us ih =>
    intro rs hv h
    cases rs with
    | nil =>
      have := congrArg List.length h
      have := encodeRune_length_pos w
      simp at *; omega
    | cons r rs =>
      rw [encodeRunes_cons, encodeRunes_cons, List.append_assoc] at h
      obtain ⟨rfl, h⟩ := encodeRune_inj_prefix (hv r (by simp)) (hus w (by simp)) h
      obtain ⟨a, b, rfl, e1, e2⟩ := ih (fun x hx => hus x (by simp [hx])) rs
        (fun x hx => hv x (by simp [hx])) (List.append_cancel_left h)
      exact ⟨r :: a, b, rfl, by simp [e1], e2⟩

/-- The two sides of a valid text around a valid part are valid. -/
theorem validUtf8_drop {u v : Str} (h : ValidUtf8 (u ++ v)) (hu : ValidUtf8 u) : ValidUtf8 v := by
  obtain ⟨rs, hr, e⟩ := h
  obtain ⟨a, b, rfl, -, e2⟩ := runes_cut rs hr hu e
  exact ⟨b, fun r hb => hr r (by simp [hb]), e2⟩

theorem segs_nomatch (f : Rune → Bool) : ∀ (p : List Rune), (∀ r ∈ p, f r = false) →
    ∀ rest : List Rune, (∀ r ∈ rest.head?, f r = true) →
    segs f (p ++ rest) = (if p = [] then [] else [(false, p)]) ++ segs f rest := by
  intro p
  induction p with
  | nil => intro _ rest _; simp
  | cons a p ih =>
    intro hp rest hrest
    have ha := hp a (by simp)
    rw [List.cons_append, segs, if_neg (by simp [ha]), ih (fun r hr => hp r (by simp [hr])) rest hrest]
    cases p with
    | nil =>
      simp
      cases rest with
      | nil => simp [segs]
      | cons r rest =>
        have := hrest r (by simp)
        simp [segs, this]
    | cons b p => simp

theorem capsOf_append : ∀ (i : Int) (s t : List (Bool × List Rune)),
    capsOf i (s ++ t) = capsOf i s ++ capsOf (i + (encodeRunes (s.flatMap (·.2))).length) t := by
  intro i s
  induction s generalizing i with
  | nil => intro t; simp [capsOf]
  | cons p s ih =>
    intro t
    obtain ⟨b, g⟩ := p
    simp only [List.cons_append, capsOf, ih]
    congr 3
    simp; omega

/-- The last step of `funcFindMatches`. -/
def funcClose (st : FuncState) : List Capture :=
  if st.lastSeen > st.lastOffset then st.splits ++ [⟨⟨st.lastOffset, st.lastSeen⟩, false⟩]
  else st.splits

theorem func_fold (f : Rune → Bool) : ∀ (rest : List Rune) (lo : Nat) (p : List Rune) (S : List Capture),
    (∀ r ∈ p, f r = false) →
    funcClose ((rangeSpec (lo + (encodeRunes p).length) rest).foldl (funcStep f)
        ⟨lo, lo + (encodeRunes p).length, S⟩) = S ++ capsOf lo (segs f (p ++ rest)) := by
  intro rest
  induction rest with
  | nil =>
    intro lo p S hp
    have := segs_nomatch f p hp [] (by simp)
    rw [this]
    simp only [rangeSpec, List.foldl_nil, funcClose]
    by_cases hp0 : p = []
    · subst hp0; simp [segs, capsOf]
    · have : 0 < (encodeRunes p).length := by
        apply List.length_pos_iff.2
        intro h; exact hp0 (encodeRunes_eq_nil.1 h)
      simp [hp0, segs, capsOf]
      intro h; rw [h] at this; simp at this
  | cons r rest ih =>
    intro lo p S hp
    simp only [rangeSpec, List.foldl_cons]
    cases hf : f r with
    | false =>
      have e : funcStep f ⟨lo, lo + (encodeRunes p).length, S⟩ (lo + (encodeRunes p).length, r)
          = ⟨lo, lo + (encodeRunes (p ++ [r])).length, S⟩ := by
        simp [funcStep, hf]; omega
      have e2 : lo + (encodeRunes p).length + runeLen r = lo + (encodeRunes (p ++ [r])).length := by
        simp [runeLen]; omega
      rw [e, e2]
      have := ih lo (p ++ [r]) S (by
        intro x hx
        rcases List.mem_append.1 hx with hx | hx
        · exact hp x hx
        · simp at hx; rw [hx]; exact hf)
      simpa using this
    | true =>
      have hs := segs_nomatch f p hp (r :: rest) (by simp [hf])
      rw [hs]
      have hs2 : segs f (r :: rest) = (true, [r]) :: segs f rest := by simp [segs, hf]
      rw [hs2]
      have key := ih (lo + (encodeRunes p).length + runeLen r) []
        (S ++ capsOf lo ((if p = [] then [] else [(false, p)]) ++ [(true, [r])])) (by simp)
      simp only [encodeRunes_nil, List.length_nil, Nat.add_zero, List.nil_append] at key
      have e : funcStep f ⟨lo, lo + (encodeRunes p).length, S⟩ (lo + (encodeRunes p).length, r)
          = ⟨lo + (encodeRunes p).length + runeLen r, lo + (encodeRunes p).length + runeLen r,
            S ++ capsOf lo ((if p = [] then [] else [(false, p)]) ++ [(true, [r])])⟩ := by
        by_cases hp0 : p = []
        · subst hp0
          simp [funcStep, hf, runeLen, capsOf]
        · have : 0 < (encodeRunes p).length := by
            apply List.length_pos_iff.2
            intro h; exact hp0 (encodeRunes_eq_nil.1 h)
          simp only [funcStep, hf, Bool.not_true, Bool.false_eq_true, if_false, hp0, List.singleton_append,
            capsOf, encodeRunes_cons, encodeRunes_nil, List.append_nil, runeLen]
          rw [if_pos (by omega)]
          simp
      rw [e, key, List.append_assoc]
      congr 1
      by_cases hp0 : p = []
      · subst hp0; simp [runeLen, capsOf]
      · simp [hp0, runeLen, capsOf]

/-- The captures of a function pattern on valid text are its segments laid out in order. -/
theorem funcFindMatches_eq (f : Rune → Bool) (rs : List Rune) (hv : ∀ r ∈ rs, ValidRune r) :
    funcFindMatches f (encodeRunes rs) = if rs = [] then emptyCaptures else capsOf 0 (segs f rs) := by
  unfold funcFindMatches
  by_cases h : rs = []
  · subst h; simp
  · have : ¬ (encodeRunes rs).length = 0 := by
      intro h'; exact h (encodeRunes_eq_nil.1 (List.length_eq_zero_iff.1 h'))
    rw [if_neg this, if_neg h, rangeStr_encodeRunes rs hv]
    have := func_fold f rs 0 [] [] (by simp)
    simpa [funcClose] using this

/-! ## Properties of segments -/

theorem segs_flatten (f : Rune → Bool) (rs : List Rune) : (segs f rs).flatMap (·.2) = rs := by
  induction rs with
  | nil => simp [segs]
  | cons r rs ih =>
    simp only [segs]
    split
    · simp [ih]
    · split
      · rename_i g t h
        rw [h] at ih
        simp at ih ⊢; exact ih
      · simp [ih]

theorem segs_kind (f : Rune → Bool) (rs : List Rune) : ∀ p ∈ segs f rs,
    (p.1 = true → ∃ r, p.2 = [r] ∧ f r = true) ∧ (p.1 = false → p.2 ≠ [] ∧ ∀ r ∈ p.2, f r = false) := by
  induction rs with
  | nil => simp [segs]
  | cons r rs ih =>
    intro p hp
    simp only [segs] at hp
    split at hp
    · rename_i hf
      rcases List.mem_cons.1 hp with rfl | hp
      · exact ⟨fun _ => ⟨r, rfl, hf⟩, by simp⟩
      · exact ih p hp
    · rename_i hf
      simp at hf
      split at hp
      · rename_i g t h
        rw [h] at ih
        rcases List.mem_cons.1 hp with rfl | hp
        · refine ⟨by simp, fun _ => ⟨by simp, ?_⟩⟩
          intro x hx
          rcases List.mem_cons.1 hx with rfl | hx
          · exact hf
          · exact ((ih (false, g) (by simp)).2 rfl).2 x hx
        · exact ih p (by simp [hp])
      · rcases List.mem_cons.1 hp with rfl | hp
        · exact ⟨by simp, fun _ => ⟨by simp, by simpa using hf⟩⟩
        · exact ih p hp

theorem segs_ne_nil (f : Rune → Bool) (rs : List Rune) : ∀ p ∈ segs f rs, p.2 ≠ [] := by
  intro p hp
  have := segs_kind f rs p hp
  cases h : p.1
  · exact (this.2 h).1
  · obtain ⟨r, h1, -⟩ := this.1 h
    rw [h1]; simp

/-- Two non-matching segments are never adjacent: the runs are maximal. -/
theorem segs_maximal (f : Rune → Bool) (rs : List Rune) :
    Adjacent (fun p q => p.1 = true ∨ q.1 = true) (segs f rs) := by
  induction rs with
  | nil => simp [segs, Adjacent]
  | cons r rs ih =>
    simp only [segs]
    split
    · cases h : segs f rs with
      | nil => simp [Adjacent]
      | cons p t => rw [h] at ih; exact ⟨Or.inl rfl, ih⟩
    · split
      · rename_i g t h
        rw [h] at ih
        cases t with
        | nil => simp [Adjacent]
        | cons q t => exact ⟨ih.1, ih.2⟩
      · rename_i h
        cases hs : segs f rs with
        | nil => simp [Adjacent]
        | cons p t =>
          rw [hs] at ih
          refine ⟨Or.inr ?_, ih⟩
          obtain ⟨b, g⟩ := p
          cases b
          · exact absurd hs (h g t)
          · rfl

/-! ## Laid-out captures -/

theorem capsOf_tiles : ∀ (i : Int) (s : List (Bool × List Rune)),
    Tiles (capsOf i s) i (i + (encodeRunes (s.flatMap (·.2))).length) := by
  intro i s
  induction s generalizing i with
  | nil => simp [capsOf, Tiles]
  | cons p s ih =>
    obtain ⟨b, g⟩ := p
    refine ⟨rfl, by simp only; omega, ?_⟩
    have := ih (i + (encodeRunes g).length)
    simp only [List.flatMap_cons, encodeRunes_append, List.length_append]
    have e : i + (((encodeRunes g).length + (encodeRunes (s.flatMap (·.2))).length : Nat) : Int)
        = i + (encodeRunes g).length + (encodeRunes (s.flatMap (·.2))).length := by omega
    rw [e]
    exact this

/-- A capture and the segment it lays out: the capture starts where some prefix of the runes
ends and stops where the segment ends. -/
def CapSeg (rs : List Rune) (c : Capture) (p : Bool × List Rune) : Prop :=
  c.isMatch = p.1 ∧ ∃ pre post, rs = pre ++ p.2 ++ post ∧ c.offsets.start = (encodeRunes pre).length
    ∧ c.offsets.stop = (encodeRunes (pre ++ p.2)).length

theorem sub_mid {α : Type} (p m q : List α) : sub (p ++ m ++ q) p.length (p.length + m.length : Int) = m := by
  unfold sub
  have : ((p.length : Int) + m.length - p.length).toNat = m.length := by omega
  rw [this]
  simp

theorem capsOf_all2 : ∀ (pre : List Rune) (s : List (Bool × List Rune)),
    All2 (CapSeg (pre ++ s.flatMap (·.2))) (capsOf (encodeRunes pre).length s) s := by
  intro pre s
  induction s generalizing pre with
  | nil => exact .nil
  | cons p s ih =>
    obtain ⟨b, g⟩ := p
    have i1 := ih (pre ++ g)
    have e2 : ((encodeRunes (pre ++ g)).length : Int) = (encodeRunes pre).length + (encodeRunes g).length := by
      simp
    rw [e2] at i1
    refine .cons ⟨rfl, pre, s.flatMap (·.2), by simp, rfl, by simp⟩ ?_
    simpa using i1

/-- What a segment's capture says about the text. -/
theorem CapSeg.text {rs : List Rune} (hv : ∀ r ∈ rs, ValidRune r) {c : Capture} {p : Bool × List Rune}
    (h : CapSeg rs c p) : sub (encodeRunes rs) c.offsets.start c.offsets.stop = encodeRunes p.2
      ∧ IsBoundary (encodeRunes rs) c.offsets.start ∧ IsBoundary (encodeRunes rs) c.offsets.stop := by
  obtain ⟨-, pre, post, rfl, h1, h2⟩ := h
  rw [h1, h2]
  refine ⟨?_, ⟨encodeRunes pre, encodeRunes (p.2 ++ post), ⟨pre, ?_, rfl⟩, ⟨_, ?_, rfl⟩, by simp, rfl⟩,
    ⟨encodeRunes (pre ++ p.2), encodeRunes post, ⟨_, ?_, rfl⟩, ⟨_, ?_, rfl⟩, by simp, rfl⟩⟩
  · simp only [encodeRunes_append, List.length_append]
    have := sub_mid (encodeRunes pre) (encodeRunes p.2) (encodeRunes post)
    simpa using this
  all_goals
    intro r hr
    apply hv
    simp only [List.mem_append] at hr ⊢
  · exact Or.inl (Or.inl hr)
  · rcases hr with h | h
    · exact Or.inl (Or.inr h)
    · exact Or.inr h
  · exact Or.inl hr
  · exact Or.inr hr

theorem All2.exists_right {α β : Type} {R : α → β → Prop} {as : List α} {bs : List β}
    (h : All2 R as bs) {a : α} (ha : a ∈ as) : ∃ b ∈ bs, R a b := by
  induction h with
  | nil => simp at ha
  | cons h1 _ ih =>
    rcases List.mem_cons.1 ha with rfl | ha
    · exact ⟨_, by simp, h1⟩
    · obtain ⟨b, hb, hr⟩ := ih ha
      exact ⟨b, by simp [hb], hr⟩

end Verif
