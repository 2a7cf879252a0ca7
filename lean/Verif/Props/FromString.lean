import Verif.Lemmas.FromString
import Verif.Props.History

/-! C01: the initial state. -/

set_option autoImplicit false

namespace Verif

theorem aligns_getElem?_first (pre : List Ch) (c : Ch) (post : List Ch) :
    (aligns (pre ++ c :: post))[(text pre).length]? = some c.2 := by
  obtain ⟨n, hn⟩ : ∃ n, runeLen c.1 = n + 1 := ⟨runeLen c.1 - 1, by have := runeLen_pos c.1; omega⟩
  simp only [aligns_append, aligns_cons, hn, List.replicate_succ, List.cons_append]
  rw [← aligns_length, List.getElem?_append_right (by omega)]
  simp

theorem aligns_getElem?_last (pre : List Ch) (c : Ch) (post : List Ch) :
    (aligns (pre ++ c :: post))[(text (pre ++ [c])).length - 1]? = some c.2 := by
  have := aligns_last (pre ++ [c]) post (by simp)
  rw [lastAlign_concat, List.append_assoc, List.singleton_append] at this
  obtain ⟨h0, h1⟩ := goIndex_eq_ok.1 this
  have e : (((text (pre ++ [c])).length : Int) - 1).toNat = (text (pre ++ [c])).length - 1 := by omega
  rw [e] at h1; exact h1

/-- First and last alignment of the characters `mid`. -/
theorem coerceRangeToOriginal_chars {ns : NS} {pre mid post : List Ch} {f l : Ch}
    (h : Repr ns (pre ++ mid ++ post)) (hf : mid.head? = some f) (hl : mid.getLast? = some l) :
    ns.coerceRangeToOriginal (.normalized ((text pre).length : Int)
      (((text pre).length : Int) + (text mid).length)) = .ok (some (f.2.start, l.2.stop)) := by
  have hne : mid ≠ [] := by intro e; simp [e] at hf
  have hpos : 0 < (text mid).length := by
    have := mt text_length_eq_zero.1 hne; omega
  have hal : ns.alignments.length = (text pre).length + (text mid).length + (text post).length := by
    rw [h.aligns_eq]; simp; omega
  obtain ⟨f', l', e1, e2, e3⟩ := coerceRangeToOriginal_normalized (ns := ns)
    (s := ((text pre).length : Int)) (e := ((text pre).length : Int) + (text mid).length)
    (by omega) (by omega) (by omega)
  rw [e3]
  have hf' : f' = f.2 := by
    cases mid with
    | nil => simp at hf
    | cons c cs =>
      simp at hf; subst hf
      rw [h.aligns_eq] at e1
      have := aligns_getElem?_first pre c (cs ++ post)
      simp only [List.append_assoc, List.cons_append, Int.toNat_natCast] at e1
      rw [this] at e1; simp at e1; exact e1.symm
  have hl' : l' = l.2 := by
    rcases List.eq_nil_or_concat mid with rfl | ⟨init, c, rfl⟩
    · simp at hl
    · simp at hl; subst hl
      rw [h.aligns_eq] at e2
      have := aligns_getElem?_last (pre ++ init) c post
      have en : (((text pre).length : Int) + (text (init.concat c)).length - 1).toNat
          = (text (pre ++ init ++ [c])).length - 1 := by simp; omega
      rw [en] at e2
      simp only [List.concat_eq_append, List.append_assoc, List.singleton_append] at e2 this
      rw [this] at e2; simp at e2; exact e2.symm
  rw [hf', hl']

theorem selfChars_head {i : Nat} {rs : List Rune} (h : rs ≠ []) :
    ∃ f, (selfChars i rs).head? = some f ∧ f.2.start = (i : Int) := by
  cases rs with
  | nil => exact absurd rfl h
  | cons r rs => exact ⟨_, rfl, rfl⟩

theorem selfChars_last {i : Nat} {rs : List Rune} (h : rs ≠ []) :
    ∃ l, (selfChars i rs).getLast? = some l
      ∧ l.2.stop = (i : Int) + (encodeRunes rs).length := by
  rcases List.eq_nil_or_concat rs with rfl | ⟨init, r, rfl⟩
  · exact absurd rfl h
  · rw [List.concat_eq_append, selfChars_append]
    simp only [selfChars, List.getLast?_append, List.getLast?_singleton, Option.some_or]
    refine ⟨_, rfl, ?_⟩
    simp [runeLen]; omega

theorem takeWhile_eq_of_append {α : Type} (p : α → Bool) (l₁ l₂ : List α)
    (h1 : ∀ x ∈ l₁, p x = true) (h2 : ∀ x ∈ l₂, p x = false) : (l₁ ++ l₂).takeWhile p = l₁ := by
  induction l₁ with
  | nil =>
    cases l₂ with
    | nil => rfl
    | cons x xs => simp [h2 x (by simp)]
  | cons x xs ih =>
    simp [h1 x (by simp), ih (fun y hy => h1 y (by simp [hy]))]

/-- **C01.** `FromString(s)` of a valid UTF-8 string is an exact copy: `Get`, `GetOriginal`
and `OriginalOffsets` are as stated, and converting any non-empty range on rune boundaries in
either direction succeeds and gives the same text. -/
theorem C01_fromString {s : Str} (hs : ValidUtf8 s) :
    (NS.fromString s).get = s ∧ (NS.fromString s).getOriginal = s
    ∧ (NS.fromString s).originalOffsets = ⟨0, s.length⟩
    ∧ ∀ a b : Int, IsBoundary s a → IsBoundary s b → a < b →
        ∃ t, goSlice s a b = .ok t
          ∧ (NS.fromString s).getOriginalRange (.normalized a b) = .ok (some t)
          ∧ (NS.fromString s).getRange (.original a b) = .ok (some t) := by
  refine ⟨rfl, rfl, by simp [NS.originalOffsets, NS.fromString, NS.originalLen], ?_⟩
  intro a b ha hb hab
  have hr := fromString_repr hs
  have hte : s = text (selfChars 0 (runesOf s)) := by rw [text_selfChars, hs.runes]
  have ha' := ha; have hb' := hb
  rw [hte] at ha' hb'
  obtain ⟨pre, mid, post, hc, e1, e2⟩ := chars_cut2 hr.valid (by omega) ha' hb'
  -- the runes of the three parts
  have hrunes : runesOf s = pre.map (·.1) ++ mid.map (·.1) ++ post.map (·.1) := by
    have := selfChars_map_fst 0 (runesOf s)
    rw [hc] at this; simpa using this.symm
  have hc2 := hc
  rw [hrunes, selfChars_append, selfChars_append] at hc2
  have hl1 : ∀ (i : Nat) (rs : List Rune), (selfChars i rs).length = rs.length := by
    intro i rs; have := congrArg List.length (selfChars_map_fst i rs); simpa using this
  obtain ⟨hc3, hpost⟩ := List.append_inj hc2 (by simp [hl1])
  obtain ⟨hpre, hmid⟩ := List.append_inj hc3 (by simp [hl1])
  have hmne : mid.map (·.1) ≠ [] := by
    intro h0
    have : mid = [] := by simpa using h0
    subst this; simp at e2; omega
  have etp : encodeRunes (pre.map (·.1)) = text pre := rfl
  have etm : encodeRunes (mid.map (·.1)) = text mid := rfl
  simp only [Nat.zero_add] at hmid hpost
  rw [etp] at hmid
  obtain ⟨f, hf1, hf2⟩ := selfChars_head (i := (text pre).length) hmne
  obtain ⟨l, hll1, hll2⟩ := selfChars_last (i := (text pre).length) hmne
  rw [hmid] at hf1 hll1
  rw [etm] at hll2
  have hsl : goSlice s a b = .ok (text mid) := by
    rw [hte, hc]
    simp only [text_append]
    exact goSlice_mid _ _ _ e1 e2
  refine ⟨text mid, hsl, ?_, ?_⟩
  · have hco := coerceRangeToOriginal_chars (by rw [← hc]; exact hr) hf1 hll1
    rw [← e2, ← e1] at hco
    have : (f.2.start, l.2.stop) = (a, b) := by rw [hf2, hll2, e1, e2]
    rw [this] at hco
    simp only [NS.getOriginalRange, hco, GoM.bind_ok]
    show (do let t ← goSlice s a b; pure (some t)) = _
    simp [hsl]
  · have hco : (NS.fromString s).coerceRangeToNormalized (.original a b) = some (a, b) := by
      rw [coerceRangeToNormalized_original hab]
      have hal : (NS.fromString s).alignments = aligns (pre ++ mid) ++ aligns post := by
        rw [hr.aligns_eq, hc]; simp
      have htw : ((NS.fromString s).alignments.takeWhile fun al => decide (al.stop ≤ b))
          = aligns (pre ++ mid) := by
        rw [hal]
        apply takeWhile_eq_of_append
        · intro x hx
          obtain ⟨c, hcm, rfl⟩ := mem_aligns.1 hx
          rw [← hc3, ← selfChars_append] at hcm
          have := (selfChars_bounds _ _ c hcm).2.2
          simp [etp, etm] at this
          simp; omega
        · intro x hx
          obtain ⟨c, hcm, rfl⟩ := mem_aligns.1 hx
          rw [← hpost] at hcm
          have := selfChars_bounds _ _ c hcm
          simp [etp, etm] at this
          simp; omega
      rw [htw]
      have hne : aligns (pre ++ mid) ≠ [] := by
        intro h0
        have := congrArg List.length h0
        simp at this
        have hm0 : mid = [] := by
          have := this.2; rw [text_eq_nil] at this; exact this
        simp [hm0] at hmne
      rw [if_neg hne]
      have hfi : (aligns (pre ++ mid)).findIdx? (startTest a) = some (text pre).length := by
        rw [List.findIdx?_eq_some_iff_getElem]
        cases mid with
        | nil => simp at hmne
        | cons m ms =>
          simp only [List.head?_cons, Option.some.injEq] at hf1
          subst hf1
          have h1 := aligns_getElem?_first pre m ms
          obtain ⟨hlt, hge⟩ := List.getElem?_eq_some_iff.1 h1
          refine ⟨hlt, ?_, ?_⟩
          · rw [hge]
            have hb1 := selfChars_bounds (text pre).length ((m :: ms).map (·.1)) m (by rw [hmid]; simp)
            simp only [startTest, Bool.and_eq_true, decide_eq_true_eq]
            omega
          · intro j hj
            have hm : (aligns (pre ++ m :: ms))[j] ∈ aligns pre := by
              simp only [aligns_append]
              rw [List.getElem_append_left (by simpa using hj)]
              exact List.getElem_mem _
            obtain ⟨c, hcm, hce⟩ := mem_aligns.1 hm
            rw [← hce]
            rw [← hpre] at hcm
            have := selfChars_bounds _ _ c hcm
            simp [etp] at this
            simp only [startTest, Bool.and_eq_true, decide_eq_true_eq]
            omega
      simp only [hfi]
      simp; omega
    simp only [NS.getRange, hco]
    show (do let t ← goSlice s a b; pure (some t)) = _
    simp [hsl]

/-- C01 needs valid UTF-8: an invalid byte gets three alignments, and converting the whole
range then panics. -/
theorem C01_invalid_utf8 : (NS.fromString [0xFF]).alignments.length = 3
    ∧ (NS.fromString [0xFF]).getOriginalRange (.normalized 0 1) = .panic := by decide +kernel

/-- **C01**, `Len` of a range, in any state: it is the number of bytes that the range selects in the text it is relative to. -/
theorem C01_rangeLen (ns : NS) (a b : Int) (t : Str) :
    (ns.getRange (.normalized a b) = .ok (some t) → (t.length : Int) = (Rng.normalized a b).len)
    ∧ (ns.getOriginalRange (.original a b) = .ok (some t) → (t.length : Int) = (Rng.original a b).len) := by
  constructor <;> intro h
  · simp only [NS.getRange, NS.coerceRangeToNormalized, GoM.bind_eq_ok, GoM.pure_eq, GoM.ok.injEq, Option.some.injEq] at h
    obtain ⟨_, h1, rfl⟩ := h
    exact goSlice_length h1
  · simp only [NS.getOriginalRange, NS.coerceRangeToOriginal, GoM.bind_ok, GoM.bind_eq_ok, GoM.pure_eq, GoM.ok.injEq,
      Option.some.injEq] at h
    obtain ⟨_, h1, rfl⟩ := h
    exact goSlice_length h1

example : (NS.fromString b!"aé世").getRange (.normalized 1 6) = .ok (some b!"é世") ∧ (Rng.normalized 1 6).len = 5 := by decide +kernel

/-- Non-vacuity: "aé世" has the boundaries 1 and 6. -/
example : ValidUtf8 b!"aé世" ∧ IsBoundary b!"aé世" 1 ∧ IsBoundary b!"aé世" 6 := by
  refine ⟨by decide +kernel, ⟨b!"a", b!"é世", ?_⟩, ⟨b!"aé世", [], ?_⟩⟩ <;> decide +kernel

example : (NS.fromString b!"aé世").getRange (.original 1 6) = .ok (some b!"é世") := by decide +kernel

end Verif
