import Verif.Spec.Transform
import Verif.Lemmas.Chars

set_option autoImplicit false

namespace Verif

@[simp] theorem lastAlign_nil : lastAlign [] = ⟨0, 0⟩ := rfl
@[simp] theorem lastAlign_concat (cs : List Ch) (c : Ch) : lastAlign (cs ++ [c]) = c.2 := by
  simp [lastAlign]
theorem lastAlign_append_of_ne {as bs : List Ch} (h : bs ≠ []) :
    lastAlign (as ++ bs) = lastAlign bs := by
  simp [lastAlign, List.getLast?_append]
  cases hb : bs.getLast? with
  | none => simp at hb; exact absurd hb h
  | some x => simp
@[simp] theorem lastAlign_append_cons (as : List Ch) (c : Ch) (bs : List Ch) :
    lastAlign (as ++ c :: bs) = lastAlign (c :: bs) := lastAlign_append_of_ne (by simp)

/-- The alignment of the byte just before the end of `done`. -/
theorem aligns_last (done rest : List Ch) (h : done ≠ []) :
    goIndex (aligns (done ++ rest)) (((text done).length : Int) - 1) = .ok (lastAlign done) := by
  rcases List.eq_nil_or_concat done with rfl | ⟨d, c, rfl⟩
  · exact absurd rfl h
  · simp only [List.concat_eq_append, aligns_append, lastAlign_concat, text_append, text_cons,
      text_nil, List.append_nil, aligns_cons, aligns_nil, List.length_append, List.append_assoc]
    have hp : 0 < (encodeRune c.1).length := encodeRune_length_pos c.1
    obtain ⟨n, hn⟩ : ∃ n, runeLen c.1 = n + 1 := ⟨runeLen c.1 - 1, by have := runeLen_pos c.1; omega⟩
    rw [hn, List.replicate_succ', List.append_assoc, ← List.append_assoc, List.singleton_append]
    apply goIndex_mid
    simp only [List.length_append, aligns_length, List.length_replicate]
    have : (encodeRune c.1).length = n + 1 := hn
    omega

/-- The alignment of the first byte after `done`. -/
theorem aligns_next (done : List Ch) (c : Ch) (rest : List Ch) :
    goIndex (aligns (done ++ c :: rest)) ((text done).length : Int) = .ok c.2 := by
  obtain ⟨n, hn⟩ : ∃ n, runeLen c.1 = n + 1 := ⟨runeLen c.1 - 1, by have := runeLen_pos c.1; omega⟩
  simp only [aligns_append, aligns_cons, hn, List.replicate_succ, List.cons_append]
  apply goIndex_mid
  simp

theorem bind_panic_of_panic {α β : Type} (x : GoM α) : (x >>= fun _ => (GoM.panic : GoM β)) = .panic := by
  cases x <;> rfl

theorem transform_loop (dest : List RuneChange) (done cs post : List Ch) (al0 : List Align)
    (out0 : Str) :
    match specTransform (lastAlign done) dest cs with
    | some out => ∃ st, goFor dest ⟨((text done).length : Int), cs.map (·.1), al0, out0⟩
          (transformStep (aligns (done ++ cs ++ post))) = .ok st
        ∧ st.aligns = al0 ++ aligns out ∧ st.out = out0 ++ text out
        ∧ ValidChars out
    | none => goFor dest ⟨((text done).length : Int), cs.map (·.1), al0, out0⟩
          (transformStep (aligns (done ++ cs ++ post))) = .panic := by
  induction dest generalizing done cs al0 out0 with
  | nil => simp [specTransform]
  | cons rc rest ih =>
    simp only [specTransform]
    by_cases hc : 1 ≤ rc.change
    · -- insertion
      rw [if_pos hc]
      have hstep : transformStep (aligns (done ++ cs ++ post))
          ⟨((text done).length : Int), cs.map (·.1), al0, out0⟩ rc
          = .ok ⟨((text done).length : Int), cs.map (·.1),
              al0 ++ aligns [(sanitize rc.rune, lastAlign done)],
              out0 ++ text [(sanitize rc.rune, lastAlign done)]⟩ := by
        have h1 : ¬ (rc.change ≤ 0) := by omega
        have h2 : ¬ (rc.change ≤ -1) := by omega
        unfold transformStep
        simp only [ge_iff_le, hc, if_true, h1, h2, if_false]
        by_cases hd : done = []
        · subst hd; simp [runeLen]
        · have : ¬ (((text done).length : Int) < 1) := by
            have := mt text_length_eq_zero.1 hd; omega
          rw [if_neg this, List.append_assoc, aligns_last done _ hd]
          simp [runeLen]
      rw [goFor_cons, hstep, GoM.bind_ok]
      have := ih done cs (al0 ++ aligns [(sanitize rc.rune, lastAlign done)])
        (out0 ++ text [(sanitize rc.rune, lastAlign done)])
      cases hs : specTransform (lastAlign done) rest cs with
      | none => rw [hs] at this; simpa using this
      | some out =>
        rw [hs] at this
        obtain ⟨st, h1, h2, h3, h4⟩ := this
        refine ⟨st, h1, ?_, ?_, ?_⟩
        · rw [h2]; simp
        · rw [h3]; simp
        · exact validChars_cons.2 ⟨sanitize_valid _, h4⟩
    · rw [if_neg hc]
      have h1 : rc.change ≤ 0 := by omega
      cases cs with
      | nil =>
        simp only
        rw [goFor_cons]
        have : transformStep (aligns (done ++ [] ++ post))
          ⟨((text done).length : Int), [], al0, out0⟩ rc = .panic := by
          unfold transformStep
          simp only [ge_iff_le, hc, if_false, h1, if_true, goIndex]
          simp
          exact bind_panic_of_panic _
        simp only [List.map_nil, this, GoM.bind_panic]
      | cons c cs' =>
        simp only
        have ha : goIndex (aligns (done ++ c :: cs' ++ post)) ((text done).length : Int) = .ok c.2 := by
          rw [List.append_assoc, List.cons_append, aligns_next]
        have hr : goIndex (((c :: cs') : List Ch).map (·.1)) 0 = .ok c.1 := by
          simp [goIndex]
        by_cases hk : cs'.length < (-rc.change).toNat
        · rw [if_pos hk, goFor_cons]
          have hs : transformStep (aligns (done ++ c :: cs' ++ post))
            ⟨((text done).length : Int), (c :: cs').map (·.1), al0, out0⟩ rc = .panic := by
            unfold transformStep
            have h2 : rc.change ≤ -1 := by omega
            have h3 : goSlice (cs'.map (·.1)) 0 (-rc.change) = .panic := by
              rw [goSlice_eq_panic]; simp; omega
            simp only [ge_iff_le, hc, if_false, h1, if_true, ha, hr, h2]
            simp [h3]
          simp only [hs, GoM.bind_panic]
        · rw [if_neg hk, goFor_cons]
          have hk' : (-rc.change).toNat ≤ cs'.length := by omega
          obtain ⟨n, hn⟩ : ∃ n, (-rc.change).toNat = n := ⟨_, rfl⟩
          have hn' : -rc.change = (n : Int) := by omega
          rw [hn] at hk'
          simp only [hn]
          have hlen : (text (done ++ c :: cs'.take n)).length
              = (text done).length + ((encodeRune c.1).length + (text (cs'.take n)).length) := by
            simp
          have hs : transformStep (aligns (done ++ c :: cs' ++ post))
            ⟨((text done).length : Int), (c :: cs').map (·.1), al0, out0⟩ rc
            = .ok ⟨((text (done ++ c :: cs'.take n)).length : Int), (cs'.drop n).map (·.1),
                al0 ++ aligns [(sanitize rc.rune, c.2)], out0 ++ text [(sanitize rc.rune, c.2)]⟩ := by
            unfold transformStep
            simp only [ge_iff_le, hc, if_false, h1, if_true, ha, hr]
            by_cases h2 : rc.change ≤ -1
            · have h3 : goSlice (cs'.map (·.1)) 0 (-rc.change) = .ok ((cs'.take n).map (·.1)) := by
                rw [goSlice_of (by omega) (by omega) (by simp; omega)]
                simp [hn]
              have h4 : goSlice (cs'.map (·.1)) (-rc.change) ((cs'.map (·.1)).length : Int)
                  = .ok ((cs'.drop n).map (·.1)) := by
                rw [goSlice_of (by omega) (by simp; omega) (by simp)]
                simp only [hn]
                rw [List.take_of_length_le (by simp; omega)]
                simp
              simp only [GoM.pure_eq, GoM.bind_ok, h2, if_true, List.map_cons, List.drop_succ_cons,
                List.drop_zero, h3, h4, hlen]
              simp [runeLen, text]; omega
            · have h0 : n = 0 := by omega
              subst h0
              simp [h2, runeLen]
          rw [hs, GoM.bind_ok]
          have hl : lastAlign (done ++ c :: cs'.take n) = lastAlign (c :: cs'.take n) := by simp
          have hsplit : done ++ c :: cs' ++ post = (done ++ c :: cs'.take n) ++ cs'.drop n ++ post := by
            simp
          have := ih (done ++ c :: cs'.take n) (cs'.drop n) (al0 ++ aligns [(sanitize rc.rune, c.2)])
            (out0 ++ text [(sanitize rc.rune, c.2)])
          rw [hl, ← hsplit] at this
          cases hsp : specTransform (lastAlign (c :: cs'.take n)) rest (cs'.drop n) with
          | none => rw [hsp] at this; simpa using this
          | some out =>
            rw [hsp] at this
            obtain ⟨st, h1, h2, h3, h4⟩ := this
            refine ⟨st, h1, ?_, ?_, ?_⟩
            · rw [h2]; simp
            · rw [h3]; simp
            · exact validChars_cons.2 ⟨sanitize_valid _, h4⟩

/-- `TransformRange` on a range of whole characters, with an initial offset of
whole characters. -/
theorem transformNormalized_spec {ns : NS} {pre skip mid post : List Ch}
    (h : Repr ns (pre ++ skip ++ mid ++ post)) (dest : List RuneChange) {a b io : Int}
    (ha : a = (text pre).length) (hb : b = ((text (pre ++ skip ++ mid)).length : Int))
    (hio : io = (text skip).length) :
    match specTransform (lastAlign (pre ++ skip)) dest mid with
    | some out => ∃ ns', ns.transformNormalized a b dest io = .ok ns'
        ∧ Repr ns' (pre ++ out ++ post) ∧ ns'.original = ns.original
        ∧ ns'.originalShift = ns.originalShift
    | none => ns.transformNormalized a b dest io = .panic := by
  have hv := h.valid
  have hvp : ValidChars pre := fun c hc => hv c (by simp [hc])
  have hvm : ValidChars mid := fun c hc => hv c (by simp [hc])
  have hvq : ValidChars post := fun c hc => hv c (by simp [hc])
  have hn : ns.normalized = text pre ++ (text skip ++ text mid) ++ text post := by
    rw [h.text_eq]; simp
  have hal : ns.alignments = aligns pre ++ aligns (skip ++ mid) ++ aligns post := by
    rw [h.aligns_eq]; simp
  have e1 : goSlice ns.normalized a b = .ok (text skip ++ text mid) := by
    rw [hn]; exact goSlice_mid _ _ _ ha (by simp at hb ⊢; omega)
  have e2 : goSlice (text skip ++ text mid) 0 io = .ok (text skip) := goSlice_prefix _ _ hio
  have e3 : goSlice (text skip ++ text mid) io ((text skip ++ text mid).length : Int)
      = .ok (text mid) := goSlice_suffix _ _ hio (by simp)
  have e4 : goSlice ns.alignments 0 a = .ok (aligns pre) := by
    rw [hal, List.append_assoc]; exact goSlice_prefix _ _ (by simp [ha])
  have e5 : goSlice ns.alignments b (ns.alignments.length : Int) = .ok (aligns post) := by
    rw [hal]; apply goSlice_suffix
    · simp at hb ⊢; omega
    · simp; omega
  have e6 : goSlice ns.normalized 0 a = .ok (text pre) := by
    rw [hn, List.append_assoc]; exact goSlice_prefix _ _ ha
  have e7 : goSlice ns.normalized b (ns.normalized.length : Int) = .ok (text post) := by
    rw [hn]; apply goSlice_suffix
    · simp at hb ⊢; omega
    · simp; omega
  have e8 : runesOf (text mid) = mid.map (·.1) := runesOf_text hvm
  have hoff : ((text skip).length : Int) + a = ((text (pre ++ skip)).length : Int) := by
    simp [ha]; omega
  have hloop := transform_loop dest (pre ++ skip) mid post [] []
  rw [← h.aligns_eq] at hloop
  simp only [NS.transformNormalized, e1, GoM.bind_ok, e2, e3, e8, hoff, GoM.pure_eq]
  cases hs : specTransform (lastAlign (pre ++ skip)) dest mid with
  | none =>
    rw [hs] at hloop
    simp only at hloop
    simp only [hloop, GoM.bind_panic]
  | some out =>
    rw [hs] at hloop
    obtain ⟨st, h1, h2, h3, h4⟩ := hloop
    simp only [h1, GoM.bind_ok, e4, e5, e6, e7]
    refine ⟨_, rfl, ⟨?_, ?_, ?_⟩, rfl, rfl⟩
    · simp [h3]
    · simp [h2]
    · exact (hvp.append h4).append hvq

end Verif
