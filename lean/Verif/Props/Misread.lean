import Verif.Spec.Misread
import Verif.Props.Exact
import Verif.Props.Bert
import Verif.Model.Notation

/-! For C06, C07 and C34: what `Filter`, `TrimLeftRight` and `BertNormalizer` do on every valid state,
also where it is not what they should do. -/

set_option autoImplicit false

namespace Verif

/-! ## Decoding from inside a rune -/

theorem decodeRune_cont {b : UInt8} (t : Str) (h : isCont b = true) : decodeRune (b :: t) = (runeError, 1) := by
  unfold isCont at h
  simp only [Bool.and_eq_true, decide_eq_true_eq] at h
  unfold decodeRune
  simp only
  rw [if_neg (by omega), if_pos (by omega)]

theorem rangeAux_cont (bs rest : Str) (h : ∀ b ∈ bs, isCont b = true) (i : Nat) :
    (rangeAux (bs ++ rest) i 0).map (fun p => p.2)
      = List.replicate bs.length runeError ++ (rangeAux rest (i + bs.length) 0).map (fun p => p.2) := by
  induction bs generalizing i with
  | nil => simp
  | cons b bs ih =>
    simp only [List.cons_append, rangeAux, decodeRune_cont _ (h b (by simp)), Nat.sub_self, List.map_cons,
      List.length_cons, List.replicate_succ]
    rw [ih (fun x hx => h x (by simp [hx]))]
    rw [show i + 1 + bs.length = i + (bs.length + 1) by omega]

theorem rangeAux_index (s : Str) (i j k : Nat) :
    (rangeAux s i k).map (fun p => p.2) = (rangeAux s j k).map (fun p => p.2) := by
  induction s generalizing i j k with
  | nil => simp [rangeAux]
  | cons b s ih =>
    cases k with
    | zero => simp only [rangeAux, List.map_cons]; rw [ih]
    | succ k => simp only [rangeAux]; exact ih _ _ _

theorem runesOf_cont (bs rest : Str) (h : ∀ b ∈ bs, isCont b = true) :
    runesOf (bs ++ rest) = List.replicate bs.length runeError ++ runesOf rest := by
  unfold runesOf rangeStr
  rw [rangeAux_cont bs rest h, rangeAux_index rest _ 0]

/-- The end of a valid text, cut anywhere: at most three continuation bytes, then whole runes. -/
theorem drop_encodeRunes (rs : List Rune) (n : Nat) (hn : n ≤ (encodeRunes rs).length) :
    ∃ k bs, k ≤ rs.length ∧ bs.length ≤ 3 ∧ (∀ b ∈ bs, isCont b = true)
      ∧ (encodeRunes rs).drop n = bs ++ encodeRunes (rs.drop k) ∧ n + bs.length = (encodeRunes (rs.take k)).length := by
  induction rs generalizing n with
  | nil => exact ⟨0, [], by simp, by simp, by simp, by simp, by simpa using hn⟩
  | cons r rs ih =>
    by_cases h0 : n = 0
    · subst h0; exact ⟨0, [], by simp, by simp, by simp, by simp, by simp⟩
    · by_cases h1 : n < (encodeRune r).length
      · refine ⟨1, (encodeRune r).drop n, by simp, ?_, ?_, ?_, ?_⟩
        · have := runeLen_le_four r; unfold runeLen at this; simp; omega
        · intro b hb
          obtain ⟨b0, t, e, -, ht⟩ := encodeRune_bytes r
          rw [e] at hb
          obtain ⟨m, rfl⟩ := Nat.exists_eq_succ_of_ne_zero h0
          rw [List.drop_succ_cons] at hb
          exact ht b (List.mem_of_mem_drop hb)
        · rw [encodeRunes_cons, List.drop_append_of_le_length (by omega)]; simp
        · simp; omega
      · rw [encodeRunes_cons, List.length_append] at hn
        obtain ⟨k, bs, e0, e1, e2, e3, e4⟩ := ih (n - (encodeRune r).length) (by omega)
        refine ⟨k + 1, bs, by simpa using e0, e1, e2, ?_, ?_⟩
        · rw [encodeRunes_cons, List.drop_append, List.drop_of_length_le (by omega), e3]; simp
        · simp; omega

/-- The runes seen after skipping bytes: an U+FFFD for each byte left of the character that was cut,
then the rest of the dropped characters, then the others. -/
theorem seenRunes_spec {lead rest : List Ch} (hv : ValidChars (lead ++ rest)) :
    runesOf ((text (lead ++ rest)).drop lead.length) = seenRunes lead rest
    ∧ ∃ k j, k ≤ lead.length ∧ j ≤ 3 ∧ lead.length + j = (text (lead.take k)).length
      ∧ seenRunes lead rest = List.replicate j runeError ++ (lead.drop k).map (fun c => c.1) ++ rest.map fun c => c.1 := by
  obtain ⟨hl, hr⟩ := validChars_append.1 hv
  have hn : lead.length ≤ (encodeRunes (lead.map fun c => c.1)).length := by
    have := length_le_encodeRunes (lead.map fun c => c.1)
    simpa using this
  obtain ⟨k, bs, e0, e1, e2, e3, e4⟩ := drop_encodeRunes (lead.map fun c => c.1) lead.length hn
  have hval : ∀ r ∈ (lead.map fun c => c.1).drop k, ValidRune r := by
    intro r hm
    obtain ⟨c, hc, rfl⟩ := List.mem_map.1 (List.mem_of_mem_drop hm)
    exact hl c hc
  have hvr : ∀ r ∈ rest.map fun c => c.1, ValidRune r := by
    intro r hm
    obtain ⟨c, hc, rfl⟩ := List.mem_map.1 hm
    exact hr c hc
  have hx : runesOf ((text lead).drop lead.length) = List.replicate bs.length runeError ++ (lead.drop k).map fun c => c.1 := by
    unfold text
    rw [show (lead.map fun x : Ch => x.1) = lead.map fun c => c.1 from rfl, e3, runesOf_cont _ _ e2, runesOf_encodeRunes _ hval, List.map_drop]
  refine ⟨?_, k, bs.length, by simpa using e0, e1, ?_, ?_⟩
  · unfold seenRunes
    rw [hx, text_append, List.drop_append_of_le_length (by simpa [text] using hn)]
    have e3' : (text lead).drop lead.length = bs ++ encodeRunes ((lead.map fun c => c.1).drop k) := e3
    rw [e3', text, List.append_assoc, ← encodeRunes_append, runesOf_cont _ _ e2, runesOf_encodeRunes, List.map_drop,
      List.append_assoc]
    intro r hm
    rcases List.mem_append.1 hm with hm | hm
    · exact hval r hm
    · exact hvr r hm
  · rw [e4, text, List.map_take]
  · unfold seenRunes; rw [hx]

/-! ## The loop of `TransformRange` on changes that keep and drop -/

/-- The changes for runes that are kept or dropped, after the kept rune `lr` and `n` dropped ones. -/
def dropGo : Rune → Nat → List (Rune × Bool) → List RuneChange
  | lr, n, [] => [⟨lr, -(n : Int)⟩]
  | lr, n, (r, k) :: l => if k then ⟨lr, -(n : Int)⟩ :: dropGo r 0 l else dropGo lr (n + 1) l

theorem filterGo_eq (keep : Rune → Bool) (lr : Rune) (n : Nat) (rs : List Rune) :
    filterGo keep lr n rs = dropGo lr n (rs.map fun r => (r, keep r)) := by
  induction rs generalizing lr n with
  | nil => rfl
  | cons r rs ih => simp only [filterGo, List.map_cons, dropGo]; split <;> simp [ih]

theorem misread_dropped (als : List Align) (o : Nat) (R : List Rune) (d : List Rune) (l : List (Rune × Bool)) :
    misread als o R ((d.map fun r => (r, false)) ++ l)
      = misread als (o + (encodeRunes (R.take d.length)).length) (R.drop d.length) l := by
  induction d generalizing o R with
  | nil => simp
  | cons r d ih =>
    simp only [List.map_cons, List.cons_append, misread, ih, Bool.false_eq_true, if_false]
    have e : o + (encodeRunes (R.take 1)).length + (encodeRunes ((R.drop 1).take d.length)).length
        = o + (encodeRunes (R.take (d.length + 1))).length := by
      have : R.take (d.length + 1) = R.take 1 ++ (R.drop 1).take d.length := by
        cases R <;> simp
      rw [this, encodeRunes_append, List.length_append]; omega
    rw [e, List.drop_drop, Nat.add_comm 1, List.length_cons]
    cases misread als (o + (encodeRunes (R.take (d.length + 1))).length) (R.drop (d.length + 1)) l <;> rfl

/-- One step of the loop: keep a rune and drop `n` after it. -/
theorem step_keep (als : List Align) (o : Nat) (R : List Rune) (lr : Rune) (n : Nat) (A : List Align) (out : Str)
    (hR : n + 1 ≤ R.length) :
    transformStep als ⟨o, R, A, out⟩ ⟨lr, -(n : Int)⟩
      = match als[o]? with
        | none => .panic
        | some a => .ok ⟨((o + (encodeRunes (R.take (n + 1))).length : Nat) : Int), R.drop (n + 1),
            A ++ List.replicate (encodeRune lr).length a, out ++ encodeRune lr⟩ := by
  cases R with
  | nil => simp at hR
  | cons r R =>
    simp only [List.length_cons] at hR
    have h1 : ¬ (-(n : Int) ≥ 1) := by omega
    have h2 : -(n : Int) ≤ 0 := by omega
    have hi : goIndex als (o : Int) = match als[o]? with | some a => .ok a | none => .panic := by
      unfold goIndex; rw [if_pos (by omega), Int.toNat_natCast]; cases als[o]? <;> rfl
    have hr : goIndex (r :: R) 0 = .ok r := by simp [goIndex]
    unfold transformStep
    simp only [h1, if_false, h2, if_true, hi, hr]
    cases hx : als[o]? with
    | none => rfl
    | some a =>
      simp only [GoM.bind_ok, GoM.pure_eq, List.drop_succ_cons, List.drop_zero, Int.neg_neg]
      by_cases h3 : -(n : Int) ≤ -1
      · have e1 : goSlice R 0 (n : Int) = .ok (R.take n) := by
          rw [goSlice_of (by omega) (by omega) (by omega)]; simp
        have e2 : goSlice R (n : Int) (R.length : Int) = .ok (R.drop n) := by
          rw [goSlice_of (by omega) (by omega) (by omega), List.take_of_length_le (by simp)]; simp
        simp only [h3, if_true, e1, e2, GoM.bind_ok, GoM.ok.injEq, TState.mk.injEq, and_true,
          List.take_succ_cons, encodeRunes_cons, List.length_append]
        push_cast
        omega
      · have h0 : n = 0 := by omega
        subst h0
        simp

theorem drop_loop (als : List Align) (l : List (Rune × Bool)) (lr : Rune) (d : List Rune) (o : Nat) (R : List Rune)
    (A : List Align) (out : Str) (hR : d.length + 1 + l.length ≤ R.length)
    (hv : ValidRune lr) (hl : ∀ p ∈ l, ValidRune p.1) :
    match misread als o R ((lr, true) :: (d.map fun r => (r, false)) ++ l) with
    | none => goFor (dropGo lr d.length l) ⟨o, R, A, out⟩ (transformStep als) = .panic
    | some cs => ∃ st, goFor (dropGo lr d.length l) ⟨o, R, A, out⟩ (transformStep als) = .ok st
        ∧ st.aligns = A ++ aligns cs ∧ st.out = out ++ text cs ∧ ValidChars cs := by
  induction l generalizing lr d o R A out with
  | nil =>
    rw [dropGo, goFor_cons, step_keep als o R lr d.length A out (by simpa using hR)]
    simp only [List.append_nil, misread]
    rw [show (d.map fun r => (r, false)) = (d.map fun r => (r, false)) ++ [] by simp, misread_dropped]
    simp only [misread, if_true]
    cases als[o]? with
    | none => rfl
    | some a =>
      simp only [GoM.bind_ok, goFor_nil]
      exact ⟨_, rfl, by simp [aligns, runeLen], by simp [text], by intro c hc; simp at hc; rw [hc]; exact hv⟩
  | cons p l ih =>
    obtain ⟨r, k⟩ := p
    cases k with
    | false =>
      have := ih lr (d ++ [r]) o R A out (by simp only [List.length_append, List.length_cons, List.length_nil] at hR ⊢; omega) hv
        (fun p hp => hl p (by simp [hp]))
      rw [show ((lr, true) :: (d ++ [r]).map (fun r => (r, false)) ++ l) = ((lr, true) :: d.map (fun r => (r, false)) ++ (r, false) :: l) by simp] at this
      simpa [dropGo] using this
    | true =>
      simp only [List.length_cons] at hR
      rw [dropGo, if_pos rfl, goFor_cons, step_keep als o R lr d.length A out (by omega)]
      have := ih r [] (o + (encodeRunes (R.take (d.length + 1))).length) (R.drop (d.length + 1))
      simp only [List.map_nil, List.cons_append, List.nil_append, List.length_nil] at this
      rw [List.cons_append, misread, misread_dropped]
      have e : o + (encodeRunes (R.take 1)).length + (encodeRunes ((R.drop 1).take d.length)).length
          = o + (encodeRunes (R.take (d.length + 1))).length := by
        have : R.take (d.length + 1) = R.take 1 ++ (R.drop 1).take d.length := by
          cases R <;> simp
        rw [this, encodeRunes_append, List.length_append]; omega
      rw [e, List.drop_drop, Nat.add_comm 1 d.length]
      cases ha : als[o]? with
      | none =>
        cases misread als (o + (encodeRunes (R.take (d.length + 1))).length) (R.drop (d.length + 1)) ((r, true) :: l) <;> simp
      | some a =>
        have := this (A ++ List.replicate (encodeRune lr).length a) (out ++ encodeRune lr) (by simp; omega)
          (hl (r, true) (by simp)) (fun p hp => hl p (by simp [hp]))
        cases hm : misread als (o + (encodeRunes (R.take (d.length + 1))).length) (R.drop (d.length + 1)) ((r, true) :: l) with
        | none =>
          rw [hm] at this
          simpa using this
        | some cs =>
          rw [hm] at this
          obtain ⟨st, s1, s2, s3, s4⟩ := this
          simp only [if_true, GoM.bind_ok]
          refine ⟨st, s1, ?_, ?_, validChars_cons.2 ⟨hv, s4⟩⟩
          · rw [s2]; simp [runeLen]
          · rw [s3]; simp

/-- `Transform` with changes that keep and drop, skipping `lead.length` bytes. -/
theorem transform_drop {ns : NS} {lead rest : List Ch} (h : Repr ns (lead ++ rest)) (lr : Rune) (l : List (Rune × Bool))
    (hlen : 1 + l.length ≤ rest.length) (hv : ValidRune lr) (hl : ∀ p ∈ l, ValidRune p.1) :
    match misread (aligns (lead ++ rest)) lead.length (seenRunes lead rest) ((lr, true) :: l) with
    | none => ns.transform (dropGo lr 0 l) lead.length = .panic
    | some cs => ∃ ns', ns.transform (dropGo lr 0 l) lead.length = .ok ns'
        ∧ Repr ns' cs ∧ ns'.original = ns.original ∧ ns'.originalShift = ns.originalShift := by
  have hle : lead.length ≤ ns.normalized.length := by
    rw [h.text_eq, text_append, List.length_append]
    have := length_le_text lead
    omega
  have e1 : goSlice ns.normalized 0 ns.len = .ok ns.normalized := by
    have := goSlice_prefix ns.normalized [] (b := ns.len) rfl
    simpa using this
  have e2 : goSlice ns.normalized 0 (lead.length : Int) = .ok (ns.normalized.take lead.length) := by
    rw [goSlice_of (by omega) (by omega) (by omega)]; simp
  have e3 : goSlice ns.normalized (lead.length : Int) (ns.normalized.length : Int)
      = .ok (ns.normalized.drop lead.length) := by
    rw [goSlice_of (by omega) (by omega) (by omega)]
    rw [List.take_of_length_le (by simp)]; simp
  have e4 : goSlice ns.alignments 0 0 = .ok [] := by
    rw [goSlice_of (by omega) (by omega) (by omega)]; simp
  have e5 : goSlice ns.alignments ns.len (ns.alignments.length : Int) = .ok [] := by
    have := h.len_eq
    rw [goSlice_of (by simp [NS.len]) (by simp [NS.len]; omega) (by omega)]
    simp [NS.len]; omega
  have e6 : goSlice ns.normalized 0 0 = .ok [] := by
    rw [goSlice_of (by omega) (by omega) (by omega)]; simp
  have e7 : goSlice ns.normalized ns.len (ns.normalized.length : Int) = .ok [] := by
    rw [goSlice_of (by simp [NS.len]) (by simp [NS.len]) (by omega)]
    simp [NS.len]
  have e8 : runesOf (ns.normalized.drop lead.length) = seenRunes lead rest := by
    rw [h.text_eq]; exact (seenRunes_spec h.valid).1
  have e9 : (((ns.normalized.take lead.length).length : Nat) : Int) + 0 = ((lead.length : Nat) : Int) := by
    rw [List.length_take]; omega
  have hR : ([] : List Rune).length + 1 + l.length ≤ (seenRunes lead rest).length := by
    simp [seenRunes]; omega
  have hloop := drop_loop (aligns (lead ++ rest)) l lr [] lead.length (seenRunes lead rest) [] [] hR hv hl
  rw [← h.aligns_eq] at hloop
  simp only [List.map_nil, List.cons_append, List.nil_append, List.length_nil] at hloop
  rw [← h.aligns_eq]
  simp only [NS.transform, NS.transformRange, NS.coerceRangeToNormalized, NS.transformNormalized, e1, GoM.bind_ok, e2,
    e3, e8, e9]
  cases hm : misread ns.alignments lead.length (seenRunes lead rest) ((lr, true) :: l) with
  | none =>
    rw [hm] at hloop
    simp only at hloop
    simp only [hloop, GoM.bind_panic]
  | some cs =>
    rw [hm] at hloop
    obtain ⟨st, s1, s2, s3, s4⟩ := hloop
    simp only [s1, GoM.bind_ok, e4, e5, e6, e7, GoM.pure_eq]
    exact ⟨_, rfl, ⟨by simp [s3], by simp [s2], s4⟩, rfl, rfl⟩

/-! ## Filter -/

/-- **C06, what Filter does.** For every valid state and predicate: the outcome is `filterActual`. -/
theorem C06_actual {ns : NS} {cs : List Ch} (h : Repr ns cs) (keep : Rune → Bool) :
    match filterActual keep cs with
    | none => ns.filter keep = .panic
    | some out => ∃ ns', ns.filter keep = .ok ns' ∧ Repr ns' out
        ∧ ns'.original = ns.original ∧ ns'.originalShift = ns.originalShift := by
  unfold filterActual
  rcases split_first_kept (fun c => keep c.1) cs with hn | ⟨lead, c, rest, he, k1, k2, k3⟩
  · have hd : (cs.dropWhile fun c => !keep c.1) = [] := dropWhile_all (fun x hx => by simp [hn x hx])
    simp only [hd, List.map_nil, misread]
    obtain ⟨ns', e1, e2, e3⟩ := C06_filter_partial h keep (.inl hn)
    refine ⟨ns', e1, ?_, e3⟩
    rwa [List.filter_eq_nil_iff.2 (by intro x hx; simp [hn x hx])] at e2
  · have hd : (cs.dropWhile fun c => !keep c.1) = c :: rest := by
      have := List.takeWhile_append_dropWhile (p := fun c : Ch => !keep c.1) (l := cs)
      rw [← k3] at this
      have h2 := this.trans he
      exact List.append_cancel_left h2
    subst he
    simp only [hd, ← k3, List.map_cons, k2]
    have := transform_drop h c.1 (rest.map fun c => (c.1, keep c.1)) (by simp; omega) (h.valid c (by simp))
      (by
        intro p hp
        obtain ⟨d, hd, rfl⟩ := List.mem_map.1 hp
        exact h.valid d (by simp [hd]))
    have hfc : NS.filterChanges keep ((lead ++ c :: rest).map (·.1))
        = (dropGo c.1 0 (rest.map fun c => (c.1, keep c.1)), lead.length) := by
      rw [List.map_append, List.map_cons, filterChanges_eq _ _ _ _ ?_ k2, filterGo_eq, List.map_map]
      · simp [Function.comp_def]
      · intro r hr
        obtain ⟨c, hc, rfl⟩ := List.mem_map.1 hr
        exact k1 c hc
    unfold NS.filter
    rw [h.runes]
    simp only [hfc]
    exact this

/-! ## TrimLeftRight -/

/-- Read at the right positions, every kept character has its own alignment. -/
theorem misread_exact (done : List Ch) (l : List (Ch × Bool)) (more : List Ch) :
    misread (aligns (done ++ (l.map fun p => p.1) ++ more)) (text done).length (l.map fun p => p.1.1) (l.map fun p => (p.1.1, p.2))
      = some ((l.filter fun p => p.2).map fun p => p.1) := by
  induction l generalizing done with
  | nil => simp [misread]
  | cons p l ih =>
    obtain ⟨⟨r, a⟩, k⟩ := p
    have := ih (done ++ [(r, a)])
    simp only [List.append_assoc, List.cons_append, List.nil_append, List.map_cons] at this ⊢
    have e : (text done).length + (encodeRunes ([r] : List Rune)).length = (text (done ++ [(r, a)])).length := by
      simp [text]
    simp only [misread, List.take_succ_cons, List.take_zero, List.drop_succ_cons, List.drop_zero]
    rw [e, this]
    cases k with
    | false => simp
    | true =>
      have hidx : (aligns (done ++ (r, a) :: ((l.map fun p => p.1) ++ more)))[(text done).length]? = some a := by
        rw [aligns_append, ← aligns_length done, List.getElem?_append_right (Nat.le_refl _), Nat.sub_self]
        have := runeLen_pos r
        rw [aligns_cons, List.getElem?_append_left (by simpa using this), List.getElem?_replicate, if_pos (by simpa using this)]
      simp only [hidx, if_true, List.filter_cons, List.map_cons]

theorem seenRunes_nil (rest : List Ch) : seenRunes [] rest = rest.map fun c => c.1 := by
  simp [seenRunes, runesOf, rangeStr, rangeAux]

theorem dropGo_trail (lr : Rune) (n : Nat) (trail : List Ch) :
    dropGo lr n (trail.map fun c => (c.1, false)) = [⟨lr, -((n + trail.length : Nat) : Int)⟩] := by
  induction trail generalizing n with
  | nil => rfl
  | cons c trail ih =>
    simp only [List.map_cons, dropGo, Bool.false_eq_true, if_false, ih, List.length_cons]
    rw [show n + 1 + trail.length = n + (trail.length + 1) by omega]

theorem trim_dropGo (c : Ch) (core trail : List Ch) :
    ((c :: core).map (·.1)).mapIdx (fun i r => (⟨r, if i + 1 = (c :: core).length then -(trail.length : Int) else 0⟩ : RuneChange))
      = dropGo c.1 0 ((core.map fun c => (c.1, true)) ++ trail.map fun c => (c.1, false)) := by
  induction core generalizing c with
  | nil => simp [dropGo_trail]
  | cons d core ih =>
    rw [List.map_cons, List.mapIdx_cons, List.map_cons (f := fun c : Ch => (c.1, true)), List.cons_append, dropGo, if_pos rfl, ← ih]
    congr 1
    simp

/-- **C07, what TrimLeftRight does.** For every valid state: the outcome is `trimActual`. -/
theorem C07_actual {ns : NS} {cs : List Ch} (h : Repr ns cs) (left right : Bool) :
    match trimActual left right cs with
    | none => ns.trimLeftRight left right = .panic
    | some out => ∃ ns', ns.trimLeftRight left right = .ok ns' ∧ Repr ns' out
        ∧ ns'.original = ns.original ∧ ns'.originalShift = ns.originalShift := by
  obtain ⟨lead, hlead⟩ : ∃ x, x = (if left then cs.takeWhile (fun c => isWhiteSpace c.1) else []) := ⟨_, rfl⟩
  obtain ⟨rest, hrest⟩ : ∃ x, x = (if left then cs.dropWhile (fun c => isWhiteSpace c.1) else cs) := ⟨_, rfl⟩
  obtain ⟨core, hcore⟩ : ∃ x, x = (if right then (rest.reverse.dropWhile (fun c => isWhiteSpace c.1)).reverse else rest) := ⟨_, rfl⟩
  obtain ⟨trail, htrail⟩ : ∃ x, x = (if right then (rest.reverse.takeWhile (fun c => isWhiteSpace c.1)).reverse else []) := ⟨_, rfl⟩
  have hcs : cs = lead ++ rest := by cases left <;> simp [hlead, hrest]
  have hr : rest = core ++ trail := by
    cases right
    · simp [hcore, htrail]
    · simp only [hcore, htrail, if_true, ← List.reverse_append, List.takeWhile_append_dropWhile, List.reverse_reverse]
  have hspec : trimSpec left right cs = core := by simp only [trimSpec, ← hrest, ← hcore]
  have hact : trimActual left right cs = misread (aligns cs) lead.length (seenRunes lead rest)
      ((core.map fun c => (c.1, true)) ++ trail.map fun c => (c.1, false)) := by
    simp only [trimActual, ← hlead, ← hrest, ← hcore, ← htrail]
  have hgood (hl : lead = []) : misread (aligns cs) lead.length (seenRunes lead rest)
      ((core.map fun c => (c.1, true)) ++ trail.map fun c => (c.1, false)) = some core := by
    have := misread_exact [] ((core.map fun c => (c, true)) ++ trail.map fun c => (c, false)) []
    simp only [List.nil_append, List.append_nil, List.map_append, List.map_map, Function.comp_def, List.filter_append] at this
    rw [hcs, hl, seenRunes_nil, hr]
    simp only [List.nil_append, List.length_nil, List.map_append]
    simp only [List.map_id'] at this
    rw [show (text []).length = 0 from rfl] at this
    rw [this]
    have f1 : (core.map fun c => (c, true)).filter (fun p => p.2) = core.map fun c => (c, true) :=
      List.filter_eq_self.2 (by simp)
    have f2 : (trail.map fun c => (c, false)).filter (fun p => p.2) = [] := List.filter_eq_nil_iff.2 (by simp)
    rw [f1, f2]
    simp [Function.comp_def]
  rw [hact]
  by_cases hsmall : left = false ∨ (∀ c ∈ cs, isWhiteSpace c.1 = true)
  · obtain ⟨ns', e1, e2, e3⟩ := C07_trim_partial h left right (hsmall.imp_right .inl)
    rw [hspec] at e2
    have hm : misread (aligns cs) lead.length (seenRunes lead rest)
        ((core.map fun c => (c.1, true)) ++ trail.map fun c => (c.1, false)) = some core := by
      by_cases hl : left = true
      · have hall := hsmall.resolve_left (by simp [hl])
        have : rest = [] := by rw [hrest, if_pos hl]; exact dropWhile_all hall
        have hc : core = [] ∧ trail = [] := by
          rw [this] at hr
          exact List.append_eq_nil_iff.1 hr.symm
        rw [hc.1, hc.2]; rfl
      · exact hgood (by rw [hlead, if_neg hl])
    rw [hm]
    exact ⟨ns', e1, e2, e3⟩
  · have hleft : left = true := by
      cases left
      · exact absurd (Or.inl rfl) hsmall
      · rfl
    have hnw : ¬ ∀ c ∈ cs, isWhiteSpace c.1 = true := fun hh => hsmall (Or.inr hh)
    subst hleft
    rcases split_first_kept (fun c => !isWhiteSpace c.1) cs with hn | ⟨lead', c0, rest', he, k1, k2, k3⟩
    · exact absurd (fun c hc => by simpa using hn c hc) hnw
    have hl' : lead' = lead := by rw [k3, hlead]; simp
    subst hl'
    have hr' : rest = c0 :: rest' := List.append_cancel_left (hcs.symm.trans he)
    unfold NS.trimLeftRight
    rw [h.runes]
    obtain ⟨lead2, trail2, hd⟩ := trim_decomp true right cs
    simp only [if_true] at hd ⊢
    generalize hleading : countLeadingSpaces (cs.map (·.1)) = leading at hd ⊢
    generalize htrailing : (if right = true ∧ leading < (cs.map (·.1)).length then
        countTrailingSpaces (cs.map (·.1)) else 0) = trailing at hd ⊢
    have hll : leading = lead'.length := by
      rw [← hleading, countLeadingSpaces_map, hlead, if_pos rfl]
    have hcore0 : core ≠ [] := by
      intro hc
      have : isWhiteSpace c0.1 = true := by
        have hm : c0 ∈ trail := by rw [hc, List.nil_append] at hr; rw [← hr, hr']; simp
        rw [htrail] at hm
        cases right
        · simp at hm
        · simp only [if_true, List.mem_reverse] at hm
          exact List.all_eq_true.1 (List.all_takeWhile (l := rest.reverse) (p := fun c : Ch => isWhiteSpace c.1)) _ hm
      simp [this] at k2
    rw [hspec] at hd
    rcases hd with ⟨h1, h2, h3⟩ | ⟨h1, -, -⟩
    · have hsame : lead' = lead2 ∧ rest = core ++ trail2 := by
        have := hcs.symm.trans h1
        rw [List.append_assoc] at this
        exact List.append_inj this (by omega)
      have htt : trail2 = trail := List.append_cancel_left (hsame.2.symm.trans hr)
      subst htt
      obtain ⟨rfl, -⟩ := hsame
      subst h3 h2
      by_cases h0 : lead'.length = 0 ∧ trail2.length = 0
      · rw [if_pos h0]
        have hl0 := List.length_eq_zero_iff.1 h0.1
        have ht0 := List.length_eq_zero_iff.1 h0.2
        rw [hgood hl0]
        refine ⟨ns, rfl, ?_, rfl, rfl⟩
        rwa [hcs, hl0, hr, ht0, List.nil_append, List.append_nil] at h
      · rw [if_neg h0]
        obtain ⟨c, core', rfl⟩ := List.exists_cons_of_ne_nil hcore0
        have htc : NS.trimChanges (cs.map (·.1)) lead'.length trail2.length
            = dropGo c.1 0 ((core'.map fun c => (c.1, true)) ++ trail2.map fun c => (c.1, false)) := by
          rw [h1, trimChanges_eq, ← trim_dropGo]
        rw [htc]
        rw [hcs] at h ⊢
        have hmem : ∀ x ∈ c :: core' ++ trail2, ValidRune x.1 := fun x hx => h.valid x (by rw [hr]; exact List.mem_append_right _ hx)
        have := transform_drop h c.1 ((core'.map fun c => (c.1, true)) ++ trail2.map fun c => (c.1, false))
          (by rw [hr]; simp; omega) (hmem c (by simp)) (by
            intro p hp
            rcases List.mem_append.1 hp with hp | hp <;> obtain ⟨x, hx, rfl⟩ := List.mem_map.1 hp
            · exact hmem x (by simp [hx])
            · exact hmem x (by simp [hx]))
        exact this
    · exact absurd h1 hcore0

/-! ## When they panic -/

theorem misread_none_iff (als : List Align) (o : Nat) (R : List Rune) (l : List (Rune × Bool)) :
    misread als o R l = none
      ↔ ∃ i r, l[i]? = some (r, true) ∧ als.length ≤ o + (encodeRunes (R.take i)).length := by
  induction l generalizing o R with
  | nil => simp [misread]
  | cons p l ih =>
    obtain ⟨r, k⟩ := p
    have hstep : (misread als (o + (encodeRunes (R.take 1)).length) (R.drop 1) l = none)
        ↔ ∃ i r', ((r, k) :: l)[i + 1]? = some (r', true) ∧ als.length ≤ o + (encodeRunes (R.take (i + 1))).length := by
      rw [ih]
      constructor <;> rintro ⟨i, r', h1, h2⟩ <;> refine ⟨i, r', by simpa using h1, ?_⟩ <;>
      · have : R.take (i + 1) = R.take 1 ++ (R.drop 1).take i := by cases R <;> simp
        have h3 := congrArg (fun x => (encodeRunes x).length) this
        simp only [encodeRunes_append, List.length_append] at h3
        omega
    have hsplit : (∃ i r', ((r, k) :: l)[i]? = some (r', true) ∧ als.length ≤ o + (encodeRunes (R.take i)).length)
        ↔ (k = true ∧ als.length ≤ o)
          ∨ ∃ i r', ((r, k) :: l)[i + 1]? = some (r', true) ∧ als.length ≤ o + (encodeRunes (R.take (i + 1))).length := by
      constructor
      · rintro ⟨i, r', h1, h2⟩
        cases i with
        | zero =>
          left
          simp only [List.getElem?_cons_zero, Option.some.injEq, Prod.mk.injEq] at h1
          exact ⟨h1.2, by simpa using h2⟩
        | succ i => exact .inr ⟨i, r', h1, h2⟩
      · rintro (⟨h1, h2⟩ | ⟨i, r', h1, h2⟩)
        · exact ⟨0, r, by simp [h1], by simpa using h2⟩
        · exact ⟨i + 1, r', h1, h2⟩
    rw [hsplit, ← hstep]
    simp only [misread]
    cases misread als (o + (encodeRunes (R.take 1)).length) (R.drop 1) l with
    | none => simp
    | some out =>
      cases k with
      | false => simp
      | true =>
        cases ha : als[o]? with
        | none => simpa using ha
        | some a => simpa using (List.getElem?_eq_some_iff.1 ha).1

/-- **C06, panics.** `Filter` panics exactly when the position it reaches for some kept character is
past the text: the characters dropped in front, counted by one byte each, and after them what the
code sees. -/
theorem C06_panics {ns : NS} {cs : List Ch} (h : Repr ns cs) (keep : Rune → Bool) :
    ns.filter keep = .panic
      ↔ ∃ i c, (cs.dropWhile fun c => !keep c.1)[i]? = some c ∧ keep c.1 = true
        ∧ (text cs).length ≤ (cs.takeWhile fun c => !keep c.1).length
            + (encodeRunes ((seenRunes (cs.takeWhile fun c => !keep c.1) (cs.dropWhile fun c => !keep c.1)).take i)).length := by
  have hmi := misread_none_iff (aligns cs) (cs.takeWhile fun c => !keep c.1).length
    (seenRunes (cs.takeWhile fun c => !keep c.1) (cs.dropWhile fun c => !keep c.1))
    ((cs.dropWhile fun c => !keep c.1).map fun c => (c.1, keep c.1))
  have hp : ns.filter keep = .panic ↔ filterActual keep cs = none := by
    have := C06_actual h keep
    cases hf : filterActual keep cs with
    | none => rw [hf] at this; simpa using this
    | some out =>
      rw [hf] at this
      obtain ⟨ns', e, -⟩ := this
      simp [e]
  rw [hp, filterActual, hmi]
  constructor
  · rintro ⟨i, r, h1, h2⟩
    rw [List.getElem?_map, Option.map_eq_some_iff] at h1
    obtain ⟨c, h1, h3⟩ := h1
    refine ⟨i, c, h1, (Prod.mk.inj h3).2, ?_⟩
    rwa [← aligns_length]
  · rintro ⟨i, c, h1, h2, h3⟩
    exact ⟨i, c.1, by rw [List.getElem?_map, h1, Option.map_some, h2], by rwa [aligns_length]⟩

/-- What is dropped in front can make it panic; what is dropped later cannot. -/
theorem C06_no_panic {ns : NS} {cs : List Ch} (h : Repr ns cs) (keep : Rune → Bool) (c : Ch) (rest : List Ch)
    (hc : cs = c :: rest) (hk : keep c.1 = true) : ns.filter keep ≠ .panic := by
  subst hc
  obtain ⟨ns', e, -⟩ := C06_filter_partial h keep (.inr (by simp [hk, AsciiChars]))
  simp [e]

/-! ## BertNormalizer -/

/-- The four steps, the two that remove characters done as the code does them. -/
def bertActual (u : Uni) (c : BertCfg) (cs : List Ch) : Option (List Ch) :=
  match (if c.textCleaning then filterActual (fun r => !bertDropped u r) cs else some cs) with
  | none => none
  | some cs =>
    match (if c.accentsStripping then filterActual (fun r => !u.isMn r) (bertSpaces c cs) else some (bertSpaces c cs)) with
    | none => none
    | some cs => some (bertLower u c cs)

/-- **C34, what BertNormalizer does.** For every valid state and every setting of the flags: the
outcome is `bertActual`. -/
theorem C34_actual {ns : NS} {cs : List Ch} (h : Repr ns cs) (u : Uni) (c : BertCfg) :
    match bertActual u c cs with
    | none => bertNormalize u c ns = .panic
    | some out => ∃ ns', bertNormalize u c ns = .ok (ns', none) ∧ Repr ns' out
        ∧ ns'.original = ns.original ∧ ns'.originalShift = ns.originalShift := by
  unfold bertActual
  have hclean : match (if c.textCleaning then filterActual (fun r => !bertDropped u r) cs else some cs) with
      | none => (if c.textCleaning = true then cleanText u ns else pure ns) = .panic
      | some cs => ∃ n1, (if c.textCleaning = true then cleanText u ns else pure ns) = .ok n1
          ∧ Repr n1 (if c.textCleaning then cs.map fun x => (if isWhiteSpace x.1 then 0x20 else x.1, x.2) else cs)
          ∧ n1.original = ns.original ∧ n1.originalShift = ns.originalShift := by
    by_cases ht : c.textCleaning = true
    · simp only [ht, if_true, cleanText]
      have := C06_actual h (cleanKeep u)
      rw [show cleanKeep u = fun r => !bertDropped u r from funext (cleanKeep_eq u)] at this ⊢
      cases hf : filterActual (fun r => !bertDropped u r) cs with
      | none => rw [hf] at this; simp only at this ⊢; rw [this]; rfl
      | some out =>
        rw [hf] at this
        obtain ⟨m1, x1, x2, x3, x4⟩ := this
        obtain ⟨m2, y1, y2, y3, y4⟩ := spaces_step x2
        exact ⟨m2, by simp [x1, y1], y2, by rw [y3, x3], by rw [y4, x4]⟩
    · simp only [ht]
      exact ⟨ns, rfl, h, rfl, rfl⟩
  simp only [bertNormalize]
  cases h1 : (if c.textCleaning then filterActual (fun r => !bertDropped u r) cs else some cs) with
  | none =>
    rw [h1] at hclean
    simp only at hclean ⊢
    rw [ite_bind, hclean, GoM.bind_panic]
  | some cs1 =>
    rw [h1] at hclean
    obtain ⟨n1, a1, a2, a3, a4⟩ := hclean
    obtain ⟨n2, b1, b2, b3, b4⟩ : ∃ n2, (if c.chineseCharsHandling = true then handleChineseChars n1 else pure n1)
        = .ok n2 ∧ Repr n2 (bertSpaces c cs1)
        ∧ n2.original = ns.original ∧ n2.originalShift = ns.originalShift := by
      unfold bertSpaces
      simp only
      by_cases hc : c.chineseCharsHandling = true
      · obtain ⟨m, x1, x2, x3, x4⟩ := handleChineseChars_spec a2
        rw [if_pos hc, if_pos hc]
        exact ⟨m, x1, x2, by rw [x3, a3], by rw [x4, a4]⟩
      · rw [if_neg hc, if_neg hc]
        exact ⟨n1, rfl, a2, a3, a4⟩
    have hacc : match (if c.accentsStripping then filterActual (fun r => !u.isMn r) (bertSpaces c cs1) else some (bertSpaces c cs1)) with
        | none => (if c.accentsStripping = true then stripAccents u n2 else pure n2) = .panic
        | some cs2 => ∃ n3, (if c.accentsStripping = true then stripAccents u n2 else pure n2) = .ok n3
            ∧ Repr n3 cs2 ∧ n3.original = ns.original ∧ n3.originalShift = ns.originalShift := by
      by_cases ht : c.accentsStripping = true
      · simp only [ht, if_true, stripAccents]
        have := C06_actual b2 (fun r => !u.isMn r)
        cases hf : filterActual (fun r => !u.isMn r) (bertSpaces c cs1) with
        | none => rw [hf] at this; exact this
        | some out =>
          rw [hf] at this
          obtain ⟨m1, x1, x2, x3, x4⟩ := this
          exact ⟨m1, x1, x2, by rw [x3, b3], by rw [x4, b4]⟩
      · simp only [ht]
        exact ⟨n2, rfl, b2, b3, b4⟩
    simp only
    rw [ite_bind, a1, GoM.bind_ok, ite_bind, b1, GoM.bind_ok]
    cases h2 : (if c.accentsStripping then filterActual (fun r => !u.isMn r) (bertSpaces c cs1) else some (bertSpaces c cs1)) with
    | none =>
      rw [h2] at hacc
      simp only at hacc ⊢
      rw [ite_bind, hacc, GoM.bind_panic]
    | some cs2 =>
      rw [h2] at hacc
      obtain ⟨n3, d1, d2, d3, d4⟩ := hacc
      simp only
      rw [ite_bind, d1, GoM.bind_ok, ite_bind]
      unfold bertLower
      by_cases hc : c.lowerCaseEnabled = true
      · obtain ⟨m, x1, x2, x3, x4⟩ := C05_toLower d2 u.toLower
        rw [if_pos hc, if_pos hc]
        exact ⟨m, by rw [x1]; rfl, x2, by rw [x3, d3], by rw [x4, d4]⟩
      · rw [if_neg hc, if_neg hc]
        exact ⟨n3, rfl, d2, d3, d4⟩

/-! ## Append -/

/-- The changes that insert: after the first, each takes the alignment before the position. -/
theorem appended_loop (als : List Align) (rs : List Rune) (o : Nat) (ho : 1 ≤ o) (R : List Rune) (A : List Align) (out : Str) :
    goFor (rs.map fun r => (⟨r, 1⟩ : RuneChange)) ⟨o, R, A, out⟩ (transformStep als)
      = match rs, als[o - 1]? with
        | [], _ => .ok ⟨o, R, A, out⟩
        | _ :: _, none => .panic
        | _ :: _, some a => .ok ⟨o, R, A ++ List.replicate (encodeRunes rs).length a, out ++ encodeRunes rs⟩ := by
  have hstep (r : Rune) (A : List Align) (out : Str) : transformStep als ⟨o, R, A, out⟩ ⟨r, 1⟩
      = match als[o - 1]? with
        | none => .panic
        | some a => .ok ⟨o, R, A ++ List.replicate (encodeRune r).length a, out ++ encodeRune r⟩ := by
    have h1 : ¬ ((o : Int) < 1) := by omega
    have hi : goIndex als ((o : Int) - 1) = match als[o - 1]? with | some a => .ok a | none => .panic := by
      unfold goIndex
      rw [if_pos (by omega), show ((o : Int) - 1).toNat = o - 1 by omega]
      cases als[o - 1]? <;> rfl
    unfold transformStep
    simp only [ge_iff_le, Int.le_refl, if_true, h1, if_false, hi]
    cases als[o - 1]? <;> simp
  cases ha : als[o - 1]? with
  | none =>
    cases rs with
    | nil => simp
    | cons r rs => rw [List.map_cons, goFor_cons, hstep, ha]; rfl
  | some a =>
    have hall (A : List Align) (out : Str) : goFor (rs.map fun r => (⟨r, 1⟩ : RuneChange)) ⟨o, R, A, out⟩ (transformStep als)
        = .ok ⟨o, R, A ++ List.replicate (encodeRunes rs).length a, out ++ encodeRunes rs⟩ := by
      induction rs generalizing A out with
      | nil => simp
      | cons r rs ih =>
        rw [List.map_cons, goFor_cons, hstep, ha]
        simp only [GoM.bind_ok]
        rw [ih]
        simp [List.replicate_append_replicate]
    rw [hall]
    cases rs with
    | nil => simp
    | cons r rs => rfl

/-- **C09, what Append does.** For every valid non-empty state of characters `cs` and a last one `c`,
and every valid text: the number `n` of characters in `cs` is taken for the position of `c`.  The text
is cut there, and `c` and the new text follow.  The alignment of `c` is the one at `n`; that of the new
text is the last one of the rune seen at `n`, and `Append` panics if that is past the end. -/
theorem C09_actual {ns : NS} {c : Ch} {cs : List Ch} (h : Repr ns (cs ++ [c])) {s : Str} (hs : ValidUtf8 s) :
    ∃ a seen, ns.alignments[cs.length]? = some a ∧ (seenRunes cs [c])[0]? = some seen
      ∧ ns.append s
        = if s = [] then
            .ok { ns with normalized := ns.normalized.take cs.length ++ encodeRune c.1
                          alignments := ns.alignments.take cs.length ++ List.replicate (encodeRune c.1).length a }
          else match ns.alignments[cs.length + (encodeRune seen).length - 1]? with
          | none => .panic
          | some b =>
            .ok { ns with normalized := ns.normalized.take cs.length ++ encodeRune c.1 ++ s
                          alignments := ns.alignments.take cs.length ++ List.replicate (encodeRune c.1).length a
                            ++ List.replicate s.length b } := by
  have hlen : ns.normalized.length = (text cs).length + (encodeRune c.1).length := by rw [h.text_eq]; simp
  have hpos := encodeRune_length_pos c.1
  have hle : cs.length ≤ (text cs).length := length_le_text cs
  have hal := h.len_eq
  have hn : ns.normalized.length ≠ 0 := by omega
  have hi : ((runesOf ns.normalized).length : Int) - 1 = (cs.length : Int) := by rw [h.runes]; simp
  have hf : goIndex (runesOf ns.normalized) (((runesOf ns.normalized).length : Int) - 1) = .ok c.1 := by
    rw [hi, h.runes, List.map_append]
    exact goIndex_mid _ _ _ (by simp)
  rw [hi] at hf
  obtain ⟨seen, R, hR⟩ : ∃ seen R, seenRunes cs [c] = seen :: R := by
    have : seenRunes cs [c] ≠ [] := by simp [seenRunes]
    exact List.exists_cons_of_ne_nil this
  obtain ⟨a, ha⟩ : ∃ a, ns.alignments[cs.length]? = some a := ⟨_, List.getElem?_eq_getElem (by omega)⟩
  refine ⟨a, seen, ha, by rw [hR]; rfl, ?_⟩
  have e1 : goSlice ns.normalized (cs.length : Int) ns.len = .ok (ns.normalized.drop cs.length) := by
    rw [goSlice_of (by omega) (by simp [NS.len]; omega) (by simp [NS.len])]
    rw [List.take_of_length_le (by simp [NS.len])]; simp
  have e2 : goSlice (ns.normalized.drop cs.length) 0 0 = .ok [] := by
    rw [goSlice_of (by omega) (by omega) (by omega)]; simp
  have e3 : goSlice (ns.normalized.drop cs.length) 0 ((ns.normalized.drop cs.length).length : Int) = .ok (ns.normalized.drop cs.length) := by
    rw [goSlice_of (by omega) (by omega) (by omega), List.take_of_length_le (by simp)]; simp
  have e4 : goSlice ns.alignments 0 (cs.length : Int) = .ok (ns.alignments.take cs.length) := by
    rw [goSlice_of (by omega) (by omega) (by omega)]; simp
  have e5 : goSlice ns.alignments ns.len (ns.alignments.length : Int) = .ok [] := by
    rw [goSlice_of (by simp [NS.len]) (by simp [NS.len]; omega) (by omega)]
    simp [NS.len]; omega
  have e6 : goSlice ns.normalized 0 (cs.length : Int) = .ok (ns.normalized.take cs.length) := by
    rw [goSlice_of (by omega) (by omega) (by omega)]; simp
  have e7 : goSlice ns.normalized ns.len (ns.normalized.length : Int) = .ok [] := by
    rw [goSlice_of (by simp [NS.len]) (by simp [NS.len]) (by omega)]
    simp [NS.len]
  have e8 : runesOf (ns.normalized.drop cs.length) = seen :: R := by
    rw [h.text_eq, (seenRunes_spec h.valid).1, hR]
  unfold NS.append
  simp only [hn, if_false, hi, hf, GoM.bind_ok, NS.transformRange, NS.coerceRangeToNormalized, NS.transformNormalized, e1, e2,
    e3, e8, List.length_nil, goFor_cons]
  have hst := step_keep ns.alignments cs.length (seen :: R) c.1 0 [] [] (by simp)
  rw [ha] at hst
  simp only [Int.natCast_zero, Int.neg_zero, List.take_succ_cons, List.take_zero, encodeRunes_cons, encodeRunes_nil,
    List.append_nil, List.nil_append, Nat.zero_add, List.drop_succ_cons, List.drop_zero] at hst
  rw [show (((0 : Nat) : Int) + (cs.length : Int)) = (cs.length : Int) by omega, hst]
  have hseen := encodeRune_length_pos seen
  simp only [GoM.bind_ok]
  rw [appended_loop _ _ _ (by omega)]
  have hrs : encodeRunes (runesOf s) = s := hs.runes
  cases s with
  | nil => simp [runesOf, rangeStr, rangeAux, e4, e5, e6, e7]
  | cons b s =>
    cases hrb : runesOf (b :: s) with
    | nil => rw [hrb] at hrs; simp at hrs
    | cons r rs =>
      rw [hrb] at hrs
      simp only [hrs, List.cons_ne_nil, if_false]
      cases ns.alignments[cs.length + (encodeRune seen).length - 1]? with
      | none => rfl
      | some d => simp [e4, e5, e6, e7]

/-! ## Examples -/

/-- "éa" without "é": the alignment is that of "é". -/
example : filterActual (fun r => r != u!"é") [(u!"é", ⟨0, 2⟩), (u!"a", ⟨2, 3⟩)] = some [(u!"a", ⟨0, 2⟩)]
    ∧ (NS.fromString b!"éa").filter (fun r => r != u!"é") = .ok ⟨b!"éa", b!"a", [⟨0, 2⟩], 0⟩ := by decide +kernel

/-- "éab" without "é": U+FFFD, of three bytes, is taken for "a", and there is nothing at the position of "b". -/
example : seenRunes [(u!"é", ⟨0, 2⟩)] [(u!"a", ⟨2, 3⟩), (u!"b", ⟨3, 4⟩)] = [runeError, u!"a", u!"b"]
    ∧ filterActual (fun r => r != u!"é") [(u!"é", ⟨0, 2⟩), (u!"a", ⟨2, 3⟩), (u!"b", ⟨3, 4⟩)] = none
    ∧ (NS.fromString b!"éab").filter (fun r => r != u!"é") = .panic := by decide +kernel

/-- Two of them, and then ASCII: no panic, as the second is taken for one of the letters. -/
example : filterActual (fun r => r != u!"é") [(u!"é", ⟨0, 2⟩), (u!"é", ⟨2, 4⟩), (u!"a", ⟨4, 5⟩), (u!"b", ⟨5, 6⟩)]
      = some [(u!"a", ⟨2, 4⟩), (u!"b", ⟨4, 5⟩)] := by decide +kernel

/-- U+3000 before and after. -/
example : trimActual true true [(0x3000, ⟨0, 3⟩), (u!"a", ⟨3, 4⟩), (0x3000, ⟨4, 7⟩)] = some [(u!"a", ⟨0, 3⟩)]
    ∧ trimActual true true [(0xA0, ⟨0, 2⟩), (u!"a", ⟨2, 3⟩), (u!"b", ⟨3, 4⟩)] = none
    ∧ trimActual true true [(u!" ", ⟨0, 1⟩), (u!"a", ⟨1, 2⟩), (0xA0, ⟨2, 4⟩)] = some [(u!"a", ⟨1, 2⟩)] := by decide +kernel

end Verif
