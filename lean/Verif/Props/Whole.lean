import Verif.Props.MetaSpace

/-! Properties C53 and C54: the text stays valid UTF-8 with whole-rune alignments over all
histories without `Append`, and the text after `Filter` and trimming. -/

set_option autoImplicit false

namespace Verif

/-- `ns` holds valid UTF-8 and the bytes of each rune share one alignment. -/
def Whole (ns : NS) : Prop := ∃ cs, Repr ns cs

/-! ## `TransformRange` -/

theorem transform_out {als : List Align} : ∀ (dest : List RuneChange) {st st' : TState},
    goFor dest st (transformStep als) = .ok st' → 0 ≤ st.offset →
    ∃ out, ValidChars out ∧ out.map (·.1) = dest.map (fun rc => sanitize rc.rune)
      ∧ st'.aligns = st.aligns ++ aligns out ∧ st'.out = st.out ++ text out := by
  intro dest
  induction dest with
  | nil => intro st st' h _; simp at h; subst h; exact ⟨[], by intro c hc; simp at hc, rfl, by simp, by simp⟩
  | cons rc dest ih =>
    intro st st' h h0
    rw [goFor_cons, GoM.bind_eq_ok] at h
    obtain ⟨s1, h1, h2⟩ := h
    obtain ⟨k, -, -, -, -, e0, -, e1, e2⟩ := transformStep_ok h1 h0
    obtain ⟨out, v, m, a1, a2⟩ := ih h2 (by omega)
    refine ⟨(sanitize rc.rune, pickAt als k) :: out, validChars_cons.2 ⟨sanitize_valid _, v⟩, by simp [m], ?_, ?_⟩
    · rw [a1, e1]; simp [List.append_assoc]
    · rw [a2, e2]; simp [List.append_assoc]

/-- Whatever the changes and the initial offset, if a transformation of whole characters does
not panic, they are replaced by the runes of the changes, each uniformly aligned. -/
theorem transformNormalized_whole {ns ns' : NS} {pre mid post : List Ch} (h : Repr ns (pre ++ mid ++ post))
    {dest : List RuneChange} {io : Int}
    (ht : ns.transformNormalized (text pre).length (text (pre ++ mid)).length dest io = .ok ns') :
    ∃ out, Repr ns' (pre ++ out ++ post) ∧ out.map (·.1) = dest.map (fun rc => sanitize rc.rune) := by
  have hv := h.valid
  have hn : ns.normalized = text pre ++ text mid ++ text post := by rw [h.text_eq]; simp
  have hal : ns.alignments = aligns pre ++ aligns mid ++ aligns post := by rw [h.aligns_eq]; simp
  have e4 : goSlice ns.alignments 0 ((text pre).length : Int) = .ok (aligns pre) := by
    rw [hal, List.append_assoc]; exact goSlice_prefix _ _ (by simp)
  have e5 : goSlice ns.alignments ((text (pre ++ mid)).length : Int) (ns.alignments.length : Int)
      = .ok (aligns post) := by
    rw [hal]; apply goSlice_suffix
    · simp
    · simp; omega
  have e6 : goSlice ns.normalized 0 ((text pre).length : Int) = .ok (text pre) := by
    rw [hn, List.append_assoc]; exact goSlice_prefix _ _ rfl
  have e7 : goSlice ns.normalized ((text (pre ++ mid)).length : Int) (ns.normalized.length : Int)
      = .ok (text post) := by
    rw [hn]; apply goSlice_suffix
    · simp
    · simp; omega
  simp only [NS.transformNormalized, GoM.bind_eq_ok, e4, e5, e6, e7] at ht
  obtain ⟨x1, -, x2, -, x3, -, st, hl, y1, hy1, y2, hy2, y3, hy3, y4, hy4, he⟩ := ht
  simp at hy1 hy2 hy3 hy4 he
  subst hy1; subst hy2; subst hy3; subst hy4; subst he
  obtain ⟨out, v, m, a1, a2⟩ := transform_out dest hl (by simp only; omega)
  simp at a1 a2
  refine ⟨out, ⟨by simp [a2], by simp [a1], ?_⟩, m⟩
  rw [validChars_append, validChars_append] at hv ⊢
  exact ⟨⟨hv.1.1, v⟩, hv.2⟩

theorem transform_whole {ns ns' : NS} {cs : List Ch} (h : Repr ns cs) {dest : List RuneChange} {io : Int}
    (ht : ns.transform dest io = .ok ns') :
    ∃ out, Repr ns' out ∧ out.map (·.1) = dest.map (fun rc => sanitize rc.rune) := by
  have ht' : ns.transformNormalized (text ([] : List Ch)).length (text ([] ++ cs)).length dest io = .ok ns' := by
    have e : ((text ([] ++ cs)).length : Int) = ns.len := by simp [NS.len, h.text_eq]
    rw [e]
    exact ht
  obtain ⟨out, h1, h2⟩ := transformNormalized_whole (pre := []) (mid := cs) (post := []) (by simpa using h) ht'
  exact ⟨out, by simpa using h1, h2⟩

/-! ## Text of `Filter` and trimming -/

theorem filterGo_runes (keep : Rune → Bool) : ∀ (rs : List Rune) (lr : Rune) (n : Nat),
    (filterGo keep lr n rs).map (·.rune) = lr :: rs.filter keep := by
  intro rs
  induction rs with
  | nil => intro lr n; simp [filterGo]
  | cons r rs ih =>
    intro lr n
    simp only [filterGo]
    split
    · rename_i hk; simp [ih, hk]
    · rename_i hk; simp [ih, hk]

/-- **C54, Filter.** Whatever is dropped: if `Filter` does not panic, the text is exactly the
kept runes (only the alignments can be wrong, `C06_counterexample_align`). -/
theorem C54_filter_text {ns ns' : NS} {cs : List Ch} (h : Repr ns cs) {keep : Rune → Bool}
    (hf : ns.filter keep = .ok ns') :
    ns'.get = encodeRunes ((runesOf ns.get).filter keep) := by
  have hru : runesOf ns.get = cs.map (·.1) := h.runes
  have hvc : ∀ r ∈ cs.map (·.1), ValidRune r := by
    intro r hr
    obtain ⟨c, hc, rfl⟩ := List.mem_map.1 hr
    exact h.valid c hc
  rw [hru]
  unfold NS.filter at hf
  rw [h.runes] at hf
  have hcs : (NS.filterChanges keep (cs.map (·.1))).1.map (·.rune) = (cs.map (·.1)).filter keep := by
    rcases split_first_kept (fun c => keep c.1) cs with hn | ⟨lead, c, rest, he, h1, h2, -⟩
    · have hn' : ∀ r ∈ cs.map (·.1), keep r = false := by
        intro r hr
        obtain ⟨c, hc, rfl⟩ := List.mem_map.1 hr
        exact hn c hc
      rw [filterChanges_none keep _ hn']
      symm
      simp only [List.map_nil]
      apply List.filter_eq_nil_iff.2
      intro r hr; simp [hn' r hr]
    · have h1' : ∀ r ∈ lead.map (·.1), keep r = false := by
        intro r hr
        obtain ⟨c, hc, rfl⟩ := List.mem_map.1 hr
        exact h1 c hc
      rw [he, List.map_append, List.map_cons, filterChanges_eq keep _ c.1 _ h1' h2, filterGo_runes,
        List.filter_append, List.filter_cons, if_pos h2]
      have : (lead.map (·.1)).filter keep = [] := by
        apply List.filter_eq_nil_iff.2
        intro x hx; simp [h1' x hx]
      rw [this]; rfl
  obtain ⟨out, k1, k2⟩ := transform_whole h hf
  show ns'.normalized = _
  rw [k1.text_eq, text, k2, ← hcs, ← encodeRunes_sanitize ((NS.filterChanges keep (cs.map (·.1))).1.map (·.rune)),
    List.map_map]
  rfl

/-- **C54, trimming.** If `TrimLeftRight` does not panic, the text is the text without its
outer white space. -/
theorem C54_trim_text {ns ns' : NS} {cs : List Ch} (h : Repr ns cs) {left right : Bool}
    (hf : ns.trimLeftRight left right = .ok ns') :
    ns'.get = text (trimSpec left right cs) := by
  unfold NS.trimLeftRight at hf
  rw [h.runes] at hf
  obtain ⟨lead, trail, hd⟩ := trim_decomp left right cs
  simp only at hd hf
  generalize (if left = true then countLeadingSpaces (cs.map (·.1)) else 0) = leading at hd hf
  generalize (if right = true ∧ leading < (cs.map (·.1)).length then
      countTrailingSpaces (cs.map (·.1)) else 0) = trailing at hd hf
  split at hf
  · rename_i hz
    simp at hf; subst hf
    show ns.normalized = _
    rw [h.text_eq]
    rcases hd with ⟨h1, h2, h3⟩ | ⟨h1, h2, h3⟩
    · have hl0 : lead = [] := by apply List.length_eq_zero_iff.1; omega
      have ht0 : trail = [] := by apply List.length_eq_zero_iff.1; omega
      rw [hl0, ht0] at h1
      conv => lhs; rw [h1]
      simp
    · have : cs = [] := by apply List.length_eq_zero_iff.1; omega
      rw [h1, this]
  · obtain ⟨out, k1, k2⟩ := transform_whole h hf
    show ns'.normalized = _
    rw [k1.text_eq]
    unfold text
    rw [k2]
    have hvc : ∀ r ∈ cs.map (·.1), ValidRune r := by
      intro r hr
      obtain ⟨c, hc, rfl⟩ := List.mem_map.1 hr
      exact h.valid c hc
    have e : (NS.trimChanges (cs.map (·.1)) leading trailing).map (fun rc => sanitize rc.rune)
        = (((cs.map (·.1)).drop leading).take ((cs.map (·.1)).length - trailing - leading)).map sanitize := by
      unfold NS.trimChanges
      simp only
      generalize ((cs.map (·.1)).drop leading).take ((cs.map (·.1)).length - trailing - leading) = kept
      apply List.ext_getElem
      · simp
      · intro i h1 h2; simp
    rw [e, encodeRunes_sanitize]
    congr 1
    rcases hd with ⟨h1, h2, h3⟩ | ⟨h1, h2, h3⟩
    · conv => lhs; rw [h1]
      simp only [List.map_append, List.append_assoc]
      rw [List.drop_left' (by simp [h2])]
      apply List.take_left'
      simp
      omega
    · rw [h1, h2]
      simp

/-! ## `Slice` -/

theorem takeWhile_aligns (p : Align → Bool) : ∀ cs : List Ch,
    (aligns cs).takeWhile p = aligns (cs.takeWhile fun c => p c.2) := by
  intro cs
  induction cs with
  | nil => rfl
  | cons c cs ih =>
    rw [aligns_cons, List.takeWhile_cons]
    have hp := runeLen_pos c.1
    cases hc : p c.2 with
    | true =>
      rw [List.takeWhile_append_of_pos (by
        intro x hx
        rw [List.mem_replicate] at hx
        rw [hx.2, hc]), ih]
      simp
    | false =>
      obtain ⟨n, hn⟩ : ∃ n, runeLen c.1 = n + 1 := ⟨runeLen c.1 - 1, by omega⟩
      rw [hn, List.replicate_succ, List.cons_append, List.takeWhile_cons]
      simp [hc]

theorem findIdx_aligns (p : Align → Bool) : ∀ (cs : List Ch) (j : Nat), (aligns cs).findIdx? p = some j →
    ∃ pre post, cs = pre ++ post ∧ j = (text pre).length := by
  intro cs
  induction cs with
  | nil => intro j h; simp at h
  | cons c cs ih =>
    intro j h
    rw [aligns_cons] at h
    have hp := runeLen_pos c.1
    cases hc : p c.2 with
    | true =>
      obtain ⟨n, hn⟩ : ∃ n, runeLen c.1 = n + 1 := ⟨runeLen c.1 - 1, by omega⟩
      rw [hn, List.replicate_succ, List.cons_append, List.findIdx?_cons] at h
      simp [hc] at h; subst h
      exact ⟨[], c :: cs, rfl, rfl⟩
    | false =>
      have hrep : (List.replicate (runeLen c.1) c.2).findIdx? p = none := by
        rw [List.findIdx?_eq_none_iff]
        intro x hx
        rw [List.mem_replicate] at hx
        rw [hx.2, hc]
      rw [List.findIdx?_append, hrep] at h
      simp only [Option.none_or, Option.map_eq_some_iff] at h
      obtain ⟨k, hk, rfl⟩ := h
      obtain ⟨pre, post, e1, e2⟩ := ih k hk
      refine ⟨c :: pre, post, by rw [e1]; rfl, ?_⟩
      simp [e2, runeLen]
      omega

/-- On a valid state the conversion of any original range to a normalized one is empty or on
whole characters. -/
theorem coerce_whole {ns : NS} {cs : List Ch} (h : Repr ns cs) {s e a b : Int}
    (hc : ns.coerceRangeToNormalized (.original s e) = some (a, b)) :
    a = b ∨ ∃ pre mid post, cs = pre ++ mid ++ post ∧ a = ((text pre).length : Int)
      ∧ b = ((text (pre ++ mid)).length : Int) := by
  by_cases hlt : s < e
  · rw [coerceRangeToNormalized_original hlt, h.aligns_eq, takeWhile_aligns] at hc
    obtain ⟨post, hpost⟩ : ∃ post, cs = (cs.takeWhile fun c => decide (c.2.stop ≤ e)) ++ post :=
      ⟨_, (List.takeWhile_append_dropWhile).symm⟩
    generalize (cs.takeWhile fun c => decide (c.2.stop ≤ e)) = tw at *
    simp only at hc
    split at hc
    · simp at hc
    · split at hc
      · rename_i j hj
        simp only [Option.some.injEq, Prod.mk.injEq] at hc
        obtain ⟨rfl, rfl⟩ := hc
        obtain ⟨p, q, e1, e2⟩ := findIdx_aligns _ _ _ hj
        right
        exact ⟨p, q, post, by rw [hpost, e1], by rw [e2], by rw [e1]; simp⟩
      · simp only [Option.some.injEq, Prod.mk.injEq] at hc
        left; omega
  · have := coerceRangeToNormalized_original_le hc
    have hse : e - s = 0 := by omega
    simp only [NS.coerceRangeToNormalized, hse, if_true, Option.some.injEq, Prod.mk.injEq] at hc
    left; omega

/-- A slice of a valid state is a valid state: a run of its characters, with the alignments
shifted by a constant. -/
theorem slice_whole {ns p : NS} {cs : List Ch} (h : Repr ns cs) {r : Rng} (hs : ns.slice r = .ok (some p)) :
    ∃ pre mid post k, cs = pre ++ mid ++ post
      ∧ Repr p (mid.map fun c => (c.1, ⟨c.2.start - k, c.2.stop - k⟩)) := by
  obtain ⟨hval, na, nb, oa, ob, als, h1, -, -, h4, h5, h6, -⟩ := slice_ok hs
  have key : na = nb ∨ ∃ pre mid post, cs = pre ++ mid ++ post ∧ na = ((text pre).length : Int)
      ∧ nb = ((text (pre ++ mid)).length : Int) := by
    cases r with
    | original s e => exact coerce_whole h h1
    | normalized s e =>
      right
      simp only [NS.coerceRangeToNormalized, Option.some.injEq, Prod.mk.injEq] at h1
      obtain ⟨rfl, rfl⟩ := h1
      simp only [NS.rangeIsValid, Rng.start, Rng.stop, Bool.and_eq_true] at hval
      have hvu := h.validUtf8
      have b1 := (C18_isRuneBoundary hvu _).1 hval.1
      have b2 := (C18_isRuneBoundary hvu _).1 hval.2
      rw [h.text_eq] at b1 b2
      obtain ⟨pre, mid, post, e1, e2, e3⟩ := chars_cut2 h.valid (by have := (goSlice_eq_ok.1 h4).1; omega) b1 b2
      exact ⟨pre, mid, post, e1, e2, by rw [e3]; simp⟩
  rcases key with rfl | ⟨pre, mid, post, rfl, rfl, rfl⟩
  · refine ⟨[], [], cs, 0, rfl, ?_⟩
    rw [goSlice_eq_ok] at h4 h5
    have e1 : p.normalized = [] := by rw [h4.2]; simp
    have e2 : als = [] := by rw [h5.2]; simp
    refine ⟨by rw [e1]; rfl, by rw [h6, e2]; rfl, by intro c hc; simp at hc⟩
  · refine ⟨pre, mid, post, oa, rfl, ?_⟩
    have hn : ns.normalized = text pre ++ text mid ++ text post := by rw [h.text_eq]; simp
    have hal : ns.alignments = aligns pre ++ aligns mid ++ aligns post := by rw [h.aligns_eq]; simp
    have e1 : goSlice ns.normalized ((text pre).length : Int) ((text (pre ++ mid)).length : Int) = .ok (text mid) := by
      rw [hn]; exact goSlice_mid _ _ _ rfl (by simp)
    have e2 : goSlice ns.alignments ((text pre).length : Int) ((text (pre ++ mid)).length : Int) = .ok (aligns mid) := by
      rw [hal]; exact goSlice_mid _ _ _ (by simp) (by simp)
    rw [e1] at h4
    rw [e2] at h5
    simp at h4 h5
    refine ⟨?_, ?_, ?_⟩
    · rw [← h4]; simp [text, Function.comp_def]
    · rw [h6, ← h5]
      unfold aligns
      rw [List.map_flatMap, List.flatMap_map]
      simp
    · intro c hc
      obtain ⟨d, hd, rfl⟩ := List.mem_map.1 hc
      exact h.valid d (by simp [hd])

/-! ## `Prepend` and `Replace` -/

theorem prepend_whole {ns ns' : NS} {cs : List Ch} (h : Repr ns cs) {s : Str} (hp : ns.prepend s = .ok ns') :
    Whole ns' := by
  cases cs with
  | nil =>
    rw [C08_prepend_empty (show ns.normalized = [] by rw [h.text_eq]; rfl)] at hp
    simp at hp; subst hp; exact ⟨[], h⟩
  | cons c cs =>
    have hn : ns.normalized.length ≠ 0 := by
      rw [h.text_eq]; simp [encodeRune_ne_nil]
    have hf : goIndex (runesOf ns.normalized) 0 = .ok c.1 := by
      rw [h.runes]; simp [goIndex]
    unfold NS.prepend at hp
    simp only [hn, if_false, hf, GoM.bind_ok] at hp
    obtain ⟨out, h1, -⟩ := transformNormalized_whole (ns := ns) (ns' := ns') (pre := []) (mid := [c]) (post := cs)
      (by simpa using h) (dest := NS.prependChanges s ++ [⟨c.1, 1⟩]) (io := 0) (by simpa [NS.transformRange,
        NS.coerceRangeToNormalized] using hp)
    exact ⟨_, h1⟩

/-- A pattern that, on valid text, gives captures that tile the text on rune boundaries. -/
def ProperPattern (p : SplitPattern) : Prop :=
  ∀ s caps, ValidUtf8 s → p s = .ok (.ok caps) → Tiles caps 0 s.length
    ∧ ∀ c ∈ caps, IsBoundary s c.offsets.start ∧ IsBoundary s c.offsets.stop

theorem chars_sub {cs : List Ch} (hv : ValidChars cs) {i j : Int} (hij : i ≤ j)
    (hi : IsBoundary (text cs) i) (hj : IsBoundary (text cs) j) :
    ∃ mid, ValidChars mid ∧ sub (text cs) i j = text mid ∧ sub (aligns cs) i j = aligns mid := by
  obtain ⟨pre, mid, post, rfl, rfl, rfl⟩ := chars_cut2 hv hij hi hj
  refine ⟨mid, fun c hc => hv c (by simp [hc]), ?_, ?_⟩
  · simp only [text_append]
    exact sub_mid _ _ _
  · simp only [aligns_append]
    have := sub_mid (aligns pre) (aligns mid) (aligns post)
    simpa using this

theorem aligns_const (x : Align) (rs : List Rune) :
    aligns (rs.map fun r => (r, x)) = List.replicate (encodeRunes rs).length x := by
  induction rs with
  | nil => rfl
  | cons r rs ih =>
    simp only [List.map_cons, aligns_cons, encodeRunes_cons, List.length_append, ih]
    rw [List.replicate_append_replicate]
    rfl

theorem replace_whole {ns ns' : NS} {cs : List Ch} (h : Repr ns cs) {p : SplitPattern} (hp : ProperPattern p)
    {content : Str} (hc : ValidUtf8 content) (hr : ns.replace p content = .ok (.ok ns')) : Whole ns' := by
  cases hpat : p ns.normalized with
  | panic => simp [NS.replace, hpat] at hr
  | ok r =>
    cases r with
    | error e => simp [NS.replace, hpat] at hr
    | ok caps =>
      obtain ⟨ht, hb⟩ := hp _ _ h.validUtf8 hpat
      obtain ⟨n2, parts, k1, k2, k3, k4, -⟩ := C10_replace h.len_eq hpat ht hc
      rw [k1] at hr
      simp at hr; subst hr
      have hle := ht.head_le
      rw [h.text_eq] at hb
      have : ∀ (caps : List Capture) (parts : List (Str × List Align)),
          All2 (ReplacePart ns content) caps parts →
          (∀ c ∈ caps, c.offsets.start ≤ c.offsets.stop ∧ IsBoundary (text cs) c.offsets.start
            ∧ IsBoundary (text cs) c.offsets.stop) →
          ∃ out, ValidChars out ∧ parts.flatMap (·.1) = text out ∧ parts.flatMap (·.2) = aligns out := by
        intro caps parts hall
        induction hall with
        | nil => intro _; exact ⟨[], by intro c hc; simp at hc, rfl, rfl⟩
        | @cons c part caps parts hd _ ih =>
          intro hok
          obtain ⟨out, v, t, a⟩ := ih (fun c hc => hok c (by simp [hc]))
          obtain ⟨hle, b1, b2⟩ := hok c (by simp)
          obtain ⟨mid, v', t', a'⟩ : ∃ mid, ValidChars mid ∧ part.1 = text mid ∧ part.2 = aligns mid := by
            unfold ReplacePart at hd
            split at hd
            · obtain ⟨e1, x, e2, -⟩ := hd
              obtain ⟨rs, hrs, rfl⟩ := hc
              refine ⟨rs.map fun r => (r, x), ?_, ?_, ?_⟩
              · intro c hc
                obtain ⟨r, hr, rfl⟩ := List.mem_map.1 hc
                exact hrs r hr
              · rw [e1]; simp [text, Function.comp_def]
              · rw [e2, aligns_const]
            · subst hd
              rw [h.text_eq, h.aligns_eq]
              exact chars_sub h.valid hle b1 b2
          refine ⟨mid ++ out, validChars_append.2 ⟨v', v⟩, ?_, ?_⟩
          · rw [List.flatMap_cons, t, t']; simp
          · rw [List.flatMap_cons, a, a']; simp
      obtain ⟨out, v, t, a⟩ := this caps parts k2 (fun c hc => ⟨(hle c hc).2.1, hb c hc⟩)
      exact ⟨out, by rw [k3, t], by rw [k4, a], v⟩

/-! ## Histories -/

/-- The calls covered: all but `Append`; `Replace` with a pattern that keeps its contract and
valid content. -/
def Op.Proper : Op → Prop
  | .append _ => False
  | .replace p content => ProperPattern p ∧ ValidUtf8 content
  | _ => True

theorem Op.run_whole {ns ns' : NS} {op : Op} (hop : op.Proper) (h : Whole ns) (hr : op.run ns = .ok ns') :
    Whole ns' := by
  obtain ⟨cs, h⟩ := h
  cases op with
  | transform dest io => obtain ⟨out, h1, -⟩ := transform_whole h hr; exact ⟨out, h1⟩
  | filter keep => obtain ⟨out, h1, -⟩ := transform_whole h hr; exact ⟨out, h1⟩
  | map f => obtain ⟨out, h1, -⟩ := transform_whole h hr; exact ⟨out, h1⟩
  | trim l r =>
    simp only [Op.run, NS.trimLeftRight] at hr
    generalize (if l = true then countLeadingSpaces (runesOf ns.normalized) else 0) = lead at hr
    generalize (if r = true ∧ lead < (runesOf ns.normalized).length then
      countTrailingSpaces (runesOf ns.normalized) else 0) = trail at hr
    split at hr
    · simp at hr; subst hr; exact ⟨cs, h⟩
    · obtain ⟨out, h1, -⟩ := transform_whole h hr; exact ⟨out, h1⟩
  | prepend s => exact prepend_whole h hr
  | append s => exact absurd hop (by simp [Op.Proper])
  | replace p content =>
    simp only [Op.run, GoM.bind_eq_ok] at hr
    obtain ⟨r, h1, hr⟩ := hr
    cases r with
    | error e => simp at hr; subst hr; exact ⟨cs, h⟩
    | ok n => simp at hr; subst hr; exact replace_whole h hop.1 hop.2 h1
  | slice r =>
    simp only [Op.run, GoM.bind_eq_ok] at hr
    obtain ⟨o, h1, hr⟩ := hr
    cases o with
    | none => simp at hr; subst hr; exact ⟨cs, h⟩
    | some n =>
      simp at hr; subst hr
      obtain ⟨pre, mid, post, k, -, h2⟩ := slice_whole h h1
      exact ⟨_, h2⟩

/-- **C53.** After any history of calls other than `Append` that does not panic, starting from
`FromString` of valid UTF-8 (with `Replace` used with contract-keeping patterns and valid
content), the text is valid UTF-8 and all bytes of a rune share one alignment. -/
theorem C53_whole_runes {s : Str} (hs : ValidUtf8 s) {ops : List Op} (hops : ∀ op ∈ ops, op.Proper) {ns : NS}
    (h : runOps (NS.fromString s) ops = .ok ns) : ValidUtf8 ns.get ∧ ∃ cs, Repr ns cs := by
  have : Whole ns := goFor_inv (P := Whole) ops _ _ _ ⟨_, fromString_repr hs⟩
    (fun s x s' hx h1 h2 => Op.run_whole (hops x hx) h1 h2) h
  obtain ⟨cs, hc⟩ := this
  exact ⟨hc.validUtf8, cs, hc⟩

/-- Patterns made from a rune predicate keep their contract. -/
theorem properPattern_func (f : Rune → Bool) : ProperPattern (fromFunc f) := by
  intro s caps hs hp
  obtain ⟨rs, hv, rfl⟩ := hs
  obtain ⟨caps', h1, h2, h3, h4⟩ := C20_func f rs hv
  rw [h1] at hp
  simp at hp; subst hp
  refine ⟨h2, ?_⟩
  by_cases h0 : rs = []
  · rw [h3 h0]
    subst h0
    have hb : IsBoundary (encodeRunes []) 0 := ⟨[], [], ⟨[], by simp, rfl⟩, ⟨[], by simp, rfl⟩, rfl, rfl⟩
    intro c hc
    simp at hc; subst hc
    exact ⟨hb, hb⟩
  · intro c hc
    exact ⟨((h4 h0).1 c hc).1, ((h4 h0).1 c hc).2.1⟩

/-- `Append` is rightly excluded: it can leave invalid UTF-8. -/
theorem C53_append_corrupts : ∃ ns, runOps (NS.fromString b!"éé") [.append b!"x"] = .ok ns
    ∧ ¬ ValidUtf8 ns.get :=
  ⟨_, rfl, by decide +kernel⟩

/-- So are invalid contents of `Replace`: it counts their bytes, but writes U+FFFD. -/
theorem C53_replace_corrupts : ∃ ns, runOps (NS.fromString b!"aéaé") [.replace (fromRune u!"a") [0xFF]] = .ok ns
    ∧ ¬ ValidUtf8 ns.get :=
  ⟨_, rfl, by decide +kernel⟩

example : runOps (NS.fromString b!"aé b") [.prepend b!"世", .filter (fun r => r != u!"é"), .replace (fromRune 32) b!"▁",
      .slice (.normalized 3 7)]
    = .ok ⟨b!"aé ", b!"a▁", [⟨0, 1⟩, ⟨3, 4⟩, ⟨3, 4⟩, ⟨3, 4⟩], 0⟩ := by decide +kernel

end Verif
