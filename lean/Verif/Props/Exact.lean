import Verif.Props.BertPipeline
import Verif.Props.Vocab

/-! For the properties that hold only in part: exactly when they hold (C06–C09, C11, C14, C22, C50). -/

set_option autoImplicit false

namespace Verif

theorem not_ascii_length {cs : List Ch} (hv : ValidChars cs) (h : ¬ AsciiChars cs) : cs.length < (text cs).length := by
  induction cs with
  | nil => exact absurd (by intro c hc; simp at hc) h
  | cons c cs ih =>
    have hl := length_le_text cs
    have h1 := encodeRune_length_pos c.1
    simp only [text, List.map_cons, encodeRunes_cons, List.length_append, List.length_cons] at hl ⊢
    by_cases hc : c.1 < 0x80
    · have := ih (validChars_cons.1 hv).2 (fun ha => h (by
        intro d hd
        rcases List.mem_cons.1 hd with rfl | hd
        · exact hc
        · exact ha d hd))
      simp only [text] at this
      omega
    · have : runeLen c.1 ≠ 1 := fun e => hc (runeLen_eq_one.1 e).2
      simp only [runeLen] at this
      omega

/-- A character that replaces takes the alignment found at the initial offset. -/
theorem transform_first {ns ns' : NS} {rc : RuneChange} {rest : List RuneChange} {io : Int} (hc : rc.change ≤ 0)
    (h : ns.transform (rc :: rest) io = .ok ns') :
    ∃ al, goIndex ns.alignments io = .ok al ∧ ns'.alignments[0]? = some al := by
  simp only [NS.transform, NS.transformRange, NS.coerceRangeToNormalized, NS.transformNormalized, GoM.bind_eq_ok] at h
  obtain ⟨x1, -, x2, h2, x3, -, st, hl, y1, hy1, y2, -, y3, -, y4, -, he⟩ := h
  obtain ⟨⟨a1, a2, a3⟩, e2⟩ := goSlice_eq_ok.1 h2
  have hlen : ((x2.length : Int) + 0) = io := by rw [e2]; simp; omega
  rw [goFor_cons, GoM.bind_eq_ok] at hl
  obtain ⟨s1, hs, hl⟩ := hl
  rw [hlen] at hs
  obtain ⟨al, hal⟩ : ∃ al, goIndex ns.alignments io = .ok al := by
    cases hg : goIndex ns.alignments io with
    | ok al => exact ⟨al, rfl⟩
    | panic => simp [transformStep, show ¬ rc.change ≥ 1 by omega, hg] at hs
  refine ⟨al, hal, ?_⟩
  have hs1 : s1.aligns = List.replicate (encodeRune rc.rune).length al ∧ 0 ≤ s1.offset := by
    have h0 : (0 : Int) ≤ io := by omega
    obtain ⟨-, -, -, -, -, e0, -, -, -⟩ := transformStep_ok hs h0
    refine ⟨?_, by simp only at e0; omega⟩
    simp only [transformStep, show ¬ rc.change ≥ 1 by omega, hal, if_false, GoM.bind_ok, hc, if_true] at hs
    by_cases h1 : rc.change ≤ -1
    · simp only [h1, if_true, GoM.bind_eq_ok] at hs
      obtain ⟨z1, -, z2, -, z3, -, e⟩ := hs
      simp at e
      obtain ⟨z4, -, e⟩ := e
      rw [← e]
    · simp only [h1, if_false, GoM.bind_eq_ok] at hs
      obtain ⟨z1, -, z2, -, e⟩ := hs
      simp at e
      rw [← e]
  obtain ⟨out, -, -, o1, -⟩ := transform_out rest hl hs1.2
  have hy : y1 = [] := by
    obtain ⟨-, e⟩ := goSlice_eq_ok.1 hy1
    rw [e]; simp
  simp at he
  subst he
  have := encodeRune_length_pos rc.rune
  simp only [hy, o1, hs1.1, List.nil_append]
  rw [List.append_assoc, List.getElem?_append_left (by rw [List.length_replicate]; omega), List.getElem?_replicate, if_pos (by omega)]

theorem mem_takeWhile_imp {α : Type} {p : α → Bool} {l : List α} {a : α} (h : a ∈ l.takeWhile p) : p a = true := by
  induction l with
  | nil => simp at h
  | cons x l ih =>
    by_cases hx : p x = true
    · rw [List.takeWhile_cons_of_pos hx] at h
      rcases List.mem_cons.1 h with rfl | h
      · exact hx
      · exact ih h
    · rw [List.takeWhile_cons_of_neg hx] at h
      simp at h

theorem aligns_first (c : Ch) (cs : List Ch) : (aligns (c :: cs))[0]? = some c.2 := by
  have := runeLen_pos c.1
  simp only [aligns, List.flatMap_cons]
  rw [List.getElem?_append_left (by simp; omega), List.getElem?_replicate]
  simp; omega

/-- Skipping too few bytes at the front gives the first kept character the alignment of a removed one. -/
theorem transform_first_wrong {ns ns' : NS} {lead cs out : List Ch} {c : Ch} (h : Repr ns (lead ++ cs)) {rc : RuneChange}
    {rest : List RuneChange} (hc : rc.change ≤ 0) (hna : ¬ AsciiChars lead) (hd : ∀ d ∈ lead, d.2 ≠ c.2)
    (ht : ns.transform (rc :: rest) lead.length = .ok ns') : ¬ Repr ns' (c :: out) := by
  intro hr
  obtain ⟨al, h1, h2⟩ := transform_first hc ht
  rw [hr.aligns_eq, aligns_first] at h2
  have hlt := not_ascii_length (validChars_append.1 h.valid).1 hna
  rw [h.aligns_eq, aligns_append] at h1
  have hi : lead.length < (aligns lead).length := by rw [aligns_length]; exact hlt
  unfold goIndex at h1
  rw [if_pos (by omega), Int.toNat_natCast, List.getElem?_append_left hi, List.getElem?_eq_getElem hi] at h1
  simp at h1 h2
  obtain ⟨d, hdm, e⟩ := mem_aligns.1 (List.getElem_mem hi)
  exact hd d hdm (by rw [e, h1, h2])

/-- **C06, exactly.** On a state whose characters have different alignments, such as a fresh input,
`Filter` does what it should if and only if it keeps nothing or all the characters it drops before
the first kept one are ASCII. -/
theorem C06_exact {ns : NS} {cs : List Ch} (h : Repr ns cs) (hd : cs.Pairwise fun a b => a.2 ≠ b.2) (keep : Rune → Bool) :
    (∃ ns', ns.filter keep = .ok ns' ∧ Repr ns' (cs.filter fun c => keep c.1))
      ↔ (∀ c ∈ cs, keep c.1 = false) ∨ AsciiChars (cs.takeWhile fun c => !keep c.1) := by
  constructor
  · rintro ⟨ns', h1, h2⟩
    rcases split_first_kept (fun c => keep c.1) cs with hn | ⟨lead, c, rest, rfl, k1, k2, k3⟩
    · exact Or.inl hn
    · right
      rw [← k3]
      apply Classical.byContradiction
      intro hna
      have hfc : NS.filterChanges keep ((lead ++ c :: rest).map (·.1))
          = (filterGo keep c.1 0 (rest.map (·.1)), lead.length) := by
        rw [List.map_append, List.map_cons, filterChanges_eq _ _ _ _ ?_ k2]
        · simp
        · intro r hr
          obtain ⟨c, hc, rfl⟩ := List.mem_map.1 hr
          exact k1 c hc
      unfold NS.filter at h1
      rw [h.runes] at h1
      simp only [hfc] at h1
      have hgo : ∀ (rs : List Rune) (lr : Rune) (n : Nat), ∃ rc rest, filterGo keep lr n rs = rc :: rest ∧ rc.change ≤ 0 := by
        intro rs
        induction rs with
        | nil => intro lr n; exact ⟨_, _, rfl, by simp only; omega⟩
        | cons r rs ih =>
          intro lr n
          by_cases hk : keep r = true
          · exact ⟨_, _, by rw [filterGo, if_pos hk], by simp only; omega⟩
          · rw [filterGo, if_neg hk]; exact ih lr (n + 1)
      obtain ⟨rc, rest', e, hc⟩ := hgo (rest.map (·.1)) c.1 0
      rw [e] at h1
      refine transform_first_wrong h hc hna (fun d hdm => (List.pairwise_append.1 hd).2.2 d hdm c (by simp)) h1 (out := rest.filter fun c => keep c.1) ?_
      have : ((lead ++ c :: rest).filter fun c => keep c.1) = c :: rest.filter fun c => keep c.1 := by
        rw [List.filter_append, List.filter_eq_nil_iff.2 (by intro x hx; simp [k1 x hx])]
        simp [k2]
      rwa [this] at h2
  · intro hl
    obtain ⟨ns', h1, h2, -⟩ := C06_filter_partial h keep hl
    exact ⟨ns', h1, h2⟩

/-- **C07, exactly.** On a state whose characters have different alignments, `TrimLeftRight` does what
it should if and only if the left side is not trimmed, there is only white space, or the white space
in front is ASCII. -/
theorem C07_exact {ns : NS} {cs : List Ch} (h : Repr ns cs) (hd : cs.Pairwise fun a b => a.2 ≠ b.2) (left right : Bool) :
    (∃ ns', ns.trimLeftRight left right = .ok ns' ∧ Repr ns' (trimSpec left right cs))
      ↔ left = false ∨ (∀ c ∈ cs, isWhiteSpace c.1 = true) ∨ AsciiChars (cs.takeWhile fun c => isWhiteSpace c.1) := by
  constructor
  · rintro ⟨ns', h1, h2⟩
    apply Classical.byContradiction
    intro hno
    have hleft : left = true := by
      cases left
      · exact absurd (Or.inl rfl) hno
      · rfl
    have hnw : ¬ ∀ c ∈ cs, isWhiteSpace c.1 = true := fun hh => hno (Or.inr (Or.inl hh))
    have hna : ¬ AsciiChars (cs.takeWhile fun c => isWhiteSpace c.1) := fun hh => hno (Or.inr (Or.inr hh))
    subst hleft
    unfold NS.trimLeftRight at h1
    rw [h.runes] at h1
    obtain ⟨lead, trail, hdc⟩ := trim_decomp true right cs
    simp only [if_true] at hdc h1
    generalize hleading : countLeadingSpaces (cs.map (·.1)) = leading at hdc h1
    generalize htrailing : (if right = true ∧ leading < (cs.map (·.1)).length then
        countTrailingSpaces (cs.map (·.1)) else 0) = trailing at hdc h1
    have hlw : leading = (cs.takeWhile fun c => isWhiteSpace c.1).length := by rw [← hleading, countLeadingSpaces_map]
    rcases hdc with ⟨k1, k2, k3⟩ | ⟨-, k2, -⟩
    · have hle : lead = cs.takeWhile fun c => isWhiteSpace c.1 := by
        have : lead = cs.take leading := by rw [k1, List.append_assoc, ← k2, List.take_left]
        rw [this, hlw]
        exact take_takeWhile_length _ _
      have hcore : trimSpec true right cs ≠ [] := by
        intro e
        rw [e] at k1
        apply hnw
        have hall : ∀ c ∈ cs.dropWhile (fun c => isWhiteSpace c.1), isWhiteSpace c.1 = true := by
          simp only [trimSpec, if_true] at e
          cases right
          · simp only [Bool.false_eq_true, if_false] at e; rw [e]; simp
          · simp only [if_true, List.reverse_eq_nil_iff] at e
            intro c hc
            have := List.takeWhile_append_dropWhile (p := fun c : Ch => isWhiteSpace c.1) (l := (cs.dropWhile (fun c => isWhiteSpace c.1)).reverse)
            rw [e, List.append_nil] at this
            have hm : c ∈ ((cs.dropWhile (fun c => isWhiteSpace c.1)).reverse).takeWhile (fun c => isWhiteSpace c.1) := by
              rw [this]; simpa using hc
            exact mem_takeWhile_imp (p := fun c : Ch => isWhiteSpace c.1) hm
        intro c hc
        rw [← List.takeWhile_append_dropWhile (p := fun c : Ch => isWhiteSpace c.1) (l := cs)] at hc
        rcases List.mem_append.1 hc with hc | hc
        · exact mem_takeWhile_imp (p := fun c : Ch => isWhiteSpace c.1) hc
        · exact hall c hc
      have hz : ¬ (leading = 0 ∧ trailing = 0) := by
        rintro ⟨hz, -⟩
        apply hna
        rw [← hle]
        have : lead = [] := List.length_eq_zero_iff.1 (by omega)
        rw [this]; intro c hc; simp at hc
      rw [if_neg hz] at h1
      have hch := trimChanges_eq lead (trimSpec true right cs) trail
      rw [← k1, k2, k3] at hch
      rw [hch] at h1
      obtain ⟨c, core, ec⟩ := List.exists_cons_of_ne_nil hcore
      rw [ec] at h1 h2 k1
      simp only [List.map_cons, List.mapIdx_cons] at h1
      rw [← k2] at h1
      rw [k1, List.append_assoc] at h
      refine transform_first_wrong h ?_ (by rw [hle]; exact hna) (c := c) ?_ h1 h2
      · simp only; split <;> omega
      · intro d hdm
        rw [k1, List.append_assoc] at hd
        exact (List.pairwise_append.1 hd).2.2 d hdm c (by simp)
    · apply hnw
      have hl : (cs.takeWhile fun c => isWhiteSpace c.1).length = cs.length := by omega
      have := List.takeWhile_append_dropWhile (p := fun c : Ch => isWhiteSpace c.1) (l := cs)
      have hnil : cs.dropWhile (fun c => isWhiteSpace c.1) = [] := by
        apply List.length_eq_zero_iff.1
        have := congrArg List.length this
        rw [List.length_append] at this
        omega
      rw [hnil, List.append_nil] at this
      intro c hc
      rw [← this] at hc
      exact mem_takeWhile_imp (p := fun c : Ch => isWhiteSpace c.1) hc
  · intro hl
    obtain ⟨ns', h1, h2, -⟩ := C07_trim_partial h left right hl
    exact ⟨ns', h1, h2⟩

/-- Fresh inputs have different alignments for their characters. -/
theorem selfChars_distinct (i : Nat) (rs : List Rune) : (selfChars i rs).Pairwise fun a b => a.2 ≠ b.2 := by
  induction rs generalizing i with
  | nil => exact .nil
  | cons r rs ih =>
    refine List.Pairwise.cons ?_ (ih _)
    intro c hc e
    have := selfChars_bounds _ _ c hc
    have h2 := encodeRune_length_pos r
    simp only at e
    rw [← e] at this
    simp only at this
    omega

/-- **C09, exactly.** On every valid non-empty state `Append` keeps the text in front of the appended
one if and only if all characters before the last one are ASCII; otherwise it panics or the text is
too short. -/
theorem C09_exact {ns : NS} {c : Ch} {cs : List Ch} (h : Repr ns (cs ++ [c])) {s : Str} (hs : ValidUtf8 s) :
    (∃ ns', ns.append s = .ok ns' ∧ ns'.get = ns.get ++ s) ↔ AsciiChars cs := by
  constructor
  · rintro ⟨ns', h1, h2⟩
    apply Classical.byContradiction
    intro hna
    have hlt := not_ascii_length (validChars_append.1 h.valid).1 hna
    have hn : ns.normalized.length ≠ 0 := by rw [h.text_eq]; simp [encodeRune_ne_nil]
    have hi : ((runesOf ns.normalized).length : Int) - 1 = (cs.length : Int) := by rw [h.runes]; simp
    have hf : goIndex (runesOf ns.normalized) (((runesOf ns.normalized).length : Int) - 1) = .ok c.1 := by
      rw [hi, h.runes, List.map_append]
      exact goIndex_mid _ _ _ (by simp)
    unfold NS.append at h1
    simp only [hn, if_false, hf, GoM.bind_ok, NS.transformRange, NS.coerceRangeToNormalized] at h1
    obtain ⟨nPre, nInit, nTail, nPost, aPre, aPost, ks, e1, e2, e3, e4, -, -, -, -, -, -, -, e5⟩ := transformNormalized_ok h1
    have ht : ns'.get = nPre ++ encodeRunes ((⟨c.1, 0⟩ :: (runesOf s).map fun r => (⟨r, 1⟩ : RuneChange)).map fun rc => sanitize rc.rune) ++ nPost := by
      rw [e5]; rfl
    have hpost : nPost = [] := by
      apply List.length_eq_zero_iff.1
      have := congrArg List.length e1
      simp only [List.length_append] at this e4
      simp only [NS.len] at e4
      omega
    have henc : encodeRunes ((⟨c.1, 0⟩ :: (runesOf s).map fun r => (⟨r, 1⟩ : RuneChange)).map fun rc => sanitize rc.rune) = encodeRune c.1 ++ s := by
      have hc : sanitize c.1 = c.1 := sanitize_of_valid (h.valid c (by simp))
      have h3 : ((runesOf s).map fun r => sanitize r) = runesOf s := by
        have := List.map_congr_left (l := runesOf s) (f := fun r => sanitize r) (g := id)
          (fun x hx => sanitize_of_valid (runesOf_valid s x hx))
        simpa using this
      simp only [List.map_cons, List.map_map, encodeRunes_cons]
      rw [show ((fun rc : RuneChange => sanitize rc.rune) ∘ fun r => (⟨r, 1⟩ : RuneChange)) = fun r => sanitize r from rfl, h3, hc, hs.runes]
    have hl := congrArg List.length (ht.symm.trans h2)
    rw [henc, hpost] at hl
    have hg : ns.get = text cs ++ encodeRune c.1 := by
      show ns.normalized = _
      rw [h.text_eq]; simp
    rw [hg] at hl
    simp only [List.length_append, List.length_nil] at hl
    omega
  · intro ha
    obtain ⟨ns', h1, h2, -⟩ := C09_append_partial h ha s
    refine ⟨ns', h1, ?_⟩
    show ns'.normalized = ns.normalized ++ s
    rw [h2.text_eq, C09_text hs, h.text_eq]

/-- **C08, exactly.** `Prepend` of a valid text keeps every existing character with its alignment if and
only if the text is not empty or the first alignment is already (0,0). -/
theorem C08_exact {ns : NS} {c : Ch} {cs : List Ch} (h : Repr ns (c :: cs)) (s : Str) :
    (∃ ns', ns.prepend s = .ok ns' ∧ Repr ns' ((runesOf s).map (fun r => (r, c.2)) ++ c :: cs)) ↔ s ≠ [] ∨ c.2 = ⟨0, 0⟩ := by
  by_cases hs : s = []
  · subst hs
    have hn : ns.normalized.length ≠ 0 := by
      rw [h.text_eq]; simp [encodeRune_ne_nil]
    have hf : goIndex (runesOf ns.normalized) 0 = .ok c.1 := by
      rw [h.runes]; simp [goIndex]
    have := C04_transformRange (ns := ns) (pre := []) (skip := []) (mid := [c]) (post := cs)
      (r := .normalized 0 ((encodeRune c.1).length : Int)) (a := 0) (b := ((encodeRune c.1).length : Int))
      (io := 0) (by simpa using h) (NS.prependChanges [] ++ [⟨c.1, 1⟩]) rfl (by simp) (by simp) (by simp)
    have hsp : specTransform (lastAlign ([] ++ [])) (NS.prependChanges [] ++ [⟨c.1, 1⟩]) [c]
        = some [(c.1, ⟨0, 0⟩)] := by
      have hc : sanitize c.1 = c.1 := sanitize_of_valid (h.valid c (by simp))
      have : NS.prependChanges [] = [] := rfl
      rw [this]
      simp [specTransform, hc]
    rw [hsp] at this
    obtain ⟨ns', k1, k2, -⟩ := this
    have hp : ns.prepend [] = .ok ns' := by
      unfold NS.prepend
      simp only [hn, if_false, hf, GoM.bind_ok]
      exact k1
    have hr : runesOf [] = [] := rfl
    rw [hp, hr]
    constructor
    · rintro ⟨n, e, hr⟩
      simp at e; subst e
      right
      have e1 := hr.aligns_eq
      rw [k2.aligns_eq] at e1
      have := congrArg (·[0]?) e1
      simp only [List.map_nil, List.nil_append, List.singleton_append, aligns_first] at this
      simpa using this.symm
    · rintro (h' | h')
      · exact absurd rfl h'
      · refine ⟨ns', rfl, ?_⟩
        have : c = (c.1, ⟨0, 0⟩) := by rw [← h']
        rw [this]
        simpa using k2
  · constructor
    · intro _; exact Or.inl hs
    · intro _
      obtain ⟨ns', h1, h2, -⟩ := C08_prepend_partial h s hs
      exact ⟨ns', h1, h2⟩

/-- **C22, exactly.** The captures of the empty string pattern tile a valid text if and only if it is ASCII. -/
theorem C22_exact (rs : List Rune) (hv : ∀ r ∈ rs, ValidRune r) :
    (∃ caps, fromStringPattern [] (encodeRunes rs) = .ok (.ok caps) ∧ Tiles caps 0 (encodeRunes rs).length)
      ↔ ∀ r ∈ rs, r < 128 := by
  have he : fromStringPattern [] (encodeRunes rs) = .ok (.ok [⟨⟨0, rs.length⟩, false⟩]) := by
    rw [fromStringPattern, if_pos (by rfl), runesOf_encodeRunes rs hv]
  constructor
  · rintro ⟨caps, h1, h2⟩
    rw [he] at h1
    simp at h1; subst h1
    have hl : (rs.length : Int) = (encodeRunes rs).length := h2.2.2
    have hc : ValidChars (selfChars 0 rs) := by
      intro c hc
      exact hv c.1 (by rw [← selfChars_map_fst 0 rs]; exact List.mem_map.2 ⟨c, hc, rfl⟩)
    have hlen : (selfChars 0 rs).length = rs.length := by
      rw [← List.length_map (·.1) (as := selfChars 0 rs), selfChars_map_fst]
    have ha : AsciiChars (selfChars 0 rs) := by
      apply Classical.byContradiction
      intro hna
      have := not_ascii_length hc hna
      rw [hlen, text, selfChars_map_fst] at this
      omega
    intro r hr
    rw [← selfChars_map_fst 0 rs] at hr
    obtain ⟨c, hc, rfl⟩ := List.mem_map.1 hr
    exact ha c hc
  · intro h
    exact ⟨_, C22_empty_ascii rs (fun r hr => ⟨by have := hv r hr; unfold ValidRune at this; omega, h r hr⟩),
      rfl, by simp only; omega, rfl⟩

/-! ## C11 -/

theorem slice_empty_panic {ns : NS} {a : Int} (ha : isRuneBoundary ns.normalized a = true) (h : ns.originalLen < a) :
    ns.slice (.normalized a a) = .panic := by
  have e : goSlice ns.original a a = .panic := by
    unfold goSlice
    rw [if_neg]
    intro hc
    simp only [NS.originalLen] at h
    omega
  simp [NS.slice, NS.rangeIsValid, Rng.start, Rng.stop, ha, NS.coerceRangeToNormalized, NS.coerceRangeToOriginal, NS.getOriginalRange, e]

theorem sliceAll_panic (ns : NS) : ∀ ms : List SplitMatch,
    (∀ m ∈ ms, m.shouldRemove = false → (∃ p, ns.slice (.normalized m.offsets.start m.offsets.stop) = .ok (some p))
      ∨ ns.slice (.normalized m.offsets.start m.offsets.stop) = .panic) →
    (∃ m ∈ ms, m.shouldRemove = false ∧ ns.slice (.normalized m.offsets.start m.offsets.stop) = .panic) →
    ns.sliceAll ms = .panic := by
  intro ms
  induction ms with
  | nil => rintro _ ⟨m, hm, -⟩; simp at hm
  | cons m ms ih =>
    rintro hall ⟨x, hx, hr, hp⟩
    have hrest : (∃ m ∈ ms, m.shouldRemove = false ∧ ns.slice (.normalized m.offsets.start m.offsets.stop) = .panic) →
        ns.sliceAll ms = .panic := ih fun m hm => hall m (by simp [hm])
    simp only [NS.sliceAll]
    rcases List.mem_cons.1 hx with rfl | hx
    · simp [hr, hp]
    · have := hrest ⟨x, hx, hr, hp⟩
      cases hrm : m.shouldRemove with
      | true => simp [this]
      | false =>
        rcases hall m (by simp) hrm with ⟨p, h⟩ | h
        · simp [h, this]
        · simp [h]

/-- The span of a group can be sliced: it is not empty, or it lies inside the original. -/
def GroupFits (ns : NS) (g : List Capture) : Prop := (span g).1 < (span g).2 ∨ (span g).1 ≤ ns.originalLen

/-- **C11, exactly.** On every reachable state, for every pattern whose captures tile the text on rune
boundaries: `Split` succeeds if every group of captures that makes a piece is non-empty or starts
inside the original, and panics otherwise. -/
theorem C11_exact {ns : NS} (hr : Reachable ns) {pattern : SplitPattern} {caps : List Capture}
    (hp : pattern ns.normalized = .ok (.ok caps)) (ht : Tiles caps 0 ns.normalized.length)
    (hb : ∀ c ∈ caps, IsBoundary ns.normalized c.offsets.start ∧ IsBoundary ns.normalized c.offsets.stop) (b : Behavior) :
    ((∀ g ∈ splitGroups b caps, GroupFits ns g) ∧ ∃ pieces, ns.split pattern b = .ok (.ok pieces)
        ∧ pieces.map NS.get = (splitGroups b caps).map (fun g => sub ns.get (span g).1 (span g).2))
    ∨ ((∃ g ∈ splitGroups b caps, ¬ GroupFits ns g) ∧ ns.split pattern b = .panic) := by
  have hwf := hr.wf
  obtain ⟨hfl, hne⟩ := splitGroups_flatten b caps
  have hgne : ∀ g ∈ splitGroups b caps, g ≠ [] := by
    intro g hg
    by_cases hrm : b = .removed
    · subst hrm
      simp only [splitGroups] at hg
      obtain ⟨c, -, rfl⟩ := List.mem_map.1 hg
      simp
    · exact hne g hg
  have hspan : ∀ g ∈ splitGroups b caps, (span g).1 ≤ (span g).2 := by
    intro g hg
    by_cases hrm : b = .removed
    · subst hrm
      simp only [splitGroups] at hg
      obtain ⟨c, hc, rfl⟩ := List.mem_map.1 hg
      have := ht.head_le c (List.mem_filter.1 hc).1
      simp [span]; omega
    · rw [if_neg hrm] at hfl
      exact (groups_span (splitGroups b caps) 0 _ hne (by rw [hfl]; exact ht) g hg).1
  have hslice : ∀ g ∈ splitGroups b caps, (GroupFits ns g ∧ ∃ p, ns.slice (.normalized (span g).1 (span g).2) = .ok (some p))
      ∨ (¬ GroupFits ns g ∧ ns.slice (.normalized (span g).1 (span g).2) = .panic) := by
    intro g hg
    have hle := hspan g hg
    obtain ⟨c, hc, d, hd, e, -⟩ := span_mem (hgne g hg)
    have bc := isRuneBoundary_of (hb c (splitGroups_subset b caps g hg c hc)).1
    have bd := isRuneBoundary_of (hb d (splitGroups_subset b caps g hg d hd)).2
    unfold GroupFits
    rw [e] at hle ⊢
    simp only at hle ⊢
    by_cases hlt : c.offsets.start < d.offsets.stop
    · obtain ⟨f, l, -, -, -, -, -, -, h⟩ := slice_normalized hwf bc bd hlt
      exact Or.inl ⟨Or.inl hlt, _, h⟩
    · have heq : d.offsets.stop = c.offsets.start := by omega
      rw [heq]
      by_cases ho : c.offsets.start ≤ ns.originalLen
      · exact Or.inl ⟨Or.inr ho, _, slice_empty hwf bc ho⟩
      · exact Or.inr ⟨by omega, slice_empty_panic bc (by omega)⟩
  by_cases hfit : ∀ g ∈ splitGroups b caps, GroupFits ns g
  · left
    obtain ⟨pieces, h1, h2⟩ := split_of (b := b) hp (by
      intro g hg
      rcases hslice g hg with ⟨-, h⟩ | ⟨h, -⟩
      · exact h
      · exact absurd (hfit g hg) h)
    exact ⟨hfit, pieces, h1, h2.map_eq (fun g p _ _ h => slice_get h)⟩
  · right
    obtain ⟨g, hg, hgf⟩ : ∃ g ∈ splitGroups b caps, ¬ GroupFits ns g := by
      apply Classical.byContradiction
      intro hno
      exact hfit fun g hg => Classical.byContradiction fun h => hno ⟨g, hg, h⟩
    refine ⟨⟨g, hg, hgf⟩, ?_⟩
    have hmem : ∀ m, (m ∈ splitMatches b caps ∧ m.shouldRemove = false) ↔ ∃ g ∈ splitGroups b caps, spanMatch g = m := by
      intro m
      have := splitMatches_groups b caps
      rw [← List.mem_map (f := spanMatch), ← this, List.mem_filter]
      simp
    have : ns.sliceAll (splitMatches b caps) = .panic := by
      apply sliceAll_panic
      · intro m hm hrm
        obtain ⟨g, hg, rfl⟩ := (hmem m).1 ⟨hm, hrm⟩
        rcases hslice g hg with ⟨-, h⟩ | ⟨-, h⟩
        · exact Or.inl h
        · exact Or.inr h
      · obtain ⟨hm, hrm⟩ := (hmem (spanMatch g)).2 ⟨g, hg, rfl⟩
        refine ⟨_, hm, hrm, ?_⟩
        rcases hslice g hg with ⟨h, -⟩ | ⟨-, h⟩
        · exact absurd h hgf
        · exact h
    simp [NS.split, hp, this]

/-! ## Outcomes of Slice and Split on any range and any captures -/

/-- A range that `Slice` accepts: both ends on rune boundaries, and not reversed. -/
def OnRunes (s : Str) (a b : Int) : Prop := IsBoundary s a ∧ IsBoundary s b ∧ a ≤ b

/-- **C13, outcomes.** On every reachable state of valid text, for every `NormalizedRange`: `Slice` fails
if an end is not on a rune boundary or the range is reversed; it panics on an empty range past the end of
the original; in all other cases it succeeds, and the text is the sub-text. -/
theorem C13_outcomes {ns : NS} (hr : Reachable ns) (hv : ValidUtf8 ns.get) (a b : Int) :
    (ns.slice (.normalized a b) = .ok none ↔ ¬ OnRunes ns.get a b)
    ∧ (ns.slice (.normalized a b) = .panic ↔ OnRunes ns.get a b ∧ a = b ∧ ns.originalLen < a)
    ∧ ((∃ p, ns.slice (.normalized a b) = .ok (some p)) ↔ OnRunes ns.get a b ∧ (a < b ∨ a ≤ ns.originalLen))
    ∧ ∀ p, ns.slice (.normalized a b) = .ok (some p) → p.get = sub ns.get a b := by
  have hwf := hr.wf
  have hi (i : Int) : isRuneBoundary ns.normalized i = true ↔ IsBoundary ns.get i := C18_isRuneBoundary hv i
  have hget : ∀ p, ns.slice (.normalized a b) = .ok (some p) → p.get = sub ns.get a b := fun p h => slice_get h
  by_cases ha : IsBoundary ns.get a
  · by_cases hb : IsBoundary ns.get b
    · have ha' := (hi a).2 ha
      have hb' := (hi b).2 hb
      by_cases hab : a < b
      · obtain ⟨f, l, -, -, -, -, -, -, h⟩ := slice_normalized hwf ha' hb' hab
        have hon : OnRunes ns.get a b := ⟨ha, hb, by omega⟩
        refine ⟨by rw [h]; simp [hon], by rw [h]; simp; omega, by rw [h]; simp [hon, hab], hget⟩
      · by_cases heq : a = b
        · subst heq
          have hon : OnRunes ns.get a a := ⟨ha, hb, Int.le_refl _⟩
          by_cases ho : a ≤ ns.originalLen
          · have h := slice_empty hwf ha' ho
            refine ⟨by rw [h]; simp [hon], by rw [h]; simp; omega, by rw [h]; simp [hon, ho], hget⟩
          · have h := slice_empty_panic ha' (by omega : ns.originalLen < a)
            refine ⟨by rw [h]; simp [hon], by rw [h]; simp [hon]; omega, by rw [h]; simp; omega, hget⟩
        · have hon : ¬ OnRunes ns.get a b := fun h => by have := h.2.2; omega
          have hlt : b < a := by omega
          have h : ns.slice (.normalized a b) = .ok none := by
            have hc : ns.coerceRangeToOriginal (.normalized a b) = .ok none := ((C14_no_panic_partial hr).1 hlt).1
            simp [NS.slice, NS.rangeIsValid, Rng.start, Rng.stop, ha', hb', NS.coerceRangeToNormalized, hc]
          refine ⟨by rw [h]; simp [hon], by rw [h]; simp [hon], by rw [h]; simp [hon], hget⟩
    · have hon : ¬ OnRunes ns.get a b := fun h => hb h.2.1
      have h : ns.slice (.normalized a b) = .ok none := by
        have : isRuneBoundary ns.normalized b = false := Bool.eq_false_iff.2 fun h => hb ((hi b).1 h)
        simp [NS.slice, NS.rangeIsValid, Rng.stop, this]
      refine ⟨by rw [h]; simp [hon], by rw [h]; simp [hon], by rw [h]; simp [hon], hget⟩
  · have hon : ¬ OnRunes ns.get a b := fun h => ha h.1
    have h : ns.slice (.normalized a b) = .ok none := by
      have : isRuneBoundary ns.normalized a = false := Bool.eq_false_iff.2 fun h => ha ((hi a).1 h)
      simp [NS.slice, NS.rangeIsValid, Rng.start, this]
    refine ⟨by rw [h]; simp [hon], by rw [h]; simp [hon], by rw [h]; simp [hon], hget⟩

theorem sliceAll_removed (ns : NS) (ms : List SplitMatch) :
    ns.sliceAll ms = ns.sliceAll (ms.filter fun m => !m.shouldRemove) := by
  induction ms with
  | nil => rfl
  | cons m ms ih =>
    cases hm : m.shouldRemove with
    | true => rw [List.filter_cons_of_neg (by simp [hm])]; simp only [NS.sliceAll, hm, if_true, ih]
    | false => rw [List.filter_cons_of_pos (by simp [hm])]; simp only [NS.sliceAll, hm, ih]

/-- **C11, outcomes.** On every reachable state of valid text, for every pattern and whatever its captures:
`Split` cuts the text at the documented groups.  The first group that cannot be sliced decides: with an
end that is not on a rune boundary, or reversed, `Split` returns an error; empty past the end of the
original, it panics. -/
theorem C11_outcomes {ns : NS} (hr : Reachable ns) (hv : ValidUtf8 ns.get) {pattern : SplitPattern} {caps : List Capture}
    (hp : pattern ns.normalized = .ok (.ok caps)) (b : Behavior) :
    ((∀ g ∈ splitGroups b caps, OnRunes ns.get (span g).1 (span g).2 ∧ GroupFits ns g)
      ∧ ∃ pieces, ns.split pattern b = .ok (.ok pieces)
        ∧ pieces.map NS.get = (splitGroups b caps).map (fun g => sub ns.get (span g).1 (span g).2))
    ∨ ∃ pre g post, splitGroups b caps = pre ++ g :: post
      ∧ (∀ x ∈ pre, OnRunes ns.get (span x).1 (span x).2 ∧ GroupFits ns x)
      ∧ ((¬ OnRunes ns.get (span g).1 (span g).2 ∧ ns.split pattern b = .ok (.error .badSplit))
        ∨ (OnRunes ns.get (span g).1 (span g).2 ∧ ¬ GroupFits ns g ∧ ns.split pattern b = .panic)) := by
  have hs : ns.split pattern b = ns.sliceAll ((splitGroups b caps).map spanMatch) := by
    rw [← splitMatches_groups, ← sliceAll_removed]
    simp [NS.split, hp]
  rw [hs]
  generalize splitGroups b caps = gs
  clear hs hp
  induction gs with
  | nil => left; exact ⟨by simp, [], rfl, rfl⟩
  | cons g gs ih =>
    obtain ⟨o1, o2, o3, o4⟩ := C13_outcomes hr hv (span g).1 (span g).2
    have hstep : ns.sliceAll ((g :: gs).map spanMatch) = (ns.slice (.normalized (span g).1 (span g).2)).bind fun r =>
        match r with
        | none => pure (.error .badSplit)
        | some piece => (ns.sliceAll (gs.map spanMatch)).bind fun r =>
          match r with
          | .error e => pure (.error e)
          | .ok rest => pure (.ok (piece :: rest)) := rfl
    rw [hstep]
    by_cases hon : OnRunes ns.get (span g).1 (span g).2
    · by_cases hf : GroupFits ns g
      · obtain ⟨p, hp⟩ := o3.2 ⟨hon, hf⟩
        rw [hp]
        simp only [GoM.bind]
        rcases ih with ⟨hall, pieces, e1, e2⟩ | ⟨pre, g', post, e1, e2, e3⟩
        · left
          refine ⟨?_, p :: pieces, by rw [e1]; rfl, by simp [e2, o4 p hp]⟩
          intro x hx
          rcases List.mem_cons.1 hx with rfl | hx
          · exact ⟨hon, hf⟩
          · exact hall x hx
        · right
          refine ⟨g :: pre, g', post, by simp [e1], ?_, ?_⟩
          · intro x hx
            rcases List.mem_cons.1 hx with rfl | hx
            · exact ⟨hon, hf⟩
            · exact e2 x hx
          · rcases e3 with ⟨h1, h2⟩ | ⟨h1, h2, h3⟩
            · exact .inl ⟨h1, by rw [h2]; rfl⟩
            · exact .inr ⟨h1, h2, by rw [h3]⟩
      · right
        refine ⟨[], g, gs, rfl, by simp, .inr ⟨hon, hf, ?_⟩⟩
        have : (span g).1 = (span g).2 ∧ ns.originalLen < (span g).1 := by
          unfold GroupFits at hf
          have := hon.2.2
          omega
        rw [o2.2 ⟨hon, this⟩]
        rfl
    · right
      refine ⟨[], g, gs, rfl, by simp, .inl ⟨hon, ?_⟩⟩
      rw [o1.2 hon]
      rfl

/-- Non-vacuity: a capture that cuts "é" in two gives an error; on "éa" cut after "é" there is none. -/
example : (NS.fromString b!"éa").split (fun _ => .ok (.ok [⟨⟨0, 1⟩, false⟩, ⟨⟨1, 3⟩, false⟩])) .isolated = .ok (.error .badSplit)
    ∧ ((NS.fromString b!"éa").split (fun _ => .ok (.ok [⟨⟨0, 2⟩, false⟩, ⟨⟨2, 3⟩, false⟩])) .isolated
        = .ok (.ok [⟨b!"é", b!"é", [⟨0, 2⟩, ⟨0, 2⟩], 0⟩, ⟨b!"a", b!"a", [⟨0, 1⟩], 2⟩])) := by decide +kernel

/-! ## C14 -/

/-- **C14, exactly.** On every reachable state, for every range: when each conversion panics.
`CoerceRangeToNormalized` (a total function of the model) and `CoerceRangeToOriginal` of an
`OriginalRange` never do. -/
theorem C14_exact {ns : NS} (hr : Reachable ns) (a b : Int) :
    (ns.coerceRangeToOriginal (.normalized a b) = .panic ↔ a < b ∧ ¬ (0 ≤ a ∧ b ≤ ns.len))
    ∧ ns.coerceRangeToOriginal (.original a b) ≠ .panic
    ∧ (ns.getRange (.normalized a b) = .panic ↔ ¬ (0 ≤ a ∧ a ≤ b ∧ b ≤ ns.len))
    ∧ (ns.getRange (.original a b) = .panic ↔ a = b ∧ ¬ (0 ≤ a ∧ a ≤ ns.len))
    ∧ (ns.getOriginalRange (.normalized a b) = .panic
        ↔ (a < b ∧ ¬ (0 ≤ a ∧ b ≤ ns.len)) ∨ (a = b ∧ ¬ (0 ≤ a ∧ a ≤ ns.originalLen)))
    ∧ (ns.getOriginalRange (.original a b) = .panic ↔ ¬ (0 ≤ a ∧ a ≤ b ∧ b ≤ ns.originalLen))
    ∧ (ns.slice (.normalized a b) = .panic ↔ a = b ∧ isRuneBoundary ns.normalized a = true ∧ ns.originalLen < a)
    ∧ (ns.slice (.original a b) = .panic ↔ a = b ∧ isRuneBoundary ns.original a = true ∧ ns.len < a) := by
  have hwf := hr.wf
  have hp := C14_no_panic_partial hr (a := a) (b := b)
  refine ⟨hp.2.1, by simp [NS.coerceRangeToOriginal], ?_, ?_, ?_, ?_, ?_, ?_⟩
  · have : ns.getRange (.normalized a b) = .panic ↔ goSlice ns.normalized a b = .panic := by
      simp only [NS.getRange, NS.coerceRangeToNormalized]
      cases goSlice ns.normalized a b <;> simp
    rw [this, goSlice_eq_panic]
    simp only [NS.len]
  · constructor
    · intro h
      have hab : a = b := Classical.byContradiction fun hne => hp.2.2.1 hne h
      refine ⟨hab, ?_⟩
      subst hab
      rintro ⟨h0, h1⟩
      simp [NS.getRange, NS.coerceRangeToNormalized, goSlice_of (l := ns.normalized) h0 (Int.le_refl _) h1] at h
    · rintro ⟨rfl, hn⟩
      have : goSlice ns.normalized a a = .panic := goSlice_eq_panic.2 (by simp only [NS.len] at hn; omega)
      simp [NS.getRange, NS.coerceRangeToNormalized, this]
  · by_cases h1 : a < b
    · by_cases h2 : 0 ≤ a ∧ b ≤ ns.len
      · obtain ⟨f, l, f1, f2, e⟩ := coerceRangeToOriginal_normalized (ns := ns) (s := a) (e := b) h2.1 h1
          (by rw [hwf.len]; exact h2.2)
        obtain ⟨k1, k2⟩ := List.getElem?_eq_some_iff.1 f1
        obtain ⟨k3, k4⟩ := List.getElem?_eq_some_iff.1 f2
        have hbf := hwf.bounds f (k2 ▸ List.getElem_mem k1)
        have hbl := hwf.bounds l (k4 ▸ List.getElem_mem k3)
        have r : AlignLE f l := by rw [← k2, ← k4]; exact hwf.getElem_le (by omega) k3
        have h3 := r.start_le hbf.2.1
        have hg := goSlice_of (l := ns.original) (a := f.start) (b := l.stop) hbf.1 (by omega) hbl.2.2
        simp [NS.getOriginalRange, e, hg]
        omega
      · have := hp.2.1.2 ⟨h1, h2⟩
        simp [NS.getOriginalRange, this]
        omega
    · by_cases h2 : a = b
      · subst h2
        have : ns.getOriginalRange (.normalized a a) = .panic ↔ goSlice ns.original a a = .panic := by
          simp only [NS.getOriginalRange, NS.coerceRangeToOriginal, Int.sub_self, if_true, GoM.bind_ok]
          cases goSlice ns.original a a <;> simp
        rw [this, goSlice_eq_panic]
        simp only [NS.originalLen]
        constructor
        · intro h; exact Or.inr ⟨trivial, fun h' => h ⟨h'.1, Int.le_refl _, h'.2⟩⟩
        · rintro (h | h) h'
          · omega
          · exact h.2 ⟨h'.1, h'.2.2⟩
      · have := (hp.1 (by omega)).2.2.2
        rw [this]
        simp; omega
  · have : ns.getOriginalRange (.original a b) = .panic ↔ goSlice ns.original a b = .panic := by
      simp only [NS.getOriginalRange, NS.coerceRangeToOriginal, GoM.bind_ok]
      cases goSlice ns.original a b <;> simp
    rw [this, goSlice_eq_panic]
    simp only [NS.originalLen]
  · constructor
    · intro h
      have hab : a = b := Classical.byContradiction fun hne => (hp.2.2.2.1 hne).1 h
      subst hab
      have hb : isRuneBoundary ns.normalized a = true := by
        cases hb : isRuneBoundary ns.normalized a with
        | true => rfl
        | false => simp [NS.slice, NS.rangeIsValid, Rng.start, Rng.stop, hb] at h
      refine ⟨rfl, hb, ?_⟩
      apply Classical.byContradiction
      intro hn
      rw [slice_empty hwf hb (by omega)] at h
      simp at h
    · rintro ⟨rfl, hb, hl⟩
      exact slice_empty_panic hb hl
  · constructor
    · intro h
      have hab : a = b := Classical.byContradiction fun hne => (hp.2.2.2.1 hne).2 h
      subst hab
      have hb : isRuneBoundary ns.original a = true := by
        cases hb : isRuneBoundary ns.original a with
        | true => rfl
        | false => simp [NS.slice, NS.rangeIsValid, Rng.start, Rng.stop, hb] at h
      refine ⟨rfl, hb, ?_⟩
      apply Classical.byContradiction
      intro hn
      have bb := isRuneBoundary_bounds hb
      have := slice_of (ns := ns) (r := .original a a) (na := a) (nb := a) (oa := a) (ob := a)
        (by simp [NS.rangeIsValid, Rng.start, Rng.stop, hb]) (by simp [NS.coerceRangeToNormalized]) rfl
        (goSlice_of bb.1 (Int.le_refl _) bb.2) (goSlice_of bb.1 (Int.le_refl _) (by simp only [NS.len] at hn; omega))
        (goSlice_of bb.1 (Int.le_refl _) (by rw [hwf.len]; simp only [NS.len] at hn; omega))
      rw [this] at h
      simp at h
    · rintro ⟨rfl, hb, hl⟩
      have bb := isRuneBoundary_bounds hb
      have e1 : goSlice ns.normalized a a = .panic := goSlice_eq_panic.2 (by simp only [NS.len] at hl; omega)
      have e2 := goSlice_of (l := ns.original) bb.1 (Int.le_refl _) bb.2
      simp [NS.slice, NS.rangeIsValid, Rng.start, Rng.stop, hb, NS.coerceRangeToNormalized, NS.coerceRangeToOriginal,
        NS.getOriginalRange, NS.getRange, e1, e2]

/-! ## C50 -/

/-- A vocabulary loaded from `m` after some `AddTerm` calls. -/
structure GrownFrom (m : GoMap Str Int) (v : Vocab) : Prop where
  notNil : v.termToID ≠ none
  larger : (m.length : Int) ≤ v.size
  kept : ∀ e ∈ m, v.getID e.1 = some e.2
  added : ∀ i : Int, m.length ≤ i → i < v.size → ∃ t, v.getID t = some i ∧ ∀ e ∈ m, e.1 ≠ t
  inverse : (∀ e ∈ m, ¬ ((m.length : Int) ≤ e.2 ∧ e.2 < v.size)) →
    v.Inverse ∧ ∀ t i, v.getID t = some i → (t, i) ∈ m ∨ i < v.size

theorem GrownFrom.addTerm {m : GoMap Str Int} {v : Vocab} (h : GrownFrom m v) (t : Str) :
    ∃ v', v.addTerm t = .ok v' ∧ GrownFrom m v' := by
  unfold Vocab.addTerm
  cases hg : v.getID t with
  | some i => exact ⟨v, rfl, h⟩
  | none =>
    cases hm : v.termToID with
    | none => exact absurd hm h.notNil
    | some m' =>
      have hgm : GoMap.get? m' t = none := by
        have := hg; simp only [Vocab.getID, hm, Option.getD_some] at this; exact this
      have hgi : ∀ t, v.getID t = GoMap.get? m' t := by intro t; simp [Vocab.getID, hm]
      have hsz : v.size = m'.length := by simp [Vocab.size, hm]
      obtain ⟨v', hv'⟩ : ∃ v', v' = (⟨some (m'.set t v.size), v.idToTerm.set v.size t⟩ : Vocab) := ⟨_, rfl⟩
      have hsz' : v'.size = v.size + 1 := by
        rw [hv', hsz]
        simp only [Vocab.size, Option.getD_some]
        rw [GoMap.length_set, if_pos hgm]; simp
      have hget : ∀ t', v'.getID t' = if t = t' then some v.size else v.getID t' := by
        intro t'
        rw [hv', hgi]
        simp only [Vocab.getID, Option.getD_some]
        rw [GoMap.get?_set]
      have hstr : ∀ i, v'.getString i = if v.size = i then some t else v.getString i := by
        intro i
        rw [hv']
        simp only [Vocab.getString]
        rw [GoMap.get?_set]
      have hnot : ∀ e ∈ m, e.1 ≠ t := by
        intro e he heq
        have := h.kept e he
        rw [heq, hg] at this
        simp at this
      simp only
      rw [← hv']
      refine ⟨v', rfl, by rw [hv']; simp, ?_, ?_, ?_, ?_⟩
      · have := h.larger; omega
      · intro e he
        rw [hget, if_neg (fun e' => hnot e he e'.symm)]
        exact h.kept e he
      · intro i h1 h2
        by_cases hi : i = v.size
        · exact ⟨t, by rw [hget, if_pos rfl, hi], hnot⟩
        · obtain ⟨t', a1, a2⟩ := h.added i h1 (by omega)
          refine ⟨t', ?_, a2⟩
          rw [hget, if_neg]
          · exact a1
          · intro e; rw [← e, hg] at a1; simp at a1
      · intro hno
        obtain ⟨inv, hin⟩ := h.inverse fun e he h' => hno e he ⟨h'.1, by omega⟩
        have hfree : ∀ t', v.getID t' ≠ some v.size := by
          intro t' e
          rcases hin t' v.size e with hmm | hlt
          · exact hno _ hmm ⟨h.larger, by simp only; omega⟩
          · omega
        constructor
        · intro t' i
          rw [hget, hstr]
          by_cases ht : t = t'
          · subst ht
            rw [if_pos rfl]
            by_cases hs : v.size = i
            · simp [hs]
            · rw [if_neg hs, ← inv, hg]; simp [hs]
          · rw [if_neg ht]
            by_cases hs : v.size = i
            · rw [if_pos hs]
              constructor
              · intro e; rw [← hs] at e; exact absurd e (hfree t')
              · intro e; simp at e; exact absurd e ht
            · rw [if_neg hs]; exact inv t' i
        · intro t' i
          rw [hget]
          by_cases ht : t = t'
          · rw [if_pos ht]
            intro e
            simp at e
            exact Or.inr (by omega)
          · rw [if_neg ht]
            intro e
            rcases hin t' i e with hh | hh
            · exact Or.inl hh
            · exact Or.inr (by omega)

/-- **C50, exactly.** For every decoded object with distinct ids, every iteration order and every
sequence of `AddTerm` calls: no call panics, and afterwards `GetID` and `GetString` are inverse to
each other if and only if no id of the object is one of the new ids, those from the size of the
object up to the size reached. -/
theorem C50_exact (m : GoMap Str Int) (order : List (Str × Int)) (l : List Str)
    (hk : GoMap.UniqueKeys m) (hid : DistinctIds m) (hord : ∀ e, e ∈ order ↔ e ∈ m) :
    ∃ v, (Vocab.fromJSON (some m) order).addTerms l = .ok v
      ∧ (v.Inverse ↔ ∀ e ∈ m, ¬ ((m.length : Int) ≤ e.2 ∧ e.2 < v.size)) := by
  obtain ⟨h1, h2⟩ := C50_load m order hk hid hord
  have h0 : GrownFrom m (Vocab.fromJSON (some m) order) := by
    have hs : (Vocab.fromJSON (some m) order).size = m.length := by simp [Vocab.size, Vocab.fromJSON]
    refine ⟨by simp [Vocab.fromJSON], by omega, fun e he => (h1 e.1 e.2).2 he, fun i a b => by omega, fun _ => ⟨?_, ?_⟩⟩
    · intro t i; rw [h1, h2]
    · intro t i e; exact Or.inl ((h1 t i).1 e)
  have key : ∀ (l : List Str) (v : Vocab), GrownFrom m v → ∃ v', v.addTerms l = .ok v' ∧ GrownFrom m v' := by
    intro l
    induction l with
    | nil => intro v h; exact ⟨v, rfl, h⟩
    | cons t l ih =>
      intro v h
      obtain ⟨v1, a1, a2⟩ := h.addTerm t
      obtain ⟨v2, b1, b2⟩ := ih v1 a2
      exact ⟨v2, by simp [Vocab.addTerms, a1, b1], b2⟩
  obtain ⟨v, a1, a2⟩ := key l _ h0
  refine ⟨v, a1, ?_, fun hno => (a2.inverse hno).1⟩
  rintro inv e he ⟨b1, b2⟩
  obtain ⟨t, c1, c2⟩ := a2.added e.2 b1 b2
  have d1 := (inv e.1 e.2).1 (a2.kept e he)
  have d2 := (inv t e.2).1 c1
  rw [d1] at d2
  simp at d2
  exact c2 e he d2

/-! ## Concrete cases -/

/-- "aéb" without its "a" is right; without its "é" in "éab" it is not, so no run gives those characters. -/
example : AsciiChars ((selfChars 0 [97, 233, 98]).takeWhile fun c => !(c.1 != 97)) := by unfold AsciiChars; decide +kernel
example : ¬ ((∀ c ∈ selfChars 0 [233, 97, 98], (c.1 != 233) = false)
    ∨ AsciiChars ((selfChars 0 [233, 97, 98]).takeWhile fun c => !(c.1 != 233))) := by
  unfold AsciiChars; decide +kernel

/-- `Append` to "éa" loses text, `Append` to "aé" does not. -/
example : ((NS.fromString [0xC3, 0xA9, 97]).append [33]).bind (fun ns => .ok ns.get) ≠ .ok [0xC3, 0xA9, 97, 33] := by decide +kernel
example : ((NS.fromString [97, 0xC3, 0xA9]).append [33]).bind (fun ns => .ok ns.get) = .ok [97, 0xC3, 0xA9, 33] := by decide +kernel

/-- The object {"a": 1}: the first new term gets the id 1 as well. -/
example : ((Vocab.fromJSON (some [([97], 1)]) [([97], 1)]).addTerms [[98]]).bind (fun v => .ok (v.getID [97], v.getID [98]))
    = .ok (some 1, some 1) := by decide +kernel

end Verif
