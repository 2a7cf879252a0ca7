import Verif.Props.Whole

/-! Property C34: what `BertNormalizer` does to the text; the other normalizers. -/

set_option autoImplicit false

namespace Verif

/-! ## Specification -/

/-- Runes removed by text cleaning: NUL, U+FFFD and control characters other than tab, line
feed and carriage return. -/
def bertDropped (u : Uni) (r : Rune) : Bool :=
  r == 0 || r == 0xFFFD || (u.isOther r && !(r == 0x09 || r == 0x0A || r == 0x0D))

/-- The first half of text cleaning. -/
def bertDrop (u : Uni) (c : BertCfg) (cs : List Ch) : List Ch :=
  if c.textCleaning then cs.filter fun x => !bertDropped u x.1 else cs

/-- White space becomes a simple space (the second half of text cleaning); spaces go around
Chinese characters. -/
def bertSpaces (c : BertCfg) (cs : List Ch) : List Ch :=
  let cs := if c.textCleaning then cs.map fun x => (if isWhiteSpace x.1 then 0x20 else x.1, x.2) else cs
  if c.chineseCharsHandling then
    cs.flatMap fun x => if isChinese x.1 then [(0x20, x.2), x, (0x20, x.2)] else [x]
  else cs

/-- Non-spacing marks are removed. -/
def bertAccents (u : Uni) (c : BertCfg) (cs : List Ch) : List Ch :=
  if c.accentsStripping then cs.filter fun x => !u.isMn x.1 else cs

/-- Letters are lower-cased; a result that is no Unicode scalar value becomes U+FFFD. -/
def bertLower (u : Uni) (c : BertCfg) (cs : List Ch) : List Ch :=
  if c.lowerCaseEnabled then cs.map fun x => (sanitize (u.toLower x.1), x.2) else cs

/-- The four steps in order. -/
def bertSpec (u : Uni) (c : BertCfg) (cs : List Ch) : List Ch :=
  bertLower u c (bertAccents u c (bertSpaces c (bertDrop u c cs)))

/-! ## The steps -/

theorem cleanKeep_eq (u : Uni) (r : Rune) : cleanKeep u r = !bertDropped u r := by
  unfold cleanKeep bertDropped isControlCharacter runeError
  by_cases h : r = 9 ∨ r = 10 ∨ r = 13
  · rw [if_pos h]
    have : (r == 0x09 || r == 0x0A || r == 0x0D) = true := by
      simp only [Bool.or_eq_true, beq_iff_eq]; omega
    rw [this]; simp
  · rw [if_neg h]
    have : (r == 0x09 || r == 0x0A || r == 0x0D) = false := by
      simp only [Bool.or_eq_false_iff, beq_eq_false_iff_ne]; omega
    rw [this]; simp

theorem cleanMap_eq (r : Rune) : cleanMap r = if isWhiteSpace r then 0x20 else r := by
  unfold cleanMap bertIsWhitespace
  by_cases h : r = 9 ∨ r = 10 ∨ r = 13
  · rw [if_pos h]
    have : isWhiteSpace r = true := by
      unfold isWhiteSpace
      rcases h with rfl | rfl | rfl <;> decide
    rw [this]
  · rw [if_neg h]

theorem cleanMap_valid {r : Rune} (h : ValidRune r) : ValidRune (cleanMap r) := by
  unfold cleanMap
  split
  · decide
  · exact h

theorem specTransform_chinese (prev : Align) (cs : List Ch) (hv : ValidChars cs) :
    specTransform prev ((cs.map (·.1)).flatMap chineseChange) cs
      = some (cs.flatMap fun x => if isChinese x.1 then [(0x20, x.2), x, (0x20, x.2)] else [x]) := by
  induction cs generalizing prev with
  | nil => simp [specTransform]
  | cons c cs ih =>
    obtain ⟨h1, h2⟩ := validChars_cons.1 hv
    have hs := sanitize_of_valid h1
    have h32 : sanitize 0x20 = 0x20 := by decide
    have ih := ih c.2 h2
    simp only [List.map_cons, List.flatMap_cons]
    by_cases hc : isChinese c.1 = true
    · have hx : chineseChange c.1 = [⟨0x20, 0⟩, ⟨c.1, 1⟩, ⟨0x20, 1⟩] := by simp [chineseChange, hc]
      rw [hx]
      simp [hc, specTransform, hs, h32, lastAlign, ih]
    · have hx : chineseChange c.1 = [⟨c.1, 0⟩] := by simp [chineseChange, hc]
      rw [hx]
      simp [hc, specTransform, hs, lastAlign, ih]

theorem handleChineseChars_spec {ns : NS} {cs : List Ch} (h : Repr ns cs) :
    ∃ ns', handleChineseChars ns = .ok ns'
      ∧ Repr ns' (cs.flatMap fun x => if isChinese x.1 then [(0x20, x.2), x, (0x20, x.2)] else [x])
      ∧ ns'.original = ns.original ∧ ns'.originalShift = ns.originalShift := by
  have := transform_spec (ns := ns) (skip := []) (mid := cs) (by simpa using h)
    ((cs.map (·.1)).flatMap chineseChange) (io := 0) (by simp)
  rw [specTransform_chinese _ _ h.valid] at this
  unfold handleChineseChars
  rw [h.runes]
  exact this

/-- The runes dropped before the first kept one are ASCII, or nothing is kept: the condition
under which `Filter` works (C06). -/
def GoodLead (drop : Rune → Bool) (cs : List Ch) : Prop :=
  (∀ c ∈ cs, drop c.1 = true) ∨ AsciiChars (cs.takeWhile fun c => drop c.1)

theorem filter_good {ns : NS} {cs : List Ch} (h : Repr ns cs) {keep drop : Rune → Bool}
    (hk : ∀ r, keep r = !drop r) (hg : GoodLead drop cs) :
    ∃ ns', ns.filter keep = .ok ns' ∧ Repr ns' (cs.filter fun c => !drop c.1)
      ∧ ns'.original = ns.original ∧ ns'.originalShift = ns.originalShift := by
  have := C06_filter_partial h keep (by
    rcases hg with h | h
    · left; intro c hc; rw [hk, h c hc]; rfl
    · right
      have e : (fun c : Ch => !keep c.1) = fun c => drop c.1 := by funext c; rw [hk]; simp
      rw [e]; exact h)
  have e : (fun c : Ch => keep c.1) = fun c => !drop c.1 := by funext c; rw [hk]
  rw [e] at this
  exact this

theorem spaces_step {ns : NS} {cs : List Ch} (h : Repr ns cs) :
    ∃ ns', ns.map cleanMap = .ok ns' ∧ Repr ns' (cs.map fun x => (if isWhiteSpace x.1 then 0x20 else x.1, x.2))
      ∧ ns'.original = ns.original ∧ ns'.originalShift = ns.originalShift := by
  obtain ⟨n, h1, h2, h3⟩ := C05_map h cleanMap
  refine ⟨n, h1, ?_, h3⟩
  have e : (cs.map fun c => (sanitize (cleanMap c.1), c.2))
      = cs.map fun x => (if isWhiteSpace x.1 then 0x20 else x.1, x.2) := by
    apply List.map_congr_left
    intro c hc
    rw [sanitize_of_valid (cleanMap_valid (h.valid c hc)), cleanMap_eq]
  rw [← e]; exact h2

/-- **C34 (partial).** On every valid state, for every setting of the four flags: if no
multi-byte rune is removed before the first kept one (in text cleaning, and in accent
stripping), `BertNormalizer.Normalize` does not panic and the characters, with their
alignments, are those of the specification.  Missing: a multi-byte rune (U+FEFF, U+00AD, a
leading accent, …) removed at the front makes `Filter` panic or misalign, see
`C34_counterexample`; the text is right in all cases without a panic, `C34_text`. -/
theorem C34_bert_partial {ns : NS} {cs : List Ch} (h : Repr ns cs) (u : Uni) (c : BertCfg)
    (h1 : c.textCleaning = true → GoodLead (bertDropped u) cs)
    (h2 : c.accentsStripping = true → GoodLead u.isMn (bertSpaces c (bertDrop u c cs))) :
    ∃ ns', bertNormalize u c ns = .ok (ns', none) ∧ Repr ns' (bertSpec u c cs)
      ∧ ns'.original = ns.original ∧ ns'.originalShift = ns.originalShift := by
  obtain ⟨n1, a1, a2, a3, a4⟩ : ∃ n1, (if c.textCleaning = true then cleanText u ns else pure ns) = .ok n1
      ∧ Repr n1 (if c.textCleaning then (bertDrop u c cs).map fun x => (if isWhiteSpace x.1 then 0x20 else x.1, x.2)
          else bertDrop u c cs)
      ∧ n1.original = ns.original ∧ n1.originalShift = ns.originalShift := by
    by_cases ht : c.textCleaning = true
    · obtain ⟨m1, x1, x2, x3, x4⟩ := filter_good h (cleanKeep_eq u) (h1 ht)
      obtain ⟨m2, y1, y2, y3, y4⟩ := spaces_step x2
      simp only [ht, if_true, bertDrop]
      exact ⟨m2, by simp [cleanText, x1, y1], y2, by rw [y3, x3], by rw [y4, x4]⟩
    · simp only [ht, bertDrop]
      exact ⟨ns, rfl, h, rfl, rfl⟩
  obtain ⟨n2, b1, b2, b3, b4⟩ : ∃ n2, (if c.chineseCharsHandling = true then handleChineseChars n1 else pure n1)
      = .ok n2 ∧ Repr n2 (bertSpaces c (bertDrop u c cs))
      ∧ n2.original = ns.original ∧ n2.originalShift = ns.originalShift := by
    unfold bertSpaces
    simp only
    by_cases hc : c.chineseCharsHandling = true
    · obtain ⟨m, x1, x2, x3, x4⟩ := handleChineseChars_spec a2
      rw [if_pos hc, if_pos hc]
      exact ⟨m, x1, x2, by rw [x3, a3], by rw [x4, a4]⟩
    · rw [if_neg hc, if_neg hc]
      exact ⟨n1, rfl, a2, a3, a4⟩
  obtain ⟨n3, d1, d2, d3, d4⟩ : ∃ n3, (if c.accentsStripping = true then stripAccents u n2 else pure n2)
      = .ok n3 ∧ Repr n3 (bertAccents u c (bertSpaces c (bertDrop u c cs)))
      ∧ n3.original = ns.original ∧ n3.originalShift = ns.originalShift := by
    unfold bertAccents
    by_cases hc : c.accentsStripping = true
    · obtain ⟨m, x1, x2, x3, x4⟩ := filter_good b2 (keep := fun r => !u.isMn r) (drop := u.isMn) (fun _ => rfl) (h2 hc)
      rw [if_pos hc, if_pos hc]
      exact ⟨m, x1, x2, by rw [x3, b3], by rw [x4, b4]⟩
    · rw [if_neg hc, if_neg hc]
      exact ⟨n2, rfl, b2, b3, b4⟩
  obtain ⟨n4, e1, e2, e3, e4⟩ : ∃ n4, (if c.lowerCaseEnabled = true then n3.toLower u.toLower else pure n3)
      = .ok n4 ∧ Repr n4 (bertSpec u c cs)
      ∧ n4.original = ns.original ∧ n4.originalShift = ns.originalShift := by
    unfold bertSpec bertLower
    by_cases hc : c.lowerCaseEnabled = true
    · obtain ⟨m, x1, x2, x3, x4⟩ := C05_toLower d2 u.toLower
      rw [if_pos hc, if_pos hc]
      exact ⟨m, x1, x2, by rw [x3, d3], by rw [x4, d4]⟩
    · rw [if_neg hc, if_neg hc]
      exact ⟨n3, rfl, d2, d3, d4⟩
  refine ⟨n4, ?_, e2, e3, e4⟩
  simp only [bertNormalize]
  rw [ite_bind, a1, GoM.bind_ok, ite_bind, b1, GoM.bind_ok, ite_bind, d1, GoM.bind_ok, ite_bind, e1, GoM.bind_ok]
  rfl

/-! ## The text in all cases -/

/-- The same steps on runes only. -/
def bertText (u : Uni) (c : BertCfg) (rs : List Rune) : List Rune :=
  let rs := if c.textCleaning then
      (rs.filter fun r => !bertDropped u r).map fun r => if isWhiteSpace r then 0x20 else r else rs
  let rs := if c.chineseCharsHandling then rs.flatMap fun r => if isChinese r then [0x20, r, 0x20] else [r] else rs
  let rs := if c.accentsStripping then rs.filter fun r => !u.isMn r else rs
  if c.lowerCaseEnabled then rs.map fun r => sanitize (u.toLower r) else rs

/-- A valid state and its runes. -/
def HasRunes (ns : NS) (rs : List Rune) : Prop := ∃ cs, Repr ns cs ∧ cs.map (·.1) = rs

theorem filter_runes {ns ns' : NS} {rs : List Rune} (h : HasRunes ns rs) {keep : Rune → Bool}
    (hf : ns.filter keep = .ok ns') : HasRunes ns' (rs.filter keep) := by
  obtain ⟨cs, h, rfl⟩ := h
  have ht := C54_filter_text h hf
  have hru : runesOf ns.get = cs.map (·.1) := h.runes
  rw [hru] at ht
  obtain ⟨out, k1, -⟩ := transform_whole h hf
  refine ⟨out, k1, ?_⟩
  have hv : ∀ (cs : List Ch), ValidChars cs → ∀ r ∈ cs.map (·.1), ValidRune r := by
    intro cs hc r hr
    obtain ⟨x, hx, rfl⟩ := List.mem_map.1 hr
    exact hc x hx
  apply encodeRunes_inj (hv out k1.valid)
  · intro r hr
    exact hv cs h.valid r (List.mem_filter.1 hr).1
  · rw [← ht]; exact k1.text_eq.symm

/-- **C34, text.** On every valid state, for every setting of the four flags: whenever
`BertNormalizer.Normalize` does not panic it returns no error and the text is: control, NUL
and U+FFFD runes removed and white space mapped to a space (if enabled), each Chinese rune
between spaces (if enabled), non-spacing marks removed (if enabled), then lower-cased (if
enabled). -/
theorem C34_text {ns ns' : NS} {cs : List Ch} (h : Repr ns cs) {u : Uni} {c : BertCfg} {e : Option Err}
    (hb : bertNormalize u c ns = .ok (ns', e)) :
    e = none ∧ ns'.get = encodeRunes (bertText u c (runesOf ns.get)) := by
  have hru : runesOf ns.get = cs.map (·.1) := h.runes
  have h0 : HasRunes ns (runesOf ns.get) := ⟨cs, h, hru.symm⟩
  generalize runesOf ns.get = rs at h0
  simp only [bertNormalize] at hb
  rw [ite_bind, GoM.bind_eq_ok] at hb
  obtain ⟨n1, h1, hb⟩ := hb
  rw [ite_bind, GoM.bind_eq_ok] at hb
  obtain ⟨n2, h2, hb⟩ := hb
  rw [ite_bind, GoM.bind_eq_ok] at hb
  obtain ⟨n3, h3, hb⟩ := hb
  rw [ite_bind, GoM.bind_eq_ok] at hb
  obtain ⟨n4, h4, hb⟩ := hb
  simp at hb
  obtain ⟨rfl, rfl⟩ := hb
  refine ⟨rfl, ?_⟩
  unfold bertText
  simp only
  have k1 : HasRunes n1 (if c.textCleaning then
      (rs.filter fun r => !bertDropped u r).map fun r => if isWhiteSpace r then 0x20 else r else rs) := by
    by_cases ht : c.textCleaning = true
    · rw [if_pos ht] at h1 ⊢
      simp only [cleanText, GoM.bind_eq_ok] at h1
      obtain ⟨m, x1, x2⟩ := h1
      obtain ⟨cm, y1, y2⟩ := filter_runes h0 x1
      obtain ⟨m2, z1, z2, -⟩ := spaces_step y1
      rw [x2] at z1
      simp at z1; subst z1
      refine ⟨_, z2, ?_⟩
      have e : (fun r => cleanKeep u r) = fun r => !bertDropped u r := by funext r; exact cleanKeep_eq u r
      rw [← e, ← y2]
      simp
    · rw [if_neg ht] at h1 ⊢
      simp at h1; subst h1; exact h0
  generalize (if c.textCleaning then
      (rs.filter fun r => !bertDropped u r).map fun r => if isWhiteSpace r then 0x20 else r else rs) = rs1 at k1
  have k2 : HasRunes n2 (if c.chineseCharsHandling then
      rs1.flatMap fun r => if isChinese r then [0x20, r, 0x20] else [r] else rs1) := by
    by_cases ht : c.chineseCharsHandling = true
    · rw [if_pos ht] at h2 ⊢
      obtain ⟨c1, y1, rfl⟩ := k1
      obtain ⟨m, x1, x2, -⟩ := handleChineseChars_spec y1
      rw [h2] at x1
      simp at x1; subst x1
      refine ⟨_, x2, ?_⟩
      rw [List.map_flatMap, List.flatMap_map]
      congr 1
      funext x
      split <;> rfl
    · rw [if_neg ht] at h2 ⊢
      simp at h2; subst h2; exact k1
  generalize (if c.chineseCharsHandling then
      rs1.flatMap fun r => if isChinese r then [0x20, r, 0x20] else [r] else rs1) = rs2 at k2
  have k3 : HasRunes n3 (if c.accentsStripping then rs2.filter fun r => !u.isMn r else rs2) := by
    by_cases ht : c.accentsStripping = true
    · rw [if_pos ht] at h3 ⊢
      exact filter_runes k2 h3
    · rw [if_neg ht] at h3 ⊢
      simp at h3; subst h3; exact k2
  generalize (if c.accentsStripping then rs2.filter fun r => !u.isMn r else rs2) = rs3 at k3
  have k4 : HasRunes n4 (if c.lowerCaseEnabled then rs3.map fun r => sanitize (u.toLower r) else rs3) := by
    by_cases ht : c.lowerCaseEnabled = true
    · rw [if_pos ht] at h4 ⊢
      obtain ⟨c3, y1, rfl⟩ := k3
      obtain ⟨m, x1, x2, -⟩ := C05_toLower y1 u.toLower
      rw [h4] at x1
      simp at x1; subst x1
      exact ⟨_, x2, by simp⟩
    · rw [if_neg ht] at h4 ⊢
      simp at h4; subst h4; exact k3
  obtain ⟨c4, y1, y2⟩ := k4
  rw [← y2]
  exact y1.text_eq

/-- **C34 is false** as stated: a byte order mark (a control character of category Cf) in
front of the text makes the normalizer panic. -/
theorem C34_counterexample : ∃ (u : Uni) (ns : NS), Reachable ns ∧ (∃ cs, Repr ns cs)
    ∧ bertNormalize u ⟨true, false, false, false⟩ ns = .panic :=
  ⟨⟨fun r => r == 0xFEFF, fun _ => false, fun _ => false, id⟩, NS.fromString b!"﻿hello",
    .of_ops (s := b!"﻿hello") (ops := []) (by decide +kernel) rfl, ⟨_, fromString_repr (by decide +kernel)⟩, by decide +kernel⟩

/-- Non-vacuity: all four steps at work. -/
example :
    let u : Uni := ⟨fun r => r == 1, fun r => r == 0x301, fun _ => false, fun r => if r == u!"A" then u!"a" else r⟩
    bertNormalize u ⟨true, true, true, true⟩ (NS.fromString b!"\x01Aé\t世")
      = .ok (⟨b!"\x01Aé\t世", b!"ae  世 ",
          [⟨1, 2⟩, ⟨2, 3⟩, ⟨5, 6⟩, ⟨6, 9⟩, ⟨6, 9⟩, ⟨6, 9⟩, ⟨6, 9⟩, ⟨6, 9⟩], 0⟩, none) := by decide +kernel

/-! ## The other normalizers -/

/-- **C55.** `LowerCaseNormalizer` and `StripNormalizer` are `ToLower` and `TrimLeftRight`:
lower-casing never panics on a valid state and keeps alignments; stripping, when it does not
panic, leaves the text without outer white space and never fails. -/
theorem C55_lower_strip {ns : NS} {cs : List Ch} (h : Repr ns cs) (u : Uni) :
    (∃ ns', lowerCaseNormalize u ns = .ok (ns', none)
      ∧ Repr ns' (cs.map fun c => (sanitize (u.toLower c.1), c.2)))
    ∧ ∀ left right ns' e, stripNormalize left right ns = .ok (ns', e) →
        e = none ∧ ns'.get = text (trimSpec left right cs) := by
  constructor
  · obtain ⟨n, h1, h2, -⟩ := C05_toLower h u.toLower
    exact ⟨n, by simp [lowerCaseNormalize, h1], h2⟩
  · intro left right ns' e hs
    simp only [stripNormalize, GoM.bind_eq_ok] at hs
    obtain ⟨m, h1, h2⟩ := hs
    simp at h2
    obtain ⟨rfl, rfl⟩ := h2
    exact ⟨rfl, C54_trim_text h h1⟩

end Verif
