import Verif.Props.BertAgain
import Verif.Props.Commute
import Verif.Model.Notation

/-! The order of the normalizers in a sequence (C108). -/

set_option autoImplicit false

namespace Verif

/-- The table of lower-case letters sends ASCII to ASCII. -/
def AsciiCase (u : Uni) : Prop := ∀ r, ValidRune r → r < 0x80 → u.toLower r < 0x80

/-! ## Lower-casing and the other steps, character by character -/

theorem lowered_valid {u : Uni} (hu : StableCase u) {r : Rune} (h : ValidRune r) : sanitize (u.toLower r) = u.toLower r :=
  sanitize_of_valid (hu.valid r h)

theorem takeWhile_lowered {u : Uni} {cs : List Ch} (p : Rune → Bool) (hp : ∀ x ∈ cs, p (sanitize (u.toLower x.1)) = p x.1) :
    (cs.map (mapCh u.toLower)).takeWhile (fun x => p x.1) = (cs.takeWhile fun x => p x.1).map (mapCh u.toLower) := by
  induction cs with
  | nil => rfl
  | cons x cs ih =>
    have h := hp x (by simp)
    have ih := ih fun y hy => hp y (by simp [hy])
    have e : p (mapCh u.toLower x).1 = p x.1 := h
    simp only [List.map_cons, List.takeWhile_cons, e]
    cases p x.1 <;> simp [ih]

theorem dropWhile_lowered {u : Uni} {cs : List Ch} (p : Rune → Bool) (hp : ∀ x ∈ cs, p (sanitize (u.toLower x.1)) = p x.1) :
    (cs.map (mapCh u.toLower)).dropWhile (fun x => p x.1) = (cs.dropWhile fun x => p x.1).map (mapCh u.toLower) := by
  induction cs with
  | nil => rfl
  | cons x cs ih =>
    have h := hp x (by simp)
    have ih := ih fun y hy => hp y (by simp [hy])
    have e : p (mapCh u.toLower x).1 = p x.1 := h
    simp only [List.map_cons, List.dropWhile_cons, e]
    cases p x.1 <;> simp [ih]

theorem filter_lowered {u : Uni} {cs : List Ch} (p : Rune → Bool) (hp : ∀ x ∈ cs, p (sanitize (u.toLower x.1)) = p x.1) :
    ((cs.map (mapCh u.toLower)).filter fun x => !p x.1) = (cs.filter fun x => !p x.1).map (mapCh u.toLower) := by
  rw [List.filter_map]
  congr 1
  apply List.filter_congr
  intro x hx
  show (!p (sanitize (u.toLower x.1))) = _
  rw [hp x hx]

theorem ascii_lowered {u : Uni} (hu : StableCase u) (ha : AsciiCase u) {cs : List Ch} (hv : ValidChars cs) (h : AsciiChars cs) :
    AsciiChars (cs.map (mapCh u.toLower)) := by
  intro x hx
  obtain ⟨y, hy, rfl⟩ := List.mem_map.1 hx
  show sanitize (u.toLower y.1) < 0x80
  rw [lowered_valid hu (hv y hy)]
  exact ha _ (hv y hy) (h y hy)

theorem goodLead_lowered {u : Uni} (hu : StableCase u) (ha : AsciiCase u) {cs : List Ch} (hv : ValidChars cs) (p : Rune → Bool)
    (hp : ∀ r, ValidRune r → p (u.toLower r) = p r) (h : GoodLead p cs) : GoodLead p (cs.map (mapCh u.toLower)) := by
  have hp' : ∀ x ∈ cs, p (sanitize (u.toLower x.1)) = p x.1 := fun x hx => by rw [lowered_valid hu (hv x hx), hp _ (hv x hx)]
  rcases h with h | h
  · left
    intro x hx
    obtain ⟨y, hy, rfl⟩ := List.mem_map.1 hx
    show p (sanitize (u.toLower y.1)) = true
    rw [hp' y hy, h y hy]
  · right
    rw [takeWhile_lowered p hp']
    exact ascii_lowered hu ha (fun x hx => hv x (List.takeWhile_subset _ hx)) h

theorem trimSpec_lowered {u : Uni} (hu : StableCase u) (left right : Bool) {cs : List Ch} (hv : ValidChars cs) :
    trimSpec left right (cs.map (mapCh u.toLower)) = (trimSpec left right cs).map (mapCh u.toLower) := by
  have hp : ∀ x ∈ cs, isWhiteSpace (sanitize (u.toLower x.1)) = isWhiteSpace x.1 := fun x hx => by
    rw [lowered_valid hu (hv x hx), hu.white _ (hv x hx)]
  unfold trimSpec
  have e1 : (if left then (cs.map (mapCh u.toLower)).dropWhile (fun c => isWhiteSpace c.1) else cs.map (mapCh u.toLower))
      = (if left then cs.dropWhile (fun c => isWhiteSpace c.1) else cs).map (mapCh u.toLower) := by
    split
    · exact dropWhile_lowered _ hp
    · rfl
  have hl : ∀ x ∈ (if left then cs.dropWhile (fun c => isWhiteSpace c.1) else cs), x ∈ cs := by
    split
    · intro x hx; exact List.dropWhile_subset _ hx
    · intro x hx; exact hx
  dsimp only
  rw [e1]
  split
  · rw [← List.map_reverse, dropWhile_lowered _ (fun x hx => hp x (hl x (List.mem_reverse.1 hx))), List.map_reverse]
  · rfl

theorem lowered_valid_chars (u : Uni) (cs : List Ch) : ValidChars (cs.map (mapCh u.toLower)) := by
  intro x hx
  obtain ⟨y, -, rfl⟩ := List.mem_map.1 hx
  exact sanitize_valid _

theorem bertDrop_lowered {u : Uni} (hu : StableCase u) (c : BertCfg) {cs : List Ch} (hv : ValidChars cs) :
    bertDrop u c (cs.map (mapCh u.toLower)) = (bertDrop u c cs).map (mapCh u.toLower) := by
  unfold bertDrop
  split
  · exact filter_lowered _ fun x hx => by rw [lowered_valid hu (hv x hx), hu.dropped _ (hv x hx)]
  · rfl

theorem bertDrop_valid {u : Uni} (c : BertCfg) {cs : List Ch} (hv : ValidChars cs) : ValidChars (bertDrop u c cs) := by
  unfold bertDrop
  split
  · intro x hx; exact hv x (List.mem_filter.1 hx).1
  · exact hv

theorem bertSpaces_valid (c : BertCfg) {cs : List Ch} (hv : ValidChars cs) : ValidChars (bertSpaces c cs) := by
  have h1 : ValidChars (if c.textCleaning then cs.map fun x => (if isWhiteSpace x.1 then 0x20 else x.1, x.2) else cs) := by
    split
    · intro x hx
      obtain ⟨y, hy, rfl⟩ := List.mem_map.1 hx
      dsimp only
      split
      · decide
      · exact hv y hy
    · exact hv
  unfold bertSpaces
  dsimp only
  split
  · intro x hx
    obtain ⟨y, hy, hx⟩ := List.mem_flatMap.1 hx
    split at hx
    · simp only [List.mem_cons, List.not_mem_nil, or_false] at hx
      rcases hx with rfl | rfl | rfl
      · show ValidRune 0x20; decide
      · exact h1 _ hy
      · show ValidRune 0x20; decide
    · rw [List.mem_singleton] at hx
      exact hx ▸ h1 _ hy
  · exact h1

theorem bertSpaces_lowered {u : Uni} (hu : StableCase u) (c : BertCfg) {cs : List Ch} (hv : ValidChars cs) :
    bertSpaces c (cs.map (mapCh u.toLower)) = (bertSpaces c cs).map (mapCh u.toLower) := by
  have h20 : sanitize (u.toLower 0x20) = 0x20 := by rw [hu.space]; decide
  have e1 : (if c.textCleaning then (cs.map (mapCh u.toLower)).map fun x => (if isWhiteSpace x.1 then 0x20 else x.1, x.2) else cs.map (mapCh u.toLower))
      = (if c.textCleaning then cs.map fun x => (if isWhiteSpace x.1 then 0x20 else x.1, x.2) else cs).map (mapCh u.toLower) := by
    split
    · rw [List.map_map, List.map_map]
      apply List.map_congr_left
      intro x hx
      have hw := hu.white _ (hv x hx)
      simp only [Function.comp_apply, mapCh, lowered_valid hu (hv x hx), hw]
      split
      · rw [h20]
      · rw [lowered_valid hu (hv x hx)]
    · rfl
  have hv1 : ValidChars (if c.textCleaning then cs.map fun x => (if isWhiteSpace x.1 then 0x20 else x.1, x.2) else cs) := by
    have := bertSpaces_valid { c with chineseCharsHandling := false } hv
    simpa [bertSpaces] using this
  unfold bertSpaces
  dsimp only
  rw [e1]
  generalize (if c.textCleaning then cs.map fun x => (if isWhiteSpace x.1 then 0x20 else x.1, x.2) else cs) = l at hv1
  split
  · rw [List.flatMap_map, List.map_flatMap]
    rw [List.flatMap_def, List.flatMap_def]
    congr 1
    apply List.map_congr_left
    intro x hx
    have hc := hu.chinese _ (hv1 x hx)
    simp only [mapCh, lowered_valid hu (hv1 x hx), hc]
    split
    · simp only [List.map_cons, List.map_nil, mapCh, h20, lowered_valid hu (hv1 x hx)]
    · simp only [List.map_cons, List.map_nil, mapCh, lowered_valid hu (hv1 x hx)]
  · rfl

theorem bertAccents_lowered {u : Uni} (hu : StableCase u) (c : BertCfg) {cs : List Ch} (hv : ValidChars cs) :
    bertAccents u c (cs.map (mapCh u.toLower)) = (bertAccents u c cs).map (mapCh u.toLower) := by
  unfold bertAccents
  split
  · exact filter_lowered _ fun x hx => by rw [lowered_valid hu (hv x hx), hu.marks _ (hv x hx)]
  · rfl

theorem lowered_twice {u : Uni} (hu : StableCase u) {cs : List Ch} (hv : ValidChars cs) :
    (cs.map (mapCh u.toLower)).map (mapCh u.toLower) = cs.map (mapCh u.toLower) := by
  rw [List.map_map]
  apply List.map_congr_left
  intro x hx
  simp only [Function.comp_apply, mapCh, lowered_valid hu (hv x hx), hu.twice _ (hv x hx)]

theorem bertAccents_valid {u : Uni} (c : BertCfg) {cs : List Ch} (hv : ValidChars cs) : ValidChars (bertAccents u c cs) := by
  unfold bertAccents
  split
  · intro x hx; exact hv x (List.mem_filter.1 hx).1
  · exact hv

/-- The text of the normalizer that lower-cases, and lower-casing before or after it. -/
theorem bertSpec_lower {u : Uni} (hu : StableCase u) (c : BertCfg) {cs : List Ch} (hv : ValidChars cs) :
    bertSpec u c (cs.map (mapCh u.toLower)) = bertSpec u { c with lowerCaseEnabled := true } cs
      ∧ (bertSpec u c cs).map (mapCh u.toLower) = bertSpec u { c with lowerCaseEnabled := true } cs := by
  have hv3 : ValidChars (bertAccents u c (bertSpaces c (bertDrop u c cs))) := bertAccents_valid c (bertSpaces_valid c (bertDrop_valid c hv))
  have e1 : bertSpec u { c with lowerCaseEnabled := true } cs
      = (bertAccents u c (bertSpaces c (bertDrop u c cs))).map (mapCh u.toLower) := rfl
  have e2 : bertSpec u c (cs.map (mapCh u.toLower))
      = bertLower u c ((bertAccents u c (bertSpaces c (bertDrop u c cs))).map (mapCh u.toLower)) := by
    unfold bertSpec
    rw [bertDrop_lowered hu c hv, bertSpaces_lowered hu c (bertDrop_valid c hv), bertAccents_lowered hu c (bertSpaces_valid c (bertDrop_valid c hv))]
  have e3 : bertSpec u c cs = bertLower u c (bertAccents u c (bertSpaces c (bertDrop u c cs))) := rfl
  rw [e1, e2, e3]
  unfold bertLower
  have tw := lowered_twice hu hv3
  split
  · exact ⟨tw, tw⟩
  · exact ⟨rfl, rfl⟩

/-! ## The sequences -/

theorem sequence_two {f g : NormalizeFunc} {ns n1 n2 : NS} (h1 : f ns = .ok (n1, none)) (h2 : g n1 = .ok (n2, none)) :
    sequenceNormalize [f, g] ns = .ok (n2, none) := by
  simp [sequenceNormalize, h1, h2]

theorem lowerCase_eq (u : Uni) {ns n1 : NS} (h : ns.map u.toLower = .ok n1) : lowerCaseNormalize u ns = .ok (n1, none) := by
  have : ns.toLower u.toLower = .ok n1 := h
  simp [lowerCaseNormalize, this]

theorem strip_eq {left right : Bool} {ns n1 : NS} (h : ns.trimLeftRight left right = .ok n1) : stripNormalize left right ns = .ok (n1, none) := by
  simp [stripNormalize, h]

/-- **C108, stripping.** Lower-casing and stripping, in either order, leave the same string: the same text and the same place in the
original for every byte. -/
theorem C108_lower_strip {u : Uni} (hu : StableCase u) (ha : AsciiCase u) {ns : NS} {cs : List Ch} (h : Repr ns cs) (left right : Bool)
    (hlead : left = false ∨ (∀ c ∈ cs, isWhiteSpace c.1 = true) ∨ AsciiChars (cs.takeWhile fun c => isWhiteSpace c.1)) :
    ∃ ns', sequenceNormalize [lowerCaseNormalize u, stripNormalize left right] ns = .ok (ns', none)
      ∧ sequenceNormalize [stripNormalize left right, lowerCaseNormalize u] ns = .ok (ns', none)
      ∧ Repr ns' ((trimSpec left right cs).map (mapCh u.toLower)) := by
  have hv := h.valid
  obtain ⟨m1, a1, a2, a3, a4⟩ := C05_map h u.toLower
  have hlead' : left = false ∨ (∀ c ∈ cs.map (mapCh u.toLower), isWhiteSpace c.1 = true)
      ∨ AsciiChars ((cs.map (mapCh u.toLower)).takeWhile fun c => isWhiteSpace c.1) := by
    rcases hlead with h | h
    · exact .inl h
    · exact .inr (goodLead_lowered hu ha hv isWhiteSpace hu.white h)
  obtain ⟨m2, b1, b2, b3, b4⟩ := C07_trim_partial a2 left right hlead'
  obtain ⟨k1, c1, c2, c3, c4⟩ := C07_trim_partial h left right hlead
  obtain ⟨k2, d1, d2, d3, d4⟩ := C05_map c2 u.toLower
  have e : m2 = k2 := by
    refine same_state (ns := ns) (cs := (trimSpec left right cs).map (mapCh u.toLower)) ⟨?_, by rw [b3, a3], by rw [b4, a4]⟩
      ⟨d2, by rw [d3, c3], by rw [d4, c4]⟩
    rw [← trimSpec_lowered hu left right hv]
    exact b2
  refine ⟨m2, sequence_two (lowerCase_eq u a1) (strip_eq b1), ?_, e ▸ d2⟩
  rw [e]
  exact sequence_two (strip_eq c1) (lowerCase_eq u d1)

/-- **C108, BERT.** Lower-casing before the BERT normalizer, or after it, is the BERT normalizer that lower-cases: the same text and the
same place in the original for every byte, whatever else the normalizer is told to do. -/
theorem C108_lower_bert {u : Uni} (hu : StableCase u) (ha : AsciiCase u) {ns : NS} {cs : List Ch} (h : Repr ns cs) (c : BertCfg)
    (h1 : c.textCleaning = true → GoodLead (bertDropped u) cs)
    (h2 : c.accentsStripping = true → GoodLead u.isMn (bertSpaces c (bertDrop u c cs))) :
    ∃ ns', sequenceNormalize [lowerCaseNormalize u, bertNormalize u c] ns = .ok (ns', none)
      ∧ sequenceNormalize [bertNormalize u c, lowerCaseNormalize u] ns = .ok (ns', none)
      ∧ bertNormalize u { c with lowerCaseEnabled := true } ns = .ok (ns', none)
      ∧ Repr ns' (bertSpec u { c with lowerCaseEnabled := true } cs) := by
  have hv := h.valid
  obtain ⟨s1, s2⟩ := bertSpec_lower hu c hv
  obtain ⟨n, x1, x2, x3, x4⟩ := C34_bert_partial h u { c with lowerCaseEnabled := true } h1 h2
  obtain ⟨m1, a1, a2, a3, a4⟩ := C05_map h u.toLower
  have a2 : Repr m1 (cs.map (mapCh u.toLower)) := a2
  obtain ⟨m2, b1, b2, b3, b4⟩ := C34_bert_partial a2 u c (fun ht => goodLead_lowered hu ha hv _ hu.dropped (h1 ht)) (fun ht => by
    rw [bertDrop_lowered hu c hv, bertSpaces_lowered hu c (bertDrop_valid c hv)]
    exact goodLead_lowered hu ha (bertSpaces_valid c (bertDrop_valid c hv)) _ hu.marks (h2 ht))
  obtain ⟨k1, c1, c2, c3, c4⟩ := C34_bert_partial h u c h1 h2
  obtain ⟨k2, d1, d2, d3, d4⟩ := C05_map c2 u.toLower
  have d2 : Repr k2 ((bertSpec u c cs).map (mapCh u.toLower)) := d2
  rw [s1] at b2
  rw [s2] at d2
  have e1 : m2 = n := same_state (ns := ns) ⟨b2, by rw [b3, a3], by rw [b4, a4]⟩ ⟨x2, x3, x4⟩
  have e2 : k2 = n := same_state (ns := ns) ⟨d2, by rw [d3, c3], by rw [d4, c4]⟩ ⟨x2, x3, x4⟩
  refine ⟨n, ?_, ?_, x1, x2⟩
  · rw [← e1]
    exact sequence_two (lowerCase_eq u a1) b1
  · rw [← e2]
    exact sequence_two c1 (lowerCase_eq u d1)

/-! ## The tables of Unicode -/

theorem ascii_side : ∀ e ∈ Unicode.tableLower, e.1 < 0x80 → e.2.2.2 + (e.2.1 - e.1) < 0x80 := by decide +kernel

/-- **C108, Unicode.** What C108 asks holds of the tables of Unicode. -/
theorem C108_unicode : StableCase Unicode.uni ∧ AsciiCase Unicode.uni := by
  refine ⟨C103_unicode, ?_⟩
  intro r hv hr
  show Unicode.toLower r < 0x80
  unfold Unicode.toLower
  split
  · rcases Unicode.lowerNat_cases Unicode.tableLower r.toNat with ⟨h', -⟩ | ⟨e, he, h', hl⟩
    · rw [h']; omega
    · rw [Unicode.applies_iff] at h'
      have := ascii_side e he (by omega)
      omega
  · exact hr

/-- **C108, a counterexample.** Stripping a leading white space of more than one byte reads the places of the other characters at the wrong
bytes, so it matters whether lower-casing has already changed their lengths. -/
theorem C108_counterexample : ∃ ns : NS, Reachable ns
    ∧ sequenceNormalize [lowerCaseNormalize Unicode.uni, stripNormalize true true] ns
      ≠ sequenceNormalize [stripNormalize true true, lowerCaseNormalize Unicode.uni] ns :=
  ⟨NS.fromString b!"\u2003İa", ⟨b!"\u2003İa", by decide +kernel, .none⟩, by decide +kernel⟩

/-- `Å` and `İ` between white space. -/
example : (do let (n, e) ← sequenceNormalize [lowerCaseNormalize Unicode.uni, stripNormalize true true] (NS.fromString b!" Åİ ")
              pure (n.normalized, n.alignments, e) : GoM _) = .ok (b!"åi", [⟨1, 3⟩, ⟨1, 3⟩, ⟨3, 5⟩], none) := by decide +kernel

/-- A normalizer told not to lower-case, after a lower-casing one. -/
example : (do let (n, e) ← sequenceNormalize [lowerCaseNormalize Unicode.uni, bertNormalize Unicode.uni ⟨true, true, true, false⟩] (NS.fromString b!"A丁")
              pure (n.normalized, e) : GoM _) = .ok (b!"a 丁 ", none) := by decide +kernel

end Verif
