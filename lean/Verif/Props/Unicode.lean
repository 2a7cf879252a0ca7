import Verif.Model.Unicode
import Verif.Props.GptFiles
import Verif.Props.BertPipeline
import Verif.Props.Laws
import Verif.Props.Unique
import Verif.Model.Notation

/-! C94: what the properties assume about character tables is true of those of Unicode. -/

set_option autoImplicit false

namespace Verif.Unicode

/-! ## Checks on tables -/

/-- No range of one table meets a range of the other. -/
def disjoint (s t : List (Nat × Nat)) : Bool :=
  s.all fun x => t.all fun y => Nat.blt x.2 y.1 || Nat.blt y.2 x.1

theorem disjoint_spec {s t : List (Nat × Nat)} (h : disjoint s t = true) (r : Rune) (hs : inTable s r = true) : inTable t r = false := by
  unfold inTable at *
  rw [Bool.and_eq_true] at hs
  obtain ⟨h0, hs⟩ := hs
  obtain ⟨x, hx, hxr⟩ := List.any_eq_true.1 hs
  cases ht : t.any (fun x => Nat.ble x.1 r.toNat && Nat.ble r.toNat x.2) with
  | false => simp
  | true =>
    obtain ⟨y, hy, hyr⟩ := List.any_eq_true.1 ht
    have := List.all_eq_true.1 (List.all_eq_true.1 h x hx) y hy
    simp only [Nat.blt_eq, Nat.ble_eq, Bool.and_eq_true, Bool.or_eq_true] at this hxr hyr
    omega

/-- The white space of the model as a table. -/
def tableSpace : List (Nat × Nat) :=
  [(9, 13), (32, 32), (0x85, 0x85), (0xA0, 0xA0), (0x1680, 0x1680), (0x2000, 0x200A), (0x2028, 0x2029), (0x202F, 0x202F),
   (0x205F, 0x205F), (0x3000, 0x3000)]

theorem space_eq (r : Rune) : isWhiteSpace r = inTable tableSpace r := by
  rw [Bool.eq_iff_iff]
  simp only [isWhiteSpace, inTable, tableSpace, List.any_cons, List.any_nil, Bool.or_eq_true, Bool.and_eq_true,
    decide_eq_true_eq, beq_iff_eq, Nat.ble_eq, Bool.or_false]
  omega

/-- Where an entry of the table of lower case letters applies. -/
def domain (e : Nat × Nat × Nat × Nat) : Nat × Nat := (e.1, e.2.1)
def image (e : Nat × Nat × Nat × Nat) : Nat × Nat := (e.2.2.2, e.2.2.2 + (e.2.1 - e.1))

theorem lowerNat_cases (t : List (Nat × Nat × Nat × Nat)) (n : Nat) :
    (lowerNat t n = n ∧ ∀ e ∈ t, applies e n = false) ∨ ∃ e ∈ t, applies e n = true ∧ lowerNat t n = e.2.2.2 + (n - e.1) := by
  induction t with
  | nil => exact .inl ⟨rfl, by simp⟩
  | cons e t ih =>
    unfold lowerNat
    cases h : applies e n with
    | true => exact .inr ⟨e, by simp, h, by simp⟩
    | false =>
      rcases ih with ⟨a, b⟩ | ⟨e', he', a, b⟩
      · refine .inl ⟨by simpa using a, ?_⟩
        intro e' he'
        rcases List.mem_cons.1 he' with rfl | he'
        · exact h
        · exact b e' he'
      · exact .inr ⟨e', by simp [he'], a, by simpa using b⟩

theorem applies_iff {e : Nat × Nat × Nat × Nat} {n : Nat} : applies e n = true ↔ e.1 ≤ n ∧ n ≤ e.2.1 ∧ (n - e.1) % e.2.2.1 = 0 := by
  simp [applies, Nat.beq_eq, Nat.ble_eq, and_assoc]

theorem mem_table {t : List (Nat × Nat)} {r : Rune} (h0 : 0 ≤ r) {x : Nat × Nat} (hx : x ∈ t) (h1 : x.1 ≤ r.toNat) (h2 : r.toNat ≤ x.2) :
    inTable t r = true := by
  simp only [inTable, h0, decide_true, Bool.true_and]
  exact List.any_eq_true.2 ⟨x, hx, by simp [h1, h2, Nat.ble_eq]⟩

/-- A rune that changes, and its image. -/
theorem toLower_cases (r : Rune) : toLower r = r ∨ (0 ≤ r ∧ inTable (tableLower.map domain) r = true
    ∧ inTable (tableLower.map image) (toLower r) = true) := by
  unfold toLower
  split
  · next h0 =>
    rcases lowerNat_cases tableLower r.toNat with ⟨h, -⟩ | ⟨e, he, h, hl⟩
    · exact .inl (by rw [h]; omega)
    · rw [applies_iff] at h
      refine .inr ⟨h0, mem_table h0 (List.mem_map.2 ⟨e, he, rfl⟩) h.1 h.2.1, ?_⟩
      rw [hl]
      exact mem_table (by omega) (List.mem_map.2 ⟨e, he, rfl⟩) (by simp [image]; omega) (by simp [image]; omega)
  · exact .inl rfl

/-! ## The hypotheses -/

set_option maxRecDepth 20000

theorem lower_domain_space : disjoint (tableLower.map domain) tableSpace = true := by decide +kernel
theorem lower_image_space : disjoint (tableLower.map image) tableSpace = true := by decide +kernel
theorem letter_number : disjoint tableL tableN = true := by decide +kernel
theorem letter_space : disjoint tableL tableSpace = true := by decide +kernel
theorem number_space : disjoint tableN tableSpace = true := by decide +kernel

theorem toLower_space (r : Rune) : isWhiteSpace (toLower r) = isWhiteSpace r := by
  rcases toLower_cases r with h | ⟨-, h1, h2⟩
  · rw [h]
  · rw [space_eq, space_eq, disjoint_spec lower_domain_space _ h1, disjoint_spec lower_image_space _ h2]

/-- **C94.** The tables agree as C60, C65, C78, C83, C86, C87 and C90 ask. -/
theorem C94_sane : SaneTables rx := by
  refine ⟨?_, ?_, ?_, ?_, ?_⟩
  · exact toLower_space
  · intro r
    show toLower r = 32 ↔ r = 32
    rcases toLower_cases r with h | ⟨-, h1, h2⟩
    · rw [h]
    · have h1' := disjoint_spec lower_domain_space _ h1
      have h2' := disjoint_spec lower_image_space _ h2
      constructor
      · intro h; rw [h] at h2'; exact absurd h2' (by decide +kernel)
      · intro h; rw [h] at h1'; exact absurd h1' (by decide +kernel)
  · intro r h; exact disjoint_spec letter_number _ h
  · intro r h
    show isWhiteSpace _ = false
    rw [space_eq]
    exact disjoint_spec letter_space _ h
  · intro r h
    show isWhiteSpace _ = false
    rw [space_eq]
    exact disjoint_spec number_space _ h

/-! ## Categories and lower case -/

/-- Of a rune that changes and its image both are in the table, or neither is. -/
def sameSide (t : List (Nat × Nat)) : Bool :=
  tableLower.all fun e =>
    ((t.any fun x => Nat.ble x.1 (domain e).1 && Nat.ble (domain e).2 x.2)
        && t.any fun x => Nat.ble x.1 (image e).1 && Nat.ble (image e).2 x.2)
      || (disjoint [domain e] t && disjoint [image e] t)
      || (List.range (e.2.1 - e.1 + 1)).all fun k => Nat.blt 0 (k % e.2.2.1) || inTable t (e.1 + k : Nat) == inTable t (e.2.2.2 + k : Nat)

theorem sameSide_spec {t : List (Nat × Nat)} (h : sameSide t = true) (r : Rune) : inTable t (toLower r) = inTable t r := by
  unfold toLower
  split
  · next h0 =>
    rcases lowerNat_cases tableLower r.toNat with ⟨h', -⟩ | ⟨e, he, h', hl⟩
    · rw [h', Int.toNat_of_nonneg h0]
    · rw [applies_iff] at h'
      have := List.all_eq_true.1 h e he
      simp only [Bool.or_eq_true, Bool.and_eq_true] at this
      rw [hl]
      have him : (image e).1 ≤ (((e.2.2.2 + (r.toNat - e.1) : Nat) : Int)).toNat
          ∧ (((e.2.2.2 + (r.toNat - e.1) : Nat) : Int)).toNat ≤ (image e).2 := by simp [image]; omega
      have hdo : (domain e).1 ≤ r.toNat ∧ r.toNat ≤ (domain e).2 := ⟨h'.1, h'.2.1⟩
      rcases this with (⟨h1, h2⟩ | ⟨h1, h2⟩) | h1
      · obtain ⟨x, hx, hx'⟩ := List.any_eq_true.1 h1
        obtain ⟨y, hy, hy'⟩ := List.any_eq_true.1 h2
        simp only [Bool.and_eq_true, Nat.ble_eq] at hx' hy'
        rw [mem_table (by omega) hy (Nat.le_trans hy'.1 him.1) (Nat.le_trans him.2 hy'.2),
          mem_table h0 hx (Nat.le_trans hx'.1 hdo.1) (Nat.le_trans hdo.2 hx'.2)]
      · rw [disjoint_spec h1 r (mem_table h0 (by simp) hdo.1 hdo.2),
          disjoint_spec h2 _ (mem_table (by omega) (by simp) him.1 him.2)]
      · have := List.all_eq_true.1 h1 (r.toNat - e.1) (List.mem_range.2 (by omega))
        simp only [Bool.or_eq_true, Nat.blt_eq, beq_iff_eq] at this
        rcases this with this | this
        · omega
        · rw [← this, show ((e.1 + (r.toNat - e.1) : Nat) : Int) = r by omega]
  · rfl

theorem letter_side : sameSide tableL = true := by decide +kernel
theorem number_side : sameSide tableN = true := by decide +kernel

/-- **C94, the four sorts.**  Although the expression looks at the lower case of each rune, its letters and numbers are those of categories L and N. -/
theorem C94_sort4 (r : Rune) : sort4 rx r = if inTable tableL r then .letter else if inTable tableN r then .number
    else if isWhiteSpace r then .white else .other := by
  have h1 : rx.letter r = inTable tableL r := sameSide_spec letter_side r
  have h2 : rx.number r = inTable tableN r := sameSide_spec number_side r
  have h3 : rx.space r = isWhiteSpace r := toLower_space r
  unfold sort4
  rw [h1, h2, h3]

theorem mn_side : sameSide tableMn = true := by decide +kernel
theorem nd_side : sameSide tableNd = true := by decide +kernel
theorem pc_side : sameSide tablePc = true := by decide +kernel
theorem joiner_side : sameSide [(0x200C, 0x200D)] = true := by decide +kernel

/-- **C94, `\w`.**  The word characters of the expression are those of categories L, Mn, Nd and Pc, and the two joiners U+200C and U+200D. -/
theorem C94_word (r : Rune) : rx.word r = true ↔ inTable tableL r = true ∨ inTable tableMn r = true ∨ inTable tableNd r = true
    ∨ inTable tablePc r = true ∨ r = 0x200C ∨ r = 0x200D := by
  have hj : ∀ x : Rune, inTable [(0x200C, 0x200D)] x = true ↔ x = 0x200C ∨ x = 0x200D := by
    intro x
    simp [inTable]
    omega
  have h := sameSide_spec joiner_side r
  have h' : (toLower r = 0x200C ∨ toLower r = 0x200D) ↔ (r = 0x200C ∨ r = 0x200D) := by rw [← hj, ← hj, h]
  show (inTable tableL (toLower r) || inTable tableMn (toLower r) || inTable tableNd (toLower r) || inTable tablePc (toLower r)
    || toLower r == 0x200C || toLower r == 0x200D) = true ↔ _
  rw [sameSide_spec letter_side, sameSide_spec mn_side, sameSide_spec nd_side, sameSide_spec pc_side]
  simp only [Bool.or_eq_true, beq_iff_eq, or_assoc, h']

example : rx.word 0x200C = true ∧ rx.word 0x5F = true ∧ rx.word 0x41 = true ∧ rx.word 0x2D = false ∧ rx.word 0x200E = false := by decide +kernel

/-- No image of one entry is changed by another: the ranges do not meet, or the runes of each have one parity, and the parities differ. -/
def stable : Bool :=
  tableLower.all fun e => tableLower.all fun e' =>
    Nat.blt (image e).2 (domain e').1 || Nat.blt (domain e').2 (image e).1
      || ((Nat.beq e.1 e.2.1 || Nat.beq e.2.2.1 2) && Nat.beq e'.2.2.1 2 && Nat.beq ((e.2.2.2 + e'.1) % 2) 1)

theorem stable_true : stable = true := by decide +kernel

/-- **C94, `unicode.ToLower`.** -/
theorem C94_toLower_twice (r : Rune) : toLower (toLower r) = toLower r := by
  by_cases h0 : 0 ≤ r
  · rcases lowerNat_cases tableLower r.toNat with ⟨h, -⟩ | ⟨e, he, h, hl⟩
    · have : toLower r = r := by simp only [toLower, h0, if_true, h]; omega
      rw [this, this]
    · have e1 : toLower r = ((e.2.2.2 + (r.toNat - e.1) : Nat) : Int) := by simp only [toLower, h0, if_true, hl]
      rw [e1]
      have : lowerNat tableLower (e.2.2.2 + (r.toNat - e.1)) = e.2.2.2 + (r.toNat - e.1) := by
        rcases lowerNat_cases tableLower (e.2.2.2 + (r.toNat - e.1)) with ⟨h', -⟩ | ⟨e', he', h', -⟩
        · exact h'
        · exfalso
          rw [applies_iff] at h h'
          have := List.all_eq_true.1 (List.all_eq_true.1 stable_true e he) e' he'
          simp only [Bool.or_eq_true, Bool.and_eq_true, Nat.blt_eq, Nat.beq_eq, image, domain] at this
          rcases this with (this | this) | ⟨⟨a, b⟩, c⟩
          · omega
          · omega
          · rw [b] at h'
            rcases a with a | a
            · omega
            · rw [a] at h; omega
      unfold toLower
      rw [if_pos (by omega)]
      simp only [Int.toNat_natCast, this]
  · simp [toLower, h0]

theorem image_bound : (tableLower.all fun e => Nat.blt (image e).2 0xD800 || (Nat.ble 0xE000 (image e).1 && Nat.ble (image e).2 0x10FFFF)) = true := by
  decide +kernel

theorem toLower_valid {r : Rune} (h : ValidRune r) : ValidRune (toLower r) := by
  rcases lowerNat_cases tableLower r.toNat with ⟨h', -⟩ | ⟨e, he, h', hl⟩
  · have : toLower r = r := by
      unfold toLower
      split
      · rw [h']; omega
      · rfl
    rw [this]; exact h
  · rw [applies_iff] at h'
    have := List.all_eq_true.1 image_bound e he
    simp only [Bool.or_eq_true, Bool.and_eq_true, Nat.blt_eq, Nat.ble_eq, image] at this
    unfold toLower
    split
    · rw [hl]
      unfold ValidRune
      omega
    · exact h

/-! ## Consequences -/

/-- **C94, the byte-level pre-tokenizer** with the tables of Unicode. -/
theorem C94_byteLevel (b : Bool) (rs : List Rune) (hv : ∀ r ∈ rs, ValidRune r) :
    ∃ pts L, byteLevel (splittingRegexp rx).findAll b (PTS.fromString (encodeRunes rs)) = .ok (pts, none)
      ∧ GptPieces rx [] (spacedRunes b rs) L
      ∧ pts.getOriginalByteSplits.map (·.string) = (L.map fun x => tableText x.2) := by
  obtain ⟨pts, L, h1, h2, h3⟩ := C60_byteLevel C94_sane b rs hv
  exact ⟨pts, L, h1, h2, by rw [h3, List.map_map]; rfl⟩

/-- **C94, `LowerCaseNormalizer`.**  Each character becomes its lower case; doing it twice is doing it once, in text and alignments. -/
theorem C94_lowerCase {ns : NS} {cs : List Ch} (h : Repr ns cs) :
    ∃ ns', lowerCaseNormalize uni ns = .ok (ns', none) ∧ Repr ns' (cs.map fun c => (toLower c.1, c.2))
      ∧ lowerCaseNormalize uni ns' = .ok (ns', none) := by
  obtain ⟨ns', e, hr, -, -⟩ := C05_toLower h uni.toLower
  have hr' : Repr ns' (cs.map fun c => (toLower c.1, c.2)) := by
    rw [show (cs.map fun c => (toLower c.1, c.2)) = cs.map fun c => (sanitize (uni.toLower c.1), c.2) from
      List.map_congr_left fun c hc => by
        rw [show uni.toLower c.1 = toLower c.1 from rfl, sanitize_of_valid (toLower_valid (h.valid c hc))]]
    exact hr
  have e2 : ns'.toLower uni.toLower = .ok ns' := C71_map_id hr' (by
    have : runesOf ns'.get = (cs.map fun c => (toLower c.1, c.2)).map (·.1) := hr'.runes
    rw [this]
    intro r hm
    obtain ⟨c, hc, rfl⟩ := List.mem_map.1 hm
    obtain ⟨d, -, rfl⟩ := List.mem_map.1 hc
    exact C94_toLower_twice d.1)
  refine ⟨ns', by simp [lowerCaseNormalize, e], hr', by simp [lowerCaseNormalize, e2]⟩

/-! ## Lower case does not change where a text is cut -/

theorem punct_side : sameSide tableP = true := by decide +kernel
theorem other_side : sameSide tableC = true := by decide +kernel
theorem mark_side : sameSide tableMn = true := by decide +kernel

/-- **C94, classes.**  Letters stay letters, and so on. -/
theorem C94_classes (r : Rune) : uni.isPunct (toLower r) = uni.isPunct r ∧ uni.isOther (toLower r) = uni.isOther r
    ∧ uni.isMn (toLower r) = uni.isMn r ∧ isWhiteSpace (toLower r) = isWhiteSpace r ∧ sort4 rx (toLower r) = sort4 rx r := by
  refine ⟨sameSide_spec punct_side r, sameSide_spec other_side r, sameSide_spec mark_side r, toLower_space r, ?_⟩
  rw [C94_sort4, C94_sort4, sameSide_spec letter_side, sameSide_spec number_side, toLower_space]

/-- What the BERT pipelines of C68, C84 and C90 assume about `unicode.ToLower`. -/
theorem C94_bert_sane : uni.toLower 0x20 = 0x20 ∧ ∀ r, 0 ≤ r → 0 ≤ uni.toLower r := by
  refine ⟨(C94_sane.lower32 32).2 rfl, fun r h => ?_⟩
  show 0 ≤ toLower r
  unfold toLower
  rw [if_pos h]
  omega

/-- The runes of each piece, and those before it, in lower case. -/
def lowerPieces (L : List (List Rune × List Rune)) : List (List Rune × List Rune) :=
  L.map fun x => (x.1.map toLower, x.2.map toLower)

theorem tokenizedBy_lower {isSep isSolo : Rune → Bool} (h1 : ∀ r, isSep (toLower r) = isSep r) (h2 : ∀ r, isSolo (toLower r) = isSolo r)
    {rs : List Rune} {L : List (List Rune × List Rune)} (h : TokenizedBy isSep isSolo rs L) :
    TokenizedBy isSep isSolo (rs.map toLower) (lowerPieces L) := by
  refine ⟨?_, ?_, ?_⟩
  · intro y hy
    obtain ⟨x, hx, rfl⟩ := List.mem_map.1 hy
    obtain ⟨post, e, hc⟩ := h.located x hx
    refine ⟨post.map toLower, by rw [e]; simp, ?_⟩
    rcases hc with ⟨r, e1, e2, e3⟩ | ⟨g1, g2, g3, g4⟩
    · exact Or.inl ⟨toLower r, by simp [e1], by rw [h1]; exact e2, by rw [h2]; exact e3⟩
    · refine Or.inr ⟨by simpa using g1, ?_, ?_, ?_⟩
      · intro r hr
        obtain ⟨r', hr', rfl⟩ := List.mem_map.1 hr
        rw [h1, h2]; exact g2 r' hr'
      · intro r hr
        simp only [List.getLast?_map, Option.mem_def, Option.map_eq_some_iff] at hr
        obtain ⟨r', hr', rfl⟩ := hr
        rw [h1, h2]; exact g3 r' hr'
      · intro r hr
        simp only [List.head?_map, Option.mem_def, Option.map_eq_some_iff] at hr
        obtain ⟨r', hr', rfl⟩ := hr
        rw [h1, h2]; exact g4 r' hr'
  · unfold lowerPieces
    rw [List.pairwise_map]
    exact h.ordered.imp fun hxy => by simpa using hxy
  · have : (lowerPieces L).flatMap (·.2) = (L.flatMap (·.2)).map toLower := by
      simp [lowerPieces, List.flatMap_map, List.map_flatMap]
    rw [this, h.complete, List.filter_map]
    congr 1
    exact List.filter_congr fun r _ => by simp [h1]

/-- **C94, BERT.**  `BertPreTokenizer` cuts the lower-cased text where it cuts the text. -/
theorem C94_bert_lower (rs : List Rune) (hv : ∀ r ∈ rs, ValidRune r) :
    ∃ p q, ∃ L : List (List Rune), bertPreTokenize uni (PTS.fromString (encodeRunes rs)) = .ok (p, none)
      ∧ bertPreTokenize uni (PTS.fromString (encodeRunes (rs.map toLower))) = .ok (q, none)
      ∧ p.getOriginalByteSplits.map (·.string) = L.map encodeRunes
      ∧ q.getOriginalByteSplits.map (·.string) = L.map fun w => encodeRunes (w.map toLower) := by
  obtain ⟨p, h1, L, h2, h3, -⟩ := C30_bert uni rs hv
  obtain ⟨q, g1, M, g2, g3, -⟩ := C30_bert uni (rs.map toLower) (by
    intro r hr
    obtain ⟨r', hr', rfl⟩ := List.mem_map.1 hr
    exact toLower_valid (hv r' hr'))
  have := g2.unique (tokenizedBy_lower toLower_space (sameSide_spec punct_side) h2)
  refine ⟨p, q, L.map (·.2), h1, g1, ?_, ?_⟩
  · rw [h3]; simp
  · rw [g3, this]; simp [lowerPieces]

theorem startsContraction_lower (rs : List Rune) : StartsContraction rx (rs.map toLower) ↔ StartsContraction rx rs := by
  have : ∀ n, ((rs.map toLower).take n).map rx.lower = (rs.take n).map rx.lower := by
    intro n
    rw [← List.map_take, List.map_map]
    exact List.map_congr_left fun r _ => C94_toLower_twice r
  simp only [StartsContraction, this]

theorem head_lower {post : List Rune} {P : Sort4 → Prop} (h : ∀ r ∈ post.head?, P (sort4 rx r)) :
    ∀ r ∈ (post.map toLower).head?, P (sort4 rx r) := by
  intro r hr
  simp only [List.head?_map, Option.mem_def, Option.map_eq_some_iff] at hr
  obtain ⟨r', hr', rfl⟩ := hr
  rw [(C94_classes r').2.2.2.2]
  exact h r' hr'

theorem all_lower {g : List Rune} {k : Sort4} (h : ∀ r ∈ g, sort4 rx r = k) : ∀ r ∈ g.map toLower, sort4 rx r = k := by
  intro r hr
  obtain ⟨r', hr', rfl⟩ := List.mem_map.1 hr
  rw [(C94_classes r').2.2.2.2]
  exact h r' hr'

theorem gptPiece_lower {g post : List Rune} (h : GptPiece rx g post) : GptPiece rx (g.map toLower) (post.map toLower) := by
  cases h with
  | contraction h =>
    refine .contraction ?_
    rw [List.map_map, show List.map (rx.lower ∘ toLower) g = g.map rx.lower from List.map_congr_left fun r _ => C94_toLower_twice r]
    exact h
  | @run sp g _ k h1 h2 h3 h4 h5 h6 =>
    rw [List.map_append]
    refine .run ?_ (by simpa using h2) h3 (all_lower h4) (head_lower (P := (· ≠ k)) h5) ?_
    · rcases h1 with rfl | rfl
      · exact Or.inl rfl
      · exact Or.inr (by rw [List.map_singleton, show toLower 32 = 32 from (C94_sane.lower32 32).2 rfl])
    · rw [← List.map_append, ← List.map_append, startsContraction_lower]
      exact h6
  | atEnd h1 h2 h3 => exact .atEnd (by simpa using h1) (all_lower h2) (by rw [startsContraction_lower]; exact h3)
  | @before g post w h1 h2 h3 h4 h5 h6 =>
    refine .before (by simpa using h1) (all_lower h2) (by rw [(C94_classes w).2.2.2.2]; exact h3) (by simpa using h4)
      (head_lower (P := (· ≠ .white)) h5) ?_
    rw [← List.map_cons, ← List.map_append, startsContraction_lower]
    exact h6
  | @single w post h1 h2 h3 h4 h5 =>
    refine .single (by rw [(C94_classes w).2.2.2.2]; exact h1) (fun h => h2 ((C94_sane.lower32 w).1 h)) (by simpa using h3)
      (head_lower (P := (· ≠ .white)) h4) ?_
    rw [← List.map_cons, startsContraction_lower]
    exact h5

theorem gptPieces_lower {pre rest : List Rune} {L : List (List Rune × List Rune)} (h : GptPieces rx pre rest L) :
    GptPieces rx (pre.map toLower) (rest.map toLower) (lowerPieces L) := by
  induction h with
  | nil => exact .nil
  | cons hg hp _ ih =>
    rw [List.map_append]
    exact .cons (by simpa using hg) (gptPiece_lower hp) (by rw [← List.map_append]; exact ih)

/-- **C94, GPT-2.**  The byte-level pre-tokenizer cuts the lower-cased text where it cuts the text: its expression ignores case. -/
theorem C94_gpt_lower (b : Bool) (rs : List Rune) (hv : ∀ r ∈ rs, ValidRune r) :
    ∃ p q, ∃ L : List (List Rune), byteLevel (splittingRegexp rx).findAll b (PTS.fromString (encodeRunes rs)) = .ok (p, none)
      ∧ byteLevel (splittingRegexp rx).findAll b (PTS.fromString (encodeRunes (rs.map toLower))) = .ok (q, none)
      ∧ p.getOriginalByteSplits.map (·.string) = L.map tableText
      ∧ q.getOriginalByteSplits.map (·.string) = L.map fun w => tableText (w.map toLower) := by
  obtain ⟨p, L, h1, h2, h3⟩ := C94_byteLevel b rs hv
  obtain ⟨q, M, g1, g2, g3⟩ := C94_byteLevel b (rs.map toLower) (by
    intro r hr
    obtain ⟨r', hr', rfl⟩ := List.mem_map.1 hr
    exact toLower_valid (hv r' hr'))
  have hs : spacedRunes b (rs.map toLower) = (spacedRunes b rs).map toLower := by
    cases rs with
    | nil => rfl
    | cons r rs =>
      simp only [spacedRunes, List.map_cons, toLower_space]
      split
      · rw [List.map_cons, List.map_cons, show toLower 32 = 32 from (C94_sane.lower32 32).2 rfl]
      · rfl
  rw [hs] at g2
  have := g2.unique C94_sane (gptPieces_lower h2)
  refine ⟨p, q, L.map (·.2), h1, g1, ?_, ?_⟩
  · rw [h3]; simp
  · rw [g3, this]; simp [lowerPieces]

/-! ## Where the tables and the descriptions of BERT disagree -/

/-- **C94, punctuation.**  BERT cuts at every ASCII character that is neither letter nor digit nor space.
`BertPreTokenizer` does not cut at those of category S: the nine characters ``$+<=>^`|~``. -/
theorem C94_ascii_punct (r : Rune) (h1 : 0x21 ≤ r) (h2 : r ≤ 0x7E) (h3 : inTable tableL r = false) (h4 : inTable tableN r = false) :
    uni.isPunct r = false ↔ r ∈ [u!"$", u!"+", u!"<", u!"=", u!">", u!"^", u!"`", u!"|", u!"~"] := by
  have : ∀ n ∈ List.range 0x7F, 0x21 ≤ n → inTable tableL (n : Int) = false → inTable tableN (n : Int) = false →
      (uni.isPunct (n : Int) = false ↔ (n : Int) ∈ [u!"$", u!"+", u!"<", u!"=", u!">", u!"^", u!"`", u!"|", u!"~"]) := by
    decide +kernel
  have := this r.toNat (List.mem_range.2 (by omega)) (by omega)
  rw [Int.toNat_of_nonneg (by omega)] at this
  exact this h3 h4

/-- **C94, cleaning.**  Of the white space, text cleaning deletes three characters, joining the words around them; the rest
become spaces. -/
theorem C94_clean_space (r : Rune) (h : isWhiteSpace r = true) : bertDropped uni r = true ↔ r = 0x0B ∨ r = 0x0C ∨ r = 0x85 := by
  have : ∀ x ∈ ([9, 10, 11, 12, 13, 0x20, 0x85, 0xA0, 0x1680, 0x2000, 0x2001, 0x2002, 0x2003, 0x2004, 0x2005, 0x2006, 0x2007, 0x2008,
      0x2009, 0x200A, 0x2028, 0x2029, 0x202F, 0x205F, 0x3000] : List Rune),
      (bertDropped uni x = true ↔ x = 0x0B ∨ x = 0x0C ∨ x = 0x85) := by decide +kernel
  refine this r ?_
  simp only [isWhiteSpace, Bool.or_eq_true, Bool.and_eq_true, decide_eq_true_eq, beq_iff_eq] at h
  simp only [List.mem_cons, List.not_mem_nil, or_false]
  omega

/-- A letter written as one code point keeps its accent: the text is not decomposed first. -/
example : (bertNormalize uni ⟨true, true, true, true⟩ (NS.fromString b!"É\u0301")).bind (fun r => .ok (r.1.get, r.2))
    = .ok (b!"é", none) := by decide +kernel

example : (bertNormalize uni ⟨true, true, true, true⟩ (NS.fromString b!"a\u000bB\u0085c\u00a0ÀΣ世")).bind (fun r => .ok (r.1.get, r.2))
    = .ok (b!"abc àσ 世 ", none) := by decide +kernel

example : (bertPreTokenize uni (PTS.fromString b!"a$b.c€—d")).bind (fun r => .ok (r.1.getOriginalByteSplits.map (·.string)))
    = .ok [b!"a$b", b!".", b!"c€", b!"—", b!"d"] := by decide +kernel

example : (byteLevel (splittingRegexp rx).findAll false (PTS.fromString b!"I'LL x²½ élan")).bind
    (fun r => .ok (r.1.getOriginalByteSplits.map (·.offsets)))
    = .ok [⟨0, 1⟩, ⟨1, 4⟩, ⟨4, 6⟩, ⟨6, 10⟩, ⟨10, 16⟩] := by decide +kernel

example : toLower 0x130 = 0x69 ∧ toLower 0x1E9E = 0xDF ∧ toLower 0x3A3 = 0x3C3 ∧ toLower (-1) = -1 ∧ toLower 0x110000 = 0x110000 := by
  decide +kernel

end Verif.Unicode
