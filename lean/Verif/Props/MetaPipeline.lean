import Verif.Props.BertPipeline

/-!
Property C72: the meta-space pre-tokenizer on any state, with the alignments of the pieces, and
followed by the models and `IntoEncoding`.
-/

set_option autoImplicit false

namespace Verif

/-! ## Replacing runes -/

theorem sub_text_mid (A B C : List Ch) :
    sub (text (A ++ B ++ C)) (text A).length ((text A).length + (text B).length : Int) = text B := by
  simp only [text_append]
  exact sub_mid _ _ _

theorem sub_aligns_mid (A B C : List Ch) :
    sub (aligns (A ++ B ++ C)) (text A).length ((text A).length + (text B).length : Int) = aligns B := by
  have := sub_mid (aligns A) (aligns B) (aligns C)
  simp only [aligns_append]
  simpa using this

theorem replaceParts_chars {ns : NS} {f : Rune → Bool} {cont : List Rune} :
    ∀ (t : List (Bool × List Ch)) (A : List Ch) (parts : List (Str × List Align)),
    (∀ x ∈ t, SegOk f (x.1, x.2.map (·.1))) → Repr ns (A ++ t.flatMap (·.2)) →
    All2 (ReplacePart ns (encodeRunes cont)) (capsOf (text A).length (segRunes t)) parts →
    parts.flatMap (·.1) = text ((t.flatMap (·.2)).flatMap (replaceChar f cont))
      ∧ parts.flatMap (·.2) = aligns ((t.flatMap (·.2)).flatMap (replaceChar f cont)) := by
  intro t
  induction t with
  | nil =>
    intro A parts _ _ h
    cases h
    exact ⟨rfl, rfl⟩
  | cons x t ih =>
    intro A parts hk h hp
    obtain ⟨b, B⟩ := x
    have h' : Repr ns (A ++ B ++ t.flatMap (·.2)) := by simpa using h
    simp only [segRunes, List.map_cons, capsOf] at hp
    cases hp with
    | @cons _ part _ parts h1 h2 =>
    have e2 : ((text (A ++ B)).length : Int) = (text A).length + (encodeRunes (B.map (·.1))).length := by simp [text]
    rw [← e2] at h2
    obtain ⟨i1, i2⟩ := ih (A ++ B) parts (fun y hy => hk y (by simp [hy])) h' h2
    obtain ⟨k1, k2⟩ := hk (b, B) (by simp)
    simp only at k1 k2
    have hB : part.1 = text (B.flatMap (replaceChar f cont)) ∧ part.2 = aligns (B.flatMap (replaceChar f cont)) := by
      have e3 : (encodeRunes (B.map (·.1))) = text B := rfl
      unfold ReplacePart at h1
      simp only [e3] at h1
      cases b with
      | true =>
        obtain ⟨r, hr, hf⟩ := k1 rfl
        obtain ⟨c, rfl⟩ : ∃ c, B = [c] := by
          cases B with
          | nil => simp at hr
          | cons c B =>
            cases B with
            | nil => exact ⟨c, rfl⟩
            | cons d B => simp at hr
        simp at hr; subst hr
        simp only [if_true] at h1
        obtain ⟨p1, x, p2, p3⟩ := h1
        have hx : x = c.2 := by
          have := p3 (by
            have : 0 < (text [c]).length := by
              apply List.length_pos_iff.2
              exact fun h0 => absurd (text_eq_nil.1 h0) (by simp)
            omega)
          rw [h'.aligns_eq, sub_aligns_mid] at this
          simpa [aligns, Nat.pos_iff_ne_zero.1 (runeLen_pos c.1)] using this
        subst hx
        have e : [c].flatMap (replaceChar f cont) = cont.map fun r => (r, c.2) := by simp [replaceChar, hf]
        rw [e]
        refine ⟨?_, ?_⟩
        · rw [p1]; simp [text, Function.comp_def]
        · rw [p2, aligns_const]
      | false =>
        simp only [Bool.false_eq_true, if_false] at h1
        subst h1
        have e : B.flatMap (replaceChar f cont) = B := by
          have hk := (k2 rfl).2
          have : ∀ l : List Ch, (∀ c ∈ l, f c.1 = false) → l.flatMap (replaceChar f cont) = l := by
            intro l
            induction l with
            | nil => intro _; rfl
            | cons c l ih =>
              intro hl
              rw [List.flatMap_cons, ih fun d hd => hl d (by simp [hd])]
              simp [replaceChar, hl c (by simp)]
          exact this B fun c hc => hk c.1 (List.mem_map.2 ⟨c, hc, rfl⟩)
        rw [e]
        exact ⟨by rw [h'.text_eq]; exact sub_text_mid _ _ _, by rw [h'.aligns_eq]; exact sub_aligns_mid _ _ _⟩
    refine ⟨?_, ?_⟩
    · rw [List.flatMap_cons, i1, hB.1]; simp
    · rw [List.flatMap_cons, i2, hB.2]; simp

/-- **C10, characters.** Replacing the runes that satisfy a predicate: every matching character
becomes the runes of the content, all aligned like it; the others stay. -/
theorem C10_chars {ns : NS} {cs : List Ch} (h : Repr ns cs) (f : Rune → Bool) {cont : List Rune}
    (hc : ∀ r ∈ cont, ValidRune r) :
    ∃ ns', ns.replace (fromFunc f) (encodeRunes cont) = .ok (.ok ns')
      ∧ Repr ns' (cs.flatMap (replaceChar f cont))
      ∧ ns'.original = ns.original ∧ ns'.originalShift = ns.originalShift := by
  have hcv : ValidUtf8 (encodeRunes cont) := validUtf8_encodeRunes cont
  have hval : ValidChars (cs.flatMap (replaceChar f cont)) := by
    intro d hd
    obtain ⟨c, hcm, hd⟩ := List.mem_flatMap.1 hd
    unfold replaceChar at hd
    split at hd
    · obtain ⟨r, hr, rfl⟩ := List.mem_map.1 hd
      exact hc r hr
    · simp at hd; subst hd; exact h.valid d hcm
  by_cases h0 : cs = []
  · subst h0
    have hn : ns.normalized = [] := by rw [h.text_eq]; rfl
    have hp : fromFunc f ns.normalized = .ok (.ok emptyCaptures) := by rw [hn]; rfl
    have ht : Tiles emptyCaptures 0 ns.normalized.length := by rw [hn]; simp [emptyCaptures, Tiles]
    obtain ⟨n2, parts, h1, h2, h3, h4, h5, h6⟩ := C10_replace h.len_eq hp ht hcv
    have ha : ns.alignments = [] := by rw [h.aligns_eq]; rfl
    refine ⟨n2, h1, ⟨?_, ?_, hval⟩, h5, h6⟩
    · rw [h3, replaceParts_text h2, hn]
      simp [emptyCaptures, sub]
    · rw [h4]
      unfold emptyCaptures at h2
      cases h2 with
      | cons p1 p2 =>
        cases p2
        simp only [ReplacePart, Bool.false_eq_true, if_false] at p1
        subst p1
        simp [ha, sub]
  · have hrs : cs.map (·.1) ≠ [] := by simpa using h0
    have hvr := h.runes_valid
    have hp : fromFunc f ns.normalized = .ok (.ok (capsOf 0 (segs f (cs.map (·.1))))) := by
      rw [h.norm_eq]; exact fromFunc_caps f hvr hrs
    have ht : Tiles (capsOf 0 (segs f (cs.map (·.1)))) 0 ns.normalized.length := by rw [h.norm_eq]; exact segs_tiles f _
    obtain ⟨n2, parts, h1, h2, h3, h4, h5, h6⟩ := C10_replace h.len_eq hp ht hcv
    obtain ⟨e2, e1, -⟩ := (fromFunc_cuts f).chars cs
    have hk : ∀ x ∈ charSegs (segs f) cs, SegOk f (x.1, x.2.map (·.1)) := by
      intro x hx
      apply segs_kind f (cs.map (·.1))
      exact e2 ▸ List.mem_map.2 ⟨x, hx, rfl⟩
    rw [← e2] at h2
    obtain ⟨p1, p2⟩ := replaceParts_chars (charSegs (segs f) cs) [] parts hk (by rw [List.nil_append, e1]; exact h) (by simpa using h2)
    rw [e1] at p1 p2
    exact ⟨n2, h1, ⟨by rw [h3, p1], by rw [h4, p2], hval⟩, h5, h6⟩

/-! ## Cutting in front of the matches -/

/-- Consecutive pieces, each with what stands in front of it. -/
def inTurn {α : Type} : List α → List (List α) → List (List α × List α)
  | _, [] => []
  | pre, p :: ps => (pre, p) :: inTurn (pre ++ p) ps

theorem inTurn_snd {α : Type} : ∀ (ps : List (List α)) (pre : List α), (inTurn pre ps).map (·.2) = ps := by
  intro ps
  induction ps with
  | nil => intro _; rfl
  | cons p ps ih => intro pre; simp [inTurn, ih]

theorem inTurn_located {α : Type} : ∀ (ps : List (List α)) (pre : List α),
    ∀ x ∈ inTurn pre ps, x.2 ∈ ps ∧ (∃ C, pre ++ ps.flatten = x.1 ++ x.2 ++ C) ∧ pre.length ≤ x.1.length := by
  intro ps
  induction ps with
  | nil => intro pre x hx; simp [inTurn] at hx
  | cons p ps ih =>
    intro pre x hx
    simp only [inTurn] at hx
    rcases List.mem_cons.1 hx with rfl | hx
    · exact ⟨by simp, ⟨ps.flatten, by simp⟩, Nat.le_refl _⟩
    · obtain ⟨h1, ⟨C, h2⟩, h3⟩ := ih (pre ++ p) x hx
      refine ⟨by simp [h1], ⟨C, by rw [← h2]; simp⟩, ?_⟩
      rw [List.length_append] at h3; omega

theorem inTurn_ordered {α : Type} : ∀ (ps : List (List α)) (pre : List α),
    (inTurn pre ps).Pairwise fun x y => (x.1 ++ x.2).length ≤ y.1.length := by
  intro ps
  induction ps with
  | nil => intro pre; exact .nil
  | cons p ps ih =>
    intro pre
    exact List.Pairwise.cons (fun y hy => (inTurn_located ps (pre ++ p) y hy).2.2) (ih _)

theorem inTurn_runes : ∀ (ps : List (List Ch)) (pre : List Ch),
    wordRunes (inTurn pre ps) = inTurn (pre.map (·.1)) (ps.map fun p => p.map (·.1)) := by
  intro ps
  induction ps with
  | nil => intro _; rfl
  | cons p ps ih =>
    intro pre
    have := ih (pre ++ p)
    simp only [wordRunes, inTurn, List.map_cons, List.map_append] at this ⊢
    rw [this]

theorem inTurn_words {rs : List Rune} {ps : List (List Rune)} (h : ps.flatten = rs) (hne : ∀ p ∈ ps, p ≠ []) :
    WordsOf (fun _ => true) rs (inTurn [] ps) where
  located x hx := by
    obtain ⟨h1, ⟨C, h2⟩, -⟩ := inTurn_located ps [] x hx
    exact ⟨hne _ h1, C, by rw [← h2, ← h]; rfl⟩
  ordered := inTurn_ordered ps []
  complete := by
    rw [List.flatMap_def, inTurn_snd, h]
    exact (List.filter_eq_self.2 fun _ _ => rfl).symm

theorem joinNext_map {α β : Type} (f : α → β) (n : Nat) : ∀ s : List (Bool × List α), s.length ≤ n →
    joinNext (s.map fun x => (x.1, x.2.map f)) = (joinNext s).map (List.map f) := by
  induction n with
  | zero =>
    intro s h
    have : s = [] := List.length_eq_zero_iff.1 (by omega)
    subst this; rfl
  | succ n ih =>
    intro s h
    match s with
    | [] => rfl
    | [a] => rfl
    | a :: b :: rest =>
      simp only [List.map_cons, joinNext]
      by_cases hc : (a.1 && !b.1) = true
      · rw [if_pos hc, if_pos hc, ih rest (by simp at h; omega)]
        simp
      · rw [if_neg hc, if_neg hc]
        have := ih (b :: rest) (by simp at h ⊢; omega)
        simp only [List.map_cons] at this
        rw [this]
        simp

theorem joinNext_ne {α : Type} (n : Nat) : ∀ s : List (Bool × List α), s.length ≤ n → (∀ x ∈ s, x.2 ≠ []) →
    ∀ p ∈ joinNext s, p ≠ [] := by
  induction n with
  | zero =>
    intro s h
    have : s = [] := List.length_eq_zero_iff.1 (by omega)
    subst this
    intro _ p hp; simp [joinNext] at hp
  | succ n ih =>
    intro s h hne p hp
    match s with
    | [] => simp [joinNext] at hp
    | [a] => simp [joinNext] at hp; subst hp; exact hne a (by simp)
    | a :: b :: rest =>
      simp only [joinNext] at hp
      split at hp
      · rcases List.mem_cons.1 hp with rfl | hp
        · simp [hne a (by simp)]
        · exact ih rest (by simp at h; omega) (fun x hx => hne x (by simp [hx])) p hp
      · rcases List.mem_cons.1 hp with rfl | hp
        · exact hne a (by simp)
        · exact ih (b :: rest) (by simp at h ⊢; omega) (fun x hx => hne x (by simp [List.mem_cons.1 hx])) p hp

theorem groupNext_chars {ns : NS} (hwf : WF ns) (n : Nat) : ∀ t : List (Bool × List Ch), t.length ≤ n → ∀ A : List Ch,
    (∀ x ∈ t, x.2 ≠ []) → Repr ns (A ++ t.flatMap (·.2)) →
    All2 (fun g q => ns.slice (.normalized (span g).1 (span g).2) = .ok (some q))
      (groupNext (capsOf (text A).length (segRunes t))) ((joinNext t).map (pieceOf ns)) := by
  induction n with
  | zero =>
    intro t h
    have : t = [] := List.length_eq_zero_iff.1 (by omega)
    subst this
    intro _ _ _; exact .nil
  | succ n ih =>
    intro t h A hne hr
    match t with
    | [] => exact .nil
    | [(b, B)] =>
      have h' : Repr ns (A ++ B ++ []) := by simpa using hr
      have hs := slice_chars hwf h' (hne (b, B) (by simp))
      have e2 : ((text (A ++ B)).length : Int) = (text A).length + (encodeRunes (B.map (·.1))).length := by simp [text]
      rw [e2] at hs
      exact .cons hs .nil
    | (a, B) :: (b, C) :: rest =>
      have e2 : ((text (A ++ B)).length : Int) = (text A).length + (encodeRunes (B.map (·.1))).length := by simp [text]
      have e3 : ((text (A ++ B ++ C)).length : Int) = (text (A ++ B)).length + (encodeRunes (C.map (·.1))).length := by
        simp [text]; omega
      simp only [segRunes, List.map_cons, capsOf, groupNext, joinNext]
      rw [← e2, ← e3]
      by_cases hc : (a && !b) = true
      · rw [if_pos hc]
        have hc' : a = true ∧ b = false := by simpa using hc
        rw [if_pos (by first | exact hc | exact hc')]
        have i1 := ih rest (by simp at h; omega) (A ++ B ++ C) (fun x hx => hne x (by simp [hx])) (by simpa using hr)
        have hs := slice_chars hwf (A := A) (B := B ++ C) (C := rest.flatMap (·.2)) (by simpa using hr) (by simp [hne (a, B) (by simp)])
        rw [← List.append_assoc] at hs
        exact .cons hs i1
      · rw [if_neg hc]
        have hc' : ¬ (a = true ∧ b = false) := by simpa using hc
        rw [if_neg (by first | exact hc | exact hc')]
        have i1 := ih ((b, C) :: rest) (by simp at h ⊢; omega) (A ++ B) (fun x hx => hne x (by simp [List.mem_cons.1 hx])) (by simpa using hr)
        have hs := slice_chars hwf (A := A) (B := B) (C := C ++ rest.flatMap (·.2)) (by simpa using hr) (hne (a, B) (by simp))
        simp only [segRunes, List.map_cons, capsOf] at i1
        rw [← e3] at i1
        exact .cons hs i1

/-! ## The pre-tokenizer on any state -/

theorem metaChars_runes (R : Rune) (prefixSpace : Bool) (cs : List Ch) :
    (metaChars R prefixSpace cs).map (·.1) = metaText R prefixSpace (cs.map (·.1)) := by
  unfold metaChars metaText
  rw [List.map_append]
  congr 1
  · cases cs with
    | nil => simp
    | cons c cs =>
      by_cases h : prefixSpace = true ∧ c.1 ≠ R
      · simp only [if_pos h]
        rw [if_pos ⟨h.1, by simp, by simpa using h.2⟩]; rfl
      · simp only [if_neg h]
        rw [if_neg (fun h' => h ⟨h'.1, by simpa using h'.2.2⟩)]; rfl
  · rw [List.map_map, List.map_map]; rfl

/-- The words of the characters cut in front of every `R`. -/
def metaWords (R : Rune) (cs : List Ch) : List (List Ch × List Ch) :=
  inTurn [] (joinNext (charSegs (segs fun r => r == R) cs))

theorem metaWords_spec (R : Rune) (cs : List Ch) :
    StandsIn cs (metaWords R cs) ∧ WordsOf (fun _ => true) (cs.map (·.1)) (wordRunes (metaWords R cs))
      ∧ CutBefore R (cs.map (·.1)) ((wordRunes (metaWords R cs)).map (·.2)) := by
  obtain ⟨e1, e2, e3⟩ := (fromFunc_cuts fun r => r == R).chars cs
  have hfl : (joinNext (charSegs (segs fun r => r == R) cs)).flatten = cs := by
    rw [joinNext_flatten _ _ (Nat.le_refl _), e2]
  have hne := joinNext_ne _ (charSegs (segs fun r => r == R) cs) (Nat.le_refl _) e3
  have hmap : (joinNext (charSegs (segs fun r => r == R) cs)).map (fun p => p.map (·.1))
      = joinNext (segs (fun r => r == R) (cs.map (·.1))) := by
    rw [← e1]
    exact (joinNext_map (fun c : Ch => c.1) _ _ (Nat.le_refl _)).symm
  have hw : wordRunes (metaWords R cs) = inTurn [] (joinNext (segs (fun r => r == R) (cs.map (·.1)))) := by
    unfold metaWords
    rw [inTurn_runes, hmap]; rfl
  obtain ⟨j1, j2, j3⟩ := joinNext_segs (fun r => r == R) (cs.map (·.1))
  refine ⟨?_, ?_, ?_⟩
  · intro x hx
    obtain ⟨h1, ⟨C, h2⟩, -⟩ := inTurn_located _ [] x hx
    exact ⟨hne _ h1, C, by rw [← h2, hfl]; rfl⟩
  · rw [hw]
    exact inTurn_words j1 fun p hp => (j2 p hp).1
  · rw [hw, inTurn_snd]
    refine ⟨j1, ?_, ?_⟩
    · intro p hp
      refine ⟨(j2 p hp).1, fun hm => ?_⟩
      have := (j2 p hp).2 R hm
      simp at this
    · intro p hp
      obtain ⟨r, e, hr⟩ := j3 p hp
      rw [beq_iff_eq] at hr
      rw [e, hr]

/-- What the split function does to any well-formed state. -/
theorem metaSpace_chars {ns : NS} (hwf : WF ns) {cs : List Ch} (h : Repr ns cs) {R : Rune} (hR : ValidRune R)
    (prefixSpace : Bool) :
    ∃ n2, (∀ i, metaSpaceSplitFunc R prefixSpace i ns = splitByPattern (fromRune R) .mergedWithNext 0 n2)
      ∧ Repr n2 (metaChars R prefixSpace cs) ∧ WF n2
      ∧ n2.original = ns.original ∧ n2.originalShift = ns.originalShift := by
  have hvc := h.runes_valid
  have ht : ns.normalized = encodeRunes (cs.map (·.1)) := h.text_eq
  have er : runesOf (encodeRune R) = [R] := by
    have := runesOf_encodeRunes [R] (by simpa using hR)
    simpa using this
  -- the prefix
  obtain ⟨n1, h1, r1, w1, o1, s1⟩ : ∃ n1,
      (if prefixSpace = true ∧ (!(encodeRune R).isPrefixOf ns.get) = true then ns.prepend (encodeRune R)
        else pure ns) = .ok n1
      ∧ Repr n1 ((match cs with
          | [] => []
          | c :: _ => if prefixSpace = true ∧ c.1 ≠ R then [(R, c.2)] else []) ++ cs)
      ∧ WF n1 ∧ n1.original = ns.original ∧ n1.originalShift = ns.originalShift := by
    cases cs with
    | nil =>
      refine ⟨ns, ?_, h, hwf, rfl, rfl⟩
      split
      · exact C08_prepend_empty (show ns.normalized = [] by rw [ht]; rfl) _
      · rfl
    | cons c cs =>
      have hpre : (encodeRune R).isPrefixOf ns.get = true ↔ c.1 = R := by
        have := isPrefixOf_encodeRune hR hvc
        rw [← ht] at this
        simpa [NS.get] using this
      by_cases hc : prefixSpace = true ∧ c.1 ≠ R
      · have hb : (encodeRune R).isPrefixOf ns.get = false := by
          rw [← Bool.not_eq_true, hpre]; exact hc.2
        rw [if_pos ⟨hc.1, by rw [hb]; rfl⟩]
        obtain ⟨n1, p1, p2, p3, p4⟩ := C08_prepend_partial h (encodeRune R) (encodeRune_ne_nil R)
        rw [er] at p2
        refine ⟨n1, p1, ?_, (prepend_wf hwf p1).1, p3, p4⟩
        simp only [if_pos hc]
        exact p2
      · have hn : ¬ (prefixSpace = true ∧ (!(encodeRune R).isPrefixOf ns.get) = true) := by
          rintro ⟨k1, k2⟩
          apply hc
          refine ⟨k1, fun e => ?_⟩
          rw [hpre.2 e] at k2
          simp at k2
        rw [if_neg hn]
        refine ⟨ns, rfl, ?_, hwf, rfl, rfl⟩
        simp only [if_neg hc]
        exact h
  obtain ⟨n2, h2, r2, o2, s2⟩ := C10_chars r1 (fun r => r == 32) (cont := [R]) (by simpa using hR)
  have erep : encodeRunes [R] = encodeRune R := by simp
  rw [erep] at h2
  have hmc : ((match cs with
        | [] => []
        | c :: _ => if prefixSpace = true ∧ c.1 ≠ R then [(R, c.2)] else []) ++ cs).flatMap
          (replaceChar (fun r => r == 32) [R]) = metaChars R prefixSpace cs := by
    have hm : ∀ l : List Ch, l.flatMap (replaceChar (fun r => r == 32) [R])
        = l.map fun c => (if c.1 = 32 then R else c.1, c.2) := by
      intro l
      induction l with
      | nil => rfl
      | cons c l ih =>
        rw [List.flatMap_cons, ih, List.map_cons]
        by_cases h : c.1 = 32 <;> simp [replaceChar, h]
    unfold metaChars
    rw [hm, List.map_append]
    congr 1
    cases cs with
    | nil => rfl
    | cons c cs =>
      by_cases hc : prefixSpace = true ∧ c.1 ≠ R
      · simp only [if_pos hc]; simp
      · simp only [if_neg hc]; rfl
  rw [hmc] at r2
  refine ⟨n2, ?_, r2, (replace_wf w1 h2).1, o2.trans o1, s2.trans s1⟩
  intro i
  simp only [metaSpaceSplitFunc]
  rw [ite_bind, h1, GoM.bind_ok]
  rw [show n1.replace (fromRune 32) (encodeRune R) = .ok (.ok n2) from h2]
  rfl

/-- **C72, pre-tokenizer.** On any well-formed state the meta-space pre-tokenizer succeeds.  The
pieces are parts of a state with the same original, in which every space has become the replacement
with the same alignment, and the replacement stands in front with the alignment of the first
character where it is due; they are cut in front of every replacement, and nothing is left out. -/
theorem C72_metaSpace {ns : NS} (hwf : WF ns) {cs : List Ch} (h : Repr ns cs) {R : Rune} (hR : ValidRune R)
    (prefixSpace : Bool) (o : Str) :
    ∃ n2 L, metaSpace R prefixSpace ⟨o, [⟨ns, none⟩]⟩ = .ok (⟨o, charPieces n2 L⟩, none)
      ∧ Repr n2 (metaChars R prefixSpace cs) ∧ WF n2
      ∧ n2.original = ns.original ∧ n2.originalShift = ns.originalShift
      ∧ StandsIn (metaChars R prefixSpace cs) L
      ∧ WordsOf (fun _ => true) (metaText R prefixSpace (cs.map (·.1))) (wordRunes L)
      ∧ CutBefore R (metaText R prefixSpace (cs.map (·.1))) ((wordRunes L).map (·.2)) := by
  obtain ⟨n2, h1, h2, h3, h4, h5⟩ := metaSpace_chars hwf h hR prefixSpace
  obtain ⟨k1, k2, k3⟩ := metaWords_spec R (metaChars R prefixSpace cs)
  rw [metaChars_runes] at k2 k3
  refine ⟨n2, metaWords R (metaChars R prefixSpace cs), ?_, h2, h3, h4, h5, k1, k2, k3⟩
  generalize metaChars R prefixSpace cs = ds at h2 k1
  obtain ⟨ps, q1, q2⟩ : ∃ ps : List NS, n2.split (fromRune R) .mergedWithNext = .ok (.ok ps)
      ∧ (splitsFromNormalizedStrings ps).filter (fun q => decide (q.ns.get ≠ [])) = charPieces n2 (metaWords R ds) := by
    by_cases h0 : ds = []
    · subst h0
      have hn : n2.normalized = [] := by rw [h2.text_eq]; rfl
      have hs := slice_empty h3 (a := 0) (by rw [hn]; decide) (by simp [NS.originalLen])
      refine ⟨[_], split_eq (caps := emptyCaptures) (by rw [hn]; rfl) (.cons hs .nil), ?_⟩
      rfl
    · obtain ⟨e1, e2, e3⟩ := (fromFunc_cuts fun r => r == R).chars ds
      have hp : fromRune R n2.normalized = .ok (.ok (capsOf 0 (segRunes (charSegs (segs fun r => r == R) ds)))) := by
        rw [h2.norm_eq, e1]; exact fromFunc_caps _ h2.runes_valid (by simpa using h0)
      have hg := groupNext_chars h3 _ (charSegs (segs fun r => r == R) ds) (Nat.le_refl _) [] e3 (by
        rw [e2]; exact h2)
      refine ⟨_, split_eq hp hg, ?_⟩
      unfold splitsFromNormalizedStrings charPieces metaWords
      rw [← inTurn_snd (joinNext (charSegs (segs fun r => r == R) ds)) [], List.map_map, List.map_map, inTurn_snd]
      apply List.filter_eq_self.2
      intro q hq
      obtain ⟨x, hx, rfl⟩ := List.mem_map.1 hq
      simp only [decide_eq_true_eq]
      exact pieceOf_get_ne (k1 x hx).1
  have := split_pieces o [⟨ns, none⟩] (metaSpaceSplitFunc R prefixSpace) (fun _ => n2)
    (fun _ => splitsFromNormalizedStrings ps) (by
      intro p hp
      simp at hp; subst hp
      refine ⟨rfl, fun j => ?_⟩
      rw [h1 j, splitByPattern, q1]; rfl)
  unfold metaSpace
  rw [this]
  simp only [List.flatMap_cons, List.flatMap_nil, List.append_nil]
  rw [q2]

/-! ## Tokens and offsets -/

theorem firstAlign_map (f : Ch → Ch) (hf : ∀ c, (f c).2 = c.2) {G : List Ch} (h : G ≠ []) :
    firstAlign (G.map f) = firstAlign G := by
  cases G with
  | nil => exact absurd rfl h
  | cons c G => exact hf c

theorem lastAlign_map (f : Ch → Ch) (hf : ∀ c, (f c).2 = c.2) {G : List Ch} (h : G ≠ []) :
    lastAlign (G.map f) = lastAlign G := by
  rcases List.eq_nil_or_concat G with rfl | ⟨g, r, rfl⟩
  · exact absurd rfl h
  · rw [List.concat_eq_append, List.map_append, List.map_cons, List.map_nil, lastAlign_concat, lastAlign_concat]
    exact hf r

/-- The offsets of a run of characters of the input. -/
theorem groupOffsets_self {rs : List Rune} {A H C : List Ch} (h : selfChars 0 rs = A ++ H ++ C) (hH : H ≠ []) :
    groupOffsets 0 H = ⟨(encodeRunes (A.map (·.1))).length, (encodeRunes (A.map (·.1) ++ H.map (·.1))).length⟩ := by
  obtain ⟨-, h2⟩ := selfChars_cut h
  have hne : H.map (·.1) ≠ [] := by simpa using hH
  have e1 := firstAlign_self (i := 0 + (encodeRunes (A.map (·.1))).length) hne
  have e2 := lastAlign_selfChars (0 + (encodeRunes (A.map (·.1))).length) hne
  rw [← h2] at e1 e2
  unfold groupOffsets
  rw [e1, e2]
  simp

theorem meta_source {R : Rune} {prefixSpace : Bool} {rs : List Rune} {A G C : List Ch}
    (h : metaChars R prefixSpace (selfChars 0 rs) = A ++ G ++ C) (hG : G ≠ []) :
    MetaSource R rs (groupOffsets 0 G) (G.map (·.1)) := by
  have hfst : (selfChars 0 rs).map (·.1) = rs := selfChars_map_fst 0 rs
  -- a group of mapped characters
  have main : ∀ A G C : List Ch, G ≠ [] → (selfChars 0 rs).map (fun c => (if c.1 = 32 then R else c.1, c.2)) = A ++ G ++ C →
      ∃ A' H C', selfChars 0 rs = A' ++ H ++ C' ∧ H ≠ [] ∧ A'.length = A.length
        ∧ G = H.map (fun c => (if c.1 = 32 then R else c.1, c.2)) := by
    intro A G C hG h
    obtain ⟨X, C', e1, e2, e3⟩ := List.map_eq_append_iff.1 h
    obtain ⟨A', H, e4, e5, e6⟩ := List.map_eq_append_iff.1 e2
    refine ⟨A', H, C', by rw [e1, e4], ?_, by rw [← e5, List.length_map], e6.symm⟩
    rintro rfl
    exact hG (by simpa using e6.symm)
  have key : ∀ H : List Ch, (H.map fun c => (if c.1 = 32 then R else c.1, c.2)).map (·.1) = spacesTo R (H.map (·.1)) := by
    intro H; simp [spacesTo]
  have src : ∀ A' H C', selfChars 0 rs = A' ++ H ++ C' → rs = A'.map (·.1) ++ H.map (·.1) ++ C'.map (·.1) := by
    intro A' H C' e
    rw [← hfst, e]; simp
  have off : ∀ H : List Ch, H ≠ [] → groupOffsets 0 (H.map fun c => (if c.1 = 32 then R else c.1, c.2)) = groupOffsets 0 H := by
    intro H hH
    unfold groupOffsets
    rw [firstAlign_map (fun c => (if c.1 = 32 then R else c.1, c.2)) (fun _ => rfl) hH,
      lastAlign_map (fun c => (if c.1 = 32 then R else c.1, c.2)) (fun _ => rfl) hH]
  unfold metaChars at h
  cases hs : selfChars 0 rs with
  | nil =>
    rw [hs] at h
    simp at h
    exact absurd h.2.1 hG
  | cons c cs =>
    by_cases hc : prefixSpace = true ∧ c.1 ≠ R
    · rw [hs] at h
      simp only [if_pos hc] at h
      rw [← hs] at h
      cases A with
      | nil =>
        obtain ⟨g, G', rfl⟩ := List.exists_cons_of_ne_nil hG
        simp only [List.nil_append, List.cons_append, List.cons.injEq] at h
        obtain ⟨rfl, h⟩ := h
        by_cases hG' : G' = []
        · subst hG'
          have e : selfChars 0 rs = [] ++ [c] ++ cs := by rw [hs]; rfl
          refine ⟨[], [c.1], cs.map (·.1), ?_, by simp, ?_, .inr (.inr ⟨rfl, rfl, rfl⟩)⟩
          · simpa using src _ _ _ e
          · have := groupOffsets_self e (by simp)
            exact this
        · obtain ⟨A', H, C', e1, e2, e3, e4⟩ := main [] G' C hG' (by simpa using h)
          have hA : A' = [] := List.length_eq_zero_iff.1 e3
          subst hA
          refine ⟨[], H.map (·.1), C'.map (·.1), by simpa using src _ _ _ e1, by simpa using e2, ?_, .inr (.inl ⟨rfl, ?_⟩)⟩
          · refine Eq.trans ?_ (groupOffsets_self e1 e2)
            rw [← off H e2, ← e4]
            have hf : firstAlign G' = c.2 := by
              rw [e4, firstAlign_map (fun c => (if c.1 = 32 then R else c.1, c.2)) (fun _ => rfl) e2]
              cases H with
              | nil => exact absurd rfl e2
              | cons d H =>
                rw [hs] at e1
                simp at e1
                rw [e1.1]; rfl
            unfold groupOffsets
            rw [hf]
            congr 2
            obtain ⟨G'', l, rfl⟩ : ∃ G'' l, G' = G'' ++ [l] := ⟨_, _, (List.dropLast_concat_getLast hG').symm⟩
            rw [← List.cons_append, lastAlign_concat, lastAlign_concat]
          · rw [List.map_cons, e4, key]
      | cons x A =>
        simp only [List.cons_append, List.cons.injEq] at h
        obtain ⟨A', H, C', e1, e2, e3, e4⟩ := main A G C hG (by simpa using h.2)
        refine ⟨A'.map (·.1), H.map (·.1), C'.map (·.1), src _ _ _ e1, by simpa using e2, ?_, .inl ?_⟩
        · rw [e4, off H e2, groupOffsets_self e1 e2]
        · rw [e4, key]
    · rw [hs] at h
      simp only [if_neg hc] at h
      rw [← hs, List.nil_append] at h
      obtain ⟨A', H, C', e1, e2, e3, e4⟩ := main A G C hG h
      refine ⟨A'.map (·.1), H.map (·.1), C'.map (·.1), src _ _ _ e1, by simpa using e2, ?_, .inl ?_⟩
      · rw [e4, off H e2, groupOffsets_self e1 e2]
      · rw [e4, key]

/-- What the rows of an encoding of the words of a meta text say about the input. -/
theorem meta_rows {R : Rune} {prefixSpace : Bool} {rs : List Rune} {L : List (List Ch × List Ch)}
    (hL : StandsIn (metaChars R prefixSpace (selfChars 0 rs)) L)
    (hw : WordsOf (fun _ => true) (metaText R prefixSpace rs) (wordRunes L)) {w ty : Int}
    {T : List Ch × List Ch → List Token} {Gf : List Ch × List Ch → List (List Ch)} {enc : Encoding}
    (he : EncodesChars 0 w ty (L.map (·.2)) (L.map T) (L.map Gf) enc) :
    All2 (fun o G => MetaSource R rs o (G.map (·.1))) enc.offsets (L.map Gf).flatten
      ∧ (L.map Gf).flatten.flatten.map (·.1) = metaText R prefixSpace rs := by
  have hg := all2_maps he.groups
  refine ⟨?_, ?_⟩
  · rw [he.offsets]
    have hk : ∀ G ∈ (L.map Gf).flatten, MetaSource R rs (groupOffsets 0 G) (G.map (·.1)) := by
      intro G hG
      obtain ⟨A, C, e⟩ := group_in_word hL (fun x hx => (hg x hx).1) G hG
      refine meta_source e ?_
      obtain ⟨Gs, hGs, hG'⟩ := List.mem_flatten.1 hG
      obtain ⟨x, hx, rfl⟩ := List.mem_map.1 hGs
      exact (hg x hx).2 G hG'
    generalize (L.map Gf).flatten = l at hk
    induction l with
    | nil => exact .nil
    | cons G l ih => exact .cons (hk G (by simp)) (ih fun X hX => hk X (by simp [hX]))
  · have hfst : (metaChars R prefixSpace (selfChars 0 rs)).map (·.1) = metaText R prefixSpace rs := by
      rw [metaChars_runes, selfChars_map_fst]
    rw [← hfst] at hw
    have := words_chars hL hw
    rw [List.filter_eq_self.2 fun _ _ => rfl] at this
    rw [← hfst, ← this]
    congr 1
    clear he hw hL this
    induction L with
    | nil => rfl
    | cons x L ih =>
      rw [List.map_cons, List.flatten_cons, List.flatten_append, ih (fun y hy => hg y (by simp [hy])), (hg x (by simp)).1]
      rfl

/-- The pre-tokenizer on an input. -/
theorem meta_input {R : Rune} (hR : ValidRune R) (prefixSpace : Bool) (rs : List Rune) (hv : ∀ r ∈ rs, ValidRune r) :
    ∃ n2 L, metaSpace R prefixSpace (PTS.fromString (encodeRunes rs)) = .ok (⟨encodeRunes rs, charPieces n2 L⟩, none)
      ∧ Repr n2 (metaChars R prefixSpace (selfChars 0 rs)) ∧ n2.originalShift = 0
      ∧ StandsIn (metaChars R prefixSpace (selfChars 0 rs)) L
      ∧ WordsOf (fun _ => true) (metaText R prefixSpace rs) (wordRunes L)
      ∧ CutBefore R (metaText R prefixSpace rs) ((wordRunes L).map (·.2)) := by
  have hvs : ValidUtf8 (encodeRunes rs) := ⟨rs, hv, rfl⟩
  have hr : Repr (NS.fromString (encodeRunes rs)) (selfChars 0 rs) := by
    have := fromString_repr hvs
    rwa [runesOf_encodeRunes rs hv] at this
  obtain ⟨n2, L, h1, h2, -, -, h5, h6, h7, h8⟩ := C72_metaSpace (fromString_wf hvs) hr hR prefixSpace (encodeRunes rs)
  rw [selfChars_map_fst] at h7 h8
  exact ⟨n2, L, h1, h2, h5, h6, h7, h8⟩

/-- **C72, WordPiece.** Any valid input, any valid replacement rune, and WordPiece with a vocabulary
of valid terms that has the unknown token: nothing fails or crashes; the words are the meta text cut in
front of every replacement; the tokens are those of the words, one row each; the input at the offsets
of a token is what the token stands for; together the tokens stand for the whole meta text. -/
theorem C72_wordPiece {R : Rune} (hR : ValidRune R) (prefixSpace : Bool) (m : WordPiece) (hval : m.vocab.AllValid)
    (hunk : m.vocab.getID m.unknownToken ≠ none) (rs : List Rune) (hv : ∀ r ∈ rs, ValidRune r) (w ty : Int) :
    ∃ p1 p2 enc L T Gf, metaSpace R prefixSpace (PTS.fromString (encodeRunes rs)) = .ok (p1, none)
      ∧ p1.tokenize (fun ns => .ok (m.tokenize ns.get)) = .ok (p2, none)
      ∧ p2.intoEncoding w ty = .ok (.ok enc)
      ∧ CutBefore R (metaText R prefixSpace rs) ((wordRunes L).map (·.2))
      ∧ (∀ x ∈ L, m.tokenize (text x.2) = .ok (T x) ∧ WordPieceWord m (Gf x) (T x))
      ∧ EncodesChars 0 w ty (L.map (·.2)) (L.map T) (L.map Gf) enc
      ∧ All2 (fun o G => MetaSource R rs o (G.map (·.1))) enc.offsets (L.map Gf).flatten
      ∧ (L.map Gf).flatten.flatten.map (·.1) = metaText R prefixSpace rs := by
  obtain ⟨n2, L, h1, h2, h3, h4, h5, h6⟩ := meta_input hR prefixSpace rs hv
  obtain ⟨p2, enc, T, Gf, k1, k2, k3, k4⟩ := wordPiece_words m hval hunk h2 h4 (encodeRunes rs) w ty
  rw [h3] at k4
  obtain ⟨r1, r2⟩ := meta_rows h4 h5 k4
  exact ⟨_, p2, enc, L, T, Gf, h1, k1, k2, h6, k3, k4, r1, r2⟩

/-- **C72, BPE.** The same with BPE, for every dropout outcome in every word. -/
theorem C72_bpe {R : Rune} (hR : ValidRune R) (prefixSpace : Bool) (m : BPE) (rnd : NS → Nat → Bool)
    (hvoc : ∀ t i, m.vocab.getID t = some i → m.vocab.getString i ≠ none)
    (hm : ∀ a b v, m.merges.get a b = some v → m.vocab.getString v.id ≠ none)
    (hunk : m.unknownToken ≠ [] → m.vocab.getID m.unknownToken ≠ none)
    (rs : List Rune) (hv : ∀ r ∈ rs, ValidRune r)
    (hcov : m.unknownToken ≠ [] ∨ ∀ r ∈ metaText R prefixSpace rs, ∀ i last, m.vocab.getID (m.lookupKey i last r) ≠ none)
    (w ty : Int) :
    ∃ p1 p2 enc n2 L T Gf, metaSpace R prefixSpace (PTS.fromString (encodeRunes rs)) = .ok (p1, none)
      ∧ p1.tokenize (m.tokenizeNS rnd) = .ok (p2, none)
      ∧ p2.intoEncoding w ty = .ok (.ok enc)
      ∧ CutBefore R (metaText R prefixSpace rs) ((wordRunes L).map (·.2))
      ∧ (∀ x ∈ L, m.tokenize (rnd (pieceOf n2 x.2)) (text x.2) = .ok (.ok (some (T x))))
      ∧ EncodesChars 0 w ty (L.map (·.2)) (L.map T) (L.map Gf) enc
      ∧ All2 (fun o G => MetaSource R rs o (G.map (·.1))) enc.offsets (L.map Gf).flatten
      ∧ (L.map Gf).flatten.flatten.map (·.1) = metaText R prefixSpace rs := by
  obtain ⟨n2, L, h1, h2, h3, h4, h5, h6⟩ := meta_input hR prefixSpace rs hv
  have hfst : (metaChars R prefixSpace (selfChars 0 rs)).map (·.1) = metaText R prefixSpace rs := by
    rw [metaChars_runes, selfChars_map_fst]
  obtain ⟨p2, enc, T, Gf, k1, k2, k3, k4⟩ := bpe_words m rnd hvoc hm hunk h2 h4 (by rw [hfst]; exact h5)
    (hcov.imp id fun hc c hcm _ => hc c.1 (by rw [← hfst]; exact List.mem_map.2 ⟨c, hcm, rfl⟩)) (encodeRunes rs) w ty
  rw [h3] at k4
  obtain ⟨r1, r2⟩ := meta_rows h4 h5 k4
  exact ⟨_, p2, enc, n2, L, T, Gf, h1, k1, k2, h6, k3, k4, r1, r2⟩

/-! ## Nothing is lost -/

theorem fromMeta_metaText {R : Rune} (prefixSpace : Bool) {rs : List Rune} (h : R ∉ rs) :
    fromMeta R prefixSpace (metaText R prefixSpace rs) = rs := by
  have hb : ∀ l : List Rune, R ∉ l → ((l.map fun r => if r = 32 then R else r).map fun r => if r = R then 32 else r) = l := by
    intro l
    induction l with
    | nil => intro _; rfl
    | cons r l ih =>
      intro hr
      simp only [List.mem_cons, not_or] at hr
      rw [List.map_cons, List.map_cons, ih hr.2]
      by_cases h : r = 32
      · simp [h]
      · simp [h, Ne.symm hr.1]
  unfold fromMeta metaText
  cases prefixSpace with
  | false => simpa using hb rs h
  | true =>
    cases rs with
    | nil => rfl
    | cons r rs =>
      have : r ≠ R := by rintro rfl; exact h (by simp)
      have hc : true = true ∧ r :: rs ≠ [] ∧ (r :: rs).head? ≠ some R := ⟨rfl, by simp, by simpa using this⟩
      rw [if_pos hc, if_pos rfl]
      exact hb (r :: rs) h

theorem overGroups_values {s : Str} : ∀ (Gs : List (List Ch)) (A C : List Ch) (ts : List Token), s = text (A ++ Gs.flatten ++ C) →
    OverGroups A Gs ts → (∀ t ∈ ts, goSlice s t.offsets.start t.offsets.stop = .ok t.value) → ts.map (·.value) = Gs.map text := by
  intro Gs
  induction Gs with
  | nil =>
    intro A C ts _ ho _
    cases ts with
    | nil => rfl
    | cons t ts => exact absurd ho (by simp [OverGroups])
  | cons G Gs ih =>
    intro A C ts hs ho hv
    cases ts with
    | nil => exact absurd ho (by simp [OverGroups])
    | cons t ts =>
      obtain ⟨h1, h2⟩ := ho
      have i1 := ih (A ++ G) C ts (by rw [hs]; simp) h2 (fun t ht => hv t (by simp [ht]))
      rw [List.map_cons, List.map_cons, i1]
      congr 1
      have := hv t (by simp)
      rw [h1, hs, show A ++ (G :: Gs).flatten ++ C = A ++ G ++ (Gs.flatten ++ C) by simp, text_append, text_append,
        goSlice_mid (text A) (text G) _ rfl (by simp)] at this
      simpa using this.symm

/-- **C72, lossless.** If the vocabulary has every rune of the meta text, there are no affixes, the
ids stand for their terms and each merge spells its parts, the tokens of the encoding, one after the
other, are the meta text; and if the replacement is not in the input, the input can be read off them:
drop the added replacement, and turn the others into spaces. -/
theorem C72_lossless {R : Rune} (hR : ValidRune R) (prefixSpace : Bool) (m : BPE) (rnd : NS → Nat → Bool)
    (hp : m.continuingSubwordPrefix = []) (he : m.endOfWordSuffix = [])
    (hvoc : ∀ t i, m.vocab.getID t = some i → m.vocab.getString i = some t)
    (hm : ∀ a b v, m.merges.get a b = some v → m.vocab.getString v.id ≠ none)
    (hsp : BPE.Spells m.vocab m.merges)
    (hunk : m.unknownToken ≠ [] → m.vocab.getID m.unknownToken ≠ none)
    (rs : List Rune) (hv : ∀ r ∈ rs, ValidRune r)
    (hcov : ∀ r ∈ metaText R prefixSpace rs, m.vocab.getID (encodeRune r) ≠ none) (w ty : Int) :
    ∃ p1 p2 enc, metaSpace R prefixSpace (PTS.fromString (encodeRunes rs)) = .ok (p1, none)
      ∧ p1.tokenize (m.tokenizeNS rnd) = .ok (p2, none)
      ∧ p2.intoEncoding w ty = .ok (.ok enc)
      ∧ enc.tokens.flatten = encodeRunes (metaText R prefixSpace rs)
      ∧ All2 (fun o t => ∃ G, MetaSource R rs o G ∧ t = encodeRunes G) enc.offsets enc.tokens
      ∧ (R ∉ rs → fromMeta R prefixSpace (runesOf enc.tokens.flatten) = rs) := by
  have hkey : ∀ i last r, m.lookupKey i last r = encodeRune r := by
    intro i last r
    simp [BPE.lookupKey, BPE.hasContinuingSubwordPrefix, BPE.hasEndOfWordSuffix, hp, he]
  obtain ⟨p1, p2, enc, n2, L, T, Gf, h1, h2, h3, h4, h5, h6, h7, h8⟩ := C72_bpe hR prefixSpace m rnd
    (fun t i h => by rw [hvoc t i h]; simp) hm hunk rs hv (.inr fun r hr i last => by rw [hkey]; exact hcov r hr) w ty
  have hvm : ∀ r ∈ metaText R prefixSpace rs, ValidRune r := by
    intro r hr
    unfold metaText at hr
    rcases List.mem_append.1 hr with hr | hr
    · split at hr
      · simp at hr; subst hr; exact hR
      · simp at hr
    · obtain ⟨x, hx, rfl⟩ := List.mem_map.1 hr
      split
      · exact hR
      · exact hv x hx
  have hval : enc.tokens = (L.map Gf).flatten.map text := by
    rw [h6.tokens]
    have hg := all2_maps h6.groups
    have hpt := all2_maps h6.perToken
    have hmem : ∀ x ∈ L, ∀ c ∈ x.2, c.1 ∈ metaText R prefixSpace rs := by
      intro x hx c hc
      rw [← h8]
      rw [← (hg x hx).1] at hc
      obtain ⟨G, hG, hc⟩ := List.mem_flatten.1 hc
      exact List.mem_map.2 ⟨c, List.mem_flatten.2 ⟨G, List.mem_flatten.2 ⟨Gf x, List.mem_map.2 ⟨x, hx, rfl⟩, hG⟩, hc⟩, rfl⟩
    have hone : ∀ x ∈ L, (T x).map (·.value) = (Gf x).map text := by
      intro x hx
      have hvx : ∀ r ∈ x.2.map (·.1), ValidRune r := by
        intro r hr
        obtain ⟨c, hc, rfl⟩ := List.mem_map.1 hr
        exact hvm _ (hmem x hx c hc)
      refine overGroups_values (s := text x.2) (Gf x) [] [] (T x) (by rw [(hg x hx).1]; simp) (hpt x hx) ?_
      refine BPE.C45_values m _ (text x.2) ⟨_, hvx, rfl⟩ hp he ?_ hvoc hsp (h5 x hx)
      intro r hr
      have : runesOf (text x.2) = x.2.map (·.1) := runesOf_encodeRunes _ hvx
      rw [this] at hr
      obtain ⟨c, hc, rfl⟩ := List.mem_map.1 hr
      exact hcov _ (hmem x hx c hc)
    clear h5 h6 h7 h8 h4 hmem hg hpt
    induction L with
    | nil => rfl
    | cons x L ih =>
      simp only [List.map_cons, List.flatten_cons, List.map_append]
      rw [hone x (by simp), ih fun y hy => hone y (by simp [hy])]
  have hfl : enc.tokens.flatten = encodeRunes (metaText R prefixSpace rs) := by
    rw [hval, ← h8]
    generalize (L.map Gf).flatten = l
    induction l with
    | nil => rfl
    | cons G l ih => simp only [List.map_cons, List.flatten_cons, List.map_append, encodeRunes_append, ih]; rfl
  refine ⟨p1, p2, enc, h1, h2, h3, hfl, ?_, ?_⟩
  · rw [hval]
    clear hval hfl h8
    generalize enc.offsets = os at h7
    generalize (L.map Gf).flatten = l at h7
    induction h7 with
    | nil => exact .nil
    | cons a _ ih => exact .cons ⟨_, a, rfl⟩ ih
  · intro hn
    rw [hfl, runesOf_encodeRunes _ hvm]
    exact fromMeta_metaText prefixSpace hn

/-- Non-vacuity: the added replacement has the offsets of the first character. -/
example :
    let terms : List (Str × Int) := [(b!"▁", 0), (b!"é", 1), (b!"b", 2), (b!"▁é", 3)]
    let m : BPE := ⟨Vocab.fromJSON (some terms) terms,
      [((0, 1), ⟨0, 3⟩)], ⟨10000⟩, false, [], [], [], false⟩
    ((metaSpace u!"▁" true (PTS.fromString b!"é b")).bind fun r =>
      (r.1.tokenize (m.tokenizeNS fun _ _ => false)).bind fun r => r.1.intoEncoding (-1) 0)
    = .ok (.ok ⟨[3, 0, 2], [0, 0, 0], [b!"▁é", b!"▁", b!"b"], [0, 1, 1],
        [⟨0, 2⟩, ⟨2, 3⟩, ⟨3, 4⟩], [0, 0, 0], [1, 1, 1]⟩) := by decide +kernel

end Verif
