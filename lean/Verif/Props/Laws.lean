import Verif.Props.Bert

/-!
Property C71: doing a change of the text twice.  `Map` with the identity, `Filter` that keeps
everything and trimming trimmed text change nothing, neither text nor alignments, even on
states where the first call has misplaced alignments (C06, C07).
-/

set_option autoImplicit false

namespace Verif

theorem Repr.ext {a b : NS} {cs : List Ch} (ha : Repr a cs) (hb : Repr b cs) (ho : a.original = b.original)
    (hs : a.originalShift = b.originalShift) : a = b := by
  obtain ⟨o1, n1, al1, s1⟩ := a
  obtain ⟨o2, n2, al2, s2⟩ := b
  have h1 := ha.text_eq.trans hb.text_eq.symm
  have h2 := ha.aligns_eq.trans hb.aligns_eq.symm
  simp only at h1 h2 ho hs
  subst h1 h2 ho hs
  rfl

/-- **C71, map.** A function that changes no rune of the text changes nothing. -/
theorem C71_map_id {ns : NS} {cs : List Ch} (h : Repr ns cs) {f : Rune → Rune} (hf : ∀ r ∈ runesOf ns.get, f r = r) :
    ns.map f = .ok ns := by
  obtain ⟨m, e, hm, ho, hs⟩ := C05_map h f
  have hru : runesOf ns.get = cs.map (·.1) := h.runes
  have : (cs.map fun c => (sanitize (f c.1), c.2)) = cs := by
    rw [List.map_congr_left (g := id)]
    · simp
    · intro c hc
      rw [hf c.1 (by rw [hru]; exact List.mem_map.2 ⟨c, hc, rfl⟩), sanitize_of_valid (h.valid c hc)]
      rfl
  rw [this] at hm
  rw [e, hm.ext h ho hs]

/-- **C71, map after map.** One pass with the composed function (a rune that is no character
is written as U+FFFD in between). -/
theorem C71_map_map {ns m : NS} {cs : List Ch} (h : Repr ns cs) {f g : Rune → Rune} (hf : ns.map f = .ok m) :
    m.map g = ns.map fun r => g (sanitize (f r)) := by
  obtain ⟨m', e, hm, ho, hs⟩ := C05_map h f
  rw [e] at hf; injection hf with hf; subst hf
  obtain ⟨p, e1, hp, ho1, hs1⟩ := C05_map hm g
  obtain ⟨q, e2, hq, ho2, hs2⟩ := C05_map h fun r => g (sanitize (f r))
  rw [List.map_map] at hp
  rw [e1, e2, hp.ext hq (by rw [ho1, ho, ho2]) (by rw [hs1, hs, hs2])]

/-- **C71, filter that keeps all.** -/
theorem C71_filter_all {ns : NS} {cs : List Ch} (h : Repr ns cs) {keep : Rune → Bool}
    (hk : ∀ r ∈ runesOf ns.get, keep r = true) : ns.filter keep = .ok ns := by
  have hru : runesOf ns.get = cs.map (·.1) := h.runes
  have hk' : ∀ c ∈ cs, keep c.1 = true := fun c hc => hk c.1 (by rw [hru]; exact List.mem_map.2 ⟨c, hc, rfl⟩)
  have ht : (cs.takeWhile fun c => !keep c.1) = [] := by
    cases cs with
    | nil => rfl
    | cons c cs => simp [hk' c (by simp)]
  obtain ⟨m, e, hm, ho, hs⟩ := C06_filter_partial h keep (.inr (by rw [ht]; unfold AsciiChars; simp))
  rw [List.filter_eq_self.2 hk'] at hm
  rw [e, hm.ext h ho hs]

/-- **C71, filter twice.** -/
theorem C71_filter_twice {ns m : NS} {cs : List Ch} (h : Repr ns cs) {keep : Rune → Bool}
    (hf : ns.filter keep = .ok m) : m.filter keep = .ok m := by
  obtain ⟨out, h1, h2⟩ := filter_runes ⟨cs, h, rfl⟩ hf
  apply C71_filter_all h1
  have hru : runesOf m.get = out.map (·.1) := h1.runes
  rw [hru, h2]
  intro r hr
  exact (List.mem_filter.1 hr).2

/-- **C71, filter after filter, text.** -/
theorem C71_filter_filter_text {ns m q : NS} {cs : List Ch} (h : Repr ns cs) {k1 k2 : Rune → Bool}
    (h1 : ns.filter k1 = .ok m) (h2 : m.filter k2 = .ok q) :
    q.get = encodeRunes ((runesOf ns.get).filter fun r => k1 r && k2 r) := by
  have hru : runesOf ns.get = cs.map (·.1) := h.runes
  obtain ⟨out, g1, g2⟩ := filter_runes (filter_runes ⟨cs, h, hru.symm⟩ h1) h2
  have : q.get = encodeRunes (out.map (·.1)) := g1.text_eq
  rw [this, g2, List.filter_filter]
  congr 2
  funext r
  exact Bool.and_comm _ _

theorem asciiChars_sub {as bs : List Ch} (h : AsciiChars bs) (hs : ∀ c ∈ as, c ∈ bs) : AsciiChars as :=
  fun c hc => h c (hs c hc)

theorem takeWhile_filter_sub {α : Type} (p q : α → Bool) (l : List α) :
    ∀ c ∈ (l.filter p).takeWhile (fun c => !q c), c ∈ l.takeWhile fun c => !(p c && q c) := by
  induction l with
  | nil => intro c hc; simp at hc
  | cons a l ih =>
    intro c hc
    cases hp : p a with
    | false =>
      simp only [List.filter_cons, hp] at hc
      simp only [List.takeWhile_cons, hp, Bool.false_and, Bool.not_false, if_true]
      exact List.mem_cons_of_mem _ (ih c (by simpa using hc))
    | true =>
      simp only [List.filter_cons, hp, if_true, List.takeWhile_cons] at hc
      simp only [List.takeWhile_cons, hp, Bool.true_and]
      cases hq : q a with
      | false =>
        simp only [hq, Bool.not_false, if_true, List.mem_cons] at hc ⊢
        rcases hc with rfl | hc
        · exact .inl rfl
        · exact .inr (ih c hc)
      | true => simp [hq] at hc

/-- **C71, filter after filter.** One pass with both conditions, alignments included, where
`Filter` is right (C06): the runes dropped in front by either are ASCII. -/
theorem C71_filter_filter {ns : NS} {cs : List Ch} (h : Repr ns cs) (k1 k2 : Rune → Bool)
    (hl : AsciiChars (cs.takeWhile fun c => !(k1 c.1 && k2 c.1))) :
    ∃ m q, ns.filter k1 = .ok m ∧ m.filter k2 = .ok q ∧ ns.filter (fun r => k1 r && k2 r) = .ok q := by
  have hl1 : AsciiChars (cs.takeWhile fun c => !k1 c.1) := by
    refine asciiChars_sub hl ?_
    have : ∀ l : List Ch, ∀ c ∈ l.takeWhile (fun c => !k1 c.1), c ∈ l.takeWhile fun c => !(k1 c.1 && k2 c.1) := by
      intro l
      induction l with
      | nil => intro c hc; simp at hc
      | cons a l ih =>
        intro c hc
        cases hp : k1 a.1 with
        | true => simp [hp] at hc
        | false =>
          simp only [List.takeWhile_cons, hp, Bool.not_false, if_true, List.mem_cons, Bool.false_and] at hc ⊢
          rcases hc with rfl | hc
          · exact .inl rfl
          · exact .inr (ih c hc)
    exact this cs
  obtain ⟨m, e1, hm, ho1, hs1⟩ := C06_filter_partial h k1 (.inr hl1)
  obtain ⟨q, e2, hq, ho2, hs2⟩ := C06_filter_partial hm k2
    (.inr (asciiChars_sub hl (takeWhile_filter_sub (fun c : Ch => k1 c.1) (fun c => k2 c.1) cs)))
  obtain ⟨q', e3, hq', ho3, hs3⟩ := C06_filter_partial h (fun r => k1 r && k2 r) (.inr hl)
  refine ⟨m, q, e1, e2, ?_⟩
  rw [List.filter_filter] at hq
  have : (fun c : Ch => k2 c.1 && k1 c.1) = fun c => k1 c.1 && k2 c.1 := by funext c; exact Bool.and_comm _ _
  rw [this] at hq
  rw [e3, hq'.ext hq (by rw [ho3, ho2, ho1]) (by rw [hs3, hs2, hs1])]

theorem mem_omap {α β : Type} {f : α → β} {o : Option α} {b : β} : b ∈ o.map f ↔ ∃ a, a ∈ o ∧ f a = b := by
  cases o <;> simp

/-- No outer white space on the requested sides. -/
def Trimmed (left right : Bool) (rs : List Rune) : Prop :=
  (left = true → ∀ r ∈ rs.head?, isWhiteSpace r = false) ∧ (right = true → ∀ r ∈ rs.getLast?, isWhiteSpace r = false)

theorem dropWhile_head_eq {α : Type} (p : α → Bool) (l : List α) (h : ∀ c ∈ l.head?, p c = false) : l.dropWhile p = l := by
  cases l with
  | nil => rfl
  | cons a l => simp [h a (by simp)]

theorem dropWhile_head_false {α : Type} (p : α → Bool) (l : List α) : ∀ c ∈ (l.dropWhile p).head?, p c = false := by
  intro c hc
  have := List.head?_dropWhile_not p l
  cases hd : (l.dropWhile p).head? with
  | none => rw [hd] at hc; simp at hc
  | some a =>
    rw [hd] at this hc
    simp at hc; subst hc
    simpa using this

theorem trimSpec_of_trimmed {left right : Bool} {cs : List Ch} (h : Trimmed left right (cs.map (·.1))) :
    trimSpec left right cs = cs := by
  have h1 : (if left then cs.dropWhile (fun c => isWhiteSpace c.1) else cs) = cs := by
    cases left with
    | false => rfl
    | true =>
      refine dropWhile_head_eq _ _ fun c hc => h.1 rfl c.1 ?_
      rw [List.head?_map]; exact mem_omap.2 ⟨c, hc, rfl⟩
  unfold trimSpec
  simp only [h1]
  cases right with
  | false => rfl
  | true =>
    simp only [if_true]
    rw [dropWhile_head_eq, List.reverse_reverse]
    intro c hc
    refine h.2 rfl c.1 ?_
    rw [List.head?_reverse] at hc
    rw [List.getLast?_map]; exact mem_omap.2 ⟨c, hc, rfl⟩

theorem trimSpec_trimmed (left right : Bool) (cs : List Ch) : Trimmed left right ((trimSpec left right cs).map (·.1)) := by
  unfold trimSpec
  obtain ⟨l, hl⟩ : ∃ x, x = (if left then cs.dropWhile (fun c => isWhiteSpace c.1) else cs) := ⟨_, rfl⟩
  simp only [← hl]
  have hhead : left = true → ∀ c ∈ l.head?, isWhiteSpace c.1 = false := by
    intro hleft
    rw [hl, if_pos hleft]
    exact dropWhile_head_false (fun c : Ch => isWhiteSpace c.1) cs
  cases right with
  | false =>
    refine ⟨fun hleft r hr => ?_, fun hh => absurd hh (by simp)⟩
    simp only [Bool.false_eq_true, if_false, List.head?_map] at hr
    obtain ⟨c, hc, rfl⟩ := mem_omap.1 hr
    exact hhead hleft c hc
  | true =>
    simp only [if_true]
    have hsuf : ∃ t, l = (l.reverse.dropWhile fun c => isWhiteSpace c.1).reverse ++ t := by
      refine ⟨(l.reverse.takeWhile fun c => isWhiteSpace c.1).reverse, ?_⟩
      rw [← List.reverse_append, List.takeWhile_append_dropWhile, List.reverse_reverse]
    refine ⟨fun hleft r hr => ?_, fun _ r hr => ?_⟩
    · rw [List.head?_map] at hr
      obtain ⟨c, hc, rfl⟩ := mem_omap.1 hr
      obtain ⟨t, ht⟩ := hsuf
      apply hhead hleft c
      rw [ht, List.head?_append, Option.mem_def.1 hc]; rfl
    · rw [List.getLast?_map] at hr
      obtain ⟨c, hc, rfl⟩ := mem_omap.1 hr
      rw [List.getLast?_reverse] at hc
      exact dropWhile_head_false (fun c : Ch => isWhiteSpace c.1) l.reverse c hc

/-- **C71, trimming trimmed text.** -/
theorem C71_trim_trimmed {ns : NS} {cs : List Ch} (h : Repr ns cs) {left right : Bool}
    (ht : Trimmed left right (runesOf ns.get)) : ns.trimLeftRight left right = .ok ns := by
  have hru : runesOf ns.get = cs.map (·.1) := h.runes
  rw [hru] at ht
  have hcond : left = false ∨ (∀ c ∈ cs, isWhiteSpace c.1 = true) ∨ AsciiChars (cs.takeWhile fun c => isWhiteSpace c.1) := by
    cases left with
    | false => exact .inl rfl
    | true =>
      refine .inr (.inr ?_)
      cases cs with
      | nil => unfold AsciiChars; simp
      | cons c cs =>
        have := ht.1 rfl c.1 (by simp)
        unfold AsciiChars; simp [this]
  obtain ⟨m, e, hm, ho, hs⟩ := C07_trim_partial h left right hcond
  rw [trimSpec_of_trimmed ht] at hm
  rw [e, hm.ext h ho hs]

/-- **C71, trim twice.** -/
theorem C71_trim_twice {ns m : NS} {cs : List Ch} (h : Repr ns cs) {left right : Bool}
    (hf : ns.trimLeftRight left right = .ok m) : m.trimLeftRight left right = .ok m := by
  have ht := C54_trim_text h hf
  have hv : ValidChars (trimSpec left right cs) := by
    intro c hc
    apply h.valid c
    unfold trimSpec at hc
    simp only at hc
    have hl : ∀ c, c ∈ (if left then cs.dropWhile (fun c => isWhiteSpace c.1) else cs) → c ∈ cs := by
      intro c hc
      cases left with
      | false => exact hc
      | true => exact (List.dropWhile_sublist _).subset hc
    cases right with
    | false => exact hl c hc
    | true =>
      simp only [if_true, List.mem_reverse] at hc
      exact hl c (by simpa using (List.dropWhile_sublist _).subset hc)
  obtain ⟨out, h1⟩ : Whole m := Op.run_whole (op := .trim left right) trivial ⟨cs, h⟩ hf
  apply C71_trim_trimmed h1
  have : runesOf m.get = (trimSpec left right cs).map (·.1) := by
    rw [ht]
    apply runesOf_encodeRunes
    intro r hr
    obtain ⟨c, hc, rfl⟩ := List.mem_map.1 hr
    exact hv c hc
  rw [this]
  exact trimSpec_trimmed left right cs

/-- **C71, text that BERT leaves alone.** If every rune is kept and left as it is by each
enabled step, `BertNormalizer.Normalize` changes neither text nor alignments. -/
theorem C71_bert {ns : NS} {cs : List Ch} (h : Repr ns cs) {u : Uni} {c : BertCfg}
    (hc : ∀ r ∈ runesOf ns.get,
      (c.textCleaning = true → bertDropped u r = false ∧ (isWhiteSpace r = true → r = 32))
      ∧ (c.chineseCharsHandling = true → isChinese r = false)
      ∧ (c.accentsStripping = true → u.isMn r = false)
      ∧ (c.lowerCaseEnabled = true → u.toLower r = r)) :
    bertNormalize u c ns = .ok (ns, none) := by
  have hru : runesOf ns.get = cs.map (·.1) := h.runes
  have e1 : (if c.textCleaning then cleanText u ns else pure ns) = .ok ns := by
    by_cases hb : c.textCleaning = true
    · rw [if_pos hb]
      unfold cleanText
      rw [C71_filter_all h (keep := cleanKeep u) (fun r hr => ?_), GoM.bind_ok, C71_map_id h]
      · intro r hr
        have := (((hc r hr).1 hb).2)
        rw [cleanMap_eq]
        by_cases hw : isWhiteSpace r = true
        · rw [if_pos hw, this hw]
        · rw [if_neg hw]
      · rw [cleanKeep_eq]; simp [((hc r hr).1 hb).1]
    · rw [if_neg hb]; rfl
  have e2 : (if c.chineseCharsHandling then handleChineseChars ns else pure ns) = .ok ns := by
    by_cases hb : c.chineseCharsHandling = true
    · rw [if_pos hb]
      obtain ⟨m, x1, x2, x3, x4⟩ := handleChineseChars_spec h
      have key : ∀ l : List Ch, (∀ c ∈ l, isChinese c.1 = false) →
          (l.flatMap fun x => if isChinese x.1 then [(0x20, x.2), x, (0x20, x.2)] else [x]) = l := by
        intro l
        induction l with
        | nil => intro _; rfl
        | cons a l ih =>
          intro hl
          rw [List.flatMap_cons, ih fun c hc => hl c (by simp [hc])]
          simp [hl a (by simp)]
      rw [key cs fun x hx => (hc x.1 (by rw [hru]; exact List.mem_map.2 ⟨x, hx, rfl⟩)).2.1 hb] at x2
      rw [x1, x2.ext h x3 x4]
    · rw [if_neg hb]; rfl
  have e3 : (if c.accentsStripping then stripAccents u ns else pure ns) = .ok ns := by
    by_cases hb : c.accentsStripping = true
    · rw [if_pos hb]
      exact C71_filter_all h fun r hr => by simp [(hc r hr).2.2.1 hb]
    · rw [if_neg hb]; rfl
  have e4 : (if c.lowerCaseEnabled then ns.toLower u.toLower else pure ns) = .ok ns := by
    by_cases hb : c.lowerCaseEnabled = true
    · rw [if_pos hb]
      exact C71_map_id h fun r hr => (hc r hr).2.2.2 hb
    · rw [if_neg hb]; rfl
  simp only [bertNormalize]
  rw [ite_bind, e1, GoM.bind_ok, ite_bind, e2, GoM.bind_ok, ite_bind, e3, GoM.bind_ok, ite_bind, e4, GoM.bind_ok]
  rfl

/-- Trimming "  é " twice, filtering '-' twice. -/
example : ((NS.fromString b!"  é ").trimLeftRight true true).bind (fun m => m.trimLeftRight true true)
    = .ok ⟨b!"  é ", b!"é", [⟨2, 4⟩, ⟨2, 4⟩], 0⟩ := by decide +kernel

/-- The first call misplaces the alignment of 'a' (C06); the second changes nothing more. -/
example : ((NS.fromString b!"éa").filter fun r => r != u!"é") = .ok ⟨b!"éa", b!"a", [⟨0, 2⟩], 0⟩
    ∧ (⟨b!"éa", b!"a", [⟨0, 2⟩], 0⟩ : NS).filter (fun r => r != u!"é") = .ok ⟨b!"éa", b!"a", [⟨0, 2⟩], 0⟩ := by
  decide +kernel

/-- `C71_bert` needs its condition: Chinese runes get new spaces each time. -/
example : (bertNormalize ⟨fun _ => false, fun _ => false, fun _ => false, id⟩ ⟨true, true, true, true⟩ (NS.fromString b!"世")).bind
      (fun x => bertNormalize ⟨fun _ => false, fun _ => false, fun _ => false, id⟩ ⟨true, true, true, true⟩ x.1)
    = .ok (⟨b!"世", b!"  世  ", [⟨0, 3⟩, ⟨0, 3⟩, ⟨0, 3⟩, ⟨0, 3⟩, ⟨0, 3⟩, ⟨0, 3⟩, ⟨0, 3⟩], 0⟩, none) := by decide +kernel

end Verif
