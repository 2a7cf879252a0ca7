import Verif.Props.NormalizeBytes
import Verif.Props.AnyBytes
import Verif.Props.StrUtils
import Verif.Props.BertPipeline

/-! Property C132: the BERT tokenizer with text cleaning on any bytes. -/

set_option autoImplicit false

namespace Verif

/-! ## Alignments past the text do no harm -/

/-- The state with more alignments at the end. -/
def withMore (ns : NS) (E : List Align) : NS := { ns with alignments := ns.alignments ++ E }

theorem goIndex_more {α : Type} {l : List α} {i : Int} {x : α} (h : goIndex l i = .ok x) (E : List α) :
    goIndex (l ++ E) i = .ok x := by
  obtain ⟨h0, h1⟩ := goIndex_eq_ok.1 h
  refine goIndex_eq_ok.2 ⟨h0, ?_⟩
  rw [List.getElem?_append_left (List.getElem?_eq_some_iff.1 h1).1]
  exact h1

theorem goSlice_more {α : Type} {l r : List α} {a b : Int} (h : goSlice l a b = .ok r) (E : List α) :
    goSlice (l ++ E) a b = .ok r := by
  obtain ⟨p, q, e, h1, h2⟩ := goSlice_split h
  subst e
  rw [List.append_assoc]
  exact goSlice_mid p r (q ++ E) h1 (by omega)

theorem transformStep_more {als : List Align} {st st' : TState} {rc : RuneChange}
    (h : transformStep als st rc = .ok st') (E : List Align) : transformStep (als ++ E) st rc = .ok st' := by
  unfold transformStep at h ⊢
  by_cases hc : rc.change ≥ 1
  · simp only [if_pos hc] at h ⊢
    obtain ⟨al, h1, h⟩ := GoM.bind_eq_ok.1 h
    refine GoM.bind_eq_ok.2 ⟨al, ?_, h⟩
    by_cases hi : st.offset < 1
    · rw [if_pos hi] at h1 ⊢; exact h1
    · rw [if_neg hi] at h1 ⊢; exact goIndex_more h1 E
  · simp only [if_neg hc] at h ⊢
    obtain ⟨al, h1, h⟩ := GoM.bind_eq_ok.1 h
    exact GoM.bind_eq_ok.2 ⟨al, goIndex_more h1 E, h⟩

theorem transformLoop_more {als : List Align} (E : List Align) : ∀ {dest : List RuneChange} {st st' : TState},
    goFor dest st (transformStep als) = .ok st' → goFor dest st (transformStep (als ++ E)) = .ok st' := by
  intro dest
  induction dest with
  | nil => intro st st' h; exact h
  | cons rc dest ih =>
    intro st st' h
    obtain ⟨st1, h1, h2⟩ := GoM.bind_eq_ok.1 h
    exact GoM.bind_eq_ok.2 ⟨st1, transformStep_more h1 E, ih h2⟩

/-- A transformation of the whole text leaves the further alignments where they are. -/
theorem transform_more {ns ns' : NS} (hl : ns.normalized.length ≤ ns.alignments.length) {dest : List RuneChange} {k : Nat}
    (hk : k ≤ ns.normalized.length) (h : ns.transform dest k = .ok ns') (E : List Align) :
    (withMore ns E).transform dest k = .ok (withMore ns' E) := by
  rw [wholeText_loop hl dest k hk] at h
  rw [wholeText_loop (ns := withMore ns E) (by simp [withMore]; omega) dest k hk]
  obtain ⟨st, h1, h2⟩ := GoM.bind_eq_ok.1 h
  refine GoM.bind_eq_ok.2 ⟨st, transformLoop_more E h1, ?_⟩
  injection h2 with h2
  subst h2
  simp [withMore, List.drop_append, Nat.sub_eq_zero_of_le hl]

theorem map_more {ns ns' : NS} (hl : ns.normalized.length ≤ ns.alignments.length) {f : Rune → Rune}
    (h : ns.map f = .ok ns') (E : List Align) : (withMore ns E).map f = .ok (withMore ns' E) :=
  transform_more (k := 0) hl (by omega) h E

theorem chinese_more {ns ns' : NS} (hl : ns.normalized.length ≤ ns.alignments.length)
    (h : handleChineseChars ns = .ok ns') (E : List Align) : handleChineseChars (withMore ns E) = .ok (withMore ns' E) :=
  transform_more (k := 0) hl (by omega) h E

theorem filterChanges_start (keep : Rune → Bool) (s : Str) : (NS.filterChanges keep (runesOf s)).2 ≤ s.length := by
  have hru := runesOf_chunks s
  rcases first_kept keep (chunks s) with hn | ⟨lead, c, rest, he, k1, k2, k3, k4⟩
  · rw [filterChanges_none]
    · exact Nat.zero_le _
    · intro r hr
      rw [hru] at hr
      obtain ⟨c, hc, rfl⟩ := List.mem_map.1 hr
      exact hn c hc
  · rw [hru, he, List.map_append, List.map_cons, filterChanges_eq _ _ _ _ ?_ k2]
    · have h2 := chunks_le s
      rw [he] at h2
      simp at h2 ⊢; omega
    · intro r hr
      obtain ⟨c, hc, rfl⟩ := List.mem_map.1 hr
      exact k1 c hc

theorem filter_more {ns ns' : NS} (hl : ns.normalized.length ≤ ns.alignments.length) {keep : Rune → Bool}
    (h : ns.filter keep = .ok ns') (E : List Align) : (withMore ns E).filter keep = .ok (withMore ns' E) :=
  transform_more hl (filterChanges_start keep ns.normalized) h E

/-- A transformation of the whole text leaves no fewer alignments than bytes. -/
theorem transform_len {ns ns' : NS} {dest : List RuneChange} {io : Int} (h : ns.transform dest io = .ok ns') :
    ns'.normalized.length ≤ ns'.alignments.length := (roomy_transform h).len

/-! ## Cutting does not look at them -/

theorem coerceRangeToOriginal_more {ns : NS} {a b : Int} {r : Option (Int × Int)}
    (h : ns.coerceRangeToOriginal (.normalized a b) = .ok r) (E : List Align) :
    (withMore ns E).coerceRangeToOriginal (.normalized a b) = .ok r := by
  unfold NS.coerceRangeToOriginal at h ⊢
  simp only at h ⊢
  have hd : (withMore ns E).normalized = ns.normalized := rfl
  have ho : (withMore ns E).originalLen = ns.originalLen := rfl
  rw [hd, ho]
  split at h
  · rename_i hc; rw [if_pos hc]; exact h
  · rename_i hc
    rw [if_neg hc]
    split at h
    · rename_i hc; rw [if_pos hc]; exact h
    · rename_i hc
      rw [if_neg hc]
      split at h
      · rename_i hc; rw [if_pos hc]; exact h
      · rename_i hc
        rw [if_neg hc]
        obtain ⟨als, h1, h⟩ := GoM.bind_eq_ok.1 h
        exact GoM.bind_eq_ok.2 ⟨als, goSlice_more h1 E, h⟩

theorem slice_more {ns : NS} {a b : Int} {r : Option NS} (h : ns.slice (.normalized a b) = .ok r) (E : List Align) :
    (withMore ns E).slice (.normalized a b) = .ok r := by
  unfold NS.slice at h ⊢
  have hv : (withMore ns E).rangeIsValid (.normalized a b) = ns.rangeIsValid (.normalized a b) := rfl
  rw [hv]
  split at h
  · rename_i hc; rw [if_pos hc]; exact h
  · rename_i hc
    rw [if_neg hc]
    have hn : (withMore ns E).coerceRangeToNormalized (.normalized a b) = ns.coerceRangeToNormalized (.normalized a b) := rfl
    rw [hn]
    cases hcn : ns.coerceRangeToNormalized (.normalized a b) with
    | none => rw [hcn] at h; exact h
    | some ab =>
      rw [hcn] at h
      obtain ⟨na, nb⟩ := ab
      simp only at h ⊢
      obtain ⟨o, h1, h⟩ := GoM.bind_eq_ok.1 h
      refine GoM.bind_eq_ok.2 ⟨o, coerceRangeToOriginal_more h1 E, ?_⟩
      cases o with
      | none => exact h
      | some oo =>
        obtain ⟨oa, ob⟩ := oo
        simp only at h ⊢
        obtain ⟨original, h2, h⟩ := GoM.bind_eq_ok.1 h
        refine GoM.bind_eq_ok.2 ⟨original, ?_, ?_⟩
        · unfold NS.getOriginalRange at h2 ⊢
          obtain ⟨q, h3, h2⟩ := GoM.bind_eq_ok.1 h2
          exact GoM.bind_eq_ok.2 ⟨q, coerceRangeToOriginal_more h3 E, h2⟩
        · obtain ⟨nn, h3, h⟩ := GoM.bind_eq_ok.1 h
          refine GoM.bind_eq_ok.2 ⟨nn, h3, ?_⟩
          obtain ⟨als, h4, h⟩ := GoM.bind_eq_ok.1 h
          exact GoM.bind_eq_ok.2 ⟨als, goSlice_more h4 E, h⟩

theorem sliceAll_more {ns : NS} (E : List Align) : ∀ {ms : List SplitMatch} {r : Except Err (List NS)},
    ns.sliceAll ms = .ok r → (withMore ns E).sliceAll ms = .ok r := by
  intro ms
  induction ms with
  | nil => intro r h; exact h
  | cons x xs ih =>
    intro r h
    unfold NS.sliceAll at h ⊢
    split at h
    · rename_i hc; rw [if_pos hc]; exact ih h
    · rename_i hc
      rw [if_neg hc]
      obtain ⟨p, h1, h⟩ := GoM.bind_eq_ok.1 h
      refine GoM.bind_eq_ok.2 ⟨p, slice_more h1 E, ?_⟩
      cases p with
      | none => exact h
      | some p =>
        simp only at h ⊢
        obtain ⟨q, h2, h⟩ := GoM.bind_eq_ok.1 h
        exact GoM.bind_eq_ok.2 ⟨q, ih h2, h⟩

theorem split_more {ns : NS} {pattern : SplitPattern} {b : Behavior} {r : Except Err (List NS)}
    (h : ns.split pattern b = .ok r) (E : List Align) : (withMore ns E).split pattern b = .ok r := by
  unfold NS.split at h ⊢
  obtain ⟨c, h1, h⟩ := GoM.bind_eq_ok.1 h
  refine GoM.bind_eq_ok.2 ⟨c, h1, ?_⟩
  cases c with
  | error e => exact h
  | ok cs => exact sliceAll_more E h

/-- A `PreTokenizedString` of one split is cut into the same pieces. -/
theorem ptsSplit_more {ns : NS} {o : Str} {pattern : SplitPattern} {b : Behavior} {p : PTS}
    (h : (PTS.mk o [⟨ns, none⟩]).split (splitByPattern pattern b) = .ok (p, none)) (E : List Align) :
    (PTS.mk o [⟨withMore ns E, none⟩]).split (splitByPattern pattern b) = .ok (p, none) := by
  simp only [PTS.split, PTS.splitLoop, splitByPattern] at h ⊢
  cases hs : ns.split pattern b with
  | panic => rw [hs] at h; simp at h
  | ok r =>
    rw [split_more hs E]
    rw [hs] at h
    cases r with
    | error e => simp at h
    | ok nss => simpa using h

theorem bertPre_more {ns : NS} {o : Str} {u : Uni} {p : PTS}
    (h : bertPreTokenize u (PTS.mk o [⟨ns, none⟩]) = .ok (p, none)) (E : List Align) :
    bertPreTokenize u (PTS.mk o [⟨withMore ns E, none⟩]) = .ok (p, none) := by
  unfold bertPreTokenize at h ⊢
  obtain ⟨⟨p1, e⟩, h1, h⟩ := GoM.bind_eq_ok.1 h
  cases e with
  | some e => simp at h
  | none => exact GoM.bind_eq_ok.2 ⟨_, ptsSplit_more h1 E, h⟩

/-! ## What is read of the bytes -/

/-- The characters read: a bad byte is U+FFFD and is aligned to the three bytes that this takes. -/
def chunkChars (i : Nat) (cs : List Chunk) : List Ch :=
  (rangeChunks i cs).map fun q => (q.2, ⟨(q.1 : Int), ((q.1 + runeLen q.2 : Nat) : Int)⟩)

theorem chunkChars_cons (i : Nat) (c : Chunk) (cs : List Chunk) :
    chunkChars i (c :: cs) = (c.rune, ⟨(i : Int), ((i + runeLen c.rune : Nat) : Int)⟩) :: chunkChars (i + c.bytes.length) cs := rfl

theorem chunkChars_runes (i : Nat) (cs : List Chunk) : (chunkChars i cs).map (·.1) = cs.map (·.rune) := by
  rw [← rangeChunks_map_snd cs i]
  simp [chunkChars, Function.comp_def]

theorem chunkChars_aligns (i : Nat) (cs : List Chunk) : aligns (chunkChars i cs) = chunkAligns i cs := by
  simp [aligns, chunkChars, chunkAligns, List.flatMap_map]

theorem chunkChars_append : ∀ (a b : List Chunk) (i : Nat),
    chunkChars i (a ++ b) = chunkChars i a ++ chunkChars (i + (textOf a).length) b := by
  intro a
  induction a with
  | nil => intro b i; simp [chunkChars, rangeChunks, textOf]
  | cons c a ih =>
    intro b i
    rw [List.cons_append, chunkChars_cons, chunkChars_cons, ih, textOf_cons, List.length_append, Nat.add_assoc]
    rfl

theorem chunkChars_length (i : Nat) (cs : List Chunk) : (chunkChars i cs).length = cs.length := by
  have := congrArg List.length (chunkChars_runes i cs)
  simpa using this

/-- A cut of the characters is a cut of the chunks. -/
theorem chunkChars_split {cs : List Chunk} {i : Nat} {A B : List Ch} (h : chunkChars i cs = A ++ B) :
    ∃ a b, cs = a ++ b ∧ A = chunkChars i a ∧ B = chunkChars (i + (textOf a).length) b := by
  refine ⟨cs.take A.length, cs.drop A.length, (List.take_append_drop _ _).symm, ?_⟩
  have hlen : A.length ≤ cs.length := by
    have := congrArg List.length h
    rw [chunkChars_length, List.length_append] at this; omega
  have e := chunkChars_append (cs.take A.length) (cs.drop A.length) i
  rw [List.take_append_drop, h] at e
  exact List.append_inj e (by rw [chunkChars_length, List.length_take]; omega)

/-- Each character starts at its own place. -/
theorem chunkChars_starts : ∀ {cs : List Chunk} (i : Nat), (∀ c ∈ cs, c.bytes ≠ []) →
    (∀ x ∈ chunkChars i cs, (i : Int) ≤ x.2.start) ∧ (chunkChars i cs).Pairwise fun x y => x.2.start < y.2.start := by
  intro cs
  induction cs with
  | nil => intro i _; simp [chunkChars, rangeChunks]
  | cons c cs ih =>
    intro i h
    obtain ⟨h1, h2⟩ := ih (i + c.bytes.length) fun d hd => h d (by simp [hd])
    have hp := List.length_pos_iff.2 (h c (by simp))
    rw [chunkChars_cons]
    constructor
    · intro x hx
      rcases List.mem_cons.1 hx with rfl | hx
      · exact Int.le_refl _
      · have := h1 x hx; omega
    · refine List.Pairwise.cons ?_ h2
      intro y hy
      have := h1 y hy
      simp only; omega

theorem eq_of_start {cs : List Ch} (h : cs.Pairwise fun x y => x.2.start < y.2.start) {x y : Ch} (hx : x ∈ cs) (hy : y ∈ cs)
    (e : x.2.start = y.2.start) : x = y := by
  induction h with
  | nil => simp at hx
  | @cons a cs ha _ ih =>
    rcases List.mem_cons.1 hx with h1 | h1 <;> rcases List.mem_cons.1 hy with h2 | h2
    · rw [h1, h2]
    · have := ha y h2; rw [h1] at e; omega
    · have := ha x h1; rw [h2] at e; omega
    · exact ih h1 h2

/-- Chunks other than U+FFFD are the encodings of their runes. -/
def Proper (cs : List Chunk) : Prop := ∀ c ∈ cs, c.bytes ≠ [] ∧ (c.rune ≠ 0xFFFD → c.bytes.length = runeLen c.rune)

theorem proper_chunks (s : Str) : Proper (chunks s) := by
  intro c hc
  obtain ⟨h1, h2, h3⟩ := (reads_chunks s).chunk c hc
  refine ⟨h1, fun hr => ?_⟩
  rcases h3 with h3 | ⟨-, h3⟩
  · rw [h3]; rfl
  · exact absurd h3 hr

/-- The characters other than U+FFFD are in the text and do not overlap with later ones. -/
theorem chunkChars_inside : ∀ {cs : List Chunk} (i : Nat), Proper cs →
    (∀ x ∈ chunkChars i cs, x.1 ≠ 0xFFFD → x.2.start ≤ x.2.stop ∧ x.2.stop ≤ ((i + (textOf cs).length : Nat) : Int))
      ∧ (chunkChars i cs).Pairwise fun x y => x.1 ≠ 0xFFFD → x.2.stop ≤ y.2.start := by
  intro cs
  induction cs with
  | nil => intro i _; simp [chunkChars, rangeChunks]
  | cons c cs ih =>
    intro i h
    have h' : Proper cs := fun d hd => h d (by simp [hd])
    obtain ⟨h1, h2⟩ := ih (i + c.bytes.length) h'
    have hs := (chunkChars_starts (i + c.bytes.length) (cs := cs) fun d hd => (h' d hd).1).1
    have hc := (h c (by simp)).2
    rw [chunkChars_cons, textOf_cons, List.length_append]
    constructor
    · intro x hx hr
      rcases List.mem_cons.1 hx with rfl | hx
      · have := hc hr
        simp only; omega
      · have := h1 x hx hr; omega
    · refine List.Pairwise.cons ?_ h2
      intro y hy hr
      have := hc hr
      have := hs y hy
      simp only; omega

/-- The state that has U+FFFD written out for each bad byte. -/
def readState (s : Str) : NS := ⟨s, encodeRunes (runesOf s), (NS.fromString s).alignments, 0⟩

theorem readState_repr (s : Str) : Repr (readState s) (chunkChars 0 (chunks s)) := by
  refine ⟨?_, ?_, ?_⟩
  · show encodeRunes (runesOf s) = _
    unfold text
    rw [chunkChars_runes, runesOf_chunks]
  · show (NS.fromString s).alignments = _
    rw [chunkChars_aligns, fromString_aligns]
  · intro c hc
    have : c.1 ∈ (chunks s).map (·.rune) := by
      rw [← chunkChars_runes 0]
      exact List.mem_map.2 ⟨c, hc, rfl⟩
    obtain ⟨d, hd, e⟩ := List.mem_map.1 this
    rw [← e]
    exact ((reads_chunks s).chunk d hd).2.1

theorem runesOf_read (s : Str) : runesOf (encodeRunes (runesOf s)) = runesOf s := by
  refine runesOf_encodeRunes _ ?_
  intro r hr
  rw [runesOf_chunks] at hr
  obtain ⟨d, hd, rfl⟩ := List.mem_map.1 hr
  exact ((reads_chunks s).chunk d hd).2.1

/-- `Filter` that drops only ASCII in front does on any bytes what it does with U+FFFD written out, but leaves alignments over. -/
theorem filter_read {s : Str} {keep : Rune → Bool} {n : NS} (hg : GoodStart (fun r => !keep r) (runesOf s))
    (h : (readState s).filter keep = .ok n) :
    (NS.fromString s).filter keep = .ok (withMore n ((NS.fromString s).alignments.drop s.length)) := by
  have hroom := roomy_fromString s
  have hrl := (readState_repr s).len_eq
  have hru : runesOf (readState s).normalized = runesOf s := runesOf_read s
  unfold NS.filter at h ⊢
  rw [hru] at h
  have hru' : runesOf (NS.fromString s).normalized = runesOf s := rfl
  rw [hru']
  simp only at h ⊢
  have hk := filterChanges_start keep s
  have hk2 := filterChanges_start keep (readState s).normalized
  rw [hru] at hk2
  rw [wholeText_loop (by omega) _ _ hk2] at h
  rw [wholeText_loop hroom.len _ _ hk]
  obtain ⟨st, h1, h2⟩ := GoM.bind_eq_ok.1 h
  refine GoM.bind_eq_ok.2 ⟨st, ?_, ?_⟩
  · have ha : (readState s).alignments = (NS.fromString s).alignments := rfl
    rw [ha] at h1
    rcases first_kept keep (chunks s) with hn | ⟨lead, c, rest, he, k1, k2, k3, k4⟩
    · have hf : NS.filterChanges keep (runesOf s) = ([], 0) := by
        apply filterChanges_none
        intro r hr
        rw [runesOf_chunks] at hr
        obtain ⟨c, hc, rfl⟩ := List.mem_map.1 hr
        exact hn c hc
      rw [hf] at h1 ⊢
      simp only [List.drop_zero] at h1 ⊢
      rw [hru] at h1
      exact h1
    · have hf : (NS.filterChanges keep (runesOf s)).2 = lead.length := by
        rw [runesOf_chunks, he, List.map_append, List.map_cons, filterChanges_eq _ _ _ _ ?_ k2, List.length_map]
        intro r hr
        obtain ⟨c, hc, rfl⟩ := List.mem_map.1 hr
        exact k1 c hc
      rw [hf] at h1 ⊢
      have hlead : ∀ c ∈ lead, c.rune < 0x80 ∧ ValidRune c.rune := by
        intro d hd
        refine ⟨?_, ((reads_chunks s).chunk d (by rw [he]; simp [hd])).2.1⟩
        rcases hg with hg | hg
        · have := hg c.rune (by rw [runesOf_chunks, he]; simp)
          simp [k2] at this
        · refine hg d.rune ?_
          rw [runesOf_chunks, List.takeWhile_map]
          refine List.mem_map.2 ⟨d, ?_, rfl⟩
          rw [k3] at hd
          exact hd
      have hone : ∀ c ∈ lead, c.bytes.length = 1 := by
        intro d hd
        rcases ((reads_chunks s).chunk d (by rw [he]; simp [hd])).2.2 with e | ⟨-, e⟩
        · rw [e]; exact by
            have := encodeRunes_ascii_length [d.rune] (by
              intro r hr
              rw [List.mem_singleton.1 hr]
              exact ⟨by have := (hlead d hd).2; unfold ValidRune at this; omega, (hlead d hd).1⟩)
            simpa [encodeRunes] using this
        · have := (hlead d hd).1; omega
      have e1 := (runes_drop_lead he hone).2
      have e2 : runesOf ((readState s).normalized.drop lead.length) = (c :: rest).map (·.rune) := by
        have hs : (readState s).normalized = encodeRunes (lead.map (·.rune)) ++ encodeRunes ((c :: rest).map (·.rune)) := by
          show encodeRunes (runesOf s) = _
          rw [runesOf_chunks, he, List.map_append, encodeRunes_append]
        have hl : (encodeRunes (lead.map (·.rune))).length = lead.length := by
          rw [encodeRunes_ascii_length, List.length_map]
          intro r hr
          obtain ⟨d, hd, rfl⟩ := List.mem_map.1 hr
          exact ⟨by have := (hlead d hd).2; unfold ValidRune at this; omega, (hlead d hd).1⟩
        rw [hs]
        conv => lhs; rw [← hl]
        rw [List.drop_left]
        refine runesOf_encodeRunes _ ?_
        intro r hr
        obtain ⟨d, hd, rfl⟩ := List.mem_map.1 hr
        exact ((reads_chunks s).chunk d (by rw [he]; simp at hd ⊢; right; exact hd)).2.1
      rw [e2] at h1
      have e3 : (NS.fromString s).normalized.drop lead.length = s.drop lead.length := rfl
      rw [e3, e1]
      exact h1
  · injection h2 with h2
    subst h2
    have e : (readState s).alignments.drop (readState s).normalized.length = [] := by
      rw [List.drop_eq_nil_iff]; omega
    rw [e]
    simp [withMore, NS.fromString, readState]

theorem bertNormalize_steps (u : Uni) (c : BertCfg) (ns : NS) : bertNormalize u c ns =
    ((if c.textCleaning = true then cleanText u ns else pure ns) >>= fun n1 =>
      (if c.chineseCharsHandling = true then handleChineseChars n1 else pure n1) >>= fun n2 =>
      (if c.accentsStripping = true then stripAccents u n2 else pure n2) >>= fun n3 =>
      (if c.lowerCaseEnabled = true then n3.toLower u.toLower else pure n3) >>= fun n4 => pure (n4, none)) := by
  unfold bertNormalize
  cases c.textCleaning <;> cases c.chineseCharsHandling <;> cases c.accentsStripping <;> cases c.lowerCaseEnabled <;> rfl

/-- The BERT normalizer with text cleaning, the same. -/
theorem bertNormalize_read {u : Uni} {c : BertCfg} {s : Str} {n : NS} (hc : c.textCleaning = true)
    (hg : GoodStart (bertDropped u) (runesOf s)) (h : bertNormalize u c (readState s) = .ok (n, none)) :
    bertNormalize u c (NS.fromString s) = .ok (withMore n ((NS.fromString s).alignments.drop s.length), none) := by
  generalize hE : (NS.fromString s).alignments.drop s.length = E
  rw [bertNormalize_steps] at h ⊢
  rw [if_pos hc] at h ⊢
  obtain ⟨n1, h1, h⟩ := GoM.bind_eq_ok.1 h
  have l1 : n1.normalized.length ≤ n1.alignments.length ∧ cleanText u (NS.fromString s) = .ok (withMore n1 E) := by
    unfold cleanText at h1 ⊢
    obtain ⟨m, a1, a2⟩ := GoM.bind_eq_ok.1 h1
    have hk : GoodStart (fun r => !cleanKeep u r) (runesOf s) := by
      have : (fun r => !cleanKeep u r) = bertDropped u := by funext r; rw [cleanKeep_eq]; simp
      rw [this]; exact hg
    have := filter_read hk a1
    rw [hE] at this
    exact ⟨transform_len a2, GoM.bind_eq_ok.2 ⟨_, this, map_more (transform_len a1) a2 E⟩⟩
  refine GoM.bind_eq_ok.2 ⟨withMore n1 E, l1.2, ?_⟩
  have step : ∀ {b : Bool} {f : NS → GoM NS} {m m' : NS}, m.normalized.length ≤ m.alignments.length →
      (∀ {k k' : NS}, k.normalized.length ≤ k.alignments.length → f k = .ok k' →
        f (withMore k E) = .ok (withMore k' E) ∧ k'.normalized.length ≤ k'.alignments.length) →
      (if b = true then f m else pure m) = .ok m' → (if b = true then f (withMore m E) else pure (withMore m E)) = .ok (withMore m' E)
        ∧ m'.normalized.length ≤ m'.alignments.length := by
    intro b f m m' hl hf hm
    cases b with
    | true =>
      rw [if_pos rfl] at hm ⊢
      exact hf hl hm
    | false =>
      rw [if_neg (by simp)] at hm ⊢
      injection hm with hm
      subst hm
      exact ⟨rfl, hl⟩
  obtain ⟨n2, h2, h⟩ := GoM.bind_eq_ok.1 h
  obtain ⟨e2, l2⟩ := step l1.1 (fun hl hf => ⟨chinese_more hl hf E, transform_len hf⟩) h2
  refine GoM.bind_eq_ok.2 ⟨withMore n2 E, e2, ?_⟩
  obtain ⟨n3, h3, h⟩ := GoM.bind_eq_ok.1 h
  obtain ⟨e3, l3⟩ := step l2 (fun hl hf => ⟨filter_more hl hf E, transform_len hf⟩) h3
  refine GoM.bind_eq_ok.2 ⟨withMore n3 E, e3, ?_⟩
  obtain ⟨n4, h4, h⟩ := GoM.bind_eq_ok.1 h
  obtain ⟨e4, l4⟩ := step l3 (fun hl hf => ⟨map_more hl hf E, transform_len hf⟩) h4
  refine GoM.bind_eq_ok.2 ⟨withMore n4 E, e4, ?_⟩
  simp only [GoM.pure_eq] at h ⊢
  injection h with h
  injection h with h _
  rw [h]

/-! ## C132 -/

/-- The bytes at these offsets are read as runes that normalize to those of the group, white space left out. -/
def BertBytesSource (u : Uni) (c : BertCfg) (s : Str) (o : ByteOffsets) (G : List Rune) : Prop :=
  ∃ a h b, chunks s = a ++ h ++ b ∧ o = ⟨(textOf a).length, (textOf (a ++ h)).length⟩ ∧ h ≠ []
    ∧ bertVisible u c (h.map (·.rune)) = G

/-- What text cleaning drops may as well be dropped before. -/
theorem bertSpec_clean (u : Uni) {c : BertCfg} (hc : c.textCleaning = true) (cs : List Ch) :
    bertSpec u c (cs.filter fun x => !bertDropped u x.1) = bertSpec u c cs := by
  unfold bertSpec bertDrop
  simp only [hc, if_true, List.filter_filter, Bool.and_self]

/-- **C132.** The BERT tokenizer with text cleaning on any bytes, valid UTF-8 or not: if no bad byte and no multi-byte rune is dropped at
the very front (or everything is dropped), nothing fails or crashes.  The words are those of the cleaned text, in which bad bytes do not
occur; the offsets are increasing and disjoint; the bytes at the offsets of a token are read as runes that normalize to the characters
that the token stands for. -/
theorem C132_bert {u : Uni} (hu : u.toLower 0x20 = 0x20) (c : BertCfg) (hc : c.textCleaning = true) (m : WordPiece)
    (hval : m.vocab.AllValid) (hunk : m.vocab.getID m.unknownToken ≠ none) (s : Str)
    (h1 : GoodStart (bertDropped u) (runesOf s))
    (h2 : c.accentsStripping = true → GoodStart u.isMn (bertText u (spacesOnly c) (runesOf s))) (w ty : Int) :
    ∃ p0 p1 p2 enc L T Gf, (PTS.fromString s).normalize (bertNormalize u c) = .ok (p0, none)
      ∧ bertPreTokenize u p0 = .ok (p1, none)
      ∧ p1.tokenize (fun ns => .ok (m.tokenize ns.get)) = .ok (p2, none)
      ∧ p2.intoEncoding w ty = .ok (.ok enc)
      ∧ TokenizedBy isWhiteSpace u.isPunct (bertText u c (runesOf s)) (wordRunes L)
      ∧ (∀ x ∈ L, m.tokenize (text x.2) = .ok (T x) ∧ WordPieceWord m (Gf x) (T x))
      ∧ EncodesChars 0 w ty (L.map (·.2)) (L.map T) (L.map Gf) enc
      ∧ All2 (fun o G => BertBytesSource u c s o (G.map (·.1))) enc.offsets (L.map Gf).flatten
      ∧ (L.map Gf).flatten.flatten.map (·.1) = bertVisible u c (runesOf s)
      ∧ enc.offsets.Pairwise (fun o o' => o.stop ≤ o'.start) := by
  have hr := readState_repr s
  generalize hcc : chunkChars 0 (chunks s) = cc at hr
  have hfst : cc.map (·.1) = runesOf s := by rw [← hcc, chunkChars_runes, runesOf_chunks]
  obtain ⟨n, n1, n2, n3, n4⟩ := C34_bert_partial hr u c (fun _ => goodLead_iff (by rw [hfst]; exact h1))
    (fun h => goodLead_iff (by rw [spacesOnly_text, hfst]; exact h2 h))
  have hin := chunkChars_inside 0 (proper_chunks s)
  have hst := chunkChars_starts 0 (cs := chunks s) fun d hd => (proper_chunks s d hd).1
  rw [hcc, textOf_chunks] at hin
  rw [hcc] at hst
  have hgood : ∀ x : Ch, bertDropped u x.1 = false → x.1 ≠ 0xFFFD := by
    intro x hx e
    rw [e] at hx
    simp [bertDropped] at hx
  have hdis : (cc.filter fun x => !bertDropped u x.1).Pairwise fun x y => x.2.stop ≤ y.2.start := by
    rw [List.pairwise_filter]
    refine hin.2.imp ?_
    intro x y hxy hx _
    exact hxy (hgood x (by simpa using hx))
  have hwf : WF n := by
    refine wf_of_chars n2 ?_ ?_
    · rw [← bertSpec_clean u hc, bertSpec_flatMap]
      exact inPlace_ordered (bertSpec_inPlace u c) (hdis.imp fun h => Or.inr h)
    · intro x hx
      rw [← bertSpec_clean u hc, bertSpec_flatMap] at hx
      obtain ⟨y, hy, hx⟩ := List.mem_flatMap.1 hx
      rw [bertSpec_inPlace u c y x hx, n3]
      obtain ⟨hy1, hy2⟩ := List.mem_filter.1 hy
      have := hin.1 y hy1 (hgood y (by simpa using hy2))
      have := hst.1 y hy1
      show 0 ≤ y.2.start ∧ y.2.start ≤ y.2.stop ∧ y.2.stop ≤ (s.length : Int)
      omega
  have hshift : n.originalShift = 0 := by rw [n4]; rfl
  have n1' := bertNormalize_read hc h1 n1
  generalize (NS.fromString s).alignments.drop s.length = E at n1'
  have hnorm : (PTS.fromString s).normalize (bertNormalize u c) = .ok (⟨s, [⟨withMore n E, none⟩]⟩, none) := by
    have := C59_normalize_ok (PTS.fromString s) (bertNormalize u c) (fun _ => withMore n E) (by
      intro sp hsp _
      simp [PTS.fromString, PTS.fromNormalizedString] at hsp
      rw [hsp]; exact n1')
    rw [this]
    simp [PTS.fromString, PTS.fromNormalizedString, withText, NS.getOriginal, NS.fromString]
  obtain ⟨p1, p2, enc, L, T, Gf, k1, k2, k3, k4, k5, k6, k7, k8⟩ := C67_wordPiece (C66_bert u) m hval hunk hwf n2 s w ty
  have htext : (bertSpec u c cc).map (·.1) = bertText u c (runesOf s) := by rw [bertSpec_runes, hfst]
  rw [htext] at k6
  have hg := all2_maps k8.groups
  have hfl : (L.map Gf).flatten.flatten = L.flatMap (·.2) := by
    clear k1 k2 k3 k4 k5 k6 k7 k8
    induction L with
    | nil => rfl
    | cons x L ih =>
      rw [List.map_cons, List.flatten_cons, List.flatten_append, ih (fun y hy => hg y (by simp [hy])), (hg x (by simp)).1]
      rfl
  have hwc := words_chars k4 k5
  have hvis : ∀ G ∈ (L.map Gf).flatten, G ≠ [] ∧ ∀ g ∈ G, isWhiteSpace g.1 = false := by
    intro G hG
    constructor
    · obtain ⟨Gs, hGs, hG⟩ := List.mem_flatten.1 hG
      obtain ⟨x, hx, rfl⟩ := List.mem_map.1 hGs
      exact (hg x hx).2 G hG
    · intro g hgm
      have : g ∈ L.flatMap (·.2) := hfl ▸ List.mem_flatten.2 ⟨G, hG, hgm⟩
      rw [hwc] at this
      simpa using (List.mem_filter.1 this).2
  rw [hshift] at k8
  refine ⟨_, p1, p2, enc, L, T, Gf, hnorm, bertPre_more k1 E, k2, k3, k6, k7, k8, ?_, ?_, ?_⟩
  · rw [k8.offsets]
    have hinw := group_in_word k4 (fun x hx => (hg x hx).1)
    clear hfl
    generalize (L.map Gf).flatten = Gs at hvis hinw
    induction Gs with
    | nil => exact .nil
    | cons G Gs ih =>
      refine .cons ?_ (ih (fun X hX => hvis X (by simp [hX])) (fun X hX => hinw X (by simp [hX])))
      obtain ⟨A, C, e⟩ := hinw G (by simp)
      obtain ⟨hne, hws⟩ := hvis G (by simp)
      obtain ⟨a, H, b, e1, e2, e3, e4, e5⟩ := bert_source hu e hne hws
      -- the last character of the run is kept
      obtain ⟨H', z, rfl⟩ : ∃ H' z, H = H' ++ [z] := by
        rcases List.eq_nil_or_concat H with rfl | ⟨H', z, rfl⟩
        · exact absurd rfl e2
        · exact ⟨H', z, by simp⟩
      have hz : z.1 ≠ 0xFFFD := by
        obtain ⟨l, hl, el⟩ := lastAlign_mem hne
        have hl' : l ∈ bertSpec u c cc := by rw [e]; simp [hl]
        rw [← bertSpec_clean u hc, bertSpec_flatMap] at hl'
        obtain ⟨y, hy, hl'⟩ := List.mem_flatMap.1 hl'
        obtain ⟨hy1, hy2⟩ := List.mem_filter.1 hy
        have hyl := bertSpec_inPlace u c y l hl'
        rw [lastAlign_concat] at e5
        have : z = y := eq_of_start hst.2 (by rw [e1]; simp) hy1 (by rw [← e5, el, hyl])
        rw [this]
        exact hgood y (by simpa using hy2)
      rw [← hcc] at e1
      obtain ⟨ab, b', q1, q2, q3⟩ := chunkChars_split e1
      obtain ⟨a', h', q4, q5, q6⟩ := chunkChars_split q2.symm
      subst q4
      have hlen : h'.length = (H' ++ [z]).length := by rw [q6, chunkChars_length]
      obtain ⟨h'', d, rfl⟩ : ∃ h'' d, h' = h'' ++ [d] := by
        rcases List.eq_nil_or_concat h' with rfl | ⟨h'', d, rfl⟩
        · simp at hlen
        · exact ⟨h'', d, by simp⟩
      have q7 := q6
      rw [chunkChars_append] at q7
      obtain ⟨q8, q9⟩ := List.append_inj q7 (by simp at hlen; rw [chunkChars_length]; omega)
      have hd : z = (d.rune, ⟨((0 + (textOf a').length + (textOf h'').length : Nat) : Int),
          ((0 + (textOf a').length + (textOf h'').length + runeLen d.rune : Nat) : Int)⟩) := by
        simpa [chunkChars, rangeChunks] using q9
      have hdl : d.bytes.length = runeLen d.rune :=
        (proper_chunks s d (by rw [q1]; simp)).2 (by rw [hd] at hz; exact hz)
      refine ⟨a', h'' ++ [d], b', q1, ?_, by simp, ?_⟩
      · have f1 : (firstAlign (H' ++ [z])).start = ((textOf a').length : Int) := by
          rw [q6]
          cases h'' with
          | nil => simp [chunkChars, rangeChunks, firstAlign]
          | cons x h'' => simp [chunkChars, rangeChunks, firstAlign]
        have f2 : (lastAlign (H' ++ [z])).stop = ((textOf (a' ++ (h'' ++ [d]))).length : Int) := by
          rw [lastAlign_concat, hd, textOf_append, textOf_append, List.length_append, List.length_append]
          have : textOf [d] = d.bytes := by simp [textOf]
          rw [this]
          simp only; omega
        simp only [groupOffsets, e4, e5, f1, f2, Int.zero_add]
      · rw [← e3, q6, chunkChars_runes]
  · rw [hfl, hwc]
    unfold bertVisible
    rw [← htext, List.filter_map]; rfl
  · rw [k8.offsets, List.pairwise_map]
    have hd : (L.map Gf).flatten.flatten.Pairwise fun x y => x.2.stop ≤ y.2.start := by
      rw [hfl, hwc, ← bertSpec_clean u hc]
      exact bert_disjoint hu hdis
    clear hfl
    generalize (L.map Gf).flatten = Gs at hvis hd
    induction Gs with
    | nil => exact .nil
    | cons G Gs ih =>
      rw [List.flatten_cons, List.pairwise_append] at hd
      refine List.Pairwise.cons ?_ (ih (fun X hX => hvis X (by simp [hX])) hd.2.1)
      intro G' hG'
      obtain ⟨l, hl, el⟩ := lastAlign_mem (hvis G (by simp)).1
      obtain ⟨f, hf, ef⟩ := firstAlign_mem (hvis G' (by simp [hG'])).1
      have := hd.2.2 l hl f (List.mem_flatten.2 ⟨G', hG', hf⟩)
      simp only [groupOffsets, el, ef]; omega

/-- One row of the encoding: the offsets select bytes of the input, and the token, which has this id in the vocabulary, is the unknown
token or the visible part of what these bytes, read as Go reads them, are normalized to, possibly after the continuing prefix. -/
def BertBytesRow (u : Uni) (c : BertCfg) (m : WordPiece) (s : Str) (o : ByteOffsets) (t : Str) (id : Int) : Prop :=
  ∃ x, goSlice s o.start o.stop = .ok x ∧ bertVisible u c (runesOf x) ≠ [] ∧ m.vocab.getID t = some id
    ∧ (t = m.unknownToken ∨ t = encodeRunes (bertVisible u c (runesOf x))
      ∨ t = m.continuingSubwordPrefix ++ encodeRunes (bertVisible u c (runesOf x)))

/-- **C132, row by row.** -/
theorem C132_rows {u : Uni} (hu : u.toLower 0x20 = 0x20) (c : BertCfg) (hc : c.textCleaning = true) (m : WordPiece)
    (hval : m.vocab.AllValid) (hunk : m.vocab.getID m.unknownToken ≠ none) (s : Str)
    (h1 : GoodStart (bertDropped u) (runesOf s))
    (h2 : c.accentsStripping = true → GoodStart u.isMn (bertText u (spacesOnly c) (runesOf s))) (w ty : Int) :
    ∃ p0 p1 p2 enc, (PTS.fromString s).normalize (bertNormalize u c) = .ok (p0, none)
      ∧ bertPreTokenize u p0 = .ok (p1, none)
      ∧ p1.tokenize (fun ns => .ok (m.tokenize ns.get)) = .ok (p2, none)
      ∧ p2.intoEncoding w ty = .ok (.ok enc)
      ∧ enc.tokens.length = enc.offsets.length ∧ enc.ids.length = enc.offsets.length
      ∧ (∀ (i : Nat) (o : ByteOffsets) (t : Str) (id : Int), enc.offsets[i]? = some o → enc.tokens[i]? = some t → enc.ids[i]? = some id →
          BertBytesRow u c m s o t id)
      ∧ enc.offsets.Pairwise (fun o o' => o.stop ≤ o'.start) := by
  obtain ⟨p0, p1, p2, enc, L, T, Gf, k1, k2, k3, k4, k5, k6, k7, k8, k9, k10⟩ := C132_bert hu c hc m hval hunk s h1 h2 w ty
  have hall : All2 (fun G (t : Token) => m.vocab.getID t.value = some t.id
      ∧ (t.value = m.unknownToken ∨ t.value = text G ∨ t.value = m.continuingSubwordPrefix ++ text G))
      (L.map Gf).flatten (L.map T).flatten := by
    clear k5 k7 k8 k9 k10
    induction L with
    | nil => exact .nil
    | cons x L ih =>
      exact (wordPieceWord_all2 (k6 x (by simp)).2).append (ih fun y hy => k6 y (by simp [hy]))
  have hl := hall.length_eq
  have hl2 := k8.length_eq
  refine ⟨p0, p1, p2, enc, k1, k2, k3, k4, ?_, ?_, ?_, k10⟩
  · rw [k7.tokens, List.length_map]; omega
  · rw [k7.ids, List.length_map]; omega
  · intro i o t id ho ht hid
    rw [k7.tokens, List.getElem?_map] at ht
    rw [k7.ids, List.getElem?_map] at hid
    cases hT : (L.map T).flatten[i]? with
    | none => rw [hT] at ht; simp at ht
    | some tk =>
      rw [hT] at ht hid
      simp at ht hid
      have hi : i < (L.map Gf).flatten.length := by
        have := (List.getElem?_eq_some_iff.1 hT).1
        omega
      have hG : (L.map Gf).flatten[i]? = some (L.map Gf).flatten[i] := List.getElem?_eq_getElem hi
      obtain ⟨g1, g2⟩ := hall.index i _ _ hG hT
      obtain ⟨a, h, b, e1, e2, -, e4⟩ := k8.index i _ _ ho hG
      have hne : (L.map Gf).flatten[i] ≠ [] := by
        have hm : (L.map Gf).flatten[i] ∈ (L.map Gf).flatten := List.getElem_mem hi
        obtain ⟨Gs, hGs, hm⟩ := List.mem_flatten.1 hm
        obtain ⟨x, hx, rfl⟩ := List.mem_map.1 hGs
        exact (all2_maps k7.groups x hx).2 _ hm
      subst ht; subst hid
      have hread : runesOf (textOf h) = h.map (·.rune) := by
        have hr := reads_chunks s
        rw [e1, List.append_assoc] at hr
        rw [runesOf_chunks, hr.drop.take.chunks_eq]
      have htx : text (L.map Gf).flatten[i] = encodeRunes (bertVisible u c (runesOf (textOf h))) := by rw [hread, e4]; rfl
      refine ⟨textOf h, ?_, ?_, g1, by rwa [← htx]⟩
      · rw [e2, ← textOf_chunks s, e1]
        simp only [textOf_append, List.length_append]
        exact goSlice_mid _ _ _ rfl (by push_cast; rfl)
      · rw [hread, e4]; simpa using hne

/-- Non-vacuity: bad bytes inside and after words, one of them in the middle of the token that covers it. -/
example :
    let u : Uni := ⟨fun r => r == 1, fun r => r == 0x301, fun r => r == u!"!", fun r => if r == u!"H" then u!"h" else r⟩
    let m : WordPiece := ⟨Vocab.fromJSON (some [(b!"[U]", 0), (b!"he", 1), (b!"##y", 2), (b!"世", 3)]) [], b!"[U]", b!"##", 100⟩
    (((PTS.fromString (b!"\x01H" ++ [0xFF] ++ b!"ey" ++ [0x80] ++ b!" 世x!" ++ [0xC3])).normalize (bertNormalize u ⟨true, true, true, true⟩)).bind fun r =>
      (bertPreTokenize u r.1).bind fun r => (r.1.tokenize fun ns => .ok (m.tokenize ns.get)).bind fun r => r.1.intoEncoding (-1) 7)
    = .ok (.ok ⟨[1, 2, 3, 0, 0], [7, 7, 7, 7, 7], [b!"he", b!"##y", b!"世", b!"[U]", b!"[U]"], [0, 0, 1, 2, 3],
        [⟨1, 4⟩, ⟨4, 5⟩, ⟨7, 10⟩, ⟨10, 11⟩, ⟨11, 12⟩], [0, 0, 0, 0, 0], [1, 1, 1, 1, 1]⟩) := by decide +kernel

/-- With a bad byte in front the normalizer returns, but the pre-tokenizer panics, or the offsets are wrong. -/
example :
    let u : Uni := ⟨fun _ => false, fun _ => false, fun _ => false, fun r => r⟩
    (((PTS.fromString ([0xFF] ++ b!"a")).normalize (bertNormalize u ⟨true, true, true, true⟩)).bind fun r => .ok (r.1.splits.map (·.ns.get), r.2))
      = .ok ([b!"a"], none)
    ∧ (((PTS.fromString ([0xFF] ++ b!"a")).normalize (bertNormalize u ⟨true, true, true, true⟩)).bind fun r => bertPreTokenize u r.1) = .panic
    ∧ (((PTS.fromString ([0xFF] ++ b!"ab cd")).normalize (bertNormalize u ⟨true, true, true, true⟩)).bind fun r =>
        (bertPreTokenize u r.1).bind fun r => .ok (r.1.getOriginalByteSplits.map fun x => (x.string, x.offsets)))
      = .ok [(b!"ab", ⟨0, 3⟩), (b!"cd", ⟨2, 4⟩)] := by decide +kernel

end Verif
