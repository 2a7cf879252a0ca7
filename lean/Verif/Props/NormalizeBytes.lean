import Verif.Props.Bytes
import Verif.Props.Misread

/-! C126: what the normalizers do with bytes that are not UTF-8. -/

set_option autoImplicit false

namespace Verif

/-- There are at least as many alignments as the runes of the text take in UTF-8: so it is for every
`NormalizedString` made from a byte string, whatever the bytes. -/
def Roomy (ns : NS) : Prop := (encodeRunes (runesOf ns.get)).length ≤ ns.alignments.length

theorem roomy_fromString (s : Str) : Roomy (NS.fromString s) :=
  Nat.le_of_eq (alignmentsFromString_length s).symm

theorem Roomy.len {ns : NS} (h : Roomy ns) : ns.normalized.length ≤ ns.alignments.length :=
  Nat.le_trans (length_le_encodeRunes_runesOf ns.get) h

/-- On texts that are valid UTF-8 it only says that no alignment is missing. -/
theorem roomy_of_encoded {ns : NS} {rs : List Rune} (h : ns.get = encodeRunes rs) (hl : ns.get.length ≤ ns.alignments.length) :
    Roomy ns := by
  unfold Roomy
  rw [h, runesOf_encodeRunes', encodeRunes_sanitize, ← h]
  exact hl

theorem Repr.roomy {ns : NS} {cs : List Ch} (h : Repr ns cs) : Roomy ns :=
  roomy_of_encoded (rs := cs.map fun c : Ch => c.1) h.text_eq (Nat.le_of_eq h.len_eq.symm)

/-! ## Whole-text transformations -/

/-- `Transform` as its loop, when no alignment is missing. -/
theorem wholeText_loop {ns : NS} (hl : ns.normalized.length ≤ ns.alignments.length) (dest : List RuneChange) (k : Nat)
    (hk : k ≤ ns.normalized.length) :
    ns.transform dest k = (goFor dest ⟨(k : Int), runesOf (ns.normalized.drop k), [], []⟩ (transformStep ns.alignments)).bind
      fun st => .ok { ns with
        normalized := st.out, alignments := st.aligns ++ ns.alignments.drop ns.normalized.length } := by
  have e1 : goSlice ns.normalized 0 ns.len = .ok ns.normalized := by
    have := goSlice_prefix ns.normalized [] (b := ns.len) rfl
    simpa using this
  have e2 : goSlice ns.normalized 0 (k : Int) = .ok (ns.normalized.take k) := by
    rw [goSlice_of (by omega) (by omega) (by omega)]; simp
  have e3 : goSlice ns.normalized (k : Int) (ns.normalized.length : Int) = .ok (ns.normalized.drop k) := by
    rw [goSlice_of (by omega) (by omega) (by omega)]
    rw [List.take_of_length_le (by simp)]; simp
  have e4 : goSlice ns.alignments 0 0 = .ok [] := by
    rw [goSlice_of (by omega) (by omega) (by omega)]; simp
  have e5 : goSlice ns.alignments ns.len (ns.alignments.length : Int) = .ok (ns.alignments.drop ns.normalized.length) := by
    rw [goSlice_of (by simp [NS.len]) (by simp [NS.len]; omega) (by omega)]
    rw [List.take_of_length_le (by simp [NS.len])]
    simp [NS.len]
  have e6 : goSlice ns.normalized 0 0 = .ok [] := by
    rw [goSlice_of (by omega) (by omega) (by omega)]; simp
  have e7 : goSlice ns.normalized ns.len (ns.normalized.length : Int) = .ok [] := by
    rw [goSlice_of (by simp [NS.len]) (by simp [NS.len]) (by omega)]
    simp [NS.len]
  have e9 : (((ns.normalized.take k).length : Nat) : Int) + 0 = (k : Int) := by
    rw [List.length_take]; omega
  simp only [NS.transform, NS.transformRange, NS.coerceRangeToNormalized, NS.transformNormalized, e1, GoM.bind_ok, e2,
    e3, e9]
  cases goFor dest ⟨(k : Int), runesOf (ns.normalized.drop k), [], []⟩ (transformStep ns.alignments) with
  | panic => rfl
  | ok st => simp only [GoM.bind_ok, e4, e5, e6, e7, GoM.pure_eq, List.nil_append, List.append_nil]; rfl

/-- After a `Transform` of the whole text there is still room. -/
theorem roomy_transform {ns ns' : NS} {dest : List RuneChange} {io : Int}
    (ht : ns.transform dest io = .ok ns') : Roomy ns' := by
  have h1 := (C76_transform ht).1
  obtain ⟨nPre, nInit, nTail, nPost, aPre, aPost, ks, h2, h3, -, h4, -, h5, -, h6, -, -, -, h7⟩ :=
    transformNormalized_ok (a := 0) (b := ns.len) ht
  refine roomy_of_encoded h1 ?_
  rw [h1, h7]
  have : (aligns ((dest.map fun rc => sanitize rc.rune).zip (ks.map (pickAt ns.alignments)))).length
      = (encodeRunes (dest.map fun rc => sanitize rc.rune)).length := by
    rw [aligns_length, text]
    congr 2
    rw [List.map_fst_zip]
    simp [h6]
  simp only [List.length_append]
  omega

theorem expand_loop_total (als : List Align) (f : Rune → Rune) (g : Rune → List Rune) :
    ∀ (rs : List Rune) (o : Nat) (A : List Align) (out : Str), o + (encodeRunes rs).length ≤ als.length →
    ∃ st, goFor (rs.flatMap fun r => (⟨f r, 0⟩ : RuneChange) :: (g r).map fun x => ⟨x, 1⟩) ⟨o, rs, A, out⟩
      (transformStep als) = .ok st := by
  intro rs
  induction rs with
  | nil => intro o A out _; exact ⟨_, rfl⟩
  | cons r rs ih =>
    intro o A out h
    have hp := encodeRune_length_pos r
    simp only [encodeRunes_cons, List.length_append] at h
    have e1 : goIndex als (o : Int) = .ok (als[o]'(by omega)) :=
      goIndex_eq_ok.2 ⟨by omega, by simp⟩
    have e2 : goIndex (r :: rs) (0 : Int) = .ok r := rfl
    have ins : ∀ (xs : List Rune) (A : List Align) (out : Str), ∃ A' out',
        goFor (xs.map fun x => (⟨x, 1⟩ : RuneChange)) ⟨((o + (encodeRune r).length : Nat) : Int), rs, A, out⟩ (transformStep als)
          = .ok ⟨((o + (encodeRune r).length : Nat) : Int), rs, A', out'⟩ := by
      intro xs
      induction xs with
      | nil => intro A out; exact ⟨_, _, rfl⟩
      | cons x xs ih2 =>
        intro A out
        have e3 : goIndex als (((o + (encodeRune r).length : Nat) : Int) - 1)
            = .ok (als[o + (encodeRune r).length - 1]'(by omega)) :=
          goIndex_eq_ok.2 ⟨by omega, by
            rw [show ((((o + (encodeRune r).length : Nat) : Int)) - 1).toNat = o + (encodeRune r).length - 1 by omega]; simp⟩
        obtain ⟨A', out', h'⟩ := ih2 (A ++ List.replicate (encodeRune x).length (als[o + (encodeRune r).length - 1]'(by omega)))
          (out ++ encodeRune x)
        refine ⟨A', out', ?_⟩
        rw [List.map_cons, goFor_cons]
        have : ¬ ((o + (encodeRune r).length : Nat) : Int) < 1 := by omega
        simp only [transformStep, this, if_false, e3]
        simpa using h'
    obtain ⟨A', out', hins⟩ := ins (g r) (A ++ List.replicate (encodeRune (f r)).length (als[o]'(by omega)))
      (out ++ encodeRune (f r))
    obtain ⟨st, hst⟩ := ih (o + (encodeRune r).length) A' out' (by omega)
    refine ⟨st, ?_⟩
    rw [List.flatMap_cons, List.cons_append, goFor_cons]
    simp only [transformStep]
    simp [e1, e2]
    rw [goFor_append]
    simp at hins hst
    rw [hins]
    exact hst

theorem expand_total {ns : NS} (h : Roomy ns) (f : Rune → Rune) (g : Rune → List Rune) :
    ∃ ns', ns.transform ((runesOf ns.normalized).flatMap fun r => (⟨f r, 0⟩ : RuneChange) :: (g r).map fun x => ⟨x, 1⟩) 0
      = .ok ns' ∧ Roomy ns' := by
  obtain ⟨st, hst⟩ := expand_loop_total ns.alignments f g (runesOf ns.normalized) 0 [] []
    (by simpa [Roomy, NS.get] using h)
  have := wholeText_loop h.len ((runesOf ns.normalized).flatMap fun r => (⟨f r, 0⟩ : RuneChange) :: (g r).map fun x => ⟨x, 1⟩) 0
    (by omega)
  rw [List.drop_zero, hst] at this
  exact ⟨_, this, roomy_transform this⟩

/-- **C126, Map.** On every state with room `Map` returns, the text is the image of the runes read, and there is
still room. -/
theorem C126_map {ns : NS} (h : Roomy ns) (f : Rune → Rune) :
    ∃ ns', ns.map f = .ok ns' ∧ Roomy ns' ∧ ns'.get = encodeRunes ((runesOf ns.get).map f) := by
  obtain ⟨ns', h1, h2⟩ := expand_total h f fun _ => []
  have e : ((runesOf ns.normalized).flatMap fun r => (⟨f r, 0⟩ : RuneChange) :: ([] : List Rune).map fun x => ⟨x, 1⟩)
      = (runesOf ns.normalized).map fun r => ⟨f r, 0⟩ := by
    induction runesOf ns.normalized with
    | nil => rfl
    | cons r rs ih => rw [List.flatMap_cons, ih]; rfl
  rw [e] at h1
  refine ⟨ns', h1, h2, ?_⟩
  rw [C76_map h1, runesOf_chunks, List.map_map]; rfl

/-- **C126, Chinese characters.** -/
theorem C126_chinese {ns : NS} (h : Roomy ns) :
    ∃ ns', handleChineseChars ns = .ok ns' ∧ Roomy ns'
      ∧ ns'.get = encodeRunes ((runesOf ns.get).flatMap fun r => if isChinese r then [0x20, r, 0x20] else [r]) := by
  obtain ⟨ns', h1, h2⟩ := expand_total h (fun r => if isChinese r then 0x20 else r)
    (fun r => if isChinese r then [r, 0x20] else [])
  have e : ((runesOf ns.normalized).flatMap fun r => (⟨if isChinese r then 0x20 else r, 0⟩ : RuneChange)
      :: (if isChinese r then [r, 0x20] else []).map fun x => ⟨x, 1⟩) = (runesOf ns.normalized).flatMap chineseChange := by
    congr 1
    funext r
    unfold chineseChange
    cases isChinese r <;> rfl
  rw [e] at h1
  refine ⟨ns', h1, h2, ?_⟩
  rw [(C76_transform h1).1, ← encodeRunes_sanitize ((runesOf ns.get).flatMap _)]
  congr 1
  rw [List.map_flatMap, List.map_flatMap]
  show List.flatMap _ (runesOf ns.normalized) = _
  congr 1
  funext r
  unfold chineseChange
  cases isChinese r <;> rfl

/-! ## Filter -/

theorem chunks_le (s : Str) : (chunks s).length ≤ s.length := by
  have h1 := (reads_chunks s).text_eq
  have hg := goodChunks s
  have h2 : (chunks s).length ≤ (textOf (chunks s)).length := by
    clear h1
    generalize chunks s = cs at hg
    induction cs with
    | nil => simp
    | cons c cs ih =>
      have := ih fun x hx => hg x (by simp [hx])
      have h0 := List.length_pos_iff.2 (hg c (by simp)).1
      rw [textOf_cons, List.length_append, List.length_cons]; omega
  rwa [h1] at h2

theorem mapIdx_rune (l : List Rune) (g : Nat → Int) : (l.mapIdx fun i r => (⟨r, g i⟩ : RuneChange)).map (·.rune) = l := by
  induction l generalizing g with
  | nil => rfl
  | cons r l ih => rw [List.mapIdx_cons, List.map_cons]; congr 1; exact ih fun i => g (i + 1)

/-- Skipping one byte hides at most one rune. -/
theorem runes_drop_one (s : Str) : (runesOf s).length ≤ (runesOf (s.drop 1)).length + 1 := by
  have hc := reads_chunks s
  rw [runesOf_chunks, List.length_map]
  generalize chunks s = cs at hc
  cases hc with
  | nil => simp
  | @rune r t cs hr ht =>
    obtain ⟨b, bs, e, -, hb⟩ := encodeRune_bytes r
    rw [e, List.cons_append, List.drop_succ_cons, List.drop_zero, runesOf_cont _ _ hb, List.length_append,
      runesOf_chunks, ht.chunks_eq]
    simp
  | @bad b t cs _ ht =>
    rw [List.drop_succ_cons, List.drop_zero, runesOf_chunks, ht.chunks_eq]
    simp

theorem runes_drop (s : Str) (k : Nat) : (runesOf s).length ≤ (runesOf (s.drop k)).length + k := by
  induction k with
  | zero => simp
  | succ k ih =>
    have := runes_drop_one (s.drop k)
    rw [List.drop_drop] at this
    omega

/-- Skipping as many bytes as there are one-byte chunks in front skips these. -/
theorem runes_drop_lead {s : Str} {lead rest : List Chunk} (h : chunks s = lead ++ rest)
    (h1 : ∀ c ∈ lead, c.bytes.length = 1) :
    s.drop lead.length = textOf rest ∧ runesOf (s.drop lead.length) = rest.map (·.rune) := by
  have hl : (textOf lead).length = lead.length := by
    clear h
    induction lead with
    | nil => rfl
    | cons c lead ih =>
      rw [textOf_cons, List.length_append, h1 c (by simp), ih fun x hx => h1 x (by simp [hx])]
      simp; omega
  have hs : s = textOf lead ++ textOf rest := by
    rw [← textOf_chunks s, h]; simp [textOf]
  have hd : s.drop lead.length = textOf rest := by
    rw [← hl]
    conv => lhs; rw [hs]
    simp
  refine ⟨hd, ?_⟩
  have hr := reads_chunks s
  rw [h] at hr
  rw [hd, runesOf_chunks, hr.drop.chunks_eq]

/-- What is read at the front is dropped, with every byte a chunk of its own (ASCII or bad), or nothing is kept. -/
def OneByteLead (drop : Rune → Bool) (cs : List Chunk) : Prop :=
  (∀ c ∈ cs, drop c.rune = true) ∨ ∀ c ∈ cs.takeWhile (fun c => drop c.rune), c.bytes.length = 1

/-- `Transform` with changes that keep and drop after `k` skipped bytes, on any state with room. -/
theorem drop_any {ns : NS} (h : Roomy ns) (k : Nat) (hk : k ≤ ns.get.length) (lr : Rune) (l : List (Rune × Bool))
    (hlen : 1 + l.length ≤ (runesOf (ns.get.drop k)).length) (hv : ValidRune lr) (hl : ∀ p ∈ l, ValidRune p.1) :
    match misread ns.alignments k (runesOf (ns.get.drop k)) ((lr, true) :: l) with
    | none => ns.transform (dropGo lr 0 l) k = .panic
    | some out => ∃ ns', ns.transform (dropGo lr 0 l) k = .ok ns' ∧ Roomy ns' ∧ ns'.get = text out
        ∧ ns'.alignments = aligns out ++ ns.alignments.drop ns.get.length := by
  have hloop := drop_loop ns.alignments l lr [] k (runesOf (ns.get.drop k)) [] [] (by simpa using hlen) hv hl
  simp only [List.map_nil, List.cons_append, List.nil_append, List.length_nil] at hloop
  have hw := wholeText_loop h.len (dropGo lr 0 l) k hk
  cases hm : misread ns.alignments k (runesOf (ns.get.drop k)) ((lr, true) :: l) with
  | none =>
    rw [hm] at hloop
    simp only at hloop ⊢
    rw [hw, show runesOf (ns.normalized.drop k) = runesOf (ns.get.drop k) from rfl, hloop]
    rfl
  | some out =>
    rw [hm] at hloop
    obtain ⟨st, s1, s2, s3, -⟩ := hloop
    rw [show runesOf (ns.normalized.drop k) = runesOf (ns.get.drop k) from rfl, s1] at hw
    exact ⟨_, hw, roomy_transform hw, s3, by simp [s2, NS.get]⟩

theorem first_kept (keep : Rune → Bool) (cs : List Chunk) :
    (∀ c ∈ cs, keep c.rune = false) ∨ ∃ lead c rest, cs = lead ++ c :: rest
      ∧ (∀ c ∈ lead, keep c.rune = false) ∧ keep c.rune = true ∧ lead = cs.takeWhile (fun c => !keep c.rune)
      ∧ c :: rest = cs.dropWhile (fun c => !keep c.rune) := by
  induction cs with
  | nil => left; simp
  | cons c cs ih =>
    by_cases hk : keep c.rune = true
    · right; exact ⟨[], c, cs, rfl, by simp, hk, by simp [hk], by simp [hk]⟩
    · have hk' : keep c.rune = false := by simpa using hk
      rcases ih with h | ⟨lead, d, rest, h1, h2, h3, h4, h5⟩
      · left; simpa [hk'] using h
      · right
        exact ⟨c :: lead, d, rest, by simp [h1], by simpa [hk'] using h2, h3, by simp [hk', h4], by simp [hk', h5]⟩

/-- **C126, Filter, exactly.** On every state with room: the runes dropped in front are skipped by one byte each;
the alignments are read from there on at the positions of the runes seen in the rest; `Filter` panics when
one of them is past the alignments, and otherwise the text is made of the kept runes. -/
theorem C126_filter {ns : NS} (h : Roomy ns) (keep : Rune → Bool) :
    match misread ns.alignments ((chunks ns.get).takeWhile fun c => !keep c.rune).length
        (runesOf (ns.get.drop ((chunks ns.get).takeWhile fun c => !keep c.rune).length))
        (((chunks ns.get).dropWhile fun c => !keep c.rune).map fun c => (c.rune, keep c.rune)) with
    | none => ns.filter keep = .panic
    | some out => ∃ ns', ns.filter keep = .ok ns' ∧ Roomy ns' ∧ ns'.get = text out
        ∧ ns'.get = encodeRunes ((runesOf ns.get).filter keep)
        ∧ ns'.alignments = aligns out ++ ns.alignments.drop ns.get.length := by
  have hru : runesOf ns.normalized = (chunks ns.get).map (·.rune) := runesOf_chunks _
  have hval : ∀ c ∈ chunks ns.get, ValidRune c.rune := fun c hc => ((reads_chunks ns.get).chunk c hc).2.1
  have htext : ∀ {ns' : NS}, ns.filter keep = .ok ns' → ns'.get = encodeRunes ((runesOf ns.get).filter keep) := by
    intro ns' hf; rw [C76_filter hf, runesOf_chunks]
  rcases first_kept keep (chunks ns.get) with hn | ⟨lead, c, rest, he, k1, k2, k3, k4⟩
  · have hd : ((chunks ns.get).dropWhile fun c => !keep c.rune) = [] := by
      exact dropWhile_all fun c hc => by simp [hn c hc]
    have hfc : NS.filterChanges keep (runesOf ns.normalized) = ([], 0) := by
      apply filterChanges_none
      intro r hr
      rw [hru] at hr
      obtain ⟨c, hc, rfl⟩ := List.mem_map.1 hr
      exact hn c hc
    simp only [hd, List.map_nil, misread]
    have hw := wholeText_loop h.len [] 0 (by omega)
    have hw' : ns.filter keep = .ok { ns with normalized := [], alignments := ns.alignments.drop ns.normalized.length } := by
      unfold NS.filter
      simp only [hfc]
      exact hw
    exact ⟨_, hw', roomy_transform (by unfold NS.filter at hw'; exact hw'), rfl, htext hw', rfl⟩
  · rw [← k3, ← k4, List.map_cons, k2]
    have hk : lead.length ≤ ns.get.length := by
      have h2 := chunks_le ns.get
      rw [he] at h2
      simp at h2; omega
    have hlen : 1 + (rest.map fun c => (c.rune, keep c.rune)).length ≤ (runesOf (ns.get.drop lead.length)).length := by
      have := runes_drop ns.get lead.length
      rw [runesOf_chunks, he] at this
      simp at this ⊢; omega
    have := drop_any h lead.length hk c.rune (rest.map fun c => (c.rune, keep c.rune)) hlen (hval c (by rw [he]; simp))
      (by
        intro p hp
        obtain ⟨d, hd, rfl⟩ := List.mem_map.1 hp
        exact hval d (by rw [he]; simp [hd]))
    have hfc : NS.filterChanges keep (runesOf ns.normalized)
        = (dropGo c.rune 0 (rest.map fun c => (c.rune, keep c.rune)), lead.length) := by
      rw [hru, he, List.map_append, List.map_cons, filterChanges_eq _ _ _ _ ?_ k2, filterGo_eq, List.map_map]
      · simp [Function.comp_def]
      · intro r hr
        obtain ⟨c, hc, rfl⟩ := List.mem_map.1 hr
        exact k1 c hc
    have hf : ns.filter keep = ns.transform (dropGo c.rune 0 (rest.map fun c => (c.rune, keep c.rune))) lead.length := by
      unfold NS.filter
      simp only [hfc]
    rw [← hf] at this
    cases hm : misread ns.alignments lead.length (runesOf (ns.get.drop lead.length))
        ((c.rune, true) :: rest.map fun c => (c.rune, keep c.rune)) with
    | none => rw [hm] at this; exact this
    | some out =>
      rw [hm] at this
      obtain ⟨ns', a1, a2, a3, a4⟩ := this
      exact ⟨ns', a1, a2, a3, htext a1, a4⟩

/-- With one-byte chunks in front nothing is read past the alignments. -/
theorem misread_room {ns : NS} (h : Roomy ns) {lead rest : List Chunk} (hc : chunks ns.get = lead ++ rest)
    (h1 : ∀ c ∈ lead, c.bytes.length = 1) {l : List (Rune × Bool)} (hl : l.length ≤ rest.length) :
    misread ns.alignments lead.length (runesOf (ns.get.drop lead.length)) l ≠ none := by
  rw [ne_eq, misread_none_iff]
  rintro ⟨i, r, h2, h3⟩
  rw [(runes_drop_lead hc h1).2] at h3
  have hroom := h
  unfold Roomy at hroom
  rw [runesOf_chunks, hc, List.map_append, encodeRunes_append, List.length_append] at hroom
  have hle := length_le_encodeRunes (lead.map (·.rune))
  rw [List.length_map] at hle
  have hi : i < l.length := (List.getElem?_eq_some_iff.1 h2).1
  have e : rest.map (·.rune) = (rest.map (·.rune)).take i ++ (rest.map (·.rune)).drop i := (List.take_append_drop _ _).symm
  have h5 : 1 ≤ ((rest.map (·.rune)).drop i).length := by simp; omega
  have h4 := length_le_encodeRunes ((rest.map (·.rune)).drop i)
  have h6 := congrArg (fun x => (encodeRunes x).length) e
  simp only [encodeRunes_append, List.length_append] at h6
  omega

/-- **C126, Filter.** If every byte of what is dropped in front is a chunk of its own (ASCII or bad) or nothing is kept, `Filter`
returns, the text is made of the kept runes, and there is still room. -/
theorem C126_filter_ok {ns : NS} (h : Roomy ns) {keep : Rune → Bool}
    (hl : OneByteLead (fun r => !keep r) (chunks ns.get)) :
    ∃ ns', ns.filter keep = .ok ns' ∧ Roomy ns' ∧ ns'.get = encodeRunes ((runesOf ns.get).filter keep) := by
  have hf := C126_filter h keep
  have key : misread ns.alignments ((chunks ns.get).takeWhile fun c => !keep c.rune).length
        (runesOf (ns.get.drop ((chunks ns.get).takeWhile fun c => !keep c.rune).length))
        (((chunks ns.get).dropWhile fun c => !keep c.rune).map fun c => (c.rune, keep c.rune)) ≠ none := by
    rcases hl with hl | hl
    · rw [dropWhile_all hl]; simp [misread]
    · exact misread_room h (List.takeWhile_append_dropWhile (p := fun c : Chunk => !keep c.rune) (l := chunks ns.get)).symm
        hl (by simp)
  cases hm : misread ns.alignments ((chunks ns.get).takeWhile fun c => !keep c.rune).length
        (runesOf (ns.get.drop ((chunks ns.get).takeWhile fun c => !keep c.rune).length))
        (((chunks ns.get).dropWhile fun c => !keep c.rune).map fun c => (c.rune, keep c.rune)) with
  | none => exact absurd hm key
  | some out =>
    rw [hm] at hf
    obtain ⟨ns', a1, a2, -, a3, -⟩ := hf
    exact ⟨ns', a1, a2, a3⟩

/-! ## TrimLeftRight -/

/-- The runes without the outer white space. -/
def trimRunes (left right : Bool) (rs : List Rune) : List Rune :=
  let l := if left then rs.dropWhile isWhiteSpace else rs
  if right then (l.reverse.dropWhile isWhiteSpace).reverse else l

theorem trimSpec_runes (left right : Bool) (cs : List Ch) :
    (trimSpec left right cs).map (fun c : Ch => c.1) = trimRunes left right (cs.map fun c : Ch => c.1) := by
  unfold trimSpec trimRunes
  cases left <;> cases right <;>
    simp [List.dropWhile_map, ← List.map_reverse, Function.comp_def]

/-- **C126, TrimLeftRight, text.** Whatever the state, its bytes and alignments: when `TrimLeftRight` returns, the runes
of the text are the runes read before without the outer white space. -/
theorem C126_trim_text {ns ns' : NS} {left right : Bool} (h : ns.trimLeftRight left right = .ok ns') :
    runesOf ns'.get = trimRunes left right (runesOf ns.get) := by
  unfold NS.trimLeftRight at h
  have hcs : ((runesOf ns.get).map fun r => ((r, ⟨0, 0⟩) : Ch)).map (fun c : Ch => c.1) = runesOf ns.get := by
    rw [List.map_map]; exact List.map_id' _
  obtain ⟨lead, trail, hd⟩ := trim_decomp left right ((runesOf ns.get).map fun r => ((r, ⟨0, 0⟩) : Ch))
  have ht := trimSpec_runes left right ((runesOf ns.get).map fun r => ((r, ⟨0, 0⟩) : Ch))
  rw [hcs] at ht
  simp only [hcs] at hd
  simp only [show runesOf ns.normalized = runesOf ns.get from rfl] at h
  generalize (if left = true then countLeadingSpaces (runesOf ns.get) else 0) = leading at hd h
  generalize (if right = true ∧ leading < (runesOf ns.get).length then countTrailingSpaces (runesOf ns.get) else 0)
    = trailing at hd h
  by_cases h0 : leading = 0 ∧ trailing = 0
  · rw [if_pos h0] at h
    simp at h; subst h
    rw [← ht]
    rcases hd with ⟨h1, h2, h3⟩ | ⟨h1, h2, h3⟩
    · have e1 : lead = [] := List.length_eq_zero_iff.1 (by omega)
      have e2 : trail = [] := List.length_eq_zero_iff.1 (by omega)
      rw [e1, e2, List.nil_append, List.append_nil] at h1
      rw [← h1, hcs]
    · rw [h1]
      have : (runesOf ns.get).length = 0 := by simpa using (h2.symm.trans h0.1)
      exact List.length_eq_zero_iff.1 this
  · rw [if_neg h0] at h
    have hx : (NS.trimChanges (runesOf ns.get) leading trailing).map (·.rune) = trimRunes left right (runesOf ns.get) := by
      rw [← ht]
      rcases hd with ⟨h1, h2, h3⟩ | ⟨h1, h2, h3⟩
      · have h4 := congrArg (List.map fun c : Ch => c.1) h1
        rw [hcs] at h4
        subst h2 h3
        generalize trimSpec left right ((runesOf ns.get).map fun r => ((r, ⟨0, 0⟩) : Ch)) = core at *
        rw [h4, trimChanges_eq, mapIdx_rune]
      · rw [h1]
        subst h3
        unfold NS.trimChanges
        rw [mapIdx_rune, h2]
        simp
    rw [(C76_transform h).1, runesOf_encodeRunes', List.map_map, ← hx]
    have hmem : ∀ r ∈ (NS.trimChanges (runesOf ns.get) leading trailing).map (·.rune), ValidRune r := by
      intro r hr
      unfold NS.trimChanges at hr
      rw [mapIdx_rune] at hr
      exact runesOf_valid ns.get _ (List.mem_of_mem_drop (List.mem_of_mem_take hr))
    apply List.map_congr_left
    intro rc hrc
    have := sanitize_of_valid (hmem rc.rune (List.mem_map.2 ⟨rc, hrc, rfl⟩))
    simp [this]

/-- **C126, TrimLeftRight.** It returns whenever nothing is trimmed on the left, or the white space there is ASCII, or all is
white space; and there is still room. -/
theorem C126_trim_ok {ns : NS} (h : Roomy ns) {left right : Bool}
    (hl : left = true → OneByteLead isWhiteSpace (chunks ns.get)) :
    ∃ ns', ns.trimLeftRight left right = .ok ns' ∧ Roomy ns' := by
  unfold NS.trimLeftRight
  have hrc : runesOf ns.get = (chunks ns.get).map (·.rune) := runesOf_chunks _
  have hcs : ((runesOf ns.get).map fun r => ((r, ⟨0, 0⟩) : Ch)).map (fun c : Ch => c.1) = runesOf ns.get := by
    rw [List.map_map]; exact List.map_id' _
  obtain ⟨lead, trail, hd⟩ := trim_decomp left right ((runesOf ns.get).map fun r => ((r, ⟨0, 0⟩) : Ch))
  simp only [hcs] at hd
  simp only [show runesOf ns.normalized = runesOf ns.get from rfl]
  generalize hleading : (if left = true then countLeadingSpaces (runesOf ns.get) else 0) = leading at hd ⊢
  generalize (if right = true ∧ leading < (runesOf ns.get).length then countTrailingSpaces (runesOf ns.get) else 0)
    = trailing at hd ⊢
  have hle : leading ≤ ns.get.length := by
    have h1 := chunks_le ns.get
    have h2 : leading ≤ (runesOf ns.get).length := by
      rw [← hleading]
      split
      · rw [countLeadingSpaces_eq]; exact (List.takeWhile_sublist _).length_le
      · omega
    rw [hrc, List.length_map] at h2
    omega
  have fin : ∀ r : GoM NS, (∃ ns', r = .ok ns' ∧ (r = ns.transform (NS.trimChanges (runesOf ns.get) leading trailing) leading)) →
      ∃ ns', r = .ok ns' ∧ Roomy ns' := by
    rintro r ⟨ns', h1, h2⟩
    exact ⟨ns', h1, roomy_transform (h2 ▸ h1)⟩
  by_cases h0 : leading = 0 ∧ trailing = 0
  · rw [if_pos h0]; exact ⟨ns, rfl, h⟩
  · rw [if_neg h0]
    refine fin _ ?_
    have empty : NS.trimChanges (runesOf ns.get) leading trailing = [] →
        ∃ ns', ns.transform (NS.trimChanges (runesOf ns.get) leading trailing) leading = .ok ns' ∧
          ns.transform (NS.trimChanges (runesOf ns.get) leading trailing) leading
            = ns.transform (NS.trimChanges (runesOf ns.get) leading trailing) leading := by
      intro he
      rw [he, wholeText_loop h.len [] leading hle]
      exact ⟨_, rfl, rfl⟩
    rcases hd with ⟨h1, h2, h3⟩ | ⟨h1, h2, h3⟩
    · have h4 := congrArg (List.map fun c : Ch => c.1) h1
      rw [hcs] at h4
      have hdw := trimSpec_runes left right ((runesOf ns.get).map fun r => ((r, ⟨0, 0⟩) : Ch))
      rw [hcs] at hdw
      generalize trimSpec left right ((runesOf ns.get).map fun r => ((r, ⟨0, 0⟩) : Ch)) = core at *
      cases core with
      | nil =>
        apply empty
        subst h2 h3
        rw [h4, trimChanges_eq]; rfl
      | cons c core =>
        have hch : NS.trimChanges (runesOf ns.get) leading trailing
            = dropGo c.1 0 ((core.map fun c => (c.1, true)) ++ trail.map fun c => (c.1, false)) := by
          subst h2 h3
          rw [h4, trimChanges_eq, ← trim_dropGo]
        have hlen : leading + (1 + (core.length + trail.length)) = (chunks ns.get).length := by
          have := congrArg List.length h4
          rw [hrc] at this
          simp at this; omega
        have hsplit : chunks ns.get = (chunks ns.get).take leading ++ (chunks ns.get).drop leading :=
          (List.take_append_drop _ _).symm
        have hk : ((chunks ns.get).take leading).length = leading := by rw [List.length_take]; omega
        have hone : ∀ c ∈ (chunks ns.get).take leading, c.bytes.length = 1 := by
          cases left with
          | false =>
            have : leading = 0 := by rw [← hleading]; rfl
            rw [this]; simp
          | true =>
            have hlw : leading = ((chunks ns.get).takeWhile fun c => isWhiteSpace c.rune).length := by
              rw [← hleading, if_pos rfl, countLeadingSpaces_eq, hrc, List.takeWhile_map, List.length_map]; rfl
            rcases hl rfl with hall | hone
            · exfalso
              have : ((chunks ns.get).takeWhile fun c => isWhiteSpace c.rune) = chunks ns.get := by
                have := List.takeWhile_append_dropWhile (p := fun c : Chunk => isWhiteSpace c.rune) (l := chunks ns.get)
                rwa [dropWhile_all hall, List.append_nil] at this
              rw [this] at hlw
              omega
            · have hp := List.takeWhile_append_dropWhile (p := fun c : Chunk => isWhiteSpace c.rune) (l := chunks ns.get)
              have : (chunks ns.get).take leading = (chunks ns.get).takeWhile fun c => isWhiteSpace c.rune := by
                conv => lhs; rw [← hp]
                rw [hlw, List.take_left]
              rw [this]; exact hone
        have hval : ∀ x ∈ c :: core ++ trail, ValidRune x.1 := by
          intro x hx
          apply runesOf_valid ns.get
          rw [h4]
          refine List.mem_map.2 ⟨x, ?_, rfl⟩
          rw [List.append_assoc]
          exact List.mem_append_right _ hx
        have hroom := misread_room h hsplit hone
          (l := (c.1, true) :: ((core.map fun c => (c.1, true)) ++ trail.map fun c => (c.1, false)))
          (by simp; omega)
        have hrun := (runes_drop_lead hsplit hone).2
        rw [hk] at hroom hrun
        have hdrop := drop_any h leading hle c.1 ((core.map fun c => (c.1, true)) ++ trail.map fun c => (c.1, false))
          (by rw [hrun]; simp; omega) (hval c (by simp)) (by
            intro p hp
            rcases List.mem_append.1 hp with hp | hp <;> obtain ⟨x, hx, rfl⟩ := List.mem_map.1 hp
            · exact hval x (by simp [hx])
            · exact hval x (by simp [hx]))
        rw [hch]
        cases hm : misread ns.alignments leading (runesOf (ns.get.drop leading))
            ((c.1, true) :: ((core.map fun c => (c.1, true)) ++ trail.map fun c => (c.1, false))) with
        | none => exact absurd hm hroom
        | some out =>
          rw [hm] at hdrop
          obtain ⟨ns', a1, -⟩ := hdrop
          exact ⟨ns', a1, rfl⟩
    · apply empty
      unfold NS.trimChanges
      rw [h2]
      simp

/-! ## The BERT normalizer -/

/-- The runes before accents are stripped. -/
def bertBefore (u : Uni) (c : BertCfg) (rs : List Rune) : List Rune :=
  let rs := if c.textCleaning then
      (rs.filter fun r => !bertDropped u r).map fun r => if isWhiteSpace r then 0x20 else r else rs
  if c.chineseCharsHandling then rs.flatMap fun r => if isChinese r then [0x20, r, 0x20] else [r] else rs

theorem bertText_before (u : Uni) (c : BertCfg) (rs : List Rune) : bertText u c rs =
    let rs := if c.accentsStripping then (bertBefore u c rs).filter fun r => !u.isMn r else bertBefore u c rs
    if c.lowerCaseEnabled then rs.map fun r => sanitize (u.toLower r) else rs := rfl

/-- Runes dropped in front are ASCII, or nothing is kept. -/
def AsciiLead (drop : Rune → Bool) (rs : List Rune) : Prop :=
  (∀ r ∈ rs, drop r = true) ∨ ∀ r ∈ rs.takeWhile drop, r < 0x80

theorem AsciiLead.oneByte {drop : Rune → Bool} {s : Str} (h : AsciiLead drop (runesOf s)) : OneByteLead drop (chunks s) := by
  rw [runesOf_chunks] at h
  rcases h with h | h
  · exact .inl fun c hc => h _ (List.mem_map.2 ⟨c, hc, rfl⟩)
  · refine .inr fun c hc => ?_
    have hmem := (List.takeWhile_sublist _).subset hc
    have hr : c.rune < 0x80 := h _ (by
      rw [List.takeWhile_map]
      exact List.mem_map.2 ⟨c, hc, rfl⟩)
    obtain ⟨-, h2, h3⟩ := (reads_chunks s).chunk c hmem
    rcases h3 with h3 | ⟨h3, -⟩
    · rw [h3]
      refine runeLen_eq_one.2 ⟨?_, hr⟩
      rcases h2 with h2 | h2 <;> omega
    · exact h3

theorem filter_valid {s : Str} {keep : Rune → Bool} {t : Str} (h : t = encodeRunes ((runesOf s).filter keep)) :
    runesOf t = (runesOf s).filter keep := by
  rw [h, runesOf_encodeRunes _ fun r hr => runesOf_valid s r (List.mem_filter.1 hr).1]

theorem spaces_valid {s t : Str} (h : t = encodeRunes ((runesOf s).map cleanMap)) :
    runesOf t = (runesOf s).map fun r => if isWhiteSpace r then 0x20 else r := by
  have e : ∀ r, cleanMap r = if isWhiteSpace r then 0x20 else r := by
    intro r
    unfold cleanMap bertIsWhitespace
    by_cases h : r = 9 ∨ r = 10 ∨ r = 13
    · have : isWhiteSpace r = true := by rcases h with rfl | rfl | rfl <;> decide
      simp [h, this]
    · simp [h]
  rw [h, show cleanMap = fun r => if isWhiteSpace r then 0x20 else r from funext e, runesOf_encodeRunes]
  intro r hr
  obtain ⟨x, hx, rfl⟩ := List.mem_map.1 hr
  have := runesOf_valid s x hx
  split
  · exact .inl (by omega)
  · exact this

theorem chinese_valid {s t : Str}
    (h : t = encodeRunes ((runesOf s).flatMap fun r => if isChinese r then [0x20, r, 0x20] else [r])) :
    runesOf t = (runesOf s).flatMap fun r => if isChinese r then [0x20, r, 0x20] else [r] := by
  rw [h, runesOf_encodeRunes]
  intro r hr
  obtain ⟨x, hx, hr⟩ := List.mem_flatMap.1 hr
  have := runesOf_valid s x hx
  have h32 : ValidRune (0x20 : Rune) := .inl (by omega)
  split at hr
  · simp at hr
    rcases hr with rfl | rfl | rfl <;> assumption
  · simp at hr; subst hr; exact this

/-- **C126, BERT.** Whatever the bytes: if the first runes that cleaning drops are ASCII or bad bytes (or all is dropped), and the
first runes that accent stripping drops are ASCII (or all is dropped), the BERT normalizer returns without an error and
the runes of the new text are the specified ones of the runes read. -/
theorem C126_bert {ns : NS} (h : Roomy ns) (u : Uni) (c : BertCfg)
    (h1 : c.textCleaning = true → OneByteLead (bertDropped u) (chunks ns.get))
    (h2 : c.accentsStripping = true → AsciiLead u.isMn (bertBefore u c (runesOf ns.get))) :
    ∃ ns', bertNormalize u c ns = .ok (ns', none) ∧ Roomy ns' ∧ runesOf ns'.get = bertText u c (runesOf ns.get) := by
  simp only [bertNormalize]
  obtain ⟨n1, a1, a2, a3⟩ : ∃ n1, (if c.textCleaning = true then cleanText u ns else pure ns) = .ok n1 ∧ Roomy n1
      ∧ runesOf n1.get = if c.textCleaning then
          ((runesOf ns.get).filter fun r => !bertDropped u r).map fun r => if isWhiteSpace r then 0x20 else r
          else runesOf ns.get := by
    by_cases ht : c.textCleaning = true
    · have hk : cleanKeep u = fun r => !bertDropped u r := funext (cleanKeep_eq u)
      obtain ⟨m1, x1, x2, x3⟩ := C126_filter_ok h (keep := cleanKeep u) (by
        rw [hk]; simpa using h1 ht)
      obtain ⟨m2, y1, y2, y3⟩ := C126_map x2 cleanMap
      refine ⟨m2, by simp [ht, cleanText, x1, y1], y2, ?_⟩
      rw [if_pos ht, spaces_valid y3, filter_valid x3, hk]
    · exact ⟨ns, by simp [ht], h, by simp [ht]⟩
  obtain ⟨n2, b1, b2, b3⟩ : ∃ n2, (if c.chineseCharsHandling = true then handleChineseChars n1 else pure n1) = .ok n2 ∧ Roomy n2
      ∧ runesOf n2.get = bertBefore u c (runesOf ns.get) := by
    unfold bertBefore
    simp only
    rw [← a3]
    by_cases ht : c.chineseCharsHandling = true
    · obtain ⟨m, x1, x2, x3⟩ := C126_chinese a2
      exact ⟨m, by simp [ht, x1], x2, by rw [if_pos ht, chinese_valid x3]⟩
    · exact ⟨n1, by simp [ht], a2, by simp [ht]⟩
  obtain ⟨n3, d1, d2, d3⟩ : ∃ n3, (if c.accentsStripping = true then stripAccents u n2 else pure n2) = .ok n3 ∧ Roomy n3
      ∧ runesOf n3.get = if c.accentsStripping then (bertBefore u c (runesOf ns.get)).filter fun r => !u.isMn r
          else bertBefore u c (runesOf ns.get) := by
    rw [← b3]
    by_cases ht : c.accentsStripping = true
    · obtain ⟨m, x1, x2, x3⟩ := C126_filter_ok b2 (keep := fun r => !u.isMn r) (by
        have := h2 ht
        rw [← b3] at this
        simpa using this.oneByte)
      exact ⟨m, by simp [ht, stripAccents, x1], x2, by rw [if_pos ht, filter_valid x3]⟩
    · exact ⟨n2, by simp [ht], b2, by simp [ht]⟩
  rw [ite_bind, a1, GoM.bind_ok, ite_bind, b1, GoM.bind_ok, ite_bind, d1, GoM.bind_ok, ite_bind, bertText_before]
  simp only
  rw [← d3]
  by_cases ht : c.lowerCaseEnabled = true
  · obtain ⟨m, x1, x2, x3⟩ := C126_map d2 u.toLower
    refine ⟨m, by simp [ht, NS.toLower, x1], x2, ?_⟩
    rw [if_pos ht, x3, runesOf_encodeRunes', List.map_map]; rfl
  · exact ⟨n3, by simp [ht], d2, by simp [ht]⟩

/-- Cleaning drops every bad byte: no U+FFFD is left before accents are stripped. -/
theorem C126_no_bad (u : Uni) (c : BertCfg) (hc : c.textCleaning = true) (rs : List Rune) :
    (0xFFFD : Rune) ∉ bertBefore u c rs := by
  have key : (0xFFFD : Rune) ∉ (rs.filter fun r => !bertDropped u r).map fun r => if isWhiteSpace r then 0x20 else r := by
    intro h
    obtain ⟨r, h1, h2⟩ := List.mem_map.1 h
    have h3 := (List.mem_filter.1 h1).2
    split at h2
    · cases h2
    · subst h2; simp [bertDropped] at h3
  unfold bertBefore
  simp only [hc, if_true]
  split
  · intro h
    obtain ⟨r, h1, h2⟩ := List.mem_flatMap.1 h
    split at h2
    · simp at h2; subst h2; exact key h1
    · simp at h2; subst h2; exact key h1
  · exact key

/-- **C126, lower case.** On any bytes. -/
theorem C126_lowerCase {ns : NS} (h : Roomy ns) (u : Uni) :
    ∃ ns', lowerCaseNormalize u ns = .ok (ns', none) ∧ Roomy ns' ∧ ns'.get = encodeRunes ((runesOf ns.get).map u.toLower) := by
  obtain ⟨ns', h1, h2, h3⟩ := C126_map h u.toLower
  exact ⟨ns', by simp [lowerCaseNormalize, NS.toLower, h1], h2, h3⟩

/-- **C126, strip.** On any bytes. -/
theorem C126_strip {ns : NS} (h : Roomy ns) {left right : Bool}
    (hl : left = true → AsciiLead isWhiteSpace (runesOf ns.get)) :
    ∃ ns', stripNormalize left right ns = .ok (ns', none) ∧ Roomy ns'
      ∧ runesOf ns'.get = trimRunes left right (runesOf ns.get) := by
  obtain ⟨ns', h1, h2⟩ := C126_trim_ok h (left := left) (right := right) fun hh => (hl hh).oneByte
  exact ⟨ns', by simp [stripNormalize, h1], h2, C126_trim_text h1⟩

/-- Bad bytes in front, inside and at the end of a text for the BERT normalizer: they vanish, and the alignments that are
too many stay behind. -/
example :
    let u : Uni := ⟨fun _ => false, fun _ => false, fun _ => false, fun r => r⟩
    bertNormalize u ⟨true, true, true, true⟩ (NS.fromString [0xFF, 0x80, 0x61, 0xC3, 0x62])
      = .ok (⟨[0xFF, 0x80, 0x61, 0xC3, 0x62], [0x61, 0x62],
          [⟨0, 3⟩, ⟨2, 3⟩, ⟨1, 4⟩, ⟨2, 3⟩, ⟨3, 6⟩, ⟨3, 6⟩, ⟨3, 6⟩, ⟨4, 5⟩], 0⟩, none) := by decide +kernel

/-- A bad byte in front is dropped, U+FFFD written out in its place makes it panic: bytes and runes are confused at the
front only for runes of more than one byte. -/
example :
    let u : Uni := ⟨fun _ => false, fun _ => false, fun _ => false, fun r => r⟩
    (bertNormalize u ⟨true, true, true, true⟩ (NS.fromString [0xFF, 0x61, 0x62, 0x63])).bind (fun r => .ok r.1.get) = .ok b!"abc"
    ∧ bertNormalize u ⟨true, true, true, true⟩ (NS.fromString b!"\uFFFDabc") = .panic := by decide +kernel

/-- Strip leaves bad bytes alone when there is nothing to strip, and replaces them when there is. -/
example : (NS.fromString [0x61, 0xFF]).trimLeftRight true true = .ok (NS.fromString [0x61, 0xFF])
    ∧ ((NS.fromString [0x20, 0x61, 0xFF]).trimLeftRight true true).bind (fun n => .ok n.get)
      = .ok [0x61, 0xEF, 0xBF, 0xBD] := by decide +kernel

end Verif
