import Verif.Lemmas.Pieces
import Verif.Tests.Regexp

/-! Property C61: the white-space pre-tokenizer, for any engine and for its own expression. -/

set_option autoImplicit false

namespace Verif

/-! ## Splitting a copy by given segments, which may be empty -/

theorem slice_copy_empty (pre p q : List Rune) (hv : ∀ r ∈ p ++ q, ValidRune r) :
    ∃ e, (copyOf pre (p ++ q)).slice (.normalized (encodeRunes p).length (encodeRunes p).length) = .ok (some e)
      ∧ e.normalized = [] := by
  have hb : isRuneBoundary (encodeRunes (p ++ q)) (encodeRunes p).length = true :=
    isRuneBoundary_of ⟨encodeRunes p, encodeRunes q, ⟨p, fun r hr => hv r (by simp [hr]), rfl⟩,
      ⟨q, fun r hr => hv r (by simp [hr]), rfl⟩, by simp, rfl⟩
  have hl : (aligns (selfChars 0 (p ++ q))).length = (encodeRunes (p ++ q)).length := by
    rw [aligns_length_enc, selfChars_map_fst]
  have g : ∀ {α : Type} (l : List α), (encodeRunes p).length ≤ l.length →
      goSlice l ((encodeRunes p).length : Int) (encodeRunes p).length = .ok [] := by
    intro α l h
    rw [goSlice_of (by omega) (by omega) (by omega)]
    simp
  have hle : (encodeRunes p).length ≤ (encodeRunes (p ++ q)).length := by simp
  have := slice_of (ns := copyOf pre (p ++ q)) (r := .normalized (encodeRunes p).length (encodeRunes p).length)
    (na := (encodeRunes p).length) (nb := (encodeRunes p).length) (oa := (encodeRunes p).length)
    (ob := (encodeRunes p).length) (o := []) (n := []) (als := [])
    (by simp only [NS.rangeIsValid, Rng.start, Rng.stop]; simp [copyOf] at hb ⊢; simp [hb])
    rfl (by simp [NS.coerceRangeToOriginal]) (g _ hle) (g _ hle) (g _ (by simp only [copyOf]; omega))
  exact ⟨_, this, rfl⟩

theorem capsOf_groups_empty (keep : Bool) (pre0 all : List Rune) (hv : ∀ r ∈ all, ValidRune r) :
    ∀ (t : List (Bool × List Rune)) (p : List Rune), all = p ++ t.flatMap (·.2) →
    ∃ qs, All2 (fun g q => (copyOf pre0 all).slice (.normalized (span g).1 (span g).2) = .ok (some q))
      (splitGroups (if keep then .isolated else .removed) (capsOf (encodeRunes p).length t)) qs
      ∧ qs.filter (fun q => decide (q.get ≠ []))
        = ((locate keep (pre0 ++ p) t).filter fun x => decide (x.2 ≠ [])).map fun x => copyOf x.1 x.2 := by
  intro t
  induction t with
  | nil => intro p _; cases keep <;> exact ⟨[], .nil, rfl⟩
  | cons x t ih =>
    intro p hall
    obtain ⟨b, g⟩ := x
    have hall' : all = p ++ g ++ t.flatMap (·.2) := by rw [hall]; simp
    obtain ⟨qs, i1, i2⟩ := ih (p ++ g) hall'
    have e2 : ((encodeRunes (p ++ g)).length : Int) = (encodeRunes p).length + (encodeRunes g).length := by
      simp
    obtain ⟨q, hq, hq'⟩ : ∃ q, (copyOf pre0 all).slice (.normalized (encodeRunes p).length (encodeRunes (p ++ g)).length)
        = .ok (some q) ∧ [q].filter (fun q => decide (q.get ≠ []))
          = ([(pre0 ++ p, g)].filter fun x => decide (x.2 ≠ [])).map fun x => copyOf x.1 x.2 := by
      by_cases hg : g = []
      · subst hg
        obtain ⟨e, h1, h2⟩ := slice_copy_empty pre0 p (t.flatMap (·.2)) (by
          rw [hall'] at hv; simpa using hv)
        refine ⟨e, ?_, ?_⟩
        · rw [hall']; simpa using h1
        · simp [NS.get, h2]
      · refine ⟨copyOf (pre0 ++ p) g, ?_, ?_⟩
        · have := slice_copy pre0 p g (t.flatMap (·.2)) (by rw [← hall']; exact hv) hg
          rwa [← hall'] at this
        · have := copyOf_get_ne (pre := pre0 ++ p) hg
          simp [hg, this]
    rw [e2] at i1 hq
    rw [← List.append_assoc] at i2
    cases keep <;> cases b <;> simp only [splitGroups, capsOf, locate, Bool.false_eq_true, if_false,
      if_true, Bool.not_false, Bool.not_true, Bool.and_self, Bool.and_false, Bool.and_true,
      List.nil_append, List.map_cons] at i1 ⊢
    · rw [List.filter_cons_of_pos (by simp)]
      refine ⟨q :: qs, .cons hq i1, ?_⟩
      rw [List.filter_append, List.map_append, ← hq', ← i2, ← List.filter_append]; rfl
    · rw [List.filter_cons_of_neg (by simp)]
      exact ⟨qs, i1, i2⟩
    · refine ⟨q :: qs, .cons hq i1, ?_⟩
      rw [List.filter_append, List.map_append, ← hq', ← i2, ← List.filter_append]; rfl
    · refine ⟨q :: qs, .cons hq i1, ?_⟩
      rw [List.filter_append, List.map_append, ← hq', ← i2, ← List.filter_append]; rfl

/-- `PreTokenizedString.Split` of a fresh non-empty input by a pattern whose captures are
given segments. -/
theorem split_input_segs (pattern : SplitPattern) (keep : Bool) {rs : List Rune} (hv : ∀ r ∈ rs, ValidRune r)
    {t : List (Bool × List Rune)} (ht : t.flatMap (·.2) = rs)
    (hp : pattern (encodeRunes rs) = .ok (.ok (capsOf 0 t))) :
    (PTS.fromString (encodeRunes rs)).split (splitByPattern pattern (if keep then .isolated else .removed))
      = .ok (⟨encodeRunes rs, copies ((locate keep [] t).filter fun x => decide (x.2 ≠ []))⟩, none) := by
  obtain ⟨qs, h1, h2⟩ := capsOf_groups_empty keep [] rs hv t [] (by simp [ht])
  have hs : (copyOf [] rs).split pattern (if keep then .isolated else .removed) = .ok (.ok qs) :=
    split_eq (by simpa [copyOf] using hp) (by simpa using h1)
  rw [fromString_copies rs hv]
  have := split_pieces (encodeRunes rs) (copies [([], rs)])
    (splitByPattern pattern (if keep then .isolated else .removed)) (fun p => p.ns)
    (fun _ => splitsFromNormalizedStrings qs) (by
      intro p hp
      simp [copies] at hp; subst hp
      exact ⟨rfl, fun j => by simp [splitByPattern, hs]⟩)
  rw [this]
  congr 3
  simp only [copies, List.map_cons, List.map_nil, List.flatMap_cons, List.flatMap_nil, List.append_nil,
    splitsFromNormalizedStrings, List.filter_map]
  rw [show ((fun q : Piece => decide (q.ns.get ≠ [])) ∘ fun ns : NS => (⟨ns, none⟩ : Piece))
    = fun q : NS => decide (q.get ≠ []) from rfl, h2, List.map_map]
  rfl

/-! ## Any engine -/

/-- The rune matches with the runes in front of each. -/
def located (rs : List Rune) (ms : List (Nat × Nat)) : List (List Rune × List Rune) :=
  ms.map fun m => (rs.take m.1, (rs.drop m.1).take m.2)

theorem locate_matches (rs : List Rune) : ∀ (ms : List (Nat × Nat)) (i : Nat), Ordered2 ms i rs.length →
    locate false (rs.take i) ((matchSegs i ms (rs.drop i)).map fun x => (!x.1, x.2)) = located rs ms := by
  intro ms
  induction ms with
  | nil =>
    intro i _
    unfold matchSegs
    split <;> simp [locate, located]
  | cons m ms ih =>
    intro i h
    obtain ⟨h1, h2⟩ := h
    have i1 := ih _ h2
    have hd : (rs.drop i).drop (m.1 - i + m.2) = rs.drop (m.1 + m.2) := by
      rw [List.drop_drop]; congr 1; omega
    have hd1 : ((rs.drop i).drop (m.1 - i)).take m.2 = (rs.drop m.1).take m.2 := by
      rw [List.drop_drop]; congr 2; omega
    have t1 : rs.take m.1 ++ (rs.drop m.1).take m.2 = rs.take (m.1 + m.2) := List.take_add.symm
    have t2 : rs.take i ++ (rs.drop i).take (m.1 - i) = rs.take m.1 := by
      rw [← List.take_add]; congr 1; omega
    simp only [matchSegs, hd, hd1, List.map_append, List.map_cons]
    by_cases he : i = m.1
    · simp [he, locate, t1, i1, located]
    · simp [he, locate, t2, t1, i1, located]

/-- **C61, any engine.** For every valid input and every engine that returns, on the runes of the
input, matches that are in order and in bounds, the white-space pre-tokenizer succeeds and its byte
splits are the non-empty matches, in order, each with `String == input[Start:End]`. -/
theorem C61_engine (findAll2 : List Rune → Except Err (List (Nat × Nat))) (rs : List Rune)
    (hv : ∀ r ∈ rs, ValidRune r) (hne : rs ≠ []) {ms : List (Nat × Nat)} (he : findAll2 rs = .ok ms)
    (ho : Ordered2 ms 0 rs.length) :
    ∃ pts, whiteSpacePreTokenize findAll2 (PTS.fromString (encodeRunes rs)) = .ok (pts, none)
      ∧ pts.getOriginalByteSplits = ((located rs ms).filter fun x => decide (x.2 ≠ [])).map (fun x =>
        ⟨encodeRunes x.2, ⟨(encodeRunes x.1).length, (encodeRunes (x.1 ++ x.2)).length⟩, none⟩)
      ∧ ∀ b ∈ pts.getOriginalByteSplits, goSlice (encodeRunes rs) b.offsets.start b.offsets.stop = .ok b.string := by
  have hc := fromRegexp2_caps findAll2 hv hne he ho
  have hfl : (matchSegs 0 ms rs).flatMap (·.2) = rs := by
    rcases matchSegs_flatten ms 0 rs with h | h
    · exact h
    · exact absurd (by simpa using ho) h
  have := split_input_segs (invert (fromRegexp2 findAll2)) false hv
    (t := (matchSegs 0 ms rs).map fun x => (!x.1, x.2))
    (by rw [List.flatMap_map]; exact hfl)
    (by simp only [invert, hc, capsOf_not])
  refine ⟨_, this, ?_, ?_⟩
  · rw [copies_byteSplits]
    have h := locate_matches rs ms 0 ho
    simp only [List.take_zero, List.drop_zero] at h
    rw [h]
  · have h := locate_matches rs ms 0 ho
    simp only [List.take_zero, List.drop_zero] at h
    rw [h, copies_byteSplits]
    intro b hb
    obtain ⟨x, hx, rfl⟩ := List.mem_map.1 hb
    obtain ⟨m, hm, rfl⟩ := List.mem_map.1 (List.mem_filter.1 hx).1
    have e : rs = rs.take m.1 ++ (rs.drop m.1).take m.2 ++ rs.drop (m.1 + m.2) := by
      rw [← List.take_add, List.take_append_drop]
    have := goSlice_mid (encodeRunes (rs.take m.1)) (encodeRunes ((rs.drop m.1).take m.2))
      (encodeRunes (rs.drop (m.1 + m.2))) (a := (encodeRunes (rs.take m.1)).length)
      (b := (encodeRunes (rs.take m.1 ++ (rs.drop m.1).take m.2)).length) rfl (by simp)
    rw [← encodeRunes_append, ← encodeRunes_append, ← e] at this
    exact this

/-- An engine error is the error of the pre-tokenizer, and nothing is split. -/
theorem C61_engine_error (findAll2 : List Rune → Except Err (List (Nat × Nat))) (rs : List Rune)
    (hv : ∀ r ∈ rs, ValidRune r) (hne : rs ≠ []) {e : Err} (he : findAll2 rs = .error e) :
    whiteSpacePreTokenize findAll2 (PTS.fromString (encodeRunes rs))
      = .ok (PTS.fromString (encodeRunes rs), some e) := by
  have h0 : ¬ (encodeRunes rs).length = 0 := by
    intro h'; exact hne (encodeRunes_eq_nil.1 (List.length_eq_zero_iff.1 h'))
  have hp : invert (fromRegexp2 findAll2) (encodeRunes rs) = .ok (.error e) := by
    simp [invert, fromRegexp2, h0, runesOf_encodeRunes rs hv, he]
  rw [fromString_copies rs hv]
  have hs : ∀ b, (copyOf [] rs).split (invert (fromRegexp2 findAll2)) b = .ok (.error e) := by
    intro b
    simp only [NS.split]
    rw [show (copyOf [] rs).normalized = encodeRunes rs from rfl, hp]
    rfl
  simp [whiteSpacePreTokenize, PTS.split, PTS.splitLoop, copies, splitByPattern, hs]

/-! ## The engine -/

namespace Re

theorem matches_le (re : Re) : ∀ (rs : List Rune), ∀ k ∈ re.matches' rs, k ≤ rs.length := by
  induction re with
  | chr p =>
    intro rs k hk
    cases rs with
    | nil => simp [matches'] at hk
    | cons r rs =>
      simp only [matches'] at hk
      split at hk
      · simp at hk; subst hk; simp
      · simp at hk
  | seq a b iha ihb =>
    intro rs k hk
    simp only [matches', List.mem_flatMap, List.mem_map] at hk
    obtain ⟨i, hi, j, hj, rfl⟩ := hk
    have h1 := iha rs i hi
    have h2 := ihb _ j hj
    simp at h2; omega
  | alt a b iha ihb =>
    intro rs k hk
    simp only [matches', List.mem_append] at hk
    rcases hk with h | h
    · exact iha rs k h
    · exact ihb rs k h
  | opt a iha =>
    intro rs k hk
    simp only [matches', List.mem_append, List.mem_singleton] at hk
    rcases hk with h | h
    · exact iha rs k h
    · omega
  | plus p =>
    intro rs k hk
    simp only [matches', List.mem_map, List.mem_reverse, List.mem_range] at hk
    obtain ⟨j, hj, rfl⟩ := hk
    have := (List.takeWhile_prefix (p := p) (l := rs)).length_le
    omega
  | notAhead p =>
    intro rs k hk
    cases rs with
    | nil => simp [matches'] at hk; omega
    | cons r rs =>
      simp only [matches'] at hk
      split at hk
      · simp at hk
      · simp at hk; omega

theorem first_le {re : Re} {rs : List Rune} {k : Nat} (h : re.first rs = some k) : k ≤ rs.length :=
  matches_le re rs k (List.mem_of_head? h)

theorem scan_skip (re : Re) : ∀ (rs : List Rune) (i skip : Nat), skip ≤ rs.length →
    re.scan rs i skip = re.scan (rs.drop skip) (i + skip) 0 := by
  intro rs
  induction rs with
  | nil => intro i skip h; simp at h; subst h; rfl
  | cons r rs ih =>
    intro i skip h
    cases skip with
    | zero => rfl
    | succ k =>
      have := ih (i + 1) k (by simpa using h)
      simp only [scan, List.drop_succ_cons, this]
      congr 1; omega

/-- The matches are in order and in bounds. -/
theorem scan_ordered (re : Re) (n : Nat) : ∀ (rs : List Rune), rs.length ≤ n → ∀ (i : Nat),
    Ordered2 (re.scan rs i 0) i (i + rs.length) := by
  induction n with
  | zero =>
    intro rs h i
    have : rs = [] := List.length_eq_zero_iff.1 (by omega)
    subst this
    unfold scan
    split
    · rename_i k hk
      have := first_le hk
      simp at this; subst this
      exact ⟨Nat.le_refl _, Nat.le_refl _⟩
    · exact Nat.le_refl _
  | succ n ih =>
    intro rs h i
    cases rs with
    | nil => exact ih [] (by simp) i
    | cons r rs =>
      have mono : ∀ {ms : List (Nat × Nat)} {i j n : Nat}, j ≤ i → Ordered2 ms i n → Ordered2 ms j n := by
        intro ms i j n hji h
        cases ms with
        | nil => exact Nat.le_trans hji h
        | cons m ms => exact ⟨Nat.le_trans hji h.1, h.2⟩
      unfold scan
      split
      · rename_i k hk
        have hkl := first_le hk
        simp at hkl h
        refine ⟨Nat.le_refl _, ?_⟩
        simp only
        rw [scan_skip re rs (i + 1) (k - 1) (by omega)]
        have := ih (rs.drop (k - 1)) (by simp; omega) (i + 1 + (k - 1))
        have e : i + 1 + (k - 1) + (rs.drop (k - 1)).length = i + (r :: rs).length := by simp; omega
        rw [e] at this
        exact mono (by omega) this
      · have := ih rs (by simpa using h) (i + 1)
        have e : i + 1 + rs.length = i + (r :: rs).length := by simp; omega
        rw [e] at this
        exact mono (by omega) this

theorem findAll_ordered (re : Re) (rs : List Rune) : Ordered2 (re.scan rs 0 0) 0 rs.length := by
  have := scan_ordered re rs.length rs (Nat.le_refl _) 0
  simpa using this

/-- After a non-empty match the search goes on behind it. -/
theorem scan_match {re : Re} {rs : List Rune} {k : Nat} (h : re.first rs = some k) (hk : 0 < k) (i : Nat) :
    re.scan rs i 0 = (i, k) :: re.scan (rs.drop k) (i + k) 0 := by
  have hle := first_le h
  cases rs with
  | nil => simp at hle; omega
  | cons r rs =>
    simp at hle
    conv => lhs; unfold scan
    rw [h]
    simp only
    obtain ⟨k, rfl⟩ : ∃ j, k = j + 1 := ⟨k - 1, by omega⟩
    simp only [Nat.add_sub_cancel, List.drop_succ_cons]
    rw [scan_skip re rs (i + 1) k (by omega)]
    have e : i + 1 + k = i + (k + 1) := by omega
    rw [e]

/-- Without a match the search goes on one rune later. -/
theorem scan_no_match {re : Re} {r : Rune} {rs : List Rune} (h : re.first (r :: rs) = none) (i : Nat) :
    re.scan (r :: rs) i 0 = re.scan rs (i + 1) 0 := by
  conv => lhs; unfold scan
  rw [h]

/-- The greedy run of a class. -/
theorem first_plus (p : Rune → Bool) (rs : List Rune) :
    (plus p).matches' rs = (List.range (rs.takeWhile p).length).reverse.map (· + 1) := rfl

theorem range_rev_head (n : Nat) : (((List.range n).reverse.map (· + 1)).head?) = if n = 0 then none else some n := by
  cases n with
  | zero => rfl
  | succ n => simp [List.range_succ]

end Re

/-! ## Maximal runs of one kind -/

/-- The pieces of a text cut into the maximal runs of runes of the same kind, without the runes
of no kind: `(pre, g)` is the piece `g` standing after `pre`. -/
structure KindRuns {κ : Type} (kind : Rune → Option κ) (rs : List Rune) (L : List (List Rune × List Rune)) : Prop where
  /-- each piece stands in the text after its prefix, is not empty, is of one kind and cannot be
  extended on either side -/
  located : ∀ x ∈ L, ∃ post k, rs = x.1 ++ x.2 ++ post ∧ x.2 ≠ [] ∧ (∀ r ∈ x.2, kind r = some k)
    ∧ (∀ r ∈ x.1.getLast?, kind r ≠ some k) ∧ (∀ r ∈ post.head?, kind r ≠ some k)
  /-- the pieces come in the order of the text, without overlap -/
  ordered : L.Pairwise fun x y => (x.1 ++ x.2).length ≤ y.1.length
  /-- only the runes of no kind are lost -/
  complete : L.flatMap (·.2) = rs.filter fun r => (kind r).isSome

/-- Words and symbols; white space is of no kind. -/
inductive WKind | word | symbol
deriving DecidableEq

def wordKind (u : RxUni) (r : Rune) : Option WKind :=
  if u.word r then some .word else if u.space r then none else some .symbol

theorem takeWhile_head {p : Rune → Bool} : ∀ (rs : List Rune), ∀ r ∈ (rs.dropWhile p).head?, p r = false := by
  intro rs
  induction rs with
  | nil => intro r hr; simp at hr
  | cons x rs ih =>
    intro r hr
    by_cases h : p x = true
    · rw [List.dropWhile_cons_of_pos h] at hr; exact ih r hr
    · rw [List.dropWhile_cons_of_neg h] at hr
      simp at hr; subst hr; simpa using h

theorem drop_takeWhile (p : Rune → Bool) (rs : List Rune) : rs.drop (rs.takeWhile p).length = rs.dropWhile p := by
  induction rs with
  | nil => rfl
  | cons x rs ih =>
    by_cases h : p x = true
    · simp [List.takeWhile_cons_of_pos h, List.dropWhile_cons_of_pos h, ih]
    · simp [List.takeWhile_cons_of_neg h, List.dropWhile_cons_of_neg h]

theorem take_takeWhile (p : Rune → Bool) (rs : List Rune) : rs.take (rs.takeWhile p).length = rs.takeWhile p := by
  induction rs with
  | nil => rfl
  | cons x rs ih =>
    by_cases h : p x = true
    · simp [List.takeWhile_cons_of_pos h, ih]
    · simp [List.takeWhile_cons_of_neg h]

theorem wordRegexp_first (u : RxUni) (r : Rune) (rs : List Rune) :
    (wordRegexp u).first (r :: rs) = match wordKind u r with
      | some .word => some ((r :: rs).takeWhile u.word).length
      | some .symbol => some ((r :: rs).takeWhile u.symbol).length
      | none => none := by
  have hw := Re.range_rev_head ((r :: rs).takeWhile u.word).length
  have hs := Re.range_rev_head ((r :: rs).takeWhile u.symbol).length
  unfold Re.first wordRegexp
  simp only [Re.matches', List.head?_append, hw, hs]
  unfold wordKind
  cases h1 : u.word r
  · cases h2 : u.space r
    · simp [h1, RxUni.symbol, h2]
    · simp [h1, RxUni.symbol, h2]
  · simp [List.takeWhile_cons, h1]

theorem kind_pred (u : RxUni) (r : Rune) :
    (wordKind u r = some .word ↔ u.word r = true) ∧ (wordKind u r = some .symbol ↔ u.symbol r = true) := by
  unfold wordKind RxUni.symbol
  cases u.word r <;> cases u.space r <;> simp

theorem wordRegexp_runs (u : RxUni) (all : List Rune) (n : Nat) : ∀ (rs : List Rune), rs.length ≤ n →
    ∀ (pre : List Rune), all = pre ++ rs →
    (∀ a ∈ pre.getLast?, ∀ b ∈ rs.head?, wordKind u b ≠ none → wordKind u a ≠ wordKind u b) →
    let L := located all ((wordRegexp u).scan rs pre.length 0)
    (∀ x ∈ L, ∃ post k, all = x.1 ++ x.2 ++ post ∧ x.2 ≠ [] ∧ (∀ r ∈ x.2, wordKind u r = some k)
      ∧ (∀ r ∈ x.1.getLast?, wordKind u r ≠ some k) ∧ (∀ r ∈ post.head?, wordKind u r ≠ some k))
    ∧ (∀ x ∈ L, pre.length ≤ x.1.length)
    ∧ L.Pairwise (fun x y => (x.1 ++ x.2).length ≤ y.1.length)
    ∧ L.flatMap (·.2) = rs.filter fun r => (wordKind u r).isSome := by
  induction n with
  | zero =>
    intro rs h pre _ _
    have : rs = [] := List.length_eq_zero_iff.1 (by omega)
    subst this
    simp [located, Re.scan, Re.first, wordRegexp, Re.matches']
  | succ n ih =>
    intro rs h pre hall hpre
    cases rs with
    | nil => exact ih [] (by simp) pre hall (by intro a _ b hb; simp at hb)
    | cons r rs =>
      have hf := wordRegexp_first u r rs
      cases hk : wordKind u r with
      | none =>
        rw [hk] at hf
        simp only at hf
        have i1 := ih rs (by simpa using h) (pre ++ [r]) (by rw [hall]; simp) (by
          intro a ha b hb hne
          simp at ha; subst ha
          rw [hk]; exact hne.symm)
        have e : (pre ++ [r]).length = pre.length + 1 := by simp
        rw [e] at i1
        simp only [Re.scan_no_match hf]
        obtain ⟨k1, k2, k3, k4⟩ := i1
        refine ⟨k1, fun x hx => by have := k2 x hx; omega, k3, ?_⟩
        rw [k4, List.filter_cons_of_neg (by simp [hk])]
      | some k =>
        -- the class of the run
        obtain ⟨p, hp, hfp⟩ : ∃ p : Rune → Bool, (∀ x, wordKind u x = some k ↔ p x = true)
            ∧ (wordRegexp u).first (r :: rs) = some ((r :: rs).takeWhile p).length := by
          rw [hk] at hf
          cases k
          · exact ⟨u.word, fun x => (kind_pred u x).1, hf⟩
          · exact ⟨u.symbol, fun x => (kind_pred u x).2, hf⟩
        have hpr := (hp r).1 hk
        generalize hrun : (r :: rs).takeWhile p = run at hfp
        generalize hrest : (r :: rs).dropWhile p = rest
        have hcat : r :: rs = run ++ rest := by rw [← hrun, ← hrest, List.takeWhile_append_dropWhile]
        have hall_run : ∀ x ∈ run, wordKind u x = some k := by
          intro x hx; rw [← hrun] at hx
          exact (hp x).2 (List.all_eq_true.1 (List.all_takeWhile) x hx)
        have hne : run ≠ [] := by rw [← hrun, List.takeWhile_cons_of_pos hpr]; simp
        have hlen : 0 < run.length := List.length_pos_iff.2 hne
        have hstop : ∀ x ∈ rest.head?, wordKind u x ≠ some k := by
          intro x hx; rw [← hrest] at hx
          have := takeWhile_head _ x hx
          intro h; rw [(hp x).1 h] at this; simp at this
        have hdrop : (r :: rs).drop run.length = rest := by rw [← hrun, ← hrest, drop_takeWhile]
        have hscan := Re.scan_match hfp hlen pre.length
        rw [hdrop] at hscan
        have hlr : rest.length ≤ n := by
          have := congrArg List.length hcat
          simp at this h; omega
        obtain ⟨k1, k2, k3, k4⟩ := ih rest hlr (pre ++ run) (by rw [hall, hcat]; simp) (by
          intro a ha b hb _
          have hka : wordKind u a = some k := by
            rw [List.getLast?_append, List.getLast?_eq_some_getLast hne] at ha
            simp at ha; subst ha
            exact hall_run _ (List.getLast_mem hne)
          rw [hka]; exact (hstop b hb).symm)
        have e : (pre ++ run).length = pre.length + run.length := by simp
        rw [e] at k1 k2 k3 k4
        have e1 : all.take pre.length = pre := by rw [hall]; exact List.take_left
        have e2 : (all.drop pre.length).take run.length = run := by
          rw [hall, List.drop_left, hcat]; exact List.take_left
        simp only [hscan, located, List.map_cons, e1, e2, List.mem_cons, List.pairwise_cons,
          List.flatMap_cons] at k1 k2 k3 k4 ⊢
        refine ⟨?_, ?_, ⟨?_, k3⟩, ?_⟩
        · rintro x (rfl | hx)
          · refine ⟨rest, k, by rw [hall, hcat]; simp, hne, hall_run, ?_, hstop⟩
            intro a ha
            have := hpre a ha r (by simp) (by simp [hk])
            rw [hk] at this; exact this
          · exact k1 x hx
        · rintro x (rfl | hx)
          · exact Nat.le_refl _
          · have := k2 x hx; omega
        · intro x hx
          have := k2 x hx
          simp; omega
        · rw [k4, hcat, List.filter_append]
          congr 1
          exact (List.filter_eq_self.2 fun x hx => by simp [hall_run x hx]).symm

/-- **C61.** For every valid input the default white-space pre-tokenizer succeeds and its byte
splits are exactly the maximal runs of word runes and the maximal runs of runes that are neither
word nor white-space runes, in order, each with `String == input[Start:End]`. -/
theorem C61_whiteSpace (u : RxUni) (rs : List Rune) (hv : ∀ r ∈ rs, ValidRune r) :
    ∃ pts L, whiteSpaceDefault u (PTS.fromString (encodeRunes rs)) = .ok (pts, none)
      ∧ KindRuns (wordKind u) rs L
      ∧ pts.getOriginalByteSplits = L.map (fun x =>
        ⟨encodeRunes x.2, ⟨(encodeRunes x.1).length, (encodeRunes (x.1 ++ x.2)).length⟩, none⟩)
      ∧ ∀ b ∈ pts.getOriginalByteSplits, goSlice (encodeRunes rs) b.offsets.start b.offsets.stop = .ok b.string := by
  have hr := wordRegexp_runs u rs rs.length rs (Nat.le_refl _) [] rfl (by intro a ha; simp at ha)
  simp only [List.length_nil] at hr
  obtain ⟨h1, -, h3, h4⟩ := hr
  have hk : KindRuns (wordKind u) rs (located rs ((wordRegexp u).scan rs 0 0)) := ⟨h1, h3, h4⟩
  by_cases hne : rs = []
  · subst hne
    exact ⟨⟨[], []⟩, [], rfl, ⟨by simp, .nil, rfl⟩, rfl, by simp [PTS.getOriginalByteSplits]⟩
  · obtain ⟨pts, a1, a2, a3⟩ := C61_engine (wordRegexp u).findAll rs hv hne (ms := (wordRegexp u).scan rs 0 0) rfl
      ((wordRegexp u).findAll_ordered rs)
    refine ⟨pts, _, a1, hk, ?_, a3⟩
    rw [a2]
    congr 1
    apply List.filter_eq_self.2
    intro x hx
    obtain ⟨post, k, -, hx, -⟩ := h1 x hx
    simpa using hx

/-- The same, with the resulting splits themselves: unchanged parts of the input. -/
theorem whiteSpace_copies (u : RxUni) (rs : List Rune) (hv : ∀ r ∈ rs, ValidRune r) :
    ∃ o L, whiteSpaceDefault u (PTS.fromString (encodeRunes rs)) = .ok (⟨o, copies L⟩, none)
      ∧ KindRuns (wordKind u) rs L := by
  have hr := wordRegexp_runs u rs rs.length rs (Nat.le_refl _) [] rfl (by intro a ha; simp at ha)
  simp only [List.length_nil] at hr
  obtain ⟨h1, -, h3, h4⟩ := hr
  have hk : KindRuns (wordKind u) rs (located rs ((wordRegexp u).scan rs 0 0)) := ⟨h1, h3, h4⟩
  by_cases hne : rs = []
  · subst hne
    exact ⟨[], [], rfl, ⟨by simp, .nil, rfl⟩⟩
  · have ho := (wordRegexp u).findAll_ordered rs
    have hc := fromRegexp2_caps (wordRegexp u).findAll hv hne (ms := (wordRegexp u).scan rs 0 0) rfl ho
    have hfl : (matchSegs 0 ((wordRegexp u).scan rs 0 0) rs).flatMap (·.2) = rs := by
      rcases matchSegs_flatten ((wordRegexp u).scan rs 0 0) 0 rs with h | h
      · exact h
      · exact absurd (by simpa using ho) h
    have := split_input_segs (invert (fromRegexp2 (wordRegexp u).findAll)) false hv
      (t := (matchSegs 0 ((wordRegexp u).scan rs 0 0) rs).map fun x => (!x.1, x.2))
      (by rw [List.flatMap_map]; exact hfl)
      (by simp only [invert, hc, capsOf_not])
    refine ⟨_, _, this, ?_⟩
    have h := locate_matches rs ((wordRegexp u).scan rs 0 0) 0 ho
    simp only [List.take_zero, List.drop_zero] at h
    rw [h, List.filter_eq_self.2]
    · exact hk
    · intro x hx
      obtain ⟨post, k, -, hx, -⟩ := h1 x hx
      simpa using hx

/-- `"Hey, you"` with the default expression: two words and a comma. -/
example : Tests.origSplits (whiteSpaceDefault Tests.asciiUni) b!"Hey, you"
    = .ok ([(b!"Hey", 0, 3), (b!",", 3, 4), (b!"you", 5, 8)], none) := by decide +kernel

/-- The runes from position `n` on that are of some kind. -/
private def rest {κ : Type} (kind : Rune → Option κ) (rs : List Rune) (n : Nat) : List Rune :=
  (rs.drop n).filter fun r => (kind r).isSome

private theorem rest_gap {κ : Type} (kind : Rune → Option κ) (rs : List Rune) {n m : Nat} (h : n ≤ m) :
    rest kind rs n = ((rs.drop n).take (m - n)).filter (fun r => (kind r).isSome) ++ rest kind rs m := by
  unfold rest
  rw [← List.filter_append]
  congr 1
  have : rs.drop m = (rs.drop n).drop (m - n) := by rw [List.drop_drop]; congr 1; omega
  rw [this, List.take_append_drop]

private theorem rest_piece {κ : Type} (kind : Rune → Option κ) {rs p g post : List Rune} {k : κ}
    (h : rs = p ++ g ++ post) (hk : ∀ r ∈ g, kind r = some k) :
    rest kind rs p.length = g ++ rest kind rs (p ++ g).length := by
  unfold rest
  have e1 : rs.drop p.length = g ++ post := by rw [h, List.append_assoc]; exact List.drop_left
  have e2 : rs.drop (p ++ g).length = post := by rw [h]; exact List.drop_left
  rw [e1, e2, List.filter_append]
  congr 1
  exact List.filter_eq_self.2 fun x hx => by simp [hk x hx]

private def Pieces {κ : Type} (kind : Rune → Option κ) (rs : List Rune) (L : List (List Rune × List Rune)) : Prop :=
  (∀ x ∈ L, ∃ post k, rs = x.1 ++ x.2 ++ post ∧ x.2 ≠ [] ∧ (∀ r ∈ x.2, kind r = some k)
    ∧ (∀ r ∈ x.1.getLast?, kind r ≠ some k) ∧ (∀ r ∈ post.head?, kind r ≠ some k))
  ∧ L.Pairwise fun x y => (x.1 ++ x.2).length ≤ y.1.length

private theorem pieces_length {κ : Type} {kind : Rune → Option κ} {rs : List Rune} :
    ∀ {L : List (List Rune × List Rune)} {n : Nat}, Pieces kind rs L → (∀ x ∈ L, n ≤ x.1.length) →
    (L.flatMap (·.2)).length ≤ (rest kind rs n).length := by
  intro L
  induction L with
  | nil => intro n _ _; simp
  | cons x L ih =>
    intro n h hn
    obtain ⟨h1, h2⟩ := h
    obtain ⟨post, k, e, -, hk, -, -⟩ := h1 x (by simp)
    have h3 := List.pairwise_cons.1 h2
    have i1 := ih (n := (x.1 ++ x.2).length) ⟨fun y hy => h1 y (by simp [hy]), h3.2⟩ h3.1
    rw [rest_gap kind rs (hn x (by simp)), rest_piece kind e hk]
    simp only [List.flatMap_cons, List.length_append] at i1 ⊢
    omega

private theorem pieces_unique {κ : Type} {kind : Rune → Option κ} {rs : List Rune} :
    ∀ {L M : List (List Rune × List Rune)} {n : Nat}, Pieces kind rs L → Pieces kind rs M →
    (∀ x ∈ L, n ≤ x.1.length) → (∀ x ∈ M, n ≤ x.1.length) →
    L.flatMap (·.2) = rest kind rs n → M.flatMap (·.2) = rest kind rs n → L = M := by
  -- a piece list cannot start later than another one
  have start : ∀ {x y : List Rune × List Rune} {L M : List (List Rune × List Rune)} {n : Nat},
      Pieces kind rs (x :: L) → Pieces kind rs (y :: M) → n ≤ x.1.length →
      (y :: M).flatMap (·.2) = rest kind rs n → y.1.length ≤ x.1.length := by
    intro x y L M n hL hM hn hr
    apply Classical.byContradiction
    intro hlt
    obtain ⟨post, k, e, hne, hk, -, -⟩ := hL.1 x (by simp)
    have h3 := (List.pairwise_cons.1 hM.2).1
    have h1 := pieces_length (n := y.1.length) hM (by
      intro z hz
      rcases List.mem_cons.1 hz with rfl | hz
      · exact Nat.le_refl _
      · have := h3 z hz; simp at this; omega)
    rw [hr, rest_gap kind rs hn, rest_gap kind rs (show x.1.length ≤ y.1.length by omega)] at h1
    have h2 : 0 < (((rs.drop x.1.length).take (y.1.length - x.1.length)).filter fun r => (kind r).isSome).length := by
      obtain ⟨r, g, hg⟩ : ∃ r g, x.2 = r :: g := by
        cases h : x.2 with
        | nil => exact absurd h hne
        | cons r g => exact ⟨r, g, rfl⟩
      have e1 : rs.drop x.1.length = r :: (g ++ post) := by
        rw [e, List.append_assoc, List.drop_left, hg]; rfl
      obtain ⟨d, hd⟩ : ∃ d, y.1.length - x.1.length = d + 1 := ⟨y.1.length - x.1.length - 1, by omega⟩
      rw [e1, hd, List.take_succ_cons, List.filter_cons_of_pos (by simp [hk r (by simp [hg])])]
      simp
    simp only [List.length_append] at h1
    omega
  -- a run that cannot be extended is not shorter than another one from the same place
  have stop : ∀ {p a b s t : List Rune} {k k' : κ}, p ++ a ++ s = p ++ b ++ t → a ≠ [] → b ≠ [] →
      (∀ r ∈ a, kind r = some k) → (∀ r ∈ b, kind r = some k') → (∀ r ∈ s.head?, kind r ≠ some k) →
      b.length ≤ a.length := by
    intro p a b s t k k' h ha hb hka hkb hs
    apply Classical.byContradiction
    intro hlt
    rw [List.append_assoc, List.append_assoc] at h
    have h := List.append_cancel_left h
    have hb' : b = a ++ b.drop a.length := by
      have h1 := congrArg (List.take a.length) h
      rw [List.take_left, List.take_append_of_le_length (by omega)] at h1
      conv => lhs; rw [← List.take_append_drop a.length b, ← h1]
    cases hd : b.drop a.length with
    | nil =>
      have := congrArg List.length hd
      simp only [List.length_drop, List.length_nil] at this
      omega
    | cons r d =>
      rw [hd] at hb'
      have hs' : s = r :: (d ++ t) := by
        rw [hb', List.append_assoc] at h
        exact List.append_cancel_left h
      obtain ⟨c, hc⟩ : ∃ c, c ∈ a := by
        cases a with
        | nil => exact absurd rfl ha
        | cons c _ => exact ⟨c, by simp⟩
      have e1 := hka c hc
      have e2 := hkb c (by rw [hb']; simp [hc])
      have e3 := hkb r (by rw [hb']; simp)
      rw [e1] at e2
      exact hs r (by simp [hs']) (by rw [e3, ← e2])
  intro L
  induction L with
  | nil =>
    intro M n _ hM _ _ h1 h2
    cases M with
    | nil => rfl
    | cons y M =>
      obtain ⟨-, -, -, hne, -⟩ := hM.1 y (by simp)
      rw [← h1] at h2
      simp at h2
      exact absurd h2.1 hne
  | cons x L ih =>
    intro M n hL hM hx hy h1 h2
    cases M with
    | nil =>
      obtain ⟨-, -, -, hne, -⟩ := hL.1 x (by simp)
      rw [← h2] at h1
      simp at h1
      exact absurd h1.1 hne
    | cons y M =>
      obtain ⟨s, k, e, hne, hk, -, hs⟩ := hL.1 x (by simp)
      obtain ⟨t, k', e', hne', hk', -, ht⟩ := hM.1 y (by simp)
      have l1 := start hL hM (hx x (by simp)) h2
      have l2 := start hM hL (hy y (by simp)) h1
      have p1 : x.1 = y.1 := by
        have a := congrArg (List.take x.1.length) e
        have b := congrArg (List.take x.1.length) e'
        rw [List.append_assoc, List.take_left] at a
        rw [List.append_assoc, show x.1.length = y.1.length by omega, List.take_left] at b
        rw [← a, ← b, show x.1.length = y.1.length by omega]
      have p2 : x.2 = y.2 := by
        have c : x.1 ++ x.2 ++ s = x.1 ++ y.2 ++ t := by rw [← e, p1]; exact e'
        have c1 := stop c hne hne' hk hk' hs
        have c2 := stop c.symm hne' hne hk' hk ht
        rw [List.append_assoc, List.append_assoc] at c
        exact (List.append_inj (List.append_cancel_left c) (by omega)).1
      have hxy : x = y := Prod.ext p1 p2
      subst hxy
      have q1 := List.pairwise_cons.1 hL.2
      have q2 := List.pairwise_cons.1 hM.2
      have tl : ∀ {N : List (List Rune × List Rune)}, Pieces kind rs (x :: N) →
          (x :: N).flatMap (·.2) = rest kind rs n → N.flatMap (·.2) = rest kind rs (x.1 ++ x.2).length := by
        intro N hN hf
        have r1 := List.pairwise_cons.1 hN.2
        have b := pieces_length (n := (x.1 ++ x.2).length) (L := N) ⟨fun z hz => hN.1 z (by simp [hz]), r1.2⟩ r1.1
        rw [rest_gap kind rs (hx x (by simp)), rest_piece kind e hk, List.flatMap_cons] at hf
        have hl := congrArg List.length hf
        simp only [List.length_append] at hl b
        have hz := List.length_eq_zero_iff.1 (show
          (((rs.drop n).take (x.1.length - n)).filter fun r => (kind r).isSome).length = 0 by
            simp only [List.length_append] at *; omega)
        rw [hz, List.nil_append] at hf
        exact List.append_cancel_left hf
      rw [ih ⟨fun z hz => hL.1 z (by simp [hz]), q1.2⟩ ⟨fun z hz => hM.1 z (by simp [hz]), q2.2⟩
        q1.1 q2.1 (tl hL h1) (tl hM h2)]

/-- There is only one way to cut a text into maximal runs. -/
theorem KindRuns.unique {κ : Type} {kind : Rune → Option κ} {rs : List Rune} {L M : List (List Rune × List Rune)}
    (hL : KindRuns kind rs L) (hM : KindRuns kind rs M) : L = M :=
  pieces_unique (n := 0) ⟨hL.located, hL.ordered⟩ ⟨hM.located, hM.ordered⟩ (by simp) (by simp)
    (by simpa [rest] using hL.complete) (by simpa [rest] using hM.complete)

end Verif
