import Verif.Lemmas.Copy

/-! Properties C29–C31: the pre-tokenizers that cut the text without changing it. -/

set_option autoImplicit false

namespace Verif

/-! ## The segments, located -/

theorem locate_shift {α : Type} (keep : Bool) : ∀ (t : List (Bool × List α)) (pre p : List α),
    locate keep (pre ++ p) t = (locate keep p t).map fun x => (pre ++ x.1, x.2) := by
  intro t
  induction t with
  | nil => intro pre p; rfl
  | cons x t ih =>
    intro pre p
    obtain ⟨b, g⟩ := x
    simp only [locate, List.map_append]
    rw [List.append_assoc, ih]
    congr 1
    split <;> rfl

theorem mem_locate {α : Type} (keep : Bool) : ∀ (t : List (Bool × List α)) (pre : List α), ∀ x ∈ locate keep pre t,
    ∃ t1 b t2, t = t1 ++ (b, x.2) :: t2 ∧ x.1 = pre ++ t1.flatMap (·.2) ∧ (b = true → keep = true) := by
  intro t
  induction t with
  | nil => intro pre x hx; simp [locate] at hx
  | cons y t ih =>
    intro pre x hx
    obtain ⟨b, g⟩ := y
    simp only [locate, List.mem_append] at hx
    rcases hx with hx | hx
    · split at hx
      · simp at hx
      · rename_i hk
        simp at hx; subst hx
        exact ⟨[], b, t, rfl, by simp, by intro hb; subst hb; simpa using hk⟩
    · obtain ⟨t1, b', t2, e1, e2, e3⟩ := ih _ x hx
      exact ⟨(b, g) :: t1, b', t2, by rw [e1]; rfl, by rw [e2]; simp, e3⟩

theorem locate_ordered (keep : Bool) : ∀ (t : List (Bool × List Rune)) (pre : List Rune),
    (locate keep pre t).Pairwise (fun x y => (x.1 ++ x.2).length ≤ y.1.length)
    ∧ ∀ x ∈ locate keep pre t, pre.length ≤ x.1.length
        ∧ (x.1 ++ x.2).length ≤ (pre ++ t.flatMap (·.2)).length := by
  intro t
  induction t with
  | nil => intro pre; simp [locate]
  | cons y t ih =>
    intro pre
    obtain ⟨b, g⟩ := y
    obtain ⟨h1, h2⟩ := ih (pre ++ g)
    simp only [locate]
    have e : (pre ++ List.flatMap (·.2) ((b, g) :: t)).length = (pre ++ g ++ t.flatMap (·.2)).length := by simp
    rw [e]
    constructor
    · rw [List.pairwise_append]
      refine ⟨by split <;> simp, h1, ?_⟩
      intro x hx y hy
      split at hx
      · simp at hx
      · simp at hx; subst hx
        exact (h2 y hy).1
    · intro x hx
      rcases List.mem_append.1 hx with hx | hx
      · split at hx
        · simp at hx
        · simp at hx; subst hx
          simp
      · have := h2 x hx
        simp at this ⊢; omega

theorem locate_texts (keep : Bool) : ∀ (t : List (Bool × List Rune)) (pre : List Rune),
    (locate keep pre t).flatMap (·.2) = (t.filter fun x => !(x.1 && !keep)).flatMap (·.2) := by
  intro t
  induction t with
  | nil => intro pre; rfl
  | cons y t ih =>
    intro pre
    obtain ⟨b, g⟩ := y
    simp only [locate, List.flatMap_append, ih, List.filter_cons]
    cases b <;> cases keep <;> simp

theorem filter_const_true {α : Type} (l : List α) : (l.filter fun _ => true) = l :=
  List.filter_eq_self.2 fun _ _ => rfl

theorem adjacent_mid {α : Type} {R : α → α → Prop} : ∀ (l : List α) (a b : α) (m : List α),
    Adjacent R (l ++ a :: b :: m) → R a b := by
  intro l
  induction l with
  | nil => intro a b m h; exact h.1
  | cons x l ih =>
    intro a b m h
    cases l with
    | nil => exact ih a b m h.2
    | cons y l => exact ih a b m h.2

theorem filter_segs (f : Rune → Bool) : ∀ t : List (Bool × List Rune),
    (∀ p ∈ t, (p.1 = true → ∃ r, p.2 = [r] ∧ f r = true) ∧ (p.1 = false → p.2 ≠ [] ∧ ∀ r ∈ p.2, f r = false)) →
    (t.filter fun x => !x.1).flatMap (·.2) = (t.flatMap (·.2)).filter fun r => !f r := by
  intro t
  induction t with
  | nil => intro _; rfl
  | cons y t ih =>
    intro h
    obtain ⟨b, g⟩ := y
    have ih' := ih fun p hp => h p (by simp [hp])
    obtain ⟨h1, h2⟩ := h (b, g) (by simp)
    cases b with
    | true =>
      obtain ⟨r, hr, hf⟩ := h1 rfl
      simp only at hr; subst hr
      simp [ih', hf]
    | false =>
      have hg := (h2 rfl).2
      have : g.filter (fun r => !f r) = g := List.filter_eq_self.2 fun r hr => by simp [hg r hr]
      simp [ih', this]

/-- The located segments of a predicate, dropping or isolating the matches. -/
theorem tokenizedBy_segs (f : Rune → Bool) (keep : Bool) (rs : List Rune) :
    TokenizedBy (fun r => f r && !keep) (fun r => f r && keep) rs (locate keep [] (segs f rs)) := by
  have hk := segs_kind f rs
  have hm := segs_maximal f rs
  have hf := segs_flatten f rs
  refine ⟨?_, (locate_ordered keep _ _).1, ?_⟩
  · intro x hx
    obtain ⟨t1, b, t2, e1, e2, e3⟩ := mem_locate keep _ _ x hx
    obtain ⟨xp, g⟩ := x
    simp only [List.nil_append] at e1 e2 ⊢
    refine ⟨t2.flatMap (·.2), by rw [← hf, e1, e2]; simp, ?_⟩
    have hkx := hk (b, g) (by rw [e1]; simp)
    cases b with
    | true =>
      left
      obtain ⟨r, hr, hfr⟩ := hkx.1 rfl
      exact ⟨r, hr, by simp [e3 rfl], by simp [hfr, e3 rfl]⟩
    | false =>
      right
      obtain ⟨hne, hall⟩ := hkx.2 rfl
      refine ⟨hne, fun r hr => by simp [hall r hr], ?_, ?_⟩
      · -- before
        intro r hr
        rcases List.eq_nil_or_concat t1 with rfl | ⟨t0, y, rfl⟩
        · rw [e2] at hr; simp at hr
        · obtain ⟨b', h⟩ := y
          have hadj : Adjacent (fun p q : Bool × List Rune => p.1 = true ∨ q.1 = true)
              (t0 ++ (b', h) :: (false, g) :: t2) := by
            rw [e1] at hm; simpa using hm
          have hb : b' = true := by
            rcases adjacent_mid _ _ _ _ hadj with h | h
            · exact h
            · simp at h
          subst hb
          obtain ⟨r', hr', hfr'⟩ := (hk (true, h) (by rw [e1]; simp)).1 rfl
          simp only at hr'; subst hr'
          rw [e2] at hr
          simp at hr; subst hr
          cases keep <;> simp [hfr']
      · -- after
        intro r hr
        cases t2 with
        | nil => simp at hr
        | cons y t2 =>
          obtain ⟨b', h⟩ := y
          rw [e1] at hm
          have hb : b' = true := by
            rcases adjacent_mid _ _ _ _ hm with h | h
            · simp at h
            · exact h
          subst hb
          obtain ⟨r', hr', hfr'⟩ := (hk (true, h) (by rw [e1]; simp)).1 rfl
          simp only at hr'; subst hr'
          simp at hr; subst hr
          cases keep <;> simp [hfr']
  · rw [locate_texts]
    cases keep with
    | true =>
      simp only [Bool.not_true, Bool.and_false, Bool.not_false, filter_const_true]
      rw [hf]
    | false =>
      have := filter_segs f _ hk
      rw [hf] at this
      simpa using this

/-- Cutting every word again, isolating the solo runes. -/
theorem TokenizedBy.refine {isSep isSolo : Rune → Bool} {rs : List Rune} {L : List (List Rune × List Rune)}
    (h : TokenizedBy isSep (fun _ => false) rs L) :
    TokenizedBy isSep isSolo rs (L.flatMap fun x => locate true x.1 (segs isSolo x.2)) := by
  have key : ∀ x : List Rune × List Rune, TokenizedBy (fun _ => false) isSolo x.2 (locate true [] (segs isSolo x.2)) := by
    intro x
    have := tokenizedBy_segs isSolo true x.2
    simpa using this
  have sh : ∀ x : List Rune × List Rune, locate true x.1 (segs isSolo x.2)
      = (locate true [] (segs isSolo x.2)).map fun y => (x.1 ++ y.1, y.2) := by
    intro x
    have := locate_shift true (segs isSolo x.2) x.1 []
    simpa using this
  refine ⟨?_, ?_, ?_⟩
  · intro z hz
    obtain ⟨x, hx, hz⟩ := List.mem_flatMap.1 hz
    rw [sh] at hz
    obtain ⟨y, hy, rfl⟩ := List.mem_map.1 hz
    obtain ⟨post, e1, h1⟩ := h.located x hx
    obtain ⟨post', e2, h2⟩ := (key x).located y hy
    rcases h1 with ⟨r, -, -, h1⟩ | ⟨-, h1, hl, hp⟩
    · simp at h1
    refine ⟨post' ++ post, by
      rw [e1]; conv => lhs; rw [e2]
      simp, ?_⟩
    rcases h2 with ⟨r, hr, -, hs⟩ | ⟨hne, hall, hl', hp'⟩
    · left
      refine ⟨r, hr, (h1 r ?_).1, hs⟩
      rw [e2, hr]; simp
    · right
      refine ⟨hne, ?_, ?_, ?_⟩
      · intro r hr
        exact ⟨(h1 r (by rw [e2]; simp [hr])).1, (hall r hr).2⟩
      · intro r hr
        rcases List.eq_nil_or_concat y.1 with hy0 | ⟨t0, w, hy0⟩
        · simp only [hy0, List.append_nil] at hr
          rcases hl r hr with h | h
          · exact Or.inl h
          · simp at h
        · have := hl' r (by rw [hy0] at hr ⊢; simpa using hr)
          rcases this with h | h
          · simp at h
          · exact Or.inr h
      · intro r hr
        cases post' with
        | nil =>
          rcases hp r (by simpa using hr) with h | h
          · exact Or.inl h
          · simp at h
        | cons w t =>
          have := hp' r (by simpa using hr)
          rcases this with h | h
          · simp at h
          · exact Or.inr h
  · rw [List.pairwise_flatMap]
    refine ⟨fun x _ => (locate_ordered true _ _).1, ?_⟩
    refine h.ordered.imp ?_
    intro x x' hle y hy y' hy'
    have h1 := ((locate_ordered true _ _).2 y hy).2
    have h2 := ((locate_ordered true _ _).2 y' hy').1
    rw [segs_flatten] at h1
    omega
  · rw [List.flatMap_assoc]
    have : ∀ x : List Rune × List Rune, (locate true x.1 (segs isSolo x.2)).flatMap (·.2) = x.2 := by
      intro x
      rw [locate_texts]
      simp [filter_const_true, segs_flatten]
    simp only [this]
    exact h.complete

/-! ## Splitting a list of copies -/

/-- Untokenized splits that are copies. -/
def copies (L : List (List Rune × List Rune)) : List Piece := L.map fun x => ⟨copyOf x.1 x.2, none⟩

theorem replaced_flatMap (results : Nat → List Piece) (R : Piece → List Piece) :
    ∀ (ps : List Piece) (i : Nat), (∀ j p, ps[j]? = some p → p.tokens = none ∧ results (i + j) = R p) →
    replaced results i ps = ps.flatMap fun p => (R p).filter fun q => decide (q.ns.get ≠ []) := by
  intro ps
  induction ps with
  | nil => intro i _; rfl
  | cons p ps ih =>
    intro i h
    obtain ⟨h1, h2⟩ := h 0 p (by simp)
    simp only [replaced, h1, List.flatMap_cons]
    rw [ih (i + 1) (by
      intro j q hj
      have := h (j + 1) q (by simpa using hj)
      rwa [show i + (j + 1) = i + 1 + j by omega] at this)]
    rw [← h2]; rfl

/-- `Split` with a split function that gives, for every untokenized split, known pieces. -/
theorem split_pieces (o : Str) (ps : List Piece) (f : SplitFunc) (after : Piece → NS) (R : Piece → List Piece)
    (h : ∀ p ∈ ps, p.tokens = none ∧ ∀ j, f j p.ns = .ok (after p, .ok (R p))) :
    (PTS.mk o ps).split f = .ok (⟨o, ps.flatMap fun p => (R p).filter fun q => decide (q.ns.get ≠ [])⟩, none) := by
  have := C24_split_ok ⟨o, ps⟩ f (fun j => match ps[j]? with | some p => after p | none => ⟨[], [], [], 0⟩)
    (fun j => match ps[j]? with | some p => R p | none => []) (by
      intro j sp hj _
      simp only at hj ⊢
      rw [hj]
      exact (h sp (List.mem_of_getElem? hj)).2 j)
  rw [this]
  simp only
  rw [replaced_flatMap _ R ps 0 (by
    intro j p hj
    rw [Nat.zero_add, hj]
    exact ⟨(h p (List.mem_of_getElem? hj)).1, rfl⟩)]

theorem copyOf_get_ne {pre g : List Rune} (h : g ≠ []) : (copyOf pre g).get ≠ [] := by
  intro h'; exact h (encodeRunes_eq_nil.1 h')

/-- `PreTokenizedString.Split` by a function pattern on a list of non-empty copies. -/
theorem pts_split_copies (o : Str) (L : List (List Rune × List Rune)) (f : Rune → Bool) (keep : Bool)
    (hv : ∀ x ∈ L, x.2 ≠ [] ∧ ∀ r ∈ x.2, ValidRune r) :
    (PTS.mk o (copies L)).split (splitByPattern (fromFunc f) (if keep then .isolated else .removed))
      = .ok (⟨o, copies (L.flatMap fun x => locate keep x.1 (segs f x.2))⟩, none) := by
  -- recover the pieces of each split from the split itself
  have key : ∀ p ∈ copies L, ∃ x ∈ L, p = ⟨copyOf x.1 x.2, none⟩ := by
    intro p hp
    obtain ⟨x, hx, rfl⟩ := List.mem_map.1 hp
    exact ⟨x, hx, rfl⟩
  have hf : ∀ x ∈ L, ∀ j, splitByPattern (fromFunc f) (if keep then .isolated else .removed) j (copyOf x.1 x.2)
      = .ok (copyOf x.1 x.2, .ok (copies (locate keep x.1 (segs f x.2)))) := by
    intro x hx j
    simp only [splitByPattern, split_copy f keep x.1 x.2 (hv x hx).2 (hv x hx).1, GoM.bind_ok,
      splitsFromNormalizedStrings, copies, List.map_map]
    rfl
  have := split_pieces o (copies L) (splitByPattern (fromFunc f) (if keep then .isolated else .removed))
    (fun p => p.ns)
    (fun p => match splitByPattern (fromFunc f) (if keep then .isolated else .removed) 0 p.ns with
      | .ok (_, .ok r) => r
      | _ => []) (by
      intro p hp
      obtain ⟨x, hx, rfl⟩ := key p hp
      refine ⟨rfl, fun j => ?_⟩
      rw [hf x hx j, hf x hx 0])
  rw [this]
  congr 3
  unfold copies
  rw [List.flatMap_map, List.map_flatMap]
  clear this key
  induction L with
  | nil => rfl
  | cons x L ih =>
    rw [List.flatMap_cons, List.flatMap_cons, ih (fun y hy => hv y (by simp [hy]))
      (fun y hy => hf y (by simp [hy]))]
    congr 1
    rw [hf x (by simp) 0]
    simp only
    apply List.filter_eq_self.2
    intro q hq
    obtain ⟨y, hy, rfl⟩ := List.mem_map.1 hq
    obtain ⟨t1, b, t2, e1, -, -⟩ := mem_locate keep _ _ y hy
    have := segs_ne_nil f x.2 (b, y.2) (by rw [e1]; simp)
    simp only [decide_eq_true_eq]
    exact copyOf_get_ne this

/-- On the empty text the only piece is empty and dropped. -/
theorem pts_split_empty (f : Rune → Bool) (keep : Bool) :
    (PTS.fromString []).split (splitByPattern (fromFunc f) (if keep then .isolated else .removed))
      = .ok (⟨[], []⟩, none) := by
  cases keep <;> rfl

/-- The byte splits of copies. -/
theorem copies_byteSplits (o : Str) (L : List (List Rune × List Rune)) :
    (PTS.mk o (copies L)).getOriginalByteSplits = L.map fun x =>
      ⟨encodeRunes x.2, ⟨(encodeRunes x.1).length, (encodeRunes (x.1 ++ x.2)).length⟩, none⟩ := by
  simp [PTS.getOriginalByteSplits, copies, Function.comp_def, NS.get, copyOf, NS.originalOffsets,
    NS.originalLen]

/-- What the byte splits of a tokenization that does not change the text look like. -/
def CutsInto (isSep isSolo : Rune → Bool) (rs : List Rune) (pts : PTS) : Prop :=
  ∃ L, TokenizedBy isSep isSolo rs L
    ∧ pts.getOriginalByteSplits = L.map (fun x =>
        ⟨encodeRunes x.2, ⟨(encodeRunes x.1).length, (encodeRunes (x.1 ++ x.2)).length⟩, none⟩)
    ∧ ∀ b ∈ pts.getOriginalByteSplits, goSlice (encodeRunes rs) b.offsets.start b.offsets.stop = .ok b.string

theorem cutsInto_copies {isSep isSolo : Rune → Bool} {rs : List Rune} {L : List (List Rune × List Rune)}
    (h : TokenizedBy isSep isSolo rs L) (o : Str) : CutsInto isSep isSolo rs ⟨o, copies L⟩ := by
  refine ⟨L, h, copies_byteSplits o L, ?_⟩
  intro b hb
  rw [copies_byteSplits] at hb
  obtain ⟨x, hx, rfl⟩ := List.mem_map.1 hb
  obtain ⟨post, e, -⟩ := h.located x hx
  rw [e]
  simp only [encodeRunes_append]
  exact goSlice_mid _ _ _ rfl (by simp)

theorem fromString_copies (rs : List Rune) (hv : ∀ r ∈ rs, ValidRune r) :
    PTS.fromString (encodeRunes rs) = ⟨encodeRunes rs, copies [([], rs)]⟩ := by
  simp [PTS.fromString, PTS.fromNormalizedString, fromString_copy rs hv, copies, copyOf, NS.getOriginal]

/-- One pass over a fresh input. -/
theorem split_input (f : Rune → Bool) (keep : Bool) (rs : List Rune) (hv : ∀ r ∈ rs, ValidRune r) :
    (PTS.fromString (encodeRunes rs)).split (splitByPattern (fromFunc f) (if keep then .isolated else .removed))
      = .ok (⟨encodeRunes rs, copies (locate keep [] (segs f rs))⟩, none) := by
  by_cases h : rs = []
  · subst h
    exact pts_split_empty f keep
  · rw [fromString_copies rs hv, pts_split_copies _ _ f keep (by simpa using ⟨h, hv⟩)]
    simp

/-! ## The pre-tokenizers -/

/-- **C29.** For every valid input the white-space-split pre-tokenizer succeeds and its byte
splits are exactly the maximal runs of non-white-space runes, in order, each with
`String == input[Start:End]`. -/
theorem C29_whiteSpaceSplit (rs : List Rune) (hv : ∀ r ∈ rs, ValidRune r) :
    ∃ pts, whiteSpaceSplit (PTS.fromString (encodeRunes rs)) = .ok (pts, none)
      ∧ CutsInto isWhiteSpace (fun _ => false) rs pts := by
  refine ⟨_, split_input isWhiteSpace false rs hv, cutsInto_copies ?_ _⟩
  have := tokenizedBy_segs isWhiteSpace false rs
  simpa using this

/-- **C31.** For every valid input and delimiter the rune-delimiter pre-tokenizer succeeds
and its byte splits are exactly the maximal runs of runes other than the delimiter. -/
theorem C31_runeDelimiter (d : Rune) (rs : List Rune) (hv : ∀ r ∈ rs, ValidRune r) :
    ∃ pts, runeDelimiter d (PTS.fromString (encodeRunes rs)) = .ok (pts, none)
      ∧ CutsInto (fun r => r == d) (fun _ => false) rs pts := by
  refine ⟨_, split_input (fun r => r == d) false rs hv, cutsInto_copies ?_ _⟩
  have := tokenizedBy_segs (fun r => r == d) false rs
  simpa using this

/-- **C30.** For every valid input and any punctuation predicate the BERT pre-tokenizer
succeeds; its byte splits are the single punctuation runes that are not white space and the
maximal runs of runes that are neither white space nor punctuation, in order, each with
`String == input[Start:End]`. -/
theorem C30_bert (u : Uni) (rs : List Rune) (hv : ∀ r ∈ rs, ValidRune r) :
    ∃ pts, bertPreTokenize u (PTS.fromString (encodeRunes rs)) = .ok (pts, none)
      ∧ CutsInto isWhiteSpace u.isPunct rs pts := by
  have t1 : TokenizedBy isWhiteSpace (fun _ => false) rs (locate false [] (segs isWhiteSpace rs)) := by
    have := tokenizedBy_segs isWhiteSpace false rs
    simpa using this
  have h1 := split_input isWhiteSpace false rs hv
  have h2 := pts_split_copies (encodeRunes rs) (locate false [] (segs isWhiteSpace rs)) u.isPunct true (by
    intro x hx
    obtain ⟨post, e, h⟩ := t1.located x hx
    refine ⟨?_, fun r hr => hv r (by rw [e]; simp [hr])⟩
    rcases h with ⟨r, hr, -⟩ | ⟨h, -⟩
    · rw [hr]; simp
    · exact h)
  simp only [Bool.false_eq_true, if_false, if_true] at h1 h2
  refine ⟨_, ?_, cutsInto_copies (t1.refine (isSolo := u.isPunct)) (encodeRunes rs)⟩
  simp only [bertPreTokenize, h1, GoM.bind_ok, h2]

example : (whiteSpaceSplit (PTS.fromString b!" 世 a\tbc")).bind (fun r => .ok (r.1.getOriginalByteSplits.map
    fun b => (b.string, b.offsets))) = .ok [(b!"世", ⟨1, 4⟩), (b!"a", ⟨5, 6⟩), (b!"bc", ⟨7, 9⟩)] := by
  decide +kernel

example : (bertPreTokenize ⟨fun _ => false, fun _ => false, fun r => r == u!"," || r == u!"。", id⟩
    (PTS.fromString b!"é,。 a")).bind (fun r => .ok (r.1.getOriginalByteSplits.map
    fun b => (b.string, b.offsets)))
    = .ok [(b!"é", ⟨0, 2⟩), (b!",", ⟨2, 3⟩), (b!"。", ⟨3, 6⟩), (b!"a", ⟨7, 8⟩)] := by
  decide +kernel

example : (runeDelimiter u!"世" (PTS.fromString b!"a世世b")).bind (fun r => .ok (r.1.getOriginalByteSplits.map
    fun b => (b.string, b.offsets))) = .ok [(b!"a", ⟨0, 1⟩), (b!"b", ⟨7, 8⟩)] := by
  decide +kernel

end Verif
