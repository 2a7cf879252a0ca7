import Verif.Props.PreTokenized

/-! Pieces that are exact copies of a part of the input, and how pattern splits cut them. -/

set_option autoImplicit false

namespace Verif

/-- The piece holding the runes `g` that stand after the runes `pre` in the input, unchanged. -/
def copyOf (pre g : List Rune) : NS :=
  ⟨encodeRunes g, encodeRunes g, aligns (selfChars 0 g), (encodeRunes pre).length⟩

theorem fromString_copy (rs : List Rune) (hv : ∀ r ∈ rs, ValidRune r) :
    NS.fromString (encodeRunes rs) = copyOf [] rs := by
  have h := fromString_repr (s := encodeRunes rs) ⟨rs, hv, rfl⟩
  rw [runesOf_encodeRunes rs hv] at h
  have := h.aligns_eq
  simp only [copyOf, NS.fromString] at *
  rw [this]; simp

theorem encodeRunes_pos {g : List Rune} (h : g ≠ []) : 0 < (encodeRunes g).length := by
  apply List.length_pos_iff.2
  intro h'; exact h (encodeRunes_eq_nil.1 h')

theorem aligns_length_enc (cs : List Ch) : (aligns cs).length = (encodeRunes (cs.map (·.1))).length := by
  have := aligns_length cs
  rw [this]; rfl

theorem selfChars_shift (i k : Nat) (rs : List Rune) :
    (aligns (selfChars (i + k) rs)).map (fun al => (⟨al.start - i, al.stop - i⟩ : Align))
      = aligns (selfChars k rs) := by
  induction rs generalizing k with
  | nil => rfl
  | cons r rs ih =>
    simp only [selfChars, aligns_cons, List.map_append, List.map_replicate]
    rw [Nat.add_assoc, ih]
    congr 2
    simp; omega

theorem slice_copy (pre p g q : List Rune) (hv : ∀ r ∈ p ++ g ++ q, ValidRune r) (hg : g ≠ []) :
    (copyOf pre (p ++ g ++ q)).slice (.normalized (encodeRunes p).length (encodeRunes (p ++ g)).length)
      = .ok (some (copyOf (pre ++ p) g)) := by
  have hgl := encodeRunes_pos hg
  have hvp : ∀ r ∈ p, ValidRune r := fun r hr => hv r (by simp [hr])
  have hvg : ∀ r ∈ g, ValidRune r := fun r hr => hv r (by simp [hr])
  have hvq : ∀ r ∈ q, ValidRune r := fun r hr => hv r (by simp [hr])
  have vp : ValidUtf8 (encodeRunes p) := ⟨p, hvp, rfl⟩
  have vg : ValidUtf8 (encodeRunes g) := ⟨g, hvg, rfl⟩
  have vq : ValidUtf8 (encodeRunes q) := ⟨q, hvq, rfl⟩
  have e0 : encodeRunes (p ++ g ++ q) = encodeRunes p ++ encodeRunes g ++ encodeRunes q := by simp
  have ba : isRuneBoundary (encodeRunes (p ++ g ++ q)) (encodeRunes p).length = true :=
    isRuneBoundary_of ⟨encodeRunes p, encodeRunes g ++ encodeRunes q, vp, vg.append vq, by simp, rfl⟩
  have bb : isRuneBoundary (encodeRunes (p ++ g ++ q)) (encodeRunes (p ++ g)).length = true :=
    isRuneBoundary_of ⟨encodeRunes (p ++ g), encodeRunes q, ⟨p ++ g, by
      intro r hr
      rcases List.mem_append.1 hr with h | h
      · exact hvp r h
      · exact hvg r h, rfl⟩, vq, by simp, rfl⟩
  have eal : aligns (selfChars 0 (p ++ g ++ q)) = aligns (selfChars 0 p)
      ++ aligns (selfChars (encodeRunes p).length g) ++ aligns (selfChars (encodeRunes (p ++ g)).length q) := by
    rw [selfChars_append, selfChars_append]; simp
  have lp : (aligns (selfChars 0 p)).length = (encodeRunes p).length := by
    rw [aligns_length_enc, selfChars_map_fst]
  have lg : ∀ i, (aligns (selfChars i g)).length = (encodeRunes g).length := by
    intro i; rw [aligns_length_enc, selfChars_map_fst]
  have e1 : (encodeRunes (p ++ g)).length = (encodeRunes p).length + (encodeRunes g).length := by simp
  have hco : (copyOf pre (p ++ g ++ q)).coerceRangeToOriginal
      (.normalized (encodeRunes p).length (encodeRunes (p ++ g)).length)
      = .ok (some (((encodeRunes p).length : Int), ((encodeRunes (p ++ g)).length : Int))) := by
    obtain ⟨f, l, a1, a2, a3⟩ := coerceRangeToOriginal_normalized (ns := copyOf pre (p ++ g ++ q))
      (s := (encodeRunes p).length) (e := (encodeRunes (p ++ g)).length) (by omega) (by omega)
      (by simp only [copyOf]; rw [aligns_length_enc, selfChars_map_fst]; simp; omega)
    rw [a3]
    have hf : f.start = (encodeRunes p).length := by
      simp only [copyOf, eal, Int.toNat_natCast] at a1
      cases g with
      | nil => exact absurd rfl hg
      | cons r g =>
        have hr := runeLen_pos r
        rw [List.append_assoc, List.getElem?_append_right (by omega), lp, Nat.sub_self] at a1
        simp only [selfChars, aligns_cons, List.append_assoc] at a1
        rw [List.getElem?_append_left (by simpa using hr)] at a1
        simp [hr] at a1
        rw [← a1]
    have hl : l.stop = (encodeRunes (p ++ g)).length := by
      obtain ⟨g', r, rfl⟩ : ∃ g' r, g = g' ++ [r] := ⟨g.dropLast, g.getLast hg, by
        rw [List.dropLast_concat_getLast]⟩
      have hr := runeLen_pos r
      simp only [copyOf, eal] at a2
      rw [List.getElem?_append_left (by rw [List.length_append, lp, lg]; omega),
        List.getElem?_append_right (by rw [lp]; omega), lp, selfChars_append, aligns_append,
        List.getElem?_append_right (by
          rw [aligns_length_enc, selfChars_map_fst]; simp [runeLen] at hr ⊢; omega)] at a2
      rw [aligns_length_enc, selfChars_map_fst] at a2
      simp only [selfChars, aligns_cons, aligns_nil, List.append_nil] at a2
      rw [List.getElem?_replicate] at a2
      split at a2
      · simp at a2
        rw [← a2]
        simp [runeLen]; omega
      · simp at a2
    rw [hf, hl]
  have hs := slice_of (ns := copyOf pre (p ++ g ++ q)) (r := .normalized (encodeRunes p).length (encodeRunes (p ++ g)).length)
    (na := (encodeRunes p).length) (nb := (encodeRunes (p ++ g)).length)
    (oa := (encodeRunes p).length) (ob := (encodeRunes (p ++ g)).length)
    (o := encodeRunes g) (n := encodeRunes g) (als := aligns (selfChars (encodeRunes p).length g))
    (by
      simp only [NS.rangeIsValid, Rng.start, Rng.stop]
      simp [copyOf] at ba bb ⊢
      simp [ba, bb]) rfl hco
    (by simp only [copyOf, e0]; exact goSlice_mid _ _ _ rfl (by simp))
    (by simp only [copyOf, e0]; exact goSlice_mid _ _ _ rfl (by simp))
    (by
      simp only [copyOf, eal]
      exact goSlice_mid _ _ _ (by rw [lp]) (by rw [lp, lg]; simp))
  rw [hs]
  have := selfChars_shift (encodeRunes p).length 0 g
  rw [Nat.add_zero] at this
  rw [this]
  simp [copyOf]

/-! ## Splitting a copy -/

/-- The segments with what is in front of each, without the matches unless `keep`. -/
def locate {α : Type} (keep : Bool) : List α → List (Bool × List α) → List (List α × List α)
  | _, [] => []
  | pre, (b, g) :: t => (if b && !keep then [] else [(pre, g)]) ++ locate keep (pre ++ g) t

theorem split_eq {ns : NS} {pattern : SplitPattern} {b : Behavior} {caps : List Capture} {ps : List NS}
    (hp : pattern ns.normalized = .ok (.ok caps))
    (h : All2 (fun g p => ns.slice (.normalized (span g).1 (span g).2) = .ok (some p)) (splitGroups b caps) ps) :
    ns.split pattern b = .ok (.ok ps) := by
  obtain ⟨pieces, h1, h2⟩ := split_of (b := b) hp (fun g hg => by
    obtain ⟨p, -, hr⟩ := All2.exists_right h hg
    exact ⟨p, hr⟩)
  have : pieces = ps := by
    clear h1
    revert h2 h
    generalize splitGroups b caps = gs
    intro h h2
    induction h generalizing pieces with
    | nil => cases h2; rfl
    | cons e _ ih =>
      cases h2 with
      | cons e' h2' =>
        rw [e] at e'
        simp at e'
        rw [e', ih _ h2']
  rw [h1, this]

theorem capsOf_groups (keep : Bool) (pre0 all : List Rune) (hv : ∀ r ∈ all, ValidRune r) :
    ∀ (t : List (Bool × List Rune)) (p : List Rune), (∀ x ∈ t, x.2 ≠ []) → all = p ++ t.flatMap (·.2) →
    All2 (fun g q => (copyOf pre0 all).slice (.normalized (span g).1 (span g).2) = .ok (some q))
      (splitGroups (if keep then .isolated else .removed) (capsOf (encodeRunes p).length t))
      ((locate keep (pre0 ++ p) t).map fun x => copyOf x.1 x.2) := by
  intro t
  induction t with
  | nil => intro p _ _; cases keep <;> exact .nil
  | cons x t ih =>
    intro p hne hall
    obtain ⟨b, g⟩ := x
    have hall' : all = p ++ g ++ t.flatMap (·.2) := by rw [hall]; simp
    have i1 := ih (p ++ g) (fun y hy => hne y (by simp [hy])) hall'
    have hs := slice_copy pre0 p g (t.flatMap (·.2)) (by rw [← hall']; exact hv) (hne (b, g) (by simp))
    rw [← hall'] at hs
    have e2 : ((encodeRunes (p ++ g)).length : Int) = (encodeRunes p).length + (encodeRunes g).length := by
      simp
    rw [e2] at i1 hs
    rw [← List.append_assoc] at i1
    cases keep <;> cases b <;> simp only [splitGroups, capsOf, locate, Bool.false_eq_true, if_false,
      if_true, Bool.not_false, Bool.not_true, Bool.and_self, Bool.and_false, Bool.and_true,
      List.nil_append, List.singleton_append, List.map_cons] at i1 ⊢
    · rw [List.filter_cons_of_pos (by simp)]
      exact .cons hs i1
    · rw [List.filter_cons_of_neg (by simp)]
      exact i1
    · exact .cons hs i1
    · exact .cons hs i1

/-- Splitting a non-empty copy with a function pattern, removing or isolating the matches. -/
theorem split_copy (f : Rune → Bool) (keep : Bool) (pre rs : List Rune) (hv : ∀ r ∈ rs, ValidRune r)
    (hne : rs ≠ []) :
    (copyOf pre rs).split (fromFunc f) (if keep then .isolated else .removed)
      = .ok (.ok ((locate keep pre (segs f rs)).map fun x => copyOf x.1 x.2)) := by
  refine split_eq (caps := capsOf 0 (segs f rs)) ?_ ?_
  · show GoM.ok (Except.ok (funcFindMatches f (encodeRunes rs))) = _
    rw [funcFindMatches_eq f rs hv, if_neg hne]
  · have := capsOf_groups keep pre rs hv (segs f rs) [] (segs_ne_nil f rs) (by rw [segs_flatten]; rfl)
    simpa using this

/-! ## What the located segments are -/

/-- The pieces of a tokenization that drops the runes satisfying `isSep`, isolates the others
satisfying `isSolo` and keeps the maximal runs of the rest: `(pre, g)` is the piece `g`
standing after `pre`. -/
structure TokenizedBy (isSep isSolo : Rune → Bool) (rs : List Rune) (L : List (List Rune × List Rune)) : Prop where
  /-- each piece stands in the text after its prefix; it is one solo rune, or a non-empty run
  of ordinary runes that cannot be extended on either side -/
  located : ∀ x ∈ L, ∃ post, rs = x.1 ++ x.2 ++ post
    ∧ ((∃ r, x.2 = [r] ∧ isSep r = false ∧ isSolo r = true)
      ∨ (x.2 ≠ [] ∧ (∀ r ∈ x.2, isSep r = false ∧ isSolo r = false)
          ∧ (∀ r ∈ x.1.getLast?, isSep r = true ∨ isSolo r = true)
          ∧ (∀ r ∈ post.head?, isSep r = true ∨ isSolo r = true)))
  /-- the pieces come in the order of the text, without overlap -/
  ordered : L.Pairwise fun x y => (x.1 ++ x.2).length ≤ y.1.length
  /-- nothing but separators is lost -/
  complete : L.flatMap (·.2) = rs.filter fun r => !isSep r

end Verif
