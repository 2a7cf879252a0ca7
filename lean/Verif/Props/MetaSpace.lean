import Verif.Spec.Meta
import Verif.Props.Provenance
import Verif.Props.Patterns
import Verif.Props.Transform

/-! Property C32: the meta-space pre-tokenizer, and `Split` by a rune predicate in general. -/

set_option autoImplicit false

namespace Verif

/-! ## Segments of a text and their captures -/

theorem fromFunc_caps (f : Rune → Bool) {rs : List Rune} (hv : ∀ r ∈ rs, ValidRune r) (hne : rs ≠ []) :
    fromFunc f (encodeRunes rs) = .ok (.ok (capsOf 0 (segs f rs))) := by
  show GoM.ok (Except.ok (funcFindMatches f (encodeRunes rs))) = _
  rw [funcFindMatches_eq f rs hv, if_neg hne]

theorem segs_tiles (f : Rune → Bool) (rs : List Rune) :
    Tiles (capsOf 0 (segs f rs)) 0 (encodeRunes rs).length := by
  have ht := capsOf_tiles 0 (segs f rs)
  rw [segs_flatten] at ht
  simpa using ht

theorem segs_capSeg (f : Rune → Bool) (rs : List Rune) :
    All2 (CapSeg rs) (capsOf 0 (segs f rs)) (segs f rs) := by
  have ha := capsOf_all2 [] (segs f rs)
  simpa only [List.nil_append, segs_flatten, encodeRunes_nil, List.length_nil,
    Int.natCast_zero] using ha

theorem All2.flatMap_eq {α β γ : Type} {R : α → β → Prop} {f : α → List γ} {g : β → List γ}
    {as : List α} {bs : List β} (h : All2 R as bs) (hf : ∀ a b, a ∈ as → b ∈ bs → R a b → f a = g b) :
    as.flatMap f = bs.flatMap g := by
  have := h.map_eq (f := f) (g := g) (fun a b ha hb hr => (hf a b ha hb hr).symm)
  rw [List.flatMap_def, List.flatMap_def, this]

theorem encodeRunes_flatMap {α : Type} (l : List α) (g : α → List Rune) :
    l.flatMap (fun x => encodeRunes (g x)) = encodeRunes (l.flatMap g) := by
  induction l with
  | nil => rfl
  | cons x l ih => simp [ih]

/-- `Replace` by a rune predicate substitutes the content for each matching rune. -/
theorem replace_func {ns : NS} (hlen : ns.alignments.length = ns.normalized.length) {rs : List Rune}
    (hv : ∀ r ∈ rs, ValidRune r) (htext : ns.normalized = encodeRunes rs) (f : Rune → Bool)
    (cont : List Rune) :
    ∃ ns', ns.replace (fromFunc f) (encodeRunes cont) = .ok (.ok ns')
      ∧ ns'.normalized = encodeRunes (rs.flatMap fun r => if f r then cont else [r]) := by
  have hcv : ValidUtf8 (encodeRunes cont) := validUtf8_encodeRunes cont
  by_cases h0 : rs = []
  · subst h0
    have hp : fromFunc f ns.normalized = .ok (.ok emptyCaptures) := by rw [htext]; rfl
    have ht : Tiles emptyCaptures 0 ns.normalized.length := by rw [htext]; simp [emptyCaptures, Tiles]
    obtain ⟨n2, parts, h1, h2, h3, -⟩ := C10_replace hlen hp ht hcv
    refine ⟨n2, h1, ?_⟩
    rw [h3, replaceParts_text h2, htext]
    simp [emptyCaptures, sub]
  · have hp : fromFunc f ns.normalized = .ok (.ok (capsOf 0 (segs f rs))) := by
      rw [htext]; exact fromFunc_caps f hv h0
    have ht : Tiles (capsOf 0 (segs f rs)) 0 ns.normalized.length := by rw [htext]; exact segs_tiles f rs
    obtain ⟨n2, parts, h1, h2, h3, -⟩ := C10_replace hlen hp ht hcv
    refine ⟨n2, h1, ?_⟩
    rw [h3, replaceParts_text h2, htext]
    have key : ∀ p ∈ segs f rs, (if p.1 = true then cont else p.2)
        = p.2.flatMap (fun r => if f r then cont else [r]) := by
      intro p hp
      obtain ⟨k1, k2⟩ := segs_kind f rs p hp
      cases hb : p.1
      · have : ∀ l : List Rune, (∀ r ∈ l, f r = false) → l = l.flatMap (fun r => if f r then cont else [r]) := by
          intro l
          induction l with
          | nil => intro _; rfl
          | cons r l ih =>
            intro h
            rw [List.flatMap_cons, ← ih (fun x hx => h x (by simp [hx])), h r (by simp)]
            rfl
        simpa using this p.2 (k2 hb).2
      · obtain ⟨r, e, hr⟩ := k1 hb
        rw [e]; simp [hr]
    rw [All2.flatMap_eq (segs_capSeg f rs) (g := fun p => encodeRunes (if p.1 = true then cont else p.2)) (by
      intro c p _ _ hcp
      have := hcp.text hv
      rw [hcp.1]
      split
      · rfl
      · exact this.1)]
    rw [encodeRunes_flatMap]
    congr 1
    conv => rhs; rw [← segs_flatten f rs]
    rw [List.flatMap_assoc]
    rw [List.flatMap_def, List.flatMap_def]
    congr 1
    exact List.map_congr_left key

/-- The captures of the segments can always be sliced. -/
theorem segs_sliceable {ns : NS} {rs : List Rune} (hv : ∀ r ∈ rs, ValidRune r)
    (htext : ns.normalized = encodeRunes rs) (f : Rune → Bool) :
    Sliceable ns (capsOf 0 (segs f rs)) := by
  intro c hc
  obtain ⟨p, hp, hcp⟩ := (segs_capSeg f rs).exists_right hc
  have := hcp.text hv
  rw [htext]
  refine ⟨this.2.1, this.2.2, Or.inl ?_⟩
  obtain ⟨-, pre, post, -, h1, h2⟩ := hcp
  have := encodeRunes_pos (segs_ne_nil f rs p hp)
  rw [h1, h2]
  simp
  omega

/-- `Split` by a rune predicate succeeds on every non-empty valid text. -/
theorem split_func {ns : NS} (hr : Reachable ns) {rs : List Rune} (hv : ∀ r ∈ rs, ValidRune r)
    (htext : ns.normalized = encodeRunes rs) (hne : rs ≠ []) (f : Rune → Bool) (b : Behavior) :
    ∃ pieces, ns.split (fromFunc f) b = .ok (.ok pieces)
      ∧ pieces.map NS.get = (splitGroups b (capsOf 0 (segs f rs))).map
          (fun g => sub (encodeRunes rs) (span g).1 (span g).2) := by
  obtain ⟨pieces, h1, h2, -⟩ := C11_split_partial hr (pattern := fromFunc f) (caps := capsOf 0 (segs f rs))
    (by rw [htext]; exact fromFunc_caps f hv hne) (by rw [htext]; exact segs_tiles f rs)
    (segs_sliceable hv htext f) b
  exact ⟨pieces, h1, by rw [h2]; show _ = _; rw [← htext]; rfl⟩

/-! ## Merging each match with what follows -/

/-- Each matching segment joined with the run after it. -/
def joinNext {α : Type} : List (Bool × List α) → List (List α)
  | [] => []
  | [a] => [a.2]
  | a :: b :: rest => if a.1 && !b.1 then (a.2 ++ b.2) :: joinNext rest else a.2 :: joinNext (b :: rest)

theorem groupNext_capsOf (n : Nat) : ∀ (s : List (Bool × List Rune)), s.length ≤ n →
    ∀ (pre post : List Rune),
    (groupNext (capsOf (encodeRunes pre).length s)).map
        (fun g => sub (encodeRunes (pre ++ s.flatMap (·.2) ++ post)) (span g).1 (span g).2)
      = (joinNext s).map encodeRunes := by
  have hsub : ∀ pre g post : List Rune, sub (encodeRunes (pre ++ g ++ post)) (encodeRunes pre).length
      ((encodeRunes pre).length + (encodeRunes g).length : Int) = encodeRunes g := by
    intro pre g post
    simp only [encodeRunes_append]
    exact sub_mid _ _ _
  induction n with
  | zero =>
    intro s h pre post
    have : s = [] := List.length_eq_zero_iff.1 (by omega)
    subst this; rfl
  | succ n ih =>
    intro s h pre post
    match s with
    | [] => rfl
    | [(a, g)] =>
      simp only [capsOf, groupNext, List.map_cons, List.map_nil, span_single, joinNext, List.flatMap_cons,
        List.flatMap_nil, List.append_nil]
      rw [hsub]
    | (a, g) :: (b, g') :: rest =>
      simp only [capsOf, groupNext, joinNext]
      split
      · have i1 := ih rest (by simp at h; omega) (pre ++ g ++ g') post
        simp only [List.map_cons, encodeRunes_append, List.length_append, List.flatMap_cons,
          List.append_assoc, Int.natCast_add, ← Int.add_assoc] at i1 ⊢
        rw [i1]
        congr 1
        have := hsub pre (g ++ g') (rest.flatMap (·.2) ++ post)
        simp only [encodeRunes_append, List.length_append, List.append_assoc, Int.natCast_add,
          ← Int.add_assoc] at this
        simpa [span] using this
      · have i1 := ih ((b, g') :: rest) (by simp at h ⊢; omega) (pre ++ g) post
        simp only [List.map_cons, encodeRunes_append, List.length_append, List.flatMap_cons,
          List.append_assoc, Int.natCast_add, capsOf] at i1 ⊢
        rw [i1]
        congr 1
        have := hsub pre g (g' ++ rest.flatMap (·.2) ++ post)
        simp only [encodeRunes_append, List.append_assoc] at this
        simpa [span] using this

theorem joinNext_flatten {α : Type} (n : Nat) : ∀ (s : List (Bool × List α)), s.length ≤ n →
    (joinNext s).flatten = s.flatMap (·.2) := by
  induction n with
  | zero =>
    intro s h
    have : s = [] := List.length_eq_zero_iff.1 (by omega)
    subst this; rfl
  | succ n ih =>
    intro s h
    match s with
    | [] => rfl
    | [a] => simp [joinNext]
    | a :: b :: rest =>
      simp only [joinNext]
      split
      · simp [ih rest (by simp at h; omega)]
      · rw [List.flatten_cons, ih (b :: rest) (by simp at h ⊢; omega)]
        simp

/-- A segment is one matching rune, or a non-empty run of others. -/
def SegOk (f : Rune → Bool) (p : Bool × List Rune) : Prop :=
  (p.1 = true → ∃ r, p.2 = [r] ∧ f r = true) ∧ (p.1 = false → p.2 ≠ [] ∧ ∀ r ∈ p.2, f r = false)

/-- From a matching segment on, every piece is one matching rune followed by others. -/
theorem joinNext_match (f : Rune → Bool) (n : Nat) : ∀ (s : List (Bool × List Rune)), s.length ≤ n →
    (∀ p ∈ s, SegOk f p) → Adjacent (fun p q => p.1 = true ∨ q.1 = true) s →
    (∀ p, s.head? = some p → p.1 = true) →
    ∀ g ∈ joinNext s, ∃ r t, g = r :: t ∧ f r = true ∧ ∀ x ∈ t, f x = false := by
  induction n with
  | zero =>
    intro s h
    have : s = [] := List.length_eq_zero_iff.1 (by omega)
    subst this
    intro _ _ _ g hg; simp [joinNext] at hg
  | succ n ih =>
    intro s h hk ha hh g hg
    match s with
    | [] => simp [joinNext] at hg
    | [a] =>
      simp [joinNext] at hg; subst hg
      obtain ⟨r, e, hr⟩ := (hk a (by simp)).1 (hh a rfl)
      exact ⟨r, [], e, hr, by simp⟩
    | a :: b :: rest =>
      obtain ⟨r, e, hr⟩ := (hk a (by simp)).1 (hh a rfl)
      simp only [joinNext] at hg
      split at hg
      · rename_i hab
        simp at hab
        rcases List.mem_cons.1 hg with rfl | hg
        · exact ⟨r, b.2, by rw [e]; rfl, hr, ((hk b (by simp)).2 hab.2).2⟩
        · refine ih rest (by simp at h; omega) (fun p hp => hk p (by simp [hp])) ?_ ?_ g hg
          · cases rest with
            | nil => trivial
            | cons c rest => exact ha.2.2
          · intro p hp
            cases rest with
            | nil => simp at hp
            | cons c rest =>
              simp at hp; subst hp
              have := ha.2.1
              simp [hab.2] at this
              exact this
      · rename_i hab
        simp at hab
        rcases List.mem_cons.1 hg with rfl | hg
        · exact ⟨r, [], e, hr, by simp⟩
        · refine ih (b :: rest) (by simp at h ⊢; omega) (fun p hp => hk p (by simp [List.mem_cons.1 hp])) ha.2 ?_ g hg
          intro p hp
          simp at hp; subst hp
          exact hab (hh a rfl)

/-- The pieces: all but the first start with a matching rune, and matching runes stand only
at the start of a piece. -/
theorem joinNext_segs (f : Rune → Bool) (rs : List Rune) :
    (joinNext (segs f rs)).flatten = rs
    ∧ (∀ p ∈ joinNext (segs f rs), p ≠ [] ∧ ∀ r ∈ p.tail, f r = false)
    ∧ ∀ p ∈ (joinNext (segs f rs)).tail, ∃ r, p.head? = some r ∧ f r = true := by
  have hk : ∀ p ∈ segs f rs, SegOk f p := segs_kind f rs
  have ha := segs_maximal f rs
  refine ⟨by rw [joinNext_flatten _ _ (Nat.le_refl _), segs_flatten], ?_⟩
  generalize segs f rs = s at hk ha
  have fin : ∀ {g : List Rune}, (∃ r t, g = r :: t ∧ f r = true ∧ ∀ x ∈ t, f x = false) →
      (g ≠ [] ∧ ∀ r ∈ g.tail, f r = false) ∧ ∃ r, g.head? = some r ∧ f r = true := by
    rintro g ⟨r, t, rfl, h1, h2⟩
    exact ⟨⟨by simp, h2⟩, r, rfl, h1⟩
  cases s with
  | nil => simp [joinNext]
  | cons a s =>
    cases hb : a.1 with
    | true =>
      have := joinNext_match f _ (a :: s) (Nat.le_refl _) hk ha (by intro p hp; simp at hp; subst hp; exact hb)
      exact ⟨fun p hp => (fin (this p hp)).1, fun p hp => (fin (this p (List.mem_of_mem_tail hp))).2⟩
    | false =>
      have e : joinNext (a :: s) = a.2 :: joinNext s := by
        cases s with
        | nil => rfl
        | cons b s => simp [joinNext, hb]
      have := joinNext_match f _ s (Nat.le_refl _) (fun p hp => hk p (by simp [hp]))
        (by cases s with
          | nil => trivial
          | cons b s => exact ha.2)
        (by
          intro p hp
          cases s with
          | nil => simp at hp
          | cons b s =>
            simp at hp; subst hp
            have := ha.1
            simpa [hb] using this)
      rw [e]
      obtain ⟨k1, k2⟩ := (hk a (by simp)).2 hb
      refine ⟨?_, fun p hp => (fin (this p hp)).2⟩
      intro p hp
      rcases List.mem_cons.1 hp with rfl | hp
      · exact ⟨k1, fun r hr => k2 r (List.mem_of_mem_tail hr)⟩
      · exact (fin (this p hp)).1

/-! ## The pre-tokenizer -/

theorem isPrefixOf_encodeRune {R : Rune} (hR : ValidRune R) {rs : List Rune} (hv : ∀ r ∈ rs, ValidRune r) :
    (encodeRune R).isPrefixOf (encodeRunes rs) = true ↔ rs.head? = some R := by
  rw [List.isPrefixOf_iff_prefix]
  cases rs with
  | nil =>
    simp [encodeRune_ne_nil]
  | cons r rs =>
    constructor
    · rintro ⟨t, ht⟩
      rw [encodeRunes_cons] at ht
      obtain ⟨rfl, -⟩ := encodeRune_inj_prefix hR (hv r (by simp)) ht
      rfl
    · intro h
      simp at h; subst h
      exact ⟨encodeRunes rs, by simp⟩

/-- What the split function of the meta-space pre-tokenizer does to any valid reachable
state. -/
theorem metaSpace_func {ns : NS} (hr : Reachable ns) {cs : List Ch} (h : Repr ns cs) {R : Rune}
    (hR : ValidRune R) (prefixSpace : Bool) (i : Nat) :
    ∃ ns' pieces ps, metaSpaceSplitFunc R prefixSpace i ns = .ok (ns', .ok (splitsFromNormalizedStrings pieces))
      ∧ CutBefore R (metaText R prefixSpace (cs.map (·.1))) ps
      ∧ (pieces.map NS.get).filter (fun s => decide (s ≠ [])) = ps.map encodeRunes := by
  have hvc : ∀ r ∈ cs.map (·.1), ValidRune r := by
    intro r hr
    obtain ⟨c, hc, rfl⟩ := List.mem_map.1 hr
    exact h.valid c hc
  have ht : ns.normalized = encodeRunes (cs.map (·.1)) := h.text_eq
  obtain ⟨root, hroot, hfrom⟩ := hr
  -- the prefix
  obtain ⟨n1, rs1, h1, f1, hlen1, ht1, hv1, hrs1⟩ : ∃ n1 rs1,
      (if prefixSpace = true ∧ (!(encodeRune R).isPrefixOf ns.get) = true then ns.prepend (encodeRune R)
        else pure ns) = .ok n1 ∧ RangeHistory (NS.fromString root) n1 ∧ n1.alignments.length = n1.normalized.length
      ∧ n1.normalized = encodeRunes rs1 ∧ (∀ r ∈ rs1, ValidRune r)
      ∧ rs1 = (if prefixSpace = true ∧ cs.map (·.1) ≠ [] ∧ (cs.map (·.1)).head? ≠ some R then [R] else [])
          ++ cs.map (·.1) := by
    by_cases hc : prefixSpace = true ∧ (!(encodeRune R).isPrefixOf ns.get) = true
    · rw [if_pos hc]
      have hc2 : (cs.map (·.1)).head? ≠ some R := by
        intro h'
        have := (isPrefixOf_encodeRune hR hvc).2 h'
        rw [← ht] at this
        have h2 := hc.2
        simp [NS.get, this] at h2
      cases cs with
      | nil =>
        have e := C08_prepend_empty (s := encodeRune R) (show ns.normalized = [] by rw [ht]; rfl)
        exact ⟨ns, [], e, hfrom, Reachable.wf ⟨root, hroot, hfrom⟩ |>.len, by rw [ht]; rfl, by simp, by simp⟩
      | cons c cs =>
        obtain ⟨n1, p1, p2, -⟩ := C08_prepend_partial h (encodeRune R) (encodeRune_ne_nil R)
        have er : runesOf (encodeRune R) = [R] := by
          have := runesOf_encodeRunes [R] (by simpa using hR)
          simpa using this
        rw [er] at p2
        have f1 : RangeHistory (NS.fromString root) n1 := hfrom.call (op := .prepend (encodeRune R)) p1
        refine ⟨n1, R :: (c :: cs).map (·.1), p1, f1, ?_, ?_, ?_, ?_⟩
        · exact (Reachable.wf ⟨root, hroot, f1⟩).len
        · rw [p2.text_eq]; rfl
        · intro r hr
          rcases List.mem_cons.1 hr with rfl | hr
          · exact hR
          · exact hvc r hr
        · rw [if_pos ⟨hc.1, by simp, hc2⟩]; rfl
    · rw [if_neg hc]
      refine ⟨ns, cs.map (·.1), rfl, hfrom, Reachable.wf ⟨root, hroot, hfrom⟩ |>.len, ht, hvc, ?_⟩
      rw [if_neg]
      · rfl
      · rintro ⟨k1, -, k2⟩
        apply hc
        refine ⟨k1, ?_⟩
        have : ¬ (encodeRune R).isPrefixOf (encodeRunes (cs.map (·.1))) = true := by
          intro h'; exact k2 ((isPrefixOf_encodeRune hR hvc).1 h')
        rw [← ht] at this
        simp only [NS.get]
        rw [Bool.not_eq_true] at this
        rw [this]; rfl
  -- the spaces
  obtain ⟨n2, h2, ht2⟩ := replace_func hlen1 hv1 ht1 (fun r => r == 32) [R]
  have erep : encodeRunes [R] = encodeRune R := by simp
  rw [erep] at h2
  have f2 : RangeHistory (NS.fromString root) n2 := f1.call (op := .replace (fromRune 32) (encodeRune R)) (by
    have h2' : n1.replace (fromRune 32) (encodeRune R) = .ok (.ok n2) := h2
    simp [Op.run, h2'])
  have hr2 : Reachable n2 := ⟨root, hroot, f2⟩
  have hmt : (rs1.flatMap fun r => if (r == 32) = true then [R] else [r])
      = metaText R prefixSpace (cs.map (·.1)) := by
    have hm : ∀ l : List Rune, (l.flatMap fun r => if (r == 32) = true then [R] else [r])
        = l.map fun r => if r = 32 then R else r := by
      intro l
      induction l with
      | nil => rfl
      | cons r l ih =>
        rw [List.flatMap_cons, ih, List.map_cons]
        by_cases h : r = 32 <;> simp [h]
    rw [hm, hrs1]
    unfold metaText
    rw [List.map_append]
    congr 1
    split
    · simp
    · rfl
  rw [hmt] at ht2
  have hv2 : ∀ r ∈ metaText R prefixSpace (cs.map (·.1)), ValidRune r := by
    intro r hr
    rw [← hmt] at hr
    obtain ⟨x, hx, hr⟩ := List.mem_flatMap.1 hr
    split at hr
    · simp at hr; subst hr; exact hR
    · simp at hr; subst hr; exact hv1 _ hx
  have hstep : metaSpaceSplitFunc R prefixSpace i ns
      = splitByPattern (fromRune R) .mergedWithNext 0 n2 := by
    simp only [metaSpaceSplitFunc]
    rw [ite_bind, h1, GoM.bind_ok]
    rw [show n1.replace (fromRune 32) (encodeRune R) = .ok (.ok n2) from h2]
    rfl
  generalize metaText R prefixSpace (cs.map (·.1)) = rs2 at ht2 hv2
  by_cases h0 : rs2 = []
  · subst h0
    obtain ⟨pieces, k1, k2, k3, -⟩ := C11_split_partial hr2 (pattern := fromRune R) (caps := emptyCaptures)
      (by rw [ht2]; rfl) (by rw [ht2]; simp [emptyCaptures, Tiles])
      (by
        intro c hc
        simp [emptyCaptures] at hc; subst hc
        have hb : IsBoundary n2.normalized 0 := ⟨[], n2.normalized, ⟨[], by simp, rfl⟩,
          by rw [ht2]; exact validUtf8_encodeRunes _, rfl, rfl⟩
        exact ⟨hb, hb, Or.inr (by simp [NS.originalLen])⟩) .mergedWithNext
    refine ⟨n2, pieces, [], ?_, ⟨rfl, by simp, by simp⟩, ?_⟩
    · rw [hstep, splitByPattern, k1]; rfl
    · rw [k2]
      simp [splitGroups, emptyCaptures, groupNext, span, sub]
  · obtain ⟨pieces, k1, k2⟩ := split_func hr2 hv2 ht2 h0 (fun r => r == R) .mergedWithNext
    have k3 := groupNext_capsOf _ (segs (fun r => r == R) rs2) (Nat.le_refl _) [] []
    simp only [List.nil_append, List.append_nil, segs_flatten, encodeRunes_nil, List.length_nil,
      Int.natCast_zero] at k3
    obtain ⟨j1, j2, j3⟩ := joinNext_segs (fun r => r == R) rs2
    refine ⟨n2, pieces, joinNext (segs (fun r => r == R) rs2), ?_, ⟨j1, ?_, ?_⟩, ?_⟩
    · rw [hstep, splitByPattern, show n2.split (fromRune R) .mergedWithNext = .ok (.ok pieces) from k1]; rfl
    · intro p hp
      refine ⟨(j2 p hp).1, fun hm => ?_⟩
      have := (j2 p hp).2 R hm
      simp at this
    · intro p hp
      obtain ⟨r, e, hr⟩ := j3 p hp
      rw [beq_iff_eq] at hr
      rw [e, hr]
    · rw [k2]
      show (List.map _ (groupNext _)).filter _ = _
      rw [k3]
      apply List.filter_eq_self.2
      intro s hs
      obtain ⟨p, hp, rfl⟩ := List.mem_map.1 hs
      simp only [ne_eq, decide_not, Bool.not_eq_true', decide_eq_false_iff_not]
      intro h'; exact (j2 p hp).1 (encodeRunes_eq_nil.1 h')

/-- **C32.** For every valid input and valid replacement rune, the meta-space pre-tokenizer
succeeds; the splits are the pieces of `metaText`, cut in front of every replacement rune:
they concatenate to it, and every split but possibly the first starts with the replacement
and contains it nowhere else. -/
theorem C32_metaSpace {R : Rune} (hR : ValidRune R) (prefixSpace : Bool) (rs : List Rune)
    (hv : ∀ r ∈ rs, ValidRune r) :
    ∃ pts ps, metaSpace R prefixSpace (PTS.fromString (encodeRunes rs)) = .ok (pts, none)
      ∧ CutBefore R (metaText R prefixSpace rs) ps
      ∧ pts.splits.map (fun sp => sp.ns.get) = ps.map encodeRunes
      ∧ ∀ sp ∈ pts.splits, sp.tokens = none := by
  have hval : ValidUtf8 (encodeRunes rs) := validUtf8_encodeRunes rs
  have hrepr := fromString_repr hval
  rw [runesOf_encodeRunes rs hv] at hrepr
  have hrs : (selfChars 0 rs).map (·.1) = rs := selfChars_map_fst 0 rs
  obtain ⟨ns', pieces, ps, h1, h2, h3⟩ := metaSpace_func (i := 0) (.of_ops (ops := []) hval rfl) hrepr hR prefixSpace
  have hj : ∀ j, metaSpaceSplitFunc R prefixSpace j (NS.fromString (encodeRunes rs))
      = .ok (ns', .ok (splitsFromNormalizedStrings pieces)) := fun j => h1
  rw [hrs] at h2
  have := split_pieces (encodeRunes rs) [⟨NS.fromString (encodeRunes rs), none⟩]
    (metaSpaceSplitFunc R prefixSpace) (fun _ => ns') (fun _ => splitsFromNormalizedStrings pieces) (by
      intro p hp
      simp at hp; subst hp
      exact ⟨rfl, hj⟩)
  refine ⟨_, ps, this, h2, ?_, ?_⟩
  · simp only [List.flatMap_cons, List.flatMap_nil, List.append_nil, splitsFromNormalizedStrings]
    rw [← h3, List.filter_map, List.filter_map, List.map_map]
    rfl
  · intro sp hsp
    simp only [List.flatMap_cons, List.flatMap_nil, List.append_nil, splitsFromNormalizedStrings] at hsp
    obtain ⟨x, -, rfl⟩ := List.mem_map.1 (List.mem_filter.1 hsp).1
    rfl

/-- Non-vacuity: a leading space keeps its own piece, as in the code (the prefix is added
although the text starts with a space). -/
example : (metaSpace u!"▁" true (PTS.fromString b!" Hey  é")).bind
    (fun r => .ok (r.1.splits.map fun sp => sp.ns.get)) = .ok [b!"▁", b!"▁Hey", b!"▁", b!"▁é"] := by
  decide +kernel

example : metaText u!"▁" true [0x20, u!"a", 0x20, u!"é"] = [u!"▁", u!"▁", u!"a", u!"▁", u!"é"]
    ∧ CutBefore u!"▁" [u!"▁", u!"▁", u!"a", u!"▁", u!"é"]
        [[u!"▁"], [u!"▁", u!"a"], [u!"▁", u!"é"]] :=
  ⟨by decide +kernel, by decide +kernel, by decide +kernel, by decide +kernel⟩

end Verif
