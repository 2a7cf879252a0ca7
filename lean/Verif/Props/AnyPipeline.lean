import Verif.Props.Offsets
import Verif.Props.Whole
import Verif.Props.WhiteSpace
import Verif.Model.Notation

/-! Any sequence of steps on a `PreTokenizedString`, up to the encoding (C109). -/

set_option autoImplicit false

namespace Verif

/-! ## Specification -/

/-- No rune is put in front of everything else: the first change replaces a rune, or something before it is kept. -/
def CalmChanges (dest : List RuneChange) (io : Int) : Prop := 1 ≤ io ∨ ∀ rc ∈ dest.head?, rc.change ≤ 0

/-- A call that puts no rune without a place of its own at the front. -/
def Op.Calm (ns : NS) : Op → Prop
  | .transform dest io => CalmChanges dest io
  | .prepend s => s ≠ []
  | .replace p _ => ∀ caps, p ns.normalized = .ok (.ok caps) →
      Tiles caps 0 ns.normalized.length ∧ ∀ c ∈ caps, c.isMatch = true → c.offsets.start < c.offsets.stop
  | _ => True

/-- Calls on one string that change it in place, direct ones of `TransformRange` among them; with `calm`, only calm ones. -/
inductive Calls (calm : Bool) : NS → NS → Prop
  | none {ns : NS} : Calls calm ns ns
  | call {ns₀ ns ns' : NS} {op : Op} : Calls calm ns₀ ns → (∀ r, op ≠ .slice r) → (calm = true → op.Calm ns) →
      op.run ns = .ok ns' → Calls calm ns₀ ns'
  | range {ns₀ ns ns' : NS} {r : Rng} {dest : List RuneChange} {io : Int} : Calls calm ns₀ ns → (calm = true → CalmChanges dest io) →
      StaysInside ns r dest io → ns.transformRange r dest io = .ok ns' → Calls calm ns₀ ns'

/-- What a function given to `Split` may do with a string: change it in place, then return it, or parts of it in their order that
`Split` with some pattern gives. -/
def FairSplit (calm : Bool) (ns ns' : NS) (items : List Piece) : Prop :=
  Calls calm ns ns' ∧ (items.map (·.ns) = [ns'] ∨ ∃ pattern b caps pieces, pattern ns'.normalized = .ok (.ok caps)
    ∧ Tiles caps 0 ns'.normalized.length ∧ ns'.split pattern b = .ok (.ok pieces) ∧ (items.map (·.ns)).Sublist pieces)

/-- The steps: `Split` and `Normalize` with functions that use the library, also when they stop with an error, and `Tokenize` with any
function. -/
inductive Steps (calm : Bool) (s : Str) : PTS → Prop
  | start : Steps calm s (PTS.fromString s)
  | split {p p' : PTS} {f : SplitFunc} {e : Option Err} : Steps calm s p →
      (∀ sp ∈ p.splits, sp.tokens = none → ∀ i ns', (∀ items, f i sp.ns = .ok (ns', .ok items) → FairSplit calm sp.ns ns' items)
        ∧ ∀ e, f i sp.ns = .ok (ns', .error e) → Calls calm sp.ns ns') →
      p.split f = .ok (p', e) → Steps calm s p'
  | normalize {p p' : PTS} {f : NormalizeFunc} {e : Option Err} : Steps calm s p →
      (∀ sp ∈ p.splits, sp.tokens = none → ∀ ns' e, f sp.ns = .ok (ns', e) → Calls calm sp.ns ns') → p.normalize f = .ok (p', e) → Steps calm s p'
  | tokenize {p p' : PTS} {f : NS → GoM (Except Err (List Token))} {e : Option Err} : Steps calm s p →
      p.tokenize f = .ok (p', e) → Steps calm s p'

/-- A regular expression engine that reports its matches from left to right. -/
def OrderedEngine (findAll2 : List Rune → Except Err (List (Nat × Nat))) : Prop :=
  ∀ rs ms, findAll2 rs = .ok ms → Ordered2 ms 0 rs.length

/-- The normalizers of the library, and sequences of them. -/
inductive LibNormalizer (u : Uni) : NormalizeFunc → Prop
  | lowerCase : LibNormalizer u (lowerCaseNormalize u)
  | strip (left right : Bool) : LibNormalizer u (stripNormalize left right)
  | bert (c : BertCfg) : LibNormalizer u (bertNormalize u c)
  | sequence {fs : List NormalizeFunc} : (∀ f ∈ fs, LibNormalizer u f) → LibNormalizer u (sequenceNormalize fs)

/-- The pre-tokenizers of the library, `Normalize` with one of its normalizers, and `Tokenize`. -/
inductive LibStep (u : Uni) : PreTokenizer → Prop
  | whiteSpaceSplit : LibStep u whiteSpaceSplit
  | bert : LibStep u (bertPreTokenize u)
  | runeDelimiter (d : Rune) : LibStep u (runeDelimiter d)
  | whiteSpace {e : List Rune → Except Err (List (Nat × Nat))} : OrderedEngine e → LibStep u (whiteSpacePreTokenize e)
  | metaSpace (r : Rune) (b : Bool) : LibStep u (metaSpace r b)
  | byteLevel {e : List Rune → Except Err (List (Nat × Nat))} (b : Bool) : OrderedEngine e → LibStep u (byteLevel e b)
  | normalize {f : NormalizeFunc} : LibNormalizer u f → LibStep u (fun p => p.normalize f)
  | tokenize (f : NS → GoM (Except Err (List Token))) : LibStep u (fun p => p.tokenize f)

/-- What a run of such steps can reach; a step that ends in an error may be followed by others. -/
inductive LibRun (u : Uni) (s : Str) : PTS → Prop
  | start : LibRun u s (PTS.fromString s)
  | step {p p' : PTS} {f : PreTokenizer} {e : Option Err} : LibRun u s p → LibStep u f → f p = .ok (p', e) → LibRun u s p'

/-- The ends of the split in the input. -/
def NS.endPos (ns : NS) : Int := ns.originalShift + ns.original.length

/-- `y` and everything in it starts no earlier than anything in `x`; with `ends`, the same for the ends. -/
def SplitOrder (ends : Bool) (x y : NS) : Prop :=
  x.originalShift ≤ y.originalShift ∧ (∀ a ∈ x.alignments, x.originalShift + a.start ≤ y.originalShift)
    ∧ (ends = true → x.endPos ≤ y.endPos ∧ ∀ b ∈ y.alignments, x.endPos ≤ y.originalShift + b.stop)

/-! ## Where alignments come from -/

/-- The same part of the input, and no alignment that was not there (but for the empty one at the front, unless `calm`). -/
def Sourced (calm : Bool) (ns ns' : NS) : Prop :=
  ns'.original = ns.original ∧ ns'.originalShift = ns.originalShift
    ∧ ∀ a ∈ ns'.alignments, a ∈ ns.alignments ∨ (calm = false ∧ a = ⟨0, 0⟩)

theorem Sourced.refl (calm : Bool) (ns : NS) : Sourced calm ns ns := ⟨rfl, rfl, fun _ h => .inl h⟩

theorem Sourced.trans {calm : Bool} {a b c : NS} (h : Sourced calm a b) (h' : Sourced calm b c) : Sourced calm a c := by
  refine ⟨h'.1.trans h.1, h'.2.1.trans h.2.1, ?_⟩
  intro x hx
  rcases h'.2.2 x hx with hx | hx
  · exact h.2.2 x hx
  · exact .inr hx

theorem pickAt_cases {als : List Align} {k : Int} (h : k < (als.length : Int)) : pickAt als k ∈ als ∨ (k < 0 ∧ pickAt als k = ⟨0, 0⟩) := by
  by_cases h0 : k < 0
  · exact .inr ⟨h0, by simp [pickAt, h0]⟩
  · left; rw [pickAt_mem (by omega) h]; exact List.getElem_mem _

/-- A rune that replaces one takes an alignment that is there. -/
theorem transformStep_replace {als : List Align} {st st' : TState} {rc : RuneChange} (h : transformStep als st rc = .ok st')
    (hc : rc.change ≤ 0) : ∃ x ∈ als, ∃ n, st'.aligns = st.aligns ++ List.replicate n x := by
  unfold transformStep at h
  have h3 : ¬ (1 ≤ rc.change) := by omega
  simp only [ge_iff_le, h3, if_false, hc, if_true] at h
  rw [GoM.bind_eq_ok] at h
  obtain ⟨x, hx, h⟩ := h
  refine ⟨x, List.mem_of_getElem? (goIndex_eq_ok.1 hx).2, (encodeRune rc.rune).length, ?_⟩
  simp only [GoM.bind_eq_ok] at h
  obtain ⟨r, -, p, -, h⟩ := h
  split at h
  · simp only [GoM.bind_eq_ok, GoM.pure_eq, GoM.ok.injEq] at h
    obtain ⟨_, -, _, -, _, -, h⟩ := h
    rw [← h]
  · simp only [GoM.bind_eq_ok, GoM.pure_eq, GoM.ok.injEq] at h
    obtain ⟨_, -, h⟩ := h
    rw [← h]

theorem transformLoop_mem {als : List Align} (calm : Bool) : ∀ (dest : List RuneChange) {st st' : TState},
    goFor dest st (transformStep als) = .ok st' → 0 ≤ st.offset → (calm = true → CalmChanges dest st.offset) →
    (∀ a ∈ st.aligns, a ∈ als ∨ (calm = false ∧ a = ⟨0, 0⟩)) → ∀ a ∈ st'.aligns, a ∈ als ∨ (calm = false ∧ a = ⟨0, 0⟩) := by
  intro dest
  induction dest with
  | nil => intro st st' h _ _ hm; simp at h; subst h; exact hm
  | cons rc dest ih =>
    intro st st' h h0 hc hm
    rw [goFor_cons, GoM.bind_eq_ok] at h
    obtain ⟨s1, h1, h2⟩ := h
    obtain ⟨k, k1, k2, k3, k4, e0, -, e1, e2⟩ := transformStep_ok h1 h0
    by_cases hch : rc.change ≤ 0
    · -- the offset moves over the replaced rune
      have hcons : 1 ≤ consumed [rc] := by simp only [consumed]; split <;> omega
      have hpos : 1 ≤ (encodeRunes (st.repl.take (consumed [rc]))).length := by
        cases hr : st.repl with
        | nil => rw [hr] at k4; simp at k4; omega
        | cons r rs =>
          obtain ⟨n, hn⟩ : ∃ n, consumed [rc] = n + 1 := ⟨consumed [rc] - 1, by omega⟩
          rw [hn, List.take_succ_cons, encodeRunes_cons, List.length_append]
          have := encodeRune_length_pos r
          omega
      obtain ⟨x, hx, n, e⟩ := transformStep_replace h1 hch
      refine ih h2 (by omega) (fun _ => .inl (by omega)) ?_
      intro a ha
      rw [e, List.mem_append] at ha
      rcases ha with ha | ha
      · exact hm a ha
      · rw [(List.mem_replicate.1 ha).2]; exact .inl hx
    · have h0' : calm = true → 1 ≤ st.offset := fun hcalm => (hc hcalm).resolve_right fun h => hch (h rc (by simp))
      refine ih h2 (by omega) (fun hcalm => .inl (by have := h0' hcalm; omega)) ?_
      intro a ha
      rw [e1, List.mem_append] at ha
      rcases ha with ha | ha
      · exact hm a ha
      · rw [(List.mem_replicate.1 ha).2]
        rcases pickAt_cases k2 with h | ⟨h, h'⟩
        · exact .inl h
        · right
          cases calm with
          | false => exact ⟨rfl, h'⟩
          | true => have := h0' rfl; omega

theorem transformRange_sourced {calm : Bool} {ns ns' : NS} {r : Rng} {dest : List RuneChange} {io : Int}
    (hc : calm = true → CalmChanges dest io) (h : ns.transformRange r dest io = .ok ns') : Sourced calm ns ns' := by
  obtain ⟨k1, k2⟩ := transformRange_keeps h
  refine ⟨k1, k2, ?_⟩
  unfold NS.transformRange at h
  split at h
  · simp at h; subst h; exact fun _ h => .inl h
  · rename_i a b hab
    obtain ⟨nPre, nInit, nTail, nPost, -, -, -, -, p1, p2, -, -⟩ := transformNormalized_ok h
    unfold NS.transformNormalized at h
    simp only [GoM.bind_eq_ok] at h
    obtain ⟨replaced, -, initial, e2, tail, -, st, e4, alPre, e5, alPost, e6, sPre, -, sPost, -, e9⟩ := h
    simp only [GoM.pure_eq, GoM.ok.injEq] at e9
    have hi : (initial.length : Int) = io := by
      have := goSlice_length e2
      omega
    have hmem := transformLoop_mem calm dest e4 (by simp only; omega)
      (fun h => by
        rcases hc h with h | h
        · left; simp only; omega
        · exact .inr h) (by simp)
    subst e9
    intro x hx
    simp only [List.mem_append] at hx
    have hs : ∀ {l : List Align} {i j : Int}, goSlice ns.alignments i j = .ok l → x ∈ l → x ∈ ns.alignments := by
      intro l i j h hx
      rw [(goSlice_eq_ok.1 h).2] at hx
      exact List.mem_of_mem_drop (List.mem_of_mem_take hx)
    rcases hx with (hx | hx) | hx
    · exact .inl (hs e5 hx)
    · exact hmem x hx
    · exact .inl (hs e6 hx)

theorem filterFold_calm (keep : Rune → Bool) : ∀ (rs : List Rune) (st : FilterState), (∀ rc ∈ st.transforms, rc.change ≤ 0) →
    ∀ rc ∈ (rs.foldl (filterStep keep) st).transforms, rc.change ≤ 0 := by
  intro rs
  induction rs with
  | nil => intro st h; exact h
  | cons r rs ih =>
    intro st h
    rw [List.foldl_cons]
    apply ih
    unfold filterStep
    split
    · exact h
    · split
      · intro rc hrc
        rcases List.mem_append.1 hrc with hrc | hrc
        · exact h rc hrc
        · simp only [List.mem_singleton] at hrc; subst hrc; simp
      · exact h

theorem filterChanges_calm (keep : Rune → Bool) (rs : List Rune) : ∀ rc ∈ (NS.filterChanges keep rs).1, rc.change ≤ 0 := by
  have h := filterFold_calm keep rs ⟨0, 0, [], none⟩ (by simp)
  simp only [NS.filterChanges]
  generalize rs.foldl (filterStep keep) ⟨0, 0, [], none⟩ = st at *
  cases st.lastRune with
  | some lr =>
    intro rc hrc
    rcases List.mem_append.1 hrc with hrc | hrc
    · exact h rc hrc
    · simp only [List.mem_singleton] at hrc; subst hrc; simp
  | none => exact h

theorem trimChanges_calm (rs : List Rune) (l t : Nat) : ∀ rc ∈ NS.trimChanges rs l t, rc.change ≤ 0 := by
  intro rc hrc
  unfold NS.trimChanges at hrc
  obtain ⟨i, hi, rfl⟩ := List.mem_mapIdx.1 hrc
  simp only
  split <;> omega

theorem CalmChanges.of_all {dest : List RuneChange} {io : Int} (h : ∀ rc ∈ dest, rc.change ≤ 0) : CalmChanges dest io :=
  .inr fun rc hrc => h rc (List.mem_of_mem_head? hrc)

theorem prependChanges_calm {s : Str} (hs : s ≠ []) (c : RuneChange) : CalmChanges (NS.prependChanges s ++ [c]) 0 := by
  right
  obtain ⟨r, rs, -, e⟩ := prependChanges_eq s hs
  intro rc hrc
  rw [e] at hrc
  simp only [List.cons_append, List.head?_cons, Option.mem_def, Option.some.injEq] at hrc
  subst hrc; simp

theorem replaceFold_sourced {content : Str} : ∀ (caps : List Capture) {i n : Int} {st st' : NS × Int}, Tiles caps i n →
    (∀ c ∈ caps, c.isMatch = true → c.offsets.start < c.offsets.stop) → 0 ≤ i + st.2 →
    goFor caps st (NS.replaceStep content) = .ok st' → Sourced true st.1 st'.1 := by
  intro caps
  induction caps with
  | nil => intro i n st st' _ _ _ h; simp at h; subst h; exact .refl _ _
  | cons c caps ih =>
    intro i n st st' ht hm h0 h
    obtain ⟨rfl, h2, h3⟩ := ht
    rw [goFor_cons, GoM.bind_eq_ok] at h
    obtain ⟨s1, e1, e2⟩ := h
    unfold NS.replaceStep at e1
    split at e1
    · simp only [GoM.ok.injEq] at e1; subst e1
      exact ih h3 (fun c h => hm c (by simp [h])) (by omega) e2
    · rename_i hmc
      have hlt := hm c (by simp) (by simpa using hmc)
      simp only [GoM.bind_eq_ok, GoM.pure_eq, GoM.ok.injEq] at e1
      obtain ⟨seg, g1, ns1, g2, rfl⟩ := e1
      rw [if_neg (by omega), if_neg (by omega)] at g1 g2
      have hl := goSlice_length g1
      have hr : 1 ≤ (runesOf seg).length := by
        cases seg with
        | nil => simp at hl; omega
        | cons b bs => exact runesOf_length_pos (by simp)
      have hs := transformRange_sourced (calm := true) (fun _ => .inl (by omega)) g2
      exact hs.trans (ih h3 (fun c h => hm c (by simp [h])) (by simp only; omega) e2)

theorem Op.run_sourced {calm : Bool} {ns ns' : NS} {op : Op} (hs : ∀ r, op ≠ .slice r) (hc : calm = true → op.Calm ns)
    (h : op.run ns = .ok ns') : Sourced calm ns ns' := by
  cases op with
  | transform dest io =>
    simp only [Op.run, NS.transform] at h
    exact transformRange_sourced hc h
  | filter keep =>
    simp only [Op.run, NS.filter, NS.transform] at h
    exact transformRange_sourced (fun _ => .of_all (filterChanges_calm keep _)) h
  | map f =>
    simp only [Op.run, NS.map, NS.transform] at h
    refine transformRange_sourced (fun _ => .of_all ?_) h
    intro rc hrc
    obtain ⟨r, -, rfl⟩ := List.mem_map.1 hrc
    exact Int.le_refl 0
  | trim l r =>
    simp only [Op.run, NS.trimLeftRight] at h
    generalize (if l = true then countLeadingSpaces (runesOf ns.normalized) else 0) = lead at h
    generalize (if r = true ∧ lead < (runesOf ns.normalized).length then
      countTrailingSpaces (runesOf ns.normalized) else 0) = trail at h
    split at h
    · simp at h; subst h; exact .refl _ _
    · exact transformRange_sourced (fun _ => .of_all (trimChanges_calm _ _ _)) h
  | prepend s =>
    simp only [Op.run, NS.prepend] at h
    split at h
    · simp at h; subst h; exact .refl _ _
    · simp only [GoM.bind_eq_ok] at h
      obtain ⟨r, -, h⟩ := h
      exact transformRange_sourced (fun hcalm => prependChanges_calm (hc hcalm) _) h
  | append s =>
    simp only [Op.run, NS.append] at h
    split at h
    · simp at h; subst h; exact .refl _ _
    · simp only [GoM.bind_eq_ok] at h
      obtain ⟨r, -, h⟩ := h
      refine transformRange_sourced (fun _ => .inr ?_) h
      intro rc hrc
      simp only [List.head?_cons, Option.mem_def, Option.some.injEq] at hrc
      subst hrc; simp
  | replace p content =>
    simp only [Op.run, GoM.bind_eq_ok] at h
    obtain ⟨r, h1, h⟩ := h
    cases r with
    | error e => simp at h; subst h; exact .refl _ _
    | ok n =>
      simp at h; subst h
      simp only [NS.replace, GoM.bind_eq_ok] at h1
      obtain ⟨x, hx, h1⟩ := h1
      cases x with
      | error e => simp at h1
      | ok caps =>
        simp only [GoM.bind_eq_ok, GoM.pure_eq, GoM.ok.injEq, Except.ok.injEq] at h1
        obtain ⟨st, h1, rfl⟩ := h1
        cases calm with
        | true =>
          obtain ⟨ht, hm⟩ := hc rfl caps hx
          exact replaceFold_sourced caps ht hm (by simp) h1
        | false =>
          refine goFor_inv (P := fun st : NS × Int => Sourced false ns st.1) caps _ _ _ (.refl _ _) ?_ h1
          intro st c st' _ hst hstep
          unfold NS.replaceStep at hstep
          split at hstep
          · simp only [GoM.ok.injEq] at hstep; subst hstep; exact hst
          · simp only [GoM.bind_eq_ok, GoM.pure_eq, GoM.ok.injEq] at hstep
            obtain ⟨seg, -, ns1, g2, rfl⟩ := hstep
            exact hst.trans (transformRange_sourced (by simp) g2)
  | slice r => exact absurd rfl (hs r)

theorem Calls.sourced {calm : Bool} {ns ns' : NS} (h : Calls calm ns ns') : Sourced calm ns ns' := by
  induction h with
  | none => exact .refl _ _
  | call _ hs hc hr ih => exact ih.trans (Op.run_sourced hs hc hr)
  | range _ hc _ hr ih => exact ih.trans (transformRange_sourced hc hr)

theorem Calls.history {calm : Bool} {s : Str} {ns ns' : NS} (h : Calls calm ns ns') (h0 : RangeHistory (NS.fromString s) ns) :
    RangeHistory (NS.fromString s) ns' := by
  induction h with
  | none => exact h0
  | call _ _ _ hr ih => exact .call ih hr
  | range _ _ hin hr ih => exact .range ih hin hr

/-! ## Splits that come from a split -/

/-- What is known of a string got from another by calls in place and slicing. -/
def Below (calm : Bool) (z x : NS) : Prop :=
  (z.originalShift = x.originalShift ∨ ∃ a ∈ x.alignments, z.originalShift = x.originalShift + a.start)
  ∧ (z.endPos = x.endPos ∨ ∃ a ∈ x.alignments, z.endPos = x.originalShift + a.stop)
  ∧ ∀ a ∈ z.alignments, (∃ a' ∈ x.alignments, z.originalShift + a.start = x.originalShift + a'.start
      ∧ z.originalShift + a.stop = x.originalShift + a'.stop) ∨ (calm = false ∧ a = ⟨0, 0⟩ ∧ z.originalShift = x.originalShift)

theorem Below.of_sourced {calm : Bool} {x z : NS} (h : Sourced calm x z) : Below calm z x := by
  obtain ⟨h1, h2, h3⟩ := h
  refine ⟨.inl h2, .inl (by simp [NS.endPos, h1, h2]), ?_⟩
  intro a ha
  rcases h3 a ha with h | ⟨h, rfl⟩
  · exact .inl ⟨a, h, by rw [h2], by rw [h2]⟩
  · exact .inr ⟨h, rfl, h2⟩

theorem Below.left {calm : Bool} {x y z : NS} (hx : WF x) (hz : Below calm z x) (h : SplitOrder calm x y) : SplitOrder calm z y := by
  obtain ⟨z1, z2, z3⟩ := hz
  obtain ⟨h1, h2, h3⟩ := h
  refine ⟨?_, ?_, ?_⟩
  · rcases z1 with e | ⟨a, ha, e⟩
    · omega
    · have := h2 a ha; omega
  · intro a ha
    rcases z3 a ha with ⟨a', ha', e, -⟩ | ⟨-, rfl, e⟩
    · have := h2 a' ha'; omega
    · simp only; omega
  · intro hc
    obtain ⟨h3, h4⟩ := h3 hc
    have he : z.endPos ≤ x.endPos := by
      rcases z2 with e | ⟨a, ha, e⟩
      · omega
      · have := (hx.bounds a ha).2.2
        simp only [NS.endPos] at e ⊢; omega
    exact ⟨by omega, fun b hb => by have := h4 b hb; omega⟩

theorem Below.right {calm : Bool} {x y z : NS} (hx : WF x) (hz : Below calm z x) (h : SplitOrder calm y x) : SplitOrder calm y z := by
  obtain ⟨z1, z2, z3⟩ := hz
  obtain ⟨h1, h2, h3⟩ := h
  have hs : x.originalShift ≤ z.originalShift := by
    rcases z1 with e | ⟨a, ha, e⟩
    · omega
    · have := (hx.bounds a ha).1; omega
  refine ⟨by omega, fun a ha => by have := h2 a ha; omega, ?_⟩
  intro hc
  obtain ⟨h3, h4⟩ := h3 hc
  refine ⟨?_, ?_⟩
  · rcases z2 with e | ⟨a, ha, e⟩
    · omega
    · have := h4 a ha; omega
  · intro b hb
    rcases z3 b hb with ⟨a', ha', -, e⟩ | ⟨h, -⟩
    · have := h4 a' ha'; omega
    · rw [hc] at h; cases h

theorem isSlice_below {calm : Bool} {x z : NS} {r : Int × Int} (hx : WF x) (h : IsSlice x r z) : Below calm z x := by
  obtain ⟨hlt, hs⟩ := h
  obtain ⟨hv, -⟩ := slice_ok hs
  simp only [NS.rangeIsValid, Rng.start, Rng.stop, Bool.and_eq_true] at hv
  obtain ⟨f, l, e1, e2, b1, b2, b3, -, e4⟩ := slice_normalized hx hv.1 hv.2 hlt
  rw [hs] at e4
  simp only [GoM.ok.injEq, Option.some.injEq] at e4
  subst e4
  refine ⟨.inr ⟨f, List.mem_of_getElem? e1, rfl⟩, .inr ⟨l, List.mem_of_getElem? e2, ?_⟩, ?_⟩
  · simp only [NS.endPos, List.length_take, List.length_drop]; omega
  · intro a ha
    obtain ⟨a', ha', rfl⟩ := List.mem_map.1 ha
    refine .inl ⟨a', List.mem_of_mem_drop (List.mem_of_mem_take ha'), ?_, ?_⟩ <;> (simp only; omega)

theorem isSlice_order {calm : Bool} {x y z : NS} {r q : Int × Int} (hx : WF x) (h : IsSlice x r y) (h' : IsSlice x q z)
    (hrq : r.2 ≤ q.1) : SplitOrder calm y z := by
  obtain ⟨hlt, hs⟩ := h
  obtain ⟨hlt', hs'⟩ := h'
  obtain ⟨hv, -⟩ := slice_ok hs
  obtain ⟨hv', -⟩ := slice_ok hs'
  simp only [NS.rangeIsValid, Rng.start, Rng.stop, Bool.and_eq_true] at hv hv'
  have a0 := isRuneBoundary_bounds hv.1
  obtain ⟨f, l, e1, e2, b1, b2, b3, -, e4⟩ := slice_normalized hx hv.1 hv.2 hlt
  obtain ⟨f', l', e1', e2', b1', b2', b3', -, e4'⟩ := slice_normalized hx hv'.1 hv'.2 hlt'
  rw [hs] at e4; rw [hs'] at e4'
  simp only [GoM.ok.injEq, Option.some.injEq] at e4 e4'
  subst e4; subst e4'
  -- alignments further to the right start and end further to the right
  have key : ∀ {i j : Nat} {a b : Align}, i ≤ j → x.alignments[i]? = some a → x.alignments[j]? = some b →
      a.start ≤ b.start ∧ a.stop ≤ b.stop := by
    intro i j a b hij ha hb
    obtain ⟨k1, k2⟩ := List.getElem?_eq_some_iff.1 ha
    obtain ⟨k3, k4⟩ := List.getElem?_eq_some_iff.1 hb
    have r1 : AlignLE a b := by rw [← k2, ← k4]; exact hx.getElem_le hij k3
    exact ⟨r1.start_le (hx.bounds a (List.mem_of_getElem? ha)).2.1, r1.stop_le (hx.bounds b (List.mem_of_getElem? hb)).2.1⟩
  have hpart : ∀ {a b : Int} {al : Align}, al ∈ (x.alignments.drop a.toNat).take (b - a).toNat →
      ∃ i : Nat, a.toNat ≤ i ∧ i < a.toNat + (b - a).toNat ∧ x.alignments[i]? = some al := by
    intro a b al h
    obtain ⟨i, hi⟩ := List.mem_iff_getElem?.1 h
    rw [List.getElem?_take] at hi
    split at hi
    · rw [List.getElem?_drop] at hi
      exact ⟨a.toNat + i, by omega, by omega, hi⟩
    · cases hi
  refine ⟨?_, ?_, fun _ => ⟨?_, ?_⟩⟩
  · have := (key (by omega) e1 e1').1
    simp only; omega
  · intro a ha
    obtain ⟨a', ha', rfl⟩ := List.mem_map.1 ha
    obtain ⟨i, i1, i2, i3⟩ := hpart ha'
    have := (key (by omega) i3 e1').1
    simp only; omega
  · have := (key (by omega) e2 e2').2
    simp only [NS.endPos, List.length_take, List.length_drop]; omega
  · intro a ha
    obtain ⟨a', ha', rfl⟩ := List.mem_map.1 ha
    obtain ⟨i, i1, i2, i3⟩ := hpart ha'
    have := (key (by omega) e2 i3).2
    simp only [NS.endPos, List.length_take, List.length_drop]; omega

/-! ## Lists of splits -/

/-- `z` may stand where `x` stood. -/
def Replaces (calm : Bool) (z x : NS) : Prop :=
  ∀ y, (SplitOrder calm x y → SplitOrder calm z y) ∧ (SplitOrder calm y x → SplitOrder calm y z)

theorem Below.replaces {calm : Bool} {x z : NS} (hx : WF x) (h : Below calm z x) : Replaces calm z x :=
  fun _ => ⟨h.left hx, h.right hx⟩

theorem Replaces.trans {calm : Bool} {x y z : NS} (h : Replaces calm z y) (h' : Replaces calm y x) : Replaces calm z x :=
  fun w => ⟨fun hw => (h w).1 ((h' w).1 hw), fun hw => (h w).2 ((h' w).2 hw)⟩

theorem Replaces.refl (calm : Bool) (x : NS) : Replaces calm x x := fun _ => ⟨id, id⟩

/-- Each string replaced by strings in order that may stand in its place. -/
inductive Refines (calm : Bool) : List NS → List NS → Prop
  | nil : Refines calm [] []
  | cons {x : NS} {xs zs ws : List NS} : (∀ z ∈ zs, Replaces calm z x) → zs.Pairwise (SplitOrder calm) → Refines calm xs ws →
      Refines calm (x :: xs) (zs ++ ws)

theorem Refines.refl (calm : Bool) : ∀ xs : List NS, Refines calm xs xs
  | [] => .nil
  | x :: xs => .cons (zs := [x]) (by simp [Replaces.refl]) (by simp) (.refl calm xs)

theorem Refines.one {calm : Bool} {x z : NS} {xs ws : List NS} (h : Replaces calm z x) (h' : Refines calm xs ws) :
    Refines calm (x :: xs) (z :: ws) := .cons (zs := [z]) (by simpa using h) (by simp) h'

theorem Refines.mem {calm : Bool} {xs ws : List NS} (h : Refines calm xs ws) : ∀ w ∈ ws, ∃ x ∈ xs, Replaces calm w x := by
  induction h with
  | nil => simp
  | cons h1 _ _ ih =>
    intro w hw
    rcases List.mem_append.1 hw with hw | hw
    · exact ⟨_, by simp, h1 w hw⟩
    · obtain ⟨x, hx, h⟩ := ih w hw
      exact ⟨x, by simp [hx], h⟩

theorem Refines.pairwise {calm : Bool} {xs ws : List NS} (h : Refines calm xs ws) (hp : xs.Pairwise (SplitOrder calm)) :
    ws.Pairwise (SplitOrder calm) := by
  induction h with
  | nil => exact .nil
  | cons h1 h2 h3 ih =>
    rw [List.pairwise_cons] at hp
    rw [List.pairwise_append]
    refine ⟨h2, ih hp.2, ?_⟩
    intro z hz w hw
    obtain ⟨y, hy, h⟩ := h3.mem w hw
    exact (h z).2 ((h1 z hz y).1 (hp.1 y hy))

/-! ## The steps -/

/-- What holds of the splits at every step. -/
def OrderKept (calm : Bool) (s : Str) (nss : List NS) : Prop :=
  (∀ ns ∈ nss, RangeHistory (NS.fromString s) ns) ∧ nss.Pairwise (SplitOrder calm)

theorem fairSplit_blocks {calm : Bool} {s : Str} (hs : ValidUtf8 s) {ns ns' : NS} {items : List Piece}
    (h0 : RangeHistory (NS.fromString s) ns) (h : FairSplit calm ns ns' items) :
    (∀ z ∈ (items.filter fun it => !it.ns.isEmpty).map (·.ns), Replaces calm z ns ∧ RangeHistory (NS.fromString s) z)
    ∧ ((items.filter fun it => !it.ns.isEmpty).map (·.ns)).Pairwise (SplitOrder calm) := by
  obtain ⟨hc, h⟩ := h
  have hh := hc.history h0
  have hw : WF ns := Reachable.wf ⟨s, hs, h0⟩
  have hw' : WF ns' := Reachable.wf ⟨s, hs, hh⟩
  have hr := (Below.of_sourced hc.sourced).replaces hw
  rcases h with h | ⟨pattern, b, caps, pieces, p1, p2, p3, p4⟩
  · have hsub : ((items.filter fun it => !it.ns.isEmpty).map (·.ns)).Sublist [ns'] := by
      rw [← h]; exact List.filter_sublist.map _
    refine ⟨fun z hz => ?_, List.Pairwise.sublist hsub (by simp)⟩
    have := hsub.subset hz
    simp only [List.mem_singleton] at this
    subst this
    exact ⟨hr, hh⟩
  · obtain ⟨rs, r1, r2, r3⟩ := split_ranges p1 p2 p3
    have hsub : ((items.filter fun it => !it.ns.isEmpty).map (·.ns)).Sublist (pieces.filter fun p => !p.isEmpty) := by
      have := p4.filter (fun p : NS => !p.isEmpty)
      rwa [List.filter_map] at this
    refine ⟨fun z hz => ?_, List.Pairwise.sublist hsub ?_⟩
    · obtain ⟨r, -, hz⟩ := r1.exists_left (hsub.subset hz)
      refine ⟨((isSlice_below hw' hz).replaces hw').trans hr, ?_⟩
      exact .call (op := .slice (.normalized r.1 r.2)) hh (by simp only [Op.run, hz.2]; rfl)
    · clear hsub
      generalize (pieces.filter fun p => !p.isEmpty) = qs at r1
      clear r3
      induction r1 with
      | nil => exact .nil
      | @cons r q rs qs hq hqs ih =>
        rw [List.pairwise_cons] at r2 ⊢
        refine ⟨?_, ih r2.2⟩
        intro z hz
        obtain ⟨r', hr', hz⟩ := hqs.exists_left hz
        exact isSlice_order hw' hq hz (r2.1 r' hr')

theorem splitLoop_kept {calm : Bool} {s : Str} (hs : ValidUtf8 s) {f : SplitFunc} : ∀ (ps : List Piece) (i : Nat) {old : List Piece}
    {new : Except Err (List Piece)}, (∀ sp ∈ ps, RangeHistory (NS.fromString s) sp.ns) →
    (∀ sp ∈ ps, sp.tokens = none → ∀ i ns', (∀ items, f i sp.ns = .ok (ns', .ok items) → FairSplit calm sp.ns ns' items)
        ∧ ∀ e, f i sp.ns = .ok (ns', .error e) → Calls calm sp.ns ns') →
    PTS.splitLoop f i ps = .ok (old, new) →
    (Refines calm (ps.map (·.ns)) (old.map (·.ns)) ∧ ∀ sp ∈ old, RangeHistory (NS.fromString s) sp.ns)
    ∧ ∀ l, new = .ok l → Refines calm (ps.map (·.ns)) (l.map (·.ns)) ∧ ∀ sp ∈ l, RangeHistory (NS.fromString s) sp.ns := by
  intro ps
  induction ps with
  | nil =>
    intro i old new _ _ h
    simp only [PTS.splitLoop, GoM.ok.injEq, Prod.mk.injEq] at h
    obtain ⟨rfl, rfl⟩ := h
    refine ⟨⟨.nil, by simp⟩, ?_⟩
    intro l hl; cases hl; exact ⟨.nil, by simp⟩
  | cons p ps ih =>
    intro i old new h0 hf h
    have h0' : ∀ sp ∈ ps, RangeHistory (NS.fromString s) sp.ns := fun sp hsp => h0 sp (by simp [hsp])
    have hf' := fun sp (hsp : sp ∈ ps) => hf sp (by simp [hsp])
    unfold PTS.splitLoop at h
    cases ht : p.tokens with
    | some ts =>
      simp only [ht, GoM.bind_eq_ok] at h
      obtain ⟨⟨old', new'⟩, e1, e2⟩ := h
      obtain ⟨⟨i1, i2⟩, i3⟩ := ih (i + 1) h0' hf' e1
      have hone : ∀ {l : List Piece}, Refines calm (ps.map (·.ns)) (l.map (·.ns)) ∧ (∀ sp ∈ l, RangeHistory (NS.fromString s) sp.ns) →
          Refines calm ((p :: ps).map (·.ns)) ((p :: l).map (·.ns)) ∧ ∀ sp ∈ p :: l, RangeHistory (NS.fromString s) sp.ns := by
        intro l hl
        refine ⟨.one (.refl _ _) hl.1, ?_⟩
        intro sp hsp
        rcases List.mem_cons.1 hsp with rfl | hsp
        · exact h0 _ (by simp)
        · exact hl.2 sp hsp
      cases new' with
      | error e =>
        simp at e2; obtain ⟨rfl, rfl⟩ := e2
        exact ⟨hone ⟨i1, i2⟩, fun l hl => by cases hl⟩
      | ok l' =>
        simp at e2; obtain ⟨rfl, rfl⟩ := e2
        refine ⟨hone ⟨i1, i2⟩, fun l hl => ?_⟩
        cases hl
        exact hone (i3 l' rfl)
    | none =>
      simp only [ht, GoM.bind_eq_ok] at h
      obtain ⟨⟨ns', r⟩, e1, e2⟩ := h
      have hp := h0 p (by simp)
      have hw : WF p.ns := Reachable.wf ⟨s, hs, hp⟩
      have hone : ∀ {l : List Piece}, Calls calm p.ns ns' →
          Refines calm (ps.map (·.ns)) (l.map (·.ns)) ∧ (∀ sp ∈ l, RangeHistory (NS.fromString s) sp.ns) →
          Refines calm ((p :: ps).map (·.ns)) (((Piece.mk ns' p.tokens) :: l).map (·.ns))
            ∧ ∀ sp ∈ (Piece.mk ns' p.tokens) :: l, RangeHistory (NS.fromString s) sp.ns := by
        intro l hc hl
        refine ⟨.one ((Below.of_sourced hc.sourced).replaces hw) hl.1, ?_⟩
        intro sp hsp
        rcases List.mem_cons.1 hsp with rfl | hsp
        · exact hc.history hp
        · exact hl.2 sp hsp
      rw [ht] at hone
      obtain ⟨g1, g2⟩ := hf p (by simp) ht i ns'
      cases r with
      | error e =>
        simp at e2; obtain ⟨rfl, rfl⟩ := e2
        exact ⟨hone (g2 e e1) ⟨.refl _ _, h0'⟩, fun l hl => by cases hl⟩
      | ok items =>
        have hfair := g1 items e1
        simp only [GoM.bind_eq_ok] at e2
        obtain ⟨⟨old', new'⟩, e3, e4⟩ := e2
        obtain ⟨⟨i1, i2⟩, i3⟩ := ih (i + 1) h0' hf' e3
        cases new' with
        | error e =>
          simp at e4; obtain ⟨rfl, rfl⟩ := e4
          exact ⟨hone hfair.1 ⟨i1, i2⟩, fun l hl => by cases hl⟩
        | ok l' =>
          simp only [GoM.pure_eq, GoM.ok.injEq, Prod.mk.injEq] at e4; obtain ⟨rfl, rfl⟩ := e4
          refine ⟨hone hfair.1 ⟨i1, i2⟩, fun l hl => ?_⟩
          cases hl
          obtain ⟨j1, j2⟩ := i3 l' rfl
          obtain ⟨b1, b2⟩ := fairSplit_blocks hs hp hfair
          refine ⟨?_, ?_⟩
          · rw [List.map_append]
            exact .cons (fun z hz => (b1 z hz).1) b2 j1
          · intro sp hsp
            rcases List.mem_append.1 hsp with hsp | hsp
            · exact (b1 sp.ns (List.mem_map_of_mem hsp)).2
            · exact j2 sp hsp

theorem normalizeLoop_kept {calm : Bool} {s : Str} (hs : ValidUtf8 s) {f : NormalizeFunc} : ∀ (ps : List Piece) {ps' : List Piece}
    {e : Option Err}, (∀ sp ∈ ps, RangeHistory (NS.fromString s) sp.ns) →
    (∀ sp ∈ ps, sp.tokens = none → ∀ ns' e, f sp.ns = .ok (ns', e) → Calls calm sp.ns ns') →
    PTS.normalizeLoop f ps = .ok (ps', e) →
    Refines calm (ps.map (·.ns)) (ps'.map (·.ns)) ∧ ∀ sp ∈ ps', RangeHistory (NS.fromString s) sp.ns := by
  intro ps
  induction ps with
  | nil =>
    intro ps' e _ _ h
    simp only [PTS.normalizeLoop, GoM.ok.injEq, Prod.mk.injEq] at h
    obtain ⟨rfl, rfl⟩ := h
    exact ⟨.nil, by simp⟩
  | cons p ps ih =>
    intro ps' e h0 hf h
    have h0' : ∀ sp ∈ ps, RangeHistory (NS.fromString s) sp.ns := fun sp hsp => h0 sp (by simp [hsp])
    have hf' := fun sp (hsp : sp ∈ ps) => hf sp (by simp [hsp])
    unfold PTS.normalizeLoop at h
    cases ht : p.tokens with
    | some ts =>
      simp only [ht, GoM.bind_eq_ok, GoM.pure_eq, GoM.ok.injEq, Prod.mk.injEq] at h
      obtain ⟨⟨l, e'⟩, e1, rfl, -⟩ := h
      obtain ⟨i1, i2⟩ := ih h0' hf' e1
      refine ⟨.one (.refl _ _) i1, ?_⟩
      intro sp hsp
      rcases List.mem_cons.1 hsp with rfl | hsp
      · exact h0 _ (by simp)
      · exact i2 sp hsp
    | none =>
      simp only [ht, GoM.bind_eq_ok] at h
      obtain ⟨⟨ns', r⟩, e1, e2⟩ := h
      have hp := h0 p (by simp)
      have hw : WF p.ns := Reachable.wf ⟨s, hs, hp⟩
      have hc := hf p (by simp) ht ns' r e1
      have hone : ∀ {l : List Piece}, Refines calm (ps.map (·.ns)) (l.map (·.ns)) ∧ (∀ sp ∈ l, RangeHistory (NS.fromString s) sp.ns) →
          Refines calm ((p :: ps).map (·.ns)) (((Piece.mk ns' none) :: l).map (·.ns))
            ∧ ∀ sp ∈ (Piece.mk ns' none) :: l, RangeHistory (NS.fromString s) sp.ns := by
        intro l hl
        refine ⟨.one ((Below.of_sourced hc.sourced).replaces hw) hl.1, ?_⟩
        intro sp hsp
        rcases List.mem_cons.1 hsp with rfl | hsp
        · exact hc.history hp
        · exact hl.2 sp hsp
      cases r with
      | some e' =>
        simp at e2; obtain ⟨rfl, rfl⟩ := e2
        exact hone ⟨.refl _ _, h0'⟩
      | none =>
        simp only [GoM.bind_eq_ok, GoM.pure_eq, GoM.ok.injEq, Prod.mk.injEq] at e2
        obtain ⟨⟨l, e'⟩, e3, rfl, -⟩ := e2
        exact hone (ih h0' hf' e3)

theorem tokenizeLoop_strings {f : NS → GoM (Except Err (List Token))} : ∀ (ps : List Piece) {ps' : List Piece} {e : Option Err},
    PTS.tokenizeLoop f ps = .ok (ps', e) → ps'.map (·.ns) = ps.map (·.ns) := by
  intro ps
  induction ps with
  | nil => intro ps' e h; simp [PTS.tokenizeLoop] at h; rw [h.1]
  | cons p ps ih =>
    intro ps' e h
    unfold PTS.tokenizeLoop at h
    cases ht : p.tokens with
    | some ts =>
      simp only [ht, GoM.bind_eq_ok, GoM.pure_eq, GoM.ok.injEq, Prod.mk.injEq] at h
      obtain ⟨⟨l, e'⟩, e1, rfl, -⟩ := h
      simp [ih e1]
    | none =>
      simp only [ht, GoM.bind_eq_ok] at h
      obtain ⟨r, e1, e2⟩ := h
      cases r with
      | error e' => simp at e2; rw [← e2.1]
      | ok ts =>
        simp only [GoM.bind_eq_ok, GoM.pure_eq, GoM.ok.injEq, Prod.mk.injEq] at e2
        obtain ⟨⟨l, e'⟩, e3, rfl, -⟩ := e2
        simp [ih e3]

theorem Steps.kept {calm : Bool} {s : Str} (hs : ValidUtf8 s) {p : PTS} (h : Steps calm s p) : OrderKept calm s (p.splits.map (·.ns)) := by
  have mk : ∀ {xs ws : List NS}, OrderKept calm s xs → Refines calm xs ws → (∀ ns ∈ ws, RangeHistory (NS.fromString s) ns) → OrderKept calm s ws :=
    fun h h1 h2 => ⟨h2, h1.pairwise h.2⟩
  have hm : ∀ {l : List Piece}, (∀ sp ∈ l, RangeHistory (NS.fromString s) sp.ns) →
      ∀ ns ∈ l.map (·.ns), RangeHistory (NS.fromString s) ns := by
    intro l h ns hns
    obtain ⟨sp, h1, rfl⟩ := List.mem_map.1 hns
    exact h sp h1
  induction h with
  | start =>
    refine ⟨?_, by simp [PTS.fromString, PTS.fromNormalizedString]⟩
    intro ns hns
    simp only [PTS.fromString, PTS.fromNormalizedString, List.map_cons, List.map_nil, List.mem_singleton] at hns
    subst hns; exact .none
  | split _ hf hr ih =>
    simp only [PTS.split, GoM.bind_eq_ok] at hr
    obtain ⟨⟨old, new⟩, e1, e2⟩ := hr
    obtain ⟨⟨i1, i2⟩, i3⟩ := splitLoop_kept hs _ 0 (fun sp hsp => ih.1 _ (List.mem_map_of_mem hsp)) hf e1
    cases new with
    | error e => simp at e2; rw [← e2.1]; exact mk ih i1 (hm i2)
    | ok l => simp at e2; rw [← e2.1]; exact mk ih (i3 l rfl).1 (hm (i3 l rfl).2)
  | normalize _ hf hr ih =>
    simp only [PTS.normalize, GoM.bind_eq_ok] at hr
    obtain ⟨⟨l, e'⟩, e1, e2⟩ := hr
    obtain ⟨i1, i2⟩ := normalizeLoop_kept hs _ (fun sp hsp => ih.1 _ (List.mem_map_of_mem hsp)) hf e1
    simp at e2; rw [← e2.1]; exact mk ih i1 (hm i2)
  | tokenize _ hr ih =>
    simp only [PTS.tokenize, GoM.bind_eq_ok] at hr
    obtain ⟨⟨l, e'⟩, e1, e2⟩ := hr
    simp at e2; rw [← e2.1, tokenizeLoop_strings _ e1]; exact ih

theorem encodeSplits_order {calm : Bool} {s : Str} (hs : ValidUtf8 s) (w ty : Int) : ∀ (ps : List Piece) (i : Nat),
    OrderKept calm s (ps.map (·.ns)) →
    (∀ sp ∈ ps, ∃ ts, sp.tokens = some ts ∧ (∀ t ∈ ts, WellPlaced sp.ns t) ∧ ts.Pairwise fun t t' => NotBefore t.offsets t'.offsets) →
    ∃ rows, PTS.encodeSplits w ty i ps = .ok rows
      ∧ (rows.map (·.offsets)).Pairwise (fun o o' => o.start ≤ o'.start ∧ (calm = true → o.stop ≤ o'.stop))
      ∧ ∀ o ∈ rows.map (·.offsets), ∃ sp ∈ ps, ∃ t, WellPlaced sp.ns t ∧ PTS.tokenOffsets sp.ns t = .ok o := by
  intro ps
  induction ps with
  | nil => intro i _ _; exact ⟨[], rfl, .nil, by simp⟩
  | cons p ps ih =>
    intro i hk ht
    obtain ⟨k1, k2⟩ := hk
    rw [List.map_cons, List.pairwise_cons] at k2
    obtain ⟨rows, e1, e2, e3⟩ := ih (i + 1) ⟨fun ns hns => k1 ns (by simp only [List.map_cons, List.mem_cons]; exact .inr hns), k2.2⟩
      fun sp hsp => ht sp (by simp [hsp])
    obtain ⟨ts, t1, t2, t3⟩ := ht p (by simp)
    have hw : WF p.ns := Reachable.wf ⟨s, hs, k1 _ (by simp)⟩
    obtain ⟨here, h1⟩ : ∃ here, PTS.encodeTokens p.ns (if w < 0 then (i : Int) else w) ty ts = .ok here := by
      clear t1 t3
      induction ts with
      | nil => exact ⟨[], rfl⟩
      | cons t ts ih =>
        obtain ⟨here, h1⟩ := ih fun x hx => t2 x (by simp [hx])
        obtain ⟨f, l, -, -, ho⟩ := tokenOffsets_eq hw (t2 t (by simp))
        exact ⟨_, by simp only [PTS.encodeTokens, ho, h1, GoM.bind_ok]; rfl⟩
    obtain ⟨m1, m2⟩ := encodeTokens_mono hw t2 t3 h1
    have hhere : ∀ o ∈ here.map (·.offsets), ∃ t ∈ ts, PTS.tokenOffsets p.ns t = .ok o := by
      intro o ho
      obtain ⟨x, hx, rfl⟩ := List.mem_map.1 ho
      exact m2.exists_left hx
    refine ⟨here ++ rows, ?_, ?_, ?_⟩
    · simp only [PTS.encodeSplits, t1, Option.getD_some, h1, e1, GoM.bind_ok]; rfl
    · rw [List.map_append, List.pairwise_append]
      refine ⟨m1.imp fun h => ⟨h.1, fun _ => h.2⟩, e2, ?_⟩
      intro o ho o' ho'
      obtain ⟨t, ht1, ht2⟩ := hhere o ho
      obtain ⟨sp, hsp, t', hp', ht'⟩ := e3 o' ho'
      have hw' : WF sp.ns := Reachable.wf ⟨s, hs, k1 _ (by simp only [List.map_cons, List.mem_cons]; exact .inr (List.mem_map_of_mem hsp))⟩
      obtain ⟨f, l, f1, f2, f3⟩ := tokenOffsets_eq hw (t2 t ht1)
      obtain ⟨f', l', f1', f2', f3'⟩ := tokenOffsets_eq hw' hp'
      rw [ht2] at f3; rw [ht'] at f3'
      simp only [GoM.ok.injEq] at f3 f3'
      subst f3; subst f3'
      obtain ⟨o1, o2, o3⟩ := k2.1 sp.ns (List.mem_map_of_mem hsp)
      constructor
      · have := o2 f (List.mem_of_getElem? f1)
        have := (hw'.bounds f' (List.mem_of_getElem? f1')).1
        simp only; omega
      · intro hc
        obtain ⟨-, o3⟩ := o3 hc
        have := o3 l' (List.mem_of_getElem? f2')
        have := (hw.bounds l (List.mem_of_getElem? f2)).2.2
        simp only [NS.endPos] at *; omega
    · intro o ho
      rw [List.map_append, List.mem_append] at ho
      rcases ho with ho | ho
      · obtain ⟨t, ht1, ht2⟩ := hhere o ho
        exact ⟨p, by simp, t, t2 t ht1, ht2⟩
      · obtain ⟨sp, hsp, h⟩ := e3 o ho
        exact ⟨sp, by simp [hsp], h⟩

theorem partOf_of_history {s : Str} (hs : ValidUtf8 s) {ns : NS} (h : RangeHistory (NS.fromString s) ns) :
    0 ≤ ns.originalOffsets.start ∧ ns.originalOffsets.stop ≤ (s.length : Int) := by
  have := (goSlice_eq_ok.1 (C02_ranges hs h).2).1
  omega

/-- **C109, splits.** After any steps on a `PreTokenizedString` made of valid text, each split says truly which part of the input it
comes from, and the splits start in the order of the input; if no step put a rune without a place of its own at the front of a split,
they end in that order too. -/
theorem C109_splits {calm : Bool} {s : Str} (hs : ValidUtf8 s) {p : PTS} (h : Steps calm s p) :
    (∀ sp ∈ p.splits, Reachable sp.ns
      ∧ goSlice s sp.ns.originalOffsets.start sp.ns.originalOffsets.stop = .ok sp.ns.getOriginal)
    ∧ (p.getOriginalByteSplits.map (·.offsets)).Pairwise fun o o' => o.start ≤ o'.start ∧ (calm = true → o.stop ≤ o'.stop) := by
  obtain ⟨k1, k2⟩ := h.kept hs
  refine ⟨fun sp hsp => ?_, ?_⟩
  · have := k1 sp.ns (List.mem_map_of_mem hsp)
    exact ⟨⟨s, hs, this⟩, (C02_ranges hs this).2⟩
  · rw [PTS.getOriginalByteSplits, List.map_map, List.pairwise_map]
    rw [List.pairwise_map] at k2
    exact k2.imp fun h => ⟨h.1, fun hc => (h.2.2 hc).1⟩

/-- **C109, encoding.** If then every split has tokens in order, each on a non-empty part of its text, `IntoEncoding` succeeds, the
offsets lie within the input, and the starts never go back from one token to the next, through all the splits; if no step put a rune
without a place of its own at the front of a split, the ends never go back either. -/
theorem C109_encoding {calm : Bool} {s : Str} (hs : ValidUtf8 s) {p : PTS} (h : Steps calm s p)
    (ht : ∀ sp ∈ p.splits, ∃ ts, sp.tokens = some ts ∧ (∀ t ∈ ts, WellPlaced sp.ns t)
      ∧ ts.Pairwise fun t t' => NotBefore t.offsets t'.offsets) (w ty : Int) :
    ∃ enc, p.intoEncoding w ty = .ok (.ok enc)
      ∧ (∀ o ∈ enc.offsets, 0 ≤ o.start ∧ o.start ≤ o.stop ∧ o.stop ≤ (s.length : Int))
      ∧ enc.offsets.Pairwise fun o o' => o.start ≤ o'.start ∧ (calm = true → o.stop ≤ o'.stop) := by
  have hk := h.kept hs
  obtain ⟨rows, e1, e2, e3⟩ := encodeSplits_order hs w ty p.splits 0 hk ht
  refine ⟨Encoding.fromEncodableTokens rows, ?_, ?_, ?_⟩
  · unfold PTS.intoEncoding
    by_cases hL : p.splits = []
    · rw [hL] at e1 ⊢; cases e1; rfl
    · have ha : p.allSplitsHaveTokens = true := by
        apply List.all_eq_true.2
        intro sp hsp
        obtain ⟨ts, e, -⟩ := ht sp hsp
        simp [e]
      rw [if_neg (by simpa using hL), if_neg (by simp [ha]), e1]
      rfl
  · rw [(hasRows_from rows).offsets]
    intro o ho
    obtain ⟨sp, hsp, t, h1, h2⟩ := e3 o ho
    have hh := hk.1 sp.ns (List.mem_map_of_mem hsp)
    obtain ⟨o', h3, l1, l2, l3, -⟩ := tokenOffsets_ok (Reachable.wf ⟨s, hs, hh⟩) h1
    rw [h2] at h3
    simp only [GoM.ok.injEq] at h3; subst h3
    have := partOf_of_history hs hh
    omega
  · rw [(hasRows_from rows).offsets]
    exact e2

/-! ## The steps of the library -/

/-- Calm calls, after which the text is whole runes. -/
def WholeCalls (ns ns' : NS) : Prop := Calls true ns ns' ∧ Whole ns'

theorem WholeCalls.refl {ns : NS} (h : Whole ns) : WholeCalls ns ns := ⟨.none, h⟩

theorem WholeCalls.call {ns₀ ns ns' : NS} (h : WholeCalls ns₀ ns) {op : Op} (h1 : ∀ r, op ≠ .slice r) (h2 : op.Calm ns) (h3 : op.Proper)
    (hr : op.run ns = .ok ns') : WholeCalls ns₀ ns' := ⟨.call h.1 h1 (fun _ => h2) hr, Op.run_whole h3 h.2 hr⟩

theorem WholeCalls.filter {ns₀ ns ns' : NS} (h : WholeCalls ns₀ ns) {keep : Rune → Bool} (hr : ns.filter keep = .ok ns') :
    WholeCalls ns₀ ns' := h.call (op := .filter keep) (by simp) trivial trivial hr

theorem WholeCalls.map {ns₀ ns ns' : NS} (h : WholeCalls ns₀ ns) {f : Rune → Rune} (hr : ns.map f = .ok ns') :
    WholeCalls ns₀ ns' := h.call (op := .map f) (by simp) trivial trivial hr

theorem chinese_calm (rs : List Rune) : CalmChanges (rs.flatMap chineseChange) 0 := by
  right
  cases rs with
  | nil => simp
  | cons r rs =>
    intro rc hrc
    rw [List.flatMap_cons] at hrc
    unfold chineseChange at hrc
    split at hrc <;> (simp at hrc; subst hrc; simp)

theorem bertNormalize_calls {u : Uni} {c : BertCfg} {ns ns' : NS} {e : Option Err} (h : Whole ns)
    (hr : bertNormalize u c ns = .ok (ns', e)) : WholeCalls ns ns' := by
  have hb : bertNormalize u c ns = ((if c.textCleaning = true then cleanText u ns else .ok ns) >>= fun n1 =>
      (if c.chineseCharsHandling = true then handleChineseChars n1 else .ok n1) >>= fun n2 =>
      (if c.accentsStripping = true then stripAccents u n2 else .ok n2) >>= fun n3 =>
      (if c.lowerCaseEnabled = true then n3.toLower u.toLower else .ok n3) >>= fun n4 => .ok (n4, none)) := by
    rcases c with ⟨_ | _, _ | _, _ | _, _ | _⟩ <;> rfl
  simp only [hb, GoM.bind_eq_ok, GoM.ok.injEq, Prod.mk.injEq] at hr
  obtain ⟨n1, e1, n2, e2, n3, e3, n4, e4, rfl, -⟩ := hr
  have h1 : WholeCalls ns n1 := by
    split at e1
    · simp only [cleanText, GoM.bind_eq_ok] at e1
      obtain ⟨n, f1, f2⟩ := e1
      exact ((WholeCalls.refl h).filter f1).map f2
    · simp at e1; subst e1; exact .refl h
  have h2 : WholeCalls ns n2 := by
    split at e2
    · exact h1.call (op := .transform _ 0) (by simp) (chinese_calm _) trivial e2
    · simp at e2; subst e2; exact h1
  have h3 : WholeCalls ns n3 := by
    split at e3
    · exact h2.filter e3
    · simp at e3; subst e3; exact h2
  split at e4
  · exact h3.map e4
  · simp at e4; subst e4; exact h3

theorem WholeCalls.trans {a b c : NS} (h : WholeCalls a b) (h' : WholeCalls b c) : WholeCalls a c := by
  refine ⟨?_, h'.2⟩
  obtain ⟨h', -⟩ := h'
  obtain ⟨h, -⟩ := h
  induction h' with
  | none => exact h
  | call _ h1 h2 h3 ih => exact .call ih h1 h2 h3
  | range _ h1 h2 h3 ih => exact .range ih h1 h2 h3

theorem LibNormalizer.calls {u : Uni} {f : NormalizeFunc} (hf : LibNormalizer u f) : ∀ {ns ns' : NS} {e : Option Err}, Whole ns →
    f ns = .ok (ns', e) → WholeCalls ns ns' := by
  induction hf with
  | lowerCase =>
    intro ns ns' e h hr
    simp only [lowerCaseNormalize, GoM.bind_eq_ok, GoM.pure_eq, GoM.ok.injEq, Prod.mk.injEq] at hr
    obtain ⟨n1, e1, rfl, -⟩ := hr
    exact (WholeCalls.refl h).map e1
  | strip l r =>
    intro ns ns' e h hr
    simp only [stripNormalize, GoM.bind_eq_ok, GoM.pure_eq, GoM.ok.injEq, Prod.mk.injEq] at hr
    obtain ⟨n1, e1, rfl, -⟩ := hr
    exact (WholeCalls.refl h).call (op := .trim l r) (by simp) trivial trivial e1
  | bert c => exact fun h hr => bertNormalize_calls h hr
  | @sequence fs _ ih =>
    intro ns ns' e h hr
    induction fs generalizing ns with
    | nil => simp [sequenceNormalize] at hr; rw [← hr.1]; exact .refl h
    | cons f fs ihs =>
      simp only [sequenceNormalize, GoM.bind_eq_ok] at hr
      obtain ⟨⟨n1, e1⟩, g1, g2⟩ := hr
      have hc := ih f (by simp) h g1
      cases e1 with
      | some e1 => simp at g2; rw [← g2.1]; exact hc
      | none => exact hc.trans (ihs (fun f hf => ‹∀ f ∈ _ :: fs, _› f (by simp [hf])) (fun f hf => ih f (by simp [hf])) hc.2 g2)

theorem properPattern_regexp2 {e : List Rune → Except Err (List (Nat × Nat))} (he : OrderedEngine e) :
    ProperPattern (fromRegexp2 e) := by
  intro s caps hs hp
  obtain ⟨rs, hv, rfl⟩ := hs
  by_cases h0 : rs = []
  · subst h0
    simp only [fromRegexp2, encodeRunes_nil, List.length_nil, if_true, GoM.ok.injEq, Except.ok.injEq] at hp
    subst hp
    have hb : IsBoundary (encodeRunes []) 0 := ⟨[], [], ⟨[], by simp, rfl⟩, ⟨[], by simp, rfl⟩, rfl, rfl⟩
    refine ⟨by decide, ?_⟩
    intro c hc
    simp [emptyCaptures] at hc; subst hc
    exact ⟨hb, hb⟩
  · obtain ⟨g1, g2⟩ := C21_regexp2 e rs hv h0
    cases hms : e rs with
    | error err => rw [g1 err hms] at hp; simp at hp
    | ok ms =>
      obtain ⟨caps', k1, k2, -, -, k5⟩ := g2 ms hms (he rs ms hms)
      rw [k1] at hp
      simp only [GoM.ok.injEq, Except.ok.injEq] at hp
      subst hp
      exact ⟨k2, k5⟩

theorem properPattern_invert {p : SplitPattern} (hp : ProperPattern p) : ProperPattern (invert p) := by
  intro s caps hs h
  obtain ⟨g1, g2, g3, -⟩ := C23_invert p s
  cases hr : p s with
  | panic => rw [g3 hr] at h; cases h
  | ok r =>
    cases r with
    | error e => rw [g2 e hr] at h; simp at h
    | ok caps' =>
      obtain ⟨k1, k2⟩ := hp s caps' hs hr
      have he : invert p s = .ok (.ok (caps'.map fun c => { c with isMatch := !c.isMatch })) := by
        unfold invert; rw [hr]
      rw [he] at h
      simp only [GoM.ok.injEq, Except.ok.injEq] at h
      subst h
      refine ⟨C23_tiles _ _ _ k1, ?_⟩
      intro c hc
      obtain ⟨c', hc', rfl⟩ := List.mem_map.1 hc
      exact k2 c' hc'

/-- What is asked of the functions given to `Split`. -/
def GoodSplit (f : SplitFunc) : Prop := ∀ i ns ns', Whole ns →
  (∀ items, f i ns = .ok (ns', .ok items) → FairSplit true ns ns' items ∧ Whole ns' ∧ ∀ it ∈ items, Whole it.ns)
  ∧ ∀ e, f i ns = .ok (ns', .error e) → WholeCalls ns ns'

/-- Splitting by a pattern after calm calls. -/
theorem split_fair {ns ns' : NS} (h : WholeCalls ns ns') {pat : SplitPattern} (hp : ProperPattern pat) {b : Behavior} {nss : List NS}
    (hs : ns'.split pat b = .ok (.ok nss)) : FairSplit true ns ns' (splitsFromNormalizedStrings nss) ∧ Whole ns'
      ∧ ∀ it ∈ splitsFromNormalizedStrings nss, Whole it.ns := by
  obtain ⟨cs, hc⟩ := h.2
  have hs' := hs
  simp only [NS.split, GoM.bind_eq_ok] at hs'
  obtain ⟨r, h1, h2⟩ := hs'
  cases r with
  | error e => simp at h2
  | ok caps =>
    refine ⟨⟨h.1, .inr ⟨pat, b, caps, nss, h1, (hp _ _ hc.validUtf8 h1).1, hs, ?_⟩⟩, h.2, ?_⟩
    · simp [splitsFromNormalizedStrings, Function.comp_def]
    · intro it hit
      obtain ⟨n, hn, rfl⟩ := List.mem_map.1 hit
      obtain ⟨m, -, hm⟩ := (sliceAll_inv _ _ _ h2).exists_left hn
      obtain ⟨_, _, _, _, -, h3⟩ := slice_whole hc hm
      exact ⟨_, h3⟩

theorem goodSplit_pattern {pat : SplitPattern} (hp : ProperPattern pat) (b : Behavior) : GoodSplit (splitByPattern pat b) := by
  intro i ns ns' h
  constructor
  · intro items hr
    simp only [splitByPattern, GoM.bind_eq_ok] at hr
    obtain ⟨r, h1, h2⟩ := hr
    cases r with
    | error e => simp at h2
    | ok nss =>
      simp only [GoM.pure_eq, GoM.ok.injEq, Prod.mk.injEq, Except.ok.injEq] at h2
      obtain ⟨rfl, rfl⟩ := h2
      exact split_fair (.refl h) hp h1
  · intro e hr
    simp only [splitByPattern, GoM.bind_eq_ok] at hr
    obtain ⟨r, h1, h2⟩ := hr
    cases r with
    | error e =>
      simp only [GoM.pure_eq, GoM.ok.injEq, Prod.mk.injEq] at h2
      obtain ⟨rfl, -⟩ := h2
      exact .refl h
    | ok nss => simp at h2

theorem goodSplit_byteLevel {e : List Rune → Except Err (List (Nat × Nat))} (he : OrderedEngine e) (b : Bool) :
    GoodSplit (byteLevelSplitFunc e b) := by
  intro i ns ns' h
  have key : ∀ r, byteLevelSplitFunc e b i ns = .ok (ns', r) → WholeCalls ns ns' ∧
      ∀ items, r = .ok items → ∃ nss, items = splitsFromNormalizedStrings nss ∧ ns'.split (fromRegexp2 e) .isolated = .ok (.ok nss) := by
    intro r hr
    have hb : byteLevelSplitFunc e b i ns = ((if b = true ∧ (!startsWithWhitespace ns.get) = true then ns.prepend [32] else .ok ns) >>= fun n1 =>
        n1.split (fromRegexp2 e) .isolated >>= fun x => match x with
          | .error err => .ok (n1, .error err)
          | .ok nss => .ok (n1, .ok (splitsFromNormalizedStrings nss))) := by
      unfold byteLevelSplitFunc
      split <;> rfl
    simp only [hb, GoM.bind_eq_ok] at hr
    obtain ⟨n1, e1, x, e2, e3⟩ := hr
    have hc : WholeCalls ns n1 := by
      split at e1
      · exact (WholeCalls.refl h).call (op := .prepend [32]) (by simp) (by simp [Op.Calm]) trivial e1
      · simp at e1; subst e1; exact .refl h
    cases x with
    | error err =>
      simp only [GoM.ok.injEq, Prod.mk.injEq] at e3
      obtain ⟨rfl, rfl⟩ := e3
      exact ⟨hc, fun items hi => by cases hi⟩
    | ok nss =>
      simp only [GoM.ok.injEq, Prod.mk.injEq] at e3
      obtain ⟨rfl, rfl⟩ := e3
      refine ⟨hc, fun items hi => ?_⟩
      cases hi
      exact ⟨nss, rfl, e2⟩
  constructor
  · intro items hr
    obtain ⟨k1, k2⟩ := key _ hr
    obtain ⟨nss, rfl, k3⟩ := k2 items rfl
    exact split_fair k1 (properPattern_regexp2 he) k3
  · intro err hr
    exact (key _ hr).1

theorem spaces_calm {ns : NS} (h : Whole ns) (content : Str) : (Op.replace (fromRune 32) content).Calm ns := by
  obtain ⟨cs, hc⟩ := h
  intro caps hp
  have hv := hc.validUtf8
  obtain ⟨h1, -⟩ := properPattern_func (fun x => x == 32) _ caps hv hp
  refine ⟨h1, ?_⟩
  obtain ⟨rs, hvr, e⟩ := hv
  by_cases h0 : rs = []
  · rw [h0, encodeRunes_nil] at e
    rw [← e] at hp
    have : fromRune 32 [] = .ok (.ok [⟨⟨0, 0⟩, false⟩]) := by decide
    rw [this] at hp
    simp only [GoM.ok.injEq, Except.ok.injEq] at hp
    subst hp
    simp
  · obtain ⟨caps', k1, -, k3⟩ := C20_rune 32 rs hvr h0
    rw [← e, k1] at hp
    simp only [GoM.ok.injEq, Except.ok.injEq] at hp
    subst hp
    intro c hc _
    obtain ⟨pre, g, post, -, hg, s1, s2, -⟩ := k3 c hc
    rw [s1, s2, encodeRunes_append, List.length_append]
    have : 0 < (encodeRunes g).length := List.length_pos_iff.2 (by rwa [ne_eq, encodeRunes_eq_nil])
    omega

theorem goodSplit_metaSpace (r : Rune) (b : Bool) : GoodSplit (metaSpaceSplitFunc r b) := by
  intro i ns ns' h
  have hv : ValidUtf8 (encodeRune r) := by
    have := validUtf8_encodeRunes [r]
    rwa [encodeRunes_cons, encodeRunes_nil, List.append_nil] at this
  have key : ∀ x, metaSpaceSplitFunc r b i ns = .ok (ns', x) → WholeCalls ns ns' ∧
      ∀ items, x = .ok items → ∃ nss, items = splitsFromNormalizedStrings nss ∧ ns'.split (fromRune r) .mergedWithNext = .ok (.ok nss) := by
    intro x hr
    have hb : metaSpaceSplitFunc r b i ns = ((if b = true ∧ (!(encodeRune r).isPrefixOf ns.get) = true then ns.prepend (encodeRune r) else .ok ns)
        >>= fun n1 => n1.replace (fromRune 32) (encodeRune r) >>= fun y => match y with
          | .error err => .ok (n1, .error err)
          | .ok n2 => n2.split (fromRune r) .mergedWithNext >>= fun z => match z with
            | .error err => .ok (n2, .error err)
            | .ok nss => .ok (n2, .ok (splitsFromNormalizedStrings nss))) := by
      unfold metaSpaceSplitFunc
      simp only
      split <;> rfl
    simp only [hb, GoM.bind_eq_ok] at hr
    obtain ⟨n1, e1, y, e2, e3⟩ := hr
    have hc : WholeCalls ns n1 := by
      split at e1
      · exact (WholeCalls.refl h).call (op := .prepend (encodeRune r)) (by simp) (encodeRune_ne_nil r) trivial e1
      · simp at e1; subst e1; exact .refl h
    cases y with
    | error err =>
      simp only [GoM.ok.injEq, Prod.mk.injEq] at e3
      obtain ⟨rfl, rfl⟩ := e3
      exact ⟨hc, fun items hi => by cases hi⟩
    | ok n2 =>
      have hc2 : WholeCalls ns n2 := hc.call (op := .replace (fromRune 32) (encodeRune r)) (by simp) (spaces_calm hc.2 _)
        ⟨properPattern_func _, hv⟩ (by simp only [Op.run, e2]; rfl)
      simp only [GoM.bind_eq_ok] at e3
      obtain ⟨z, e4, e5⟩ := e3
      cases z with
      | error err =>
        simp only [GoM.ok.injEq, Prod.mk.injEq] at e5
        obtain ⟨rfl, rfl⟩ := e5
        exact ⟨hc2, fun items hi => by cases hi⟩
      | ok nss =>
        simp only [GoM.ok.injEq, Prod.mk.injEq] at e5
        obtain ⟨rfl, rfl⟩ := e5
        refine ⟨hc2, fun items hi => ?_⟩
        cases hi
        exact ⟨nss, rfl, e4⟩
  constructor
  · intro items hr
    obtain ⟨k1, k2⟩ := key _ hr
    obtain ⟨nss, rfl, k3⟩ := k2 items rfl
    exact split_fair k1 (properPattern_func _) k3
  · intro err hr
    exact (key _ hr).1

theorem splitLoop_all {f : SplitFunc} {P : NS → Prop} (hf : ∀ i ns ns' r, P ns → f i ns = .ok (ns', r) →
      P ns' ∧ ∀ items, r = .ok items → ∀ it ∈ items, P it.ns) : ∀ (ps : List Piece) (i : Nat) {old : List Piece}
    {new : Except Err (List Piece)}, (∀ sp ∈ ps, P sp.ns) → PTS.splitLoop f i ps = .ok (old, new) →
    (∀ sp ∈ old, P sp.ns) ∧ ∀ l, new = .ok l → ∀ sp ∈ l, P sp.ns := by
  intro ps
  induction ps with
  | nil =>
    intro i old new _ h
    simp only [PTS.splitLoop, GoM.ok.injEq, Prod.mk.injEq] at h
    obtain ⟨rfl, rfl⟩ := h
    exact ⟨by simp, fun l hl => by cases hl; simp⟩
  | cons p ps ih =>
    intro i old new h0 h
    have hp := h0 p (by simp)
    have h0' : ∀ sp ∈ ps, P sp.ns := fun sp hsp => h0 sp (by simp [hsp])
    unfold PTS.splitLoop at h
    cases ht : p.tokens with
    | some ts =>
      simp only [ht, GoM.bind_eq_ok] at h
      obtain ⟨⟨old', new'⟩, e1, e2⟩ := h
      obtain ⟨i1, i2⟩ := ih (i + 1) h0' e1
      cases new' with
      | error e =>
        simp at e2; obtain ⟨rfl, rfl⟩ := e2
        exact ⟨by simpa using ⟨hp, i1⟩, fun l hl => by cases hl⟩
      | ok l' =>
        simp at e2; obtain ⟨rfl, rfl⟩ := e2
        exact ⟨by simpa using ⟨hp, i1⟩, fun l hl => by cases hl; simpa using ⟨hp, i2 l' rfl⟩⟩
    | none =>
      simp only [ht, GoM.bind_eq_ok] at h
      obtain ⟨⟨ns', r⟩, e1, e2⟩ := h
      obtain ⟨g1, g2⟩ := hf i p.ns ns' r hp e1
      cases r with
      | error e =>
        simp at e2; obtain ⟨rfl, rfl⟩ := e2
        exact ⟨by simpa using ⟨g1, h0'⟩, fun l hl => by cases hl⟩
      | ok items =>
        simp only [GoM.bind_eq_ok] at e2
        obtain ⟨⟨old', new'⟩, e3, e4⟩ := e2
        obtain ⟨i1, i2⟩ := ih (i + 1) h0' e3
        cases new' with
        | error e =>
          simp at e4; obtain ⟨rfl, rfl⟩ := e4
          exact ⟨by simpa using ⟨g1, i1⟩, fun l hl => by cases hl⟩
        | ok l' =>
          simp only [GoM.pure_eq, GoM.ok.injEq, Prod.mk.injEq] at e4; obtain ⟨rfl, rfl⟩ := e4
          refine ⟨by simpa using ⟨g1, i1⟩, fun l hl => ?_⟩
          cases hl
          intro sp hsp
          rcases List.mem_append.1 hsp with hsp | hsp
          · exact g2 items rfl sp (List.mem_filter.1 hsp).1
          · exact i2 l' rfl sp hsp

theorem normalizeLoop_all {f : NormalizeFunc} {P : NS → Prop} (hf : ∀ ns ns' e, P ns → f ns = .ok (ns', e) → P ns') :
    ∀ (ps : List Piece) {ps' : List Piece} {e : Option Err}, (∀ sp ∈ ps, P sp.ns) → PTS.normalizeLoop f ps = .ok (ps', e) →
    ∀ sp ∈ ps', P sp.ns := by
  intro ps
  induction ps with
  | nil => intro ps' e _ h; simp [PTS.normalizeLoop] at h; rw [h.1]; simp
  | cons p ps ih =>
    intro ps' e h0 h
    have hp := h0 p (by simp)
    have h0' : ∀ sp ∈ ps, P sp.ns := fun sp hsp => h0 sp (by simp [hsp])
    unfold PTS.normalizeLoop at h
    cases ht : p.tokens with
    | some ts =>
      simp only [ht, GoM.bind_eq_ok, GoM.pure_eq, GoM.ok.injEq, Prod.mk.injEq] at h
      obtain ⟨⟨l, e'⟩, e1, rfl, -⟩ := h
      simpa using ⟨hp, ih h0' e1⟩
    | none =>
      simp only [ht, GoM.bind_eq_ok] at h
      obtain ⟨⟨ns', r⟩, e1, e2⟩ := h
      have hc := hf p.ns ns' r hp e1
      cases r with
      | some e' =>
        simp at e2; rw [← e2.1]
        simpa using ⟨hc, h0'⟩
      | none =>
        simp only [GoM.bind_eq_ok, GoM.pure_eq, GoM.ok.injEq, Prod.mk.injEq] at e2
        obtain ⟨⟨l, e'⟩, e3, rfl, -⟩ := e2
        simpa using ⟨hc, ih h0' e3⟩

/-- Calm steps on splits whose texts are whole runes. -/
def WholeSteps (s : Str) (p : PTS) : Prop := Steps true s p ∧ ∀ sp ∈ p.splits, Whole sp.ns

theorem WholeSteps.split {s : Str} {p p' : PTS} (h : WholeSteps s p) {f : SplitFunc} (hf : GoodSplit f) {e : Option Err}
    (hr : p.split f = .ok (p', e)) : WholeSteps s p' := by
  refine ⟨.split h.1 (fun sp hsp _ i ns' => ?_) hr, ?_⟩
  · obtain ⟨h1, h2⟩ := hf i sp.ns ns' (h.2 sp hsp)
    exact ⟨fun items hi => (h1 items hi).1, fun e he => (h2 e he).1⟩
  · simp only [PTS.split, GoM.bind_eq_ok] at hr
    obtain ⟨⟨old, new⟩, e1, e2⟩ := hr
    obtain ⟨i1, i2⟩ := splitLoop_all (P := Whole) (fun i ns ns' r hw hr => by
      obtain ⟨h1, h2⟩ := hf i ns ns' hw
      cases r with
      | error e => exact ⟨(h2 e hr).2, fun items hi => by cases hi⟩
      | ok items => exact ⟨(h1 items hr).2.1, fun l hl => by cases hl; exact (h1 items hr).2.2⟩) p.splits 0 h.2 e1
    cases new with
    | error e => simp at e2; rw [← e2.1]; exact i1
    | ok l => simp at e2; rw [← e2.1]; exact i2 l rfl

theorem WholeSteps.normalize {s : Str} {p p' : PTS} (h : WholeSteps s p) {f : NormalizeFunc}
    (hf : ∀ {ns ns' : NS} {e : Option Err}, Whole ns → f ns = .ok (ns', e) → WholeCalls ns ns') {e : Option Err}
    (hr : p.normalize f = .ok (p', e)) : WholeSteps s p' := by
  refine ⟨.normalize h.1 (fun sp hsp _ ns' e he => (hf (h.2 sp hsp) he).1) hr, ?_⟩
  simp only [PTS.normalize, GoM.bind_eq_ok] at hr
  obtain ⟨⟨l, e'⟩, e1, e2⟩ := hr
  simp at e2; rw [← e2.1]
  exact normalizeLoop_all (fun ns ns' e hw hr => (hf hw hr).2) p.splits h.2 e1

theorem byteLevelLoop_calm {s : Str} {rs : List Rune} {i : Int} {cs : List RuneChange} (h : byteLevelLoop s rs i = .ok cs) :
    CalmChanges cs 0 := by
  right
  cases rs with
  | nil => simp [byteLevelLoop] at h; subst h; simp
  | cons r rs =>
    simp only [byteLevelLoop, GoM.bind_eq_ok, GoM.pure_eq, GoM.ok.injEq] at h
    obtain ⟨bytes, h1, rest, -, rfl⟩ := h
    have hl := goSlice_length h1
    have := encodeRune_length_pos r
    cases bytes with
    | nil => simp only [List.length_nil] at hl; omega
    | cons b bs =>
      intro rc hrc
      simp [byteChanges] at hrc
      subst hrc; simp

theorem byteLevelNormalize_calls {ns ns' : NS} {e : Option Err} (h : Whole ns) (hr : byteLevelNormalize ns = .ok (ns', e)) :
    WholeCalls ns ns' := by
  simp only [byteLevelNormalize, GoM.bind_eq_ok, GoM.pure_eq, GoM.ok.injEq, Prod.mk.injEq] at hr
  obtain ⟨cs, h1, n1, h2, rfl, -⟩ := hr
  exact (WholeCalls.refl h).call (op := .transform cs 0) (by simp) (byteLevelLoop_calm h1) trivial h2

theorem LibStep.steps {u : Uni} {s : Str} {f : PreTokenizer} (hf : LibStep u f) {p p' : PTS} {e : Option Err} (h : WholeSteps s p)
    (hr : f p = .ok (p', e)) : WholeSteps s p' := by
  cases hf with
  | whiteSpaceSplit => exact h.split (goodSplit_pattern (properPattern_func _) _) hr
  | bert =>
    simp only [bertPreTokenize, GoM.bind_eq_ok] at hr
    obtain ⟨⟨p1, e1⟩, h1, h2⟩ := hr
    have hp := h.split (goodSplit_pattern (properPattern_func _) _) h1
    cases e1 with
    | some e1 => simp at h2; rw [← h2.1]; exact hp
    | none => exact hp.split (goodSplit_pattern (properPattern_func _) _) h2
  | runeDelimiter d => exact h.split (goodSplit_pattern (properPattern_func _) _) hr
  | whiteSpace he => exact h.split (goodSplit_pattern (properPattern_invert (properPattern_regexp2 he)) _) hr
  | metaSpace r b => exact h.split (goodSplit_metaSpace r b) hr
  | byteLevel b he =>
    simp only [Verif.byteLevel, GoM.bind_eq_ok] at hr
    obtain ⟨⟨p1, e1⟩, h1, h2⟩ := hr
    have hp := h.split (goodSplit_byteLevel he b) h1
    cases e1 with
    | some e1 => simp at h2; rw [← h2.1]; exact hp
    | none => exact hp.normalize byteLevelNormalize_calls h2
  | normalize hn => exact h.normalize (fun hw hr => hn.calls hw hr) hr
  | tokenize f =>
    refine ⟨.tokenize h.1 hr, ?_⟩
    simp only [PTS.tokenize, GoM.bind_eq_ok] at hr
    obtain ⟨⟨l, e'⟩, e1, e2⟩ := hr
    simp at e2; rw [← e2.1]
    intro sp hsp
    have hm : sp.ns ∈ l.map (·.ns) := List.mem_map_of_mem hsp
    rw [tokenizeLoop_strings _ e1] at hm
    obtain ⟨sp', h1, h2⟩ := List.mem_map.1 hm
    rw [← h2]; exact h.2 sp' h1

theorem LibRun.steps {u : Uni} {s : Str} (hs : ValidUtf8 s) {p : PTS} (h : LibRun u s p) : WholeSteps s p := by
  induction h with
  | start =>
    refine ⟨.start, ?_⟩
    intro sp hsp
    simp only [PTS.fromString, PTS.fromNormalizedString, List.mem_singleton] at hsp
    subst hsp
    exact ⟨_, fromString_repr hs⟩
  | step _ hf hr ih => exact hf.steps ih hr

/-- The engine of the model reports its matches in order. -/
theorem orderedEngine_findAll (re : Re) : OrderedEngine re.findAll := by
  intro rs ms h
  simp only [Re.findAll, Except.ok.injEq] at h
  subst h
  exact Re.findAll_ordered re rs

/-- **C109, the library.** After any run of the library's pre-tokenizers and normalizers, in any order and number, with `Tokenize` calls
of any kind among them and whatever errors came up, on valid text: the splits are parts of the input in the order of the input, and
once every split has tokens in order on non-empty parts of its text, the offsets of the encoding lie within the input and neither
their starts nor their ends ever go back. -/
theorem C109_library {u : Uni} {s : Str} (hs : ValidUtf8 s) {p : PTS} (h : LibRun u s p) :
    ((p.getOriginalByteSplits.map (·.offsets)).Pairwise NotBefore
      ∧ ∀ sp ∈ p.splits, goSlice s sp.ns.originalOffsets.start sp.ns.originalOffsets.stop = .ok sp.ns.getOriginal ∧ ValidUtf8 sp.ns.get)
    ∧ ((∀ sp ∈ p.splits, ∃ ts, sp.tokens = some ts ∧ (∀ t ∈ ts, WellPlaced sp.ns t)
        ∧ ts.Pairwise fun t t' => NotBefore t.offsets t'.offsets) → ∀ w ty, ∃ enc, p.intoEncoding w ty = .ok (.ok enc)
      ∧ (∀ o ∈ enc.offsets, 0 ≤ o.start ∧ o.start ≤ o.stop ∧ o.stop ≤ (s.length : Int)) ∧ enc.offsets.Pairwise NotBefore) := by
  obtain ⟨hst, hw⟩ := h.steps hs
  obtain ⟨h1, h2⟩ := C109_splits hs hst
  refine ⟨⟨h2.imp fun h => ⟨h.1, h.2 rfl⟩, fun sp hsp => ⟨(h1 sp hsp).2, ?_⟩⟩, ?_⟩
  · obtain ⟨cs, hc⟩ := hw sp hsp
    exact hc.validUtf8
  · intro ht w ty
    obtain ⟨enc, e1, e2, e3⟩ := C109_encoding hs hst ht w ty
    exact ⟨enc, e1, e2, e3.imp fun h => ⟨h.1, h.2 rfl⟩⟩

/-- Tokenizing after a run of the library with a function that gives tokens in order, and encoding. -/
theorem encode_libRun {u : Uni} {s : Str} (hs : ValidUtf8 s) {p : PTS} (h : LibRun u s p) (hn : ∀ sp ∈ p.splits, sp.tokens = none)
    (f : NS → GoM (Except Err (List Token))) (ts : NS → List Token)
    (hf : ∀ sp ∈ p.splits, f sp.ns = .ok (.ok (ts sp.ns)) ∧ (∀ t ∈ ts sp.ns, WellPlaced sp.ns t)
      ∧ (ts sp.ns).Pairwise fun t t' => NotBefore t.offsets t'.offsets) (w ty : Int) :
    ∃ p' enc, p.tokenize f = .ok (p', none) ∧ p'.intoEncoding w ty = .ok (.ok enc)
      ∧ p'.splits = p.splits.map (fun sp => ⟨sp.ns, some (ts sp.ns)⟩)
      ∧ All2 (fun o (en : Entry) => LocatesToken en.piece.ns en.token o) enc.offsets (entries w 0 p'.splits)
      ∧ (∀ o ∈ enc.offsets, 0 ≤ o.start ∧ o.start ≤ o.stop ∧ o.stop ≤ (s.length : Int)) ∧ enc.offsets.Pairwise NotBefore := by
  have htok := C58_tokenize_ok p f ts fun sp hsp _ => (hf sp hsp).1
  have e : p.splits.map (withTokens ts) = p.splits.map (fun sp => ⟨sp.ns, some (ts sp.ns)⟩) := by
    refine List.map_congr_left fun sp hsp => ?_
    simp [withTokens, hn sp hsp]
  rw [e] at htok
  have hall : ∀ sp ∈ p.splits.map (fun sp : Piece => (⟨sp.ns, some (ts sp.ns)⟩ : Piece)), ∃ us, sp.tokens = some us
      ∧ (∀ t ∈ us, WellPlaced sp.ns t) ∧ us.Pairwise fun t t' => NotBefore t.offsets t'.offsets := by
    intro sp hsp
    obtain ⟨q, hq, rfl⟩ := List.mem_map.1 hsp
    exact ⟨_, rfl, (hf q hq).2⟩
  have h' := h.step (.tokenize f) htok
  obtain ⟨enc, he, ho, hp⟩ := (C109_library hs h').2 hall w ty
  obtain ⟨enc', he', hl⟩ := C28_encoding_offsets ⟨p.original, p.splits.map (fun sp : Piece => (⟨sp.ns, some (ts sp.ns)⟩ : Piece))⟩ w ty
    (fun sp hsp => ((C109_splits hs (h'.steps hs).1).1 sp hsp).1)
    (fun sp hsp => by
      obtain ⟨us, a, b, -⟩ := hall sp hsp
      exact ⟨us, a, b⟩)
  rw [he] at he'
  simp only [GoM.ok.injEq, Except.ok.injEq] at he'
  subst he'
  exact ⟨_, enc, htok, he, rfl, hl, ho, hp⟩

theorem all2_map_withTokens {P : Piece → Piece → Prop} (ts : NS → List Token) (h : ∀ sp : Piece, P ⟨sp.ns, some (ts sp.ns)⟩ sp) :
    ∀ sps : List Piece, All2 P (sps.map fun sp => ⟨sp.ns, some (ts sp.ns)⟩) sps
  | [] => .nil
  | sp :: sps => .cons (h sp) (all2_map_withTokens ts h sps)

/-- **C109, WordPiece.** After any run of the library's pre-tokenizers and normalizers on valid text, `Tokenize` with a WordPiece model
that has its unknown token, and `IntoEncoding`, succeed; every offset selects the original text of its token, lies within the input,
and neither starts nor ends ever go back. -/
theorem C109_wordPiece {u : Uni} {s : Str} (hs : ValidUtf8 s) {p : PTS} (h : LibRun u s p) (hn : ∀ sp ∈ p.splits, sp.tokens = none)
    (m : WordPiece) (hunk : m.vocab.getID m.unknownToken ≠ none) (hmax : 0 ≤ m.maxInputCharsPerWord) (w ty : Int) :
    ∃ p' enc, p.tokenize (fun ns => .ok (m.tokenize ns.get)) = .ok (p', none) ∧ p'.intoEncoding w ty = .ok (.ok enc)
      ∧ All2 (fun (sp' sp : Piece) => sp'.ns = sp.ns ∧ ∃ ts, sp'.tokens = some ts ∧ m.tokenize sp.ns.get = .ok ts)
          p'.splits p.splits
      ∧ All2 (fun o (en : Entry) => LocatesToken en.piece.ns en.token o) enc.offsets (entries w 0 p'.splits)
      ∧ (∀ o ∈ enc.offsets, 0 ≤ o.start ∧ o.start ≤ o.stop ∧ o.stop ≤ (s.length : Int)) ∧ enc.offsets.Pairwise NotBefore := by
  obtain ⟨tok, htok⟩ : ∃ tok : Str → List Token, ∀ s, m.tokenize s = .ok (tok s) :=
    ⟨fun s => match m.tokenize s with | .ok ts => ts | _ => [], by
      intro s
      cases h : m.tokenize s with
      | ok ts => simp only [h]
      | error e => exact absurd ((C36_tiles m s).2.1 e h).2.1 hunk⟩
  obtain ⟨p', enc, h1, h2, h3, h4, h5⟩ := encode_libRun hs h hn (fun ns => .ok (m.tokenize ns.get)) (fun ns => tok ns.get)
    (fun sp _ => by
      refine ⟨by simp only [htok], ?_⟩
      by_cases hne : sp.ns.get = []
      · have : m.tokenize [] = .ok [] := by
          have e : runesOf [] = [] := by decide +kernel
          simp only [WordPiece.tokenize, e, List.length_nil]
          rw [if_neg (by omega)]
          simp [WordPiece.tokenLoop]
        have e := htok []
        rw [this] at e
        simp only [Except.ok.injEq] at e
        rw [hne, ← e]
        exact ⟨by simp, .nil⟩
      · exact wordPiece_order m hne (htok _)) w ty
  refine ⟨p', enc, h1, h2, ?_, h4, h5⟩
  rw [h3]
  exact all2_map_withTokens (fun ns => tok ns.get) (fun sp => ⟨rfl, _, rfl, htok _⟩) _

/-- **C109, BPE.** The same for BPE, for every dropout outcome in every split, if the vocabulary knows the term of every id it or the
merge table hands out, the unknown token if there is one, and every character of a split gets a symbol. -/
theorem C109_bpe {u : Uni} {s : Str} (hs : ValidUtf8 s) {p : PTS} (h : LibRun u s p) (hn : ∀ sp ∈ p.splits, sp.tokens = none)
    (m : BPE) (rnd : NS → Nat → Bool) (hvoc : ∀ t i, m.vocab.getID t = some i → m.vocab.getString i ≠ none)
    (hm : ∀ a b v, m.merges.get a b = some v → m.vocab.getString v.id ≠ none)
    (hunk : m.unknownToken ≠ [] → m.vocab.getID m.unknownToken ≠ none)
    (hval : ∀ sp ∈ p.splits, m.Covered sp.ns.get) (w ty : Int) :
    ∃ p' enc, p.tokenize (m.tokenizeNS rnd) = .ok (p', none) ∧ p'.intoEncoding w ty = .ok (.ok enc)
      ∧ All2 (fun (sp' sp : Piece) => sp'.ns = sp.ns ∧ ∃ ts, sp'.tokens = some ts
          ∧ m.tokenize (rnd sp.ns) sp.ns.get = .ok (.ok (some ts))) p'.splits p.splits
      ∧ All2 (fun o (en : Entry) => LocatesToken en.piece.ns en.token o) enc.offsets (entries w 0 p'.splits)
      ∧ (∀ o ∈ enc.offsets, 0 ≤ o.start ∧ o.start ≤ o.stop ∧ o.stop ≤ (s.length : Int)) ∧ enc.offsets.Pairwise NotBefore := by
  obtain ⟨tok, htok⟩ : ∃ tok : NS → List Token, ∀ ns, m.tokenize (rnd ns) ns.get = .ok (.ok (some (tok ns))) :=
    ⟨fun ns => match m.tokenize (rnd ns) ns.get with | .ok (.ok (some ts)) => ts | _ => [], by
      intro ns
      obtain ⟨ts, h⟩ := BPE.C44_success m (rnd ns) ns.get hvoc hm hunk
      simp only [h]⟩
  obtain ⟨p', enc, h1, h2, h3, h4, h5⟩ := encode_libRun hs h hn (m.tokenizeNS rnd) tok (fun sp hsp =>
      ⟨by simp only [BPE.tokenizeNS, htok, GoM.bind_ok]; rfl,
        bpe_order m (rnd sp.ns) ((C109_library hs h).1.2 sp hsp).2 (hval sp hsp) (htok sp.ns)⟩) w ty
  refine ⟨p', enc, h1, h2, ?_, h4, h5⟩
  rw [h3]
  exact all2_map_withTokens tok (fun sp => ⟨rfl, _, rfl, htok _⟩) _

/-! ## Cases -/

/-- One token for the whole text. -/
def oneToken (ns : NS) : GoM (Except Err (List Token)) := .ok (.ok [⟨0, ns.get, ⟨0, ns.len⟩⟩])

/-- Steps one after another. -/
def runSteps (p : PTS) (fs : List PreTokenizer) : GoM PTS := goFor fs p fun p f => do
  let (p, _) ← f p
  pure p

/-- A small stand-in for the Unicode tables. -/
def plainUni : Uni := ⟨fun _ => false, fun r => r == 0x301, fun r => r == 44, fun r => if 65 ≤ r ∧ r ≤ 90 then r + 32 else r⟩

/-- The BERT steps on `Hé, 中Wo`: the two words, the comma and the ideograph, each where it stands in the input. -/
example : runSteps (PTS.fromString b!"Hé, 中Wo") [fun p => p.normalize (bertNormalize plainUni ⟨true, true, true, true⟩),
      bertPreTokenize plainUni, fun p => p.tokenize oneToken] >>= (fun p => p.intoEncoding (-1) 0)
    = .ok (.ok ⟨[0, 0, 0, 0], [0, 0, 0, 0], [b!"hé", b!",", b!"中", b!"wo"], [0, 1, 2, 3],
      [⟨0, 3⟩, ⟨3, 4⟩, ⟨5, 8⟩, ⟨8, 10⟩], [0, 0, 0, 0], [1, 1, 1, 1]⟩) := by decide +kernel

theorem Calls.weaken {ns ns' : NS} (h : Calls true ns ns') : Calls false ns ns' := by
  induction h with
  | none => exact .none
  | call _ h1 _ h3 ih => exact .call ih h1 (by simp) h3
  | range _ _ h2 h3 ih => exact .range ih (by simp) h2 h3

theorem Steps.weaken {s : Str} {p : PTS} (h : Steps true s p) : Steps false s p := by
  induction h with
  | start => exact .start
  | split _ h1 h2 ih =>
    refine .split ih (fun sp hsp ht i ns' => ?_) h2
    obtain ⟨k1, k2⟩ := h1 sp hsp ht i ns'
    exact ⟨fun items hi => ⟨(k1 items hi).1.weaken, (k1 items hi).2⟩, fun e he => (k2 e he).weaken⟩
  | normalize _ h1 h2 ih => exact .normalize ih (fun sp hsp ht ns' e he => (h1 sp hsp ht ns' e he).weaken) h2
  | tokenize _ h1 ih => exact .tokenize ih h1

/-- A function for `Normalize` that puts nothing in front of `©`, which takes the place of the `©` away. -/
def unplace : NormalizeFunc := fun ns => if ns.get = b!"©" then do
    let ns ← ns.prepend []
    pure (ns, none)
  else pure (ns, none)

theorem unplace_calls {ns ns' : NS} {e : Option Err} (h : unplace ns = .ok (ns', e)) : Calls false ns ns' := by
  unfold unplace at h
  split at h
  · simp only [GoM.bind_eq_ok, GoM.pure_eq, GoM.ok.injEq, Prod.mk.injEq] at h
    obtain ⟨n, h1, rfl, -⟩ := h
    exact .call (op := .prepend []) .none (by simp) (by simp) h1
  · simp at h; rw [← h.1]; exact .none

/-- **C109, why the ends need the condition.** The byte-level runes of `é` stand on the same two bytes of the input; when the second has
lost its place, its token ends before the first one does. -/
theorem C109_counterexample : ∃ p enc, Steps false b!"é" p ∧ p.intoEncoding (-1) 0 = .ok (.ok enc)
    ∧ (∀ sp ∈ p.splits, ∃ ts, sp.tokens = some ts ∧ (∀ t ∈ ts, WellPlaced sp.ns t)
      ∧ ts.Pairwise fun t t' => NotBefore t.offsets t'.offsets)
    ∧ enc.offsets = [⟨0, 2⟩, ⟨0, 0⟩] := by
  have h1 : (PTS.fromString b!"é").normalize byteLevelNormalize
      = .ok (⟨b!"é", [⟨⟨b!"é", b!"Ã©", [⟨0, 2⟩, ⟨0, 2⟩, ⟨0, 2⟩, ⟨0, 2⟩], 0⟩, none⟩]⟩, none) := by decide +kernel
  have h2 : (PTS.mk b!"é" [⟨⟨b!"é", b!"Ã©", [⟨0, 2⟩, ⟨0, 2⟩, ⟨0, 2⟩, ⟨0, 2⟩], 0⟩, none⟩]).split (splitByPattern (fromRune u!"Ã") .isolated)
      = .ok (⟨b!"é", [⟨⟨b!"é", b!"Ã", [⟨0, 2⟩, ⟨0, 2⟩], 0⟩, none⟩, ⟨⟨b!"é", b!"©", [⟨0, 2⟩, ⟨0, 2⟩], 0⟩, none⟩]⟩, none) := by
    decide +kernel
  have h3 : (PTS.mk b!"é" [⟨⟨b!"é", b!"Ã", [⟨0, 2⟩, ⟨0, 2⟩], 0⟩, none⟩, ⟨⟨b!"é", b!"©", [⟨0, 2⟩, ⟨0, 2⟩], 0⟩, none⟩]).normalize unplace
      = .ok (⟨b!"é", [⟨⟨b!"é", b!"Ã", [⟨0, 2⟩, ⟨0, 2⟩], 0⟩, none⟩, ⟨⟨b!"é", b!"©", [⟨0, 0⟩, ⟨0, 0⟩], 0⟩, none⟩]⟩, none) := by
    decide +kernel
  have h4 : (PTS.mk b!"é" [⟨⟨b!"é", b!"Ã", [⟨0, 2⟩, ⟨0, 2⟩], 0⟩, none⟩, ⟨⟨b!"é", b!"©", [⟨0, 0⟩, ⟨0, 0⟩], 0⟩, none⟩]).tokenize oneToken
      = .ok (⟨b!"é", [⟨⟨b!"é", b!"Ã", [⟨0, 2⟩, ⟨0, 2⟩], 0⟩, some [⟨0, b!"Ã", ⟨0, 2⟩⟩]⟩,
        ⟨⟨b!"é", b!"©", [⟨0, 0⟩, ⟨0, 0⟩], 0⟩, some [⟨0, b!"©", ⟨0, 2⟩⟩]⟩]⟩, none) := by decide +kernel
  have hs : ValidUtf8 b!"é" := by decide +kernel
  have hw := ((LibRun.start (u := plainUni)).steps hs).normalize byteLevelNormalize_calls h1
  have hw := hw.split (goodSplit_pattern (properPattern_func _) _) h2
  refine ⟨_, Encoding.mk _ _ _ _ _ _ _, .tokenize (.normalize hw.1.weaken (fun sp _ _ ns' e he => unplace_calls he) h3) h4, rfl, ?_, rfl⟩
  simp [WellPlaced, NS.get]

end Verif
