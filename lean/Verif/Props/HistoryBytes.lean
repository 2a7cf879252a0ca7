import Verif.Props.OffsetBytes

/-! What holds of a string after any calls on any bytes (C136). -/

set_option autoImplicit false

namespace Verif

/-! ## Specification -/

/-- What calls can make of a string: any of the methods, `TransformRange` on any range and with any changes, and going on with a
slice or with a part that `Split` gives. -/
inductive AnyHistory : NS → NS → Prop
  | none {ns : NS} : AnyHistory ns ns
  | call {ns₀ ns ns' : NS} {op : Op} : AnyHistory ns₀ ns → op.run ns = .ok ns' → AnyHistory ns₀ ns'
  | range {ns₀ ns ns' : NS} {r : Rng} {dest : List RuneChange} {io : Int} : AnyHistory ns₀ ns →
      ns.transformRange r dest io = .ok ns' → AnyHistory ns₀ ns'
  | piece {ns₀ ns q : NS} {pat : SplitPattern} {b : Behavior} {ps : List NS} : AnyHistory ns₀ ns →
      ns.split pat b = .ok (.ok ps) → q ∈ ps → AnyHistory ns₀ q

/-- The alignment, read in the input: in it, but for an end that may be two bytes beyond. -/
def Inside (s : Str) (shift : Int) (a : Align) : Prop :=
  0 ≤ shift + a.start ∧ a.start ≤ a.stop ∧ shift + a.start ≤ s.length ∧ shift + a.stop ≤ s.length + 2

/-- The original is a part of the input, the shift its place; every byte of the text has an alignment; alignments are inside. -/
structure Anchored (s : Str) (ns : NS) : Prop where
  part : goSlice s ns.originalShift (ns.originalShift + ns.original.length) = .ok ns.original
  bytes : EveryByte ns
  inside : ∀ a ∈ ns.alignments, Inside s ns.originalShift a

/-! ## The calls -/

theorem anchored_fromString (s : Str) : Anchored s (NS.fromString s) := by
  refine ⟨?_, fits_fromString s, ?_⟩
  · rw [goSlice_eq_ok]
    simp [NS.fromString]
  · intro a ha
    obtain ⟨k, hk⟩ := List.getElem?_of_mem ha
    have := C134_bounds (s := s) (x := k) (y := k + 1) (o := ⟨a.start, a.stop⟩) ⟨a, a, hk, by simpa using hk, rfl⟩ (by omega)
    simp only at this
    refine ⟨?_, ?_, ?_, ?_⟩ <;> (try simp only [NS.fromString]) <;> omega

theorem Anchored.of_sourced {s : Str} {ns ns' : NS} (h : Anchored s ns) (hs : Sourced false ns ns') (hb : EveryByte ns') : Anchored s ns' := by
  obtain ⟨h1, h2, h3⟩ := hs
  refine ⟨by rw [h1, h2]; exact h.part, hb, ?_⟩
  intro a ha
  rw [h2]
  rcases h3 a ha with h3 | ⟨-, rfl⟩
  · exact h.inside a h3
  · obtain ⟨hp, -⟩ := goSlice_eq_ok.1 h.part
    refine ⟨?_, ?_, ?_, ?_⟩ <;> simp <;> omega

theorem anchored_slice {s : Str} {ns ns' : NS} {r : Rng} (h : Anchored s ns) (hs : ns.slice r = .ok (some ns')) : Anchored s ns' := by
  obtain ⟨-, na, nb, oa, ob, als, -, -, h1, -, h2, h3, h4⟩ := slice_ok hs
  refine ⟨?_, Nat.le_of_eq (even_slice hs).symm, ?_⟩
  · obtain ⟨p1, p2⟩ := goSlice_eq_ok.1 h.part
    have hl := goSlice_length h1
    obtain ⟨q1, q2⟩ := goSlice_eq_ok.1 h1
    rw [h4, goSlice_eq_ok]
    refine ⟨by omega, ?_⟩
    rw [p2, List.drop_take, List.take_take, List.drop_drop] at q2
    rw [show (ns.originalShift + oa + (ns'.original.length : Int) - (ns.originalShift + oa)).toNat
        = min (ob - oa).toNat ((ns.originalShift + (ns.original.length : Int) - ns.originalShift).toNat - oa.toNat) by omega,
      show (ns.originalShift + oa).toNat = ns.originalShift.toNat + oa.toNat by omega]
    exact q2
  · intro a ha
    rw [h3] at ha
    obtain ⟨x, hx, rfl⟩ := List.mem_map.1 ha
    have hx : x ∈ ns.alignments := by
      rw [(goSlice_eq_ok.1 h2).2] at hx
      exact List.mem_of_mem_drop (List.mem_of_mem_take hx)
    obtain ⟨i1, i2, i3, i4⟩ := h.inside x hx
    rw [h4]
    refine ⟨?_, ?_, ?_, ?_⟩ <;> simp only <;> omega

theorem anchored_split {s : Str} {ns : NS} {pat : SplitPattern} {b : Behavior} {ps : List NS} (h : Anchored s ns)
    (hs : ns.split pat b = .ok (.ok ps)) : ∀ q ∈ ps, Anchored s q := by
  have key : ∀ (ms : List SplitMatch) (ps : List NS), ns.sliceAll ms = .ok (.ok ps) → ∀ q ∈ ps, Anchored s q := by
    intro ms
    induction ms with
    | nil => intro ps h q hq; simp [NS.sliceAll] at h; subst h; simp at hq
    | cons x ms ih =>
      intro ps hp
      unfold NS.sliceAll at hp
      split at hp
      · exact ih ps hp
      · simp only [GoM.bind_eq_ok] at hp
        obtain ⟨r, h1, hp⟩ := hp
        cases r with
        | none => simp at hp
        | some piece =>
          simp only [GoM.bind_eq_ok] at hp
          obtain ⟨rest, h2, hp⟩ := hp
          cases rest with
          | error e => simp at hp
          | ok rest =>
            simp at hp
            subst hp
            intro q hq
            rcases List.mem_cons.1 hq with rfl | hq
            · exact anchored_slice h h1
            · exact ih rest h2 q hq
  unfold NS.split at hs
  rw [GoM.bind_eq_ok] at hs
  obtain ⟨r, -, hs⟩ := hs
  cases r with
  | error e => simp at hs
  | ok caps => exact key _ _ hs

theorem Op.run_fits {ns ns' : NS} {op : Op} (hs : ∀ r, op ≠ .slice r) (hn : EveryByte ns) (h : op.run ns = .ok ns') : EveryByte ns' := by
  cases op with
  | transform dest io => exact fits_transformRange (r := .normalized 0 ns.len) hn h
  | filter keep => exact fits_filter hn h
  | map f => exact fits_map hn h
  | trim l r => exact fits_trim hn h
  | prepend t => exact fits_prepend hn h
  | append t => exact fits_append hn h
  | replace p c =>
    simp only [Op.run, GoM.bind_eq_ok] at h
    obtain ⟨x, h1, h⟩ := h
    cases x with
    | error e => simp at h; rw [← h]; exact hn
    | ok n => simp at h; rw [← h]; exact fits_replace hn h1
  | slice r => exact absurd rfl (hs r)

theorem AnyHistory.anchored {s : Str} {ns₀ ns : NS} (h : AnyHistory ns₀ ns) (h0 : Anchored s ns₀) : Anchored s ns := by
  induction h with
  | none => exact h0
  | @call ns ns' op _ hr ih =>
    by_cases hs : ∃ r, op = .slice r
    · obtain ⟨r, rfl⟩ := hs
      simp only [Op.run, GoM.bind_eq_ok] at hr
      obtain ⟨x, h1, hr⟩ := hr
      cases x with
      | none => simp at hr; rw [← hr]; exact ih
      | some n => simp at hr; rw [← hr]; exact anchored_slice ih h1
    · have hs : ∀ r, op ≠ .slice r := fun r e => hs ⟨r, e⟩
      exact ih.of_sourced (Op.run_sourced hs nofun hr) (Op.run_fits hs ih.bytes hr)
  | range _ hr ih => exact ih.of_sourced (transformRange_sourced nofun hr) (fits_transformRange ih.bytes hr)
  | piece _ hr hq ih => exact anchored_split ih hr _ hq

/-- **C136, originals.** After any calls on any bytes: the original is the part of the input that `OriginalOffsets` names. -/
theorem C136_originals {s : Str} {ns : NS} (h : AnyHistory (NS.fromString s) ns) :
    goSlice s ns.originalOffsets.start ns.originalOffsets.stop = .ok ns.getOriginal := by
  have := (h.anchored (anchored_fromString s)).part
  simpa [NS.originalOffsets, NS.originalLen, NS.getOriginal] using this

/-- **C136, ranges.** Then no part of the text makes the conversion to the original or `GetRange` panic, and what it is converted to
lies in the input, but for an end that may be two bytes beyond. -/
theorem C136_ranges {s : Str} {ns : NS} (h : AnyHistory (NS.fromString s) ns) {a b : Int} (h0 : 0 ≤ a) (hab : a < b) (hb : b ≤ ns.len) :
    (∃ x y, ns.coerceRangeToOriginal (.normalized a b) = .ok (some (x, y))
      ∧ 0 ≤ ns.originalShift + x ∧ ns.originalShift + x ≤ s.length
      ∧ 0 ≤ ns.originalShift + y ∧ ns.originalShift + y ≤ s.length + 2)
    ∧ ∃ t, ns.getRange (.normalized a b) = .ok (some t) ∧ t.length = b - a := by
  have hA := h.anchored (anchored_fromString s)
  have hbytes := hA.bytes
  unfold EveryByte at hbytes
  simp only [NS.len] at hb
  constructor
  · have hs : goSlice ns.alignments a b = .ok ((ns.alignments.drop a.toNat).take (b - a).toNat) := goSlice_eq_ok.2 ⟨by omega, rfl⟩
    have hl := goSlice_length hs
    generalize hg : (ns.alignments.drop a.toNat).take (b - a).toNat = als at hs hl
    have hin : ∀ x ∈ als, x ∈ ns.alignments := by
      intro x hx
      rw [← hg] at hx
      exact List.mem_of_mem_drop (List.mem_of_mem_take hx)
    have hp : 0 < als.length := by omega
    have e0 : goIndex als 0 = .ok als[0] := goIndex_eq_ok.2 ⟨by omega, by simp⟩
    have e1 : goIndex als ((als.length : Int) - 1) = .ok als[als.length - 1] := goIndex_eq_ok.2 ⟨by omega, by
      rw [show ((als.length : Int) - 1).toNat = als.length - 1 by omega]
      exact List.getElem?_eq_getElem _⟩
    refine ⟨als[0].start, als[als.length - 1].stop, ?_, ?_⟩
    · simp only [NS.coerceRangeToOriginal]
      rw [if_neg (by omega), if_neg (by omega), if_neg (by omega), hs]
      simp only [GoM.bind_ok, e0, e1, GoM.pure_eq]
    · have k0 := hA.inside als[0] (hin _ (List.getElem_mem _))
      have k1 := hA.inside als[als.length - 1] (hin _ (List.getElem_mem _))
      obtain ⟨a1, a2, a3, a4⟩ := k0
      obtain ⟨b1, b2, b3, b4⟩ := k1
      omega
  · have hs : goSlice ns.normalized a b = .ok ((ns.normalized.drop a.toNat).take (b - a).toNat) := goSlice_eq_ok.2 ⟨by omega, rfl⟩
    refine ⟨_, ?_, goSlice_length hs⟩
    simp only [NS.getRange, NS.coerceRangeToNormalized, hs, GoM.bind_ok, GoM.pure_eq]

/-! ## Everything the library does is such a history -/

/-- A property that all calls keep. -/
structure Closed (P : NS → Prop) : Prop where
  call : ∀ {ns ns' : NS} {op : Op}, P ns → op.run ns = .ok ns' → P ns'
  range : ∀ {ns ns' : NS} {r : Rng} {dest : List RuneChange} {io : Int}, P ns → ns.transformRange r dest io = .ok ns' → P ns'
  piece : ∀ {ns : NS} {pat : SplitPattern} {b : Behavior} {ps : List NS}, P ns → ns.split pat b = .ok (.ok ps) → ∀ q ∈ ps, P q

theorem Closed.map {P : NS → Prop} (hP : Closed P) {ns ns' : NS} {f : Rune → Rune} (hn : P ns) (h : ns.map f = .ok ns') : P ns' :=
  hP.call (op := .map f) hn h

theorem Closed.filter {P : NS → Prop} (hP : Closed P) {ns ns' : NS} {f : Rune → Bool} (hn : P ns) (h : ns.filter f = .ok ns') : P ns' :=
  hP.call (op := .filter f) hn h

theorem Closed.trim {P : NS → Prop} (hP : Closed P) {ns ns' : NS} {l r : Bool} (hn : P ns) (h : ns.trimLeftRight l r = .ok ns') : P ns' :=
  hP.call (op := .trim l r) hn h

theorem Closed.prepend {P : NS → Prop} (hP : Closed P) {ns ns' : NS} {t : Str} (hn : P ns) (h : ns.prepend t = .ok ns') : P ns' :=
  hP.call (op := .prepend t) hn h

theorem Closed.replace {P : NS → Prop} (hP : Closed P) {ns ns' : NS} {p : SplitPattern} {c : Str} (hn : P ns)
    (h : ns.replace p c = .ok (.ok ns')) : P ns' :=
  hP.call (op := .replace p c) hn (by simp [Op.run, h])

theorem closed_anyHistory (ns₀ : NS) : Closed (AnyHistory ns₀) where
  call := .call
  range := .range
  piece := fun h hs _ hq => .piece h hs hq

/-- A function for `Split` that leaves and gives strings with the property. -/
def SplitStays (P : NS → Prop) (f : SplitFunc) : Prop := ∀ i ns ns' r, P ns → f i ns = .ok (ns', r) →
  P ns' ∧ ∀ items, r = .ok items → ∀ it ∈ items, P it.ns

/-- The same for `Normalize`. -/
def NormalizeStays (P : NS → Prop) (f : NormalizeFunc) : Prop := ∀ ns ns' e, P ns → f ns = .ok (ns', e) → P ns'

theorem splitLoop_stays {P : NS → Prop} {f : SplitFunc} (hf : SplitStays P f) : ∀ (ps : List Piece) (i : Nat) (old : List Piece) (new : Except Err (List Piece)),
    (∀ sp ∈ ps, P sp.ns) → PTS.splitLoop f i ps = .ok (old, new) →
    (∀ sp ∈ old, P sp.ns) ∧ ∀ l, new = .ok l → ∀ sp ∈ l, P sp.ns := by
  intro ps
  induction ps with
  | nil =>
    intro i old new _ h
    simp [PTS.splitLoop] at h
    obtain ⟨rfl, rfl⟩ := h
    exact ⟨by simp, by rintro _ ⟨⟩; simp⟩
  | cons p ps ih =>
    intro i old new hp h
    have hp1 := hp p (by simp)
    have hp2 : ∀ sp ∈ ps, P sp.ns := fun sp hsp => hp sp (by simp [hsp])
    unfold PTS.splitLoop at h
    cases ht : p.tokens with
    | some ts =>
      simp only [ht, GoM.bind_eq_ok] at h
      obtain ⟨⟨old1, new1⟩, h1, h⟩ := h
      obtain ⟨k1, k2⟩ := ih (i + 1) old1 new1 hp2 h1
      cases new1 with
      | error e =>
        simp at h
        obtain ⟨rfl, rfl⟩ := h
        exact ⟨by simpa using ⟨hp1, k1⟩, nofun⟩
      | ok l =>
        simp at h
        obtain ⟨rfl, rfl⟩ := h
        refine ⟨by simpa using ⟨hp1, k1⟩, ?_⟩
        rintro _ ⟨⟩
        simpa using ⟨hp1, k2 l rfl⟩
    | none =>
      simp only [ht, GoM.bind_eq_ok] at h
      obtain ⟨⟨ns', r⟩, h0, h⟩ := h
      obtain ⟨j1, j2⟩ := hf i p.ns ns' r hp1 h0
      cases r with
      | error e =>
        simp at h
        obtain ⟨rfl, rfl⟩ := h
        exact ⟨by simpa using ⟨j1, hp2⟩, nofun⟩
      | ok items =>
        simp only [GoM.bind_eq_ok] at h
        obtain ⟨⟨old1, new1⟩, h1, h⟩ := h
        obtain ⟨k1, k2⟩ := ih (i + 1) old1 new1 hp2 h1
        cases new1 with
        | error e =>
          simp at h
          obtain ⟨rfl, rfl⟩ := h
          exact ⟨by simpa using ⟨j1, k1⟩, nofun⟩
        | ok l =>
          simp only [GoM.pure_eq, GoM.ok.injEq, Prod.mk.injEq] at h
          obtain ⟨rfl, rfl⟩ := h
          refine ⟨by simpa using ⟨j1, k1⟩, ?_⟩
          rintro _ ⟨⟩ sp hsp
          rcases List.mem_append.1 hsp with hsp | hsp
          · exact j2 items rfl sp (List.mem_filter.1 hsp).1
          · exact k2 l rfl sp hsp

theorem split_stays {P : NS → Prop} {f : SplitFunc} (hf : SplitStays P f) {p p' : PTS} {e : Option Err} (hp : ∀ sp ∈ p.splits, P sp.ns)
    (h : p.split f = .ok (p', e)) : ∀ sp ∈ p'.splits, P sp.ns := by
  unfold PTS.split at h
  simp only [GoM.bind_eq_ok] at h
  obtain ⟨⟨old, new⟩, h1, h⟩ := h
  obtain ⟨k1, k2⟩ := splitLoop_stays hf _ _ _ _ hp h1
  cases new with
  | error e => simp at h; rw [← h.1]; exact k1
  | ok l => simp at h; rw [← h.1]; exact k2 l rfl

theorem normalizeLoop_stays {P : NS → Prop} {f : NormalizeFunc} (hf : NormalizeStays P f) : ∀ (ps ps' : List Piece) (e : Option Err),
    (∀ sp ∈ ps, P sp.ns) → PTS.normalizeLoop f ps = .ok (ps', e) → ∀ sp ∈ ps', P sp.ns := by
  intro ps
  induction ps with
  | nil => intro ps' e _ h; simp [PTS.normalizeLoop] at h; rw [h.1]; simp
  | cons p ps ih =>
    intro ps' e hp h
    have hp1 := hp p (by simp)
    have hp2 : ∀ sp ∈ ps, P sp.ns := fun sp hsp => hp sp (by simp [hsp])
    unfold PTS.normalizeLoop at h
    cases ht : p.tokens with
    | some ts =>
      simp only [ht, GoM.bind_eq_ok] at h
      obtain ⟨⟨l, e1⟩, h1, h⟩ := h
      simp at h
      obtain ⟨rfl, rfl⟩ := h
      simpa using ⟨hp1, ih l e1 hp2 h1⟩
    | none =>
      simp only [ht, GoM.bind_eq_ok] at h
      obtain ⟨⟨ns', e0⟩, h0, h⟩ := h
      have j := hf p.ns ns' e0 hp1 h0
      cases e0 with
      | some e0 =>
        simp at h
        obtain ⟨rfl, rfl⟩ := h
        simpa using ⟨j, hp2⟩
      | none =>
        simp only [GoM.bind_eq_ok] at h
        obtain ⟨⟨l, e1⟩, h1, h⟩ := h
        simp at h
        obtain ⟨rfl, rfl⟩ := h
        simpa using ⟨j, ih l e1 hp2 h1⟩

theorem normalize_stays {P : NS → Prop} {f : NormalizeFunc} (hf : NormalizeStays P f) {p p' : PTS} {e : Option Err} (hp : ∀ sp ∈ p.splits, P sp.ns)
    (h : p.normalize f = .ok (p', e)) : ∀ sp ∈ p'.splits, P sp.ns := by
  unfold PTS.normalize at h
  simp only [GoM.bind_eq_ok] at h
  obtain ⟨⟨l, e1⟩, h1, h⟩ := h
  simp at h
  rw [← h.1]
  exact normalizeLoop_stays hf _ _ _ hp h1

/-! ## The functions of the library -/

theorem splitByPattern_stays {P : NS → Prop} (hP : Closed P) (pat : SplitPattern) (b : Behavior) : SplitStays P (splitByPattern pat b) := by
  intro i ns ns' r hn h
  unfold splitByPattern at h
  simp only [GoM.bind_eq_ok] at h
  obtain ⟨x, h1, h⟩ := h
  cases x with
  | error e => simp at h; obtain ⟨rfl, rfl⟩ := h; exact ⟨hn, nofun⟩
  | ok nss =>
    simp at h
    obtain ⟨rfl, rfl⟩ := h
    refine ⟨hn, ?_⟩
    rintro _ ⟨⟩ it hit
    obtain ⟨q, hq, rfl⟩ := List.mem_map.1 hit
    exact hP.piece hn h1 q hq

theorem metaSpaceSplitFunc_stays {P : NS → Prop} (hP : Closed P) (r : Rune) (b : Bool) : SplitStays P (metaSpaceSplitFunc r b) := by
  have key : ∀ (ns0 ns' : NS) (x : Except Err (List Piece)), P ns0 → (do
      match ← ns0.replace (fromRune 32) (encodeRune r) with
      | .error e => pure (ns0, .error e)
      | .ok ns =>
        match ← ns.split (fromRune r) .mergedWithNext with
        | .error e => pure (ns, .error e)
        | .ok nss => pure (ns, .ok (splitsFromNormalizedStrings nss)) : GoM (NS × Except Err (List Piece))) = .ok (ns', x) →
      P ns' ∧ ∀ items, x = .ok items → ∀ it ∈ items, P it.ns := by
    intro ns0 ns' x hn h
    simp only [GoM.bind_eq_ok] at h
    obtain ⟨y, h1, h⟩ := h
    cases y with
    | error e => simp at h; obtain ⟨rfl, rfl⟩ := h; exact ⟨hn, nofun⟩
    | ok n1 =>
      have hn1 := hP.replace hn h1
      simp only [GoM.bind_eq_ok] at h
      obtain ⟨z, h2, h⟩ := h
      cases z with
      | error e => simp at h; obtain ⟨rfl, rfl⟩ := h; exact ⟨hn1, nofun⟩
      | ok nss =>
        simp at h
        obtain ⟨rfl, rfl⟩ := h
        refine ⟨hn1, ?_⟩
        rintro _ ⟨⟩ it hit
        obtain ⟨q, hq, rfl⟩ := List.mem_map.1 hit
        exact hP.piece hn1 h2 q hq
  intro i ns ns' x hn h
  unfold metaSpaceSplitFunc at h
  by_cases hc : b = true ∧ (!(encodeRune r).isPrefixOf ns.get) = true
  · simp only [if_pos hc] at h
    obtain ⟨n0, h0, h⟩ := GoM.bind_eq_ok.1 h
    exact key n0 ns' x (hP.prepend hn h0) h
  · simp only [if_neg hc] at h
    exact key ns ns' x hn h

theorem byteLevelSplitFunc_stays {P : NS → Prop} (hP : Closed P) (e : List Rune → Except Err (List (Nat × Nat))) (b : Bool) : SplitStays P (byteLevelSplitFunc e b) := by
  have key : ∀ (ns0 ns' : NS) (x : Except Err (List Piece)), P ns0 → (do
      match ← ns0.split (fromRegexp2 e) .isolated with
      | .error e => pure (ns0, .error e)
      | .ok nss => pure (ns0, .ok (splitsFromNormalizedStrings nss)) : GoM (NS × Except Err (List Piece))) = .ok (ns', x) →
      P ns' ∧ ∀ items, x = .ok items → ∀ it ∈ items, P it.ns :=
    fun ns0 ns' x hn h => splitByPattern_stays hP (fromRegexp2 e) .isolated 0 ns0 ns' x hn h
  intro i ns ns' x hn h
  unfold byteLevelSplitFunc at h
  by_cases hc : b = true ∧ (!startsWithWhitespace ns.get) = true
  · simp only [if_pos hc] at h
    obtain ⟨n0, h0, h⟩ := GoM.bind_eq_ok.1 h
    exact key n0 ns' x (hP.prepend hn h0) h
  · simp only [if_neg hc] at h
    exact key ns ns' x hn h

theorem byteLevelNormalize_stays {P : NS → Prop} (hP : Closed P) : NormalizeStays P byteLevelNormalize := by
  intro ns ns' e hn h
  unfold byteLevelNormalize at h
  simp only [GoM.bind_eq_ok, GoM.pure_eq, GoM.ok.injEq, Prod.mk.injEq] at h
  obtain ⟨_, -, n1, h1, rfl, -⟩ := h
  exact hP.range hn h1

theorem bertNormalize_stays {P : NS → Prop} (hP : Closed P) (u : Uni) (c : BertCfg) : NormalizeStays P (bertNormalize u c) := by
  intro ns ns' e hn h
  have keep : ∀ {c : Bool} {a b : NS} {x : GoM NS}, P a → (∀ b, x = .ok b → P b) →
      (if c = true then x else pure a) = .ok b → P b := by
    intro c a b x ha hx h
    cases c with
    | false => simp at h; rw [← h]; exact ha
    | true => exact hx b h
  rw [bertNormalize_steps] at h
  obtain ⟨n1, h1, h⟩ := GoM.bind_eq_ok.1 h
  have k1 : P n1 := keep hn (fun b hb => by
    unfold cleanText at hb
    obtain ⟨n0, g1, g2⟩ := GoM.bind_eq_ok.1 hb
    exact hP.map (hP.filter hn g1) g2) h1
  obtain ⟨n2, h2, h⟩ := GoM.bind_eq_ok.1 h
  have k2 : P n2 := keep k1 (fun b hb => by unfold handleChineseChars at hb; exact hP.range k1 hb) h2
  obtain ⟨n3, h3, h⟩ := GoM.bind_eq_ok.1 h
  have k3 : P n3 := keep k2 (fun b hb => hP.filter k2 hb) h3
  obtain ⟨n4, h4, h⟩ := GoM.bind_eq_ok.1 h
  have k4 : P n4 := keep k3 (fun b hb => hP.map k3 hb) h4
  simp at h
  rw [← h.1]
  exact k4

theorem sequenceNormalize_stays {P : NS → Prop} : ∀ fs : List NormalizeFunc, (∀ f ∈ fs, NormalizeStays P f) → NormalizeStays P (sequenceNormalize fs) := by
  intro fs
  induction fs with
  | nil => intro _ ns ns' e hn h; simp [sequenceNormalize] at h; rw [← h.1]; exact hn
  | cons f fs ih =>
    intro hf ns ns' e hn h
    unfold sequenceNormalize at h
    simp only [GoM.bind_eq_ok] at h
    obtain ⟨⟨n1, e1⟩, h1, h⟩ := h
    have := hf f (by simp) ns n1 e1 hn h1
    cases e1 with
    | some e1 => simp at h; rw [← h.1]; exact this
    | none => exact ih (fun g hg => hf g (by simp [hg])) n1 ns' e this h

theorem LibNormalizer.stays {P : NS → Prop} (hP : Closed P) {u : Uni} {f : NormalizeFunc} (h : LibNormalizer u f) : NormalizeStays P f := by
  induction h with
  | lowerCase =>
    intro ns ns' e hn h
    simp only [lowerCaseNormalize, GoM.bind_eq_ok, GoM.pure_eq, GoM.ok.injEq, Prod.mk.injEq] at h
    obtain ⟨n1, h1, rfl, -⟩ := h
    exact hP.map hn h1
  | strip l r =>
    intro ns ns' e hn h
    simp only [stripNormalize, GoM.bind_eq_ok, GoM.pure_eq, GoM.ok.injEq, Prod.mk.injEq] at h
    obtain ⟨n1, h1, rfl, -⟩ := h
    exact hP.trim hn h1
  | bert c => exact bertNormalize_stays hP u c
  | sequence _ ih => exact sequenceNormalize_stays _ ih

theorem LibStep.stays {P : NS → Prop} (hP : Closed P) {u : Uni} {f : PreTokenizer} (h : LibStep u f) {p p' : PTS} {e : Option Err} (hp : ∀ sp ∈ p.splits, P sp.ns)
    (hr : f p = .ok (p', e)) : ∀ sp ∈ p'.splits, P sp.ns := by
  cases h with
  | whiteSpaceSplit => exact split_stays (splitByPattern_stays hP _ _) hp hr
  | bert =>
    unfold bertPreTokenize at hr
    obtain ⟨⟨p1, e1⟩, h1, hr⟩ := GoM.bind_eq_ok.1 hr
    have k := split_stays (splitByPattern_stays hP _ _) hp h1
    cases e1 with
    | some e1 => simp at hr; rw [← hr.1]; exact k
    | none => exact split_stays (splitByPattern_stays hP _ _) k hr
  | runeDelimiter d => exact split_stays (splitByPattern_stays hP _ _) hp hr
  | whiteSpace _ => exact split_stays (splitByPattern_stays hP _ _) hp hr
  | metaSpace r b => exact split_stays (metaSpaceSplitFunc_stays hP r b) hp hr
  | byteLevel b _ =>
    unfold Verif.byteLevel at hr
    obtain ⟨⟨p1, e1⟩, h1, hr⟩ := GoM.bind_eq_ok.1 hr
    have k := split_stays (byteLevelSplitFunc_stays hP _ b) hp h1
    cases e1 with
    | some e1 => simp at hr; rw [← hr.1]; exact k
    | none => exact normalize_stays (byteLevelNormalize_stays hP) k hr
  | normalize hf => exact normalize_stays (hf.stays hP) hp hr
  | tokenize g =>
    simp only [PTS.tokenize, GoM.bind_eq_ok, GoM.pure_eq, GoM.ok.injEq, Prod.mk.injEq] at hr
    obtain ⟨⟨l, e1⟩, h1, rfl, -⟩ := hr
    have hm := tokenizeLoop_strings _ h1
    intro sp hsp
    have : sp.ns ∈ p.splits.map (·.ns) := by rw [← hm]; exact List.mem_map_of_mem hsp
    obtain ⟨q, hq, hq'⟩ := List.mem_map.1 this
    rw [← hq']
    exact hp q hq

/-- **C136, the library.** Each split after any run of the library's steps on any bytes is got by such calls. -/
theorem C136_library {u : Uni} {s : Str} {p : PTS} (h : LibRun u s p) : ∀ sp ∈ p.splits, AnyHistory (NS.fromString s) sp.ns := by
  induction h with
  | start => intro sp hsp; simp [PTS.fromString, PTS.fromNormalizedString] at hsp; subst hsp; exact .none
  | step _ hs hr ih => exact hs.stays (closed_anyHistory _) ih hr

/-- **C136, rows.** The offsets of an encoding after any run of the library's steps on any bytes, for tokens of any kind on non-empty
parts of their splits, lie in the input, but for ends that may be two bytes beyond. -/
theorem C136_rows {u : Uni} {s : Str} {p : PTS} (h : LibRun u s p) {w ty : Int} {enc : Encoding}
    (ht : ∀ sp ∈ p.splits, ∀ t ∈ sp.tokens.getD [], t.offsets.start < t.offsets.stop) (he : p.intoEncoding w ty = .ok (.ok enc)) :
    ∀ o ∈ enc.offsets, 0 ≤ o.start ∧ o.start ≤ s.length ∧ 0 ≤ o.stop ∧ o.stop ≤ s.length + 2 := by
  intro o ho
  obtain ⟨en, hen, hrow⟩ := (C133_offsets he).exists_right ho
  obtain ⟨h1, h2⟩ := mem_entries w _ _ en hen
  obtain ⟨a, b, -, ha, hb, rfl⟩ := hrow.1 (ht _ h1 _ h2)
  have hA := (C136_library h _ h1).anchored (anchored_fromString s)
  obtain ⟨a1, a2, a3, a4⟩ := hA.inside a (List.mem_of_getElem? ha)
  obtain ⟨b1, b2, b3, b4⟩ := hA.inside b (List.mem_of_getElem? hb)
  simp only
  omega

/-! ## Concrete -/

/-- A bad byte and a letter, put in upper case, with a space in front, cut; the part that is left. -/
example : ∃ n1 n2 n3, (NS.fromString (0xFF :: b!"a b")).map (fun r => if r = 97 then 65 else r) = .ok n1 ∧ n1.prepend b!" " = .ok n2
    ∧ n2.slice (.normalized 4 7) = .ok (some n3) ∧ n3.get = b!"A b" ∧ n3.getOriginal = b!"a b" ∧ n3.originalOffsets = ⟨1, 4⟩ := by
  exact ⟨_, _, _, rfl, rfl, rfl, by decide +kernel⟩

/-- The end of the offsets of a bad byte at the end is two bytes beyond, and `GetOriginalRange` panics there. -/
theorem C136_counterexample : (NS.fromString (b!"a" ++ [0xFF])).coerceRangeToOriginal (.normalized 1 2) = .ok (some (1, 4))
    ∧ (NS.fromString (b!"a" ++ [0xFF])).len = 2
    ∧ (NS.fromString (b!"a" ++ [0xFF])).getOriginalRange (.normalized 1 2) = .panic := by decide +kernel

end Verif
