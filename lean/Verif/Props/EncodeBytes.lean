import Verif.Props.AnyPipeline
import Verif.Props.BytesRegexp
import Verif.Props.BertBytes
import Verif.Model.Notation
import Verif.Props.MachinePipeline

/-! `IntoEncoding` on any bytes (C133): when it panics, for tokens of any kind; why it never does
after WordPiece; and when it does after BPE. -/

set_option autoImplicit false

namespace Verif

/-! ## Specification -/

/-- A token on a non-empty part that is not within the alignments of its string. -/
def OutOfReach (ns : NS) (t : Token) : Prop :=
  t.offsets.start < t.offsets.stop ∧ (t.offsets.start < 0 ∨ (ns.alignments.length : Int) < t.offsets.stop)

/-- The offsets of a row for the token `t` of the split `ns`: for a token on a non-empty part, from the start of the alignment of its
first byte to the end of that of its last, moved by the shift of the split; for one on an empty part, its own, moved by the shift;
for one that ends before it begins, its own. -/
def RowOffsets (ns : NS) (t : Token) (o : ByteOffsets) : Prop :=
  (t.offsets.start < t.offsets.stop → ∃ a b, 0 ≤ t.offsets.start ∧ ns.alignments[t.offsets.start.toNat]? = some a
      ∧ ns.alignments[t.offsets.stop.toNat - 1]? = some b ∧ o = ⟨ns.originalShift + a.start, ns.originalShift + b.stop⟩)
  ∧ (t.offsets.start = t.offsets.stop → o = ⟨ns.originalShift + t.offsets.start, ns.originalShift + t.offsets.stop⟩)
  ∧ (t.offsets.stop < t.offsets.start → o = t.offsets)

/-- Every byte of the text has an alignment. -/
def EveryByte (ns : NS) : Prop := ns.normalized.length ≤ ns.alignments.length

/-! ## When `IntoEncoding` panics -/

theorem tokenOffsets_panic (ns : NS) (t : Token) : PTS.tokenOffsets ns t = .panic ↔ OutOfReach ns t := by
  unfold OutOfReach PTS.tokenOffsets NS.coerceRangeToOriginal
  generalize ha : t.offsets.start = a
  generalize hb : t.offsets.stop = b
  by_cases h1 : b - a = 0
  · simp only [if_pos h1, GoM.bind_ok, GoM.pure_eq]
    exact ⟨nofun, fun h => by omega⟩
  · by_cases h2 : a > b
    · simp only [if_neg h1, if_pos h2, GoM.bind_ok, GoM.pure_eq]
      exact ⟨nofun, fun h => by omega⟩
    · have h3 : ¬ (ns.normalized.length = 0 ∧ a = 0 ∧ b = 0) := by omega
      simp only [if_neg h1, if_neg h2, if_neg h3]
      cases hg : goSlice ns.alignments a b with
      | panic =>
        simp only [GoM.bind_panic, true_iff]
        refine ⟨by omega, ?_⟩
        apply Classical.byContradiction
        intro hc
        unfold goSlice at hg
        rw [if_pos (by omega)] at hg
        cases hg
      | ok als =>
        have hl := goSlice_length hg
        have hin : 0 ≤ a ∧ b ≤ (ns.alignments.length : Int) := by
          unfold goSlice at hg
          split at hg
          · omega
          · cases hg
        obtain ⟨x, hx⟩ : ∃ x, goIndex als 0 = .ok x := by
          cases als with
          | nil => simp at hl; omega
          | cons x xs => exact ⟨x, by simp [goIndex]⟩
        obtain ⟨y, hy⟩ : ∃ y, goIndex als ((als.length : Int) - 1) = .ok y := by
          refine ⟨als[als.length - 1]'(by omega), ?_⟩
          unfold goIndex
          have : ((als.length : Int) - 1).toNat = als.length - 1 := by omega
          rw [if_pos (by omega), this, List.getElem?_eq_getElem (by omega)]
        simp only [GoM.bind_ok, hx, hy, GoM.pure_eq]
        exact ⟨nofun, fun h => by omega⟩

theorem encodeTokens_panic (ns : NS) (w ty : Int) : ∀ ts : List Token,
    PTS.encodeTokens ns w ty ts = .panic ↔ ∃ t ∈ ts, OutOfReach ns t := by
  intro ts
  induction ts with
  | nil => simp [PTS.encodeTokens]
  | cons t ts ih =>
    unfold PTS.encodeTokens
    cases h : PTS.tokenOffsets ns t with
    | panic => simp [(tokenOffsets_panic ns t).1 h]
    | ok o =>
      have hn : ¬ OutOfReach ns t := fun hc => by rw [(tokenOffsets_panic ns t).2 hc] at h; cases h
      simp only [GoM.bind_ok, List.mem_cons, exists_eq_or_imp, hn, false_or, ← ih]
      cases PTS.encodeTokens ns w ty ts <;> simp

theorem encodeSplits_panic (w ty : Int) : ∀ (ps : List Piece) (i : Nat),
    PTS.encodeSplits w ty i ps = .panic ↔ ∃ sp ∈ ps, ∃ t ∈ sp.tokens.getD [], OutOfReach sp.ns t := by
  intro ps
  induction ps with
  | nil => intro i; simp [PTS.encodeSplits]
  | cons sp ps ih =>
    intro i
    unfold PTS.encodeSplits
    have h0 := encodeTokens_panic sp.ns (if w < 0 then (i : Int) else w) ty (sp.tokens.getD [])
    cases h : PTS.encodeTokens sp.ns (if w < 0 then (i : Int) else w) ty (sp.tokens.getD []) with
    | panic => simp [h, h0.1 h]
    | ok here =>
      have hn : ¬ ∃ t ∈ sp.tokens.getD [], OutOfReach sp.ns t := fun hc => by rw [h0.2 hc] at h; cases h
      simp only [h, GoM.bind_ok, List.mem_cons, exists_eq_or_imp, hn, false_or, ← ih (i + 1)]
      cases PTS.encodeSplits w ty (i + 1) ps <;> simp

/-- **C133, panics.** On any `PreTokenizedString`, `IntoEncoding` panics exactly when every split has
tokens and some token stands on a non-empty part that is not within the alignments of its split. -/
theorem C133_panics (p : PTS) (w ty : Int) : p.intoEncoding w ty = .panic
    ↔ (∀ sp ∈ p.splits, sp.tokens ≠ none) ∧ ∃ sp ∈ p.splits, ∃ ts, sp.tokens = some ts ∧ ∃ t ∈ ts, OutOfReach sp.ns t := by
  have hall : p.allSplitsHaveTokens = true ↔ ∀ sp ∈ p.splits, sp.tokens ≠ none := by
    simp only [PTS.allSplitsHaveTokens, List.all_eq_true, Option.isSome_iff_ne_none]
  have hex : (∃ sp ∈ p.splits, ∃ ts, sp.tokens = some ts ∧ ∃ t ∈ ts, OutOfReach sp.ns t)
      ↔ ∃ sp ∈ p.splits, ∃ t ∈ sp.tokens.getD [], OutOfReach sp.ns t := by
    constructor
    · rintro ⟨sp, h1, ts, h2, t, h3, h4⟩; exact ⟨sp, h1, t, by rw [h2]; exact h3, h4⟩
    · rintro ⟨sp, h1, t, h2, h3⟩
      cases h : sp.tokens with
      | none => rw [h] at h2; simp at h2
      | some ts => rw [h] at h2; exact ⟨sp, h1, ts, h, t, h2, h3⟩
  rw [hex]
  unfold PTS.intoEncoding
  by_cases h0 : p.splits.length = 0
  · rw [if_pos h0]
    have : p.splits = [] := List.length_eq_zero_iff.1 h0
    simp [this]
  · rw [if_neg h0]
    by_cases ha : p.allSplitsHaveTokens = true
    · rw [if_neg (by simp [ha]), ← encodeSplits_panic w ty p.splits 0]
      constructor
      · intro h
        refine ⟨hall.1 ha, ?_⟩
        cases hs : PTS.encodeSplits w ty 0 p.splits with
        | panic => rfl
        | ok x => rw [hs] at h; simp at h
      · intro h; rw [h.2]; rfl
    · rw [if_pos (by simpa using ha)]
      exact ⟨nofun, fun h => absurd (hall.2 h.1) ha⟩

theorem tokenOffsets_row {ns : NS} {t : Token} {o : ByteOffsets} (h : PTS.tokenOffsets ns t = .ok o) : RowOffsets ns t o := by
  unfold PTS.tokenOffsets NS.coerceRangeToOriginal at h
  unfold RowOffsets
  generalize ha : t.offsets.start = a at *
  generalize hb : t.offsets.stop = b at *
  by_cases h1 : b - a = 0
  · simp only [if_pos h1, GoM.bind_ok, GoM.pure_eq, GoM.ok.injEq] at h
    refine ⟨fun _ => by omega, fun _ => by rw [← h]; rfl, fun _ => by omega⟩
  · by_cases h2 : a > b
    · simp only [if_neg h1, if_pos h2, GoM.bind_ok, GoM.pure_eq, GoM.ok.injEq] at h
      exact ⟨fun _ => by omega, fun _ => by omega, fun _ => h.symm⟩
    · have h3 : ¬ (ns.normalized.length = 0 ∧ a = 0 ∧ b = 0) := by omega
      simp only [if_neg h1, if_neg h2, if_neg h3, GoM.bind_eq_ok, GoM.pure_eq, GoM.ok.injEq] at h
      obtain ⟨r, ⟨als, hs, f, hf, l, hl, rfl⟩, h⟩ := h
      have hlen := goSlice_length hs
      obtain ⟨⟨k1, k2, k3⟩, e⟩ := goSlice_eq_ok.1 hs
      obtain ⟨-, hf⟩ := goIndex_eq_ok.1 hf
      obtain ⟨-, hl⟩ := goIndex_eq_ok.1 hl
      refine ⟨fun _ => ⟨f, l, k1, ?_, ?_, ?_⟩, fun _ => by omega, fun _ => by omega⟩
      · rw [e, List.getElem?_take, if_pos (by simp; omega)] at hf
        simpa using hf
      · have e1 : ((als.length : Int) - 1).toNat = (b - a).toNat - 1 := by omega
        rw [e1, e, List.getElem?_take, if_pos (by omega), List.getElem?_drop] at hl
        have e2 : a.toNat + ((b - a).toNat - 1) = b.toNat - 1 := by omega
        rw [e2] at hl
        exact hl
      · simp only [GoM.ok.injEq] at h
        rw [← h]; rfl

/-- **C133, offsets.** On any `PreTokenizedString` with any tokens, when `IntoEncoding` succeeds, the offsets of each row. -/
theorem C133_offsets {p : PTS} {w ty : Int} {enc : Encoding} (h : p.intoEncoding w ty = .ok (.ok enc)) :
    All2 (fun o (en : Entry) => RowOffsets en.piece.ns en.token o) enc.offsets (entries w 0 p.splits) := by
  obtain ⟨-, -, -, -, -, -, -, hoff⟩ := (C27_intoEncoding p w ty).2 enc h
  exact hoff.imp fun o en _ _ ho => tokenOffsets_row ho

/-! ## Every byte keeps an alignment -/

theorem fits_fromString (s : Str) : EveryByte (NS.fromString s) := (roomy_fromString s).len

theorem fits_transformNormalized {ns ns' : NS} (hf : EveryByte ns) {a b io : Int} {dest : List RuneChange}
    (h : ns.transformNormalized a b dest io = .ok ns') : EveryByte ns' := by
  obtain ⟨nPre, nInit, nTail, nPost, aPre, aPost, ks, h1, h2, -, h4, h5, h6, h7, h8, -, -, -, rfl⟩ := transformNormalized_ok h
  unfold EveryByte at hf ⊢
  have hn : (aligns ((dest.map fun rc => sanitize rc.rune).zip (ks.map (pickAt ns.alignments)))).length
      = (encodeRunes (dest.map fun rc => sanitize rc.rune)).length := by
    rw [aligns_length, text]
    congr 2
    rw [List.map_fst_zip]
    simp [h8]
  rw [h1] at hf
  simp only [List.length_append, hn, h5, h6, List.length_take, List.length_drop] at hf h4 ⊢
  omega

theorem fits_transformRange {ns ns' : NS} (hf : EveryByte ns) {r : Rng} {io : Int} {dest : List RuneChange}
    (h : ns.transformRange r dest io = .ok ns') : EveryByte ns' := by
  unfold NS.transformRange at h
  split at h
  · cases h; exact hf
  · exact fits_transformNormalized hf h

theorem fits_filter {ns ns' : NS} (hf : EveryByte ns) {keep : Rune → Bool} (h : ns.filter keep = .ok ns') : EveryByte ns' := by
  unfold NS.filter at h
  exact fits_transformRange hf h

theorem fits_map {ns ns' : NS} (hf : EveryByte ns) {f : Rune → Rune} (h : ns.map f = .ok ns') : EveryByte ns' := by
  unfold NS.map at h
  exact fits_transformRange hf h

theorem fits_trim {ns ns' : NS} (hf : EveryByte ns) {l r : Bool} (h : ns.trimLeftRight l r = .ok ns') : EveryByte ns' := by
  unfold NS.trimLeftRight at h
  dsimp only at h
  generalize (if l = true then countLeadingSpaces (runesOf ns.normalized) else 0) = x at h
  generalize (if r = true ∧ x < (runesOf ns.normalized).length then countTrailingSpaces (runesOf ns.normalized) else 0) = y at h
  by_cases hc : x = 0 ∧ y = 0
  · rw [if_pos hc] at h; cases h; exact hf
  · rw [if_neg hc] at h; exact fits_transformRange hf h

theorem fits_prepend {ns ns' : NS} (hf : EveryByte ns) {s : Str} (h : ns.prepend s = .ok ns') : EveryByte ns' := by
  unfold NS.prepend at h
  split at h
  · cases h; exact hf
  · simp only [GoM.bind_eq_ok] at h
    obtain ⟨_, -, h⟩ := h
    exact fits_transformRange hf h

theorem fits_append {ns ns' : NS} (hf : EveryByte ns) {s : Str} (h : ns.append s = .ok ns') : EveryByte ns' := by
  unfold NS.append at h
  split at h
  · cases h; exact hf
  · simp only [GoM.bind_eq_ok] at h
    obtain ⟨_, -, h⟩ := h
    exact fits_transformRange hf h

theorem fits_replace {ns ns' : NS} (hf : EveryByte ns) {p : SplitPattern} {c : Str} (h : ns.replace p c = .ok (.ok ns')) : EveryByte ns' := by
  unfold NS.replace at h
  rw [GoM.bind_eq_ok] at h
  obtain ⟨r, -, h⟩ := h
  cases r with
  | error e => simp at h
  | ok caps =>
    simp only [GoM.bind_eq_ok, GoM.pure_eq, GoM.ok.injEq, Except.ok.injEq] at h
    obtain ⟨st, h1, rfl⟩ := h
    refine goFor_inv (P := fun st : NS × Int => EveryByte st.1) caps (ns, 0) st _ hf ?_ h1
    intro s x s' _ hs hx
    unfold NS.replaceStep at hx
    split at hx
    · cases hx; exact hs
    · obtain ⟨n0, off⟩ := s
      simp only [GoM.bind_eq_ok, GoM.pure_eq, GoM.ok.injEq] at hx
      obtain ⟨_, -, n1, hx, rfl⟩ := hx
      exact fits_transformRange (ns := n0) hs hx

/-- A slice has exactly one alignment per byte. -/
theorem even_slice {ns ns' : NS} {r : Rng} (h : ns.slice r = .ok (some ns')) : ns'.alignments.length = ns'.normalized.length := by
  unfold NS.slice at h
  split at h
  · cases h
  · cases hc : ns.coerceRangeToNormalized r with
    | none => rw [hc] at h; simp at h
    | some ab =>
      obtain ⟨na, nb⟩ := ab
      simp only [hc, GoM.bind_eq_ok] at h
      obtain ⟨o, -, h⟩ := h
      cases o with
      | none => simp at h
      | some ob =>
        obtain ⟨oa, ob⟩ := ob
        simp only [GoM.bind_eq_ok, GoM.pure_eq, GoM.ok.injEq, Option.some.injEq] at h
        obtain ⟨_, -, nm, h1, als, h2, rfl⟩ := h
        have hl := goSlice_length h2
        unfold NS.getRange at h1
        simp only [hc, GoM.bind_eq_ok, GoM.pure_eq, GoM.ok.injEq] at h1
        obtain ⟨t, h3, rfl⟩ := h1
        have ht := goSlice_length h3
        simp only [Option.getD_some, List.length_map]
        omega

theorem even_sliceAll {ns : NS} : ∀ (ms : List SplitMatch) (ps : List NS), ns.sliceAll ms = .ok (.ok ps) →
    ∀ q ∈ ps, q.alignments.length = q.normalized.length := by
  intro ms
  induction ms with
  | nil => intro ps h q hq; simp [NS.sliceAll] at h; subst h; simp at hq
  | cons x ms ih =>
    intro ps h
    unfold NS.sliceAll at h
    split at h
    · exact ih ps h
    · rw [GoM.bind_eq_ok] at h
      obtain ⟨o, h1, h⟩ := h
      cases o with
      | none => simp at h
      | some piece =>
        simp only [GoM.bind_eq_ok] at h
        obtain ⟨r, h2, h⟩ := h
        cases r with
        | error e => simp at h
        | ok rest =>
          simp at h
          subst h
          intro q hq
          rcases List.mem_cons.1 hq with rfl | hq
          · exact even_slice h1
          · exact ih rest h2 q hq

theorem even_split {ns : NS} {pat : SplitPattern} {b : Behavior} {ps : List NS} (h : ns.split pat b = .ok (.ok ps)) :
    ∀ q ∈ ps, q.alignments.length = q.normalized.length := by
  unfold NS.split at h
  rw [GoM.bind_eq_ok] at h
  obtain ⟨r, -, h⟩ := h
  cases r with
  | error e => simp at h
  | ok caps => exact even_sliceAll _ _ h

theorem fits_split {ns : NS} {pat : SplitPattern} {b : Behavior} {ps : List NS} (h : ns.split pat b = .ok (.ok ps)) :
    ∀ q ∈ ps, EveryByte q := fun q hq => Nat.le_of_eq (even_split h q hq).symm

/-- A function for `Split` that leaves and gives strings whose bytes all have an alignment. -/
def SplitFits (f : SplitFunc) : Prop := ∀ i ns ns' r, EveryByte ns → f i ns = .ok (ns', r) →
  EveryByte ns' ∧ ∀ items, r = .ok items → ∀ it ∈ items, EveryByte it.ns

/-- The same for `Normalize`. -/
def NormalizeFits (f : NormalizeFunc) : Prop := ∀ ns ns' e, EveryByte ns → f ns = .ok (ns', e) → EveryByte ns'

theorem splitLoop_fits {f : SplitFunc} (hf : SplitFits f) : ∀ (ps : List Piece) (i : Nat) (old : List Piece) (new : Except Err (List Piece)),
    (∀ sp ∈ ps, EveryByte sp.ns) → PTS.splitLoop f i ps = .ok (old, new) →
    (∀ sp ∈ old, EveryByte sp.ns) ∧ ∀ l, new = .ok l → ∀ sp ∈ l, EveryByte sp.ns := by
  intro ps
  induction ps with
  | nil =>
    intro i old new _ h
    simp [PTS.splitLoop] at h
    obtain ⟨rfl, rfl⟩ := h
    exact ⟨by simp, by rintro _ ⟨⟩; simp⟩
  | cons p ps ih =>
    intro i old new hp h
    have hp1 := hp p (by simp)
    have hp2 : ∀ sp ∈ ps, EveryByte sp.ns := fun sp hsp => hp sp (by simp [hsp])
    unfold PTS.splitLoop at h
    cases ht : p.tokens with
    | some ts =>
      simp only [ht, GoM.bind_eq_ok] at h
      obtain ⟨⟨old1, new1⟩, h1, h⟩ := h
      obtain ⟨k1, k2⟩ := ih (i + 1) old1 new1 hp2 h1
      cases new1 with
      | error e =>
        simp at h
        obtain ⟨rfl, rfl⟩ := h
        exact ⟨by simpa using ⟨hp1, k1⟩, nofun⟩
      | ok l =>
        simp at h
        obtain ⟨rfl, rfl⟩ := h
        refine ⟨by simpa using ⟨hp1, k1⟩, ?_⟩
        rintro _ ⟨⟩
        simpa using ⟨hp1, k2 l rfl⟩
    | none =>
      simp only [ht, GoM.bind_eq_ok] at h
      obtain ⟨⟨ns', r⟩, h0, h⟩ := h
      obtain ⟨j1, j2⟩ := hf i p.ns ns' r hp1 h0
      cases r with
      | error e =>
        simp at h
        obtain ⟨rfl, rfl⟩ := h
        exact ⟨by simpa using ⟨j1, hp2⟩, nofun⟩
      | ok items =>
        simp only [GoM.bind_eq_ok] at h
        obtain ⟨⟨old1, new1⟩, h1, h⟩ := h
        obtain ⟨k1, k2⟩ := ih (i + 1) old1 new1 hp2 h1
        cases new1 with
        | error e =>
          simp at h
          obtain ⟨rfl, rfl⟩ := h
          exact ⟨by simpa using ⟨j1, k1⟩, nofun⟩
        | ok l =>
          simp only [GoM.pure_eq, GoM.ok.injEq, Prod.mk.injEq] at h
          obtain ⟨rfl, rfl⟩ := h
          refine ⟨by simpa using ⟨j1, k1⟩, ?_⟩
          rintro _ ⟨⟩ sp hsp
          rcases List.mem_append.1 hsp with hsp | hsp
          · exact j2 items rfl sp (List.mem_filter.1 hsp).1
          · exact k2 l rfl sp hsp

theorem split_fits {f : SplitFunc} (hf : SplitFits f) {p p' : PTS} {e : Option Err} (hp : ∀ sp ∈ p.splits, EveryByte sp.ns)
    (h : p.split f = .ok (p', e)) : ∀ sp ∈ p'.splits, EveryByte sp.ns := by
  unfold PTS.split at h
  simp only [GoM.bind_eq_ok] at h
  obtain ⟨⟨old, new⟩, h1, h⟩ := h
  obtain ⟨k1, k2⟩ := splitLoop_fits hf _ _ _ _ hp h1
  cases new with
  | error e => simp at h; rw [← h.1]; exact k1
  | ok l => simp at h; rw [← h.1]; exact k2 l rfl

theorem normalizeLoop_fits {f : NormalizeFunc} (hf : NormalizeFits f) : ∀ (ps ps' : List Piece) (e : Option Err),
    (∀ sp ∈ ps, EveryByte sp.ns) → PTS.normalizeLoop f ps = .ok (ps', e) → ∀ sp ∈ ps', EveryByte sp.ns := by
  intro ps
  induction ps with
  | nil => intro ps' e _ h; simp [PTS.normalizeLoop] at h; rw [h.1]; simp
  | cons p ps ih =>
    intro ps' e hp h
    have hp1 := hp p (by simp)
    have hp2 : ∀ sp ∈ ps, EveryByte sp.ns := fun sp hsp => hp sp (by simp [hsp])
    unfold PTS.normalizeLoop at h
    cases ht : p.tokens with
    | some ts =>
      simp only [ht, GoM.bind_eq_ok] at h
      obtain ⟨⟨l, e1⟩, h1, h⟩ := h
      simp at h
      obtain ⟨rfl, rfl⟩ := h
      simpa using ⟨hp1, ih l e1 hp2 h1⟩
    | none =>
      simp only [ht, GoM.bind_eq_ok] at h
      obtain ⟨⟨ns', e0⟩, h0, h⟩ := h
      have j := hf p.ns ns' e0 hp1 h0
      cases e0 with
      | some e0 =>
        simp at h
        obtain ⟨rfl, rfl⟩ := h
        simpa using ⟨j, hp2⟩
      | none =>
        simp only [GoM.bind_eq_ok] at h
        obtain ⟨⟨l, e1⟩, h1, h⟩ := h
        simp at h
        obtain ⟨rfl, rfl⟩ := h
        simpa using ⟨j, ih l e1 hp2 h1⟩

theorem normalize_fits {f : NormalizeFunc} (hf : NormalizeFits f) {p p' : PTS} {e : Option Err} (hp : ∀ sp ∈ p.splits, EveryByte sp.ns)
    (h : p.normalize f = .ok (p', e)) : ∀ sp ∈ p'.splits, EveryByte sp.ns := by
  unfold PTS.normalize at h
  simp only [GoM.bind_eq_ok] at h
  obtain ⟨⟨l, e1⟩, h1, h⟩ := h
  simp at h
  rw [← h.1]
  exact normalizeLoop_fits hf _ _ _ hp h1

/-! ## The functions of the library -/

theorem splitByPattern_fits (pat : SplitPattern) (b : Behavior) : SplitFits (splitByPattern pat b) := by
  intro i ns ns' r hn h
  unfold splitByPattern at h
  simp only [GoM.bind_eq_ok] at h
  obtain ⟨x, h1, h⟩ := h
  cases x with
  | error e => simp at h; obtain ⟨rfl, rfl⟩ := h; exact ⟨hn, nofun⟩
  | ok nss =>
    simp at h
    obtain ⟨rfl, rfl⟩ := h
    refine ⟨hn, ?_⟩
    rintro _ ⟨⟩ it hit
    obtain ⟨q, hq, rfl⟩ := List.mem_map.1 hit
    exact fits_split h1 q hq

theorem metaSpaceSplitFunc_fits (r : Rune) (b : Bool) : SplitFits (metaSpaceSplitFunc r b) := by
  have key : ∀ (ns0 ns' : NS) (x : Except Err (List Piece)), EveryByte ns0 → (do
      match ← ns0.replace (fromRune 32) (encodeRune r) with
      | .error e => pure (ns0, .error e)
      | .ok ns =>
        match ← ns.split (fromRune r) .mergedWithNext with
        | .error e => pure (ns, .error e)
        | .ok nss => pure (ns, .ok (splitsFromNormalizedStrings nss)) : GoM (NS × Except Err (List Piece))) = .ok (ns', x) →
      EveryByte ns' ∧ ∀ items, x = .ok items → ∀ it ∈ items, EveryByte it.ns := by
    intro ns0 ns' x hn h
    simp only [GoM.bind_eq_ok] at h
    obtain ⟨y, h1, h⟩ := h
    cases y with
    | error e => simp at h; obtain ⟨rfl, rfl⟩ := h; exact ⟨hn, nofun⟩
    | ok n1 =>
      have hn1 := fits_replace hn h1
      simp only [GoM.bind_eq_ok] at h
      obtain ⟨z, h2, h⟩ := h
      cases z with
      | error e => simp at h; obtain ⟨rfl, rfl⟩ := h; exact ⟨hn1, nofun⟩
      | ok nss =>
        simp at h
        obtain ⟨rfl, rfl⟩ := h
        refine ⟨hn1, ?_⟩
        rintro _ ⟨⟩ it hit
        obtain ⟨q, hq, rfl⟩ := List.mem_map.1 hit
        exact fits_split h2 q hq
  intro i ns ns' x hn h
  unfold metaSpaceSplitFunc at h
  by_cases hc : b = true ∧ (!(encodeRune r).isPrefixOf ns.get) = true
  · simp only [if_pos hc] at h
    obtain ⟨n0, h0, h⟩ := GoM.bind_eq_ok.1 h
    exact key n0 ns' x (fits_prepend hn h0) h
  · simp only [if_neg hc] at h
    exact key ns ns' x hn h

theorem byteLevelSplitFunc_fits (e : List Rune → Except Err (List (Nat × Nat))) (b : Bool) : SplitFits (byteLevelSplitFunc e b) := by
  have key : ∀ (ns0 ns' : NS) (x : Except Err (List Piece)), EveryByte ns0 → (do
      match ← ns0.split (fromRegexp2 e) .isolated with
      | .error e => pure (ns0, .error e)
      | .ok nss => pure (ns0, .ok (splitsFromNormalizedStrings nss)) : GoM (NS × Except Err (List Piece))) = .ok (ns', x) →
      EveryByte ns' ∧ ∀ items, x = .ok items → ∀ it ∈ items, EveryByte it.ns :=
    fun ns0 ns' x hn h => splitByPattern_fits (fromRegexp2 e) .isolated 0 ns0 ns' x hn h
  intro i ns ns' x hn h
  unfold byteLevelSplitFunc at h
  by_cases hc : b = true ∧ (!startsWithWhitespace ns.get) = true
  · simp only [if_pos hc] at h
    obtain ⟨n0, h0, h⟩ := GoM.bind_eq_ok.1 h
    exact key n0 ns' x (fits_prepend hn h0) h
  · simp only [if_neg hc] at h
    exact key ns ns' x hn h

theorem byteLevelNormalize_fits : NormalizeFits byteLevelNormalize := by
  intro ns ns' e hn h
  unfold byteLevelNormalize at h
  simp only [GoM.bind_eq_ok, GoM.pure_eq, GoM.ok.injEq, Prod.mk.injEq] at h
  obtain ⟨_, -, n1, h1, rfl, -⟩ := h
  exact fits_transformRange hn h1

theorem bertNormalize_fits (u : Uni) (c : BertCfg) : NormalizeFits (bertNormalize u c) := by
  intro ns ns' e hn h
  have keep : ∀ {c : Bool} {a b : NS} {x : GoM NS}, EveryByte a → (∀ b, x = .ok b → EveryByte b) →
      (if c = true then x else pure a) = .ok b → EveryByte b := by
    intro c a b x ha hx h
    cases c with
    | false => simp at h; rw [← h]; exact ha
    | true => exact hx b h
  rw [bertNormalize_steps] at h
  obtain ⟨n1, h1, h⟩ := GoM.bind_eq_ok.1 h
  have k1 : EveryByte n1 := keep hn (fun b hb => by
    unfold cleanText at hb
    obtain ⟨n0, g1, g2⟩ := GoM.bind_eq_ok.1 hb
    exact fits_map (fits_filter hn g1) g2) h1
  obtain ⟨n2, h2, h⟩ := GoM.bind_eq_ok.1 h
  have k2 : EveryByte n2 := keep k1 (fun b hb => by unfold handleChineseChars at hb; exact fits_transformRange k1 hb) h2
  obtain ⟨n3, h3, h⟩ := GoM.bind_eq_ok.1 h
  have k3 : EveryByte n3 := keep k2 (fun b hb => fits_filter k2 hb) h3
  obtain ⟨n4, h4, h⟩ := GoM.bind_eq_ok.1 h
  have k4 : EveryByte n4 := keep k3 (fun b hb => fits_map k3 hb) h4
  simp at h
  rw [← h.1]
  exact k4

theorem sequenceNormalize_fits : ∀ fs : List NormalizeFunc, (∀ f ∈ fs, NormalizeFits f) → NormalizeFits (sequenceNormalize fs) := by
  intro fs
  induction fs with
  | nil => intro _ ns ns' e hn h; simp [sequenceNormalize] at h; rw [← h.1]; exact hn
  | cons f fs ih =>
    intro hf ns ns' e hn h
    unfold sequenceNormalize at h
    simp only [GoM.bind_eq_ok] at h
    obtain ⟨⟨n1, e1⟩, h1, h⟩ := h
    have := hf f (by simp) ns n1 e1 hn h1
    cases e1 with
    | some e1 => simp at h; rw [← h.1]; exact this
    | none => exact ih (fun g hg => hf g (by simp [hg])) n1 ns' e this h

theorem LibNormalizer.fits {u : Uni} {f : NormalizeFunc} (h : LibNormalizer u f) : NormalizeFits f := by
  induction h with
  | lowerCase =>
    intro ns ns' e hn h
    simp only [lowerCaseNormalize, GoM.bind_eq_ok, GoM.pure_eq, GoM.ok.injEq, Prod.mk.injEq] at h
    obtain ⟨n1, h1, rfl, -⟩ := h
    exact fits_map hn h1
  | strip l r =>
    intro ns ns' e hn h
    simp only [stripNormalize, GoM.bind_eq_ok, GoM.pure_eq, GoM.ok.injEq, Prod.mk.injEq] at h
    obtain ⟨n1, h1, rfl, -⟩ := h
    exact fits_trim hn h1
  | bert c => exact bertNormalize_fits u c
  | sequence _ ih => exact sequenceNormalize_fits _ ih

theorem LibStep.fits {u : Uni} {f : PreTokenizer} (h : LibStep u f) {p p' : PTS} {e : Option Err} (hp : ∀ sp ∈ p.splits, EveryByte sp.ns)
    (hr : f p = .ok (p', e)) : ∀ sp ∈ p'.splits, EveryByte sp.ns := by
  cases h with
  | whiteSpaceSplit => exact split_fits (splitByPattern_fits _ _) hp hr
  | bert =>
    unfold bertPreTokenize at hr
    obtain ⟨⟨p1, e1⟩, h1, hr⟩ := GoM.bind_eq_ok.1 hr
    have k := split_fits (splitByPattern_fits _ _) hp h1
    cases e1 with
    | some e1 => simp at hr; rw [← hr.1]; exact k
    | none => exact split_fits (splitByPattern_fits _ _) k hr
  | runeDelimiter d => exact split_fits (splitByPattern_fits _ _) hp hr
  | whiteSpace _ => exact split_fits (splitByPattern_fits _ _) hp hr
  | metaSpace r b => exact split_fits (metaSpaceSplitFunc_fits r b) hp hr
  | byteLevel b _ =>
    unfold Verif.byteLevel at hr
    obtain ⟨⟨p1, e1⟩, h1, hr⟩ := GoM.bind_eq_ok.1 hr
    have k := split_fits (byteLevelSplitFunc_fits _ b) hp h1
    cases e1 with
    | some e1 => simp at hr; rw [← hr.1]; exact k
    | none => exact normalize_fits byteLevelNormalize_fits k hr
  | normalize hf => exact normalize_fits hf.fits hp hr
  | tokenize g =>
    simp only [PTS.tokenize, GoM.bind_eq_ok, GoM.pure_eq, GoM.ok.injEq, Prod.mk.injEq] at hr
    obtain ⟨⟨l, e1⟩, h1, rfl, -⟩ := hr
    have hm := tokenizeLoop_strings _ h1
    intro sp hsp
    have : sp.ns ∈ p.splits.map (·.ns) := by rw [← hm]; exact List.mem_map_of_mem hsp
    obtain ⟨q, hq, hq'⟩ := List.mem_map.1 this
    rw [← hq']
    exact hp q hq

/-- **C133, alignments.** After any run of the library on any bytes, every byte of the text of every split
has an alignment. -/
theorem C133_fits {u : Uni} {s : Str} {p : PTS} (h : LibRun u s p) : ∀ sp ∈ p.splits, sp.ns.get.length ≤ sp.ns.alignments.length := by
  induction h with
  | start => intro sp hsp; simp [PTS.fromString, PTS.fromNormalizedString] at hsp; subst hsp; exact fits_fromString s
  | step _ hs hr ih => exact hs.fits ih hr

/-! ## WordPiece and BPE -/

/-- `Tokenize` with a function that gives tokens for every split, and then `IntoEncoding`: it panics exactly when
one of these tokens is out of reach. -/
theorem encode_panic {p : PTS} (hn : ∀ sp ∈ p.splits, sp.tokens = none) (f : NS → GoM (Except Err (List Token)))
    (ts : NS → List Token) (hf : ∀ sp ∈ p.splits, f sp.ns = .ok (.ok (ts sp.ns))) (w ty : Int) :
    ∃ p', p.tokenize f = .ok (p', none) ∧ p'.splits = p.splits.map (fun sp => ⟨sp.ns, some (ts sp.ns)⟩)
      ∧ ((∃ enc, p'.intoEncoding w ty = .ok (.ok enc)) ∨ p'.intoEncoding w ty = .panic)
      ∧ (p'.intoEncoding w ty = .panic ↔ ∃ sp ∈ p.splits, ∃ t ∈ ts sp.ns, OutOfReach sp.ns t) := by
  have htok := C58_tokenize_ok p f ts fun sp hsp _ => hf sp hsp
  have e : p.splits.map (withTokens ts) = p.splits.map (fun sp => ⟨sp.ns, some (ts sp.ns)⟩) := by
    refine List.map_congr_left fun sp hsp => ?_
    simp [withTokens, hn sp hsp]
  rw [e] at htok
  refine ⟨_, htok, rfl, ?_, ?_⟩
  · cases h : PTS.intoEncoding ⟨p.original, p.splits.map (fun sp : Piece => (⟨sp.ns, some (ts sp.ns)⟩ : Piece))⟩ w ty with
    | panic => exact .inr rfl
    | ok x =>
      cases x with
      | ok enc => exact .inl ⟨enc, rfl⟩
      | error err =>
        obtain ⟨sp, hsp, h0⟩ := (C27_intoEncoding _ w ty).1.1 ⟨err, h⟩
        obtain ⟨q, -, rfl⟩ := List.mem_map.1 hsp
        cases h0
  · rw [C133_panics]
    constructor
    · rintro ⟨-, sp, hsp, us, h1, t, h2, h3⟩
      obtain ⟨q, hq, rfl⟩ := List.mem_map.1 hsp
      cases h1
      exact ⟨q, hq, t, h2, h3⟩
    · rintro ⟨sp, hsp, t, h2, h3⟩
      refine ⟨?_, _, List.mem_map_of_mem hsp, _, rfl, t, h2, h3⟩
      intro q hq
      obtain ⟨q', -, rfl⟩ := List.mem_map.1 hq
      simp

/-- **C133, WordPiece.** After any run of the library's pre-tokenizers and normalizers on any bytes, `Tokenize` with a
WordPiece model that has its unknown token, and `IntoEncoding`, succeed. -/
theorem C133_wordPiece {u : Uni} {s : Str} {p : PTS} (h : LibRun u s p) (hn : ∀ sp ∈ p.splits, sp.tokens = none)
    (m : WordPiece) (hunk : m.vocab.getID m.unknownToken ≠ none) (w ty : Int) :
    ∃ p' enc, p.tokenize (fun ns => .ok (m.tokenize ns.get)) = .ok (p', none) ∧ p'.intoEncoding w ty = .ok (.ok enc)
      ∧ All2 (fun (sp' sp : Piece) => sp'.ns = sp.ns ∧ ∃ ts, sp'.tokens = some ts ∧ m.tokenize sp.ns.get = .ok ts)
          p'.splits p.splits := by
  obtain ⟨tok, htok⟩ : ∃ tok : Str → List Token, ∀ s, m.tokenize s = .ok (tok s) :=
    ⟨fun s => match m.tokenize s with | .ok ts => ts | _ => [], by
      intro s
      cases h : m.tokenize s with
      | ok ts => simp only [h]
      | error e => exact absurd ((C36_tiles m s).2.1 e h).2.1 hunk⟩
  obtain ⟨p', h1, h2, h3, h4⟩ := encode_panic hn (fun ns => .ok (m.tokenize ns.get)) (fun ns => tok ns.get)
    (fun sp _ => by simp only [htok]) w ty
  have hno : ¬ p'.intoEncoding w ty = .panic := by
    rw [h4]
    rintro ⟨sp, hsp, t, ht, k1, k2⟩
    have a := C133_fits h sp hsp
    have b := Machine.piece_within m (htok sp.ns.get) t ht
    omega
  rcases h3 with ⟨enc, h3⟩ | h3
  · refine ⟨p', enc, h1, h3, ?_⟩
    rw [h2]
    exact all2_map_withTokens (fun ns => tok ns.get) (fun sp => ⟨rfl, _, rfl, htok _⟩) _
  · exact absurd h3 hno

theorem covered_sanitize {m : BPE} {s : Str} (h : m.Covered s) : m.Covered (sanitizeText s) := by
  have e : m.lookups (sanitizeText s) = m.lookups s := by
    have : runesOf (sanitizeText s) = runesOf s := by rw [sanitizeText_eq, runesOf_encodeRunes _ (runesOf_valid s)]
    simp only [BPE.lookups, this]
  unfold BPE.Covered at h ⊢
  rw [e]
  exact h

theorem tokenTiles_last {v : Vocab} : ∀ (ts : List Token) (a b : Int), a < b → BPE.TokenTiles v a ts b →
    ∃ t ∈ ts, t.offsets.start < t.offsets.stop ∧ t.offsets.stop = b := by
  intro ts
  induction ts with
  | nil => intro a b hab h; simp only [BPE.TokenTiles] at h; omega
  | cons t ts ih =>
    intro a b hab h
    obtain ⟨h1, h2, -, h3⟩ := h
    have hle := (Machine.tokenTiles_within ts _ _ h3).1
    by_cases he : t.offsets.stop = b
    · exact ⟨t, by simp, by omega, he⟩
    · obtain ⟨t', k1, k2⟩ := ih _ b (by omega) h3
      exact ⟨t', by simp [k1], k2⟩

/-- The tokens of BPE on any bytes tile the text as it is read. -/
theorem bpe_reach {m : BPE} {rnd : Nat → Bool} {ns : NS} (hc : m.Covered ns.get) {ts : List Token}
    (h : m.tokenize rnd ns.get = .ok (.ok (some ts))) :
    (∃ t ∈ ts, OutOfReach ns t) ↔ ns.alignments.length < (sanitizeText ns.get).length := by
  rw [C76_bpe_tokenize] at h
  have hv : ValidUtf8 (sanitizeText ns.get) := by
    rw [sanitizeText_eq]; exact validUtf8_encodeRunes _
  have ht := BPE.C44_tiles m rnd _ hv (covered_sanitize hc) h
  constructor
  · rintro ⟨t, h1, h2, h3⟩
    have := (Machine.tokenTiles_within _ _ _ ht).2 t h1
    omega
  · intro hlt
    obtain ⟨t, h1, h2, h3⟩ := tokenTiles_last ts _ _ (by omega) ht
    exact ⟨t, h1, h2, .inr (by omega)⟩

/-- **C133, BPE.** On any `PreTokenizedString` whose splits have no tokens yet, with a BPE model that gives every
character a symbol and knows its terms: `Tokenize` succeeds, and `IntoEncoding` panics exactly when the text of some
split has fewer alignments than it has bytes once U+FFFD stands for every bad byte. -/
theorem C133_bpe {p : PTS} (hn : ∀ sp ∈ p.splits, sp.tokens = none)
    (m : BPE) (rnd : NS → Nat → Bool) (hvoc : ∀ t i, m.vocab.getID t = some i → m.vocab.getString i ≠ none)
    (hm : ∀ a b v, m.merges.get a b = some v → m.vocab.getString v.id ≠ none)
    (hunk : m.unknownToken ≠ [] → m.vocab.getID m.unknownToken ≠ none)
    (hval : ∀ sp ∈ p.splits, m.Covered sp.ns.get) (w ty : Int) :
    ∃ p', p.tokenize (m.tokenizeNS rnd) = .ok (p', none)
      ∧ ((∃ enc, p'.intoEncoding w ty = .ok (.ok enc)) ∨ p'.intoEncoding w ty = .panic)
      ∧ (p'.intoEncoding w ty = .panic ↔ ∃ sp ∈ p.splits, sp.ns.alignments.length < (sanitizeText sp.ns.get).length) := by
  obtain ⟨tok, htok⟩ : ∃ tok : NS → List Token, ∀ ns, m.tokenize (rnd ns) ns.get = .ok (.ok (some (tok ns))) :=
    ⟨fun ns => match m.tokenize (rnd ns) ns.get with | .ok (.ok (some ts)) => ts | _ => [], by
      intro ns
      obtain ⟨ts, h⟩ := BPE.C44_success m (rnd ns) ns.get hvoc hm hunk
      simp only [h]⟩
  obtain ⟨p', h1, -, h3, h4⟩ := encode_panic hn (m.tokenizeNS rnd) tok
    (fun sp _ => by simp only [BPE.tokenizeNS, htok, GoM.bind_ok]; rfl) w ty
  refine ⟨p', h1, h3, h4.trans ?_⟩
  constructor
  · rintro ⟨sp, hsp, h⟩; exact ⟨sp, hsp, (bpe_reach (hval sp hsp) (htok sp.ns)).1 h⟩
  · rintro ⟨sp, hsp, h⟩; exact ⟨sp, hsp, (bpe_reach (hval sp hsp) (htok sp.ns)).2 h⟩

theorem splitLoop_new {f : SplitFunc} {Q : NS → Prop} (hf : ∀ i ns ns' items, f i ns = .ok (ns', .ok items) → ∀ it ∈ items, Q it.ns) :
    ∀ (ps : List Piece) (i : Nat) (old l : List Piece), (∀ sp ∈ ps, sp.tokens = none) → PTS.splitLoop f i ps = .ok (old, .ok l) →
    ∀ sp ∈ l, Q sp.ns := by
  intro ps
  induction ps with
  | nil =>
    intro i old l _ h
    simp [PTS.splitLoop] at h
    rw [h.2]; simp
  | cons p ps ih =>
    intro i old l hp h
    unfold PTS.splitLoop at h
    simp only [hp p (by simp), GoM.bind_eq_ok] at h
    obtain ⟨⟨ns', r⟩, h0, h⟩ := h
    cases r with
    | error e => simp at h
    | ok items =>
      simp only [GoM.bind_eq_ok] at h
      obtain ⟨⟨old1, new1⟩, h1, h⟩ := h
      cases new1 with
      | error e => simp at h
      | ok l1 =>
        simp only [GoM.pure_eq, GoM.ok.injEq, Prod.mk.injEq, Except.ok.injEq] at h
        obtain ⟨-, rfl⟩ := h
        intro sp hsp
        rcases List.mem_append.1 hsp with hsp | hsp
        · exact hf i p.ns ns' items h0 sp (List.mem_filter.1 hsp).1
        · exact ih (i + 1) old1 l1 (fun q hq => hp q (by simp [hq])) h1 sp hsp

/-- After a successful `Split` by a pattern, there is exactly one alignment per byte. -/
theorem even_splitByPattern {p p' : PTS} {pat : SplitPattern} {b : Behavior} (hn : ∀ sp ∈ p.splits, sp.tokens = none)
    (h : p.split (splitByPattern pat b) = .ok (p', none)) : ∀ sp ∈ p'.splits, sp.ns.alignments.length = sp.ns.get.length := by
  unfold PTS.split at h
  simp only [GoM.bind_eq_ok] at h
  obtain ⟨⟨old, new⟩, h1, h⟩ := h
  cases new with
  | error e => simp at h
  | ok l =>
    simp at h
    rw [← h]
    refine splitLoop_new (Q := fun ns => ns.alignments.length = ns.get.length) ?_ _ _ _ _ hn h1
    intro i ns ns' items hi
    unfold splitByPattern at hi
    simp only [GoM.bind_eq_ok] at hi
    obtain ⟨x, k1, hi⟩ := hi
    cases x with
    | error e => simp at hi
    | ok nss =>
      simp at hi
      obtain ⟨-, rfl⟩ := hi
      intro it hit
      obtain ⟨q, hq, rfl⟩ := List.mem_map.1 hit
      exact even_split k1 q hq

/-- **C133, BPE after a cut.** If the splits come from a `Split` by a pattern, with any pattern and behaviour and of any
strings, `IntoEncoding` after BPE panics exactly when the text of some split is not valid UTF-8. -/
theorem C133_bpe_cut {p₀ p : PTS} {pat : SplitPattern} {b : Behavior} (h₀ : ∀ sp ∈ p₀.splits, sp.tokens = none)
    (hcut : p₀.split (splitByPattern pat b) = .ok (p, none)) (hn : ∀ sp ∈ p.splits, sp.tokens = none)
    (m : BPE) (rnd : NS → Nat → Bool) (hvoc : ∀ t i, m.vocab.getID t = some i → m.vocab.getString i ≠ none)
    (hm : ∀ a b v, m.merges.get a b = some v → m.vocab.getString v.id ≠ none)
    (hunk : m.unknownToken ≠ [] → m.vocab.getID m.unknownToken ≠ none)
    (hval : ∀ sp ∈ p.splits, m.Covered sp.ns.get) (w ty : Int) :
    ∃ p', p.tokenize (m.tokenizeNS rnd) = .ok (p', none)
      ∧ ((∃ enc, p'.intoEncoding w ty = .ok (.ok enc)) ∨ p'.intoEncoding w ty = .panic)
      ∧ (p'.intoEncoding w ty = .panic ↔ ∃ sp ∈ p.splits, ¬ ValidUtf8 sp.ns.get) := by
  obtain ⟨p', h1, h2, h3⟩ := C133_bpe hn m rnd hvoc hm hunk hval w ty
  refine ⟨p', h1, h2, h3.trans ?_⟩
  have he := even_splitByPattern h₀ hcut
  constructor
  · rintro ⟨sp, hsp, h⟩
    refine ⟨sp, hsp, fun hv => ?_⟩
    obtain ⟨rs, k1, k2⟩ := hv
    rw [he sp hsp, sanitizeText_eq, ← k2, runesOf_encodeRunes _ k1] at h
    omega
  · rintro ⟨sp, hsp, h⟩
    exact ⟨sp, hsp, by rw [he sp hsp]; exact bad_longer h⟩

/-- **C133, BPE without a cut.** On the whole text, whatever its bytes, it does not panic. -/
theorem C133_bpe_whole (s : Str) (m : BPE) (rnd : NS → Nat → Bool) (hvoc : ∀ t i, m.vocab.getID t = some i → m.vocab.getString i ≠ none)
    (hm : ∀ a b v, m.merges.get a b = some v → m.vocab.getString v.id ≠ none)
    (hunk : m.unknownToken ≠ [] → m.vocab.getID m.unknownToken ≠ none) (hval : m.Covered s) (w ty : Int) :
    ∃ p' enc, (PTS.fromString s).tokenize (m.tokenizeNS rnd) = .ok (p', none) ∧ p'.intoEncoding w ty = .ok (.ok enc) := by
  obtain ⟨p', h1, h2, h3⟩ := C133_bpe (p := PTS.fromString s) (by simp [PTS.fromString, PTS.fromNormalizedString]) m rnd hvoc hm hunk
    (by
      intro sp hsp
      simp [PTS.fromString, PTS.fromNormalizedString] at hsp
      subst hsp
      exact hval) w ty
  rcases h2 with ⟨enc, h2⟩ | h2
  · exact ⟨p', enc, h1, h2⟩
  · obtain ⟨sp, hsp, h⟩ := h3.1 h2
    simp [PTS.fromString, PTS.fromNormalizedString] at hsp
    subst hsp
    have := roomy_fromString s
    unfold Roomy at this
    rw [← sanitizeText_eq] at this
    have hg : (NS.fromString s).get = s := rfl
    simp only [hg] at this h
    omega

/-! ## Cases -/

/-- A model that knows `a`. -/
def loneWord : WordPiece := ⟨Vocab.fromJSON (some [(b!"?", 0), (b!"a", 1)]) [], b!"?", b!"##", 100⟩

/-- The bytes FF, `b`, space, `a`, cut at white space: WordPiece gives two tokens, whose encoding is made, although the
place of the second is wrong. -/
example : runSteps (PTS.fromString [0xFF, 0x62, 0x20, 0x61]) [whiteSpaceSplit, fun p => p.tokenize fun ns => .ok (loneWord.tokenize ns.get)]
      >>= (fun p => p.intoEncoding (-1) 0)
    = .ok (.ok ⟨[0, 1], [0, 0], [b!"?", b!"a"], [0, 1], [⟨0, 3⟩, ⟨1, 2⟩], [0, 0], [1, 1]⟩) := by decide +kernel

/-- The same with BPE: the encoding is not made, although `Tokenize` succeeded. -/
theorem C133_example : ∃ p, runSteps (PTS.fromString [0xFF, 0x62, 0x20, 0x61])
        [whiteSpaceSplit, fun p => p.tokenize ((BPE.sample b!"<unk>" true).tokenizeNS fun _ _ => false)] = .ok p
      ∧ p.intoEncoding (-1) 0 = .panic := by
  refine ⟨⟨[0xFF, 0x62, 0x20, 0x61], [⟨⟨[0xFF, 0x62, 0x20], [0xFF, 0x62], [⟨0, 3⟩, ⟨0, 3⟩], 0⟩,
    some [⟨0, b!"<unk>", ⟨0, 3⟩⟩, ⟨2, b!"b", ⟨3, 4⟩⟩]⟩, ⟨⟨b!"b", b!"a", [⟨0, 1⟩], 1⟩, some [⟨1, b!"a", ⟨0, 1⟩⟩]⟩]⟩, ?_, ?_⟩ <;> decide +kernel

/-- And without a cut: it is made. -/
example : runSteps (PTS.fromString [0xFF, 0x62])
        [fun p => p.tokenize ((BPE.sample b!"<unk>" true).tokenizeNS fun _ _ => false)]
      >>= (fun p => p.intoEncoding (-1) 0)
    = .ok (.ok ⟨[0, 2], [0, 0], [b!"<unk>", b!"b"], [0, 0], [⟨0, 3⟩, ⟨1, 2⟩], [0, 0], [1, 1]⟩) := by decide +kernel

end Verif
