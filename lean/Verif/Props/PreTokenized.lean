import Verif.Spec.PreTok
import Verif.Props.Slice
import Verif.Props.Patterns

/-! Properties C24, C25, C27, C28, C35: `PreTokenizedString`, encodings and sequences of
normalizers. -/

set_option autoImplicit false

namespace Verif

/-! ## C24 -/

theorem isEmpty_eq (q : Piece) : (!q.ns.isEmpty) = decide (q.ns.get ≠ []) := by
  cases h : q.ns.normalized <;> simp [NS.isEmpty, NS.get, h]

theorem splitLoop_ok (f : SplitFunc) (after : Nat → NS) (results : Nat → List Piece) :
    ∀ (ps : List Piece) (i : Nat),
    (∀ j p, ps[j]? = some p → p.tokens = none → f (i + j) p.ns = .ok (after (i + j), .ok (results (i + j)))) →
    ∃ old, PTS.splitLoop f i ps = .ok (old, .ok (replaced results i ps)) := by
  intro ps
  induction ps with
  | nil => intro i _; exact ⟨[], rfl⟩
  | cons p ps ih =>
    intro i h
    obtain ⟨old, ho⟩ := ih (i + 1) (by
      intro j q hj hq
      have := h (j + 1) q (by simpa using hj) hq
      rwa [show i + (j + 1) = i + 1 + j by omega] at this)
    unfold PTS.splitLoop
    cases ht : p.tokens with
    | some t => exact ⟨p :: old, by simp [ho, replaced, ht]⟩
    | none =>
      have := h 0 p (by simp) ht
      simp only [Nat.add_zero] at this
      exact ⟨⟨after i, none⟩ :: old, by simp [this, ho, replaced, ht, isEmpty_eq]⟩

theorem splitLoop_error (f : SplitFunc) (after : Nat → NS) (results : Nat → List Piece) (e : Err) :
    ∀ (ps : List Piece) (i k : Nat),
    (∀ j p, ps[j]? = some p → p.tokens = none → j < k →
      f (i + j) p.ns = .ok (after (i + j), .ok (results (i + j)))) →
    (∃ p, ps[k]? = some p ∧ p.tokens = none ∧ f (i + k) p.ns = .ok (after (i + k), .error e)) →
    PTS.splitLoop f i ps = .ok (touched after (i + k + 1) i ps, .error e) := by
  intro ps
  induction ps with
  | nil => intro i k _ h; obtain ⟨p, hp, -⟩ := h; simp at hp
  | cons p ps ih =>
    intro i k h hk
    have htouch : ∀ (qs : List Piece) (i k : Nat), k ≤ i → touched after k i qs = qs := by
      intro qs
      induction qs with
      | nil => intro i k _; rfl
      | cons q qs ihq =>
        intro i k hle
        simp only [touched]
        rw [ihq (i + 1) k (by omega)]
        cases hq : q.tokens with
        | some t => rfl
        | none => simp [show ¬ i < k by omega]
    cases k with
    | zero =>
      obtain ⟨q, hq, ht, hf⟩ := hk
      simp at hq; subst hq
      simp only [Nat.add_zero] at hf
      unfold PTS.splitLoop
      simp [ht, hf, touched, htouch]
    | succ k =>
      have := ih (i + 1) k (by
        intro j q hj hq hjk
        have := h (j + 1) q (by simpa using hj) hq (by omega)
        rwa [show i + (j + 1) = i + 1 + j by omega] at this) (by
        obtain ⟨q, hq, ht, hf⟩ := hk
        exact ⟨q, by simpa using hq, ht, by rwa [show i + (k + 1) = i + 1 + k by omega] at hf⟩)
      rw [show i + 1 + k + 1 = i + (k + 1) + 1 by omega] at this
      unfold PTS.splitLoop
      cases ht : p.tokens with
      | some t => simp [this, touched, ht]
      | none =>
        have h0 := h 0 p (by simp) ht (by omega)
        simp only [Nat.add_zero] at h0
        simp [h0, this, touched, ht]
        omega

/-- **C24 (success).** If the split function succeeds on every untokenized split, `Split`
succeeds and the new list is the old one where each tokenized split is unchanged and each
untokenized one is replaced, in order, by the non-empty pieces returned for it. -/
theorem C24_split_ok (p : PTS) (f : SplitFunc) (after : Nat → NS) (results : Nat → List Piece)
    (h : ∀ j sp, p.splits[j]? = some sp → sp.tokens = none → f j sp.ns = .ok (after j, .ok (results j))) :
    p.split f = .ok (⟨p.original, replaced results 0 p.splits⟩, none) := by
  obtain ⟨old, ho⟩ := splitLoop_ok f after results p.splits 0 (by simpa using h)
  simp [PTS.split, ho]

/-- **C24 (failure).** If the split function fails on split `k` after succeeding on the
earlier untokenized ones, `Split` returns that error; the split list is not replaced: it has
the same splits with the same tokens, changed only where the split function itself modified
the strings it was given. -/
theorem C24_split_error (p : PTS) (f : SplitFunc) (after : Nat → NS) (results : Nat → List Piece)
    (k : Nat) (e : Err)
    (h : ∀ j sp, p.splits[j]? = some sp → sp.tokens = none → j < k → f j sp.ns = .ok (after j, .ok (results j)))
    (hk : ∃ sp, p.splits[k]? = some sp ∧ sp.tokens = none ∧ f k sp.ns = .ok (after k, .error e)) :
    p.split f = .ok (⟨p.original, touched after (k + 1) 0 p.splits⟩, some e) := by
  have := splitLoop_error f after results e p.splits 0 k (by simpa using h) (by simpa using hk)
  simp [PTS.split, this]

/-- A failed `Split` whose split function does not modify its argument leaves the value as
it was. -/
theorem C24_split_error_unchanged (p : PTS) (f : SplitFunc)
    (hf : ∀ i ns ns' r, f i ns = .ok (ns', r) → ns' = ns) {p' : PTS} {e : Err}
    (h : p.split f = .ok (p', some e)) : p' = p := by
  have key : ∀ (ps : List Piece) (i : Nat) old new, PTS.splitLoop f i ps = .ok (old, new) → old = ps := by
    intro ps
    induction ps with
    | nil => intro i old new h; simp [PTS.splitLoop] at h; exact h.1
    | cons q ps ih =>
      intro i old new h
      unfold PTS.splitLoop at h
      cases ht : q.tokens with
      | some t =>
        simp only [ht] at h
        cases hl : PTS.splitLoop f (i + 1) ps with
        | panic => simp [hl] at h
        | ok r =>
          obtain ⟨o, n⟩ := r
          have := ih (i + 1) o n hl
          simp only [hl, GoM.bind_ok] at h
          cases n <;> simp at h <;> rw [← h.1, this]
      | none =>
        simp only [ht] at h
        cases hfq : f i q.ns with
        | panic => simp [hfq] at h
        | ok r =>
          obtain ⟨ns', r⟩ := r
          have hns := hf _ _ _ _ hfq
          subst hns
          have hq : (⟨q.ns, none⟩ : Piece) = q := by rw [← ht]
          simp only [hfq, GoM.bind_ok] at h
          cases r with
          | error e => simp at h; rw [← h.1, hq]
          | ok items =>
            simp only at h
            cases hl : PTS.splitLoop f (i + 1) ps with
            | panic => simp [hl] at h
            | ok r =>
              obtain ⟨o, n⟩ := r
              have := ih (i + 1) o n hl
              simp only [hl, GoM.bind_ok] at h
              cases n <;> simp at h <;> rw [← h.1, this, hq]
  unfold PTS.split at h
  cases hl : PTS.splitLoop f 0 p.splits with
  | panic => simp [hl] at h
  | ok r =>
    obtain ⟨o, n⟩ := r
    have := key _ _ _ _ hl
    simp only [hl, GoM.bind_ok] at h
    cases n <;> simp at h
    rw [← h.1, this]

/-! ## C25 -/

/-- **C25.** The normalized byte splits start at 0, each starts where the one before it ends,
each is as long as its text and the last ends at the total length. -/
theorem C25_normalized_splits (p : PTS) :
    SplitsTile p.getNormalizedByteSplits 0 (p.splits.flatMap (fun sp => sp.ns.get)).length
      ∧ p.getNormalizedByteSplits.map (·.string) = p.splits.map (fun sp => sp.ns.get)
      ∧ p.getNormalizedByteSplits.map (·.tokens) = p.splits.map (·.tokens) := by
  have key : ∀ (ps : List Piece) (i : Int),
      SplitsTile (PTS.normalizedByteSplitsLoop ps i) i (i + (ps.flatMap (fun sp => sp.ns.get)).length)
      ∧ (PTS.normalizedByteSplitsLoop ps i).map (·.string) = ps.map (fun sp => sp.ns.get)
      ∧ (PTS.normalizedByteSplitsLoop ps i).map (·.tokens) = ps.map (·.tokens) := by
    intro ps
    induction ps with
    | nil => intro i; simp [PTS.normalizedByteSplitsLoop, SplitsTile]
    | cons q ps ih =>
      intro i
      obtain ⟨h1, h2, h3⟩ := ih (i + q.ns.len)
      refine ⟨⟨rfl, by simp [NS.len, NS.get], ?_⟩, by simp [PTS.normalizedByteSplitsLoop, h2],
        by simp [PTS.normalizedByteSplitsLoop, h3]⟩
      have e : i + (List.flatMap (fun sp => sp.ns.get) (q :: ps)).length
          = i + q.ns.len + (ps.flatMap (fun sp => sp.ns.get)).length := by
        simp [NS.len, NS.get]; omega
      rw [e]; exact h1
  have := key p.splits 0
  simpa [PTS.getNormalizedByteSplits] using this

/-! ## C27 -/

theorem fromEncodableTokens_eq (ts : List EncodableToken) :
    Encoding.fromEncodableTokens ts =
      { ids := ts.map (·.id), typeIDs := ts.map (·.typeID), tokens := ts.map (·.token),
        words := ts.map (·.wordIndex), offsets := ts.map (·.offsets),
        specialTokensMask := ts.map fun _ => 0, attentionMask := ts.map fun _ => 1 } := by
  have key : ∀ (ts : List EncodableToken) (e : Encoding), ts.foldl Encoding.appendToken e =
      { ids := e.ids ++ ts.map (·.id), typeIDs := e.typeIDs ++ ts.map (·.typeID),
        tokens := e.tokens ++ ts.map (·.token),
        words := e.words ++ ts.map (·.wordIndex), offsets := e.offsets ++ ts.map (·.offsets),
        specialTokensMask := e.specialTokensMask ++ ts.map fun _ => 0,
        attentionMask := e.attentionMask ++ ts.map fun _ => 1 } := by
    intro ts
    induction ts with
    | nil => intro e; simp
    | cons t ts ih => intro e; rw [List.foldl_cons, ih]; simp [Encoding.appendToken]
  rw [Encoding.fromEncodableTokens, key]
  simp [Encoding.default]

theorem encodeTokens_spec (ns : NS) (w ty : Int) : ∀ (ts : List Token) seq,
    PTS.encodeTokens ns w ty ts = .ok seq →
    All2 (fun (x : EncodableToken) (t : Token) => x.id = t.id ∧ x.token = t.value ∧ x.wordIndex = w
      ∧ x.typeID = ty ∧ PTS.tokenOffsets ns t = .ok x.offsets) seq ts := by
  intro ts
  induction ts with
  | nil => intro seq h; simp [PTS.encodeTokens] at h; subst h; exact .nil
  | cons t ts ih =>
    intro seq h
    unfold PTS.encodeTokens at h
    cases ho : PTS.tokenOffsets ns t with
    | panic => simp [ho] at h
    | ok o =>
      cases hr : PTS.encodeTokens ns w ty ts with
      | panic => simp [ho, hr] at h
      | ok rest =>
        simp [ho, hr] at h
        subst h
        exact .cons ⟨rfl, rfl, rfl, rfl, ho⟩ (ih rest hr)

/-- What an encoding entry says about the token it comes from. -/
def EntryOf (ty : Int) (x : EncodableToken) (en : Entry) : Prop :=
  x.id = en.token.id ∧ x.token = en.token.value ∧ x.wordIndex = en.word ∧ x.typeID = ty
    ∧ PTS.tokenOffsets en.piece.ns en.token = .ok x.offsets

theorem All2.map_right {α β γ : Type} {R : α → γ → Prop} (f : β → γ) {as : List α} {bs : List β}
    (h : All2 (fun a b => R a (f b)) as bs) : All2 R as (bs.map f) := by
  induction h with
  | nil => exact .nil
  | cons h1 _ ih => exact .cons h1 ih

theorem encodeSplits_spec (w ty : Int) : ∀ (ps : List Piece) (i : Nat) seq,
    PTS.encodeSplits w ty i ps = .ok seq → All2 (EntryOf ty) seq (entries w i ps) := by
  intro ps
  induction ps with
  | nil => intro i seq h; simp [PTS.encodeSplits] at h; subst h; exact .nil
  | cons p ps ih =>
    intro i seq h
    unfold PTS.encodeSplits at h
    cases h1 : PTS.encodeTokens p.ns (if w < 0 then (i : Int) else w) ty (p.tokens.getD []) with
    | panic => simp [h1] at h
    | ok here =>
      cases h2 : PTS.encodeSplits w ty (i + 1) ps with
      | panic => simp [h1, h2] at h
      | ok rest =>
        simp [h1, h2] at h
        subst h
        refine All2.append ?_ (ih (i + 1) rest h2)
        apply All2.map_right
        refine (encodeTokens_spec _ _ _ _ _ h1).imp ?_
        intro a b _ _ ⟨k1, k2, k3, k4, k5⟩
        refine ⟨k1, k2, ?_, k4, k5⟩
        simp only [k3]
        split <;> split <;> first | rfl | omega

/-- **C27.** `IntoEncoding` fails exactly when there is a split and some split has no tokens.
When it succeeds, the seven arrays are parallel and follow the tokens in split-then-token
order: the ids, values and word numbers are the tokens', the type id is the one given, the
masks are all 0 and all 1, and each offset is the one computed for the token. -/
theorem C27_intoEncoding (p : PTS) (w ty : Int) :
    ((∃ e, p.intoEncoding w ty = .ok (.error e)) ↔ ∃ sp ∈ p.splits, sp.tokens = none)
    ∧ (∀ enc, p.intoEncoding w ty = .ok (.ok enc) →
        (∀ sp ∈ p.splits, sp.tokens ≠ none)
        ∧ enc.ids = (entries w 0 p.splits).map (·.token.id)
        ∧ enc.tokens = (entries w 0 p.splits).map (·.token.value)
        ∧ enc.words = (entries w 0 p.splits).map (·.word)
        ∧ enc.typeIDs = (entries w 0 p.splits).map (fun _ => ty)
        ∧ enc.specialTokensMask = (entries w 0 p.splits).map (fun _ => 0)
        ∧ enc.attentionMask = (entries w 0 p.splits).map (fun _ => 1)
        ∧ All2 (fun o (en : Entry) => PTS.tokenOffsets en.piece.ns en.token = .ok o)
            enc.offsets (entries w 0 p.splits)) := by
  unfold PTS.intoEncoding
  by_cases h0 : p.splits.length = 0
  · have hn : p.splits = [] := List.length_eq_zero_iff.1 h0
    rw [if_pos h0, hn]
    refine ⟨by simp, ?_⟩
    intro enc h
    simp at h; subst h
    simp [Encoding.default, entries]
    exact .nil
  · rw [if_neg h0]
    by_cases ha : p.allSplitsHaveTokens = true
    · rw [if_neg (by simp [ha])]
      have hall : ∀ sp ∈ p.splits, sp.tokens ≠ none := by
        intro sp hsp h
        have := List.all_eq_true.1 ha sp hsp
        rw [h] at this; simp at this
      constructor
      · constructor
        · rintro ⟨e, h⟩
          cases hs : PTS.encodeSplits w ty 0 p.splits <;> simp [hs] at h
        · rintro ⟨sp, hsp, h⟩; exact absurd h (hall sp hsp)
      · intro enc h
        cases hs : PTS.encodeSplits w ty 0 p.splits with
        | panic => simp [hs] at h
        | ok seq =>
          simp [hs] at h
          subst h
          have ha2 := encodeSplits_spec w ty _ _ _ hs
          rw [fromEncodableTokens_eq]
          refine ⟨hall, ?_, ?_, ?_, ?_, ?_, ?_, ?_⟩
          · exact (ha2.map_eq (f := (·.id)) (g := (·.token.id)) fun a b _ _ h => h.1.symm).symm
          · exact (ha2.map_eq (f := (·.token)) (g := (·.token.value)) fun a b _ _ h => h.2.1.symm).symm
          · exact (ha2.map_eq (f := (·.wordIndex)) (g := (·.word)) fun a b _ _ h => h.2.2.1.symm).symm
          · exact (ha2.map_eq (f := (·.typeID)) (g := fun _ => ty) fun a b _ _ h => h.2.2.2.1.symm).symm
          · exact (ha2.map_eq (f := fun _ => 0) (g := fun _ => 0) fun a b _ _ h => rfl).symm
          · exact (ha2.map_eq (f := fun _ => 1) (g := fun _ => 1) fun a b _ _ h => rfl).symm
          · have : All2 (fun (x : EncodableToken) (en : Entry) =>
                PTS.tokenOffsets en.piece.ns en.token = .ok x.offsets) seq (entries w 0 p.splits) :=
              ha2.imp fun a b _ _ h => h.2.2.2.2
            clear ha2 hs
            revert this
            generalize entries w 0 p.splits = es
            intro this
            induction this with
            | nil => exact .nil
            | cons h1 _ ih => exact .cons h1 ih
    · rw [if_pos (by simpa using ha)]
      constructor
      · constructor
        · intro _
          have : ¬ ∀ sp ∈ p.splits, sp.tokens.isSome = true := fun h => ha (List.all_eq_true.2 h)
          apply Classical.byContradiction
          intro hcon
          apply this
          intro sp hsp
          cases ht : sp.tokens with
          | some _ => rfl
          | none => exact absurd ⟨sp, hsp, ht⟩ hcon
        · intro _; exact ⟨_, rfl⟩
      · intro enc h; simp at h

/-- **C27, Len and IsEmpty** of the result: the number of tokens of all splits, and whether there is none. -/
theorem C27_len {p : PTS} {w ty : Int} {enc : Encoding} (h : p.intoEncoding w ty = .ok (.ok enc)) :
    enc.len = (entries w 0 p.splits).length
    ∧ (enc.isEmpty = true ↔ ∀ sp ∈ p.splits, sp.tokens = some []) := by
  obtain ⟨ht, hi, -⟩ := (C27_intoEncoding p w ty).2 enc h
  refine ⟨by simp [Encoding.len, hi], ?_⟩
  have key : ∀ (l : List Piece) (k : Nat), (∀ sp ∈ l, sp.tokens ≠ none) →
      (entries w k l = [] ↔ ∀ sp ∈ l, sp.tokens = some []) := by
    intro l
    induction l with
    | nil => simp [entries]
    | cons sp l ih =>
      intro k hl
      have h1 := hl sp (by simp)
      have h2 := ih (k + 1) (fun x hx => hl x (by simp [hx]))
      cases ht : sp.tokens with
      | none => exact absurd ht h1
      | some ts => simp [entries, ht, h2]
  simp only [Encoding.isEmpty, hi, List.length_map, beq_iff_eq, List.length_eq_zero_iff]
  exact key _ _ ht


/-- The total number of entries is the total number of tokens. -/
theorem entries_length (w : Int) : ∀ (ps : List Piece) (i : Nat),
    (entries w i ps).length = (ps.flatMap fun p => p.tokens.getD []).length := by
  intro ps
  induction ps with
  | nil => intro i; rfl
  | cons p ps ih => intro i; simp [entries, ih]

/-! ## C28 -/

/-- A token standing on a non-empty in-range part of the split's text. -/
def WellPlaced (ns : NS) (t : Token) : Prop :=
  0 ≤ t.offsets.start ∧ t.offsets.start < t.offsets.stop ∧ t.offsets.stop ≤ ns.get.length

/-- The offset `o` computed for a token of a split: it lies inside the split's original
offsets and selects, in the split's original and in any text the split is part of, the
original text that `GetOriginalRange` gives for the token. -/
def LocatesToken (ns : NS) (t : Token) (o : ByteOffsets) : Prop :=
  ns.originalOffsets.start ≤ o.start ∧ o.start ≤ o.stop ∧ o.stop ≤ ns.originalOffsets.stop
  ∧ ∃ covered, ns.getOriginalRange (.normalized t.offsets.start t.offsets.stop) = .ok (some covered)
    ∧ sub ns.getOriginal (o.start - ns.originalOffsets.start) (o.stop - ns.originalOffsets.start) = covered
    ∧ ∀ root, PartOf root ns → goSlice root o.start o.stop = .ok covered

theorem tokenOffsets_ok {ns : NS} (hwf : WF ns) {t : Token} (h : WellPlaced ns t) :
    ∃ o, PTS.tokenOffsets ns t = .ok o ∧ LocatesToken ns t o := by
  obtain ⟨h0, h1, h2⟩ := h
  have hlen := hwf.len
  simp only [NS.get] at h2
  obtain ⟨f, l, e1, e2, e3⟩ := coerceRangeToOriginal_normalized (ns := ns) h0 h1 (by omega)
  have hf := hwf.bounds f (List.mem_of_getElem? e1)
  have hl := hwf.bounds l (List.mem_of_getElem? e2)
  have hfl : f.start ≤ l.stop := by
    obtain ⟨i1, rfl⟩ := List.getElem?_eq_some_iff.1 e1
    obtain ⟨i2, rfl⟩ := List.getElem?_eq_some_iff.1 e2
    rcases hwf.getElem_le (i := t.offsets.start.toNat) (j := (t.offsets.stop - 1).toNat) (by omega) i2 with h | h
    · rw [← h]; exact hf.2.1
    · omega
  refine ⟨⟨ns.originalShift + f.start, ns.originalShift + l.stop⟩, by
    simp [PTS.tokenOffsets, e3, NS.originalOffsets], ?_⟩
  refine ⟨by simp [NS.originalOffsets]; omega, by simp only; omega, by
    simp [NS.originalOffsets, NS.originalLen]; omega, ?_⟩
  have hg := goSlice_of (l := ns.original) hf.1 hfl hl.2.2
  refine ⟨_, by simp only [NS.getOriginalRange, e3, GoM.bind_ok, hg]; rfl, ?_, ?_⟩
  · simp only [sub, NS.getOriginal, NS.originalOffsets]
    rw [show ns.originalShift + f.start - ns.originalShift = f.start by omega,
      show ns.originalShift + l.stop - ns.originalShift = l.stop by omega]
  · rintro root ⟨pre, post, rfl, hsh⟩
    have d : ns.original = ns.original.take f.start.toNat
        ++ (ns.original.drop f.start.toNat).take (l.stop - f.start).toNat
        ++ ns.original.drop l.stop.toNat := by
      have e : l.stop.toNat = f.start.toNat + (l.stop - f.start).toNat := by omega
      rw [e, ← List.drop_drop, List.append_assoc, List.take_append_drop, List.take_append_drop]
    have e : pre ++ ns.original ++ post = (pre ++ ns.original.take f.start.toNat)
        ++ (ns.original.drop f.start.toNat).take (l.stop - f.start).toNat
        ++ (ns.original.drop l.stop.toNat ++ post) := by
      conv => lhs; rw [d]
      simp
    rw [e]
    refine goSlice_mid _ _ _ ?_ ?_
    · simp; omega
    · simp; omega

theorem encodeTokens_ok {ns : NS} (hwf : WF ns) (w ty : Int) : ∀ (ts : List Token),
    (∀ t ∈ ts, WellPlaced ns t) → ∃ seq, PTS.encodeTokens ns w ty ts = .ok seq := by
  intro ts
  induction ts with
  | nil => intro _; exact ⟨[], rfl⟩
  | cons t ts ih =>
    intro h
    obtain ⟨o, ho, -⟩ := tokenOffsets_ok hwf (h t (by simp))
    obtain ⟨seq, hs⟩ := ih (fun x hx => h x (by simp [hx]))
    exact ⟨_, by simp [PTS.encodeTokens, ho, hs]; rfl⟩

theorem encodeSplits_ok (w ty : Int) : ∀ (ps : List Piece) (i : Nat),
    (∀ p ∈ ps, WF p.ns ∧ ∀ t ∈ p.tokens.getD [], WellPlaced p.ns t) →
    ∃ seq, PTS.encodeSplits w ty i ps = .ok seq := by
  intro ps
  induction ps with
  | nil => intro i _; exact ⟨[], rfl⟩
  | cons p ps ih =>
    intro i h
    obtain ⟨h1, h2⟩ := h p (by simp)
    obtain ⟨s1, e1⟩ := encodeTokens_ok h1 (if w < 0 then (i : Int) else w) ty _ h2
    obtain ⟨s2, e2⟩ := ih (i + 1) (fun x hx => h x (by simp [hx]))
    exact ⟨s1 ++ s2, by simp [PTS.encodeSplits, e1, e2]⟩

theorem mem_entries (w : Int) : ∀ (ps : List Piece) (i : Nat) (en : Entry), en ∈ entries w i ps →
    en.piece ∈ ps ∧ en.token ∈ en.piece.tokens.getD [] := by
  intro ps
  induction ps with
  | nil => intro i en h; simp [entries] at h
  | cons p ps ih =>
    intro i en h
    rcases List.mem_append.1 h with h | h
    · obtain ⟨t, ht, rfl⟩ := List.mem_map.1 h
      exact ⟨by simp, ht⟩
    · have := ih (i + 1) en h
      exact ⟨by simp [this.1], this.2⟩

/-- **C28.** If every split is reachable and has tokens, each standing on a non-empty
in-range part of its split, then `IntoEncoding` succeeds (it does not panic), and every
offset lies inside the split's original offsets and selects the original text the token
covers, also in the root text. -/
theorem C28_encoding_offsets (p : PTS) (w ty : Int)
    (hr : ∀ sp ∈ p.splits, Reachable sp.ns)
    (ht : ∀ sp ∈ p.splits, ∃ ts, sp.tokens = some ts ∧ ∀ t ∈ ts, WellPlaced sp.ns t) :
    ∃ enc, p.intoEncoding w ty = .ok (.ok enc)
      ∧ All2 (fun o (en : Entry) => LocatesToken en.piece.ns en.token o)
          enc.offsets (entries w 0 p.splits) := by
  have hok : ∃ enc, p.intoEncoding w ty = .ok (.ok enc) := by
    unfold PTS.intoEncoding
    split
    · exact ⟨_, rfl⟩
    · have ha : p.allSplitsHaveTokens = true := by
        apply List.all_eq_true.2
        intro sp hsp
        obtain ⟨ts, e, -⟩ := ht sp hsp
        simp [e]
      rw [if_neg (by simp [ha])]
      obtain ⟨seq, hs⟩ := encodeSplits_ok w ty p.splits 0 (by
        intro sp hsp
        obtain ⟨ts, e, h⟩ := ht sp hsp
        exact ⟨(hr sp hsp).wf, by simpa [e] using h⟩)
      exact ⟨_, by simp [hs]; rfl⟩
  obtain ⟨enc, he⟩ := hok
  refine ⟨enc, he, ?_⟩
  obtain ⟨-, -, -, -, -, -, -, ha⟩ := (C27_intoEncoding p w ty).2 enc he
  refine ha.imp ?_
  intro o en _ hen ho
  obtain ⟨m1, m2⟩ := mem_entries w _ _ en hen
  obtain ⟨ts, e, h⟩ := ht _ m1
  rw [e] at m2
  obtain ⟨o', ho', hl⟩ := tokenOffsets_ok (hr _ m1).wf (h _ m2)
  rw [ho] at ho'
  simp at ho'
  rw [ho']; exact hl

/-! ## C35 -/

/-- **C35.** Running a sequence of normalizers runs the first, and on success the rest on its
result; on failure the error is returned with the effects so far and the rest is not run.
Sequencing is associative. -/
theorem C35_sequence (n : NormalizeFunc) (ms ms' : List NormalizeFunc) (ns : NS) :
    sequenceNormalize [] ns = .ok (ns, none)
    ∧ (∀ ns', n ns = .ok (ns', none) → sequenceNormalize (n :: ms) ns = sequenceNormalize ms ns')
    ∧ (∀ ns' e, n ns = .ok (ns', some e) → sequenceNormalize (n :: ms) ns = .ok (ns', some e))
    ∧ (n ns = .panic → sequenceNormalize (n :: ms) ns = .panic)
    ∧ sequenceNormalize (ms ++ ms') ns = sequenceNormalize [sequenceNormalize ms, sequenceNormalize ms'] ns := by
  refine ⟨rfl, ?_, ?_, ?_, ?_⟩
  · intro ns' h; simp [sequenceNormalize, h]
  · intro ns' e h; simp [sequenceNormalize, h]
  · intro h; simp [sequenceNormalize, h]
  · clear n
    induction ms generalizing ns with
    | nil =>
      simp only [List.nil_append, sequenceNormalize, GoM.bind_ok]
      cases sequenceNormalize ms' ns with
      | panic => rfl
      | ok r => obtain ⟨a, e⟩ := r; cases e <;> rfl
    | cons m ms ih =>
      simp only [List.cons_append, sequenceNormalize]
      cases hm : m ns with
      | panic => rfl
      | ok r =>
        obtain ⟨a, e⟩ := r
        cases e with
        | some e => rfl
        | none =>
          simp only [GoM.bind_ok]
          rw [ih a]
          rfl

/-! ## Concrete cases -/

/-- Two words with tokens, the second after a three-byte rune. -/
def exPts : PTS :=
  ⟨b!"世a bc",
   [⟨⟨b!"世a", b!"世A", [⟨0, 3⟩, ⟨0, 3⟩, ⟨0, 3⟩, ⟨3, 4⟩], 0⟩, some [⟨7, b!"世", ⟨0, 3⟩⟩, ⟨8, b!"A", ⟨3, 4⟩⟩]⟩,
    ⟨⟨b!"bc", b!"bc", [⟨0, 1⟩, ⟨1, 2⟩], 5⟩, some [⟨9, b!"bc", ⟨0, 2⟩⟩]⟩]⟩

example : exPts.getNormalizedByteSplits.map (·.offsets) = [⟨0, 4⟩, ⟨4, 6⟩] := by decide +kernel

example : exPts.intoEncoding (-1) 3 = .ok (.ok
    { ids := [7, 8, 9], typeIDs := [3, 3, 3], tokens := [b!"世", b!"A", b!"bc"], words := [0, 0, 1],
      offsets := [⟨0, 3⟩, ⟨3, 4⟩, ⟨5, 7⟩], specialTokensMask := [0, 0, 0], attentionMask := [1, 1, 1] }) := by
  decide +kernel

example : ∀ sp ∈ exPts.splits, ∀ t ∈ sp.tokens.getD [], WellPlaced sp.ns t := by
  simp only [WellPlaced]; decide +kernel

/-- `Split` keeps a tokenized split and drops the empty pieces of the other. -/
example : ((PTS.mk b!"a" [⟨NS.fromString b!" a", none⟩, ⟨NS.fromString b!" b", some []⟩]).split
    (fun _ ns => .ok (ns, .ok [⟨⟨[], [], [], 0⟩, none⟩, ⟨ns, none⟩]))) = .ok
      (⟨b!"a", [⟨NS.fromString b!" a", none⟩, ⟨NS.fromString b!" b", some []⟩]⟩, none) := by decide +kernel

example : sequenceNormalize [fun ns => .ok (ns, some (.ext 1)), fun _ => .panic] (NS.fromString b!"a")
    = .ok (NS.fromString b!"a", some (.ext 1)) := by decide +kernel

end Verif
