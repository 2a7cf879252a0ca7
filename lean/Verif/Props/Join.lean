import Verif.Props.GptFiles
import Verif.Props.BertFiles
import Verif.Spec.Join

/-! Properties C86 (ids give back the text) and C87 (texts joined at white space). -/

set_option autoImplicit false

namespace Verif

open Ref Json

/-- The GPT-2 pipeline turns the input into this encoding. -/
def GptEncodes (u : RxUni) (addSpace : Bool) (m : BPE) (rnd : NS → Nat → Bool) (w ty : Int) (input : Str) (enc : Encoding) : Prop :=
  ∃ p1 p2, byteLevel (splittingRegexp u).findAll addSpace (PTS.fromString input) = .ok (p1, none)
    ∧ p1.tokenize (m.tokenizeNS rnd) = .ok (p2, none) ∧ p2.intoEncoding w ty = .ok (.ok enc)

theorem GptEncodes.unique {u : RxUni} {addSpace : Bool} {m : BPE} {rnd : NS → Nat → Bool} {w ty : Int} {input : Str}
    {enc enc' : Encoding} (h : GptEncodes u addSpace m rnd w ty input enc) (h' : GptEncodes u addSpace m rnd w ty input enc') :
    enc = enc' := by
  obtain ⟨p1, p2, h1, h2, h3⟩ := h
  obtain ⟨q1, q2, k1, k2, k3⟩ := h'
  rw [h1] at k1
  simp only [GoM.ok.injEq, Prod.mk.injEq, and_true] at k1
  subst k1
  rw [h2] at k2
  simp only [GoM.ok.injEq, Prod.mk.injEq, and_true] at k2
  subst k2
  rw [h3] at k3
  simpa using k3

/-- The bytes that ids stand for, by a byte-level vocabulary. -/
def decodeIds (es : List (Str × Int)) (ids : List Int) : Str := ids.flatMap fun i => (runesOf (termFor es i)).map runeToByte

/-- A byte-level vocabulary and merges without affixes and dropout, in which merges spell what they merge. -/
structure ByteModel (m : BPE) : Prop where
  noDropout : m.hasDropout = false
  noPrefix : m.continuingSubwordPrefix = []
  noSuffix : m.endOfWordSuffix = []
  inv : ∀ t i, m.vocab.getID t = some i → m.vocab.getString i = some t
  merged : ∀ a b v, m.merges.get a b = some v → m.vocab.getString v.id ≠ none
  spells : BPE.Spells m.vocab m.merges
  unk : m.unknownToken ≠ [] → m.vocab.getID m.unknownToken ≠ none
  bytes : ∀ b : UInt8, m.vocab.getID (encodeRune (byteToRune b)) ≠ none

/-- The model loaded from two files is one. -/
theorem ByteModel.of_files {es : List (Str × Int)} {rules : List (Str × Str)} {v : Vocab} {merges : MergeMap}
    (h2 : mergeMapFromFile (writeRules rules) v 0 = .ok (.ok merges))
    (h3 : ∀ t i, v.getID t = some i ↔ (t, i) ∈ es) (h4 : TableOf v rules merges)
    (hb : ∀ b : UInt8, encodeRune (byteToRune b) ∈ es.map (·.1)) (capacity : Int) {unk : Str}
    (hu : unk = [] ∨ unk ∈ es.map (·.1)) (fuse : Bool) : ByteModel (plainBPE v merges capacity unk [] fuse) := by
  have hknown : ∀ t, t ∈ es.map (·.1) → v.getID t ≠ none := by
    intro t ht
    obtain ⟨e, he, rfl⟩ := List.mem_map.1 ht
    rw [(h3 _ _).2 he]; simp
  exact ⟨rfl, rfl, rfl, fun t i h => (h4.inv t i).1 h, fun a b x h => by
      obtain ⟨_, _, _, -, -, -, k, -⟩ := (h4.iff _ _ _).1 h
      have := (h4.inv _ _).1 k
      show v.getString x.id ≠ none
      rw [this]; simp, BPE.C45_file (writeRules rules) v h4.inv h2, fun h => hknown _ (hu.resolve_left h), fun b => hknown _ (hb b)⟩

theorem ByteModel.key {m : BPE} (hm : ByteModel m) (i last : Nat) (r : Rune) : m.lookupKey i last r = encodeRune r := by
  simp [BPE.lookupKey, BPE.hasContinuingSubwordPrefix, BPE.hasEndOfWordSuffix, hm.noPrefix, hm.noSuffix]

theorem tokenize_draws {m : BPE} (hd : m.hasDropout = false) (rnd rnd' : Nat → Bool) (s : Str) : m.tokenize rnd s = m.tokenize rnd' s := by
  rw [← BPE.C48_history m hd m.cache .init rnd rnd s, BPE.C48_history m hd m.cache .init rnd rnd' s]

/-- The tokens of a piece. -/
def pieceTokens (m : BPE) (g : List Rune) : List Token :=
  match m.tokenize (fun _ => false) (tableText g) with
  | .ok (.ok (some ts)) => ts
  | _ => []

/-- The encoding of a text, all of it determined by the pieces. -/
theorem gpt_exact {u : RxUni} (hu : SaneTables u) (b : Bool) (rs : List Rune) (hv : ∀ r ∈ rs, ValidRune r)
    {m : BPE} (hm : ByteModel m) (rnd : NS → Nat → Bool) (w ty : Int) :
    ∃ enc L, GptEncodes u b m rnd w ty (encodeRunes rs) enc ∧ GptPieces u [] (spacedRunes b rs) L
      ∧ enc.ids = (L.flatMap fun x => pieceTokens m x.2).map (·.id)
      ∧ enc.typeIDs = (L.flatMap fun x => pieceTokens m x.2).map (fun _ => ty)
      ∧ enc.tokens = (L.flatMap fun x => pieceTokens m x.2).map (·.value)
      ∧ enc.words = wordsFrom w 0 (L.map fun x => pieceTokens m x.2)
      ∧ enc.specialTokensMask = (L.flatMap fun x => pieceTokens m x.2).map (fun _ => 0)
      ∧ enc.attentionMask = (L.flatMap fun x => pieceTokens m x.2).map (fun _ => 1)
      ∧ (∀ x ∈ L, pieceTokens m x.2 ≠ [] ∧ ∀ t ∈ pieceTokens m x.2, m.vocab.getString t.id = some t.value)
      ∧ (enc.tokens.flatMap fun t => (runesOf t).map runeToByte) = encodeRunes (spacedRunes b rs)
      ∧ ByteRows (spaced b (selfChars 0 rs)) 0 0
          ((L.flatMap fun x => pieceTokens m x.2).map fun t => (runesOf t.value).map runeToByte) enc.offsets := by
  obtain ⟨p1, p2, enc, L, T, yss, h1, h2, h3, h4, h5, h6, h7, h8⟩ := C65_gpt hu b rs hv m rnd
    (fun t i h => by rw [hm.inv t i h]; simp) hm.merged hm.unk (.inr fun b i last => by rw [hm.key]; exact hm.bytes b) w ty
  have h8 := h8 hm.noPrefix hm.noSuffix hm.bytes hm.inv hm.spells
  have hT : T = L.map fun x => pieceTokens m x.2 := by
    clear h4 h6
    induction h5 with
    | nil => rfl
    | cons h _ ih =>
      obtain ⟨rnd', h⟩ := h
      rw [List.map_cons, ih]
      congr 1
      rw [tokenize_draws hm.noDropout rnd' (fun _ => false)] at h
      simp only [pieceTokens, h]
  have hfl : T.flatten = L.flatMap fun x => pieceTokens m x.2 := by rw [hT, List.flatMap_def]
  have hys : yss.flatten = T.flatten.map fun t => (runesOf t.value).map runeToByte := by
    have := h6.tokens.symm.trans h8
    have := congrArg (List.map fun t => (runesOf t).map runeToByte) this
    simp only [List.map_map, Function.comp_def, tableOf_decode, List.map_id'] at this
    exact this.symm
  refine ⟨enc, L, ⟨p1, p2, h1, h2, h3⟩, h4, ?_, ?_, ?_, ?_, ?_, ?_, ?_, ?_, ?_⟩
  · rw [h6.ids, hfl]
  · rw [h6.typeIDs, hfl]
  · rw [h6.tokens, hfl]
  · rw [h6.words, hT]
  · rw [h6.special, hfl]
  · rw [h6.attention, hfl]
  · intro x hx
    refine ⟨?_, ?_⟩
    rotate_left
    · intro t ht
      obtain ⟨ts, -, rnd', hts⟩ := h5.exists_right hx
      rw [tokenize_draws hm.noDropout rnd' (fun _ => false)] at hts
      simp only [pieceTokens, hts] at ht
      exact tokenTiles_mem (BPE.C44_tiles m _ _ ⟨_, table_valid _, rfl⟩
        (table_covered m (.inr fun b i last => by rw [hm.key]; exact hm.bytes b) _) hts) t ht
    intro e
    have hxne := (h4.located x hx).1
    have hp := h6.parts
    have hq := h6.perToken
    rw [hT] at hq
    clear h4 h5 h6 h7 hT hfl hys
    have aux : ∀ (L : List (List Rune × List Rune)) (yss : List (List Str)), x ∈ L →
        All2 (fun p ys => ys.flatten = p) (L.map fun x => encodeRunes x.2) yss →
        All2 (fun (ts : List Token) (ys : List Str) => ts.length = ys.length) (L.map fun x => pieceTokens m x.2) yss → False := by
      intro L
      induction L with
      | nil => intro _ hx; cases hx
      | cons y L ih =>
        intro yss hx hp hq
        cases hp with
        | cons p ps =>
          cases hq with
          | cons q qs =>
            rcases List.mem_cons.1 hx with rfl | hx
            · simp only [e, List.length_nil] at q
              have := List.length_eq_zero_iff.1 q.symm
              subst this
              have := encodeRunes_pos hxne
              simp only [List.flatten_nil] at p
              rw [← p] at this
              simp at this
            · exact ih _ hx ps qs
    exact aux L yss hx hp hq
  · rw [h8, ← h7, List.flatMap_map]
    simp only [tableOf_decode]
    rw [List.flatMap_id']
  · rw [← hfl, ← hys]
    exact h6.offsets

/-! ## Reading ids back (C86) -/

theorem termFor_eq {es : List (Str × Int)} (hid : (es.map (·.2)).Nodup) {t : Str} {i : Int} (h : (t, i) ∈ es) : termFor es i = t := by
  unfold termFor
  induction es with
  | nil => cases h
  | cons e es ih =>
    rw [List.map_cons, List.nodup_cons] at hid
    rw [List.find?_cons]
    rcases List.mem_cons.1 h with rfl | h
    · simp
    · have : (e.2 == i) = false := by
        rw [beq_eq_false_iff_ne]
        rintro rfl
        exact hid.1 (List.mem_map.2 ⟨_, h, rfl⟩)
      rw [this]
      exact ih hid.2 h

theorem spacedRunes_valid (b : Bool) (rs : List Rune) (h : ∀ r ∈ rs, ValidRune r) : ∀ r ∈ spacedRunes b rs, ValidRune r := by
  rcases spacedRunes_cases b rs with ⟨e, -⟩ | ⟨r, t, -, -, -, e, -⟩
  · rw [e]; exact h
  · rw [e]
    intro x hx
    rcases List.mem_cons.1 hx with rfl | hx
    · decide
    · exact h x hx

/-- **C86.** The ids that the GPT-2 pipeline gives for a text, looked up in the vocabulary file, spell the text, with the added
space if there is one.  So two texts have the same ids just when they are the same, up to the added space. -/
theorem C86_ids (mach : Machine) (es : List (Str × Int)) (rules : List (Str × Str))
    (order : GoMap Str Int → List (Str × Int)) (ho : IterationOrder order)
    (hv : ∀ e ∈ es, ValidUtf8 e.1 ∧ e.1 ≠ []) (hi : ∀ e ∈ es, -(mach.half : Int) ≤ e.2 ∧ e.2 < mach.half)
    (hk : (es.map (·.1)).Nodup) (hid : (es.map (·.2)).Nodup) (hw : ∀ r ∈ rules, Writable r)
    (hr : ∀ r ∈ rules, ∀ t ∈ [r.1, r.2, r.1 ++ r.2], t ∈ es.map (·.1))
    (hb : ∀ b : UInt8, encodeRune (byteToRune b) ∈ es.map (·.1)) :
    ∃ v merges, Vocab.fromJSONFile mach (writeVocab es) order = .ok v
      ∧ mergeMapFromFile (writeRules rules) v 0 = .ok (.ok merges)
      ∧ ∀ (u : RxUni) (_ : SaneTables u) (capacity : Int) (unk : Str) (_ : unk = [] ∨ unk ∈ es.map (·.1)) (fuse : Bool)
          (addSpace : Bool) (w ty : Int) (rnd : NS → Nat → Bool) (rs : List Rune) (_ : ∀ r ∈ rs, ValidRune r),
        ∃ enc, GptEncodes u addSpace (plainBPE v merges capacity unk [] fuse) rnd w ty (encodeRunes rs) enc
          ∧ decodeIds es enc.ids = encodeRunes (spacedRunes addSpace rs)
          ∧ ∀ (rnd' : NS → Nat → Bool) (rs' : List Rune) (enc' : Encoding), (∀ r ∈ rs', ValidRune r) →
              GptEncodes u addSpace (plainBPE v merges capacity unk [] fuse) rnd' w ty (encodeRunes rs') enc' →
              (enc'.ids = enc.ids ↔ spacedRunes addSpace rs' = spacedRunes addSpace rs) := by
  obtain ⟨v, merges, h1, h2, h3, h4⟩ := C82_files mach es rules order ho (fun e he => (hv e he).1) hi hk hid hw hr
  refine ⟨v, merges, h1, h2, ?_⟩
  intro u hu capacity unk hunk fuse addSpace w ty rnd rs hrs
  have hm := ByteModel.of_files h2 h3 h4 hb capacity hunk fuse
  have key : ∀ (rnd : NS → Nat → Bool) (rs : List Rune), (∀ r ∈ rs, ValidRune r) →
      ∃ enc L, GptEncodes u addSpace (plainBPE v merges capacity unk [] fuse) rnd w ty (encodeRunes rs) enc
        ∧ decodeIds es enc.ids = encodeRunes (spacedRunes addSpace rs)
        ∧ GptPieces u [] (spacedRunes addSpace rs) L
        ∧ enc.ids = (L.flatMap fun x => pieceTokens (plainBPE v merges capacity unk [] fuse) x.2).map (·.id) := by
    intro rnd rs hrs
    obtain ⟨enc, L, g1, g2, g3, -, g5, -, -, -, g9, g10, -⟩ := gpt_exact hu addSpace rs hrs hm rnd w ty
    refine ⟨enc, L, g1, ?_, g2, g3⟩
    rw [← g10, g3, g5]
    have : ∀ t ∈ L.flatMap (fun x => pieceTokens (plainBPE v merges capacity unk [] fuse) x.2), termFor es t.id = t.value := by
      intro t ht
      obtain ⟨x, hx, ht⟩ := List.mem_flatMap.1 ht
      exact termFor_eq hid ((h3 _ _).1 ((h4.inv _ _).2 ((g9 x hx).2 t ht)))
    generalize L.flatMap (fun x => pieceTokens (plainBPE v merges capacity unk [] fuse) x.2) = l at this
    simp only [decodeIds, List.flatMap_map]
    induction l with
    | nil => rfl
    | cons t l ih =>
      rw [List.flatMap_cons, List.flatMap_cons, ih fun t ht => this t (by simp [ht]), this t (by simp)]
  obtain ⟨enc, L, g1, g2, g3, g4⟩ := key rnd rs hrs
  refine ⟨enc, g1, g2, ?_⟩
  intro rnd' rs' enc' hrs' hen
  obtain ⟨enc2, L', k1, k2, k3, k4⟩ := key rnd' rs' hrs'
  obtain rfl := hen.unique k1
  constructor
  · intro e
    have e2 : encodeRunes (spacedRunes addSpace rs') = encodeRunes (spacedRunes addSpace rs) := by rw [← k2, e, g2]
    have e3 := congrArg runesOf e2
    rwa [runesOf_encodeRunes _ (spacedRunes_valid _ _ hrs'), runesOf_encodeRunes _ (spacedRunes_valid _ _ hrs)] at e3
  · intro e
    rw [e] at k3
    rw [g4, k4, g3.unique hu k3]

/-- **C86, which texts have the same ids.** With the added space, a text that starts with something visible and the same text
after a space; otherwise only the same text. -/
theorem C86_same (b : Bool) (rs rs' : List Rune) : spacedRunes b rs' = spacedRunes b rs ↔
    rs' = rs ∨ (b = true ∧ ((rs' = 32 :: rs ∧ ∃ r ∈ rs.head?, isWhiteSpace r = false)
      ∨ (rs = 32 :: rs' ∧ ∃ r ∈ rs'.head?, isWhiteSpace r = false))) := by
  have h32 : isWhiteSpace 32 = true := by decide +kernel
  rcases spacedRunes_cases b rs with ⟨e, -⟩ | ⟨r, t, rfl, hr, hb, e, -⟩ <;>
    rcases spacedRunes_cases b rs' with ⟨e', -⟩ | ⟨r', t', rfl, hr', hb', e', -⟩
  · rw [e, e']
    constructor
    · exact .inl
    · rintro (h | ⟨rfl, ⟨rfl, r, h1, h2⟩ | ⟨rfl, r, h1, h2⟩⟩)
      · exact h
      · cases rs with
        | nil => cases h1
        | cons x rs =>
          simp only [List.head?_cons, Option.mem_def, Option.some.injEq] at h1
          subst h1
          simp [spacedRunes, h2] at e
      · cases rs' with
        | nil => cases h1
        | cons x rs' =>
          simp only [List.head?_cons, Option.mem_def, Option.some.injEq] at h1
          subst h1
          simp [spacedRunes, h2] at e'
  · rw [e, e']
    constructor
    · intro h
      exact .inr ⟨hb', .inr ⟨h.symm, r', rfl, hr'⟩⟩
    · rintro (h | ⟨-, ⟨h, -⟩ | ⟨h, -⟩⟩)
      · subst h
        rw [e] at e'
        exact absurd (congrArg List.length e') (by simp)
      · simp only [List.cons.injEq] at h
        rw [h.1, h32] at hr'; cases hr'
      · exact h.symm
  · rw [e, e']
    constructor
    · intro h
      exact .inr ⟨hb, .inl ⟨h, r, rfl, hr⟩⟩
    · rintro (h | ⟨-, ⟨h, -⟩ | ⟨h, -⟩⟩)
      · subst h
        rw [e] at e'
        exact absurd (congrArg List.length e') (by simp)
      · exact h
      · simp only [List.cons.injEq] at h
        rw [h.1, h32] at hr; cases hr
  · rw [e, e']
    constructor
    · intro h
      exact .inl (List.cons.inj h).2
    · rintro (h | ⟨-, ⟨h, -⟩ | ⟨h, -⟩⟩)
      · rw [h]
      · simp only [List.cons.injEq] at h
        rw [h.1, h32] at hr'; cases hr'
      · simp only [List.cons.injEq] at h
        rw [h.1, h32] at hr; cases hr

/-! ## Joining texts (C87) -/

theorem CoversBytes.unique {cs G G' : List Ch} {a e : Nat} (h : CoversBytes cs a e G) (h' : CoversBytes cs a e G') : G = G' := by
  have hne := h.ne
  have hne' := h'.ne
  obtain ⟨A, C, e0, h1, h2, h3, h4⟩ := h
  obtain ⟨A', C', e0', h1', h2', h3', h4'⟩ := h'
  have first : ∀ {A G C A' G' C' : List Ch}, cs = A ++ G ++ C → cs = A' ++ G' ++ C' → G ≠ [] →
      a < (text (A ++ G.take 1)).length → (text A').length ≤ a → A'.length ≤ A.length := by
    intro A G C A' G' C' e0 e0' hne h2 h1'
    refine Nat.le_of_not_lt fun hlt => ?_
    have := text_length_mono (cs := cs) (A := A ++ G.take 1) (B := G.drop 1 ++ C) (C := A') (D := G' ++ C')
      (by rw [e0, List.append_assoc A, List.append_assoc A, ← List.append_assoc (G.take 1), List.take_append_drop])
      (by rw [e0']; simp) (by simp; omega)
    omega
  have last : ∀ {A G C A' G' C' : List Ch}, cs = A ++ G ++ C → cs = A' ++ G' ++ C' → G' ≠ [] →
      (text (A' ++ G'.dropLast)).length < e → e ≤ (text (A ++ G)).length → (A' ++ G').length ≤ (A ++ G).length := by
    intro A G C A' G' C' e0 e0' hne h3' h4
    refine Nat.le_of_not_lt fun hlt => ?_
    have := text_length_mono (cs := cs) (A := A ++ G) (B := C) (C := A' ++ G'.dropLast) (D := [G'.getLast hne] ++ C')
      (by rw [e0]) (by rw [e0', List.append_assoc A', List.append_assoc A', ← List.append_assoc G'.dropLast, List.dropLast_concat_getLast])
      (by have := List.length_pos_iff.2 hne; simp only [List.length_append, List.length_dropLast] at hlt ⊢; omega)
    omega
  have hA : A.length = A'.length := Nat.le_antisymm (first e0' e0 hne' h2' h1) (first e0 e0' hne h2 h1')
  have hAG : (A ++ G).length = (A' ++ G').length := Nat.le_antisymm (last e0' e0 hne h3 h4') (last e0 e0' hne' h3' h4)
  have hp := (List.append_inj (e0.symm.trans e0') hAG).1
  exact (List.append_inj hp hA).2

theorem ByteRows.unique {cs : List Ch} {s : Int} : ∀ {ys : List Str} {os os' : List ByteOffsets} {a : Nat},
    ByteRows cs s a ys os → ByteRows cs s a ys os' → os = os' := by
  intro ys
  induction ys with
  | nil =>
    intro os os' a h h'
    cases os with
    | nil =>
      cases os' with
      | nil => rfl
      | cons o os => exact absurd h' (by simp [ByteRows])
    | cons o os => exact absurd h (by simp [ByteRows])
  | cons y ys ih =>
    intro os os' a h h'
    cases os with
    | nil => exact absurd h (by simp [ByteRows])
    | cons o os =>
      cases os' with
      | nil => exact absurd h' (by simp [ByteRows])
      | cons o' os' =>
        simp only [ByteRows] at h h'
        obtain ⟨-, -, ⟨G, g1, g2⟩, h4⟩ := h
        obtain ⟨-, -, ⟨G', g1', g2'⟩, h4'⟩ := h'
        obtain rfl := g1.unique g1'
        rw [g2, g2', ih h4 h4']

theorem ByteRows.shifted {cs : List Ch} {s k : Int} : ∀ {ys : List Str} {os : List ByteOffsets} {a : Nat},
    ByteRows cs s a ys os → ByteRows cs (s + k) a ys (os.map fun o => ⟨o.start + k, o.stop + k⟩) := by
  intro ys
  induction ys with
  | nil =>
    intro os a h
    cases os with
    | nil => exact h
    | cons o os => exact absurd h (by simp [ByteRows])
  | cons y ys ih =>
    intro os a h
    cases os with
    | nil => exact absurd h (by simp [ByteRows])
    | cons o os =>
      simp only [ByteRows, List.map_cons] at h ⊢
      obtain ⟨h1, h2, ⟨G, g1, g2⟩, h4⟩ := h
      refine ⟨h1, h2, ⟨G, g1, ?_⟩, ih h4⟩
      rw [g2]
      congr 1 <;> simp only <;> omega

theorem moveLeft_selfChars (k i : Nat) (rs : List Rune) : moveLeft (k : Int) (selfChars (i + k) rs) = selfChars i rs := by
  induction rs generalizing i with
  | nil => rfl
  | cons r rs ih =>
    simp only [selfChars, moveLeft, List.map_cons]
    have := ih (i + runeLen r)
    rw [show i + runeLen r + k = i + k + runeLen r by omega] at this
    rw [← this]
    simp only [moveLeft]
    congr 3 <;> omega

theorem ByteRows.join {A B : List Ch} {k : Int} {ys ys' : List Str} {os os' : List ByteOffsets}
    (h : ByteRows A 0 0 ys os) (h' : ByteRows (moveLeft k B) 0 0 ys' os') :
    ByteRows (A ++ B) 0 0 (ys ++ ys') (os ++ os'.map fun o => ⟨o.start + k, o.stop + k⟩) := by
  have e0 : moveLeft 0 A = A := by simp [moveLeft]
  have h1 := ByteRows.inside (P := A) (B := B) (Q := []) (s := 0) (k := k) (ys' := []) (os' := [])
    (by simp [ByteRows]) ys' _ 0 (by simpa using h'.shifted (k := k))
  have h2 := ByteRows.inside (P := []) (B := A) (Q := B) (s := 0) (k := 0) (ys' := ys')
    (os' := os'.map fun o => ⟨o.start + k, o.stop + k⟩) (by simpa using h1) ys os 0 (by rw [e0]; simpa using h)
  simpa using h2

/-- The contractions have no white space. -/
theorem StartsContraction.front {u : RxUni} {x b : List Rune} (hb : ∀ r ∈ b.head?, isWhiteSpace (u.lower r) = true)
    (h : StartsContraction u (x ++ b)) : StartsContraction u x := by
  obtain ⟨c, hc, e⟩ := h
  refine ⟨c, hc, ?_⟩
  by_cases hl : c.length ≤ x.length
  · rwa [List.take_append_of_le_length hl] at e
  · have hws : ∀ c ∈ contractions, ∀ r ∈ c, isWhiteSpace r = false := by decide +kernel
    cases b with
    | nil => rwa [List.append_nil] at e
    | cons r b =>
      have hr := hb r rfl
      have : u.lower r ∈ c := by
        rw [← e]
        refine List.mem_map.2 ⟨r, ?_, rfl⟩
        rw [List.take_append, List.mem_append]
        right
        obtain ⟨d, hd⟩ : ∃ d, c.length - x.length = d + 1 := ⟨c.length - x.length - 1, by omega⟩
        rw [hd]
        simp
      rw [hws c hc _ this] at hr
      cases hr

theorem GptPiece.extend {u : RxUni} {g post b : List Rune} (h : GptPiece u g post)
    (hb : ∀ r ∈ b.head?, sort4 u r = .white ∧ isWhiteSpace (u.lower r) = true)
    (hlast : ∀ r ∈ (g ++ post).getLast?, sort4 u r ≠ .white) : GptPiece u g (post ++ b) := by
  have hc : ∀ x, ¬ StartsContraction u x → ¬ StartsContraction u (x ++ b) := fun x hx h => hx (h.front fun r hr => (hb r hr).2)
  cases h with
  | contraction h => exact .contraction h
  | @run sp g _ k h1 h2 h3 h4 h5 h6 =>
    refine .run h1 h2 h3 h4 ?_ (by rw [← List.append_assoc]; exact hc _ h6)
    intro r hr
    cases post with
    | nil =>
      rw [List.nil_append] at hr
      rw [(hb r hr).1]
      exact fun h => h3 h.symm
    | cons p post => exact h5 r hr
  | atEnd h1 h2 h3 =>
    rw [List.append_nil] at hlast
    obtain ⟨l, hl⟩ : ∃ l, g.getLast? = some l := by
      cases hg : g.getLast? with
      | none => exact absurd (List.getLast?_eq_none_iff.1 hg) h1
      | some l => exact ⟨l, rfl⟩
    exact absurd (h2 l (List.mem_of_getLast? hl)) (hlast l hl)
  | @before _ post w h1 h2 h3 h4 h5 h6 =>
    cases post with
    | nil => exact absurd rfl h4
    | cons p post =>
      refine .before h1 h2 h3 (by simp) h5 ?_
      have := hc _ h6
      simpa using this
  | @single w _ h1 h2 h3 h4 h5 =>
    cases post with
    | nil => exact absurd rfl h3
    | cons p post => exact .single h1 h2 (by simp) h4 (hc _ h5)

theorem GptPieces.join {u : RxUni} {pre a b : List Rune} {L M : List (List Rune × List Rune)}
    (hb : ∀ r ∈ b.head?, sort4 u r = .white ∧ isWhiteSpace (u.lower r) = true) (h : GptPieces u pre a L)
    (hlast : ∀ r ∈ a.getLast?, sort4 u r ≠ .white) (h' : GptPieces u (pre ++ a) b M) : GptPieces u pre (a ++ b) (L ++ M) := by
  induction h with
  | nil => simpa using h'
  | @cons pre g post L hg hp hps ih =>
    rw [List.append_assoc, List.cons_append]
    refine .cons hg (hp.extend hb hlast) (ih ?_ (by simpa using h'))
    intro r hr
    refine hlast r ?_
    rw [List.getLast?_append]
    rw [Option.mem_def] at hr
    rw [hr]
    rfl

theorem GptPieces.moved {u : RxUni} {pre rest : List Rune} {L : List (List Rune × List Rune)} (h : GptPieces u pre rest L)
    (front : List Rune) : GptPieces u (front ++ pre) rest (L.map fun x => (front ++ x.1, x.2)) := by
  induction h with
  | nil => exact .nil
  | cons hg hp _ ih =>
    rw [List.map_cons]
    exact .cons hg hp (by simpa using ih)

theorem wordsFrom_append (w : Int) (T T' : List (List Token)) (i : Nat) :
    wordsFrom w i (T ++ T') = wordsFrom w i T ++ wordsFrom w (i + T.length) T' := by
  induction T generalizing i with
  | nil => simp [wordsFrom]
  | cons t T ih => simp [wordsFrom, ih, show i + 1 + T.length = i + (T.length + 1) by omega]

theorem wordsFrom_shift (w : Int) (T : List (List Token)) (i k : Nat) :
    wordsFrom w (i + k) T = (wordsFrom w i T).map fun x => if 0 ≤ w then x else x + (k : Int) := by
  induction T generalizing i with
  | nil => rfl
  | cons t T ih =>
    simp only [wordsFrom, List.map_append, List.map_map, Function.comp_def]
    rw [show i + k + 1 = i + 1 + k by omega, ih]
    congr 1
    refine List.map_congr_left fun _ _ => ?_
    split <;> simp

theorem wordsFrom_last {w : Int} (hw : w < 0) {T : List (List Token)} (h : ∀ t ∈ T, t ≠ []) (i : Nat) :
    ((wordsFrom w i T).getLast?.map (· + 1)).getD (i : Int) = ((i + T.length : Nat) : Int) := by
  rcases List.eq_nil_or_concat T with rfl | ⟨T, t, rfl⟩
  · simp [wordsFrom]
  · rw [List.concat_eq_append, wordsFrom_append]
    have ht := h t (by simp)
    simp only [wordsFrom, List.append_nil]
    rw [List.getLast?_append]
    rcases List.eq_nil_or_concat t with rfl | ⟨t, x, rfl⟩
    · exact absurd rfl ht
    · simp [show ¬ 0 ≤ w by omega]
      omega

/-- **C87, GPT-2.** If the first text ends in something visible and the second starts with white space, the encoding of both
together is that of the first followed by that of the second, with offsets and word numbers moved on. -/
theorem C87_gpt {u : RxUni} (hu : SaneTables u) (addSpace : Bool) {a b : List Rune} (ha : ∀ r ∈ a, ValidRune r)
    (hb : ∀ r ∈ b, ValidRune r) (hane : a ≠ []) (hlast : ∀ r ∈ a.getLast?, isWhiteSpace r = false)
    (hfirst : ∀ r ∈ b.head?, isWhiteSpace r = true ∧ isWhiteSpace (u.lower r) = true) {m : BPE} (hm : ByteModel m)
    (rnd : NS → Nat → Bool) (w ty : Int) :
    ∃ A B, GptEncodes u addSpace m rnd w ty (encodeRunes a) A ∧ GptEncodes u addSpace m rnd w ty (encodeRunes b) B
      ∧ GptEncodes u addSpace m rnd w ty (encodeRunes a ++ encodeRunes b) (joinEncodings (encodeRunes a).length w A B) := by
  have hsort : ∀ r, sort4 u r = .white ↔ isWhiteSpace r = true := by
    intro r
    rw [← hu.space]
    unfold sort4
    constructor
    · intro h
      split at h
      · cases h
      · split at h
        · cases h
        · split at h
          · assumption
          · cases h
    · intro h
      have h1 : u.letter r = false := by
        cases hl : u.letter r with
        | false => rfl
        | true => rw [hu.letter_space r hl] at h; cases h
      have h2 : u.number r = false := by
        cases hl : u.number r with
        | false => rfl
        | true => rw [hu.number_space r hl] at h; cases h
      simp [h1, h2, h]
  have esp : spacedRunes addSpace (a ++ b) = spacedRunes addSpace a ++ b := by
    cases a with
    | nil => exact absurd rfl hane
    | cons r a => simp only [spacedRunes, List.cons_append]; split <;> rfl
  have esb : spacedRunes addSpace b = b := by
    cases b with
    | nil => rfl
    | cons r b => simp [spacedRunes, (hfirst r rfl).1]
  have elast : (spacedRunes addSpace a).getLast? = a.getLast? := by
    cases a with
    | nil => rfl
    | cons r a =>
      simp only [spacedRunes]
      split
      · rw [List.getLast?_cons_cons]
      · rfl
  obtain ⟨A, LA, a1, a2, a3, a4, a5, a6, a7, a8, a9, -, a11⟩ := gpt_exact hu addSpace a ha hm rnd w ty
  obtain ⟨B, LB, b1, b2, b3, b4, b5, b6, b7, b8, b9, -, b11⟩ := gpt_exact hu addSpace b hb hm rnd w ty
  obtain ⟨E, LE, e1, e2, e3, e4, e5, e6, e7, e8, e9, -, e11⟩ := gpt_exact hu addSpace (a ++ b)
    (fun r hr => (List.mem_append.1 hr).elim (ha r) (hb r)) hm rnd w ty
  refine ⟨A, B, a1, b1, ?_⟩
  rw [esb] at b2
  rw [esp] at e2
  have hj := GptPieces.join (M := LB.map fun x => (spacedRunes addSpace a ++ x.1, x.2))
    (fun r hr => ⟨(hsort r).2 (hfirst r hr).1, (hfirst r hr).2⟩) a2
    (fun r hr h => by
      rw [elast] at hr
      have := hlast r hr
      rw [(hsort r).1 h] at this
      cases this) (by simpa using b2.moved (spacedRunes addSpace a))
  have hLE := e2.unique hu hj
  have hfl : (LE.flatMap fun x => pieceTokens m x.2) = (LA.flatMap fun x => pieceTokens m x.2) ++ LB.flatMap fun x => pieceTokens m x.2 := by
    rw [hLE, List.flatMap_append, List.flatMap_map]
  have hmp : (LE.map fun x => pieceTokens m x.2) = (LA.map fun x => pieceTokens m x.2) ++ LB.map fun x => pieceTokens m x.2 := by
    rw [hLE, List.map_append, List.map_map]
    rfl
  have hch : spaced addSpace (selfChars 0 (a ++ b)) = spaced addSpace (selfChars 0 a) ++ selfChars (encodeRunes a).length b := by
    rw [selfChars_append, Nat.zero_add]
    cases a with
    | nil => exact absurd rfl hane
    | cons r a => simp only [selfChars, spaced, List.cons_append]; split <;> rfl
  have hcb : spaced addSpace (selfChars 0 b) = selfChars 0 b := by
    cases b with
    | nil => rfl
    | cons r b => simp [spaced, selfChars, (hfirst r rfl).1]
  have hoff : E.offsets = A.offsets ++ B.offsets.map fun o => ⟨o.start + (encodeRunes a).length, o.stop + (encodeRunes a).length⟩ := by
    rw [hfl, List.map_append, hch] at e11
    rw [hcb] at b11
    have := moveLeft_selfChars (encodeRunes a).length 0 b
    rw [Nat.zero_add] at this
    rw [← this] at b11
    exact e11.unique (a11.join b11)
  have hE : E = joinEncodings (encodeRunes a).length w A B := by
    have hw : E.words = (joinEncodings (encodeRunes a).length w A B).words := by
      simp only [joinEncodings]
      rw [e6, hmp, wordsFrom_append, wordsFrom_shift, a6, b6]
      congr 1
      refine List.map_congr_left fun x _ => ?_
      split
      · rfl
      · have := wordsFrom_last (w := w) (by omega) (T := LA.map fun x => pieceTokens m x.2) (by
          intro t ht
          obtain ⟨x, hx, rfl⟩ := List.mem_map.1 ht
          exact (a9 x hx).1) 0
        simp only [Nat.zero_add, Int.natCast_zero] at this
        rw [this]
    cases E
    simp only [joinEncodings, Encoding.mk.injEq] at *
    refine ⟨?_, ?_, ?_, hw, hoff, ?_, ?_⟩
    · rw [e3, a3, b3, hfl, List.map_append]
    · rw [e4, a4, b4, hfl, List.map_append]
    · rw [e5, a5, b5, hfl, List.map_append]
    · rw [e7, a7, b7, hfl, List.map_append]
    · rw [e8, a8, b8, hfl, List.map_append]
  rw [← hE, ← encodeRunes_append]
  exact e1

/-- The pipeline on a sample vocabulary, as a function. -/
def gptRun (input : Str) : GoM (Except Err Encoding) :=
  (byteLevelDefault Tests.asciiUni (PTS.fromString input)).bind fun r =>
    (r.1.tokenize (byteSample.tokenizeNS fun _ _ => false)).bind fun r => r.1.intoEncoding (-1) 0

-- the encodings of `aé` and ` a` joined are that of `aé a`
example : ∃ A B, gptRun b!"aé" = .ok (.ok A) ∧ gptRun b!" a" = .ok (.ok B) ∧ A.words = [0, 1, 1] ∧ B.words = [0]
    ∧ gptRun b!"aé a" = .ok (.ok (joinEncodings 3 (-1) A B)) :=
  ⟨⟨[256, 195, 169], [0, 0, 0], [b!"Ġa", b!"Ã", b!"©"], [0, 1, 1], [⟨0, 1⟩, ⟨1, 3⟩, ⟨1, 3⟩], [0, 0, 0], [1, 1, 1]⟩,
    ⟨[256], [0], [b!"Ġa"], [0], [⟨0, 2⟩], [0], [1]⟩, by decide +kernel, by decide +kernel, rfl, rfl, by decide +kernel⟩

/-- White space at the end of the first text goes with the next word, so joining after it is different. -/
theorem C87_after_space : ∃ A B C, gptRun b!"a " = .ok (.ok A) ∧ gptRun b!"a" = .ok (.ok B) ∧ gptRun b!"a a" = .ok (.ok C)
    ∧ C.ids ≠ (joinEncodings 2 (-1) A B).ids :=
  ⟨⟨[256, 32], [0, 0], [b!"Ġa", b!"Ġ"], [0, 1], [⟨0, 1⟩, ⟨1, 2⟩], [0, 0], [1, 1]⟩,
    ⟨[256], [0], [b!"Ġa"], [0], [⟨0, 1⟩], [0], [1]⟩,
    ⟨[256, 256], [0, 0], [b!"Ġa", b!"Ġa"], [0, 1], [⟨0, 1⟩, ⟨1, 3⟩], [0, 0], [1, 1]⟩,
    by decide +kernel, by decide +kernel, by decide +kernel, by decide +kernel⟩

-- ids read back: the texts of the terms are the characters of the bytes
example : decodeIds gptTerms [256, 104, 259] = b!" thé" ∧ termFor gptTerms 259 = b!"Ã©" := by decide +kernel

-- with the added space, `a` and ` a` have the same ids; other texts do not
example : spacedRunes true [97] = spacedRunes true [32, 97] ∧ spacedRunes true [32, 97] ≠ spacedRunes true [32, 32, 97]
    ∧ spacedRunes false [97] ≠ spacedRunes false [32, 97] := by decide +kernel

end Verif
