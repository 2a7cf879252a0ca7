import Verif.Props.JoinMeta
import Verif.Props.Join
import Verif.Props.BertDecode
import Verif.Model.Notation

/-! The meta-space tokenizer from its two files to the encoding and back (C104). -/

set_option autoImplicit false

namespace Verif

open Ref Json

/-! ## The pieces, as a function -/

/-- A text cut in front of every `R`. -/
def cutFront (R : Rune) : List Rune → List (List Rune)
  | [] => []
  | r :: rs => match cutFront R rs with
    | [] => [[r]]
    | p :: ps => if p.head? = some R then [r] :: p :: ps else (r :: p) :: ps

theorem cutFront_head (R r : Rune) (rs : List Rune) : ∃ p ps, cutFront R (r :: rs) = (r :: p) :: ps := by
  unfold cutFront
  split
  · exact ⟨[], [], rfl⟩
  · split
    · exact ⟨[], _, rfl⟩
    · exact ⟨_, _, rfl⟩

theorem cutFront_piece {R : Rune} : ∀ {p : List Rune} (r : Rune) {T : List Rune}, R ∉ p → (T = [] ∨ T.head? = some R) →
    cutFront R (r :: (p ++ T)) = (r :: p) :: cutFront R T
  | [], r, T, _, hT => by
    rw [List.nil_append, cutFront]
    cases T with
    | nil => simp [cutFront]
    | cons x T =>
      have hx : x = R := by
        rcases hT with h | h
        · cases h
        · simpa using h
      obtain ⟨q, qs, e⟩ := cutFront_head R x T
      rw [e, hx]
      simp
  | x :: p, r, T, hp, hT => by
    have hx : x ≠ R := by rintro rfl; exact hp (by simp)
    have ih := cutFront_piece (p := p) x (T := T) (fun h => hp (by simp [h])) hT
    rw [cutFront, show x :: p ++ T = x :: (p ++ T) from rfl, ih]
    simp [hx]

/-- The pieces are determined. -/
theorem CutBefore.eq {R : Rune} : ∀ {ps : List (List Rune)} {rs : List Rune}, CutBefore R rs ps → ps = cutFront R rs
  | [], rs, h => by
    have := h.flatten
    simp at this
    subst this
    rfl
  | p :: ps, rs, h => by
    obtain ⟨h1, h2, h3⟩ := h
    have h3' : ∀ q ∈ ps, q.head? = some R := h3
    have ih := CutBefore.eq (R := R) (ps := ps) (rs := ps.flatten) ⟨rfl, fun q hq => h2 q (by simp [hq]), fun q hq => h3' q (List.mem_of_mem_tail hq)⟩
    obtain ⟨hp, hp'⟩ := h2 p (by simp)
    cases p with
    | nil => exact absurd rfl hp
    | cons r p =>
      rw [← h1, List.flatten_cons, List.cons_append, cutFront_piece (R := R) (p := p) r hp', ← ih]
      cases ps with
      | nil => exact .inl rfl
      | cons q qs =>
        right
        have := h3' q (by simp)
        cases q with
        | nil => cases this
        | cons x q => simpa using this

/-! ## From the files -/

/-- What the meta-space pre-tokenizer, a BPE model and `IntoEncoding` make of an input. -/
def MetaEncodes (R : Rune) (prefixSpace : Bool) (m : BPE) (rnd : NS → Nat → Bool) (w ty : Int) (input : Str) (enc : Encoding) : Prop :=
  Encodes (metaSpace R prefixSpace) (m.tokenizeNS rnd) w ty (PTS.fromString input) enc

theorem MetaEncodes.unique {R : Rune} {prefixSpace : Bool} {m : BPE} {rnd : NS → Nat → Bool} {w ty : Int} {input : Str} {enc enc' : Encoding}
    (h : MetaEncodes R prefixSpace m rnd w ty input enc) (h' : MetaEncodes R prefixSpace m rnd w ty input enc') : enc = enc' := by
  obtain ⟨p1, p2, q1, q2, q3⟩ := h
  obtain ⟨p1', p2', r1, r2, r3⟩ := h'
  rw [q1] at r1; injection r1 with r1; injection r1 with r1; subst r1
  rw [q2] at r2; injection r2 with r2; injection r2 with r2; subst r2
  rw [q3] at r3; injection r3 with r3; injection r3

theorem metaText_valid {R : Rune} (hR : ValidRune R) (prefixSpace : Bool) {rs : List Rune} (hv : ∀ r ∈ rs, ValidRune r) :
    ∀ r ∈ metaText R prefixSpace rs, ValidRune r := by
  intro r hr
  unfold metaText at hr
  rcases List.mem_append.1 hr with hr | hr
  · split at hr
    · simp at hr; subst hr; exact hR
    · simp at hr
  · obtain ⟨x, hx, rfl⟩ := List.mem_map.1 hr
    split
    · exact hR
    · exact hv x hx

/-- **C104.** A vocabulary and rules are written to files and loaded.  Then every valid input whose characters, the spaces replaced, are
in the vocabulary is encoded: the text is cut in front of every replacement, and each piece into the texts that the rules make of its
characters; the ids are those of the file; the words are numbered; the offsets select what a token stands for; and the terms of the ids,
one after the other, are the text. -/
theorem C104_meta (mach : Machine) (es : List (Str × Int)) (rules : List (Str × Str))
    (order : GoMap Str Int → List (Str × Int)) (ho : IterationOrder order)
    (hv : ∀ e ∈ es, ValidUtf8 e.1 ∧ e.1 ≠ []) (hi : ∀ e ∈ es, -(mach.half : Int) ≤ e.2 ∧ e.2 < mach.half)
    (hk : (es.map (·.1)).Nodup) (hid : (es.map (·.2)).Nodup) (hw : ∀ r ∈ rules, Writable r)
    (hr : ∀ r ∈ rules, ∀ t ∈ [r.1, r.2, r.1 ++ r.2], t ∈ es.map (·.1)) :
    ∃ v merges, Vocab.fromJSONFile mach (writeVocab es) order = .ok v
      ∧ mergeMapFromFile (writeRules rules) v 0 = .ok (.ok merges)
      ∧ ∀ (capacity : Int) (unk : Str) (_ : unk = [] ∨ unk ∈ es.map (·.1)) (fuse : Bool) (R : Rune) (_ : ValidRune R) (prefixSpace : Bool)
          (rnd : NS → Nat → Bool) (w ty : Int) (rs : List Rune) (_ : ∀ r ∈ rs, ValidRune r)
          (_ : ∀ r ∈ metaText R prefixSpace rs, encodeRune r ∈ es.map (·.1)),
        ∃ enc, MetaEncodes R prefixSpace (plainBPE v merges capacity unk [] fuse) rnd w ty (encodeRunes rs) enc
          ∧ enc.tokens = (cutFront R (metaText R prefixSpace rs)).flatMap (fun x => bpe rules (x.map encodeRune))
          ∧ All2 (fun t i => (t, i) ∈ es) enc.tokens enc.ids
          ∧ enc.words = wordNumbers w 0 ((cutFront R (metaText R prefixSpace rs)).map fun x => (bpe rules (x.map encodeRune)).length)
          ∧ All2 (fun o t => ∃ G, MetaSource R rs o G ∧ t = encodeRunes G) enc.offsets enc.tokens
          ∧ enc.ids.flatMap (termFor es) = encodeRunes (metaText R prefixSpace rs)
          ∧ (R ∉ rs → fromMeta R prefixSpace (runesOf (enc.ids.flatMap (termFor es))) = rs) := by
  obtain ⟨v, merges, h1, h2, h3, h4⟩ := C82_files mach es rules order ho (fun e he => (hv e he).1) hi hk hid hw hr
  refine ⟨v, merges, h1, h2, ?_⟩
  intro capacity unk hunk fuse R hR prefixSpace rnd w ty rs hrs hcov
  have hknown : ∀ t, t ∈ es.map (·.1) → v.getID t ≠ none := by
    intro t ht
    obtain ⟨e, he, rfl⟩ := List.mem_map.1 ht
    rw [(h3 _ _).2 he]; simp
  have hkey : ∀ i last r, (plainBPE v merges capacity unk [] fuse).lookupKey i last r = encodeRune r := by
    intro i last r
    simp [BPE.lookupKey, BPE.hasContinuingSubwordPrefix, BPE.hasEndOfWordSuffix, plainBPE]
  have hvm := metaText_valid hR prefixSpace hrs
  have hvoc : ∀ t i, (plainBPE v merges capacity unk [] fuse).vocab.getID t = some i →
      (plainBPE v merges capacity unk [] fuse).vocab.getString i = some t := fun t i h => (h4.inv t i).1 h
  have hmer : ∀ a b x, (plainBPE v merges capacity unk [] fuse).merges.get a b = some x →
      (plainBPE v merges capacity unk [] fuse).vocab.getString x.id ≠ none := by
    intro a b x h
    obtain ⟨_, _, _, -, -, -, k, -⟩ := (h4.iff _ _ _).1 h
    have := (h4.inv _ _).1 k
    show v.getString x.id ≠ none
    rw [this]; simp
  obtain ⟨p1, p2, enc, n2, L, T, Gf, g1, g2, g3, g4, g5, g6, g7, g8⟩ := C72_bpe hR prefixSpace (plainBPE v merges capacity unk [] fuse) rnd
    (fun t i h => by rw [hvoc t i h]; simp) hmer (fun h => hknown _ (hunk.resolve_left h)) rs hrs
    (.inr fun r hr i last => by rw [hkey]; exact hknown _ (hcov r hr)) w ty
  have hL : L.map (fun x => x.2.map (·.1)) = cutFront R (metaText R prefixSpace rs) := by
    have := g4.eq
    rw [wordRunes, List.map_map] at this
    exact this
  have hmem : ∀ x ∈ L, ∀ r ∈ x.2.map (·.1), r ∈ metaText R prefixSpace rs := by
    intro x hx r hr
    rw [← g4.flatten]
    exact List.mem_flatten.2 ⟨_, List.mem_map.2 ⟨_, List.mem_map.2 ⟨x, hx, rfl⟩, rfl⟩, hr⟩
  have hone : ∀ x ∈ L, (T x).map (·.value) = bpe rules ((x.2.map (·.1)).map encodeRune) ∧ ∀ t ∈ T x, (t.value, t.id) ∈ es := by
    intro x hx
    obtain ⟨ts, k1, k2, k3, -⟩ := loaded_tokens hv h2 h3 h4 capacity unk [] fuse (rnd (pieceOf n2 x.2)) (x.2.map (·.1)) hunk
      (fun r hr => hvm r (hmem x hx r hr))
      (by
        intro y hy
        rw [suffixed_nil] at hy
        obtain ⟨r, hr, rfl⟩ := List.mem_map.1 hy
        exact hcov r (hmem x hx r hr))
    have e : ts = T x := by
      have := g5 x hx
      rw [show text x.2 = encodeRunes (x.2.map (·.1)) from rfl, k1] at this
      simpa using this
    subst e
    rw [suffixed_nil] at k2
    exact ⟨k2, k3⟩
  have hall : ∀ t ∈ (L.map T).flatten, (t.value, t.id) ∈ es := by
    intro t ht
    obtain ⟨ts, hts, ht⟩ := List.mem_flatten.1 ht
    obtain ⟨x, hx, rfl⟩ := List.mem_map.1 hts
    exact (hone x hx).2 t ht
  have htok : enc.tokens = (cutFront R (metaText R prefixSpace rs)).flatMap (fun x => bpe rules (x.map encodeRune)) := by
    rw [g6.tokens, ← hL]
    clear g4 g5 g6 g7 g8 hL hmem hall
    induction L with
    | nil => rfl
    | cons x L ih =>
      simp only [List.map_cons, List.flatten_cons, List.map_append, List.flatMap_cons, (hone x (by simp)).1]
      rw [ih fun y hy => hone y (by simp [hy])]
  have hids : All2 (fun t i => (t, i) ∈ es) enc.tokens enc.ids := by
    rw [g6.tokens, g6.ids]
    generalize (L.map T).flatten = l at hall
    induction l with
    | nil => exact .nil
    | cons t l ih => exact .cons (hall t (by simp)) (ih fun t ht => hall t (by simp [ht]))
  have hterm : enc.ids.flatMap (termFor es) = enc.tokens.flatten := by
    clear htok
    revert hids
    generalize enc.ids = is
    generalize enc.tokens = ts
    intro h
    induction h with
    | nil => rfl
    | cons h _ ih => rw [List.flatMap_cons, List.flatten_cons, ih, termFor_eq hid h]
  obtain ⟨q1, q2, enc', m1, m2, m3, m4, m5, m6⟩ := C72_lossless hR prefixSpace (plainBPE v merges capacity unk [] fuse) rnd rfl rfl hvoc hmer
    (BPE.C45_file (writeRules rules) v h4.inv h2) (fun h => hknown _ (hunk.resolve_left h)) rs hrs (fun r hr => hknown _ (hcov r hr)) w ty
  have he : MetaEncodes R prefixSpace (plainBPE v merges capacity unk [] fuse) rnd w ty (encodeRunes rs) enc := ⟨p1, p2, g1, g2, g3⟩
  have : enc' = enc := MetaEncodes.unique ⟨q1, q2, m1, m2, m3⟩ he
  subst this
  refine ⟨enc', he, htok, hids, ?_, m5, by rw [hterm, m4], fun hn => by rw [hterm]; exact m6 hn⟩
  rw [g6.words, wordsFrom_numbers, ← hL]
  congr 1
  rw [List.map_map, List.map_map]
  refine List.map_congr_left fun x hx => ?_
  simp only [Function.comp]
  rw [← (hone x hx).1, List.length_map]

/-- **C104, texts with the same ids.** Two texts have the same ids exactly when they are the same after spaces are replaced and the
prefix is added; texts that do not have the replacement exactly when they are equal. -/
theorem C104_same (mach : Machine) (es : List (Str × Int)) (rules : List (Str × Str))
    (order : GoMap Str Int → List (Str × Int)) (ho : IterationOrder order)
    (hv : ∀ e ∈ es, ValidUtf8 e.1 ∧ e.1 ≠ []) (hi : ∀ e ∈ es, -(mach.half : Int) ≤ e.2 ∧ e.2 < mach.half)
    (hk : (es.map (·.1)).Nodup) (hid : (es.map (·.2)).Nodup) (hw : ∀ r ∈ rules, Writable r)
    (hr : ∀ r ∈ rules, ∀ t ∈ [r.1, r.2, r.1 ++ r.2], t ∈ es.map (·.1)) :
    ∃ v merges, Vocab.fromJSONFile mach (writeVocab es) order = .ok v
      ∧ mergeMapFromFile (writeRules rules) v 0 = .ok (.ok merges)
      ∧ ∀ (capacity : Int) (unk : Str) (_ : unk = [] ∨ unk ∈ es.map (·.1)) (fuse : Bool) (R : Rune) (_ : ValidRune R) (prefixSpace : Bool)
          (rnd rnd' : NS → Nat → Bool) (w ty : Int) (rs rs' : List Rune) (_ : ∀ r ∈ rs, ValidRune r) (_ : ∀ r ∈ rs', ValidRune r)
          (_ : ∀ r ∈ metaText R prefixSpace rs, encodeRune r ∈ es.map (·.1))
          (_ : ∀ r ∈ metaText R prefixSpace rs', encodeRune r ∈ es.map (·.1)),
        ∃ enc enc', MetaEncodes R prefixSpace (plainBPE v merges capacity unk [] fuse) rnd w ty (encodeRunes rs) enc
          ∧ MetaEncodes R prefixSpace (plainBPE v merges capacity unk [] fuse) rnd' w ty (encodeRunes rs') enc'
          ∧ (enc.ids = enc'.ids ↔ metaText R prefixSpace rs = metaText R prefixSpace rs')
          ∧ (R ∉ rs → R ∉ rs' → (enc.ids = enc'.ids ↔ rs = rs')) := by
  obtain ⟨v, merges, h1, h2, h⟩ := C104_meta mach es rules order ho hv hi hk hid hw hr
  refine ⟨v, merges, h1, h2, ?_⟩
  intro capacity unk hunk fuse R hR prefixSpace rnd rnd' w ty rs rs' hrs hrs' hc hc'
  obtain ⟨enc, e1, e2, e3, -, -, e6, -⟩ := h capacity unk hunk fuse R hR prefixSpace rnd w ty rs hrs hc
  obtain ⟨enc', f1, f2, f3, -, -, f6, -⟩ := h capacity unk hunk fuse R hR prefixSpace rnd' w ty rs' hrs' hc'
  have key : enc.ids = enc'.ids ↔ metaText R prefixSpace rs = metaText R prefixSpace rs' := by
    constructor
    · intro h
      rw [h, f6] at e6
      exact (encodeRunes_inj (metaText_valid hR prefixSpace hrs') (metaText_valid hR prefixSpace hrs) e6).symm
    · intro h
      rw [h, ← f2] at e2
      rw [e2] at e3
      exact e3.ids_eq hk f3
  refine ⟨enc, enc', e1, f1, key, fun hn hn' => ?_⟩
  rw [key]
  constructor
  · intro h
    rw [← fromMeta_metaText prefixSpace hn, h, fromMeta_metaText prefixSpace hn']
  · rintro rfl; rfl

/-! ## Examples -/

example : cutFront u!"▁" (metaText u!"▁" true (runesOf b!"a b▁ c")) = [runesOf b!"▁a", runesOf b!"▁b", runesOf b!"▁", runesOf b!"▁c"] := by
  decide +kernel

/-- If the replacement is in the text, it reads as a space: "▁a" and "a" have the same ids with the prefix, "a▁b" and "a b" always. -/
example : metaText u!"▁" true (runesOf b!"▁a") = metaText u!"▁" true (runesOf b!"a")
    ∧ metaText u!"▁" false (runesOf b!"a▁b") = metaText u!"▁" false (runesOf b!"a b") := by decide +kernel

/-- The tokens and the text that is read back, for the rule "▁ a". -/
example :
    (cutFront u!"▁" (metaText u!"▁" true (runesOf b!"a b aa"))).flatMap (fun x => bpe [(b!"▁", b!"a")] (x.map encodeRune))
        = [b!"▁a", b!"▁", b!"b", b!"▁a", b!"a"]
      ∧ ([3, 0, 2, 3, 1] : List Int).flatMap (termFor [(b!"▁", 0), (b!"a", 1), (b!"b", 2), (b!"▁a", 3)]) = b!"▁a▁b▁aa"
      ∧ fromMeta u!"▁" true (runesOf b!"▁a▁b▁aa") = runesOf b!"a b aa" := by decide +kernel

/-- A space in front is not lost. -/
example : metaText u!"▁" true (runesOf b!" a") = runesOf b!"▁▁a" := by decide +kernel

end Verif
