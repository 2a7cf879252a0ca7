import Verif.Lemmas.Bytes
import Verif.Lemmas.Loop
import Verif.Props.Whole
import Verif.Model.PreTokenizers
import Verif.Model.Notation

/-! C76: texts that are not valid UTF-8.

Nothing here assumes a well-formed `NormalizedString`: the states are arbitrary. -/

set_option autoImplicit false

namespace Verif

/-! ## Splitting -/

/-- Chunks that can come from reading a text. -/
def GoodChunks (cs : List Chunk) : Prop :=
  ∀ c ∈ cs, c.bytes ≠ [] ∧ (c.bytes = encodeRune c.rune ∨ (c.bytes.length = 1 ∧ c.rune = 0xFFFD))

theorem goodChunks (s : Str) : GoodChunks (chunks s) := by
  intro c hc
  obtain ⟨h1, -, h2⟩ := (reads_chunks s).chunk c hc
  exact ⟨h1, h2⟩

theorem isBad_iff {c : Chunk} (h : c.bytes = encodeRune c.rune ∨ (c.bytes.length = 1 ∧ c.rune = 0xFFFD)) :
    (c.isBad = true → c.bytes.length < runeLen c.rune) ∧ (c.isBad = false → c.bytes = encodeRune c.rune) := by
  unfold Chunk.isBad
  constructor
  · intro hb
    simp only [bne_iff_ne, ne_eq] at hb
    rcases h with h | ⟨h1, h2⟩
    · exact absurd h hb
    · rw [h1, h2]; decide +kernel
  · intro hb
    simpa using hb

/-- What `FindMatches` takes for the length of a run, when it is not too long. -/
theorem seen_le {g : List Chunk} (hg : GoodChunks g) (h : seen g ≤ (textOf g).length) :
    seen g = (textOf g).length ∧ ∀ c ∈ g.getLast?, c.isBad = false := by
  by_cases h0 : g = []
  · subst h0; exact ⟨rfl, by simp⟩
  · obtain ⟨q, c, rfl⟩ : ∃ q c, g = q ++ [c] := ⟨g.dropLast, g.getLast h0, (List.dropLast_concat_getLast h0).symm⟩
    rw [seen_append] at h ⊢
    obtain ⟨-, hc⟩ := hg c (by simp)
    obtain ⟨i1, i2⟩ := isBad_iff hc
    simp only [textOf_append, textOf_cons, textOf_nil, List.append_nil, List.length_append] at h ⊢
    cases hb : c.isBad with
    | true => have := i1 hb; omega
    | false =>
      have := i2 hb
      refine ⟨by rw [this]; rfl, ?_⟩
      intro x hx
      simp at hx; rw [← hx]; exact hb

/-- The pieces a successful `Slice` of every kept capture gives. -/
theorem pieces_text {ns : NS} (keep : Bool) : ∀ (t : List (Bool × List Chunk)) (pre : Str) (pieces : List NS),
    ns.get = pre ++ textOf (t.flatMap (·.2)) → (∀ x ∈ t, GoodChunks x.2) →
    (∀ x ∈ t, x.1 = true → ∃ c : Chunk, x.2 = [c] ∧ c.isBad = false) →
    All2 (fun g p => ns.slice (.normalized (span g).1 (span g).2) = .ok (some p))
      (splitGroups (if keep then .isolated else .removed) (chunkCaps pre.length t)) pieces →
    pieces.map NS.get = ((t.filter fun x => keep || !x.1).map fun x => textOf x.2)
    ∧ ∀ x ∈ t.getLast?, ∀ c ∈ x.2.getLast?, c.isBad = false := by
  have drop1 : ∀ (c : Capture) (l : List Capture),
      splitGroups (if keep then .isolated else .removed) (c :: l)
        = (if keep || !c.isMatch then [[c]] else []) ++ splitGroups (if keep then .isolated else .removed) l := by
    intro c l
    cases keep <;> cases h : c.isMatch <;> simp [splitGroups, h]
  have piece : ∀ (pre post g : Str) (p : NS), ns.get = pre ++ (g ++ post) →
      ns.slice (.normalized pre.length (pre.length + g.length)) = .ok (some p) → p.get = g := by
    intro pre post g p he h
    rw [slice_get h, he]
    unfold sub
    have e : ((pre.length : Int) + g.length - pre.length).toNat = g.length := by omega
    rw [e]; simp
  intro t
  induction t with
  | nil =>
    intro pre pieces _ _ _ h
    have : pieces = [] := by
      cases keep <;> simp only [chunkCaps, splitGroups, List.filter_nil, List.map_nil, Bool.false_eq_true, if_false,
        if_true] at h <;> cases h <;> rfl
    subst this
    simp
  | cons x t ih =>
    intro pre pieces he hg hm h
    obtain ⟨b, g⟩ := x
    have hgg := hg (b, g) (by simp)
    cases t with
    | nil =>
      simp only [List.flatMap_cons, List.flatMap_nil, List.append_nil] at he
      simp only [chunkCaps] at h
      rw [drop1] at h
      have nil : splitGroups (if keep then .isolated else .removed) [] = [] := by cases keep <;> rfl
      rw [nil, List.append_nil] at h
      cases hk : (keep || !b) with
      | false =>
        simp only [hk, Bool.false_eq_true, if_false] at h
        have hb : b = true := by cases b <;> simp at hk ⊢
        obtain ⟨c, e1, e2⟩ := hm (b, g) (by simp) hb
        have hp : pieces = [] := by cases h; rfl
        subst hp
        refine ⟨by simp [hk], ?_⟩
        intro x hx c' hc'
        simp at hx; subst hx
        simp only at e1 hc'
        rw [e1] at hc'; simp at hc'; rw [← hc']; exact e2
      | true =>
        simp only [hk, if_true] at h
        cases h with
        | cons h1 h2 =>
          rename_i p ps
          have hps : ps = [] := by cases h2; rfl
          subst hps
          simp only [span, List.getLast_singleton] at h1
          have hle : seen g ≤ (textOf g).length := by
            obtain ⟨-, na, nb, oa, ob, als, k1, -, -, k4, -⟩ := slice_ok h1
            simp only [NS.coerceRangeToNormalized, Option.some.injEq, Prod.mk.injEq] at k1
            obtain ⟨rfl, rfl⟩ := k1
            have k5 := (goSlice_eq_ok.1 k4).1
            have k6 : ns.normalized.length = pre.length + (textOf g).length := by
              have := congrArg List.length he
              simpa [NS.get] using this
            omega
          obtain ⟨s1, s2⟩ := seen_le hgg hle
          rw [s1] at h1
          refine ⟨?_, ?_⟩
          · have := piece pre [] (textOf g) p (by simpa using he) h1
            simp [hk, this]
          · intro x hx c hc
            simp at hx; subst hx
            exact s2 c hc
    | cons y t =>
      simp only [chunkCaps] at h
      rw [drop1] at h
      have he' : ns.get = (pre ++ textOf g) ++ textOf ((y :: t).flatMap (·.2)) := by
        rw [he]; simp
      have next := fun ps => ih (pre ++ textOf g) ps he' (fun x hx => hg x (by simp at hx ⊢; exact .inr hx))
        (fun x hx => hm x (by simp at hx ⊢; exact .inr hx))
      have el : (((pre ++ textOf g).length : Nat) : Int) = (pre.length : Int) + (textOf g).length := by simp
      rw [el] at next
      cases hk : (keep || !b) with
      | false =>
        simp only [hk, Bool.false_eq_true, if_false, List.nil_append] at h
        obtain ⟨n1, n2⟩ := next pieces h
        refine ⟨?_, ?_⟩
        · rw [n1, List.filter_cons_of_neg (a := (b, g)) (by simpa using hk)]
        · intro x hx; exact n2 x (by simpa using hx)
      | true =>
        simp only [hk, if_true, List.singleton_append] at h
        cases h with
        | cons h1 h2 =>
          rename_i p ps
          obtain ⟨n1, n2⟩ := next ps h2
          simp only [span, List.getLast_singleton] at h1
          have := piece pre (textOf ((y :: t).flatMap (·.2))) (textOf g) p (by rw [he]; simp) h1
          refine ⟨?_, ?_⟩
          · rw [List.map_cons, n1, this, List.filter_cons_of_pos (a := (b, g)) (by simpa using hk), List.map_cons]
          · intro x hx; exact n2 x (by simpa using hx)

theorem chunkSegs_match (f : Rune → Bool) (cs : List Chunk) :
    ∀ x ∈ chunkSegs f cs, x.1 = true → ∃ c : Chunk, x.2 = [c] ∧ f c.rune = true ∧ c ∈ cs := by
  induction cs with
  | nil => simp [chunkSegs]
  | cons c cs ih =>
    have up : ∀ x ∈ chunkSegs f cs, x.1 = true → ∃ d : Chunk, x.2 = [d] ∧ f d.rune = true ∧ d ∈ c :: cs := by
      intro x hx h1
      obtain ⟨d, e1, e2, e3⟩ := ih x hx h1
      exact ⟨d, e1, e2, by simp [e3]⟩
    simp only [chunkSegs]
    split
    · rename_i hf
      intro x hx h1
      rcases List.mem_cons.1 hx with rfl | hx
      · exact ⟨c, rfl, hf, by simp⟩
      · exact up x hx h1
    · split
      · rename_i g t h
        intro x hx h1
        rcases List.mem_cons.1 hx with rfl | hx
        · cases h1
        · exact up x (by rw [h]; simp [hx]) h1
      · intro x hx h1
        rcases List.mem_cons.1 hx with rfl | hx
        · cases h1
        · exact up x hx h1

/-- **C76, Split.** Whatever the state and the bytes of its text: if cutting at the runes that
satisfy `f` (not U+FFFD) succeeds, dropping or isolating them, then the texts of the pieces are
exactly the pieces of the text read from left to right, bad bytes included, and the text does not
end in a bad byte. -/
theorem C76_split {ns : NS} {f : Rune → Bool} (hf : f 0xFFFD = false) (keep : Bool) {pieces : List NS}
    (hne : ns.get ≠ [])
    (h : ns.split (fromFunc f) (if keep then .isolated else .removed) = .ok (.ok pieces)) :
    pieces.map NS.get = (chunkPieces keep f (chunks ns.get)).map textOf
    ∧ ∀ c ∈ (chunks ns.get).getLast?, c.isBad = false := by
  have h1 := split_inv (caps := chunkCaps 0 (chunkSegs f (chunks ns.get))) (by
    show GoM.ok (Except.ok (funcFindMatches f ns.get)) = _
    rw [funcFindMatches_chunks f hf, if_neg hne]) h
  obtain ⟨h2, h3⟩ := pieces_text keep (chunkSegs f (chunks ns.get)) [] pieces
    (by rw [chunkSegs_flatten, textOf_chunks]; rfl)
    (by
      intro x hx
      obtain ⟨a, b, e⟩ := chunkSegs_infix f _ hx
      intro c hc
      exact goodChunks ns.get c (by rw [e]; simp [hc]))
    (by
      intro x hx hb
      obtain ⟨c, e1, e2, e3⟩ := chunkSegs_match f _ x hx hb
      refine ⟨c, e1, ?_⟩
      rcases (goodChunks ns.get c e3).2 with g | ⟨-, g⟩
      · simp [Chunk.isBad, g]
      · rw [g, hf] at e2; cases e2)
    (by simpa using h1)
  refine ⟨by rw [h2, chunkPieces, List.map_map]; rfl, ?_⟩
  intro c hc
  have hcs : chunks ns.get ≠ [] := by
    intro h0; rw [h0] at hc; simp at hc
  have hs : chunkSegs f (chunks ns.get) ≠ [] := by
    intro h0
    have := chunkSegs_flatten f (chunks ns.get)
    rw [h0] at this; exact hcs this.symm
  obtain ⟨q, x, e⟩ : ∃ (q : List (Bool × List Chunk)) (x : Bool × List Chunk), chunkSegs f (chunks ns.get) = q ++ [x] :=
    ⟨_, (chunkSegs f (chunks ns.get)).getLast hs, (List.dropLast_concat_getLast hs).symm⟩
  have hx := chunkSegs_ne_nil f (chunks ns.get) x (by rw [e]; simp)
  refine h3 x (by rw [e]; simp) c ?_
  have hfl := chunkSegs_flatten f (chunks ns.get)
  rw [e] at hfl
  simp only [List.flatMap_append, List.flatMap_cons, List.flatMap_nil, List.append_nil] at hfl
  rw [← hfl, List.getLast?_append, List.getLast?_eq_some_getLast hx] at hc
  rw [List.getLast?_eq_some_getLast hx]
  exact hc

/-! ## The pre-tokenizers -/

/-- The text of a piece that has no tokens is cut, the text of the others is left. -/
def cutTexts (keep : Bool) (f : Rune → Bool) (p : Piece) : List Str :=
  match p.tokens with
  | some _ => [p.ns.get]
  | none => (chunkPieces keep f (chunks p.ns.get)).map textOf

theorem chunkPieces_ne (keep : Bool) (f : Rune → Bool) (s : Str) :
    ∀ g ∈ chunkPieces keep f (chunks s), textOf g ≠ [] := by
  intro g hg
  simp only [chunkPieces, List.mem_map, List.mem_filter] at hg
  obtain ⟨x, ⟨hx, -⟩, rfl⟩ := hg
  have h0 := chunkSegs_ne_nil f _ x hx
  obtain ⟨a, b, e⟩ := chunkSegs_infix f _ hx
  cases hg : x.2 with
  | nil => exact absurd hg h0
  | cons c t =>
    have := (goodChunks s c (by rw [e, hg]; simp)).1
    simp [this]

theorem splitLoop_pairs {f : Rune → Bool} (hf : f 0xFFFD = false) (keep : Bool) : ∀ (ps : List Piece) (i : Nat)
    (old new : List Piece),
    PTS.splitLoop (splitByPattern (fromFunc f) (if keep then .isolated else .removed)) i ps = .ok (old, .ok new) →
    new.map (fun p => (p.ns.get, p.tokens)) = ps.flatMap fun p => (cutTexts keep f p).map fun t => (t, p.tokens) := by
  intro ps
  induction ps with
  | nil =>
    intro i old new h
    simp only [PTS.splitLoop, GoM.ok.injEq, Prod.mk.injEq, Except.ok.injEq] at h
    rw [← h.2]; rfl
  | cons p ps ih =>
    intro i old new h
    simp only [PTS.splitLoop] at h
    cases hp : p.tokens with
    | some ts =>
      simp only [hp, GoM.bind_eq_ok] at h
      obtain ⟨⟨o, n⟩, h1, h2⟩ := h
      cases n with
      | error e => simp at h2
      | ok n =>
        simp only [GoM.pure_eq, GoM.ok.injEq, Prod.mk.injEq, Except.ok.injEq] at h2
        rw [← h2.2, List.flatMap_cons, List.map_cons, ih _ _ _ h1]
        simp [cutTexts, hp]
    | none =>
      simp only [hp, GoM.bind_eq_ok] at h
      obtain ⟨⟨ns', r⟩, h1, h2⟩ := h
      cases r with
      | error e => simp at h2
      | ok items =>
        simp only [GoM.bind_eq_ok] at h2
        obtain ⟨⟨o, n⟩, h3, h4⟩ := h2
        cases n with
        | error e => simp at h4
        | ok n =>
          simp only [GoM.pure_eq, GoM.ok.injEq, Prod.mk.injEq, Except.ok.injEq] at h4
          rw [← h4.2, List.flatMap_cons, List.map_append, ih _ _ _ h3]
          congr 1
          simp only [splitByPattern, GoM.bind_eq_ok] at h1
          obtain ⟨sp, h5, h6⟩ := h1
          cases sp with
          | error e => simp at h6
          | ok nss =>
            simp only [GoM.pure_eq, GoM.ok.injEq, Prod.mk.injEq, Except.ok.injEq] at h6
            rw [← h6.2]
            simp only [cutTexts, hp]
            by_cases hne : p.ns.get = []
            · have e1 : ∀ q ∈ nss, q.get = [] := by
                have h7 := split_inv (caps := emptyCaptures) (by
                  show GoM.ok (Except.ok (funcFindMatches f p.ns.get)) = _
                  rw [funcFindMatches_chunks f hf, if_pos hne]) h5
                have h8 : splitGroups (if keep then .isolated else .removed) emptyCaptures = [emptyCaptures] := by
                  cases keep <;> rfl
                rw [h8] at h7
                cases h7 with
                | cons a b =>
                  cases b with
                  | nil =>
                    intro q hq
                    simp at hq; subst hq
                    rw [slice_get a, hne]; simp [sub]
              rw [hne]
              have : (splitsFromNormalizedStrings nss).filter (fun it => !it.ns.isEmpty) = [] := by
                apply List.filter_eq_nil_iff.2
                intro it hit
                simp only [splitsFromNormalizedStrings, List.mem_map] at hit
                obtain ⟨q, hq, rfl⟩ := hit
                have := e1 q hq
                simp only [NS.get] at this
                simp [NS.isEmpty, this]
              rw [this]; rfl
            · obtain ⟨k1, -⟩ := C76_split hf keep hne h5
              rw [← k1]
              have : (splitsFromNormalizedStrings nss).filter (fun it => !it.ns.isEmpty)
                  = splitsFromNormalizedStrings nss := by
                apply List.filter_eq_self.2
                intro it hit
                simp only [splitsFromNormalizedStrings, List.mem_map] at hit
                obtain ⟨q, hq, rfl⟩ := hit
                have hq' : q.get ∈ nss.map NS.get := List.mem_map.2 ⟨q, hq, rfl⟩
                rw [k1, List.mem_map] at hq'
                obtain ⟨g, hg, e⟩ := hq'
                have := chunkPieces_ne keep f _ g hg
                rw [e] at this
                simp only [NS.get] at this
                simp [NS.isEmpty, this]
              rw [this]
              simp [splitsFromNormalizedStrings]

theorem splitLoop_texts {f : Rune → Bool} (hf : f 0xFFFD = false) (keep : Bool) {ps : List Piece} {i : Nat}
    {old new : List Piece}
    (h : PTS.splitLoop (splitByPattern (fromFunc f) (if keep then .isolated else .removed)) i ps = .ok (old, .ok new)) :
    new.map (fun p => p.ns.get) = ps.flatMap (cutTexts keep f) := by
  have := congrArg (List.map Prod.fst) (splitLoop_pairs hf keep _ _ _ _ h)
  rw [List.map_map, List.map_flatMap] at this
  simpa [Function.comp_def] using this

theorem pts_split_texts {f : Rune → Bool} (hf : f 0xFFFD = false) (keep : Bool) {p p' : PTS}
    (h : p.split (splitByPattern (fromFunc f) (if keep then .isolated else .removed)) = .ok (p', none)) :
    p'.splits.map (fun q => q.ns.get) = p.splits.flatMap (cutTexts keep f) := by
  simp only [PTS.split, GoM.bind_eq_ok] at h
  obtain ⟨⟨old, new⟩, h1, h2⟩ := h
  cases new with
  | error e => simp at h2
  | ok new =>
    simp only [GoM.pure_eq, GoM.ok.injEq, Prod.mk.injEq] at h2
    rw [← h2.1]
    exact splitLoop_texts hf keep h1

/-- **C76, white space.** On any `PreTokenizedString` whatsoever: if the white-space-split
pre-tokenizer reports no error, the texts of the splits are the maximal runs of the text read
from left to right that hold no white space (splits that have tokens are left alone). -/
theorem C76_whiteSpaceSplit {p p' : PTS} (h : whiteSpaceSplit p = .ok (p', none)) :
    p'.splits.map (fun q => q.ns.get) = p.splits.flatMap (cutTexts false isWhiteSpace) :=
  pts_split_texts (by decide +kernel) false h

/-- **C76, delimiter.** The same for the rune-delimiter pre-tokenizer, for any delimiter except U+FFFD. -/
theorem C76_runeDelimiter {d : Rune} (hd : d ≠ 0xFFFD) {p p' : PTS} (h : runeDelimiter d p = .ok (p', none)) :
    p'.splits.map (fun q => q.ns.get) = p.splits.flatMap (cutTexts false fun r => r == d) :=
  pts_split_texts (f := fun r => r == d) (by simpa using fun e => hd e.symm) false h

/-- **C76, refusal.** A text that ends in a bad byte is never cut by these pre-tokenizers. -/
theorem C76_bad_end {ns : NS} {f : Rune → Bool} (hf : f 0xFFFD = false) (keep : Bool) {c : Chunk}
    (hc : (chunks ns.get).getLast? = some c) (hb : c.isBad = true) :
    ∀ pieces, ns.split (fromFunc f) (if keep then .isolated else .removed) ≠ .ok (.ok pieces) := by
  intro pieces h
  have hne : ns.get ≠ [] := by
    intro h0; rw [h0] at hc; cases hc
  have := (C76_split hf keep hne h).2 c (by rw [hc]; rfl)
  rw [hb] at this; cases this

theorem flatMap_congr_mem {α β : Type} {l : List α} {f g : α → List β} (h : ∀ x ∈ l, f x = g x) :
    l.flatMap f = l.flatMap g := by
  induction l with
  | nil => rfl
  | cons a l ih => rw [List.flatMap_cons, List.flatMap_cons, h a (by simp), ih fun x hx => h x (by simp [hx])]

/-- What the BERT pre-tokenizer makes of a piece: white space is dropped, punctuation is on its own, the rest
in maximal runs.  A piece with tokens is left. -/
def bertTexts (u : Uni) (p : Piece) : List Str :=
  match p.tokens with
  | some _ => [p.ns.get]
  | none => ((chunkPieces false isWhiteSpace (chunks p.ns.get)).flatMap (chunkPieces true u.isPunct)).map textOf

/-- **C76, BERT.** On any `PreTokenizedString` whatsoever: if the BERT pre-tokenizer reports no
error, the texts of the splits are the pieces of the texts read from left to right: white space
dropped, punctuation on its own, the rest in maximal runs (splits that have tokens are left alone).
(U+FFFD is not punctuation.) -/
theorem C76_bert (u : Uni) (hu : u.isPunct 0xFFFD = false) {p p' : PTS}
    (h : bertPreTokenize u p = .ok (p', none)) :
    p'.splits.map (fun q => q.ns.get) = p.splits.flatMap (bertTexts u) := by
  simp only [bertPreTokenize, GoM.bind_eq_ok] at h
  obtain ⟨⟨p1, e⟩, h1, h2⟩ := h
  cases e with
  | some e => simp at h2
  | none =>
    have t1 : p1.splits.map (fun q => (q.ns.get, q.tokens))
        = p.splits.flatMap fun p => (cutTexts false isWhiteSpace p).map fun t => (t, p.tokens) := by
      simp only [PTS.split, GoM.bind_eq_ok] at h1
      obtain ⟨⟨old, new⟩, k1, k2⟩ := h1
      cases new with
      | error e => simp at k2
      | ok new =>
        simp only [GoM.pure_eq, GoM.ok.injEq, Prod.mk.injEq] at k2
        rw [← k2.1]
        exact splitLoop_pairs (f := isWhiteSpace) (by decide +kernel) false _ _ _ _ k1
    have t2 := pts_split_texts hu true h2
    rw [t2]
    let cut : Str × Option (List Token) → List Str := fun x => match x.2 with
      | some _ => [x.1]
      | none => (chunkPieces true u.isPunct (chunks x.1)).map textOf
    have e1 : cutTexts true u.isPunct = fun q => cut (q.ns.get, q.tokens) := by
      funext q
      cases hq : q.tokens <;> simp [cutTexts, cut, hq]
    have e2 : p1.splits.flatMap (cutTexts true u.isPunct)
        = (p1.splits.map fun q => (q.ns.get, q.tokens)).flatMap cut := by
      rw [e1, List.flatMap_map]
    rw [e2, t1, List.flatMap_assoc]
    apply flatMap_congr_mem
    intro q _
    cases hq : q.tokens with
    | some ts => simp [cutTexts, bertTexts, cut, hq]
    | none =>
      simp only [cutTexts, bertTexts, hq, List.flatMap_map, List.map_flatMap, List.map_map]
      apply flatMap_congr_mem
      intro g hg
      simp only [chunkPieces, List.mem_map, List.mem_filter] at hg
      obtain ⟨x, ⟨hx, -⟩, rfl⟩ := hg
      obtain ⟨a, b, e⟩ := chunkSegs_infix _ _ hx
      simp [cut, chunks_infix e]

/-! ## Changing the text -/

/-- **C76, changes.** On any state: if `Transform` over the whole text does not panic, the new text is the
encoding of the runes asked for. -/
theorem C76_transform {ns ns' : NS} {dest : List RuneChange} {io : Int} (h : ns.transform dest io = .ok ns') :
    ns'.get = encodeRunes (dest.map fun rc => sanitize rc.rune)
    ∧ ns'.original = ns.original ∧ ns'.originalShift = ns.originalShift := by
  obtain ⟨nPre, nInit, nTail, nPost, aPre, aPost, ks, h1, h2, -, h3, -, -, -, -, -, -, -, h4⟩ :=
    transformNormalized_ok (a := 0) (b := ns.len) h
  have e1 : nPre = [] := List.length_eq_zero_iff.1 (by omega)
  have e2 : nPost = [] := by
    apply List.length_eq_zero_iff.1
    have := congrArg List.length h1
    simp only [NS.len, List.length_append] at *
    omega
  subst h4 e1 e2
  exact ⟨by simp [NS.get], rfl, rfl⟩

/-- **C76, Map.** On any state: `Map` gives the encoding of the image of every rune read. -/
theorem C76_map {ns ns' : NS} {f : Rune → Rune} (h : ns.map f = .ok ns') :
    ns'.get = encodeRunes ((chunks ns.get).map fun c => f c.rune) := by
  obtain ⟨h1, -⟩ := C76_transform h
  rw [h1, ← encodeRunes_sanitize ((chunks ns.get).map fun c => f c.rune), List.map_map, List.map_map,
    show runesOf ns.normalized = (chunks ns.get).map (·.rune) from runesOf_chunks _, List.map_map]
  rfl

theorem filterChanges_runes (keep : Rune → Bool) (rs : List Rune) :
    (NS.filterChanges keep rs).1.map (·.rune) = rs.filter keep := by
  have hd := List.takeWhile_append_dropWhile (p := fun r => !keep r) (l := rs)
  have h1 : ∀ r ∈ rs.takeWhile (fun r => !keep r), keep r = false := by
    intro r hr
    have := List.all_eq_true.1 (List.all_takeWhile (p := fun r => !keep r) (l := rs)) r hr
    simpa using this
  cases hc : rs.dropWhile (fun r => !keep r) with
  | nil =>
    rw [hc, List.append_nil] at hd
    rw [hd] at h1
    rw [filterChanges_none keep _ h1]
    symm
    exact List.filter_eq_nil_iff.2 fun r hr => by simp [h1 r hr]
  | cons c rest =>
    have h2 : keep c = true := by
      have := List.head_dropWhile_not (fun r => !keep r) (l := rs) (by rw [hc]; simp)
      simp only [hc, List.head_cons] at this
      simpa using this
    rw [hc] at hd
    rw [← hd, filterChanges_eq keep _ c _ h1 h2, filterGo_runes, List.filter_append, List.filter_cons, if_pos h2]
    have : (rs.takeWhile fun r => !keep r).filter keep = [] :=
      List.filter_eq_nil_iff.2 fun r hr => by simp [h1 r hr]
    rw [this]; rfl

/-- **C76, Filter.** On any state: if `Filter` does not panic, the text is the encoding of the
kept runes; bad bytes count as U+FFFD. -/
theorem C76_filter {ns ns' : NS} {keep : Rune → Bool} (h : ns.filter keep = .ok ns') :
    ns'.get = encodeRunes (((chunks ns.get).map (·.rune)).filter keep) := by
  obtain ⟨h1, -⟩ := C76_transform h
  rw [h1, show runesOf ns.normalized = (chunks ns.get).map (·.rune) from runesOf_chunks _,
    ← filterChanges_runes, ← encodeRunes_sanitize ((NS.filterChanges keep _).1.map (·.rune)), List.map_map]
  rfl

theorem map_loop_total (als : List Align) (f : Rune → Rune) : ∀ (rs : List Rune) (o : Nat) (A : List Align) (out : Str),
    o + (encodeRunes rs).length ≤ als.length →
    ∃ st, goFor (rs.map fun r => (⟨f r, 0⟩ : RuneChange)) ⟨o, rs, A, out⟩ (transformStep als) = .ok st := by
  intro rs
  induction rs with
  | nil => intro o A out _; exact ⟨_, rfl⟩
  | cons r rs ih =>
    intro o A out h
    have hp := encodeRune_length_pos r
    simp only [encodeRunes_cons, List.length_append] at h
    have e1 : goIndex als (o : Int) = .ok (als[o]'(by omega)) :=
      goIndex_eq_ok.2 ⟨by omega, by simp⟩
    have e2 : goIndex (r :: rs) (0 : Int) = .ok r := rfl
    obtain ⟨st, hst⟩ := ih (o + (encodeRune r).length) (A ++ List.replicate (encodeRune (f r)).length (als[o]'(by omega)))
      (out ++ encodeRune (f r)) (by omega)
    refine ⟨st, ?_⟩
    simp only [List.map_cons, goFor_cons, transformStep]
    simp [e1, e2]
    exact hst

theorem alignmentsFromString_length (s : Str) : (alignmentsFromString s).length = (encodeRunes (runesOf s)).length := by
  unfold alignmentsFromString runesOf
  generalize rangeStr s = l
  induction l with
  | nil => rfl
  | cons x l ih =>
    rw [List.flatMap_cons, List.map_cons, encodeRunes_cons, List.length_append, List.length_append, ih]
    simp

theorem length_le_encodeRunes_runesOf (s : Str) :
    s.length ≤ (encodeRunes (runesOf s)).length := by
  rw [runesOf_chunks]
  have hg := goodChunks s
  conv => lhs; rw [← textOf_chunks s]
  revert hg
  generalize chunks s = cs
  intro hg
  induction cs with
  | nil => simp
  | cons c cs ih =>
    have := ih fun x hx => hg x (by simp [hx])
    have h1 : c.bytes.length ≤ (encodeRune c.rune).length := by
      rcases (hg c (by simp)).2 with h | ⟨h, h'⟩
      · rw [h]; exact Nat.le_refl _
      · rw [h]; exact encodeRune_length_pos _
    rw [List.map_cons, encodeRunes_cons, textOf_cons, List.length_append, List.length_append]; omega

/-- **C76, Map never panics** on a `NormalizedString` made from any byte string. -/
theorem C76_map_total (s : Str) (f : Rune → Rune) : ∃ ns', (NS.fromString s).map f = .ok ns' := by
  have hl := alignmentsFromString_length s
  have hle := length_le_encodeRunes_runesOf s
  obtain ⟨st, hst⟩ := map_loop_total (alignmentsFromString s) f (runesOf s) 0 [] [] (by omega)
  unfold NS.map NS.transform NS.transformRange
  simp only [NS.coerceRangeToNormalized, NS.transformNormalized, NS.fromString, NS.len]
  have g1 : goSlice s 0 s.length = .ok s := by rw [goSlice_eq_ok]; simp
  have g2 : goSlice s 0 0 = .ok [] := by rw [goSlice_eq_ok]; simp
  have g3 : goSlice (alignmentsFromString s) 0 0 = .ok [] := by rw [goSlice_eq_ok]; simp
  have g4 : goSlice (alignmentsFromString s) s.length (alignmentsFromString s).length
      = .ok ((alignmentsFromString s).drop s.length) := by
    rw [goSlice_eq_ok]
    refine ⟨by omega, ?_⟩
    rw [List.take_of_length_le (by simp)]; simp
  have g5 : goSlice s s.length s.length = .ok [] := by rw [goSlice_eq_ok]; simp
  simp only [g1, g2, GoM.bind_ok, List.length_nil]
  have hst' : goFor ((runesOf s).map fun r => (⟨f r, 0⟩ : RuneChange))
      { offset := ((0 : Nat) : Int) + 0, repl := runesOf s, aligns := [], out := [] }
      (transformStep (alignmentsFromString s)) = .ok st := hst
  rw [hst']
  simp only [GoM.bind_ok, g3, g4, g5]
  exact ⟨_, rfl⟩

/-! ## BPE -/

/-- **C76, BPE.** Merging does not see bad bytes: the word, and so the tokens and their offsets,
are those of the text with U+FFFD in the place of every bad byte. -/
theorem C76_bpe (m : BPE) (rnd : Nat → Bool) (s : Str) :
    m.tokenizeWord rnd s = m.tokenizeWord rnd (sanitizeText s) := by
  have : runesOf (sanitizeText s) = runesOf s := by
    rw [sanitizeText_eq, runesOf_encodeRunes _ (runesOf_valid s)]
  simp only [BPE.tokenizeWord, BPE.mergeWord, BPE.initialWord, this]

/-- **C76, Tokenize of BPE.** The same for `Tokenize`. -/
theorem C76_bpe_tokenize (m : BPE) (rnd : Nat → Bool) (s : Str) :
    m.tokenize rnd s = m.tokenize rnd (sanitizeText s) := by
  by_cases hs : s = []
  · subst hs; rfl
  · have hs' : sanitizeText s ≠ [] := by
      intro h
      have h2 : runesOf (sanitizeText s) = runesOf s := by
        rw [sanitizeText_eq, runesOf_encodeRunes _ (runesOf_valid s)]
      rw [h] at h2
      cases s with
      | nil => exact hs rfl
      | cons b bs => simp [runesOf, rangeStr, rangeAux] at h2
    have e1 : ¬ s.length = 0 := by simpa using hs
    have e2 : ¬ (sanitizeText s).length = 0 := by simpa using hs'
    simp only [BPE.tokenize, BPE.tokenizeWith, e1, e2, if_false, BPE.tokenizeWithCache, ← C76_bpe]
    rfl

/-! ## What goes wrong -/

/-- Offsets are wrong after a bad byte: `"\xff a"` gives the pieces `"\xff"` and `"a"`, and `"a"`
claims bytes 0 to 3 of the input instead of bytes 2 to 3. -/
theorem C76_wrong_offsets :
    (whiteSpaceSplit (PTS.fromString [0xFF, 0x20, 0x61])).bind (fun r => .ok (r.1.getOriginalByteSplits, r.2))
      = .ok ([⟨[0xFF], ⟨0, 3⟩, none⟩, ⟨[0x61], ⟨0, 3⟩, none⟩], none) := by decide +kernel

/-- A bad last byte is refused, and so is a piece starting in a stray continuation byte. -/
theorem C76_refused :
    (NS.fromString [0x61, 0x20, 0xFF]).split (fromFunc isWhiteSpace) .removed = .ok (.error .badSplit)
    ∧ (NS.fromString [0x61, 0x20, 0x80, 0x61]).split (fromFunc isWhiteSpace) .removed = .ok (.error .badSplit) := by
  decide +kernel

end Verif
