import Verif.Model.Defaults
import Verif.Props.Bpe
import Verif.Props.WordPiece
import Verif.Props.MetaSpace
import Verif.Props.Laws

/-! Property C89: what the constructors with default settings give; and the short forms of `TrimLeftRight` (C71). -/

set_option autoImplicit false

namespace Verif

/-! ## Specification -/

/-- What stands between the spaces of a text. -/
def betweenSpaces : List Rune → List (List Rune)
  | [] => [[]]
  | r :: rs =>
    if r = 32 then [] :: betweenSpaces rs
    else match betweenSpaces rs with
      | [] => [[r]]
      | f :: fs => (r :: f) :: fs

example : betweenSpaces [97, 32, 32, 98, 99] = [[97], [], [98, 99]] := by decide

/-! ## The models -/

/-- **C89, BPE.** The model of `NewDefault` has no vocabulary, no way to get one and no unknown token: it gives no token for
any text, and no error. -/
theorem C89_bpe (rnd : Nat → Bool) (s : Str) : BPE.newDefault.tokenize rnd s = .ok (.ok (some [])) := by
  by_cases hs : s = []
  · subst hs; rfl
  · have hv : ∀ t, BPE.newDefault.vocab.getID t = none := fun _ => rfl
    rcases BPE.tokenize_eq BPE.newDefault rnd s hs with ⟨h, -⟩ | ⟨u, ss, w', -, hss, -, hw, -, ht⟩
    · simp [BPE.unkID, BPE.hasUnknownToken, BPE.newDefault] at h
    · rw [BPE.pending_known _ _ rfl] at hss
      have : ss = [] := by
        rw [hss]
        simp [BPE.knownOnly, BPE.lookups, hv]
        rintro _ _ _ _ rfl _; rfl
      subst this
      have e : (built []).mergeAll BPE.newDefault.merges BPE.newDefault.hasDropout rnd = .ok (some []) := rfl
      rw [hw] at e
      simp at e
      rw [ht, e]
      rfl

/-- **C89, WordPiece.** The model of `NewDefault` has no vocabulary and no way to get one: `Tokenize` fails for every
non-empty text, as the unknown token is not in the vocabulary. -/
theorem C89_wordPiece (s : Str) :
    WordPiece.newDefault.tokenize s = if s = [] then .ok [] else .error .unkOutOfVocab := by
  have hv : ∀ t, WordPiece.newDefault.vocab.getID t = none := fun _ => rfl
  by_cases hs : s = []
  · subst hs; rfl
  · rw [if_neg hs]
    have hu : WordPiece.newDefault.unknown s = .error .unkOutOfVocab := rfl
    rcases WordPiece.tokenize_cases WordPiece.newDefault s with ⟨-, h⟩ | ⟨-, -, h⟩ | ⟨-, ts, ho, -⟩
    · rw [h, hu]
    · rw [h, hu]
    · have := ho.tiles (by omega) ts rfl
      cases ts with
      | nil =>
        simp only [WordPiece.Tiles] at this
        exact absurd (List.length_eq_zero_iff.1 this.symm) hs
      | cons t ts =>
        obtain ⟨_, -, -, -, -, h, -⟩ := this
        rw [hv] at h; simp at h

/-! ## The pre-tokenizer -/

theorem CutBefore.unique {R : Rune} {rs : List Rune} {ps qs : List (List Rune)} (hp : CutBefore R rs ps) (hq : CutBefore R rs qs) :
    ps = qs := by
  obtain ⟨p1, p2, p3⟩ := hp
  obtain ⟨q1, q2, q3⟩ := hq
  rw [← q1] at p1
  clear q1
  have short : ∀ {p q : List Rune} {ps qs : List (List Rune)}, p ≠ [] → R ∉ q.tail → (∀ x ∈ ps, x.head? = some R) →
      p ++ ps.flatten = q ++ qs.flatten → q.length ≤ p.length := by
    intro p q ps qs hp hq hh e
    apply Nat.le_of_not_lt
    intro hl
    rw [List.append_eq_append_iff] at e
    rcases e with ⟨x, rfl, h2⟩ | ⟨x, rfl, -⟩
    · cases x with
      | nil => simp at hl
      | cons c x =>
        cases ps with
        | nil => simp at h2
        | cons y ps =>
          have := hh y (by simp)
          cases y with
          | nil => simp at this
          | cons d y =>
            simp only [List.head?_cons, Option.some.injEq] at this
            subst this
            simp only [List.flatten_cons, List.cons_append, List.cons.injEq] at h2
            apply hq
            cases p with
            | nil => exact absurd rfl hp
            | cons z p => simp [← h2.1]
    · simp at hl; omega
  induction ps generalizing qs with
  | nil =>
    cases qs with
    | nil => rfl
    | cons q qs =>
      have := (q2 q (by simp)).1
      simp at p1
      exact absurd p1.1 this
  | cons p ps ih =>
    cases qs with
    | nil =>
      have := (p2 p (by simp)).1
      simp at p1
      exact absurd p1.1 this
    | cons q qs =>
      have hp := p2 p (by simp)
      have hq := q2 q (by simp)
      simp only [List.tail_cons] at p3 q3
      simp only [List.flatten_cons] at p1
      have h1 := short hp.1 hq.2 p3 p1
      have h2 := short hq.1 hp.2 q3 p1.symm
      obtain ⟨rfl, e⟩ := List.append_inj p1 (by omega)
      rw [ih e (fun x hx => p2 x (by simp [hx])) (fun x hx => p3 x (List.mem_of_mem_tail hx))
        (fun x hx => q2 x (by simp [hx])) (fun x hx => q3 x (List.mem_of_mem_tail hx))]

theorem betweenSpaces_ne_nil (rs : List Rune) : betweenSpaces rs ≠ [] := by
  cases rs with
  | nil => simp [betweenSpaces]
  | cons r rs =>
    unfold betweenSpaces
    split
    · simp
    · split <;> simp

theorem betweenSpaces_cut {R : Rune} {rs : List Rune} (hR : R ∉ rs) :
    CutBefore R (R :: rs.map fun r => if r = 32 then R else r) ((betweenSpaces rs).map (R :: ·)) := by
  refine ⟨?_, ?_, ?_⟩
  · induction rs with
    | nil => rfl
    | cons r rs ih =>
      have ih := ih fun h => hR (by simp [h])
      unfold betweenSpaces
      by_cases h : r = 32
      · rw [if_pos h]
        simp only [List.map_cons, List.flatten_cons, ih, if_pos h]
        rfl
      · rw [if_neg h]
        cases hb : betweenSpaces rs with
        | nil => exact absurd hb (betweenSpaces_ne_nil rs)
        | cons f fs =>
          rw [hb] at ih
          simp only [List.map_cons, List.flatten_cons, List.cons_append, List.cons.injEq, true_and] at ih ⊢
          rw [ih, if_neg h]
          exact ⟨rfl, rfl⟩
  · have key : ∀ p ∈ betweenSpaces rs, R ∉ p := by
      induction rs with
      | nil => simp [betweenSpaces]
      | cons r rs ih =>
        have ih := ih fun h => hR (by simp [h])
        unfold betweenSpaces
        split
        · intro p hp
          rcases List.mem_cons.1 hp with rfl | hp
          · simp
          · exact ih p hp
        · cases hb : betweenSpaces rs with
          | nil => exact absurd hb (betweenSpaces_ne_nil rs)
          | cons f fs =>
            rw [hb] at ih
            intro p hp
            rcases List.mem_cons.1 hp with rfl | hp
            · intro h
              rcases List.mem_cons.1 h with rfl | h
              · exact hR (by simp)
              · exact ih f (by simp) h
            · exact ih p (by simp [hp])
    intro p hp
    obtain ⟨q, hq, rfl⟩ := List.mem_map.1 hp
    exact ⟨by simp, by simpa using key q hq⟩
  · intro p hp
    obtain ⟨q, -, rfl⟩ := List.mem_map.1 (List.mem_of_mem_tail hp)
    rfl

/-- **C89, meta-space.** For every non-empty valid text without "▁" the words are what stands between its spaces, each
after "▁". -/
theorem C89_metaSpace (rs : List Rune) (hv : ∀ r ∈ rs, ValidRune r) (hne : rs ≠ []) (hR : u!"▁" ∉ rs) :
    ∃ pts, metaSpaceDefault (PTS.fromString (encodeRunes rs)) = .ok (pts, none)
      ∧ pts.splits.map (fun sp => sp.ns.get) = (betweenSpaces rs).map fun f => b!"▁" ++ encodeRunes f := by
  obtain ⟨pts, ps, h1, h2, h3, -⟩ := C32_metaSpace (R := 0x2581) (by decide) true rs hv
  refine ⟨pts, h1, ?_⟩
  have hm : metaText 0x2581 true rs = 0x2581 :: rs.map fun r => if r = 32 then 0x2581 else r := by
    unfold metaText
    have hh : rs.head? ≠ some 0x2581 := fun h => hR (List.mem_of_mem_head? h)
    rw [if_pos ⟨rfl, hne, hh⟩]
    rfl
  rw [hm] at h2
  rw [h3, h2.unique (betweenSpaces_cut hR), List.map_map]
  apply List.map_congr_left
  intro f _
  simp only [Function.comp, encodeRunes_cons]
  rw [show encodeRune 0x2581 = b!"▁" by decide +kernel]

-- " a  b" gives "▁", "▁a", "▁" and "▁b"
example : (metaSpaceDefault (PTS.fromString b!" a  b")).bind (fun r => .ok (r.1.splits.map fun sp => sp.ns.get))
    = .ok [b!"▁", b!"▁a", b!"▁", b!"▁b"] := by decide +kernel

/-! ## The normalizer -/

/-- **C89, BERT.** On every valid text, if `Normalize` does not panic, the text is cleaned, Chinese characters stand
between spaces, marks are gone and everything is lower-cased, in this order. -/
theorem C89_bert {ns ns' : NS} {cs : List Ch} (h : Repr ns cs) {u : Uni} {e : Option Err}
    (hb : bertNormalize u BertCfg.default ns = .ok (ns', e)) :
    e = none ∧ ns'.get = encodeRunes (((((((runesOf ns.get).filter fun r => !bertDropped u r)
      |>.map fun r => if isWhiteSpace r then 0x20 else r)
      |>.flatMap fun r => if isChinese r then [0x20, r, 0x20] else [r])
      |>.filter fun r => !u.isMn r)
      |>.map fun r => sanitize (u.toLower r))) :=
  C34_text h hb

/-! ## Trim -/

theorem dropWhile_dropWhile_end {α : Type} (p : α → Bool) (l : List α) :
    ((l.reverse.dropWhile p).reverse).dropWhile p = ((l.dropWhile p).reverse.dropWhile p).reverse := by
  induction l with
  | nil => rfl
  | cons a l ih =>
    by_cases ha : p a = true
    · rw [List.dropWhile_cons_of_pos ha, ← ih, List.reverse_cons, List.dropWhile_append]
      by_cases he : (l.reverse.dropWhile p).isEmpty
      · rw [if_pos he, List.isEmpty_iff.1 he]
        simp [ha]
      · rw [if_neg he]
        simp [ha]
    · rw [List.dropWhile_cons_of_neg ha, List.reverse_cons, List.dropWhile_append]
      by_cases he : (l.reverse.dropWhile p).isEmpty
      · rw [if_pos he]
        simp [ha]
      · rw [if_neg he]
        simp [ha]

/-- **C71, the short forms of trim.** If the white space in front is ASCII or there is only white space, `Trim` succeeds
and is the same as `TrimLeft` after `TrimRight` and `TrimRight` after `TrimLeft`. -/
theorem C71_trim_sides {ns : NS} {cs : List Ch} (h : Repr ns cs)
    (hl : (∀ c ∈ cs, isWhiteSpace c.1 = true) ∨ AsciiChars (cs.takeWhile fun c => isWhiteSpace c.1)) :
    ∃ m, ns.trim = .ok m ∧ Repr m (trimSpec true true cs)
      ∧ ns.trimLeft.bind NS.trimRight = .ok m ∧ ns.trimRight.bind NS.trimLeft = .ok m := by
  obtain ⟨m, h1, h2, h3, h4⟩ := C07_trim_partial h true true (.inr hl)
  obtain ⟨a, a1, a2, a3, a4⟩ := C07_trim_partial h true false (.inr hl)
  obtain ⟨b, b1, b2, b3, b4⟩ := C07_trim_partial h false true (.inl rfl)
  obtain ⟨c, c1, c2, c3, c4⟩ := C07_trim_partial a2 false true (.inl rfl)
  have hb : (∀ c ∈ trimSpec false true cs, isWhiteSpace c.1 = true)
      ∨ AsciiChars ((trimSpec false true cs).takeWhile fun c => isWhiteSpace c.1) := by
    have hsub : trimSpec false true cs <+: cs := by
      simp only [trimSpec, Bool.false_eq_true, if_false, if_true]
      have := List.dropWhile_suffix (fun c : Ch => isWhiteSpace c.1) (l := cs.reverse)
      have := List.reverse_prefix.2 this
      simpa using this
    rcases hl with hl | hl
    · exact .inl fun c hc => hl c (hsub.subset hc)
    · refine .inr fun c hc => hl c ?_
      obtain ⟨t, ht⟩ := hsub
      rw [← ht]
      have : (trimSpec false true cs).takeWhile (fun c => isWhiteSpace c.1)
          <+: (trimSpec false true cs ++ t).takeWhile fun c => isWhiteSpace c.1 := by
        rw [List.takeWhile_append]
        split
        · rename_i hh
          rw [(List.takeWhile_prefix _).eq_of_length hh]
          exact List.prefix_append _ _
        · exact List.prefix_refl _
      exact this.subset hc
  obtain ⟨d, d1, d2, d3, d4⟩ := C07_trim_partial b2 true false (.inr hb)
  refine ⟨m, h1, h2, ?_, ?_⟩
  · have e : trimSpec false true (trimSpec true false cs) = trimSpec true true cs := rfl
    rw [e] at c2
    show (ns.trimLeftRight true false).bind NS.trimRight = _
    rw [a1]
    show NS.trimLeftRight a false true = _
    rw [c1, c2.ext h2 (by rw [c3, a3, h3]) (by rw [c4, a4, h4])]
  · have e : trimSpec true false (trimSpec false true cs) = trimSpec true true cs := dropWhile_dropWhile_end _ _
    rw [e] at d2
    show (ns.trimLeftRight false true).bind NS.trimLeft = _
    rw [b1]
    show NS.trimLeftRight b true false = _
    rw [d1, d2.ext h2 (by rw [d3, b3, h3]) (by rw [d4, b4, h4])]

end Verif
