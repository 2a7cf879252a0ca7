import Verif.Lemmas.CharPieces
import Verif.Props.Pipeline

/-! Property C66: the pre-tokenizers on text that has already been normalized. -/

set_option autoImplicit false

namespace Verif

/-- The pre-tokenizer cuts every well-formed state into words, exactly as it would cut a fresh
input with the same text; the splits are the pieces of the state for these words. -/
def CutsChars (pre : PreTokenizer) (keep : Rune → Bool) (P : List Rune → List (List Rune × List Rune) → Prop) : Prop :=
  ∀ (ns : NS) (cs : List Ch) (o : Str), WF ns → Repr ns cs → ∃ L,
    pre ⟨o, [⟨ns, none⟩]⟩ = .ok (⟨o, charPieces ns L⟩, none)
      ∧ pre (PTS.fromString ns.normalized) = .ok (⟨ns.normalized, copies (wordRunes L)⟩, none)
      ∧ StandsIn cs L ∧ WordsOf keep (cs.map (·.1)) (wordRunes L) ∧ P (cs.map (·.1)) (wordRunes L)

theorem Repr.runes_valid {ns : NS} {cs : List Ch} (h : Repr ns cs) : ∀ r ∈ cs.map (·.1), ValidRune r := by
  intro r hr
  obtain ⟨c, hc, rfl⟩ := List.mem_map.1 hr
  exact h.valid c hc

theorem Repr.norm_eq {ns : NS} {cs : List Ch} (h : Repr ns cs) : ns.normalized = encodeRunes (cs.map (·.1)) := h.text_eq

theorem wordRunes_flatMap {α : Type} (L : List α) (f : α → List (List Ch × List Ch)) :
    wordRunes (L.flatMap f) = L.flatMap fun x => wordRunes (f x) := by
  simp [wordRunes, List.map_flatMap]

theorem func_cutsChars (f : Rune → Bool) : CutsChars (fun pts => pts.split (splitByPattern (fromFunc f) .removed))
    (fun r => !f r) (TokenizedBy f fun _ => false) := by
  intro ns cs o hwf h
  have hp := fromFunc_cuts f
  have e := hp.words false ([], cs)
  have ht : TokenizedBy f (fun _ => false) (cs.map (·.1)) (wordRunes (charWords (segs f) false ([], cs))) := by
    rw [e]
    have := tokenizedBy_segs f false (cs.map (·.1))
    simpa using this
  refine ⟨_, pts_split_state hwf h o hp false, ?_, ?_, ht.words, ht⟩
  · rw [e, h.norm_eq]
    exact split_input f false _ h.runes_valid
  · have := hp.stands false ([], cs) []
    simpa using this

/-- **C66, white space split.** -/
theorem C66_whiteSpaceSplit : CutsChars whiteSpaceSplit (fun r => !isWhiteSpace r)
    (TokenizedBy isWhiteSpace fun _ => false) := func_cutsChars isWhiteSpace

/-- **C66, rune delimiter.** -/
theorem C66_runeDelimiter (d : Rune) : CutsChars (runeDelimiter d) (fun r => !(r == d))
    (TokenizedBy (fun r => r == d) fun _ => false) := func_cutsChars fun r => r == d

theorem StandsIn.flatMap {cs : List Ch} {L : List (List Ch × List Ch)} (h : StandsIn cs L)
    {f : List Ch × List Ch → List (List Ch × List Ch)} (hf : ∀ x C, StandsIn (x.1 ++ x.2 ++ C) (f x)) :
    StandsIn cs (L.flatMap f) := by
  intro y hy
  obtain ⟨x, hx, hy⟩ := List.mem_flatMap.1 hy
  obtain ⟨-, C, e⟩ := h x hx
  exact e ▸ hf x C y hy

/-- **C66, BERT.** -/
theorem C66_bert (u : Uni) : CutsChars (bertPreTokenize u) (fun r => !isWhiteSpace r)
    (TokenizedBy isWhiteSpace u.isPunct) := by
  intro ns cs o hwf h
  obtain ⟨L1, a1, a2, a3, a4, a5⟩ := C66_whiteSpaceSplit ns cs o hwf h
  have hp := fromFunc_cuts u.isPunct
  have e : wordRunes (L1.flatMap (charWords (segs u.isPunct) true))
      = (wordRunes L1).flatMap fun x => locate true x.1 (segs u.isPunct x.2) := by
    rw [wordRunes_flatMap]
    simp only [hp.words]
    simp only [wordRunes, List.flatMap_map]
  have ht := a5.refine (isSolo := u.isPunct)
  rw [← e] at ht
  have h1 := pts_split_chars hwf h o L1 a3 hp true
  have h2 := pts_split_copies ns.normalized (wordRunes L1) u.isPunct true (by
    intro x hx
    obtain ⟨hne, post, e⟩ := a4.located x hx
    exact ⟨hne, fun r hr => h.runes_valid r (by rw [e]; simp [hr])⟩)
  refine ⟨_, ?_, ?_, a3.flatMap fun x C => hp.stands true x C, ht.words, ht⟩
  · unfold bertPreTokenize
    simp only [whiteSpaceSplit] at a1
    simp only [a1, GoM.bind_ok]
    simpa using h1
  · unfold bertPreTokenize
    simp only [whiteSpaceSplit] at a2
    simp only [a2, GoM.bind_ok, e]
    simpa using h2

/-- The segments that the default white-space expression finds; the words are the parts that the
expression matches, so they are not matches of the inverted pattern. -/
def wordSegs (u : RxUni) (rs : List Rune) : List (Bool × List Rune) :=
  (matchSegs 0 ((wordRegexp u).scan rs 0 0) rs).map fun x => (!x.1, x.2)

theorem wordScan_runs (u : RxUni) (rs : List Rune) : KindRuns (wordKind u) rs (located rs ((wordRegexp u).scan rs 0 0)) := by
  have hr := wordRegexp_runs u rs rs.length rs (Nat.le_refl _) [] rfl (by intro a ha; simp at ha)
  simp only [List.length_nil] at hr
  obtain ⟨h1, -, h3, h4⟩ := hr
  exact ⟨h1, h3, h4⟩

theorem wordSegs_cuts (u : RxUni) : CutsSegs (invert (fromRegexp2 (wordRegexp u).findAll)) (wordSegs u) where
  caps rs hv hne := by
    have ho := (wordRegexp u).findAll_ordered rs
    have hc := fromRegexp2_caps (wordRegexp u).findAll hv hne (ms := (wordRegexp u).scan rs 0 0) rfl ho
    simp only [invert, hc, capsOf_not]
    rfl
  flatten rs := by
    have ho := (wordRegexp u).findAll_ordered rs
    rcases matchSegs_flatten ((wordRegexp u).scan rs 0 0) 0 rs with h | h
    · simp only [wordSegs, List.flatMap_map]; exact h
    · exact absurd (by simpa using ho) h
  ne rs := by
    have ho := (wordRegexp u).findAll_ordered rs
    intro x hx
    obtain ⟨y, hy, rfl⟩ := List.mem_map.1 hx
    refine matchSegs_ne_nil ((wordRegexp u).scan rs 0 0) 0 rs ?_ (by simpa using ho) y hy
    intro m hm
    obtain ⟨post, k, -, hne, -⟩ := (wordScan_runs u rs).located _ (List.mem_map.2 ⟨m, hm, rfl⟩)
    apply Nat.pos_of_ne_zero
    intro h0
    simp [h0] at hne
  empty := ⟨true, rfl⟩

theorem locate_wordSegs (u : RxUni) (rs : List Rune) :
    locate false [] (wordSegs u rs) = located rs ((wordRegexp u).scan rs 0 0) := by
  have h := locate_matches rs ((wordRegexp u).scan rs 0 0) 0 ((wordRegexp u).findAll_ordered rs)
  simpa [wordSegs] using h

/-- **C66, white space with the default expression.** -/
theorem C66_whiteSpace (u : RxUni) : CutsChars (whiteSpaceDefault u) (fun r => (wordKind u r).isSome)
    (KindRuns (wordKind u)) := by
  intro ns cs o hwf h
  have hp := wordSegs_cuts u
  have e := hp.words false ([], cs)
  simp only [List.map_nil, locate_wordSegs] at e
  have ht := wordScan_runs u (cs.map (·.1))
  rw [← e] at ht
  refine ⟨_, pts_split_state hwf h o hp false, ?_, ?_, ht.words, ht⟩
  · rw [e, h.norm_eq]
    by_cases hne : cs = []
    · subst hne; rfl
    · have := split_input_segs _ false h.runes_valid (hp.flatten (cs.map (·.1)))
        (hp.caps _ h.runes_valid (by simpa using hne))
      rw [locate_wordSegs, List.filter_eq_self.2 (by
        intro x hx
        obtain ⟨post, k, -, hx, -⟩ := (wordScan_runs u (cs.map (·.1))).located x hx
        simpa using hx)] at this
      exact this
  · have := hp.stands false ([], cs) []
    simpa using this

/-! ## The byte splits -/

/-- The characters of a piece lie in the original from the start of the first alignment to the end
of the last: the byte splits of the pieces of a state. -/
theorem C66_byteSplits {ns : NS} (hwf : WF ns) {cs : List Ch} (h : Repr ns cs) {L : List (List Ch × List Ch)}
    (hL : StandsIn cs L) (o : Str) :
    (PTS.mk o (charPieces ns L)).getOriginalByteSplits = L.map fun x =>
      ⟨text x.2, ⟨ns.originalShift + (firstAlign x.2).start, ns.originalShift + (lastAlign x.2).stop⟩, none⟩ := by
  simp only [PTS.getOriginalByteSplits, charPieces, List.map_map]
  apply List.map_congr_left
  intro x hx
  obtain ⟨hne, C, e⟩ := hL x hx
  obtain ⟨⟨b1, b2, b3⟩, -⟩ := slice_chars_bounds hwf (e ▸ h) hne
  have : ((sub ns.original (firstAlign x.2).start (lastAlign x.2).stop).length : Int)
      = (lastAlign x.2).stop - (firstAlign x.2).start := by
    simp only [sub, List.length_take, List.length_drop]; omega
  simp [pieceOf, NS.get, NS.originalOffsets, NS.originalLen, this]
  omega

/-- The state "he llo" made from "hé LLO": the splits keep the alignments to the original. -/
example : (let ns : NS := ⟨b!"hé LLO", b!"he llo", [⟨0, 1⟩, ⟨1, 3⟩, ⟨3, 4⟩, ⟨4, 5⟩, ⟨5, 6⟩, ⟨6, 7⟩], 0⟩
    (whiteSpaceSplit ⟨b!"hé LLO", [⟨ns, none⟩]⟩).bind fun r => .ok (r.1.getOriginalByteSplits.map fun b => (b.string, b.offsets)))
    = .ok [(b!"he", ⟨0, 3⟩), (b!"llo", ⟨4, 7⟩)] := by decide +kernel

end Verif
