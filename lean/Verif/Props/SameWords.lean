import Verif.Props.MapSplit
import Verif.Props.Exact
import Verif.Model.Notation

/-!
C119: how the words are separated does not matter.
-/

set_option autoImplicit false

namespace Verif

/-! ## The words of a list -/

section
variable {α : Type}

/-- The maximal runs of elements that are not delimiters. -/
def wordsBy (q : α → Bool) : List α → List (List α)
  | [] => []
  | a :: l =>
    if q a then wordsBy q l
    else match l.head?.map q, wordsBy q l with
      | some false, w :: ws => (a :: w) :: ws
      | _, ws => [a] :: ws

theorem wordsBy_cons (q : α → Bool) (a : α) (l : List α) : wordsBy q (a :: l) = if q a then wordsBy q l
    else match l.head?.map q, wordsBy q l with
      | some false, w :: ws => (a :: w) :: ws
      | _, ws => [a] :: ws := rfl

theorem wordsBy_delim {q : α → Bool} {a : α} (h : q a = true) (l : List α) : wordsBy q (a :: l) = wordsBy q l := by
  simp [wordsBy, h]

theorem wordsBy_delims {q : α → Bool} : ∀ {d : List α}, (∀ a ∈ d, q a = true) → ∀ l, wordsBy q (d ++ l) = wordsBy q l
  | [], _, l => rfl
  | a :: d, h, l => by
    rw [List.cons_append, wordsBy_delim (h a (by simp)), wordsBy_delims fun x hx => h x (by simp [hx])]

theorem wordsBy_none {q : α → Bool} {d : List α} (h : ∀ a ∈ d, q a = true) : wordsBy q d = [] := by
  have := wordsBy_delims h []
  rwa [List.append_nil] at this

theorem wordsBy_end {q : α → Bool} {d : List α} (h : ∀ a ∈ d, q a = true) : ∀ l, wordsBy q (l ++ d) = wordsBy q l
  | [] => wordsBy_none h
  | a :: l => by
    have ih := wordsBy_end h l
    rw [List.cons_append]
    cases l with
    | nil =>
      rw [List.nil_append] at ih ⊢
      cases d with
      | nil => rfl
      | cons b d =>
        rw [wordsBy_cons q a (b :: d), ih, List.head?_cons, Option.map_some, h b (by simp)]
        rfl
    | cons b l =>
      rw [wordsBy_cons, wordsBy_cons q a (b :: l), ih]
      rfl

/-- Delimiters replaced by other delimiters, at least one for each. -/
theorem wordsBy_flatMap {q : α → Bool} {g : α → List α} (h1 : ∀ a, q a = false → g a = [a])
    (h2 : ∀ a, q a = true → g a ≠ [] ∧ ∀ b ∈ g a, q b = true) : ∀ l, wordsBy q (l.flatMap g) = wordsBy q l
  | [] => rfl
  | a :: l => by
    have ih := wordsBy_flatMap h1 h2 l
    rw [List.flatMap_cons]
    cases ha : q a with
    | true => rw [wordsBy_delims (h2 a ha).2, ih, wordsBy_delim ha]
    | false =>
      have hh : (l.flatMap g).head?.map q = l.head?.map q := by
        cases l with
        | nil => rfl
        | cons b l =>
          rw [List.flatMap_cons]
          cases hb : q b with
          | true =>
            obtain ⟨n, d⟩ := h2 b hb
            revert n d
            rcases g b with _ | ⟨c, t⟩
            · intro n; exact absurd rfl n
            · intro _ d; simp [d c (by simp), hb]
          | false => simp [h1 b hb]
      rw [h1 a ha, List.singleton_append]
      simp only [wordsBy, ih, hh]

theorem wordsBy_mem {q : α → Bool} : ∀ {l w : List α}, w ∈ wordsBy q l → w ≠ [] ∧ ∃ u v, l = u ++ w ++ v := by
  intro l
  suffices H : (∀ w ∈ wordsBy q l, w ≠ [] ∧ ∃ u v, l = u ++ w ++ v)
      ∧ (l.head?.map q = some false → ∀ w ws, wordsBy q l = w :: ws → ∃ v, l = w ++ v) from fun {w} h => H.1 w h
  induction l with
  | nil => simp [wordsBy]
  | cons a l ih =>
    have lift : ∀ w ∈ wordsBy q l, w ≠ [] ∧ ∃ u v, a :: l = u ++ w ++ v := by
      intro w hw
      obtain ⟨h1, u, v, h2⟩ := ih.1 w hw
      exact ⟨h1, a :: u, v, by rw [h2]; rfl⟩
    cases ha : q a with
    | true => rw [wordsBy_delim ha]; exact ⟨lift, by simp [ha]⟩
    | false =>
      have ih2 := ih.2
      simp only [wordsBy, ha, Bool.false_eq_true, if_false]
      split
      · next w ws e1 e2 =>
        obtain ⟨v, hv⟩ := ih2 e1 w ws e2
        refine ⟨?_, ?_⟩
        · intro x hx
          rcases List.mem_cons.1 hx with rfl | hx
          · exact ⟨by simp, [], v, by rw [hv]; rfl⟩
          · exact lift x (by rw [e2]; simp [hx])
        · intro _ x xs e
          cases e
          exact ⟨v, by rw [hv]; rfl⟩
      · refine ⟨?_, ?_⟩
        · intro x hx
          rcases List.mem_cons.1 hx with rfl | hx
          · exact ⟨by simp, [], l, rfl⟩
          · exact lift x hx
        · intro _ x xs e
          cases e
          exact ⟨l, rfl⟩

end

/-! ## The words are what a split that removes the delimiters leaves -/

theorem segs_head (p : Rune → Bool) (rs : List Rune) : (segs p rs).head?.map (·.1) = rs.head?.map p := by
  cases rs with
  | nil => rfl
  | cons r rs =>
    cases h : p r with
    | true => simp [segs, h]
    | false =>
      simp only [segs, h, Bool.false_eq_true, if_false]
      split <;> simp [h]

theorem charSegs_words (p : Rune → Bool) : ∀ cs : List Ch,
    ((charSegs (segs p) cs).filter fun x => !x.1).map (·.2) = wordsBy (fun c => p c.1) cs
  | [] => rfl
  | c :: cs => by
    have ih := charSegs_words p cs
    have hh := segs_head p (cs.map (·.1))
    have hd : (cs.map (·.1)).head?.map p = cs.head?.map fun c => p c.1 := by cases cs <;> rfl
    rw [hd] at hh
    unfold charSegs at ih ⊢
    cases h : p c.1 with
    | true =>
      rw [wordsBy_delim (q := fun c : Ch => p c.1) h, ← ih]
      simp [segs, h, cutAs]
    | false =>
      simp only [List.map_cons, segs, h, Bool.false_eq_true, if_false, wordsBy]
      rw [← ih, ← hh]
      clear ih hh
      generalize segs p (cs.map (·.1)) = G
      rcases G with _ | ⟨⟨_ | _, g⟩, t⟩ <;> rfl

/-- **C119, strings.**  The pieces with a text that a split removing the delimiters gives are the words. -/
theorem split_words (p : Rune → Bool) {ns : NS} {cs : List Ch} (hwf : WF ns) (h : Repr ns cs) :
    ∃ ps, ns.split (fromFunc p) .removed = .ok (.ok ps)
      ∧ ps.filter (fun x => !x.isEmpty) = (wordsBy (fun c => p c.1) cs).map (pieceOf ns) := by
  by_cases hne : cs = []
  · subst hne
    have hn : ns.normalized = [] := by rw [h.text_eq]; rfl
    obtain ⟨k, hk⟩ := (fromFunc_cuts p).empty
    have hs := slice_empty hwf (a := 0) (by rw [hn]; decide) (by simp [NS.originalLen])
    have hspan : ∀ g ∈ splitGroups .removed [⟨⟨0, 0⟩, k⟩], span g = (0, 0) := by
      intro g hg
      revert hg
      cases k <;> simp [splitGroups] <;> rintro rfl <;> rfl
    obtain ⟨R, h1, h2⟩ := split_of (ns := ns) (b := .removed) (by rw [hn]; exact hk) (by
      intro g hg
      rw [hspan g hg]; exact ⟨_, hs⟩)
    refine ⟨R, h1, ?_⟩
    show _ = []
    rw [List.filter_eq_nil_iff]
    intro q hq
    obtain ⟨g, hg, e⟩ := All2.exists_left h2 hq
    rw [hspan g hg, hs] at e
    simp only [GoM.ok.injEq, Option.some.injEq] at e
    rw [← e]
    simp [NS.isEmpty]
  · have c1 := (fromFunc_cuts p).chars cs
    have s1 := split_groups_chars hwf .removed c1.2.2 (by rw [c1.2.1]; exact h) (pattern := fromFunc p) (by
      rw [c1.1, h.norm_eq]
      exact (fromFunc_cuts p).caps _ h.runes_valid (by simpa using hne))
    refine ⟨_, s1, ?_⟩
    have e : ((grp (·.1) Behavior.removed (charSegs (segs p) cs)).map fun g => pieceOf ns (g.flatMap (·.2)))
        = (wordsBy (fun c => p c.1) cs).map (pieceOf ns) := by
      rw [← charSegs_words p cs]
      simp [grp, Function.comp_def]
    rw [e, List.filter_eq_self]
    intro x hx
    obtain ⟨w, hw, rfl⟩ := List.mem_map.1 hx
    have := pieceOf_get_ne (ns := ns) (wordsBy_mem hw).1
    simpa [NS.isEmpty, NS.get] using this

/-! ## Normalizers that keep the words -/

/-- `g` gives a string with the same original in which the words, with their alignments, are those of the given one. -/
def KeepsWords (p : Rune → Bool) (g : NormalizeFunc) (ns : NS) : Prop :=
  ∃ m cs cs', g ns = .ok (m, none) ∧ WF ns ∧ Repr ns cs ∧ WF m ∧ Repr m cs' ∧ m.original = ns.original
    ∧ m.originalShift = ns.originalShift ∧ wordsBy (fun c => p c.1) cs' = wordsBy (fun c => p c.1) cs

/-- To normalize with `g` before the pre-tokenizer runs changes nothing. -/
def Unseen (g : NormalizeFunc) (T : PreTokenizer) (p : PTS) : Prop :=
  ∃ a c, p.normalize g = .ok (a, none) ∧ T a = .ok (c, none) ∧ T p = .ok (c, none)

theorem filter_splits (ps : List NS) : (splitsFromNormalizedStrings ps).filter (fun it => !it.ns.isEmpty)
    = splitsFromNormalizedStrings (ps.filter fun x => !x.isEmpty) := by
  unfold splitsFromNormalizedStrings
  rw [List.filter_map]
  rfl

/-- **C119, PreTokenizedStrings.** -/
theorem C119_pts {p : Rune → Bool} {g : NormalizeFunc} {P : PTS}
    (h : ∀ sp ∈ P.splits, sp.tokens = none → KeepsWords p g sp.ns) :
    Unseen g (fun P => P.split (splitByPattern (fromFunc p) .removed)) P := by
  suffices H : ∀ (ps : List Piece) (i : Nat), (∀ sp ∈ ps, sp.tokens = none → KeepsWords p g sp.ns) →
      ∃ as cs o1 o2, PTS.normalizeLoop g ps = .ok (as, none)
        ∧ PTS.splitLoop (splitByPattern (fromFunc p) .removed) i as = .ok (o1, .ok cs)
        ∧ PTS.splitLoop (splitByPattern (fromFunc p) .removed) i ps = .ok (o2, .ok cs) by
    obtain ⟨as, cs, o1, o2, h1, h2, h3⟩ := H P.splits 0 h
    exact ⟨⟨P.original, as⟩, ⟨P.original, cs⟩, by simp [PTS.normalize, h1], by simp [PTS.split, h2], by simp [PTS.split, h3]⟩
  intro ps
  induction ps with
  | nil => intro i _; exact ⟨[], [], [], [], rfl, rfl, rfl⟩
  | cons sp ps ih =>
    intro i h
    obtain ⟨as, cs, o1, o2, h1, h2, h3⟩ := ih (i + 1) fun x hx => h x (by simp [hx])
    cases ht : sp.tokens with
    | some ts =>
      refine ⟨sp :: as, sp :: cs, sp :: o1, sp :: o2, ?_, ?_, ?_⟩
      · simp [PTS.normalizeLoop, ht, h1]
      · simp [PTS.splitLoop, ht, h2]
      · simp [PTS.splitLoop, ht, h3]
    | none =>
      obtain ⟨m, ds, ds', m1, m2, m3, m4, m5, m6, m7, m8⟩ := h sp (by simp) ht
      obtain ⟨xs, x1, x2⟩ := split_words p m2 m3
      obtain ⟨ys, y1, y2⟩ := split_words p m4 m5
      have e : ys.filter (fun x => !x.isEmpty) = xs.filter (fun x => !x.isEmpty) := by
        rw [x2, y2, m8]
        congr 1
        funext B
        simp only [pieceOf, m6, m7]
      refine ⟨⟨m, none⟩ :: as, splitsFromNormalizedStrings (xs.filter fun x => !x.isEmpty) ++ cs, ⟨m, none⟩ :: o1, ⟨sp.ns, none⟩ :: o2, ?_, ?_, ?_⟩
      · simp [PTS.normalizeLoop, ht, m1, h1]
      · rw [← e, ← filter_splits]
        simp [PTS.splitLoop, splitByPattern, y1, h2]
      · rw [← filter_splits]
        simp [PTS.splitLoop, ht, splitByPattern, x1, h3]

/-- Whatever is done with the pre-tokenized string has the same result. -/
theorem C119_result {β : Type} {g : NormalizeFunc} {T : PreTokenizer} {p : PTS} (h : Unseen g T p) (k : PTS × Option Err → GoM β) :
    ∃ a, p.normalize g = .ok (a, none) ∧ (T a >>= k) = (T p >>= k) := by
  obtain ⟨a, c, h1, h2, h3⟩ := h
  exact ⟨a, h1, by rw [h2, h3]⟩

/-! ## The normalizers -/

theorem wordsBy_trim (left right : Bool) (cs : List Ch) :
    wordsBy (fun c : Ch => isWhiteSpace c.1) (trimSpec left right cs) = wordsBy (fun c : Ch => isWhiteSpace c.1) cs := by
  have dw : ∀ l : List Ch, wordsBy (fun c : Ch => isWhiteSpace c.1) (l.dropWhile fun c => isWhiteSpace c.1)
      = wordsBy (fun c : Ch => isWhiteSpace c.1) l := by
    intro l
    induction l with
    | nil => rfl
    | cons c l ih =>
      rw [List.dropWhile_cons]
      split
      · next h => rw [ih, wordsBy_delim (q := fun c : Ch => isWhiteSpace c.1) h]
      · rfl
  have ew : ∀ l : List Ch, wordsBy (fun c : Ch => isWhiteSpace c.1) (l.reverse.dropWhile fun c => isWhiteSpace c.1).reverse
      = wordsBy (fun c : Ch => isWhiteSpace c.1) l := by
    intro l
    have e : l = (l.reverse.dropWhile fun c => isWhiteSpace c.1).reverse ++ (l.reverse.takeWhile fun c => isWhiteSpace c.1).reverse := by
      rw [← List.reverse_append, List.takeWhile_append_dropWhile, List.reverse_reverse]
    conv => rhs; rw [e]
    rw [wordsBy_end]
    intro a ha
    exact mem_takeWhile_imp (p := fun c : Ch => isWhiteSpace c.1) (List.mem_reverse.1 ha)
  unfold trimSpec
  cases left <;> cases right <;> simp [dw, ew]

/-- What `TrimLeftRight` gets right (C07). -/
def TrimsWell (left : Bool) (ns : NS) : Prop := WF ns ∧ ∃ cs, Repr ns cs
  ∧ (left = false ∨ (∀ c ∈ cs, isWhiteSpace c.1 = true) ∨ AsciiChars (cs.takeWhile fun c => isWhiteSpace c.1))

theorem keeps_strip {left : Bool} {ns : NS} (h : TrimsWell left ns) (right : Bool) :
    KeepsWords isWhiteSpace (stripNormalize left right) ns := by
  obtain ⟨hwf, cs, h, hl⟩ := h
  obtain ⟨m, m1, m2, m3, m4⟩ := C07_trim_partial h left right hl
  exact ⟨m, cs, _, by simp [stripNormalize, m1], hwf, h, Op.run_wf (op := .trim left right) hwf m1, m2, m3, m4, wordsBy_trim left right cs⟩

theorem keeps_map {p : Rune → Bool} {f : Rune → Rune} (h1 : ∀ r, ValidRune r → p r = false → f r = r)
    (h2 : ∀ r, ValidRune r → p r = true → p (sanitize (f r)) = true) {ns : NS} (hs : WholeNS ns) : KeepsWords p (mapNormalize f) ns := by
  obtain ⟨hwf, cs, h⟩ := hs
  obtain ⟨m, m1, m2, m3, m4⟩ := C05_map h f
  replace m2 : Repr m (cs.map (mapCh f)) := m2
  refine ⟨m, cs, _, by simp [mapNormalize, m1], hwf, h, Op.run_wf (op := .map f) hwf m1, m2, m3, m4, ?_⟩
  have e : cs.map (mapCh f) = cs.flatMap fun c => if p c.1 then [if ValidRune c.1 then mapCh f c else c] else [c] := by
    have hv := h.valid
    clear m2 h
    induction cs with
    | nil => rfl
    | cons c cs ih =>
      have hc : ValidRune c.1 := hv c (by simp)
      rw [List.map_cons, List.flatMap_cons, ← ih fun x hx => hv x (by simp [hx])]
      cases hp : p c.1 with
      | true => simp [hc]
      | false =>
        have : mapCh f c = c := by
          show (sanitize (f c.1), c.2) = c
          rw [h1 _ hc hp, sanitize_of_valid hc]
        simp [this]
  rw [e]
  refine wordsBy_flatMap (fun c hc => by simp [hc]) (fun c hc => ?_) cs
  simp only [hc, if_true]
  refine ⟨by simp, ?_⟩
  intro b hb
  simp only [List.mem_singleton] at hb
  subst hb
  split
  · next hv => exact h2 _ hv hc
  · exact hc

/-- `Normalize` with a function that calls `Prepend`. -/
def prependNormalize (s : Str) : NormalizeFunc := fun ns => do
  let ns ← ns.prepend s
  pure (ns, none)

/-- `Normalize` with a function that calls `Append`. -/
def appendNormalize (s : Str) : NormalizeFunc := fun ns => do
  let ns ← ns.append s
  pure (ns, none)

/-- `Normalize` with a function that calls `Replace`. -/
def replaceNormalize (pattern : SplitPattern) (content : Str) : NormalizeFunc := fun ns => do
  match ← ns.replace pattern content with
  | .ok ns' => pure (ns', none)
  | .error e => pure (ns, some e)

theorem keeps_prepend {p : Rune → Bool} {s : Str} (h0 : s ≠ []) (hs : ∀ r ∈ runesOf s, p r = true) {ns : NS} (h : WholeNS ns) :
    KeepsWords p (prependNormalize s) ns := by
  obtain ⟨hwf, cs, h⟩ := h
  cases cs with
  | nil =>
    have hn : ns.normalized = [] := by rw [h.text_eq]; rfl
    exact ⟨ns, [], [], by simp [prependNormalize, NS.prepend, hn], hwf, h, hwf, h, rfl, rfl, rfl⟩
  | cons c cs =>
    obtain ⟨m, m1, m2, m3, m4⟩ := C08_prepend_partial h s h0
    refine ⟨m, _, _, by simp [prependNormalize, m1], hwf, h, Op.run_wf (op := .prepend s) hwf m1, m2, m3, m4, ?_⟩
    apply wordsBy_delims
    intro a ha
    obtain ⟨r, hr, rfl⟩ := List.mem_map.1 ha
    exact hs r hr

/-- What `Append` gets right (C09): a text of which all but the last character is ASCII. -/
def AppendsWell (ns : NS) : Prop := WF ns ∧ ∃ cs, Repr ns cs ∧ AsciiChars cs.dropLast

theorem keeps_append {p : Rune → Bool} {s : Str} (hs : ∀ r ∈ runesOf s, p r = true) {ns : NS} (h : AppendsWell ns) :
    KeepsWords p (appendNormalize s) ns := by
  obtain ⟨hwf, cs, h, ha⟩ := h
  rcases List.eq_nil_or_concat cs with rfl | ⟨ds, c, rfl⟩
  · have hn : ns.normalized = [] := by rw [h.text_eq]; rfl
    exact ⟨ns, [], [], by simp [appendNormalize, NS.append, hn], hwf, h, hwf, h, rfl, rfl, rfl⟩
  · rw [List.concat_eq_append] at h ha
    rw [List.dropLast_concat] at ha
    obtain ⟨m, m1, m2, m3, m4⟩ := C09_append_partial h ha s
    refine ⟨m, _, _, by simp [appendNormalize, m1], hwf, h, Op.run_wf (op := .append s) hwf m1, m2, m3, m4, ?_⟩
    rw [show ds ++ c :: (runesOf s).map (fun r => (r, c.2)) = (ds ++ [c]) ++ (runesOf s).map (fun r => (r, c.2)) by simp]
    apply wordsBy_end
    intro a ha
    obtain ⟨r, hr, rfl⟩ := List.mem_map.1 ha
    exact hs r hr

theorem keeps_replace {p f : Rune → Bool} {content : Str} (hv : ValidUtf8 content) (h0 : content ≠ [])
    (hs : ∀ r ∈ runesOf content, p r = true) (hf : ∀ r, f r = true → p r = true) {ns : NS} (h : WholeNS ns) :
    KeepsWords p (replaceNormalize (fromFunc f) content) ns := by
  obtain ⟨hwf, cs, h⟩ := h
  obtain ⟨rs, hr, rfl⟩ := hv
  rw [runesOf_encodeRunes rs hr] at hs
  obtain ⟨m, m1, m2, m3, m4⟩ := C10_chars h f hr
  refine ⟨m, _, _, by simp [replaceNormalize, m1], hwf, h,
    Op.run_wf (op := .replace (fromFunc f) (encodeRunes rs)) hwf (by simp [Op.run, m1]), m2, m3, m4, ?_⟩
  have hne : rs ≠ [] := by rintro rfl; exact h0 rfl
  refine wordsBy_flatMap ?_ ?_ cs
  · intro c hc
    unfold replaceChar
    cases hfc : f c.1 with
    | true => exact absurd (hf _ hfc) (by simpa using hc)
    | false => rfl
  · intro c hc
    unfold replaceChar
    cases hfc : f c.1 with
    | true =>
      simp only [if_true]
      refine ⟨by simpa using hne, ?_⟩
      intro b hb
      obtain ⟨r, hr, rfl⟩ := List.mem_map.1 hb
      exact hs r hr
    | false => exact ⟨by simp, by simpa using hc⟩

/-! ## The pre-tokenizers -/

/-- All strings without tokens satisfy `Q`. -/
def AllFree (Q : NS → Prop) (p : PTS) : Prop := ∀ sp ∈ p.splits, sp.tokens = none → Q sp.ns

/-- **C119, white space split.** -/
theorem C119_whiteSpaceSplit {g : NormalizeFunc} {p : PTS} (h : AllFree (KeepsWords isWhiteSpace g) p) : Unseen g whiteSpaceSplit p :=
  C119_pts h

/-- **C119, rune delimiter.** -/
theorem C119_runeDelimiter {d : Rune} {g : NormalizeFunc} {p : PTS} (h : AllFree (KeepsWords (fun r => r == d) g) p) :
    Unseen g (runeDelimiter d) p := C119_pts h

/-- **C119, BERT.** -/
theorem C119_bert (u : Uni) {g : NormalizeFunc} {p : PTS} (h : AllFree (KeepsWords isWhiteSpace g) p) :
    Unseen g (bertPreTokenize u) p := by
  obtain ⟨a, c, h1, h2, h3⟩ := C119_pts h
  have hp : WholePTS p := by
    intro sp hsp ht
    obtain ⟨m, cs, cs', -, k1, k2, -⟩ := h sp hsp ht
    exact ⟨k1, cs, k2⟩
  have he : ∀ r, ValidRune r → sanitize (id r) = r := fun r hr => sanitize_of_valid hr
  obtain ⟨-, -, q, -, -, h4, -⟩ := C118_bert (u := u) (f := id) (fun r hr => by rw [he r hr]) (fun r hr => by rw [he r hr]) p hp
  refine ⟨a, q, h1, ?_, h4⟩
  rw [← h4]
  simp only [bertPreTokenize, h2, h3]

/-- **C119.**  To strip white space at the ends before the BERT or the white-space-split pre-tokenizer runs changes nothing. -/
theorem C119_strip (u : Uni) (left right : Bool) {p : PTS} (h : AllFree (TrimsWell left) p) :
    Unseen (stripNormalize left right) whiteSpaceSplit p ∧ Unseen (stripNormalize left right) (bertPreTokenize u) p := by
  have := fun sp hsp ht => keeps_strip (h sp hsp ht) right
  exact ⟨C119_whiteSpaceSplit this, C119_bert u this⟩

/-- **C119.**  White space in front. -/
theorem C119_prepend (u : Uni) {s : Str} (h0 : s ≠ []) (hs : ∀ r ∈ runesOf s, isWhiteSpace r = true) {p : PTS} (h : WholePTS p) :
    Unseen (prependNormalize s) whiteSpaceSplit p ∧ Unseen (prependNormalize s) (bertPreTokenize u) p := by
  have := fun sp hsp ht => keeps_prepend h0 hs (h sp hsp ht)
  exact ⟨C119_whiteSpaceSplit this, C119_bert u this⟩

/-- **C119.**  White space at the end. -/
theorem C119_append (u : Uni) {s : Str} (hs : ∀ r ∈ runesOf s, isWhiteSpace r = true) {p : PTS} (h : AllFree AppendsWell p) :
    Unseen (appendNormalize s) whiteSpaceSplit p ∧ Unseen (appendNormalize s) (bertPreTokenize u) p := by
  have := fun sp hsp ht => keeps_append hs (h sp hsp ht)
  exact ⟨C119_whiteSpaceSplit this, C119_bert u this⟩

/-- **C119.**  White space replaced by other white space. -/
theorem C119_replace (u : Uni) {f : Rune → Bool} {content : Str} (hv : ValidUtf8 content) (h0 : content ≠ [])
    (hs : ∀ r ∈ runesOf content, isWhiteSpace r = true) (hf : ∀ r, f r = true → isWhiteSpace r = true) {p : PTS} (h : WholePTS p) :
    Unseen (replaceNormalize (fromFunc f) content) whiteSpaceSplit p
      ∧ Unseen (replaceNormalize (fromFunc f) content) (bertPreTokenize u) p := by
  have := fun sp hsp ht => keeps_replace hv h0 hs hf (h sp hsp ht)
  exact ⟨C119_whiteSpaceSplit this, C119_bert u this⟩

theorem selfChars_takeWhile (q : Rune → Bool) : ∀ (rs : List Rune) (o : Nat),
    ((selfChars o rs).takeWhile fun c => q c.1).map (·.1) = rs.takeWhile q
  | [], _ => rfl
  | r :: rs, o => by
    simp only [selfChars, List.takeWhile_cons]
    split
    · rw [List.map_cons, selfChars_takeWhile q rs]
    · rfl

/-- **C119, texts.**  For a valid text that does not begin with white space beyond ASCII, stripping changes nothing of the words. -/
theorem C119_text (u : Uni) (left right : Bool) {s : Str} (hs : ValidUtf8 s)
    (hl : left = false ∨ ∀ r ∈ (runesOf s).takeWhile isWhiteSpace, r < 0x80) :
    Unseen (stripNormalize left right) whiteSpaceSplit (PTS.fromString s)
      ∧ Unseen (stripNormalize left right) (bertPreTokenize u) (PTS.fromString s) := by
  refine C119_strip u left right ?_
  intro sp hsp _
  have : sp = ⟨NS.fromString s, none⟩ := by simpa [PTS.fromString, PTS.fromNormalizedString] using hsp
  subst this
  refine ⟨C02_history_wf (ops := []) hs rfl, _, fromString_repr hs, ?_⟩
  rcases hl with h | h
  · exact .inl h
  · right; right
    intro c hc
    apply h
    rw [← selfChars_takeWhile isWhiteSpace (runesOf s) 0]
    exact List.mem_map.2 ⟨c, hc, rfl⟩

/-- With white space beyond ASCII in front, the defect of `TrimLeftRight` (C07) shows: the word comes with another place. -/
theorem C119_counterexample : ∃ p : PTS, WholePTS p
    ∧ (do let (a, _) ← p.normalize (stripNormalize true true); whiteSpaceSplit a) ≠ whiteSpaceSplit p := by
  refine ⟨PTS.fromString b!"\u3000ab", ?_, by decide +kernel⟩
  intro sp hsp _
  have : sp = ⟨NS.fromString b!"\u3000ab", none⟩ := by simpa [PTS.fromString, PTS.fromNormalizedString] using hsp
  subst this
  exact wholeNS_of_history (ops := []) (by decide +kernel) (by simp) rfl

/-- White space replaced by nothing joins the words. -/
theorem C119_counterexample_join : ∃ p : PTS, WholePTS p
    ∧ (do let (a, _) ← p.normalize (replaceNormalize (fromFunc isWhiteSpace) []); whiteSpaceSplit a) ≠ whiteSpaceSplit p := by
  refine ⟨PTS.fromString b!"a b", ?_, by decide +kernel⟩
  intro sp hsp _
  have : sp = ⟨NS.fromString b!"a b", none⟩ := by simpa [PTS.fromString, PTS.fromNormalizedString] using hsp
  subst this
  exact wholeNS_of_history (ops := []) (by decide +kernel) (by simp) rfl

/-- "  né a. " stripped, every space then doubled, one more in front, and cut. -/
example : (do
      let (a, _) ← (PTS.fromString b!"  né a. ").normalize (stripNormalize true true)
      let (a, _) ← a.normalize (replaceNormalize (fromFunc isWhiteSpace) b!"  ")
      let (a, _) ← a.normalize (prependNormalize b!" ")
      let (c, _) ← bertPreTokenize Unicode.uni a
      pure c.getOriginalByteSplits)
    = .ok [⟨b!"né", ⟨2, 5⟩, none⟩, ⟨b!"a", ⟨6, 7⟩, none⟩, ⟨b!".", ⟨7, 8⟩, none⟩] := by decide +kernel

/-- The text itself. -/
example : (do
      let (c, _) ← bertPreTokenize Unicode.uni (PTS.fromString b!"  né a. ")
      pure c.getOriginalByteSplits)
    = .ok [⟨b!"né", ⟨2, 5⟩, none⟩, ⟨b!"a", ⟨6, 7⟩, none⟩, ⟨b!".", ⟨7, 8⟩, none⟩] := by decide +kernel

example : wordsBy (fun r : Rune => r == 32) [32, 1, 2, 32, 32, 3, 32] = [[1, 2], [3]] := rfl

end Verif
