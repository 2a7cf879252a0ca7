import Verif.Props.ByteLevelBytes
import Verif.Props.LiteralEngine

/-! C127: cutting without removing loses no byte, whatever the bytes, the state and the pattern; and what the
meta-space pre-tokenizer does with any bytes. -/

set_option autoImplicit false

namespace Verif

/-! ## Patterns without gaps -/

/-- Whenever the pattern answers, the captures follow one another from the start of the text to its end or beyond. -/
def Gapless (pat : SplitPattern) : Prop :=
  ∀ (s : Str) (caps : List Capture), pat s = .ok (.ok caps) → ∃ e : Int, (s.length : Int) ≤ e ∧ Adjoining 0 caps e

theorem gapless_empty : Adjoining 0 emptyCaptures 0 := ⟨rfl, rfl⟩

theorem adjoining_chunkCaps : ∀ (t : List (Bool × List Chunk)) (i : Int), (∀ x ∈ t, GoodChunks x.2) →
    ∃ e : Int, i + (textOf (t.flatMap (·.2))).length ≤ e ∧ Adjoining i (chunkCaps i t) e := by
  intro t
  induction t with
  | nil => intro i _; exact ⟨i, by simp, rfl⟩
  | cons x t ih =>
    obtain ⟨b, g⟩ := x
    intro i hg
    cases t with
    | nil =>
      refine ⟨i + seen g, ?_, rfl, rfl⟩
      have hs : (textOf g).length ≤ seen g := by
        rcases List.eq_nil_or_concat g with rfl | ⟨q, c, rfl⟩
        · simp
        · rw [List.concat_eq_append, seen_append]
          have hc : c.bytes.length ≤ runeLen c.rune := by
            rcases (hg (b, q.concat c) (by simp) c (by simp)).2 with h | ⟨h, -⟩
            · rw [h]; exact Nat.le_refl _
            · rw [h]; exact runeLen_pos _
          simp [textOf]; omega
      simp
      omega
    | cons y t =>
      obtain ⟨e, h1, h2⟩ := ih (i + (textOf g).length) fun z hz => hg z (by simp [hz])
      refine ⟨e, ?_, rfl, h2⟩
      rw [List.flatMap_cons, show textOf (g ++ (y :: t).flatMap (·.2)) = textOf g ++ textOf ((y :: t).flatMap (·.2)) by simp [textOf],
        List.length_append]
      push_cast
      omega

theorem goodSegs (f : Rune → Bool) (s : Str) : ∀ x ∈ chunkSegs f (chunks s), GoodChunks x.2 := by
  intro x hx
  obtain ⟨a, b, e⟩ := chunkSegs_infix f _ hx
  intro c hc
  exact goodChunks s c (by rw [e]; simp [hc])

theorem gapless_func {f : Rune → Bool} (hf : f 0xFFFD = false) : Gapless (fromFunc f) := by
  intro s caps h
  have h : caps = funcFindMatches f s := by
    have : GoM.ok (Except.ok (funcFindMatches f s)) = GoM.ok (Except.ok caps) := h
    simpa using this.symm
  rw [h, funcFindMatches_chunks f hf]
  by_cases h0 : s = []
  · subst h0; exact ⟨0, by simp, gapless_empty⟩
  · rw [if_neg h0]
    obtain ⟨e, h1, h2⟩ := adjoining_chunkCaps (chunkSegs f (chunks s)) 0 (goodSegs f s)
    rw [chunkSegs_flatten, textOf_chunks] at h1
    exact ⟨e, by omega, h2⟩

theorem gapless_rune {d : Rune} (hd : d ≠ 0xFFFD) : Gapless (fromRune d) :=
  gapless_func (by simpa using fun e => hd e.symm)

theorem gapless_regexp (findAll : Str → List (Int × Int)) : Gapless (fromRegexp findAll) := by
  intro s caps h
  simp only [fromRegexp] at h
  split at h
  · rename_i h0
    simp at h; subst h
    exact ⟨0, by omega, gapless_empty⟩
  · simp at h; subst h
    exact ⟨_, Int.le_refl _, follow_captures _ _⟩

theorem gapless_regexp2 (findAll2 : List Rune → Except Err (List (Nat × Nat))) : Gapless (fromRegexp2 findAll2) := by
  intro s caps h
  simp only [fromRegexp2] at h
  split at h
  · rename_i h0
    simp at h; subst h
    exact ⟨0, by omega, gapless_empty⟩
  · cases he : findAll2 (runesOf s) with
    | error e => simp [he] at h
    | ok ms =>
      simp only [he, GoM.ok.injEq, Except.ok.injEq] at h; subst h
      exact ⟨_, Int.le_refl _, follow_captures _ _⟩

theorem adjoining_map {g : Capture → Capture} (hg : ∀ c, (g c).offsets = c.offsets) : ∀ {caps : List Capture} {a e : Int},
    Adjoining a caps e → Adjoining a (caps.map g) e := by
  intro caps
  induction caps with
  | nil => intro a e h; exact h
  | cons c caps ih => intro a e h; exact ⟨by rw [hg]; exact h.1, by rw [hg]; exact ih h.2⟩

theorem gapless_invert {pat : SplitPattern} (h : Gapless pat) : Gapless (invert pat) := by
  intro s caps hc
  unfold invert at hc
  cases hp : pat s with
  | panic => simp [hp] at hc
  | ok r =>
    cases r with
    | error e => simp [hp] at hc
    | ok cs =>
      simp only [hp, GoM.ok.injEq, Except.ok.injEq] at hc
      subst hc
      obtain ⟨e, h1, h2⟩ := h s cs hp
      exact ⟨e, h1, adjoining_map (g := fun c => { c with isMatch := !c.isMatch }) (fun _ => rfl) h2⟩

theorem gapless_string {ps : List Rune} (hp : ps ≠ []) : Gapless (fromStringAny ps) := by
  intro s caps h
  simp only [fromStringAny, if_neg hp] at h
  exact gapless_regexp _ s caps h

/-! ## No byte is lost -/

theorem adjoining_split : ∀ {xs ys : List Capture} {a b : Int}, Adjoining a (xs ++ ys) b →
    ∃ m, Adjoining a xs m ∧ Adjoining m ys b := by
  intro xs
  induction xs with
  | nil => intro ys a b h; exact ⟨a, rfl, h⟩
  | cons x xs ih =>
    intro ys a b h
    obtain ⟨m, h1, h2⟩ := ih h.2
    exact ⟨m, ⟨h.1, h1⟩, h2⟩

theorem span_adjoining {g : List Capture} {a b : Int} (hne : g ≠ []) (h : Adjoining a g b) : span g = (a, b) := by
  cases g with
  | nil => exact absurd rfl hne
  | cons c cs =>
    have key : ∀ (cs : List Capture) (c : Capture) (a : Int), Adjoining a (c :: cs) b →
        ((c :: cs).getLast (by simp)).offsets.stop = b := by
      intro cs
      induction cs with
      | nil => intro c a h; exact h.2
      | cons d cs ih => intro c a h; rw [List.getLast_cons (by simp)]; exact ih d _ h.2
    simp only [span]
    rw [key cs c a h, h.1]

theorem join_groups {s : Str} : ∀ {gs : List (List Capture)} {ts : List NS} {a e : Int},
    All2 (fun g p => goSlice s (span g).1 (span g).2 = .ok p.get) gs ts → (∀ g ∈ gs, g ≠ []) →
    Adjoining a gs.flatten e → 0 ≤ a →
    a ≤ e ∧ (gs ≠ [] → e ≤ s.length) ∧ (ts.map NS.get).flatten = (s.drop a.toNat).take (e - a).toNat := by
  intro gs
  induction gs with
  | nil =>
    intro ts a e h _ hf _
    cases h
    simp only [List.flatten_nil, Adjoining] at hf
    subst hf
    simp
  | cons g gs ih =>
    intro ts a e h hne hf ha
    cases h with
    | cons h1 h2 =>
      rename_i t ts
      rw [List.flatten_cons] at hf
      obtain ⟨m, f1, f2⟩ := adjoining_split hf
      rw [span_adjoining (hne g (by simp)) f1] at h1
      obtain ⟨⟨k1, k2, k3⟩, h1⟩ := goSlice_eq_ok.1 h1
      obtain ⟨i1, i2, i3⟩ := ih h2 (fun x hx => hne x (by simp [hx])) f2 (by omega)
      refine ⟨by omega, ?_, ?_⟩
      · intro _
        cases gs with
        | nil => simp only [List.flatten_nil, Adjoining] at f2; omega
        | cons d ds => exact i2 (by simp)
      · rw [List.map_cons, List.flatten_cons, i3, h1]
        have e1 : m.toNat = a.toNat + (m - a).toNat := by omega
        have e2 : (e - a).toNat = (m - a).toNat + (e - m).toNat := by omega
        rw [e1, e2, List.take_add, List.drop_drop]

/-- **C127, no loss.** Every pattern of the package (function and rune patterns that do not take U+FFFD for a delimiter, both
kinds of regular expressions, strings, and their inversions), every behaviour but Removed, every state and all bytes: if
`Split` succeeds, the texts of the pieces, joined, are the text. -/
theorem C127_join {ns : NS} {pat : SplitPattern} (hg : Gapless pat) {b : Behavior} (hb : b ≠ .removed) {pieces : List NS}
    (h : ns.split pat b = .ok (.ok pieces)) : (pieces.map NS.get).flatten = ns.get := by
  cases hp : pat ns.normalized with
  | panic => simp only [NS.split, hp, GoM.bind_panic] at h; cases h
  | ok r =>
    cases r with
    | error e => simp only [NS.split, hp, GoM.bind_ok, GoM.pure_eq] at h; cases h
    | ok caps =>
      have h1 := C78_pieces hp h
      obtain ⟨e, h2, h3⟩ := hg _ _ hp
      obtain ⟨f1, f2⟩ := splitGroups_flatten b caps
      rw [if_neg hb] at f1
      rw [← f1] at h3
      obtain ⟨j1, j2, j3⟩ := join_groups h1 f2 h3 (by omega)
      rw [j3]
      by_cases hgs : splitGroups b caps = []
      · rw [hgs] at h3
        simp only [List.flatten_nil, Adjoining] at h3
        have : ns.get = [] := List.length_eq_zero_iff.1 (by
          have : (ns.get.length : Int) ≤ e := h2
          omega)
        simp [this]
      · have := j2 hgs
        have h2 : (ns.get.length : Int) ≤ e := h2
        rw [List.take_of_length_le (by simp; omega)]
        simp

/-- A pattern that takes U+FFFD for a delimiter takes a bad byte for one too, three bytes long: here the pieces overlap. -/
example : ((NS.fromString [0xFF, 0xFF, 0x61, 0x62, 0x63]).split (fromRune 0xFFFD) .isolated >>= fun r =>
    pure (r.toOption.map (·.map NS.get))) = .ok (some [[0xFF, 0xFF, 0x61], [0xFF, 0x61, 0x62], [0x63]]) := by decide +kernel

/-! ## Replace and the meta-space pre-tokenizer -/

/-- The text with `content` in the place of every rune `d`; bad bytes stay. -/
def replaceRune (d : Rune) (content : Str) (cs : List Chunk) : Str :=
  cs.flatMap fun c => if c.rune == d then content else c.bytes

theorem replaceRune_append (d : Rune) (content : Str) (xs ys : List Chunk) :
    replaceRune d content (xs ++ ys) = replaceRune d content xs ++ replaceRune d content ys := by
  simp [replaceRune]

theorem replaceRune_none {d : Rune} {content : Str} {g : List Chunk} (h : ∀ c ∈ g, (c.rune == d) = false) :
    replaceRune d content g = textOf g := by
  induction g with
  | nil => rfl
  | cons c g ih =>
    rw [textOf_cons, ← ih fun x hx => h x (by simp [hx])]
    have := h c (by simp)
    simp only [replaceRune, List.flatMap_cons, this, Bool.false_eq_true, if_false]

/-- One replacement. -/
theorem replace_one {ns ns' : NS} {content : Str} (hc : ValidUtf8 content) {pre mid post : Str} {o o' : Int} {a b : Int}
    (ht : ns.get = pre ++ mid ++ post) (ha : a + o = pre.length) (hb : b + o = (pre ++ mid).length)
    (h : NS.replaceStep content (ns, o) ⟨⟨a, b⟩, true⟩ = .ok (ns', o')) :
    ns'.get = pre ++ content ++ post ∧ o' = o + ((content.length : Int) - (b - a)) := by
  have hb' : ¬ b + o < 0 := by omega
  have ha' : ¬ a + o < 0 := by omega
  simp only [NS.replaceStep, Bool.not_true, Bool.false_eq_true, if_false, ha', hb', GoM.bind_eq_ok] at h
  obtain ⟨seg, -, n1, h1, h2⟩ := h
  simp only [GoM.pure_eq, GoM.ok.injEq, Prod.mk.injEq] at h2
  obtain ⟨rfl, rfl⟩ := h2
  refine ⟨?_, rfl⟩
  obtain ⟨nPre, nInit, nTail, nPost, aPre, aPost, ks, k1, k2, -, k3, -, -, -, -, -, -, -, k4⟩ :=
    transformNormalized_ok (a := a + o) (b := b + o) h1
  have e1 : nPre = pre ∧ nInit ++ nTail = mid ∧ nPost = post := by
    have hh : nPre ++ ((nInit ++ nTail) ++ nPost) = pre ++ (mid ++ post) := by
      rw [← List.append_assoc nPre, ← k1, ← List.append_assoc]; exact ht
    obtain ⟨x1, x2⟩ := List.append_inj hh (by omega)
    obtain ⟨x3, x4⟩ := List.append_inj x2 (by rw [List.length_append] at hb; omega)
    exact ⟨x1, x3, x4⟩
  rw [k4]
  show nPre ++ encodeRunes _ ++ nPost = _
  rw [e1.1, e1.2.2]
  congr 2
  rw [List.map_map, show ((fun rc : RuneChange => sanitize rc.rune) ∘ fun r => (⟨r, 1⟩ : RuneChange)) = sanitize from rfl,
    encodeRunes_sanitize]
  exact hc.runes

theorem replace_chunks {d : Rune} (hd : d ≠ 0xFFFD) {content : Str} (hc : ValidUtf8 content) :
    ∀ (t : List (Bool × List Chunk)) (i : Nat) (done : Str) (ns : NS) (st : NS × Int),
    (∀ x ∈ t, GoodChunks x.2 ∧ (x.1 = true → ∃ c, x.2 = [c] ∧ c.rune = d) ∧ (x.1 = false → ∀ c ∈ x.2, (c.rune == d) = false)) →
    ns.get = done ++ textOf (t.flatMap (·.2)) →
    goFor (chunkCaps i t) (ns, (done.length : Int) - i) (NS.replaceStep content) = .ok st →
    st.1.get = done ++ replaceRune d content (t.flatMap (·.2)) := by
  intro t
  induction t with
  | nil =>
    intro i done ns st _ hn h
    simp only [chunkCaps, goFor, GoM.ok.injEq] at h
    subst h
    simpa [replaceRune] using hn
  | cons x t ih =>
    obtain ⟨m, g⟩ := x
    intro i done ns st hx hn h
    obtain ⟨g1, g2, g3⟩ := hx (m, g) (by simp)
    have hrest := fun y (hy : y ∈ t) => hx y (by simp [hy])
    have hn' : ns.get = done ++ textOf g ++ textOf (t.flatMap (·.2)) := by
      rw [hn]; simp [textOf]
    rw [List.flatMap_cons, replaceRune_append]
    cases m with
    | false =>
      rw [replaceRune_none (g3 rfl)]
      have skip : ∀ (e : Int) (o : Int), NS.replaceStep content (ns, o) ⟨⟨(i : Int), e⟩, false⟩ = .ok (ns, o) := by
        intro e o; simp [NS.replaceStep]
      cases t with
      | nil =>
        simp only [chunkCaps, goFor_cons, skip, GoM.bind_ok, goFor, GoM.ok.injEq] at h
        subst h
        simpa [replaceRune] using hn'
      | cons y t =>
        simp only [chunkCaps, goFor_cons, skip, GoM.bind_ok] at h
        have := ih (i + (textOf g).length) (done ++ textOf g) ns st hrest hn' (by
          rw [← h]
          simp only [List.length_append]
          push_cast
          rw [show (done.length : Int) + (textOf g).length - ((i : Int) + (textOf g).length) = (done.length : Int) - i by omega])
        rw [this, List.append_assoc]
    | true =>
      obtain ⟨c, rfl, hcd⟩ := g2 rfl
      have hbytes : c.bytes = encodeRune c.rune := by
        rcases (g1 c (by simp)).2 with h | ⟨-, h⟩
        · exact h
        · exact absurd (hcd.symm.trans h) hd
      have htx : textOf [c] = c.bytes := by simp [textOf]
      have hseen : seen [c] = (textOf [c]).length := by
        have := seen_append [] c
        rw [List.nil_append] at this
        rw [this, htx, hbytes]; simp [runeLen]
      have hrep : replaceRune d content [c] = content := by simp [replaceRune, hcd]
      rw [hrep]
      have step : ∀ {st1 : NS × Int}, NS.replaceStep content (ns, (done.length : Int) - i)
          ⟨⟨(i : Int), (i : Int) + (textOf [c]).length⟩, true⟩ = .ok st1 →
          st1.1.get = done ++ content ++ textOf (t.flatMap (·.2))
          ∧ st1.2 = ((done ++ content).length : Int) - ((i + (textOf [c]).length : Nat) : Int) := by
        rintro ⟨n1, o1⟩ hs
        obtain ⟨k1, k2⟩ := replace_one hc (pre := done) (mid := textOf [c]) (post := textOf (t.flatMap (·.2))) hn' (by omega)
          (by rw [List.length_append]; push_cast; omega) hs
        refine ⟨k1, ?_⟩
        rw [k2, List.length_append]
        push_cast
        omega
      cases t with
      | nil =>
        simp only [chunkCaps, hseen, goFor_cons, GoM.bind_eq_ok] at h
        obtain ⟨st1, s1, s2⟩ := h
        simp only [goFor, GoM.ok.injEq] at s2
        subst s2
        simpa [replaceRune] using (step s1).1
      | cons y t =>
        simp only [chunkCaps, goFor_cons, GoM.bind_eq_ok] at h
        obtain ⟨⟨n1, o1⟩, s1, s2⟩ := h
        obtain ⟨k1, k2⟩ := step s1
        simp only at k1 k2
        subst k2
        have := ih (i + (textOf [c]).length) (done ++ content) n1 st hrest k1 (by rw [← s2]; push_cast; rfl)
        rw [this, List.append_assoc]

theorem chunkSegs_kinds (f : Rune → Bool) (cs : List Chunk) : ∀ x ∈ chunkSegs f cs,
    (x.1 = true → ∃ c, x.2 = [c] ∧ f c.rune = true) ∧ (x.1 = false → ∀ c ∈ x.2, f c.rune = false) := by
  induction cs with
  | nil => simp [chunkSegs]
  | cons c cs ih =>
    intro x hx
    simp only [chunkSegs] at hx
    split at hx
    · rename_i hc
      rcases List.mem_cons.1 hx with rfl | hx
      · exact ⟨fun _ => ⟨c, rfl, hc⟩, fun h => by simp at h⟩
      · exact ih x hx
    · rename_i hc
      have hc : f c.rune = false := by simpa using hc
      split at hx
      · rename_i g t he
        rw [he] at ih
        rcases List.mem_cons.1 hx with rfl | hx
        · refine ⟨fun h => by simp at h, fun _ d hd => ?_⟩
          rcases List.mem_cons.1 hd with rfl | hd
          · exact hc
          · exact (ih (false, g) (by simp)).2 rfl d hd
        · exact ih x (by simp [hx])
      · rcases List.mem_cons.1 hx with rfl | hx
        · refine ⟨fun h => by simp at h, fun _ d hd => ?_⟩
          simp at hd; subst hd; exact hc
        · exact ih x hx

/-- **C127, Replace.** Every rune but U+FFFD, every valid content, any state and bytes: if `Replace` with the pattern of one
rune succeeds, the content stands in the place of every such rune and every other byte is as it was. -/
theorem C127_replace {ns ns' : NS} {d : Rune} (hd : d ≠ 0xFFFD) {content : Str} (hc : ValidUtf8 content)
    (h : ns.replace (fromRune d) content = .ok (.ok ns')) : ns'.get = replaceRune d content (chunks ns.get) := by
  have hf : (fun other : Rune => other == d) 0xFFFD = false := by simpa using fun e => hd e.symm
  have hp : fromRune d ns.normalized = .ok (.ok (funcFindMatches (fun other => other == d) ns.get)) := rfl
  simp only [NS.replace, hp, GoM.bind_ok, GoM.bind_eq_ok] at h
  obtain ⟨st, h1, h2⟩ := h
  simp only [GoM.pure_eq, GoM.ok.injEq, Except.ok.injEq] at h2
  subst h2
  rw [funcFindMatches_chunks _ hf] at h1
  by_cases h0 : ns.get = []
  · rw [if_pos h0] at h1
    simp only [emptyCaptures, goFor_cons, goFor] at h1
    simp [NS.replaceStep] at h1
    subst h1
    simp [h0, replaceRune, chunks, chunksAux]
  · rw [if_neg h0] at h1
    have := replace_chunks hd hc (chunkSegs (fun other => other == d) (chunks ns.get)) 0 [] ns st
      (by
        intro x hx
        obtain ⟨k1, k2⟩ := chunkSegs_kinds _ _ x hx
        exact ⟨goodSegs _ _ x hx, fun hm => by
          obtain ⟨c, e1, e2⟩ := k1 hm
          exact ⟨c, e1, by simpa using e2⟩, k2⟩)
      (by rw [chunkSegs_flatten, textOf_chunks]; rfl)
      (by simpa using h1)
    rw [this, chunkSegs_flatten]; rfl

/-- The text a meta-space pre-tokenizer cuts: with the prefix, the mark in front unless it is there already or the text is
empty; a bad first byte is then read as U+FFFD, whose three bytes overwrite the first three. -/
def metaPrefixed (R : Rune) (b : Bool) (s : Str) : Str :=
  if b = true ∧ (!(encodeRune R).isPrefixOf s) = true then
    match chunks s with
    | [] => []
    | c :: _ => encodeRune R ++ (encodeRune c.rune ++ s.drop (encodeRune c.rune).length)
  else s

/-- If the text does not start with a bad byte, the mark is simply put before it. -/
theorem metaPrefixed_good {R : Rune} {s : Str} (hp : (encodeRune R).isPrefixOf s = false) {c : Chunk} {cs : List Chunk}
    (hc : chunks s = c :: cs) (hb : c.isBad = false) : metaPrefixed R true s = encodeRune R ++ s := by
  have h1 := textOf_chunks s
  rw [hc, textOf_cons] at h1
  have h2 : c.bytes = encodeRune c.rune := by simpa [Chunk.isBad] using hb
  simp only [metaPrefixed, hp, hc, Bool.not_false, and_self, if_true]
  congr 1
  rw [← h1, h2, List.drop_left]

theorem splitLoop_joined (f : SplitFunc) (g : NS → Str)
    (hf : ∀ i ns ns' items, f i ns = .ok (ns', .ok items) → (items.map fun q : Piece => q.ns.get).flatten = g ns) :
    ∀ (ps : List Piece) (i : Nat) (old new : List Piece), PTS.splitLoop f i ps = .ok (old, .ok new) →
    (new.map fun q => q.ns.get).flatten
      = (ps.map fun q => match q.tokens with | none => g q.ns | some _ => q.ns.get).flatten := by
  intro ps
  induction ps with
  | nil =>
    intro i old new h
    simp only [PTS.splitLoop, GoM.ok.injEq, Prod.mk.injEq, Except.ok.injEq] at h
    rw [← h.2]; rfl
  | cons p ps ih =>
    intro i old new h
    cases hp : p.tokens with
    | some t =>
      simp only [PTS.splitLoop, hp, GoM.bind_eq_ok] at h
      obtain ⟨⟨o, n⟩, h3, h4⟩ := h
      cases n with
      | error e => simp at h4
      | ok n =>
        simp only [GoM.pure_eq, GoM.ok.injEq, Prod.mk.injEq, Except.ok.injEq] at h4
        rw [← h4.2]
        simp only [List.map_cons, List.flatten_cons, hp, ih _ _ _ h3]
    | none =>
      simp only [PTS.splitLoop, hp, GoM.bind_eq_ok] at h
      obtain ⟨⟨ns', r⟩, h1, h2⟩ := h
      cases r with
      | error e => simp at h2
      | ok items =>
        simp only [GoM.bind_eq_ok] at h2
        obtain ⟨⟨o, n⟩, h3, h4⟩ := h2
        cases n with
        | error e => simp at h4
        | ok n =>
          simp only [GoM.pure_eq, GoM.ok.injEq, Prod.mk.injEq, Except.ok.injEq] at h4
          rw [← h4.2]
          have hdrop : ∀ items : List Piece, ((items.filter fun q => !q.ns.isEmpty).map fun q => q.ns.get).flatten
              = (items.map fun q => q.ns.get).flatten := by
            intro items
            induction items with
            | nil => rfl
            | cons q items ihi =>
              cases he : q.ns.isEmpty with
              | false => simp [he, ihi]
              | true =>
                have : q.ns.get = [] := by
                  have : q.ns.normalized = [] := by simpa [NS.isEmpty] using he
                  exact this
                simp [he, ihi, this]
          rw [List.map_append, List.flatten_append, ih _ _ _ h3, hdrop, hf _ _ _ _ h1]
          simp [hp]

/-- **C127, meta space.** Any mark but U+FFFD, any pre-tokenized string, any bytes: if the meta-space pre-tokenizer succeeds, the
texts of its splits, joined, are the texts it was given, each with the mark in front (if asked for) and in the place of every
space; tokenized splits are untouched. -/
theorem C127_metaSpace {R : Rune} (hR : R ≠ 0xFFFD) {b : Bool} {p p' : PTS}
    (h : metaSpace R b p = .ok (p', none)) :
    (p'.splits.map fun q => q.ns.get).flatten
      = (p.splits.map fun q => match q.tokens with
          | none => replaceRune 32 (encodeRune R) (chunks (metaPrefixed R b q.ns.get))
          | some _ => q.ns.get).flatten := by
  simp only [metaSpace, PTS.split, GoM.bind_eq_ok] at h
  obtain ⟨⟨o, n⟩, k1, k2⟩ := h
  cases n with
  | error e => simp at k2
  | ok n =>
    simp only [GoM.pure_eq, GoM.ok.injEq, Prod.mk.injEq] at k2
    rw [← k2.1]
    refine splitLoop_joined _ (fun ns => replaceRune 32 (encodeRune R) (chunks (metaPrefixed R b ns.get))) ?_ _ _ _ _ k1
    intro i ns ns' items hf
    have hvR : ValidUtf8 (encodeRune R) := by
      have := validUtf8_encodeRunes [R]
      simpa using this
    have fin : ∀ ns1 : NS, (do
        match ← ns1.replace (fromRune 32) (encodeRune R) with
        | .error e => pure (ns1, .error e)
        | .ok ns =>
          match ← ns.split (fromRune R) .mergedWithNext with
          | .error e => pure (ns, .error e)
          | .ok nss => pure (ns, .ok (splitsFromNormalizedStrings nss)) : GoM (NS × Except Err (List Piece)))
          = .ok (ns', .ok items) →
        (items.map fun q : Piece => q.ns.get).flatten = replaceRune 32 (encodeRune R) (chunks ns1.get) := by
      intro ns1 h
      simp only [GoM.bind_eq_ok] at h
      obtain ⟨r, h4, h5⟩ := h
      cases r with
      | error e => simp at h5
      | ok ns2 =>
        simp only [GoM.bind_eq_ok] at h5
        obtain ⟨r, h6, h7⟩ := h5
        cases r with
        | error e => simp at h7
        | ok nss =>
          simp only [GoM.pure_eq, GoM.ok.injEq, Prod.mk.injEq, Except.ok.injEq] at h7
          rw [← C127_replace (by decide) hvR h4, ← C127_join (gapless_rune hR) (by decide) h6, ← h7.2]
          simp [splitsFromNormalizedStrings, Function.comp_def]
    simp only [metaSpaceSplitFunc] at hf
    unfold metaPrefixed
    by_cases hc : b = true ∧ (!(encodeRune R).isPrefixOf ns.get) = true
    · rw [if_pos hc, GoM.bind_eq_ok] at hf
      obtain ⟨ns1, h4, h5⟩ := hf
      rw [if_pos hc, fin _ h5]
      cases hch : chunks ns.get with
      | nil =>
        have h0 : ns.get = [] := by
          have := textOf_chunks ns.get
          rw [hch] at this
          exact this.symm
        have : ns1.get = [] := by
          have hl : ns.normalized.length = 0 := by
            rw [show ns.normalized = [] from h0]; rfl
          simp only [NS.prepend, hl, if_true, GoM.ok.injEq] at h4
          rw [← h4]; exact h0
        rw [this]
      | cons c cs =>
        rw [(C78_prepend hch h4).1]
        have : sanitizeText (encodeRune R) = encodeRune R := by
          rw [sanitizeText_eq]
          exact hvR.runes
        rw [this, List.append_assoc]
    · rw [if_neg hc] at hf ⊢
      exact fin _ hf

/-- With a bad byte inside the text the meta-space pre-tokenizer can succeed, and loses nothing. -/
example : (metaSpace 0x2581 true (PTS.fromString [0x61, 0xFF, 0x62, 0x20, 0x63])).bind (fun r =>
      .ok (r.1.splits.map fun q => q.ns.get, r.2))
    = .ok ([[0xE2, 0x96, 0x81, 0x61, 0xFF, 0x62], [0xE2, 0x96, 0x81, 0x63]], none) := by decide +kernel

end Verif
