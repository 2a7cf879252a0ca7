import Verif.Props.Canonical
import Verif.Spec.Tiling
import Verif.Lemmas.Split
import Verif.Model.Bpe

/-! Properties C44 to C48: the BPE model. -/

set_option autoImplicit false

namespace Verif
namespace BPE

/-! ## Specification -/

/-- What is looked up for the character at index `i` when the continuing-subword prefix goes to
the characters after the first, and the end-of-word suffix to the last. -/
def expectedKey (m : BPE) (i last : Nat) (r : Rune) : Str :=
  (if 0 < i then m.continuingSubwordPrefix else []) ++ encodeRune r
    ++ (if i = last then m.endOfWordSuffix else [])

/-- For each character of the sequence, its id in the vocabulary (if it is there) and its
length in bytes. -/
def lookups (m : BPE) (s : Str) : List (Option Int × Int) :=
  (runesOf s).mapIdx fun i r =>
    (m.vocab.getID (m.lookupKey i ((runesOf s).length - 1) r), ((encodeRune r).length : Int))

/-- Known characters give their own symbol, and each maximal run of unknown ones gives one
symbol of id `u` covering the run. -/
inductive Fused (u : Int) : List (Option Int × Int) → List (Int × Int) → Prop
  | nil : Fused u [] []
  | known {id len : Int} {cs : List (Option Int × Int)} {ss : List (Int × Int)} : Fused u cs ss →
      Fused u ((some id, len) :: cs) ((id, len) :: ss)
  | run {run cs : List (Option Int × Int)} {ss : List (Int × Int)} : run ≠ [] → (∀ c ∈ run, c.1 = none) →
      (∀ c, cs.head? = some c → c.1 ≠ none) → Fused u cs ss →
      Fused u (run ++ cs) ((u, (run.map (·.2)).sum) :: ss)

/-- One symbol per character, of id `u` for the unknown ones. -/
def separate (u : Int) (cs : List (Option Int × Int)) : List (Int × Int) :=
  cs.map fun c => (c.1.getD u, c.2)

/-- Only the known characters. -/
def knownOnly (cs : List (Option Int × Int)) : List (Int × Int) :=
  cs.filterMap fun c => c.1.map fun id => (id, c.2)

/-- The tokens have contiguous non-empty offsets from `a` to `b`, and each has the value that the
vocabulary gives for its id. -/
def TokenTiles (v : Vocab) : Int → List Token → Int → Prop
  | a, [], b => a = b
  | a, t :: ts, b => t.offsets.start = a ∧ a < t.offsets.stop ∧ v.getString t.id = some t.value
      ∧ TokenTiles v t.offsets.stop ts b

/-- Every character of the sequence gets a symbol: an unknown token is configured, or every
character (with its affixes) is in the vocabulary. -/
def Covered (m : BPE) (s : Str) : Prop :=
  m.unknownToken ≠ [] ∨ ∀ c ∈ m.lookups s, c.1 ≠ none

/-! ## The initial symbols -/

/-- The symbols still to come, given the pending unknown symbol. -/
def pending (m : BPE) (u : Int) : Option (Int × Int) → List (Option Int × Int) → List (Int × Int)
  | p, [] => p.toList
  | p, (some id, len) :: cs => p.toList ++ (id, len) :: pending m u none cs
  | none, (none, len) :: cs => if m.hasUnknownToken then pending m u (some (u, len)) cs else pending m u none cs
  | some p, (none, len) :: cs =>
    if m.hasUnknownToken then
      if m.unknownFusionEnabled then pending m u (some (p.1, p.2 + len)) cs
      else p :: pending m u (some (u, len)) cs
    else pending m u (some p) cs

/-- Add the pending symbol. -/
def finish : Word × Option (Int × Int) → Word
  | (word, some (uid, ulen)) => word.add uid ulen
  | (word, none) => word

theorem fold_symbolStep (m : BPE) (u : Int) (last : Nat) (xs : List (Nat × Rune)) (ss : List (Int × Int))
    (p : Option (Int × Int)) :
    finish (xs.foldl (m.symbolStep u last) (built ss, p))
      = built (ss ++ pending m u p (xs.map fun ir =>
          (m.vocab.getID (m.lookupKey ir.1 last ir.2), ((encodeRune ir.2).length : Int)))) := by
  have add : ∀ (ss : List (Int × Int)) (a b : Int), (built ss).add a b = built (ss ++ [(a, b)]) :=
    fun ss a b => (built_snoc ss (a, b)).symm
  induction xs generalizing ss p with
  | nil =>
    cases p with
    | none => simp [finish, pending]
    | some p => simp [finish, pending, add]
  | cons ir xs ih =>
    simp only [List.foldl_cons, List.map_cons]
    cases hg : m.vocab.getID (m.lookupKey ir.1 last ir.2) with
    | some id =>
      cases p with
      | none =>
        have : m.symbolStep u last (built ss, none) ir = (built (ss ++ [(id, ((encodeRune ir.2).length : Int))]), none) := by
          simp only [symbolStep, hg, add]
        rw [this, ih]
        simp [pending]
      | some p =>
        have : m.symbolStep u last (built ss, some p) ir
            = (built (ss ++ [p] ++ [(id, ((encodeRune ir.2).length : Int))]), none) := by
          simp only [symbolStep, hg, add]
        rw [this, ih]
        simp [pending]
    | none =>
      cases p with
      | none =>
        by_cases hu : m.hasUnknownToken
        · have : m.symbolStep u last (built ss, none) ir = (built ss, some (u, ((encodeRune ir.2).length : Int))) := by
            simp only [symbolStep, hg, hu, if_true]
          rw [this, ih]
          simp [pending, hu]
        · have : m.symbolStep u last (built ss, none) ir = (built ss, none) := by
            simp [symbolStep, hg, hu]
          rw [this, ih]
          simp [pending, hu]
      | some p =>
        by_cases hu : m.hasUnknownToken
        · by_cases hf : m.unknownFusionEnabled
          · have : m.symbolStep u last (built ss, some p) ir
                = (built ss, some (p.1, p.2 + ((encodeRune ir.2).length : Int))) := by
              simp only [symbolStep, hg, hu, hf, if_true]
            rw [this, ih]
            simp [pending, hu, hf]
          · have : m.symbolStep u last (built ss, some p) ir
                = (built (ss ++ [p]), some (u, ((encodeRune ir.2).length : Int))) := by
              simp [symbolStep, hg, hu, hf, add]
            rw [this, ih]
            simp [pending, hu, hf]
        · have : m.symbolStep u last (built ss, some p) ir = (built ss, some p) := by
            simp [symbolStep, hg, hu]
          rw [this, ih]
          simp [pending, hu]

theorem indexed_map {α : Type} (rs : List Rune) (f : Nat → Int → α) :
    (indexed rs).map (fun ir => f ir.1 ir.2) = rs.mapIdx f := by
  unfold indexed
  apply List.ext_getElem?
  intro i
  simp only [List.getElem?_map, List.getElem?_mapIdx]
  cases rs[i]? <;> rfl

/-- The id of the unknown token, or 0 without one; `none` if it is configured but missing. -/
def unkID (m : BPE) : Option Int := if m.hasUnknownToken then m.vocab.getID m.unknownToken else some 0

theorem initialWord_eq (m : BPE) (s : Str) :
    m.initialWord s = match m.unkID with
      | none => .error .unkOutOfVocab
      | some u => .ok (built (pending m u none (m.lookups s))) := by
  have key : ∀ u, finish ((indexed (runesOf s)).foldl (m.symbolStep u ((runesOf s).length - 1)) ([], none))
      = built (pending m u none (m.lookups s)) := by
    intro u
    have := fold_symbolStep m u ((runesOf s).length - 1) (indexed (runesOf s)) [] none
    rw [indexed_map (runesOf s) (fun i r => (m.vocab.getID (m.lookupKey i ((runesOf s).length - 1) r),
      ((encodeRune r).length : Int)))] at this
    exact this
  have fin : ∀ st : Word × Option (Int × Int), (match st.2 with
      | some (uid, ulen) => st.1.add uid ulen
      | none => st.1) = finish st := by
    rintro ⟨w, _ | ⟨a, b⟩⟩ <;> rfl
  unfold initialWord unkID
  by_cases hu : m.hasUnknownToken
  · simp only [hu, if_true]
    cases hg : m.vocab.getID m.unknownToken with
    | none => rfl
    | some u => simp only; rw [← key u, ← fin]; rfl
  · simp only [hu, Bool.false_eq_true, if_false]
    rw [← key 0, ← fin]; rfl

theorem pending_fused (m : BPE) (u : Int) (hu : m.hasUnknownToken = true) (hf : m.unknownFusionEnabled = true)
    (cs : List (Option Int × Int)) :
    Fused u cs (pending m u none cs)
    ∧ ∀ run : List (Option Int × Int), run ≠ [] → (∀ c ∈ run, c.1 = none) →
        Fused u (run ++ cs) (pending m u (some (u, (run.map (·.2)).sum)) cs) := by
  induction cs with
  | nil =>
    refine ⟨.nil, fun run h1 h2 => ?_⟩
    exact .run h1 h2 (by simp) .nil
  | cons c cs ih =>
    obtain ⟨o, len⟩ := c
    cases o with
    | some id =>
      refine ⟨?_, fun run h1 h2 => ?_⟩
      · exact .known ih.1
      · exact .run h1 h2 (by simp) (.known ih.1)
    | none =>
      refine ⟨?_, fun run h1 h2 => ?_⟩
      · have := ih.2 [(none, len)] (by simp) (by simp)
        simpa [pending, hu] using this
      · have := ih.2 (run ++ [(none, len)]) (by simp) (by
          intro c hc
          rcases List.mem_append.1 hc with h | h
          · exact h2 c h
          · simp at h; rw [h])
        simpa [pending, hu, hf] using this

theorem pending_separate (m : BPE) (u : Int) (hu : m.hasUnknownToken = true) (hf : m.unknownFusionEnabled = false)
    (cs : List (Option Int × Int)) :
    pending m u none cs = separate u cs
    ∧ ∀ len, pending m u (some (u, len)) cs = (u, len) :: separate u cs := by
  induction cs with
  | nil => exact ⟨rfl, fun _ => rfl⟩
  | cons c cs ih =>
    obtain ⟨o, len⟩ := c
    cases o with
    | some id =>
      constructor
      · simp [pending, separate, ih.1]
      · intro len'; simp [pending, separate, ih.1]
    | none =>
      constructor
      · simp [pending, separate, hu, ih.2]
      · intro len'; simp [pending, separate, hu, hf, ih.2]

theorem pending_known (m : BPE) (u : Int) (hu : m.hasUnknownToken = false) (cs : List (Option Int × Int)) :
    pending m u none cs = knownOnly cs := by
  induction cs with
  | nil => rfl
  | cons c cs ih =>
    obtain ⟨o, len⟩ := c
    cases o with
    | some id => simp [pending, knownOnly, ih]
    | none => simp [pending, knownOnly, hu, ih]

theorem hasUnknownToken_iff (m : BPE) : m.hasUnknownToken = true ↔ m.unknownToken ≠ [] := by
  unfold hasUnknownToken
  simp

/-- **C46.** With an unknown token configured and in the vocabulary, the symbols before merging
are: with fusion, one symbol per known character and one unknown symbol per maximal run of
unknown characters, covering the run; without fusion, one symbol per character. -/
theorem C46_unknown (m : BPE) (s : Str) (u : Int) (hu : m.unknownToken ≠ [])
    (hv : m.vocab.getID m.unknownToken = some u) :
    ∃ ss, m.initialWord s = .ok (built ss)
      ∧ (m.unknownFusionEnabled = true → Fused u (m.lookups s) ss)
      ∧ (m.unknownFusionEnabled = false → ss = separate u (m.lookups s)) := by
  have hu' := (hasUnknownToken_iff m).2 hu
  refine ⟨pending m u none (m.lookups s), ?_, ?_, ?_⟩
  · rw [initialWord_eq]
    simp [unkID, hu', hv]
  · intro hf; exact (pending_fused m u hu' hf _).1
  · intro hf; exact (pending_separate m u hu' hf _).1

/-- **C46, without an unknown token.** Unknown characters are left out. -/
theorem C46_no_unknown (m : BPE) (s : Str) (hu : m.unknownToken = []) :
    m.initialWord s = .ok (built (knownOnly (m.lookups s))) := by
  have hu' : m.hasUnknownToken = false := by
    cases h : m.hasUnknownToken
    · rfl
    · exact absurd hu ((hasUnknownToken_iff m).1 h)
  rw [initialWord_eq]
  simp [unkID, hu', pending_known m 0 hu']

/-- The fused symbols are determined by the characters. -/
theorem Fused.unique {u : Int} {cs : List (Option Int × Int)} {ss ss' : List (Int × Int)}
    (h : Fused u cs ss) (h' : Fused u cs ss') : ss = ss' := by
  induction h generalizing ss' with
  | nil =>
    generalize e : ([] : List (Option Int × Int)) = cs at h'
    cases h' with
    | nil => rfl
    | known _ => simp at e
    | run h1 _ _ _ => simp at e; exact absurd e.1 h1
  | @known id len cs ss _ ih =>
    generalize e : (some id, len) :: cs = cs' at h'
    cases h' with
    | nil => simp at e
    | known h => simp at e; obtain ⟨⟨rfl, rfl⟩, rfl⟩ := e; rw [ih h]
    | @run run cs2 ss2 h1 h2 _ _ =>
      cases run with
      | nil => exact absurd rfl h1
      | cons c run =>
        simp at e
        have := h2 c (by simp)
        rw [← e.1] at this
        simp at this
  | @run run cs ss h1 h2 h3 _ ih =>
    generalize e : run ++ cs = cs' at h'
    cases h' with
    | nil => simp at e; exact absurd e.1 h1
    | known h =>
      cases run with
      | nil => exact absurd rfl h1
      | cons c run =>
        simp at e
        have := h2 c (by simp)
        rw [e.1] at this
        simp at this
    | @run run2 cs2 ss2 g1 g2 g3 g4 =>
      have : run = run2 ∧ cs = cs2 := by
        rw [List.append_eq_append_iff] at e
        rcases e with ⟨as, rfl, rfl⟩ | ⟨bs, rfl, rfl⟩
        · cases as with
          | nil => simp
          | cons a as => exact absurd (g2 a (by simp)) (h3 a (by simp))
        · cases bs with
          | nil => simp
          | cons b bs => exact absurd (h2 b (by simp)) (g3 b (by simp))
      obtain ⟨rfl, rfl⟩ := this
      rw [ih g4]

/-! ## Texts of the symbols -/

theorem all2_left_append {α β : Type} {R : α → β → Prop} : ∀ {as as' : List α} {bs : List β},
    All2 R (as ++ as') bs → ∃ b1 b2, bs = b1 ++ b2 ∧ All2 R as b1 ∧ All2 R as' b2 := by
  intro as
  induction as with
  | nil => intro as' bs h; exact ⟨[], bs, rfl, .nil, h⟩
  | cons a as ih =>
    intro as' bs h
    cases h with
    | cons h1 h2 =>
      obtain ⟨b1, b2, rfl, g1, g2⟩ := ih h2
      exact ⟨_ :: b1, b2, rfl, .cons h1 g1, g2⟩

/-- The symbol covers the text `x`, which is related to its id by `Q`. -/
def Holding (Q : Int → Str → Prop) (p : Int × Int) (x : Str) : Prop := p.2 = (x.length : Int) ∧ Q p.1 x

theorem star_texts {merges : MergeMap} {Q : Int → Str → Prop}
    (hQ : ∀ a b m x y, merges.get a b = some m → Q a x → Q b y → Q m.id (x ++ y))
    {l l' : List (Int × Int)} (h : Star (MergeOne merges) l l') {xs : List Str} (hl : All2 (Holding Q) l xs) :
    ∃ ys, All2 (Holding Q) l' ys ∧ ys.flatten = xs.flatten := by
  induction h with
  | refl => exact ⟨xs, hl, rfl⟩
  | step _ hs ih =>
    obtain ⟨ys, h1, h2⟩ := ih
    cases hs with
    | mk A B a b m hm =>
      obtain ⟨y1, y2, rfl, g1, g2⟩ := all2_left_append h1
      cases g2 with
      | cons ga g2 =>
        rename_i xa y2
        cases g2 with
        | cons gb g2 =>
          rename_i xb y2
          refine ⟨y1 ++ (xa ++ xb) :: y2, g1.append (.cons ⟨?_, hQ _ _ _ _ _ hm ga.2 gb.2⟩ g2), ?_⟩
          · have h1 := ga.1
            have h2 := gb.1
            simp only [List.length_append]
            push_cast
            omega
          · rw [← h2]; simp

theorem holding_sum {Q : Int → Str → Prop} {l : List (Int × Int)} {xs : List Str} (h : All2 (Holding Q) l xs) :
    (l.map (·.2)).sum = (xs.flatten.length : Int) := by
  induction h with
  | nil => rfl
  | cons h1 _ ih =>
    simp only [List.map_cons, List.sum_cons, List.flatten_cons, List.length_append]
    rw [ih, h1.1]
    push_cast
    rfl

/-! ## From symbols to tokens -/

theorem wordToTokens_spec {v : Vocab} {w : Word} {a : Int} {ts : List Token} (h : wordToTokens v w a = .ok ts)
    (hp : Positive (visible w)) : TokenTiles v a ts (a + ((visible w).map (·.2)).sum) := by
  induction w generalizing a ts with
  | nil => simp [wordToTokens] at h; subst h; simp [TokenTiles, visible]
  | cons s w ih =>
    unfold wordToTokens at h
    cases hg : v.getString s.id with
    | none => simp [hg] at h
    | some value =>
      simp only [hg] at h
      cases hr : wordToTokens v w (a + s.length) with
      | error e => simp [hr] at h
      | ok ts' =>
        simp only [hr] at h
        injection h with h
        subst h
        have hs := hp (s.id, s.length) (by simp [visible])
        simp only at hs
        have := ih hr (fun p hm => hp p (by simp only [visible, List.map_cons]; exact List.mem_cons_of_mem _ hm))
        refine ⟨rfl, by simp only; omega, hg, ?_⟩
        simp only [visible, List.map_cons, List.sum_cons] at this ⊢
        rw [← Int.add_assoc]
        exact this

/-- The tokens show the symbols. -/
theorem wordToTokens_visible {v : Vocab} {w : Word} {a : Int} {ts : List Token} (h : wordToTokens v w a = .ok ts) :
    ts.map (fun t => (t.id, t.offsets.stop - t.offsets.start)) = visible w := by
  induction w generalizing a ts with
  | nil => simp [wordToTokens] at h; subst h; simp [visible]
  | cons s w ih =>
    unfold wordToTokens at h
    cases hg : v.getString s.id with
    | none => simp [hg] at h
    | some value =>
      simp only [hg] at h
      cases hr : wordToTokens v w (a + s.length) with
      | error e => simp [hr] at h
      | ok ts' =>
        simp only [hr] at h
        injection h with h
        subst h
        have := ih hr
        simp only [visible, List.map_cons] at this ⊢
        rw [this]
        congr 2
        omega

/-- The only error is an id that is not in the vocabulary. -/
theorem wordToTokens_outcome (v : Vocab) (w : Word) (a : Int) :
    (∃ ts, wordToTokens v w a = .ok ts)
    ∨ ∃ s ∈ w, v.getString s.id = none ∧ wordToTokens v w a = .error (.idNotFound s.id) := by
  induction w generalizing a with
  | nil => exact .inl ⟨[], rfl⟩
  | cons s w ih =>
    unfold wordToTokens
    cases hg : v.getString s.id with
    | none => exact .inr ⟨s, by simp, hg, rfl⟩
    | some value =>
      rcases ih (a + s.length) with ⟨ts, h⟩ | ⟨s', h1, h2, h3⟩
      · simp only [h]; exact .inl ⟨_, rfl⟩
      · simp only [h3]; exact .inr ⟨s', by simp [h1], h2, rfl⟩

/-- Each token's offsets cut its text out of the sequence. -/
theorem wordToTokens_texts {Q : Int → Str → Prop} {v : Vocab} (w : Word) (ts : List Token) (pre : Str) (ys : List Str)
    (h : wordToTokens v w pre.length = .ok ts) (hl : All2 (Holding Q) (visible w) ys) :
    All2 (fun t y => goSlice (pre ++ ys.flatten) t.offsets.start t.offsets.stop = .ok y ∧ Q t.id y
      ∧ v.getString t.id = some t.value) ts ys := by
  induction w generalizing pre ts ys with
  | nil =>
    simp [wordToTokens] at h; subst h
    simp only [visible, List.map_nil] at hl
    cases hl
    exact .nil
  | cons s w ih =>
    unfold wordToTokens at h
    cases hg : v.getString s.id with
    | none => simp [hg] at h
    | some value =>
      simp only [hg] at h
      simp only [visible, List.map_cons] at hl
      generalize e : w.map (fun s => (s.id, s.length)) = vw at hl
      cases hl with
      | cons h1 h2 =>
        rename_i y ys
        subst e
        have hy : s.length = (y.length : Int) := h1.1
        cases hr : wordToTokens v w (pre.length + s.length) with
        | error e => simp [hr] at h
        | ok ts' =>
          simp only [hr] at h
          injection h with h
          subst h
          refine .cons ⟨?_, h1.2, hg⟩ ?_
          · have := goSlice_mid pre y ys.flatten (a := pre.length) (b := pre.length + s.length) rfl (by omega)
            simpa using this
          · have := ih ts' (pre ++ y) ys (by rw [← hr]; congr 1; simp; omega) h2
            simpa using this

/-! ## What `Tokenize` does -/

theorem pending_positive (m : BPE) (u : Int) (cs : List (Option Int × Int)) (hc : ∀ c ∈ cs, 0 < c.2)
    (p : Option (Int × Int)) (hp : ∀ q, p = some q → 0 < q.2) : Positive (pending m u p cs) := by
  induction cs generalizing p with
  | nil =>
    intro q hq
    cases p with
    | none => simp [pending] at hq
    | some p => simp [pending] at hq; subst hq; exact hp q rfl
  | cons c cs ih =>
    obtain ⟨o, len⟩ := c
    have hlen := hc (o, len) (by simp)
    simp only at hlen
    have hc' : ∀ c ∈ cs, 0 < c.2 := fun c h => hc c (by simp [h])
    cases o with
    | some id =>
      intro q hq
      simp only [pending, List.mem_append, List.mem_cons] at hq
      rcases hq with hq | rfl | hq
      · cases p with
        | none => simp at hq
        | some p => simp at hq; subst hq; exact hp q rfl
      · exact hlen
      · exact ih hc' none (by simp) q hq
    | none =>
      cases p with
      | none =>
        simp only [pending]
        split
        · exact ih hc' _ (by simp; exact hlen)
        · exact ih hc' _ (by simp)
      | some p =>
        have hp' := hp p rfl
        simp only [pending]
        split
        · split
          · exact ih hc' _ (by simp; omega)
          · intro q hq
            rcases List.mem_cons.1 hq with rfl | hq
            · exact hp'
            · exact ih hc' _ (by simp; exact hlen) q hq
        · exact ih hc' _ hp

theorem lookups_positive (m : BPE) (s : Str) : ∀ c ∈ m.lookups s, 0 < c.2 := by
  intro c hc
  unfold lookups at hc
  rw [List.mem_mapIdx] at hc
  obtain ⟨i, h, rfl⟩ := hc
  have := encodeRune_length_pos (runesOf s)[i]
  simp only
  omega

/-- `Tokenize` merges the initial symbols and turns the result into tokens. -/
theorem tokenize_eq (m : BPE) (rnd : Nat → Bool) (s : Str) (hs : s ≠ []) :
    (m.unkID = none ∧ m.tokenize rnd s = .ok (.error .unkOutOfVocab))
    ∨ ∃ u ss w', m.unkID = some u ∧ ss = pending m u none (m.lookups s) ∧ Positive ss
        ∧ (built ss).mergeAll m.merges m.hasDropout rnd = .ok (some w')
        ∧ m.mergeWord rnd s = .ok (.ok (some w'))
        ∧ m.tokenize rnd s = .ok ((wordToTokens m.vocab w' 0).map some) := by
  have hs' : s.length ≠ 0 := fun h => hs (List.length_eq_zero_iff.1 h)
  have hi := initialWord_eq m s
  cases hu : m.unkID with
  | none =>
    left
    rw [hu] at hi
    simp only at hi
    refine ⟨rfl, ?_⟩
    cases hd : m.hasDropout <;>
      simp [tokenize, tokenizeWith, tokenizeWithCache, tokenizeWord, mergeWord, hi, hs', hd, goCache, WordCache.get]
  | some u =>
    right
    rw [hu] at hi
    simp only at hi
    have hp := pending_positive m u (m.lookups s) (lookups_positive m s) none (by simp)
    obtain ⟨w', hw⟩ := C38_terminates m.merges m.hasDropout rnd _ hp
    have hm : m.mergeWord rnd s = .ok (.ok (some w')) := by
      simp [mergeWord, hi, hw]
    refine ⟨u, _, w', rfl, rfl, hp, hw, hm, ?_⟩
    cases ht : wordToTokens m.vocab w' 0 <;> cases hd : m.hasDropout <;>
      simp [tokenize, tokenizeWith, tokenizeWithCache, tokenizeWord, hm, hs', hd, goCache, WordCache.get, ht, Except.map]

/-- **C44, outcomes.** `Tokenize` never panics and always ends: it returns tokens, or the error
that the configured unknown token is not in the vocabulary, or the error that the id of some
symbol is not. -/
theorem C44_outcomes (m : BPE) (rnd : Nat → Bool) (s : Str) :
    (∃ ts, m.tokenize rnd s = .ok (.ok (some ts)))
    ∨ (m.unknownToken ≠ [] ∧ m.vocab.getID m.unknownToken = none ∧ m.tokenize rnd s = .ok (.error .unkOutOfVocab))
    ∨ (∃ id, m.vocab.getString id = none ∧ m.tokenize rnd s = .ok (.error (.idNotFound id))) := by
  by_cases hs : s = []
  · subst hs; exact .inl ⟨[], rfl⟩
  · rcases tokenize_eq m rnd s hs with ⟨h1, h2⟩ | ⟨u, ss, w', -, -, -, -, -, h⟩
    · right; left
      unfold unkID at h1
      by_cases hu : m.hasUnknownToken
      · rw [if_pos hu] at h1
        exact ⟨(hasUnknownToken_iff m).1 hu, h1, h2⟩
      · rw [if_neg hu] at h1; simp at h1
    · rcases wordToTokens_outcome m.vocab w' 0 with ⟨ts, ht⟩ | ⟨x, -, h2, h3⟩
      · left; exact ⟨ts, by rw [h, ht]; rfl⟩
      · right; right; exact ⟨x.id, h2, by rw [h, h3]; rfl⟩

/-- Texts of the initial symbols, when each character gets a symbol. -/
theorem pending_texts (m : BPE) (u : Int) (Q : Int → Str → Prop)
    (cs : List (Option Int × Int)) (xs : List Str)
    (h : All2 (fun c x => c.2 = ((x : Str).length : Int) ∧ (∀ id, c.1 = some id → Q id x)
      ∧ (c.1 = none → m.hasUnknownToken = true ∧ Q u x ∧ ∀ y, Q u y → Q u (y ++ x))) cs xs) :
    (∃ ys, All2 (Holding Q) (pending m u none cs) ys ∧ ys.flatten = xs.flatten)
    ∧ ∀ len x, Holding Q (u, len) x →
        ∃ ys, All2 (Holding Q) (pending m u (some (u, len)) cs) ys ∧ ys.flatten = x ++ xs.flatten := by
  induction h with
  | nil => exact ⟨⟨[], .nil, rfl⟩, fun len x hx => ⟨[x], .cons hx .nil, by simp⟩⟩
  | @cons c x cs xs hc _ ih =>
    obtain ⟨o, len⟩ := c
    obtain ⟨h1, h2, h3⟩ := hc
    simp only at h1 h2 h3
    obtain ⟨⟨ys, i1, i2⟩, ih2⟩ := ih
    cases o with
    | some id =>
      refine ⟨⟨x :: ys, .cons ⟨h1, h2 id rfl⟩ i1, by simp [i2]⟩, ?_⟩
      intro len' x' hx'
      exact ⟨x' :: x :: ys, .cons hx' (.cons ⟨h1, h2 id rfl⟩ i1), by simp [i2]⟩
    | none =>
      obtain ⟨hu, hq, happ⟩ := h3 rfl
      constructor
      · obtain ⟨zs, j1, j2⟩ := ih2 len x ⟨h1, hq⟩
        exact ⟨zs, by simpa [pending, hu] using j1, by simp [j2]⟩
      · intro len' x' hx'
        cases hf : m.unknownFusionEnabled with
        | true =>
          obtain ⟨zs, j1, j2⟩ := ih2 (len' + len) (x' ++ x) ⟨by have := hx'.1; simp at this ⊢; omega, happ _ hx'.2⟩
          exact ⟨zs, by simpa [pending, hu, hf] using j1, by simp [j2]⟩
        | false =>
          obtain ⟨zs, j1, j2⟩ := ih2 len x ⟨h1, hq⟩
          exact ⟨x' :: zs, by simpa [pending, hu, hf] using All2.cons hx' j1, by simp [j2]⟩

theorem all2_mapIdx {α β γ : Type} (R : β → γ → Prop) (l : List α) (f : Nat → α → β) (g : α → γ)
    (h : ∀ i (hi : i < l.length), R (f i l[i]) (g l[i])) : All2 R (l.mapIdx f) (l.map g) := by
  induction l generalizing f with
  | nil => exact .nil
  | cons a l ih =>
    rw [List.mapIdx_cons, List.map_cons]
    refine .cons (h 0 (by simp)) (ih _ ?_)
    intro i hi
    exact h (i + 1) (by simp; omega)

theorem flatten_runes (s : Str) (hv : ValidUtf8 s) : ((runesOf s).map encodeRune).flatten = s := by
  have := hv.runes
  rw [encodeRunes, List.flatMap_def] at this
  exact this

/-- What the tokens cover: if `Q` relates ids to texts, for single characters, for the unknown
token and through merges, then each token's id is related to the text at its offsets. -/
theorem tokenize_texts (m : BPE) (rnd : Nat → Bool) (s : Str) (hv : ValidUtf8 s) (hc : m.Covered s)
    (Q : Int → Str → Prop)
    (hQ : ∀ a b v x y, m.merges.get a b = some v → Q a x → Q b y → Q v.id (x ++ y))
    (hchar : ∀ i r id, r ∈ runesOf s → m.vocab.getID (m.lookupKey i ((runesOf s).length - 1) r) = some id →
      Q id (encodeRune r))
    (hunk : ∀ u r, m.unkID = some u → r ∈ runesOf s → (∃ c ∈ m.lookups s, c.1 = none) →
      Q u (encodeRune r) ∧ ∀ y, Q u y → Q u (y ++ encodeRune r))
    {ts : List Token} (h : m.tokenize rnd s = .ok (.ok (some ts))) :
    TokenTiles m.vocab 0 ts s.length
    ∧ ∃ ys, ys.flatten = s ∧ All2 (fun t y => goSlice s t.offsets.start t.offsets.stop = .ok y ∧ Q t.id y
      ∧ m.vocab.getString t.id = some t.value) ts ys := by
  by_cases hs : s = []
  · subst hs
    have : ts = [] := by
      have h' : m.tokenize rnd [] = .ok (.ok (some [])) := rfl
      rw [h'] at h; simpa using h
    subst this
    exact ⟨rfl, [], rfl, .nil⟩
  · rcases tokenize_eq m rnd s hs with ⟨-, h2⟩ | ⟨u, ss, w', hu, hss, hp, hw, -, ht⟩
    · rw [h] at h2; simp at h2
    · have htok : wordToTokens m.vocab w' 0 = .ok ts := by
        rw [h] at ht
        cases hx : wordToTokens m.vocab w' 0 with
        | error e => rw [hx] at ht; simp [Except.map] at ht
        | ok ts' => rw [hx] at ht; simp [Except.map] at ht; rw [ht]
      obtain ⟨hstar, hsum, hpos⟩ := C39_table_merges m.merges m.hasDropout rnd ss hp hw
      have hinit := (pending_texts m u Q (m.lookups s) ((runesOf s).map encodeRune) (by
        unfold lookups
        apply all2_mapIdx
        intro i hi
        refine ⟨rfl, ?_, ?_⟩
        · intro id hid
          exact hchar i _ id (List.getElem_mem hi) hid
        · intro hn
          have hex : ∃ c ∈ m.lookups s, c.1 = none :=
            ⟨_, List.mem_mapIdx.2 ⟨i, hi, rfl⟩, hn⟩
          refine ⟨?_, hunk u _ hu (List.getElem_mem hi) hex⟩
          rcases hc with hc | hc
          · exact (hasUnknownToken_iff m).2 hc
          · obtain ⟨c, h1, h2⟩ := hex
            exact absurd h2 (hc c h1))).1
      obtain ⟨xs, hx1, hx2⟩ := hinit
      rw [flatten_runes s hv] at hx2
      rw [← hss] at hx1
      obtain ⟨ys, hy1, hy2⟩ := star_texts hQ hstar hx1
      rw [hx2] at hy2
      have htile := wordToTokens_spec htok hpos
      rw [holding_sum hy1, hy2, Int.zero_add] at htile
      refine ⟨htile, ys, hy2, ?_⟩
      have := wordToTokens_texts w' ts [] ys htok hy1
      rw [hy2] at this
      exact this

/-- **C44.** For every model and valid UTF-8 sequence in which every character gets a symbol, and
every dropout outcome, a successful `Tokenize` returns tokens with contiguous non-empty offsets
from 0 to the length of the sequence, each with the vocabulary's value for its id. -/
theorem C44_tiles (m : BPE) (rnd : Nat → Bool) (s : Str) (hv : ValidUtf8 s) (hc : m.Covered s)
    {ts : List Token} (h : m.tokenize rnd s = .ok (.ok (some ts))) : TokenTiles m.vocab 0 ts s.length :=
  (tokenize_texts m rnd s hv hc (fun _ _ => True) (fun _ _ _ _ _ _ _ _ => trivial) (fun _ _ _ _ _ => trivial)
    (fun _ _ _ _ _ => ⟨trivial, fun _ _ => trivial⟩) h).1

/-- **C44, success.** If the vocabulary knows the term of every id it hands out and of every id in
the merge table, and the configured unknown token is in it, `Tokenize` succeeds. -/
theorem C44_success (m : BPE) (rnd : Nat → Bool) (s : Str)
    (hv : ∀ t i, m.vocab.getID t = some i → m.vocab.getString i ≠ none)
    (hm : ∀ a b v, m.merges.get a b = some v → m.vocab.getString v.id ≠ none)
    (hu : m.unknownToken ≠ [] → m.vocab.getID m.unknownToken ≠ none) :
    ∃ ts, m.tokenize rnd s = .ok (.ok (some ts)) := by
  by_cases hs : s = []
  · subst hs; exact ⟨[], rfl⟩
  · rcases tokenize_eq m rnd s hs with ⟨h1, -⟩ | ⟨u, ss, w', hui, hss, hp, hw, -, ht⟩
    · unfold unkID at h1
      by_cases h : m.hasUnknownToken
      · rw [if_pos h] at h1
        exact absurd h1 (hu ((hasUnknownToken_iff m).1 h))
      · rw [if_neg h] at h1; simp at h1
    · have hstar := (C39_table_merges m.merges m.hasDropout rnd ss hp hw).1
      have good : ∀ l : List (Int × Int), Star (MergeOne m.merges) ss l → ∀ p ∈ l, m.vocab.getString p.1 ≠ none := by
        intro l hl
        induction hl with
        | refl =>
          rw [hss]
          have : ∀ (cs : List (Option Int × Int)) (p : Option (Int × Int)),
              (∀ c ∈ cs, ∀ id, c.1 = some id → m.vocab.getString id ≠ none) →
              (∀ q, p = some q → m.vocab.getString q.1 ≠ none) →
              ∀ q ∈ pending m u p cs, m.vocab.getString q.1 ≠ none := by
            have huk : m.hasUnknownToken = true → m.vocab.getString u ≠ none := by
              intro h
              unfold unkID at hui
              rw [if_pos h] at hui
              exact hv _ _ hui
            intro cs
            induction cs with
            | nil =>
              intro p _ hp' q hq
              cases p with
              | none => simp [pending] at hq
              | some p => simp [pending] at hq; subst hq; exact hp' q rfl
            | cons c cs ih =>
              obtain ⟨o, len⟩ := c
              intro p hcs hp'
              have hcs' : ∀ c ∈ cs, ∀ id, c.1 = some id → m.vocab.getString id ≠ none :=
                fun c h => hcs c (by simp [h])
              cases o with
              | some id =>
                intro q hq
                simp only [pending, List.mem_append, List.mem_cons] at hq
                rcases hq with hq | rfl | hq
                · cases p with
                  | none => simp at hq
                  | some p => simp at hq; subst hq; exact hp' q rfl
                · exact hcs (some id, len) (by simp) id rfl
                · exact ih none hcs' (by simp) q hq
              | none =>
                cases p with
                | none =>
                  simp only [pending]
                  split
                  · rename_i h; exact ih _ hcs' (by simp; exact huk h)
                  · exact ih _ hcs' (by simp)
                | some p =>
                  have hp0 := hp' p rfl
                  simp only [pending]
                  split
                  · rename_i h
                    split
                    · exact ih _ hcs' (by simp; exact hp0)
                    · intro q hq
                      rcases List.mem_cons.1 hq with rfl | hq
                      · exact hp0
                      · exact ih _ hcs' (by simp; exact huk h) q hq
                  · exact ih _ hcs' hp'
          apply this _ none ?_ (by simp)
          intro c hc id hid
          unfold lookups at hc
          rw [List.mem_mapIdx] at hc
          obtain ⟨i, hi, rfl⟩ := hc
          exact hv _ _ hid
        | step _ hs ih =>
          cases hs with
          | mk A B a b v hmv =>
            intro p hp'
            simp only [List.mem_append, List.mem_cons] at hp'
            rcases hp' with h | rfl | h
            · exact ih p (by simp [h])
            · exact hm _ _ _ hmv
            · exact ih p (by simp [h])
      rcases wordToTokens_outcome m.vocab w' 0 with ⟨ts, h⟩ | ⟨x, h1, h2, -⟩
      · exact ⟨ts, by rw [ht, h]; rfl⟩
      · exact absurd h2 (good _ hstar (x.id, x.length) (List.mem_map.2 ⟨x, h1, rfl⟩))

/-- Each merge of the table spells the concatenation of its parts. -/
def Spells (v : Vocab) (merges : MergeMap) : Prop :=
  ∀ a b m x y, merges.get a b = some m → v.getString a = some x → v.getString b = some y →
    v.getString m.id = some (x ++ y)

/-- **C45.** With no affixes, every character in the vocabulary, ids that stand for their terms
and a table in which each merge spells its parts, every token's value is the text at its
offsets. -/
theorem C45_values (m : BPE) (rnd : Nat → Bool) (s : Str) (hs : ValidUtf8 s)
    (hp : m.continuingSubwordPrefix = []) (he : m.endOfWordSuffix = [])
    (hall : ∀ r ∈ runesOf s, m.vocab.getID (encodeRune r) ≠ none)
    (hv : ∀ t i, m.vocab.getID t = some i → m.vocab.getString i = some t)
    (hm : Spells m.vocab m.merges)
    {ts : List Token} (h : m.tokenize rnd s = .ok (.ok (some ts))) :
    ∀ t ∈ ts, goSlice s t.offsets.start t.offsets.stop = .ok t.value := by
  have hkey : ∀ i last r, m.lookupKey i last r = encodeRune r := by
    intro i last r
    simp [lookupKey, hasContinuingSubwordPrefix, hasEndOfWordSuffix, hp, he]
  have hfound : ∀ c ∈ m.lookups s, c.1 ≠ none := by
    intro c hc
    unfold lookups at hc
    rw [List.mem_mapIdx] at hc
    obtain ⟨i, hi, rfl⟩ := hc
    simp only [hkey]
    exact hall _ (List.getElem_mem hi)
  obtain ⟨-, ys, -, hall2⟩ := tokenize_texts m rnd s hs (.inr hfound) (fun id x => m.vocab.getString id = some x)
    (fun a b v x y h1 h2 h3 => hm a b v x y h1 h2 h3)
    (fun i r id _ hid => by rw [hkey] at hid; exact hv _ _ hid)
    (fun u r _ _ ⟨c, h1, h2⟩ => absurd h2 (hfound c h1)) h
  clear h hall hfound
  induction hall2 with
  | nil => simp
  | cons h1 _ ih =>
    intro t ht
    rcases List.mem_cons.1 ht with rfl | ht
    · obtain ⟨g1, g2, g3⟩ := h1
      rw [g2] at g3; simp at g3; rw [g1, g3]
    · exact ih t ht

/-- **C45, from files.** A table read from a merges file without a prefix spells its parts, on
a one-to-one vocabulary. -/
theorem C45_file (content : Str) (v : Vocab) (hv : v.Inverse) {merges : MergeMap}
    (h : mergeMapFromFile content v 0 = .ok (.ok merges)) : Spells v merges := by
  rcases C51_read_partial content v 0 (fun _ _ => by omega) with ⟨m, ps, h1, h2, -, h3⟩ | ⟨_, _, _, _, _, h1, -⟩ | ⟨_, h1, -⟩
  · simp only [Int.natCast_zero] at h1
    rw [h] at h1
    simp at h1; subst h1
    intro a b m x y hm ha hb
    obtain ⟨i, hl, -⟩ := (h3 a b m).1 hm
    obtain ⟨line, t0, t1, -, -, g0, g1, g2⟩ := readsTo_mem h2 (List.mem_of_getElem? hl.1)
    rw [(hv _ _).1 g0] at ha
    rw [(hv _ _).1 g1] at hb
    simp at ha hb
    subst ha; subst hb
    simpa using (hv _ _).1 g2
  · simp only [Int.natCast_zero] at h1
    rw [h] at h1
    simp at h1
  · simp only [Int.natCast_zero] at h1
    rw [h] at h1
    simp at h1

/-- **C56.** Every token covers whole characters: the text at its offsets is valid UTF-8. -/
theorem C56_whole_characters (m : BPE) (rnd : Nat → Bool) (s : Str) (hv : ValidUtf8 s) (hc : m.Covered s)
    {ts : List Token} (h : m.tokenize rnd s = .ok (.ok (some ts))) :
    ∀ t ∈ ts, ∃ y, goSlice s t.offsets.start t.offsets.stop = .ok y ∧ y ≠ [] ∧ ValidUtf8 y := by
  have valid : ∀ r, ValidUtf8 (encodeRune r) := by
    intro r
    have := validUtf8_encodeRunes [r]
    simpa using this
  obtain ⟨-, ys, -, hall2⟩ := tokenize_texts m rnd s hv hc (fun _ x => x ≠ [] ∧ ValidUtf8 x)
    (fun a b v x y _ h2 h3 => ⟨by simp [h2.1], h2.2.append h3.2⟩)
    (fun i r id _ _ => ⟨encodeRune_ne_nil r, valid r⟩)
    (fun u r _ _ _ => ⟨⟨encodeRune_ne_nil r, valid r⟩, fun y hy => ⟨by simp [hy.1], hy.2.append (valid r)⟩⟩) h
  clear h hc
  induction hall2 with
  | nil => simp
  | cons h1 _ ih =>
    intro t ht
    rcases List.mem_cons.1 ht with rfl | ht
    · exact ⟨_, h1.1, h1.2.1⟩
    · exact ih t ht

/-- **C57.** Without dropout, on a table whose merged ids identify the merged text, the ids and
lengths of the tokens are the result of the canonical strategy on the initial symbols. -/
theorem C57_canonical (m : BPE) (rnd : Nat → Bool) (s : Str) (hs : s ≠ []) (hd : m.hasDropout = false)
    (ha : Additive m.merges) {ts : List Token} (h : m.tokenize rnd s = .ok (.ok (some ts))) :
    ∃ ss, m.initialWord s = .ok (built ss)
      ∧ Star (CanonStep m.merges) ss (ts.map fun t => (t.id, t.offsets.stop - t.offsets.start))
      ∧ NoPair m.merges (ts.map fun t => (t.id, t.offsets.stop - t.offsets.start)) := by
  rcases tokenize_eq m rnd s hs with ⟨-, h2⟩ | ⟨u, ss, w', hu, hss, hp, hw, -, ht⟩
  · rw [h] at h2; simp at h2
  · have htok : wordToTokens m.vocab w' 0 = .ok ts := by
      rw [h] at ht
      cases hx : wordToTokens m.vocab w' 0 with
      | error e => rw [hx] at ht; simp [Except.map] at ht
      | ok ts' => rw [hx] at ht; simp [Except.map] at ht; rw [ht]
    rw [hd] at hw
    refine ⟨ss, ?_, ?_⟩
    · rw [initialWord_eq, hu, hss]
    · rw [wordToTokens_visible htok]
      exact C40_canonical m.merges ha rnd ss hp hw

/-- **C57, the empty sequence** has no tokens, whatever the model. -/
theorem C57_empty (m : BPE) (rnd : Nat → Bool) : m.tokenize rnd [] = .ok (.ok (some [])) := rfl

/-! ## Affixes -/

/-- **C47 (partial).** Without a continuing-subword prefix the code looks up what it should,
including the end-of-word suffix. -/
theorem C47_lookup_partial (m : BPE) (hp : m.continuingSubwordPrefix = []) (i last : Nat) (r : Rune) :
    m.lookupKey i last r = m.expectedKey i last r := by
  unfold lookupKey expectedKey hasContinuingSubwordPrefix hasEndOfWordSuffix
  by_cases hl : i = last <;> by_cases he : m.endOfWordSuffix = [] <;> simp [hp, hl, he]

/-- **C47, what the code does.** The prefix goes to the first character and not to the others. -/
theorem C47_actual (m : BPE) (i last : Nat) (r : Rune) :
    m.lookupKey i last r = (if i = 0 then m.continuingSubwordPrefix else []) ++ encodeRune r
      ++ (if i = last then m.endOfWordSuffix else []) := by
  unfold lookupKey hasContinuingSubwordPrefix hasEndOfWordSuffix
  by_cases h0 : i = 0 <;> by_cases hp : m.continuingSubwordPrefix = [] <;> by_cases hl : i = last <;>
    by_cases he : m.endOfWordSuffix = [] <;> simp_all

/-- **C47, counterexample.** With any prefix the lookup is wrong for every character. -/
theorem C47_wrong (m : BPE) (hp : m.continuingSubwordPrefix ≠ []) (i last : Nat) (r : Rune) :
    m.lookupKey i last r ≠ m.expectedKey i last r := by
  rw [C47_actual, expectedKey]
  intro h
  have := congrArg List.length h
  have hpos := List.length_pos_iff.2 hp
  by_cases h0 : i = 0
  · subst h0
    simp at this
    exact hp this
  · have : 0 < i := by omega
    simp_all

/-- **C47, counterexample.** A model that knows `a` and `##b` does not tokenize "ab"; it does
tokenize it if the vocabulary has the affixes the wrong way round. -/
theorem C47_counterexample :
    let v := Vocab.fromJSON (some [(b!"a", 0), (b!"##b", 1)]) [(b!"a", 0), (b!"##b", 1)]
    let v' := Vocab.fromJSON (some [(b!"##a", 0), (b!"b", 1)]) [(b!"##a", 0), (b!"b", 1)]
    (BPE.mk v [] ⟨0⟩ false [] b!"##" [] false).tokenize (fun _ => false) b!"ab" = .ok (.ok (some []))
    ∧ (BPE.mk v' [] ⟨0⟩ false [] b!"##" [] false).tokenize (fun _ => false) b!"ab"
      = .ok (.ok (some [⟨0, b!"##a", ⟨0, 1⟩⟩, ⟨1, b!"b", ⟨1, 2⟩⟩])) := by
  decide +kernel

/-! ## History -/

theorem mergeStep_rnd (merges : MergeMap) (rnd rnd' : Nat → Bool) (st : Word.MState) :
    Word.mergeStep merges false rnd st = Word.mergeStep merges false rnd' st := by
  simp [Word.mergeStep]

theorem mergeLoop_rnd (merges : MergeMap) (rnd rnd' : Nat → Bool) (fuel : Nat) (st : Word.MState) :
    Word.mergeLoop merges false rnd fuel st = Word.mergeLoop merges false rnd' fuel st := by
  induction fuel generalizing st with
  | zero => unfold Word.mergeLoop; rfl
  | succ fuel ih =>
    unfold Word.mergeLoop
    rw [mergeStep_rnd merges rnd rnd']
    split
    · rfl
    · cases Word.mergeStep merges false rnd' st with
      | panic => rfl
      | ok st' => exact ih st'

theorem mergeWord_rnd (m : BPE) (hd : m.hasDropout = false) (rnd rnd' : Nat → Bool) (s : Str) :
    m.mergeWord rnd s = m.mergeWord rnd' s := by
  unfold mergeWord
  cases m.initialWord s with
  | error e => rfl
  | ok w =>
    simp only [hd, Word.mergeAll, Word.mergeAllFuel]
    rw [mergeLoop_rnd m.merges rnd rnd']

/-- A cache only returns what was put in for the same key; it may forget. -/
def Lawful {σ : Type} (ops : CacheOps σ) : Prop :=
  ∀ c k w k' w', ops.get (ops.set c k w) k' = some w' → (k' = k ∧ w' = w) ∨ ops.get c k' = some w'

/-- States of the cache after any sequence of `Tokenize` calls. -/
inductive History {σ : Type} (ops : CacheOps σ) (m : BPE) (c0 : σ) : σ → Prop
  | init : History ops m c0 c0
  | call {c c' : σ} (rnd : Nat → Bool) (s : Str) (r : Except Err (Option (List Token))) : History ops m c0 c →
      m.tokenizeWith ops rnd c s = .ok (r, c') → History ops m c0 c'

theorem history_inv {σ : Type} {ops : CacheOps σ} {m : BPE} {c0 c : σ} (hl : Lawful ops)
    (h0 : ∀ k, ops.get c0 k = none) (hd : m.hasDropout = false) (h : History ops m c0 c) :
    ∀ k w, ops.get c k = some w → ∀ rnd, m.mergeWord rnd k = .ok (.ok (some w)) := by
  induction h with
  | init => intro k w hw; rw [h0] at hw; simp at hw
  | @call c c' rnd s r _ ht ih =>
    unfold tokenizeWith at ht
    by_cases hs : s.length = 0
    · rw [if_pos hs] at ht
      injection ht with ht
      injection ht with _ ht
      subst ht
      exact ih
    · rw [if_neg hs] at ht
      simp only [hd, Bool.not_false, if_true] at ht
      unfold tokenizeWithCache at ht
      cases hg : ops.get c s with
      | some hit =>
        simp only [hg] at ht
        injection ht with ht
        injection ht with _ ht
        subst ht
        exact ih
      | none =>
        simp only [hg, tokenizeWord] at ht
        cases hm : m.mergeWord rnd s with
        | panic => simp [hm] at ht
        | ok x =>
          cases x with
          | error e =>
            simp [hm] at ht
            rw [← ht.2]; exact ih
          | ok o =>
            cases o with
            | none =>
              simp [hm] at ht
              rw [← ht.2]; exact ih
            | some w0 =>
              cases hw : wordToTokens m.vocab w0 0 with
              | error e =>
                simp [hm, hw] at ht
                rw [← ht.2]; exact ih
              | ok ts =>
                simp [hm, hw] at ht
                rw [← ht.2]
                intro k w hk rnd'
                rcases hl _ _ _ _ _ hk with ⟨rfl, rfl⟩ | hk
                · rw [mergeWord_rnd m hd rnd' rnd]; exact hm
                · exact ih k w hk rnd'

/-- **C48.** Without dropout, the result of `Tokenize` is a function of the model and the
sequence only: with any lawful cache, after any earlier calls and for any random outcomes, it
is the result of a first call. -/
theorem C48_any_cache {σ : Type} (ops : CacheOps σ) (hl : Lawful ops) (m : BPE) (hd : m.hasDropout = false)
    (c0 c : σ) (h0 : ∀ k, ops.get c0 k = none) (h : History ops m c0 c) (rnd rnd' : Nat → Bool) (s : Str) :
    ∃ c', m.tokenizeWith ops rnd c s >>= (fun x => pure x.1) = m.tokenize rnd' s
      ∧ ∃ r, m.tokenizeWith ops rnd c s = .ok (r, c') := by
  by_cases hs : s = []
  · subst hs; exact ⟨c, rfl, _, rfl⟩
  · have hs' : s.length ≠ 0 := fun h => hs (List.length_eq_zero_iff.1 h)
    have hinv := history_inv hl h0 hd h
    have hu : m.tokenizeWith ops rnd c s = m.tokenizeWithCache ops rnd c s := by
      simp [tokenizeWith, hs', hd]
    rw [hu]
    unfold tokenizeWithCache
    rcases tokenize_eq m rnd' s hs with ⟨h1, h2⟩ | ⟨u, ss, w', -, -, -, -, hm, ht⟩
    · cases hg : ops.get c s with
      | some hit =>
        have := hinv s hit hg rnd'
        have hi := initialWord_eq m s
        rw [h1] at hi
        simp [mergeWord, hi] at this
      | none =>
        have hi := initialWord_eq m s
        rw [h1] at hi
        simp only at hi
        refine ⟨c, ?_, .error .unkOutOfVocab, ?_⟩
        · rw [h2]; simp [tokenizeWord, mergeWord, hi]
        · simp [tokenizeWord, mergeWord, hi]
    · cases hg : ops.get c s with
      | some hit =>
        have := hinv s hit hg rnd'
        rw [hm] at this
        simp at this
        subst this
        exact ⟨c, by rw [ht]; rfl, _, rfl⟩
      | none =>
        have hm' : m.mergeWord rnd s = .ok (.ok (some w')) := by rw [mergeWord_rnd m hd rnd rnd']; exact hm
        cases hw : wordToTokens m.vocab w' 0 with
        | error e =>
          refine ⟨c, ?_, .error e, ?_⟩
          · rw [ht, hw]; simp [tokenizeWord, hm', hw, Except.map]
          · simp [tokenizeWord, hm', hw]
        | ok ts =>
          refine ⟨ops.set c s w', ?_, .ok (some ts), ?_⟩
          · rw [ht, hw]; simp [tokenizeWord, hm', hw, Except.map]
          · simp [tokenizeWord, hm', hw]

theorem goCache_lawful : Lawful goCache := by
  intro c k w k' w' h
  simp [goCache, WordCache.get] at h

/-- **C48, with the cache of the code.** -/
theorem C48_history (m : BPE) (hd : m.hasDropout = false) (c : WordCache) (h : History goCache m m.cache c)
    (rnd rnd' : Nat → Bool) (s : Str) :
    m.tokenizeWith goCache rnd c s >>= (fun x => pure x.1) = m.tokenize rnd' s := by
  obtain ⟨_, h1, -⟩ := C48_any_cache goCache goCache_lawful m hd m.cache c (fun _ => rfl) h rnd rnd' s
  exact h1

/-- **C48**: `GetValues` finds for each key, in order, what `Get` finds for it: nothing, whatever was `Set` before. -/
theorem C48_getValues (c : WordCache) (keys : List Str) (k : Str) (w : Word) :
    c.getValues keys = keys.map (fun k => c.get k) ∧ c.getValues keys = List.replicate keys.length none
    ∧ (c.set k w).getValues keys = c.getValues keys := by
  refine ⟨rfl, ?_, rfl⟩
  induction keys with
  | nil => rfl
  | cons _ _ ih => simpa [WordCache.getValues, WordCache.get, List.replicate_succ] using ih

/-! ## Concrete cases -/

/-- A small model: `<unk>`, `a`, `b`, `ab`, with a b merging to ab. -/
def sample (unk : Str) (fuse : Bool) : BPE :=
  let terms := [(b!"<unk>", (0 : Int)), (b!"a", 1), (b!"b", 2), (b!"ab", 3)]
  ⟨Vocab.fromJSON (some terms) terms, [((1, 2), ⟨0, 3⟩)], ⟨10⟩, false, unk, [], [], fuse⟩

/-- C44, C46: fused unknown characters. -/
example : (sample b!"<unk>" true).tokenize (fun _ => false) b!"xéab"
    = .ok (.ok (some [⟨0, b!"<unk>", ⟨0, 3⟩⟩, ⟨3, b!"ab", ⟨3, 5⟩⟩])) := by decide +kernel

/-- C44, C46: separate unknown characters. -/
example : (sample b!"<unk>" false).tokenize (fun _ => false) b!"xéab"
    = .ok (.ok (some [⟨0, b!"<unk>", ⟨0, 1⟩⟩, ⟨0, b!"<unk>", ⟨1, 3⟩⟩, ⟨3, b!"ab", ⟨3, 5⟩⟩])) := by decide +kernel

/-- C44: the condition on the characters is needed.  Without an unknown token the unknown `x` is
dropped and the offsets after it are wrong. -/
theorem C44_dropped : (sample [] false).tokenize (fun _ => false) b!"axb"
    = .ok (.ok (some [⟨3, b!"ab", ⟨0, 2⟩⟩])) ∧ ¬(sample [] false).Covered b!"axb" := by
  refine ⟨by decide +kernel, ?_⟩
  rintro (h | h)
  · exact h rfl
  · exact h (none, 1) (by decide +kernel) rfl

/-- C44: the condition that the text is valid UTF-8 is needed: the byte FF becomes U+FFFD, which
counts as three bytes. -/
theorem C44_invalid : (sample b!"<unk>" false).tokenize (fun _ => false) [0xFF]
    = .ok (.ok (some [⟨0, b!"<unk>", ⟨0, 3⟩⟩])) := by decide +kernel

/-- C44: a missing unknown token. -/
example : (sample b!"[UNK]" false).tokenize (fun _ => false) b!"a" = .ok (.error .unkOutOfVocab) := by decide +kernel

/-- C45: tokens spell the text. -/
example : (sample [] false).tokenize (fun _ => false) b!"abba"
    = .ok (.ok (some [⟨3, b!"ab", ⟨0, 2⟩⟩, ⟨2, b!"b", ⟨2, 3⟩⟩, ⟨1, b!"a", ⟨3, 4⟩⟩])) := by decide +kernel

/-- C47: the suffix is looked up for the last character only. -/
example : (BPE.mk Vocab.new [] ⟨0⟩ false [] [] b!"</w>" false).expectedKey 1 1 (u!"b") = b!"b</w>"
    ∧ (BPE.mk Vocab.new [] ⟨0⟩ false [] [] b!"</w>" false).expectedKey 0 1 (u!"b") = b!"b" := by decide +kernel

/-- C48: an effective cache (an association list) is lawful, and hits. -/
example : let ops : CacheOps (List (Str × Word)) := ⟨fun c k => (c.find? fun e => e.1 = k).map (·.2), fun c k w => (k, w) :: c⟩
    Lawful ops ∧ ops.get (ops.set [] b!"a" []) b!"a" = some [] := by
  refine ⟨?_, by decide +kernel⟩
  intro c k w k' w' h
  simp only [List.find?_cons] at h
  by_cases e : k = k'
  · subst e; simp at h; exact .inl ⟨rfl, h.symm⟩
  · simp [e] at h
    right
    simpa using h

end BPE
end Verif
