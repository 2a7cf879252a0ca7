import Verif.Props.Vocab
import Verif.Lemmas.Go
import Verif.Model.MergeMap

/-! Property C51: reading a merges file. -/

set_option autoImplicit false

namespace Verif

/-! ## Lines and fields -/

/-- A line without its line feed: one trailing carriage return is not part of it. -/
def stripCR (s : Str) : Str := if s.getLast? = some 13 then s.dropLast else s

theorem dropCR_eq (s : Str) : scanLinesAux.dropCR s.reverse = stripCR s := by
  unfold stripCR
  rcases List.eq_nil_or_concat s with rfl | ⟨t, b, rfl⟩
  · rfl
  · simp only [List.concat_eq_append, List.reverse_append, List.reverse_cons, List.reverse_nil, List.nil_append,
      List.singleton_append, List.getLast?_append, List.getLast?_singleton, Option.some_or]
    by_cases hb : b = 13
    · subst hb; simp [scanLinesAux.dropCR]
    · simp only [Option.some.injEq, hb, if_false]
      unfold scanLinesAux.dropCR
      split
      · rename_i h; simp at h; exact absurd h.1 hb
      · simp

theorem scanLinesAux_line (raw : Str) (h : 10 ∉ raw) (cur rest : Str) :
    scanLinesAux (raw ++ 10 :: rest) cur = if 65536 ≤ (cur.reverse ++ raw).length then ([], true)
      else (stripCR (cur.reverse ++ raw) :: (scanLinesAux rest []).1, (scanLinesAux rest []).2) := by
  induction raw generalizing cur with
  | nil =>
    simp only [List.nil_append, scanLinesAux, if_true, List.append_nil, maxScanTokenSize, List.length_reverse]
    rw [← dropCR_eq, List.reverse_reverse]
    rfl
  | cons b raw ih =>
    simp only [List.mem_cons, not_or] at h
    simp only [List.cons_append, scanLinesAux]
    rw [if_neg (Ne.symm h.1), ih h.2]
    simp only [List.reverse_cons, List.append_assoc, List.singleton_append]

theorem scanLinesAux_last (raw : Str) (h : 10 ∉ raw) (cur : Str) :
    scanLinesAux raw cur = if cur.reverse ++ raw = [] then ([], false)
      else if 65536 ≤ (cur.reverse ++ raw).length then ([], true) else ([stripCR (cur.reverse ++ raw)], false) := by
  induction raw generalizing cur with
  | nil =>
    cases cur with
    | nil => simp [scanLinesAux]
    | cons b cur =>
      simp only [scanLinesAux, List.append_nil, maxScanTokenSize]
      rw [← dropCR_eq, List.reverse_reverse, if_neg (by simp : ¬(b :: cur).reverse = []), List.length_reverse]
      rfl
  | cons b raw ih =>
    simp only [List.mem_cons, not_or] at h
    simp only [scanLinesAux]
    rw [if_neg (Ne.symm h.1), ih h.2]
    simp only [List.reverse_cons, List.append_assoc, List.singleton_append]

/-- Every file is a list of lines each ended by a line feed, and a last one without. -/
theorem content_lines (content : Str) : ∃ (raws : List Str) (last : Str),
    content = (raws.flatMap fun r => r ++ [10]) ++ last ∧ (∀ r ∈ raws, 10 ∉ r) ∧ 10 ∉ last := by
  induction content with
  | nil => exact ⟨[], [], by simp⟩
  | cons b content ih =>
    obtain ⟨raws, last, rfl, h1, h2⟩ := ih
    by_cases hb : b = 10
    · subst hb
      exact ⟨[] :: raws, last, by simp, by simpa using h1, h2⟩
    · cases raws with
      | nil => exact ⟨[], b :: last, by simp, by simp, by simp [h2, Ne.symm hb]⟩
      | cons r raws =>
        refine ⟨(b :: r) :: raws, last, by simp, ?_, h2⟩
        intro x hx
        rcases List.mem_cons.1 hx with rfl | hx
        · have := h1 r (by simp)
          simp [this, Ne.symm hb]
        · exact h1 x (by simp [hx])

/-- The lines of a file: an empty last one does not count. -/
def fileLines (raws : List Str) (last : Str) : List Str := raws ++ if last = [] then [] else [last]

/-- The scanner yields those lines without carriage return, up to the first one of 64 KiB or more. -/
theorem scanLines_spec (raws : List Str) (last : Str) (h : ∀ r ∈ raws, 10 ∉ r) (hl : 10 ∉ last) :
    scanLines ((raws.flatMap fun r => r ++ [10]) ++ last)
        = ((fileLines raws last).takeWhile fun r => r.length < 64 * 1024).map stripCR
    ∧ (scanTooLong ((raws.flatMap fun r => r ++ [10]) ++ last) = true
        ↔ ∃ r ∈ fileLines raws last, 64 * 1024 ≤ r.length) := by
  unfold scanLines scanTooLong
  induction raws with
  | nil =>
    have := scanLinesAux_last last hl []
    simp only [List.flatMap_nil, List.nil_append, fileLines]
    rw [this]
    by_cases h : last = []
    · simp [h]
    · by_cases h' : 65536 ≤ last.length
      · have h'' : ¬last.length < 65536 := by omega
        simp [h, h', h'']
      · have h'' : last.length < 65536 := by omega
        simp [h, h', h'']
  | cons r raws ih =>
    have ih := ih (fun x hx => h x (by simp [hx]))
    simp only [List.flatMap_cons, List.append_assoc, fileLines, List.cons_append] at ih ⊢
    rw [scanLinesAux_line r (h r (by simp))]
    simp only [List.reverse_nil, List.nil_append]
    by_cases h' : 65536 ≤ r.length
    · have h'' : ¬r.length < 65536 := by omega
      simp [h', h'']
    · have h'' : r.length < 65536 := by omega
      simp only [h', if_false]
      rw [List.takeWhile_cons, if_pos (by simpa using h''), List.map_cons, ih.1]
      refine ⟨rfl, ?_⟩
      rw [ih.2]
      simp [h']

theorem splitSpace_ne_nil (s : Str) : splitSpace s ≠ [] := by
  cases s with
  | nil => simp [splitSpace]
  | cons b s => simp only [splitSpace]; split <;> (try split) <;> simp

theorem splitSpace_one (s t : Str) : splitSpace s = [t] ↔ s = t ∧ 32 ∉ t := by
  induction s generalizing t with
  | nil =>
    simp only [splitSpace, List.cons.injEq, and_true]
    constructor
    · rintro rfl; simp
    · rintro ⟨rfl, -⟩; rfl
  | cons b s ih =>
    simp only [splitSpace]
    by_cases hb : b = 32
    · subst hb
      simp only [if_true, List.cons.injEq]
      constructor
      · rintro ⟨-, h⟩; exact absurd h (splitSpace_ne_nil s)
      · rintro ⟨rfl, h⟩; simp at h
    · rw [if_neg hb]
      cases hs : splitSpace s with
      | nil => exact absurd hs (splitSpace_ne_nil s)
      | cons u us =>
        simp only [List.cons.injEq]
        constructor
        · rintro ⟨rfl, rfl⟩
          obtain ⟨rfl, h⟩ := (ih u).1 hs
          exact ⟨rfl, by simp [h, Ne.symm hb]⟩
        · rintro ⟨rfl, h⟩
          have := (ih s).2 ⟨rfl, fun hm => h (by simp [hm])⟩
          rw [hs] at this
          simp at this
          exact ⟨by rw [this.1], this.2⟩

/-- The line has exactly two fields separated by one space. -/
def TwoFields (line t0 t1 : Str) : Prop := line = t0 ++ 32 :: t1 ∧ 32 ∉ t0 ∧ 32 ∉ t1

theorem splitSpace_two (s t0 t1 : Str) : splitSpace s = [t0, t1] ↔ TwoFields s t0 t1 := by
  unfold TwoFields
  induction s generalizing t0 with
  | nil => simp [splitSpace]
  | cons b s ih =>
    simp only [splitSpace]
    by_cases hb : b = 32
    · subst hb
      simp only [if_true, List.cons.injEq]
      rw [splitSpace_one]
      constructor
      · rintro ⟨rfl, rfl, h⟩; simp [h]
      · rintro ⟨h1, h2, h3⟩
        cases t0 with
        | nil => simp at h1; exact ⟨rfl, h1, h3⟩
        | cons c t0 => simp at h1 h2; exact absurd h1.1 h2.1
    · rw [if_neg hb]
      cases hs : splitSpace s with
      | nil => exact absurd hs (splitSpace_ne_nil s)
      | cons u us =>
        simp only [List.cons.injEq]
        constructor
        · rintro ⟨rfl, rfl⟩
          obtain ⟨rfl, h1, h2⟩ := (ih u).1 hs
          exact ⟨by simp, by simp [h1, Ne.symm hb], h2⟩
        · rintro ⟨h1, h2, h3⟩
          cases t0 with
          | nil => simp at h1; exact absurd h1.1 hb
          | cons c t0 =>
            simp only [List.cons_append, List.cons.injEq] at h1
            obtain ⟨rfl, rfl⟩ := h1
            have := (ih t0).2 ⟨rfl, fun hm => h2 (by simp [hm]), h3⟩
            rw [hs] at this
            simp at this
            exact ⟨by rw [this.1], this.2⟩

/-! ## Specification of one line -/

/-- A correct merge line: two fields in the vocabulary, and the merged term too. -/
def MergeLine (vocab : Vocab) (p : Nat) (line : Str) (a b c : Int) : Prop :=
  ∃ t0 t1, TwoFields line t0 t1 ∧ p ≤ t1.length
    ∧ vocab.getID t0 = some a ∧ vocab.getID t1 = some b ∧ vocab.getID (t0 ++ t1.drop p) = some c

/-- What is wrong with a line, and the error that names it. -/
inductive LineFault (vocab : Vocab) (p : Nat) (line : Str) (n : Nat) : Err → Prop
  | malformed : (¬∃ t0 t1, TwoFields line t0 t1) → LineFault vocab p line n (.malformedMerges n)
  | left (t0 t1 : Str) : TwoFields line t0 t1 → vocab.getID t0 = none →
      LineFault vocab p line n (.leftOutOfVocab n)
  | right (t0 t1 : Str) : TwoFields line t0 t1 → vocab.getID t0 ≠ none → vocab.getID t1 = none →
      LineFault vocab p line n (.rightOutOfVocab n)
  | merged (t0 t1 : Str) : TwoFields line t0 t1 → vocab.getID t0 ≠ none → vocab.getID t1 ≠ none →
      p ≤ t1.length → vocab.getID (t0 ++ t1.drop p) = none → LineFault vocab p line n (.mergedOutOfVocab n)

/-- The crash: the right field is in the vocabulary but shorter than the prefix to remove. -/
def LineCrash (vocab : Vocab) (p : Nat) (line : Str) : Prop :=
  ∃ t0 t1, TwoFields line t0 t1 ∧ vocab.getID t0 ≠ none ∧ vocab.getID t1 ≠ none ∧ t1.length < p

theorem parseMergeLine_spec (vocab : Vocab) (p n : Nat) (rank : Int) (line : Str) :
    (∃ a b c, parseMergeLine vocab p n rank line = .ok (.ok ((a, b), ⟨rank, c⟩)) ∧ MergeLine vocab p line a b c)
    ∨ (∃ e, parseMergeLine vocab p n rank line = .ok (.error e) ∧ LineFault vocab p line n e)
    ∨ (parseMergeLine vocab p n rank line = .panic ∧ LineCrash vocab p line) := by
  unfold parseMergeLine
  split
  · rename_i t0 t1 hs
    have hf := (splitSpace_two line t0 t1).1 hs
    cases h0 : vocab.getID t0 with
    | none => exact .inr (.inl ⟨_, rfl, .left t0 t1 hf h0⟩)
    | some a =>
      simp only
      cases h1 : vocab.getID t1 with
      | none => exact .inr (.inl ⟨_, rfl, .right t0 t1 hf (by simp [h0]) h1⟩)
      | some b =>
        simp only
        by_cases hp : p ≤ t1.length
        · have hg : goSlice t1 (p : Int) t1.length = .ok (t1.drop p) := by
            unfold goSlice
            rw [if_pos (by omega)]
            congr 1
            rw [List.take_of_length_le]
            · simp
            · simp
          rw [hg]
          simp only
          cases h2 : vocab.getID (t0 ++ t1.drop p) with
          | none => exact .inr (.inl ⟨_, rfl, .merged t0 t1 hf (by simp [h0]) (by simp [h1]) hp h2⟩)
          | some c => exact .inl ⟨a, b, c, rfl, t0, t1, hf, hp, h0, h1, h2⟩
        · have hg : goSlice t1 (p : Int) t1.length = .panic := by
            unfold goSlice
            rw [if_neg (by omega)]
          rw [hg]
          exact .inr (.inr ⟨rfl, t0, t1, hf, by simp [h0], by simp [h1], by omega⟩)
  · rename_i hs
    refine .inr (.inl ⟨_, rfl, .malformed ?_⟩)
    rintro ⟨t0, t1, hf⟩
    exact hs t0 t1 ((splitSpace_two line t0 t1).2 hf)

/-! ## The file -/

/-- Lines starting with `#version` are comments. -/
def isVersion (line : Str) : Bool := versionPrefix.isPrefixOf line

/-- `ps` lists the merges (pair, merged id) of the merge lines of the file, in order. -/
inductive ReadsTo (vocab : Vocab) (p : Nat) : List Str → List ((Int × Int) × Int) → Prop
  | nil : ReadsTo vocab p [] []
  | version {line : Str} {ls ps} : isVersion line = true → ReadsTo vocab p ls ps → ReadsTo vocab p (line :: ls) ps
  | merge {line : Str} {ls ps a b c} : isVersion line = false → MergeLine vocab p line a b c →
      ReadsTo vocab p ls ps → ReadsTo vocab p (line :: ls) (((a, b), c) :: ps)

/-- Position of the last occurrence of a pair. -/
def IsLast (ps : List ((Int × Int) × Int)) (k : Int × Int) (i : Nat) (c : Int) : Prop :=
  ps[i]? = some (k, c) ∧ ∀ j c', i < j → ps[j]? ≠ some (k, c')

/-- The map holds, for each pair, the rank and id of its last merge line; `base` is the rank
of the first of these lines and `m0` the map before them. -/
def HoldsLast (m m0 : MergeMap) (base : Int) (ps : List ((Int × Int) × Int)) : Prop :=
  ∀ a b v, m.get a b = some v ↔
    (∃ i, IsLast ps (a, b) i v.id ∧ v.rank = base + i)
    ∨ ((∀ (i : Nat) (c : Int), ps[i]? ≠ some ((a, b), c)) ∧ m0.get a b = some v)

theorem holdsLast_cons {m m0 : MergeMap} {base : Int} {a b c : Int} {ps : List ((Int × Int) × Int)}
    (h : HoldsLast m (m0.set a b ⟨base, c⟩) (base + 1) ps) : HoldsLast m m0 base (((a, b), c) :: ps) := by
  intro x y v
  rw [h x y v]
  simp only [MergeMap.get, MergeMap.set, GoMap.get?_set]
  constructor
  · rintro (⟨i, ⟨h1, h2⟩, h3⟩ | ⟨h1, h2⟩)
    · refine .inl ⟨i + 1, ⟨by simpa using h1, ?_⟩, by rw [h3]; push_cast; omega⟩
      intro j c' hj
      cases j with
      | zero => omega
      | succ j => simpa using h2 j c' (by omega)
    · by_cases hk : (a, b) = (x, y)
      · rw [if_pos hk] at h2
        simp only [Option.some.injEq] at h2
        subst h2
        refine .inl ⟨0, ⟨by simp [hk], ?_⟩, by simp⟩
        intro j c' hj
        cases j with
        | zero => omega
        | succ j => simpa using h1 j c'
      · rw [if_neg hk] at h2
        refine .inr ⟨?_, h2⟩
        intro i c'
        cases i with
        | zero => simp only [List.getElem?_cons_zero, ne_eq, Option.some.injEq]; intro e; simp at e; exact hk (by simp [e])
        | succ i => simpa using h1 i c'
  · rintro (⟨i, ⟨h1, h2⟩, h3⟩ | ⟨h1, h2⟩)
    · cases i with
      | zero =>
        simp only [List.getElem?_cons_zero, Option.some.injEq, Prod.mk.injEq] at h1
        obtain ⟨⟨rfl, rfl⟩, rfl⟩ := h1
        refine .inr ⟨?_, ?_⟩
        · intro i c'
          simpa using h2 (i + 1) c' (by omega)
        · rw [if_pos rfl]
          cases v; simp at h3 ⊢; exact h3.symm
      | succ i =>
        refine .inl ⟨i, ⟨by simpa using h1, ?_⟩, by rw [h3]; push_cast; omega⟩
        intro j c' hj
        simpa using h2 (j + 1) c' (by omega)
    · refine .inr ⟨?_, ?_⟩
      · intro i c'
        simpa using h1 (i + 1) c'
      · rw [if_neg]
        · exact h2
        · intro e
          have := h1 0 c
          simp [e] at this

theorem mergeMapLoop_spec (vocab : Vocab) (p : Nat) (ls : List Str) (n : Nat) (rank : Int) (m0 : MergeMap) :
    (∃ m ps, mergeMapLoop vocab p ls n rank m0 = .ok (.ok m) ∧ ReadsTo vocab p ls ps ∧ HoldsLast m m0 rank ps)
    ∨ (∃ pre line post ps e, mergeMapLoop vocab p ls n rank m0 = .ok (.error e)
        ∧ ls = pre ++ line :: post ∧ ReadsTo vocab p pre ps ∧ isVersion line = false
        ∧ LineFault vocab p line (n + pre.length) e)
    ∨ (∃ pre line post ps, mergeMapLoop vocab p ls n rank m0 = .panic
        ∧ ls = pre ++ line :: post ∧ ReadsTo vocab p pre ps ∧ isVersion line = false
        ∧ LineCrash vocab p line) := by
  induction ls generalizing n rank m0 with
  | nil =>
    refine .inl ⟨m0, [], rfl, .nil, ?_⟩
    intro a b v
    simp [IsLast]
  | cons line ls ih =>
    simp only [mergeMapLoop]
    rw [show versionPrefix.isPrefixOf line = isVersion line from rfl]
    by_cases hv : isVersion line = true
    · rw [if_pos hv]
      rcases ih (n + 1) rank m0 with ⟨m, ps, h1, h2, h3⟩ | ⟨pre, l, post, ps, e, h1, rfl, h3, h4, h5⟩
        | ⟨pre, l, post, ps, h1, rfl, h3, h4, h5⟩
      · exact .inl ⟨m, ps, h1, .version hv h2, h3⟩
      · exact .inr (.inl ⟨line :: pre, l, post, ps, e, h1, rfl, .version hv h3, h4,
          by rw [List.length_cons, show n + (pre.length + 1) = n + 1 + pre.length by omega]; exact h5⟩)
      · exact .inr (.inr ⟨line :: pre, l, post, ps, h1, rfl, .version hv h3, h4, h5⟩)
    · rw [if_neg hv]
      have hv' : isVersion line = false := by simpa using hv
      rcases parseMergeLine_spec vocab p n rank line with ⟨a, b, c, g1, g2⟩ | ⟨e, g1, g2⟩ | ⟨g1, g2⟩
      · rw [g1]
        simp only
        rcases ih (n + 1) (rank + 1) (m0.set a b ⟨rank, c⟩) with ⟨m, ps, h1, h2, h3⟩
          | ⟨pre, l, post, ps, e, h1, rfl, h3, h4, h5⟩ | ⟨pre, l, post, ps, h1, rfl, h3, h4, h5⟩
        · exact .inl ⟨m, _, h1, .merge hv' g2 h2, holdsLast_cons h3⟩
        · exact .inr (.inl ⟨line :: pre, l, post, _, e, h1, rfl, .merge hv' g2 h3, h4,
            by rw [List.length_cons, show n + (pre.length + 1) = n + 1 + pre.length by omega]; exact h5⟩)
        · exact .inr (.inr ⟨line :: pre, l, post, _, h1, rfl, .merge hv' g2 h3, h4, h5⟩)
      · rw [g1]
        exact .inr (.inl ⟨[], line, ls, [], e, rfl, rfl, .nil, hv', by simpa using g2⟩)
      · rw [g1]
        exact .inr (.inr ⟨[], line, ls, [], rfl, rfl, .nil, hv', g2⟩)

theorem readsTo_not_fault {vocab : Vocab} {p : Nat} {pre post : List Str} {line : Str}
    {ps : List ((Int × Int) × Int)} (h : ReadsTo vocab p (pre ++ line :: post) ps) (hv : isVersion line = false) :
    ∃ a b c, MergeLine vocab p line a b c := by
  induction pre generalizing ps with
  | nil =>
    cases h with
    | version hv' _ => rw [hv] at hv'; simp at hv'
    | merge _ hm _ => exact ⟨_, _, _, hm⟩
  | cons l pre ih =>
    cases h with
    | version _ h => exact ih h
    | merge _ _ h => exact ih h

theorem twoFields_unique {line t0 t1 u0 u1 : Str} (h : TwoFields line t0 t1) (h' : TwoFields line u0 u1) :
    t0 = u0 ∧ t1 = u1 := by
  have h1 := (splitSpace_two _ _ _).2 h
  have h2 := (splitSpace_two _ _ _).2 h'
  rw [h1] at h2
  simpa using h2

theorem mergeLine_not_fault {vocab : Vocab} {p n : Nat} {line : Str} {a b c : Int} {e : Err}
    (h : MergeLine vocab p line a b c) : ¬LineFault vocab p line n e := by
  obtain ⟨t0, t1, hf, hp, h0, h1, h2⟩ := h
  intro hl
  cases hl with
  | malformed hn => exact hn ⟨_, _, hf⟩
  | left u0 u1 hf' g =>
    obtain ⟨rfl, rfl⟩ := twoFields_unique hf hf'
    rw [h0] at g; simp at g
  | right u0 u1 hf' _ g =>
    obtain ⟨rfl, rfl⟩ := twoFields_unique hf hf'
    rw [h1] at g; simp at g
  | merged u0 u1 hf' _ _ _ g =>
    obtain ⟨rfl, rfl⟩ := twoFields_unique hf hf'
    rw [h2] at g; simp at g

theorem mergeLine_not_crash {vocab : Vocab} {p : Nat} {line : Str} {a b c : Int}
    (h : MergeLine vocab p line a b c) : ¬LineCrash vocab p line := by
  obtain ⟨t0, t1, hf, hp, -⟩ := h
  rintro ⟨u0, u1, hf', -, -, hl⟩
  obtain ⟨rfl, rfl⟩ := twoFields_unique hf hf'
  omega

/-- **C51 (partial).** If no vocabulary term is shorter than the prefix to remove (in
particular with prefix length 0), reading a merges file does not crash; it succeeds iff every
line that is not a `#version` line is a correct merge line and no line has 64 KiB or more; then
each pair maps to its last merge line's id and to the number of merge lines before it; otherwise
the error names the first faulty line and its fault, or says that a line is too long.  Missing: shorter terms, which crash
(`C51_counterexample`). -/
theorem C51_read_partial (content : Str) (vocab : Vocab) (p : Nat)
    (hp : ∀ t, vocab.getID t ≠ none → p ≤ t.length) :
    (∃ m ps, mergeMapFromFile content vocab p = .ok (.ok m)
        ∧ ReadsTo vocab p (scanLines content) ps ∧ scanTooLong content = false
        ∧ ∀ a b v, m.get a b = some v ↔ ∃ i : Nat, IsLast ps (a, b) i v.id ∧ v.rank = i)
    ∨ (∃ pre line post ps e, mergeMapFromFile content vocab p = .ok (.error e)
        ∧ scanLines content = pre ++ line :: post ∧ ReadsTo vocab p pre ps ∧ isVersion line = false
        ∧ LineFault vocab p line (pre.length + 1) e)
    ∨ (∃ ps, mergeMapFromFile content vocab p = .ok (.error .tokenTooLong)
        ∧ ReadsTo vocab p (scanLines content) ps ∧ scanTooLong content = true) := by
  unfold mergeMapFromFile
  rcases mergeMapLoop_spec vocab p (scanLines content) 1 0 [] with ⟨m, ps, h1, h2, h3⟩
    | ⟨pre, l, post, ps, e, h1, h2, h3, h4, h5⟩ | ⟨pre, l, post, ps, h1, h2, h3, h4, t0, t1, -, -, h5, h6⟩
  · rw [h1]
    by_cases hl : scanTooLong content = true
    · exact .inr (.inr ⟨ps, by simp only [hl, if_true], h2, hl⟩)
    · refine .inl ⟨m, ps, by simp only [hl]; rfl, h2, by simpa using hl, ?_⟩
      intro a b v
      rw [h3 a b v]
      simp [MergeMap.get, GoMap.get?]
  · rw [h1]
    exact .inr (.inl ⟨pre, l, post, ps, e, rfl, h2, h3, h4, by rw [Nat.add_comm]; exact h5⟩)
  · exact absurd (hp t1 h5) (by omega)

/-- **C51, all outcomes.** With no condition on the vocabulary, the file of correct lines is
read, and what else can happen is an error or a crash, decided by the first line that is not
correct. -/
theorem C51_outcomes (content : Str) (vocab : Vocab) (p : Nat) :
    ((scanTooLong content = false ∧ ∃ ps, ReadsTo vocab p (scanLines content) ps)
        ↔ ∃ m, mergeMapFromFile content vocab p = .ok (.ok m))
    ∧ (mergeMapFromFile content vocab p = .panic ↔ ∃ pre line post ps,
        scanLines content = pre ++ line :: post ∧ ReadsTo vocab p pre ps ∧ isVersion line = false
        ∧ LineCrash vocab p line) := by
  unfold mergeMapFromFile
  have key : ∀ pre line post pre' line' post' ps ps', scanLines content = pre ++ line :: post →
      scanLines content = pre' ++ line' :: post' → ReadsTo vocab p pre ps → ReadsTo vocab p pre' ps' →
      isVersion line = false → isVersion line' = false →
      (¬∃ a b c, MergeLine vocab p line a b c) → (¬∃ a b c, MergeLine vocab p line' a b c) → line = line' := by
    intro pre line post pre' line' post' ps ps' e1 e2 r1 r2 v1 v2 n1 n2
    rw [e1] at e2
    rw [List.append_eq_append_iff] at e2
    rcases e2 with ⟨as, rfl, h⟩ | ⟨bs, rfl, h⟩
    · cases as with
      | nil => simp at h; exact h.1
      | cons x as =>
        simp at h
        obtain ⟨rfl, -⟩ := h
        exact absurd (readsTo_not_fault r2 v1) n1
    · cases bs with
      | nil => simp at h; exact h.1.symm
      | cons x bs =>
        simp at h
        obtain ⟨rfl, -⟩ := h
        exact absurd (readsTo_not_fault r1 v2) n2
  have nf : ∀ {line : Str} {n : Nat} {e : Err}, LineFault vocab p line n e → ¬∃ a b c, MergeLine vocab p line a b c := by
    rintro line n e hf ⟨a, b, c, hm⟩; exact mergeLine_not_fault hm hf
  have nc : ∀ {line : Str}, LineCrash vocab p line → ¬∃ a b c, MergeLine vocab p line a b c := by
    rintro line hf ⟨a, b, c, hm⟩; exact mergeLine_not_crash hm hf
  rcases mergeMapLoop_spec vocab p (scanLines content) 1 0 [] with ⟨m, ps, h1, h2, h3⟩
    | ⟨pre, l, post, ps, e, h1, h2, h3, h4, h5⟩ | ⟨pre, l, post, ps, h1, h2, h3, h4, h5⟩
  · rw [h1]
    refine ⟨⟨fun h => ⟨m, by simp [h.1]⟩, fun h => ⟨?_, ps, h2⟩⟩, ⟨fun h => ?_, ?_⟩⟩
    · obtain ⟨m', h⟩ := h
      by_cases hl : scanTooLong content = true
      · simp [hl] at h
      · simpa using hl
    · by_cases hl : scanTooLong content = true <;> simp [hl] at h
    rintro ⟨pre, line, post, ps', e, -, hv, hc⟩
    rw [e] at h2
    exact absurd (readsTo_not_fault h2 hv) (nc hc)
  · rw [h1]
    refine ⟨⟨?_, fun ⟨m, h⟩ => (by simp at h)⟩, ⟨fun h => (by simp at h), ?_⟩⟩
    · rintro ⟨-, ps', h⟩
      rw [h2] at h
      exact absurd (readsTo_not_fault h h4) (nf h5)
    · rintro ⟨pre', line', post', ps', e', r', hv, hc⟩
      have := key _ _ _ _ _ _ _ _ h2 e' h3 r' h4 hv (nf h5) (nc hc)
      subst this
      exfalso
      obtain ⟨t0, t1, hf, g0, g1, gl⟩ := hc
      cases h5 with
      | malformed hn => exact hn ⟨_, _, hf⟩
      | left u0 u1 hf' g => obtain ⟨rfl, rfl⟩ := twoFields_unique hf hf'; exact g0 g
      | right u0 u1 hf' _ g => obtain ⟨rfl, rfl⟩ := twoFields_unique hf hf'; exact g1 g
      | merged u0 u1 hf' _ _ g => obtain ⟨rfl, rfl⟩ := twoFields_unique hf hf'; omega
  · rw [h1]
    refine ⟨⟨?_, fun ⟨m, h⟩ => (by simp at h)⟩, ⟨fun _ => ⟨pre, l, post, ps, h2, h3, h4, h5⟩, fun _ => rfl⟩⟩
    rintro ⟨-, ps', h⟩
    rw [h2] at h
    exact absurd (readsTo_not_fault h h4) (nc h5)

/-- **C51, carriage returns.** A file whose lines end in "\r\n" reads like the one whose lines end in
"\n", as long as no line is too long. -/
theorem C51_carriage_return (raws : List Str) (h : ∀ r ∈ raws, 10 ∉ r ∧ r.getLast? ≠ some 13 ∧ r.length + 1 < 64 * 1024)
    (vocab : Vocab) (p : Int) :
    mergeMapFromFile (raws.flatMap fun r => r ++ [13, 10]) vocab p
      = mergeMapFromFile (raws.flatMap fun r => r ++ [10]) vocab p := by
  have e : (raws.flatMap fun r => r ++ [13, 10]) = ((raws.map fun r => r ++ [13]).flatMap fun r => r ++ [10]) := by
    rw [List.flatMap_map]; simp
  have s1 := scanLines_spec (raws.map fun r => r ++ [13]) [] (by
    intro r hr
    obtain ⟨x, hx, rfl⟩ := List.mem_map.1 hr
    simpa using (h x hx).1) (by simp)
  have s2 := scanLines_spec raws [] (fun r hr => (h r hr).1) (by simp)
  simp only [fileLines, if_true, List.append_nil] at s1 s2
  have t1 : ((raws.map fun r => r ++ [13]).takeWhile fun r => r.length < 64 * 1024) = raws.map fun r => r ++ [13] := by
    refine (congrArg _ (List.append_nil _).symm).trans ((List.takeWhile_append_of_pos ?_).trans (List.append_nil _))
    intro r hr
    obtain ⟨x, hx, rfl⟩ := List.mem_map.1 hr
    simpa using (h x hx).2.2
  have t2 : (raws.takeWhile fun r => r.length < 64 * 1024) = raws := by
    refine (congrArg _ (List.append_nil _).symm).trans ((List.takeWhile_append_of_pos ?_).trans (List.append_nil _))
    intro r hr
    have := (h r hr).2.2
    simp only [decide_eq_true_eq]
    omega
  have l1 : scanTooLong (raws.flatMap fun r => r ++ [13, 10]) = false := by
    rw [e]
    apply Bool.eq_false_iff.2
    rw [Ne, s1.2]
    rintro ⟨r, hr, hl⟩
    obtain ⟨x, hx, rfl⟩ := List.mem_map.1 hr
    have := (h x hx).2.2
    simp at hl
    omega
  have l2 : scanTooLong (raws.flatMap fun r => r ++ [10]) = false := by
    apply Bool.eq_false_iff.2
    rw [Ne, s2.2]
    rintro ⟨r, hr, hl⟩
    have := (h r hr).2.2
    omega
  have l3 : scanLines (raws.flatMap fun r => r ++ [13, 10]) = scanLines (raws.flatMap fun r => r ++ [10]) := by
    rw [e, s1.1, s2.1, t1, t2, List.map_map]
    apply List.map_congr_left
    intro r hr
    simp [stripCR, (h r hr).2.1]
  unfold mergeMapFromFile
  rw [l1, l2, l3]

/-- **C51, long lines.** A file with a line of 64 KiB or more is never read successfully, whatever the
other lines are. -/
theorem C51_too_long (raws : List Str) (last : Str) (h : ∀ r ∈ raws, 10 ∉ r) (hl : 10 ∉ last) (vocab : Vocab)
    (p : Nat) (hr : ∃ r ∈ fileLines raws last, 64 * 1024 ≤ r.length) :
    ¬∃ m, mergeMapFromFile ((raws.flatMap fun r => r ++ [10]) ++ last) vocab p = .ok (.ok m) := by
  rw [← (C51_outcomes _ vocab p).1, (scanLines_spec raws last h hl).2.2 hr]
  simp

/-- A file of one long line gives the scanner's error. -/
theorem C51_one_long_line (line : Str) (h : 10 ∉ line) (hl : 64 * 1024 ≤ line.length) (vocab : Vocab) (p : Int) :
    mergeMapFromFile line vocab p = .ok (.error .tokenTooLong) := by
  have hn : line ≠ [] := by rintro rfl; simp at hl
  have hs := scanLines_spec [] line (by simp) h
  rw [show fileLines [] line = [line] by simp [fileLines, hn]] at hs
  simp only [List.flatMap_nil, List.nil_append] at hs
  have h0 : scanLines line = [] := by
    rw [hs.1, List.takeWhile_cons, if_neg (by simpa using hl)]; rfl
  unfold mergeMapFromFile
  rw [h0, hs.2.2 ⟨line, by simp, hl⟩]
  rfl

/-- Non-vacuity: such a line, which would be passed over if it were shorter. -/
example (n : Nat) (hn : 65528 ≤ n) (vocab : Vocab) :
    mergeMapFromFile (versionPrefix ++ List.replicate n 97) vocab 0 = .ok (.error .tokenTooLong) :=
  C51_one_long_line _ (by simp [versionPrefix, List.mem_replicate]) (by simp [versionPrefix]; omega) vocab 0

/-- **C51 is false** of the code in one point: a right term shorter than the prefix length
crashes the reader. -/
theorem C51_counterexample :
    mergeMapFromFile b!"a b\n" (Vocab.fromJSON (some [(b!"a", 0), (b!"b", 1)]) []) 2 = .panic := by
  decide +kernel

/-- Non-vacuity: a header, two merges, a repeated pair, and a prefix. -/
example :
    let v := Vocab.fromJSON (some [(b!"a", 0), (b!"##b", 1), (b!"ab", 2), (b!"abb", 3)]) []
    mergeMapFromFile b!"#version: 0.2\na ##b\r\nab ##b\na ##b\n" v 2
      = .ok (.ok [((0, 1), ⟨2, 2⟩), ((2, 1), ⟨1, 3⟩)])
    ∧ mergeMapFromFile b!"#version: 0.2\na ##b\n\na ##b\n" v 2 = .ok (.error (.malformedMerges 3)) := by
  decide +kernel

end Verif
