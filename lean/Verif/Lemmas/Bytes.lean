import Verif.Spec.Bytes
import Verif.Lemmas.FromString
import Verif.Lemmas.Runs

/-! Reading arbitrary byte strings. -/

set_option autoImplicit false

namespace Verif

theorem chunksAux_skip : ∀ (s : Str) (k : Nat), chunksAux s k = chunksAux (s.drop k) 0 := by
  intro s
  induction s with
  | nil => intro k; simp [chunksAux]
  | cons b bs ih =>
    intro k
    cases k with
    | zero => rfl
    | succ k => simp only [chunksAux, List.drop_succ_cons]; exact ih k

theorem chunks_cons (s t : Str) (r : Rune) (h : s ≠ []) (hd : decodeRune (s ++ t) = (r, s.length)) :
    chunks (s ++ t) = ⟨s, r⟩ :: chunks t := by
  cases s with
  | nil => exact absurd rfl h
  | cons b bs =>
    rw [List.cons_append] at hd ⊢
    simp only [chunks, chunksAux, hd, List.length_cons]
    rw [chunksAux_skip]
    simp

/-- Reading is what the decoder does. -/
theorem Reads.chunks_eq {s : Str} {cs : List Chunk} (h : Reads s cs) : chunks s = cs := by
  induction h with
  | nil => rfl
  | @rune r t cs hr _ ih =>
    rw [chunks_cons _ t r (by have := encodeRune_length_pos r; intro h; rw [h] at this; simp at this)
      (decodeRune_encodeRune hr t), ih]
  | @bad b t cs hb _ ih =>
    have hd : decodeRune ([b] ++ t) = (0xFFFD, [b].length) := by
      rcases decodeRune_cases (b :: t) (by simp) with h | ⟨rest, h⟩
      · exact h
      · exact absurd h (hb _ _ (decodeRune_valid _))
    have := chunks_cons [b] t 0xFFFD (by simp) hd
    rw [List.singleton_append] at this
    rw [this, ih]

/-- There is at most one reading. -/
theorem Reads.unique {s : Str} {cs cs' : List Chunk} (h : Reads s cs) (h' : Reads s cs') : cs = cs' := by
  rw [← h.chunks_eq, ← h'.chunks_eq]

theorem reads_exists : ∀ (n : Nat) (s : Str), s.length ≤ n → ∃ cs, Reads s cs := by
  intro n
  induction n with
  | zero =>
    intro s hs
    have : s = [] := List.length_eq_zero_iff.1 (by omega)
    exact ⟨[], this ▸ .nil⟩
  | succ n ih =>
    intro s hs
    cases s with
    | nil => exact ⟨[], .nil⟩
    | cons b t =>
      by_cases h : ∃ (r : Rune) (t' : Str), ValidRune r ∧ b :: t = encodeRune r ++ t'
      · obtain ⟨r, t', hr, e⟩ := h
        have hl := congrArg List.length e
        have := encodeRune_length_pos r
        simp only [List.length_cons, List.length_append] at hl hs
        obtain ⟨cs, hc⟩ := ih t' (by omega)
        exact ⟨_, e.symm ▸ Reads.rune hr hc⟩
      · obtain ⟨cs, hc⟩ := ih t (by simp only [List.length_cons] at hs; omega)
        exact ⟨_, .bad (fun r t' hr e => h ⟨r, t', hr, e⟩) hc⟩

/-- Every byte string is read in exactly one way, as its `chunks`. -/
theorem reads_chunks (s : Str) : Reads s (chunks s) := by
  obtain ⟨cs, h⟩ := reads_exists _ s (Nat.le_refl _)
  rw [h.chunks_eq]; exact h

@[simp] theorem textOf_nil : textOf [] = [] := rfl
@[simp] theorem textOf_cons (c : Chunk) (cs : List Chunk) : textOf (c :: cs) = c.bytes ++ textOf cs := rfl
@[simp] theorem textOf_append (a b : List Chunk) : textOf (a ++ b) = textOf a ++ textOf b := by
  simp [textOf]

theorem Reads.text_eq {s : Str} {cs : List Chunk} (h : Reads s cs) : textOf cs = s := by
  induction h with
  | nil => rfl
  | rune _ _ ih => simp [ih]
  | bad _ _ ih => simp [ih]

theorem textOf_chunks (s : Str) : textOf (chunks s) = s := (reads_chunks s).text_eq

/-- What a single chunk can be. -/
theorem Reads.chunk {s : Str} {cs : List Chunk} (h : Reads s cs) : ∀ c ∈ cs,
    c.bytes ≠ [] ∧ ValidRune c.rune ∧ (c.bytes = encodeRune c.rune ∨ (c.bytes.length = 1 ∧ c.rune = 0xFFFD)) := by
  induction h with
  | nil => simp
  | @rune r t cs hr _ ih =>
    intro c hc
    rcases List.mem_cons.1 hc with rfl | hc
    · refine ⟨?_, hr, .inl rfl⟩
      have := encodeRune_length_pos r
      exact List.length_pos_iff.1 this
    · exact ih c hc
  | bad _ _ ih =>
    intro c hc
    rcases List.mem_cons.1 hc with rfl | hc
    · exact ⟨by simp, validRune_runeError, .inr ⟨rfl, rfl⟩⟩
    · exact ih c hc

/-- A prefix of the chunks is the reading of its own text. -/
theorem Reads.take : ∀ {a b : List Chunk} {s : Str}, Reads s (a ++ b) → Reads (textOf a) a := by
  intro a
  induction a with
  | nil => intro b s _; exact .nil
  | cons c a ih =>
    intro b s h
    have ht := h.text_eq
    rw [List.cons_append] at h
    cases h with
    | rune hr h => exact .rune hr (ih h)
    | @bad x t _ hb h =>
      refine .bad ?_ (ih h)
      intro r t' hr e
      have hs := h.text_eq
      refine hb r (t' ++ textOf b) hr ?_
      rw [← hs, textOf_append, ← List.append_assoc, ← e]
      rfl

/-- So is a suffix. -/
theorem Reads.drop : ∀ {a b : List Chunk} {s : Str}, Reads s (a ++ b) → Reads (textOf b) b := by
  intro a
  induction a with
  | nil => intro b s h; have := h.text_eq; rw [List.nil_append] at h this; rw [this]; exact h
  | cons c a ih =>
    intro b s h
    rw [List.cons_append] at h
    cases h with
    | rune _ h => exact ih h
    | bad _ h => exact ih h

/-- Chunks standing next to each other are the reading of their own text. -/
theorem chunks_infix {s : Str} {a g b : List Chunk} (h : chunks s = a ++ g ++ b) : chunks (textOf g) = g := by
  have h1 := reads_chunks s
  rw [h] at h1
  exact h1.take.drop.chunks_eq

/-! ## The decoder's loops -/

/-- Byte index and rune of each chunk, from byte `i` on. -/
def rangeChunks : Nat → List Chunk → List (Nat × Rune)
  | _, [] => []
  | i, c :: cs => (i, c.rune) :: rangeChunks (i + c.bytes.length) cs

theorem rangeAux_cons (s t : Str) (i : Nat) (r : Rune) (h : s ≠ []) (hd : decodeRune (s ++ t) = (r, s.length)) :
    rangeAux (s ++ t) i 0 = (i, r) :: rangeAux t (i + s.length) 0 := by
  cases s with
  | nil => exact absurd rfl h
  | cons b bs =>
    rw [List.cons_append] at hd ⊢
    simp only [rangeAux, hd, List.length_cons]
    rw [Nat.add_sub_cancel, rangeAux_skip]
    congr 2; omega

theorem Reads.rangeAux_eq {s : Str} {cs : List Chunk} (h : Reads s cs) : ∀ i, rangeAux s i 0 = rangeChunks i cs := by
  induction h with
  | nil => intro i; rfl
  | @rune r t cs hr _ ih =>
    intro i
    rw [rangeAux_cons _ t i r (by have := encodeRune_length_pos r; intro h; rw [h] at this; simp at this)
      (decodeRune_encodeRune hr t), ih, rangeChunks]
  | @bad b t cs hb _ ih =>
    intro i
    have hd : decodeRune ([b] ++ t) = (0xFFFD, [b].length) := by
      rcases decodeRune_cases (b :: t) (by simp) with h | ⟨rest, h⟩
      · exact h
      · exact absurd h (hb _ _ (decodeRune_valid _))
    have := rangeAux_cons [b] t i 0xFFFD (by simp) hd
    rw [List.singleton_append] at this
    rw [this, ih, rangeChunks]

theorem rangeStr_chunks (s : Str) : rangeStr s = rangeChunks 0 (chunks s) := (reads_chunks s).rangeAux_eq 0

theorem rangeChunks_map_snd : ∀ (cs : List Chunk) (i : Nat), (rangeChunks i cs).map (·.2) = cs.map (·.rune) := by
  intro cs
  induction cs with
  | nil => intro i; rfl
  | cons c cs ih => intro i; simp [rangeChunks, ih]

theorem runesOf_chunks (s : Str) : runesOf s = (chunks s).map (·.rune) := by
  rw [runesOf, rangeStr_chunks, rangeChunks_map_snd]

theorem sanitizeText_eq (s : Str) : sanitizeText s = encodeRunes (runesOf s) := by
  rw [sanitizeText, runesOf_chunks]

/-! ## Segments -/

theorem chunkSegs_nomatch (f : Rune → Bool) : ∀ (p : List Chunk), (∀ c ∈ p, f c.rune = false) →
    ∀ rest : List Chunk, (∀ c ∈ rest.head?, f c.rune = true) →
    chunkSegs f (p ++ rest) = (if p = [] then [] else [(false, p)]) ++ chunkSegs f rest := by
  intro p
  induction p with
  | nil => intro _ rest _; simp
  | cons a p ih =>
    intro hp rest hrest
    have ha := hp a (by simp)
    rw [List.cons_append, chunkSegs, if_neg (by simp [ha]), ih (fun r hr => hp r (by simp [hr])) rest hrest]
    cases p with
    | nil =>
      simp
      cases rest with
      | nil => simp [chunkSegs]
      | cons r rest =>
        have := hrest r (by simp)
        simp [chunkSegs, this]
    | cons b p => simp

theorem chunkSegs_flatten (f : Rune → Bool) (cs : List Chunk) : (chunkSegs f cs).flatMap (·.2) = cs := by
  induction cs with
  | nil => rfl
  | cons c cs ih =>
    simp only [chunkSegs]
    split
    · simp [ih]
    · split
      · rename_i g t h
        rw [h] at ih
        simp at ih ⊢; exact ih
      · simp [ih]

theorem chunkSegs_ne_nil (f : Rune → Bool) (cs : List Chunk) : ∀ x ∈ chunkSegs f cs, x.2 ≠ [] := by
  induction cs with
  | nil => simp [chunkSegs]
  | cons c cs ih =>
    simp only [chunkSegs]
    split
    · intro x hx
      rcases List.mem_cons.1 hx with rfl | hx
      · simp
      · exact ih x hx
    · split
      · rename_i g t h
        intro x hx
        rcases List.mem_cons.1 hx with rfl | hx
        · simp
        · exact ih x (by rw [h]; simp [hx])
      · intro x hx
        rcases List.mem_cons.1 hx with rfl | hx
        · simp
        · exact ih x hx

theorem chunkSegs_infix (f : Rune → Bool) (cs : List Chunk) {x : Bool × List Chunk} (h : x ∈ chunkSegs f cs) :
    ∃ a b, cs = a ++ x.2 ++ b := by
  obtain ⟨s, t, e⟩ := List.append_of_mem h
  refine ⟨s.flatMap (·.2), t.flatMap (·.2), ?_⟩
  rw [← chunkSegs_flatten f cs, e]; simp

/-! ## Captures of function patterns -/

/-- Where `FindMatches` thinks a run of chunks ends: the last rune is counted with the length of its
encoding. -/
def seen (p : List Chunk) : Nat :=
  match p.getLast? with
  | none => 0
  | some c => (textOf p.dropLast).length + runeLen c.rune

theorem seen_append (p : List Chunk) (c : Chunk) : seen (p ++ [c]) = (textOf p).length + runeLen c.rune := by
  simp [seen]

theorem seen_nil : seen [] = 0 := rfl

/-- Segments laid out from byte `i`; the last one ends where `FindMatches` thinks it does. -/
def chunkCaps : Int → List (Bool × List Chunk) → List Capture
  | _, [] => []
  | i, [(b, g)] => [⟨⟨i, i + seen g⟩, b⟩]
  | i, (b, g) :: x :: t =>
    ⟨⟨i, i + (textOf g).length⟩, b⟩ :: chunkCaps (i + (textOf g).length) (x :: t)

theorem seen_pos {p : List Chunk} (h : p ≠ []) : 0 < seen p := by
  obtain ⟨q, c, rfl⟩ : ∃ q c, p = q ++ [c] := ⟨p.dropLast, p.getLast h, (List.dropLast_concat_getLast h).symm⟩
  rw [seen_append]
  have := encodeRune_length_pos c.rune
  unfold runeLen; omega

theorem func_fold_chunks (f : Rune → Bool) (hf0 : f 0xFFFD = false) : ∀ (rest : List Chunk) (lo : Nat) (p : List Chunk)
    (S : List Capture), (∀ c ∈ p, f c.rune = false) →
    (∀ c ∈ p ++ rest, c.bytes ≠ [] ∧ (c.bytes = encodeRune c.rune ∨ c.rune = 0xFFFD)) →
    funcClose ((rangeChunks (lo + (textOf p).length) rest).foldl (funcStep f) ⟨lo, lo + seen p, S⟩)
      = S ++ chunkCaps lo (chunkSegs f (p ++ rest)) := by
  intro rest
  induction rest with
  | nil =>
    intro lo p S hp _
    rw [chunkSegs_nomatch f p hp [] (by simp)]
    simp only [rangeChunks, List.foldl_nil, funcClose]
    by_cases hp0 : p = []
    · subst hp0; simp [chunkSegs, chunkCaps, seen_nil]
    · have := seen_pos hp0
      simp [hp0, chunkSegs, chunkCaps, this]
  | cons c rest ih =>
    intro lo p S hp hc
    simp only [rangeChunks, List.foldl_cons]
    cases hf : f c.rune with
    | false =>
      have e : funcStep f ⟨lo, lo + seen p, S⟩ (lo + (textOf p).length, c.rune)
          = ⟨lo, lo + seen (p ++ [c]), S⟩ := by
        simp [funcStep, hf, seen_append, runeLen]; omega
      have e2 : lo + (textOf p).length + c.bytes.length = lo + (textOf (p ++ [c])).length := by
        simp; omega
      rw [e, e2]
      have := ih lo (p ++ [c]) S (by
        intro x hx
        rcases List.mem_append.1 hx with hx | hx
        · exact hp x hx
        · simp at hx; rw [hx]; exact hf) (by simpa using hc)
      simpa using this
    | true =>
      have hb : c.bytes = encodeRune c.rune := by
        rcases (hc c (by simp)).2 with h | h
        · exact h
        · rw [h, hf0] at hf; cases hf
      have hs := chunkSegs_nomatch f p hp (c :: rest) (by simp [hf])
      rw [hs]
      have hs2 : chunkSegs f (c :: rest) = (true, [c]) :: chunkSegs f rest := by simp [chunkSegs, hf]
      rw [hs2]
      have key := ih (lo + (textOf p).length + c.bytes.length) []
        (S ++ ((if p = [] then [] else [⟨⟨lo, (lo + (textOf p).length : Nat)⟩, false⟩])
          ++ [⟨⟨(lo + (textOf p).length : Nat), (lo + (textOf p).length + c.bytes.length : Nat)⟩, true⟩])) (by simp)
        (fun x hx => hc x (by simp at hx ⊢; exact .inr (.inr hx)))
      simp only [textOf_nil, List.length_nil, Nat.add_zero, List.nil_append, seen_nil] at key
      have e : funcStep f ⟨lo, lo + seen p, S⟩ (lo + (textOf p).length, c.rune)
          = ⟨lo + (textOf p).length + c.bytes.length, lo + (textOf p).length + c.bytes.length,
            S ++ ((if p = [] then [] else [⟨⟨lo, (lo + (textOf p).length : Nat)⟩, false⟩])
          ++ [⟨⟨(lo + (textOf p).length : Nat), (lo + (textOf p).length + c.bytes.length : Nat)⟩, true⟩])⟩ := by
        by_cases hp0 : p = []
        · subst hp0
          simp [funcStep, hf, hb]
        · have : 0 < (textOf p).length := by
            cases p with
            | nil => exact absurd rfl hp0
            | cons a p =>
              have := List.length_pos_iff.2 (hc a (by simp)).1
              simp; omega
          simp only [funcStep, hf, Bool.not_true, Bool.false_eq_true, if_false, hp0, hb]
          rw [if_pos (by omega)]
          simp
      rw [e, key, List.append_assoc]
      congr 1
      have last : ∀ i : Int, chunkCaps i ((true, [c]) :: chunkSegs f rest)
          = ⟨⟨i, i + c.bytes.length⟩, true⟩ :: chunkCaps (i + c.bytes.length) (chunkSegs f rest) := by
        intro i
        cases hsr : chunkSegs f rest with
        | nil =>
          have := seen_append [] c
          simp only [List.nil_append, textOf_nil, List.length_nil, Nat.zero_add] at this
          simp [chunkCaps, this, runeLen, hb]
        | cons x t => simp [chunkCaps]
      by_cases hp0 : p = []
      · subst hp0; simp [last]
      · simp only [hp0, if_false, List.singleton_append, chunkCaps, last]
        simp [Int.natCast_add]

/-- The captures of a function pattern on any byte string. -/
theorem funcFindMatches_chunks (f : Rune → Bool) (hf0 : f 0xFFFD = false) (s : Str) :
    funcFindMatches f s = if s = [] then emptyCaptures else chunkCaps 0 (chunkSegs f (chunks s)) := by
  unfold funcFindMatches
  by_cases h : s = []
  · subst h; simp
  · have : ¬ s.length = 0 := fun h' => h (List.length_eq_zero_iff.1 h')
    rw [if_neg this, if_neg h, rangeStr_chunks]
    have := func_fold_chunks f hf0 (chunks s) 0 [] [] (by simp) (by
      intro c hc
      obtain ⟨h1, -, h2⟩ := (reads_chunks s).chunk c (by simpa using hc)
      exact ⟨h1, h2.imp id (·.2)⟩)
    simpa [funcClose, seen_nil] using this

end Verif
