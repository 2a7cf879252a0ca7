import Verif.Props.Closures
import Verif.Lemmas.Bytes
import Verif.Props.JoinBytes

/-! C149: `FromFunc` on any bytes, with any function: also one that remembers, and one that says yes to U+FFFD, which is what it is asked
about a byte that is not UTF-8. -/

set_option autoImplicit false

namespace Verif

variable {σ : Type}

/-! ## Vocabulary -/

/-- The bytes from `lo` to `hi` as a capture between matches, if there are any. -/
def stretch (lo hi : Nat) : List Capture := if lo < hi then [⟨⟨lo, hi⟩, false⟩] else []

/-- The captures, given the answer for each chunk.  Byte `p` is reached, and the match before ends at `lo`.  A chunk with the answer yes is
a match that claims as many bytes as its rune has; between two matches are the bytes from the end of the first to the start of the second,
and after the last match those up to where the last rune would end. -/
inductive ByteCuts : Nat → Nat → List (Chunk × Bool) → List Capture → Prop
  | done {lo p : Nat} {run : List (Chunk × Bool)} : (∀ x ∈ run, x.2 = false) → ByteCuts lo p run (stretch lo (p + seen (run.map (·.1))))
  | hit {lo p q : Nat} {run l : List (Chunk × Bool)} {c : Chunk} {caps : List Capture} : (∀ x ∈ run, x.2 = false) →
      q = p + (textOf (run.map (·.1))).length → ByteCuts (q + (encodeRune c.rune).length) (q + c.bytes.length) l caps →
      ByteCuts lo p (run ++ (c, true) :: l) (stretch lo q ++ ⟨⟨q, (q + (encodeRune c.rune).length : Nat)⟩, true⟩ :: caps)

/-! ## Proofs -/

/-- Chunks with their positions and answers. -/
def answered (p : Nat) (l : List (Chunk × Bool)) : List ((Nat × Rune) × Bool) := (rangeChunks p (l.map (·.1))).zip (l.map (·.2))

theorem answered_cons (p : Nat) (c : Chunk) (b : Bool) (l : List (Chunk × Bool)) :
    answered p ((c, b) :: l) = ((p, c.rune), b) :: answered (p + c.bytes.length) l := rfl

theorem answered_append : ∀ (a : List (Chunk × Bool)) (p : Nat) (l : List (Chunk × Bool)),
    answered p (a ++ l) = answered p a ++ answered (p + (textOf (a.map (·.1))).length) l := by
  intro a
  induction a with
  | nil => intro p l; simp [answered, rangeChunks]
  | cons x a ih =>
    intro p l
    obtain ⟨c, b⟩ := x
    rw [List.cons_append, answered_cons, answered_cons, ih]
    simp [Nat.add_assoc]

/-- One answer. -/
def answerStep (st : FuncState) (x : (Nat × Rune) × Bool) : FuncState := funcStep (fun _ => x.2) st x.1

theorem seen_cons (c : Chunk) {cs : List Chunk} (h : cs ≠ []) : seen (c :: cs) = c.bytes.length + seen cs := by
  rcases List.eq_nil_or_concat cs with rfl | ⟨q, d, rfl⟩
  · exact absurd rfl h
  · rw [List.concat_eq_append, ← List.cons_append, seen_append, seen_append]
    simp [Nat.add_assoc]

theorem misses_loop : ∀ (run : List (Chunk × Bool)) (p lo ls : Nat) (acc : List Capture), (∀ x ∈ run, x.2 = false) →
    (answered p run).foldl answerStep ⟨lo, ls, acc⟩ = ⟨lo, if run = [] then ls else p + seen (run.map (·.1)), acc⟩ := by
  intro run
  induction run with
  | nil => intros; rfl
  | cons x run ih =>
    intro p lo ls acc h
    obtain ⟨c, b⟩ := x
    have hb : b = false := h (c, b) (by simp)
    subst hb
    rw [answered_cons, List.foldl_cons]
    have hs : answerStep ⟨lo, ls, acc⟩ ((p, c.rune), false) = ⟨lo, p + (encodeRune c.rune).length, acc⟩ := rfl
    rw [hs, ih _ lo _ acc fun y hy => h y (by simp [hy])]
    cases run with
    | nil => simp [seen, runeLen]
    | cons y run =>
      rw [show ((c, false) :: y :: run).map (·.1) = c :: (y :: run).map (·.1) from rfl, seen_cons c (by simp)]
      simp [Nat.add_assoc]

theorem cuts_loop {lo p : Nat} {l : List (Chunk × Bool)} {caps : List Capture} (h : ByteCuts lo p l caps) : ∀ acc, p ≤ lo →
    (∀ x ∈ l, x.1.bytes.length ≤ (encodeRune x.1.rune).length) →
    finishFunc ((answered p l).foldl answerStep ⟨lo, lo, acc⟩) = acc ++ caps := by
  induction h with
  | @done lo p run hr =>
    intro acc hp _
    rw [misses_loop run p lo lo acc hr]
    cases run with
    | nil =>
      simp only [finishFunc, if_true, stretch, List.map_nil, seen_nil]
      rw [if_neg (by omega), if_neg (by omega), List.append_nil]
    | cons x run =>
      simp only [finishFunc, reduceCtorEq, if_false, stretch]
      by_cases h : lo < p + seen ((x :: run).map (·.1))
      · rw [if_pos h, if_pos h]
      · rw [if_neg h, if_neg h, List.append_nil]
  | @hit lo p q run l c caps hr hq _ ih =>
    intro acc hp hw
    rw [answered_append, List.foldl_append, misses_loop run p lo lo acc hr, answered_cons, List.foldl_cons, ← hq]
    have hs : answerStep ⟨lo, if run = [] then lo else p + seen (run.map (·.1)), acc⟩ ((q, c.rune), true)
        = ⟨q + (encodeRune c.rune).length, q + (encodeRune c.rune).length,
          acc ++ stretch lo q ++ [⟨⟨q, (q + (encodeRune c.rune).length : Nat)⟩, true⟩]⟩ := by
      simp only [answerStep, funcStep, Bool.not_true, Bool.false_eq_true, if_false, stretch]
      by_cases h : lo < q
      · rw [if_pos h, if_pos h]
      · rw [if_neg h, if_neg h, List.append_nil]
    rw [hs, ih _ (by have := hw (c, true) (by simp); simp only at this; omega) fun x hx => hw x (by simp [hx])]
    simp

theorem cuts_exist : ∀ (l run : List (Chunk × Bool)) (lo p : Nat), (∀ x ∈ run, x.2 = false) → ∃ caps, ByteCuts lo p (run ++ l) caps := by
  intro l
  induction l with
  | nil => intro run lo p h; exact ⟨_, by rw [List.append_nil]; exact .done h⟩
  | cons x l ih =>
    intro run lo p h
    obtain ⟨c, b⟩ := x
    cases b with
    | false =>
      obtain ⟨caps, hc⟩ := ih (run ++ [(c, false)]) lo p (by
        intro y hy
        rcases List.mem_append.1 hy with hy | hy
        · exact h y hy
        · simp at hy; rw [hy])
      exact ⟨caps, by simpa using hc⟩
    | true =>
      obtain ⟨caps, hc⟩ := ih [] (p + (textOf (run.map (·.1))).length + (encodeRune c.rune).length)
        (p + (textOf (run.map (·.1))).length + c.bytes.length) (by simp)
      exact ⟨_, .hit h rfl hc⟩

theorem chunk_width {s : Str} : ∀ c ∈ chunks s, c.bytes.length ≤ (encodeRune c.rune).length := by
  intro c hc
  rcases (goodChunks s c hc).2 with h | ⟨h, -⟩
  · rw [h]; exact Nat.le_refl _
  · rw [h]; exact encodeRune_length_pos _

/-- **C149.** `FromFunc` on any bytes that are not nothing: the function is asked about the chunks in order, about U+FFFD where a byte is
not UTF-8, and the captures are those of the answers; if it panics, so does `FindMatches`. -/
theorem C149_find {text : Str} (hne : text ≠ []) (w : σ) (f : Rune → Left σ Bool) :
    (∀ bs w', Asked f ((chunks text).map (·.rune)) w bs w' →
      ∃ caps, funcFindMatchesC f text w = (w', .ok caps)
        ∧ ∀ caps', ByteCuts 0 0 ((chunks text).zip bs) caps' ↔ caps' = caps)
    ∧ (∀ w', Stopped f ((chunks text).map (·.rune)) w w' → funcFindMatchesC f text w = (w', .panic)) := by
  have hl : ¬ text.length = 0 := fun h => hne (List.eq_nil_of_length_eq_zero h)
  have hmap : (rangeStr text).map (·.2) = (chunks text).map (·.rune) := by rw [rangeStr_chunks, rangeChunks_map_snd]
  constructor
  · intro bs w' h
    have hlen := h.length
    simp only [List.length_map] at hlen
    have hf := forEach_asked f (fun (st : FuncState) (ir : Nat × Rune) b => funcStep (fun _ => b) st ir) (·.2) (rangeStr text) w bs w'
      ⟨0, 0, []⟩ (by rw [hmap]; exact h)
    have h1 : ((chunks text).zip bs).map (·.1) = chunks text := List.map_fst_zip (by omega)
    have h2 : ((chunks text).zip bs).map (·.2) = bs := List.map_snd_zip (by omega)
    have hp : (rangeStr text).zip bs = answered 0 ((chunks text).zip bs) := by rw [answered, h1, h2, rangeStr_chunks]
    have hw : ∀ x ∈ (chunks text).zip bs, x.1.bytes.length ≤ (encodeRune x.1.rune).length :=
      fun x hx => chunk_width x.1 (List.of_mem_zip hx).1
    have huniq : ∀ caps', ByteCuts 0 0 ((chunks text).zip bs) caps' →
        caps' = finishFunc ((answered 0 ((chunks text).zip bs)).foldl answerStep ⟨0, 0, []⟩) := by
      intro caps' hc
      simpa using (cuts_loop hc [] (Nat.le_refl 0) hw).symm
    refine ⟨finishFunc ((answered 0 ((chunks text).zip bs)).foldl answerStep ⟨0, 0, []⟩), ?_, fun caps' => ⟨huniq caps', ?_⟩⟩
    · unfold funcFindMatchesC
      rw [if_neg hl, Left.bind_apply, hf, ← hp]
      simp only [finishFunc]
      show _ = (w', GoM.ok (if _ then _ else _))
      unfold answerStep
      split <;> rfl
    · intro e
      obtain ⟨caps, hc⟩ := cuts_exist ((chunks text).zip bs) [] 0 0 (by simp)
      rw [e, ← huniq caps hc]
      exact hc
  · intro w' h
    have hf := forEach_stopped f (fun (st : FuncState) (ir : Nat × Rune) b => funcStep (fun _ => b) st ir) (·.2) (rangeStr text) w w'
      ⟨0, 0, []⟩ (by rw [hmap]; exact h)
    unfold funcFindMatchesC
    rw [if_neg hl, Left.bind_apply, hf]

/-- **C149, a function that remembers nothing.** -/
theorem C149_pure {text : Str} (hne : text ≠ []) (f : Rune → Bool) (caps : List Capture) :
    ByteCuts 0 0 ((chunks text).map fun c => (c, f c.rune)) caps ↔ caps = funcFindMatches f text := by
  have hl : ¬ text.length = 0 := fun h => hne (List.eq_nil_of_length_eq_zero h)
  have hp : ∀ (cs : List Chunk) (p : Nat) (st : FuncState), (answered p (cs.map fun c => (c, f c.rune))).foldl answerStep st
      = (rangeChunks p cs).foldl (funcStep f) st := by
    intro cs
    induction cs with
    | nil => intros; rfl
    | cons c cs ih =>
      intro p st
      rw [List.map_cons, answered_cons, List.foldl_cons, rangeChunks, List.foldl_cons, ih]
      rfl
  have hw : ∀ x ∈ (chunks text).map fun c => (c, f c.rune), x.1.bytes.length ≤ (encodeRune x.1.rune).length := by
    intro x hx
    obtain ⟨c, hc, rfl⟩ := List.mem_map.1 hx
    exact chunk_width c hc
  have huniq : ∀ caps', ByteCuts 0 0 ((chunks text).map fun c => (c, f c.rune)) caps' → caps' = funcFindMatches f text := by
    intro caps' hc
    have := cuts_loop hc [] (Nat.le_refl 0) hw
    rw [hp, List.nil_append] at this
    rw [← this, funcFindMatches, if_neg hl, rangeStr_chunks]
    rfl
  refine ⟨huniq caps, ?_⟩
  rintro rfl
  obtain ⟨caps', hc⟩ := cuts_exist ((chunks text).map fun c => (c, f c.rune)) [] 0 0 (by simp)
  rw [← huniq caps' hc]
  exact hc

/-! ## When the captures tile the text -/

/-- After every byte that is not UTF-8 and matches, at least two bytes come before the next match. -/
def SpareRoom (l : List (Chunk × Bool)) : Prop :=
  ∀ (a : List (Chunk × Bool)) (c : Chunk) (b : List (Chunk × Bool)), l = a ++ (c, true) :: b → c.isBad = true →
    2 ≤ (textOf ((b.takeWhile (!·.2)).map (·.1))).length

theorem spare_nil : SpareRoom [] := by
  intro a c b h
  simp at h

theorem spare_cons (c : Chunk) (b : Bool) (l : List (Chunk × Bool)) :
    SpareRoom ((c, b) :: l) ↔ (b = true → c.isBad = true → 2 ≤ (textOf ((l.takeWhile (!·.2)).map (·.1))).length) ∧ SpareRoom l := by
  constructor
  · intro h
    exact ⟨fun hb => h [] c l (by rw [hb]; rfl), fun a d m e => h ((c, b) :: a) d m (by rw [e]; rfl)⟩
  · rintro ⟨h1, h2⟩ a d m e
    cases a with
    | nil =>
      simp only [List.nil_append, List.cons.injEq, Prod.mk.injEq] at e
      obtain ⟨⟨rfl, hb⟩, rfl⟩ := e
      exact h1 hb
    | cons x a =>
      simp only [List.cons_append, List.cons.injEq] at e
      exact h2 a d m e.2

theorem spare_misses : ∀ (run l : List (Chunk × Bool)), (∀ x ∈ run, x.2 = false) → (SpareRoom (run ++ l) ↔ SpareRoom l) := by
  intro run
  induction run with
  | nil => intros; rfl
  | cons x run ih =>
    intro l h
    obtain ⟨c, b⟩ := x
    have hb : b = false := h (c, b) (by simp)
    rw [List.cons_append, spare_cons, ih l fun y hy => h y (by simp [hy]), hb]
    simp

theorem takeWhile_misses : ∀ (run l : List (Chunk × Bool)), (∀ x ∈ run, x.2 = false) →
    (run ++ l).takeWhile (!·.2) = run ++ l.takeWhile (!·.2) := by
  intro run
  induction run with
  | nil => intros; rfl
  | cons x run ih =>
    intro l h
    rw [List.cons_append, List.takeWhile_cons, if_pos (by simp [h x (by simp)]), ih l fun y hy => h y (by simp [hy]), List.cons_append]

/-- The width of a chunk and of its rune. -/
theorem chunk_room {c : Chunk} (h : c.bytes = encodeRune c.rune ∨ (c.bytes.length = 1 ∧ c.rune = 0xFFFD)) :
    (c.isBad = false → (encodeRune c.rune).length = c.bytes.length) ∧ (c.isBad = true → (encodeRune c.rune).length = c.bytes.length + 2) := by
  constructor
  · intro hb
    have : c.bytes = encodeRune c.rune := by simpa [Chunk.isBad] using hb
    rw [this]
  · intro hb
    rcases h with h | ⟨h1, h2⟩
    · simp [Chunk.isBad, h] at hb
    · rw [h1, h2]; decide

theorem adjoining_stretch {lo q : Nat} {caps : List Capture} {e : Int} {c : Capture} (hc : c.offsets.start = q) :
    Adjoining lo (stretch lo q ++ c :: caps) e ↔ lo ≤ q ∧ Adjoining c.offsets.stop caps e := by
  unfold stretch
  by_cases h : lo < q
  · rw [if_pos h]
    simp only [List.cons_append, List.nil_append, Adjoining, hc, true_and]
    exact ⟨fun x => ⟨by omega, x⟩, fun x => x.2⟩
  · rw [if_neg h]
    simp only [List.nil_append, Adjoining, hc]
    exact ⟨fun x => ⟨by omega, x.2⟩, fun x => ⟨by omega, x.2⟩⟩

theorem cuts_tile {lo p : Nat} {l : List (Chunk × Bool)} {caps : List Capture} (h : ByteCuts lo p l caps) : p ≤ lo →
    (∀ x ∈ l, x.1.bytes = encodeRune x.1.rune ∨ (x.1.bytes.length = 1 ∧ x.1.rune = 0xFFFD)) →
    (Adjoining lo caps (p + (textOf (l.map (·.1))).length : Nat)
      ↔ lo ≤ p + (textOf ((l.takeWhile (!·.2)).map (·.1))).length ∧ (∀ x ∈ l.getLast?, x.1.isBad = false) ∧ SpareRoom l) := by
  induction h with
  | @done lo p run hr =>
    intro hp hw
    have ht : run.takeWhile (!·.2) = run := by simpa using takeWhile_misses run [] hr
    have hro : SpareRoom run := by simpa using (spare_misses run [] hr).2 spare_nil
    rw [ht]
    rcases List.eq_nil_or_concat run with rfl | ⟨q, d, rfl⟩
    · simp only [List.map_nil, seen_nil, textOf_nil, List.length_nil, Nat.add_zero, stretch]
      rw [if_neg (by omega)]
      simp only [Adjoining]
      exact ⟨fun h => ⟨by omega, by simp, hro⟩, fun h => by omega⟩
    · obtain ⟨d, b⟩ := d
      rw [List.concat_eq_append] at *
      have hd := chunk_room (hw (d, b) (by simp))
      simp only [List.map_append, List.map_cons, List.map_nil, seen_append, runeLen, textOf_append, textOf_cons, textOf_nil,
        List.length_append, List.length_nil, Nat.add_zero, List.getLast?_append, List.getLast?_singleton, Option.some_or,
        Option.mem_some_iff, forall_eq', stretch]
      cases hb : d.isBad with
      | false =>
        rw [hd.1 hb]
        by_cases h : lo < p + ((textOf (q.map (·.1))).length + d.bytes.length)
        · rw [if_pos h]
          simp only [Adjoining, true_and]
          exact ⟨fun _ => ⟨by omega, hro⟩, fun _ => trivial⟩
        · rw [if_neg h]
          simp only [Adjoining, true_and]
          exact ⟨fun _ => ⟨by omega, hro⟩, fun _ => by omega⟩
      | true =>
        rw [hd.2 hb]
        by_cases h : lo < p + ((textOf (q.map (·.1))).length + (d.bytes.length + 2))
        · rw [if_pos h]
          simp only [Adjoining, true_and]
          exact ⟨fun _ => by omega, fun h => by simp at h⟩
        · rw [if_neg h]
          simp only [Adjoining]
          exact ⟨fun _ => by omega, fun h => by simp at h⟩
  | @hit lo p q run l c caps hr hq _ ih =>
    intro hp hw
    have hc := chunk_room (c := c) (hw (c, true) (by simp))
    rw [takeWhile_misses _ _ hr, List.takeWhile_cons, if_neg (by simp), List.append_nil, spare_misses _ _ hr, spare_cons,
      adjoining_stretch rfl, ← hq]
    have hle : c.bytes.length ≤ (encodeRune c.rune).length := by
      cases hb : c.isBad with
      | false => have := hc.1 hb; omega
      | true => have := hc.2 hb; omega
    have := ih (by omega) fun x hx => hw x (by simp [hx])
    have he : p + (textOf ((run ++ (c, true) :: l).map (·.1))).length = q + c.bytes.length + (textOf (l.map (·.1))).length := by
      simp only [List.map_append, List.map_cons, textOf_append, textOf_cons, List.length_append]
      omega
    rw [he, this]
    have hlast : (∀ x ∈ (run ++ (c, true) :: l).getLast?, x.1.isBad = false) ↔ (l = [] → c.isBad = false) ∧ ∀ x ∈ l.getLast?, x.1.isBad = false := by
      rcases List.eq_nil_or_concat l with rfl | ⟨m, d, rfl⟩
      · simp
      · rw [List.concat_eq_append, show run ++ (c, true) :: (m ++ [d]) = (run ++ (c, true) :: m) ++ [d] by simp,
          List.getLast?_concat, List.getLast?_concat]
        simp
    rw [hlast]
    cases hb : c.isBad with
    | false =>
      have := hc.1 hb
      constructor
      · rintro ⟨h1, h2, h3, h4⟩
        exact ⟨h1, ⟨by simp, h3⟩, by simp, h4⟩
      · rintro ⟨h1, ⟨-, h3⟩, -, h4⟩
        exact ⟨h1, by omega, h3, h4⟩
    | true =>
      have := hc.2 hb
      constructor
      · rintro ⟨h1, h2, h3, h4⟩
        refine ⟨h1, ⟨?_, h3⟩, fun _ _ => by omega, h4⟩
        rintro rfl
        simp at h2
        omega
      · rintro ⟨h1, ⟨-, h3⟩, h5, h4⟩
        have := h5 rfl rfl
        exact ⟨h1, by omega, h3, h4⟩

/-- **C149.** The captures of a function tile the text, from its start to its end, exactly if the last byte read is UTF-8 and every byte
that is not UTF-8 and matches has two bytes after it before the next match. -/
theorem C149_tiles {text : Str} (hne : text ≠ []) (f : Rune → Bool) :
    Adjoining 0 (funcFindMatches f text) text.length
      ↔ (∀ c ∈ (chunks text).getLast?, c.isBad = false) ∧ SpareRoom ((chunks text).map fun c => (c, f c.rune)) := by
  have hc := (C149_pure hne f _).2 rfl
  have hw : ∀ x ∈ (chunks text).map fun c => (c, f c.rune), x.1.bytes = encodeRune x.1.rune ∨ (x.1.bytes.length = 1 ∧ x.1.rune = 0xFFFD) := by
    intro x hx
    obtain ⟨c, hc, rfl⟩ := List.mem_map.1 hx
    exact (goodChunks text c hc).2
  have := cuts_tile hc (Nat.le_refl 0) hw
  have e : ((chunks text).map fun c => (c, f c.rune)).map (·.1) = chunks text := by simp [Function.comp_def]
  rw [e, textOf_chunks] at this
  simp only [Nat.zero_add, Nat.zero_le, true_and] at this
  refine this.trans (and_congr_left fun _ => ?_)
  rw [List.getLast?_map]
  cases (chunks text).getLast? <;> simp

/-! ## When no byte is lost or doubled -/

/-- The bytes that captures claim, counted as often as they are claimed. -/
def claimed : List Capture → Int
  | [] => 0
  | c :: cs => (c.offsets.stop - c.offsets.start) + claimed cs

theorem cuts_claimed {lo p : Nat} {l : List (Chunk × Bool)} {caps : List Capture} (h : ByteCuts lo p l caps) : p ≤ lo →
    (∀ x ∈ l, x.1.bytes = encodeRune x.1.rune ∨ (x.1.bytes.length = 1 ∧ x.1.rune = 0xFFFD)) →
    lo ≤ p + (textOf (l.map (·.1))).length → (∀ c ∈ caps, c.offsets.stop ≤ (p + (textOf (l.map (·.1))).length : Nat)) →
    (p + (textOf (l.map (·.1))).length : Nat) - (lo : Int) ≤ claimed caps
    ∧ (claimed caps = (p + (textOf (l.map (·.1))).length : Nat) - (lo : Int) → Adjoining lo caps (p + (textOf (l.map (·.1))).length : Nat)) := by
  induction h with
  | @done lo p run hr =>
    intro hp hw hle hst
    have hseen : (textOf (run.map (·.1))).length ≤ seen (run.map (·.1)) := by
      rcases List.eq_nil_or_concat run with rfl | ⟨q, d, rfl⟩
      · simp
      · rw [List.concat_eq_append] at *
        have hd := chunk_room (c := d.1) (hw d (by simp))
        simp only [List.map_append, List.map_cons, List.map_nil, seen_append, runeLen, textOf_append, textOf_cons, textOf_nil,
          List.length_append, List.length_nil, Nat.add_zero]
        cases hb : d.1.isBad with
        | false => have := hd.1 hb; omega
        | true => have := hd.2 hb; omega
    unfold stretch at hst ⊢
    by_cases h : lo < p + seen (run.map (·.1))
    · rw [if_pos h] at hst ⊢
      have := hst _ (List.mem_singleton.2 rfl)
      simp only at this
      simp only [claimed, Adjoining]
      exact ⟨by omega, fun _ => ⟨trivial, by omega⟩⟩
    · rw [if_neg h]
      simp only [claimed, Adjoining]
      exact ⟨by omega, fun _ => by omega⟩
  | @hit lo p q run l c caps hr hq _ ih =>
    intro hp hw hle hst
    have hc := chunk_room (c := c) (hw (c, true) (by simp))
    have hwid : c.bytes.length ≤ (encodeRune c.rune).length := by
      cases hb : c.isBad with
      | false => have := hc.1 hb; omega
      | true => have := hc.2 hb; omega
    have he : p + (textOf ((run ++ (c, true) :: l).map (·.1))).length = q + c.bytes.length + (textOf (l.map (·.1))).length := by
      simp only [List.map_append, List.map_cons, textOf_append, textOf_cons, List.length_append]
      omega
    rw [he] at hle hst ⊢
    have h0 := hst ⟨⟨q, (q + (encodeRune c.rune).length : Nat)⟩, true⟩ (by simp)
    simp only at h0
    obtain ⟨i1, i2⟩ := ih (by omega) (fun x hx => hw x (by simp [hx])) (by omega) fun x hx => hst x (by simp [hx])
    rw [adjoining_stretch rfl]
    unfold stretch
    by_cases h : lo < q
    · rw [if_pos h]
      simp only [List.cons_append, List.nil_append, claimed]
      exact ⟨by omega, fun e => ⟨by omega, i2 (by omega)⟩⟩
    · rw [if_neg h]
      simp only [List.nil_append, claimed]
      exact ⟨by omega, fun e => ⟨by omega, i2 (by omega)⟩⟩

/-- If the last byte is bad, a capture ends beyond the text. -/
theorem ends_beyond {lo p : Nat} {l : List (Chunk × Bool)} {caps : List Capture} (h : ByteCuts lo p l caps) : p ≤ lo →
    (∀ x ∈ l, x.1.bytes = encodeRune x.1.rune ∨ (x.1.bytes.length = 1 ∧ x.1.rune = 0xFFFD)) →
    ∀ {x : Chunk × Bool}, l.getLast? = some x → x.1.isBad = true → lo < p + (textOf (l.map (·.1))).length + 2 →
    ¬ ∀ c ∈ caps, c.offsets.stop ≤ (p + (textOf (l.map (·.1))).length : Nat) := by
  induction h with
  | @done lo p run hr =>
    intro hp hw x hx hb hlo hst
    obtain ⟨q, rfl⟩ : ∃ q, run = q ++ [x] := List.getLast?_eq_some_iff.1 hx
    have hd := (chunk_room (c := x.1) (hw x (by simp))).2 hb
    simp only [List.map_append, List.map_cons, List.map_nil, seen_append, runeLen, textOf_append, textOf_cons, textOf_nil,
      List.length_append, List.length_nil, Nat.add_zero, stretch] at hst hlo
    rw [if_pos (by omega)] at hst
    have := hst _ (List.mem_singleton.2 rfl)
    simp only at this
    omega
  | @hit lo p q run l c caps hr hq _ ih =>
    intro hp hw x hx hb hlo hst
    have hc := chunk_room (c := c) (hw (c, true) (by simp))
    have hwid : c.bytes.length ≤ (encodeRune c.rune).length ∧ (encodeRune c.rune).length ≤ c.bytes.length + 2 := by
      cases hb : c.isBad with
      | false => have := hc.1 hb; omega
      | true => have := hc.2 hb; omega
    have he : p + (textOf ((run ++ (c, true) :: l).map (·.1))).length = q + c.bytes.length + (textOf (l.map (·.1))).length := by
      simp only [List.map_append, List.map_cons, textOf_append, textOf_cons, List.length_append]
      omega
    rw [he] at hst
    have h0 := hst ⟨⟨q, (q + (encodeRune c.rune).length : Nat)⟩, true⟩ (by simp)
    simp only at h0
    rcases List.eq_nil_or_concat l with rfl | ⟨m, d, rfl⟩
    · have : x = (c, true) := by simpa using hx.symm
      subst this
      have := hc.2 hb
      simp at h0
      omega
    · rw [List.concat_eq_append] at *
      rw [show run ++ (c, true) :: (m ++ [d]) = (run ++ (c, true) :: m) ++ [d] by simp, List.getLast?_concat] at hx
      exact ih (by omega) (fun y hy => hw y (by simp at hy ⊢; exact .inr (.inr hy))) (by rw [List.getLast?_concat, hx]) hb (by omega)
        fun y hy => hst y (by simp [hy])

theorem claimed_pieces {s : Str} : ∀ {caps : List Capture} {ps : List NS},
    All2 (fun g p => goSlice s (span g).1 (span g).2 = .ok p.get) (caps.map fun c => [c]) ps →
    claimed caps = ((ps.map NS.get).flatten.length : Int) ∧ ∀ c ∈ caps, c.offsets.stop ≤ (s.length : Int) := by
  intro caps
  induction caps with
  | nil => intro ps h; cases h; simp [claimed]
  | cons c caps ih =>
    intro ps h
    cases h with
    | cons h1 h2 =>
      obtain ⟨i1, i2⟩ := ih h2
      obtain ⟨⟨k1, k2, k3⟩, h1⟩ := goSlice_eq_ok.1 h1
      simp only [span, List.getLast_singleton] at k1 k2 k3 h1
      refine ⟨?_, ?_⟩
      · simp only [claimed, i1, List.map_cons, List.flatten_cons, List.length_append, h1, List.length_take, List.length_drop]
        omega
      · intro x hx
        rcases List.mem_cons.1 hx with rfl | hx
        · exact k3
        · exact i2 x hx

/-- **C149, Split.** In any state, for any bytes and any function: if `Split` with Isolated succeeds, the pieces joined are the text
exactly if every byte that is not UTF-8 and matches has two bytes after it before the next match; otherwise bytes come twice. -/
theorem C149_join {ns : NS} (hne : ns.get ≠ []) (f : Rune → Bool) {pieces : List NS} (h : ns.split (fromFunc f) .isolated = .ok (.ok pieces)) :
    ((pieces.map NS.get).flatten = ns.get ↔ SpareRoom ((chunks ns.get).map fun c => (c, f c.rune)))
    ∧ ns.get.length ≤ (pieces.map NS.get).flatten.length := by
  have hp : fromFunc f ns.get = .ok (.ok (funcFindMatches f ns.get)) := rfl
  have h1 := C78_pieces hp h
  have hcl := claimed_pieces h1
  have hw : ∀ x ∈ (chunks ns.get).map fun c => (c, f c.rune), x.1.bytes = encodeRune x.1.rune ∨ (x.1.bytes.length = 1 ∧ x.1.rune = 0xFFFD) := by
    intro x hx
    obtain ⟨c, hc, rfl⟩ := List.mem_map.1 hx
    exact (goodChunks ns.get c hc).2
  have e : ((chunks ns.get).map fun c => (c, f c.rune)).map (·.1) = chunks ns.get := by simp [Function.comp_def]
  have hc := (C149_pure hne f _).2 rfl
  obtain ⟨a1, a2⟩ := cuts_claimed hc (Nat.le_refl 0) hw (by omega) (by rw [e, textOf_chunks, Nat.zero_add]; exact hcl.2)
  rw [e, textOf_chunks, Nat.zero_add] at a1 a2
  have tiles := C149_tiles hne f
  refine ⟨⟨fun hj => ?_, fun hr => ?_⟩, by omega⟩
  · rw [hj] at hcl
    exact (tiles.1 (a2 (by rw [hcl.1]; simp))).2
  · have hlast : ∀ c ∈ (chunks ns.get).getLast?, c.isBad = false := by
      intro c hcm
      cases hb : c.isBad with
      | false => rfl
      | true =>
        exfalso
        exact ends_beyond hc (Nat.le_refl 0) hw (x := (c, f c.rune)) (by rw [List.getLast?_map, Option.mem_def.1 hcm]; rfl) hb (by omega) (by rw [e, textOf_chunks, Nat.zero_add]; exact hcl.2)
    have hadj := tiles.2 ⟨hlast, hr⟩
    obtain ⟨f1, f2⟩ := splitGroups_flatten .isolated (funcFindMatches f ns.get)
    rw [if_neg (by simp)] at f1
    rw [← f1] at hadj
    obtain ⟨-, -, j3⟩ := join_groups h1 f2 hadj (Int.le_refl 0)
    rw [j3]
    simp

/-! ## Concrete -/

/-- A byte that is not UTF-8 and matches: the match claims the two bytes after it, also when they are matches themselves or do not exist. -/
theorem C149_example :
    funcFindMatches (fun r => r == 0xFFFD) [97, 0xFF, 98, 99, 100] = [⟨⟨0, 1⟩, false⟩, ⟨⟨1, 4⟩, true⟩, ⟨⟨4, 5⟩, false⟩]
    ∧ funcFindMatches (fun r => r == 0xFFFD) [0xFF, 0xFF, 97] = [⟨⟨0, 3⟩, true⟩, ⟨⟨1, 4⟩, true⟩]
    ∧ funcFindMatches (fun r => r == 0xFFFD) [97, 0xFF] = [⟨⟨0, 1⟩, false⟩, ⟨⟨1, 4⟩, true⟩]
    ∧ funcFindMatchesC (fun r (n : Nat) => (n + 1, .ok (r == 0xFFFD && n == 0))) [0xFF, 0xFF, 97, 98] 0 = (4, .ok [⟨⟨0, 3⟩, true⟩, ⟨⟨3, 4⟩, false⟩]) := by
  decide +kernel

/-- So cutting at U+FFFD and replacing it lose the letters after a byte that is not UTF-8, and cutting fails where the text has fewer than
two bytes left. -/
theorem C149_lost :
    (∃ ps, (NS.fromString [97, 0xFF, 98, 99, 100]).split (fromRune 0xFFFD) .removed = .ok (.ok ps) ∧ ps.map (·.get) = [[97], [100]])
    ∧ (NS.fromString [97, 0xFF, 98]).split (fromRune 0xFFFD) .isolated = .ok (.error .badSplit)
    ∧ (∃ ns, (NS.fromString [0xFF, 97, 98, 99]).replace (fromRune 0xFFFD) b!"?" = .ok (.ok ns) ∧ ns.get = b!"?c") := by
  refine ⟨⟨_, rfl, ?_⟩, ?_, ⟨_, rfl, ?_⟩⟩ <;> decide +kernel

end Verif
