import Verif.Spec.Work
import Verif.Props.MergeAll
import Verif.Props.Literal
import Verif.Props.WordPiece
import Verif.Props.Machine
import Verif.Lemmas.FromString
import Verif.Model.Notation

/-! Property C80: how much work the models do. -/

set_option autoImplicit false

namespace Verif

/-! ## WordPiece -/

namespace WordPiece

theorem findTokenCount_fst (m : WordPiece) (s : Str) (start fuel : Nat) (stop : Int) :
    (m.findTokenCount s start fuel stop).1 = m.findToken s start fuel stop := by
  induction fuel generalizing stop with
  | zero => rfl
  | succ fuel ih =>
    simp only [findTokenCount, findToken]
    split
    · cases m.vocab.getID (m.subStr s start stop.toNat) with
      | some id => rfl
      | none =>
        simp only
        cases (m.subStr s start stop.toNat).getLast? with
        | some b => exact ih _
        | none => exact ih _
    · rfl

theorem findTokenCount_snd (m : WordPiece) (s : Str) (start fuel : Nat) (stop : Int) :
    (m.findTokenCount s start fuel stop).2 ≤ (stop - start).toNat := by
  induction fuel generalizing stop with
  | zero => simp [findTokenCount]
  | succ fuel ih =>
    simp only [findTokenCount]
    split
    · cases m.vocab.getID (m.subStr s start stop.toNat) with
      | some id => simp only; omega
      | none =>
        simp only
        cases (m.subStr s start stop.toNat).getLast? with
        | some b =>
          have h1 := ih (stop - byteStringLen b)
          have h2 : 1 ≤ byteStringLen b := by unfold byteStringLen; exact encodeRune_length_pos _
          simp only
          omega
        | none =>
          have h1 := ih (stop - 1)
          simp only
          omega
    · simp

theorem tokenLoopCount_fst (m : WordPiece) (s : Str) (fuel start : Nat) :
    (m.tokenLoopCount s fuel start).1 = m.tokenLoop s fuel start := by
  induction fuel generalizing start with
  | zero => unfold tokenLoopCount tokenLoop; split <;> rfl
  | succ fuel ih =>
    unfold tokenLoopCount tokenLoop
    split
    · simp only [findTokenCount_fst]
      cases m.findToken s start s.length s.length with
      | none => rfl
      | some t =>
        simp only [ih]
        cases m.tokenLoop s fuel t.offsets.stop.toNat <;> rfl
    · rfl

theorem findToken_advances {m : WordPiece} {s : Str} {start : Nat} (fuel : Nat) : ∀ (stop : Int) (t : Token),
    m.findToken s start fuel stop = some t → (start : Int) < t.offsets.stop := by
  induction fuel with
  | zero => intro stop t h; simp [findToken] at h
  | succ fuel ih =>
    intro stop t h
    unfold findToken at h
    by_cases hlt : (start : Int) < stop
    · rw [if_pos hlt] at h
      simp only at h
      cases hg : m.vocab.getID (m.subStr s start stop.toNat) with
      | some id => rw [hg] at h; simp at h; subst h; exact hlt
      | none =>
        rw [hg] at h
        simp only at h
        cases hl : (m.subStr s start stop.toNat).getLast? with
        | none => rw [hl] at h; exact ih _ _ h
        | some b => rw [hl] at h; exact ih _ _ h
    · rw [if_neg hlt] at h; simp at h

/-- `n + (n-1) + … + 1`. -/
def triangle : Nat → Nat
  | 0 => 0
  | n + 1 => (n + 1) + triangle n

theorem triangle_eq (n : Nat) : 2 * triangle n = n * (n + 1) := by
  induction n with
  | zero => rfl
  | succ n ih => simp only [triangle]; grind

theorem triangle_mono {a b : Nat} (h : a ≤ b) : triangle a ≤ triangle b := by
  induction b with
  | zero => rw [show a = 0 by omega]; exact Nat.le_refl _
  | succ b ih =>
    by_cases e : a = b + 1
    · rw [e]; exact Nat.le_refl _
    · have := ih (by omega); simp only [triangle]; omega

theorem tokenLoopCount_snd (m : WordPiece) (s : Str) (fuel start : Nat) :
    (m.tokenLoopCount s fuel start).2 ≤ triangle (s.length - start) := by
  induction fuel generalizing start with
  | zero => unfold tokenLoopCount; split <;> simp
  | succ fuel ih =>
    unfold tokenLoopCount
    by_cases h : start < s.length
    · rw [if_pos h]
      simp only [findTokenCount_fst]
      have h1 := findTokenCount_snd m s start s.length s.length
      have ht : triangle (s.length - start) = (s.length - start) + triangle (s.length - start - 1) := by
        rw [show s.length - start = (s.length - start - 1) + 1 by omega]; simp only [triangle]; rfl
      cases hf : m.findToken s start s.length s.length with
      | none => simp only; omega
      | some t =>
        have ha := findToken_advances _ _ _ hf
        have h2 := ih t.offsets.stop.toNat
        have h3 : triangle (s.length - t.offsets.stop.toNat) ≤ triangle (s.length - start - 1) := triangle_mono (by omega)
        simp only
        cases (m.tokenLoopCount s fuel t.offsets.stop.toNat).1 <;> simp only <;> omega
    · rw [if_neg h]; simp

/-- The counting version computes the same. -/
theorem tokenizeCount_fst (m : WordPiece) (s : Str) : (m.tokenizeCount s).1 = m.tokenize s := by
  unfold tokenizeCount tokenize
  split
  · rfl
  · simp only [tokenLoopCount_fst]
    cases m.tokenLoop s s.length 0 <;> rfl

theorem rangeAux_bytes (s : Str) : ∀ i k : Nat, s.length ≤ k + 4 * (rangeAux s i k).length := by
  have hsz : ∀ s : Str, (decodeRune s).2 ≤ 4 := by
    intro s
    by_cases h0 : s = []
    · subst h0; decide
    · rcases decodeRune_cases s h0 with h | ⟨rest, h⟩
      · rw [h]; decide
      · have h1 := decodeRune_encodeRune (decodeRune_valid s) rest
        rw [← h] at h1
        have h2 := Machine.encodeRunes_le_four [(decodeRune s).1]
        simp only [encodeRunes_cons, encodeRunes_nil, List.append_nil, List.length_singleton] at h2
        rw [h1]
        simpa using h2
  induction s with
  | nil => intros; simp
  | cons b bs ih =>
    intro i k
    cases k with
    | zero =>
      have h1 := ih (i + 1) ((decodeRune (b :: bs)).2 - 1)
      have h2 := hsz (b :: bs)
      simp only [rangeAux, List.length_cons]
      omega
    | succ k =>
      have := ih (i + 1) k
      simp only [rangeAux, List.length_cons]
      omega

theorem length_le_runes (s : Str) : s.length ≤ 4 * (runesOf s).length := by
  have := rangeAux_bytes s 0 0
  simpa [runesOf, rangeStr] using this

/-- The model that knows `a` at the start and in the middle of a word. -/
def onlyA (max : Int) : WordPiece := ⟨⟨some [(b!"a", 0), (b!"##a", 1)], [(0, b!"a"), (1, b!"##a")]⟩, b!"?", b!"##", max⟩

theorem onlyA_sub (max : Int) (n start stop : Nat) (h1 : start < stop) (h2 : stop ≤ n) :
    (onlyA max).subStr (List.replicate n 97) start stop
      = (if start > 0 then b!"##" else []) ++ List.replicate (stop - start) 97 := by
  unfold subStr
  have : ((List.replicate n (97 : UInt8)).drop start).take (stop - start) = List.replicate (stop - start) 97 := by
    rw [List.drop_replicate, List.take_replicate]
    congr 1
    omega
  simp only [this]
  split <;> rfl

theorem onlyA_getID (max : Int) (start k : Nat) :
    (onlyA max).vocab.getID ((if start > 0 then b!"##" else []) ++ List.replicate (k + 2) 97) = none := by
  unfold Vocab.getID onlyA
  simp only [Option.getD_some, GoMap.get?]
  have l1 : ∀ x : Str, x.length ≠ 1 → b!"a" ≠ x := by intro x hx e; rw [← e] at hx; exact hx rfl
  have l3 : ∀ x : Str, x.length ≠ 3 → b!"##a" ≠ x := by intro x hx e; rw [← e] at hx; exact hx rfl
  by_cases h : start > 0
  · rw [if_pos h]
    have hl : (b!"##" ++ List.replicate (k + 2) (97 : UInt8)).length = k + 4 := by
      rw [List.length_append, List.length_replicate]; show 2 + (k + 2) = _; omega
    rw [if_neg (l1 _ (by omega)), if_neg (l3 _ (by omega))]
  · rw [if_neg h]
    have hl : ([] ++ List.replicate (k + 2) (97 : UInt8)).length = k + 2 := by simp
    rw [if_neg (l1 _ (by omega)), if_neg]
    intro e
    have := congrArg List.head? e
    simp [List.replicate_succ] at this

theorem onlyA_find (max : Int) (n start : Nat) (k : Nat) : ∀ fuel, k + 1 ≤ fuel → start + k + 1 ≤ n →
    ∃ t, (onlyA max).findTokenCount (List.replicate n 97) start fuel ((start + k + 1 : Nat) : Int) = (some t, k + 1)
      ∧ t.offsets.stop = start + 1 := by
  induction k with
  | zero =>
    intro fuel hf hn
    obtain ⟨fuel, rfl⟩ : ∃ f, fuel = f + 1 := ⟨fuel - 1, by omega⟩
    simp only [findTokenCount]
    rw [if_pos (by omega), show ((start + 0 + 1 : Nat) : Int).toNat = start + 1 by omega,
      onlyA_sub max n start (start + 1) (by omega) (by omega), show start + 1 - start = 1 by omega]
    by_cases h : start > 0
    · rw [if_pos h]
      have : (onlyA max).vocab.getID (b!"##" ++ List.replicate 1 97) = some 1 := rfl
      rw [this]
      exact ⟨_, rfl, by simp⟩
    · rw [if_neg h]
      have : (onlyA max).vocab.getID ([] ++ List.replicate 1 97) = some 0 := rfl
      rw [this]
      exact ⟨_, rfl, by simp⟩
  | succ k ih =>
    intro fuel hf hn
    obtain ⟨fuel, rfl⟩ : ∃ f, fuel = f + 1 := ⟨fuel - 1, by omega⟩
    obtain ⟨t, h1, h2⟩ := ih fuel (by omega) (by omega)
    refine ⟨t, ?_, h2⟩
    simp only [findTokenCount]
    rw [if_pos (by omega), show ((start + (k + 1) + 1 : Nat) : Int).toNat = start + (k + 1) + 1 by omega,
      onlyA_sub max n start (start + (k + 1) + 1) (by omega) (by omega),
      show start + (k + 1) + 1 - start = k + 2 by omega, onlyA_getID]
    have hlast : ((if start > 0 then b!"##" else []) ++ List.replicate (k + 2) (97 : UInt8)).getLast? = some 97 := by
      rw [show k + 2 = (k + 1) + 1 by omega, List.replicate_succ', ← List.append_assoc, List.getLast?_concat]
    simp only [hlast]
    have hb : byteStringLen 97 = 1 := by decide
    rw [hb, show ((start + (k + 1) + 1 : Nat) : Int) - ((1 : Nat) : Int) = ((start + k + 1 : Nat) : Int) by omega, h1]

theorem onlyA_loop (max : Int) (n : Nat) (fuel : Nat) : ∀ start, n ≤ start + fuel →
    ((onlyA max).tokenLoopCount (List.replicate n 97) fuel start).2 = triangle (n - start)
    ∧ ((onlyA max).tokenLoopCount (List.replicate n 97) fuel start).1 ≠ none := by
  induction fuel with
  | zero =>
    intro start h
    unfold tokenLoopCount
    rw [if_neg (by simp; omega), show n - start = 0 by omega]
    simp [triangle]
  | succ fuel ih =>
    intro start h
    unfold tokenLoopCount
    by_cases hs : start < n
    · rw [if_pos (by simpa using hs)]
      obtain ⟨t, h1, h2⟩ := onlyA_find max n start (n - start - 1) n (by omega) (by omega)
      simp only [List.length_replicate]
      rw [show ((n : Nat) : Int) = ((start + (n - start - 1) + 1 : Nat) : Int) by omega, h1]
      obtain ⟨i1, i2⟩ := ih (start + 1) (by omega)
      simp only [h2, show ((start : Int) + 1).toNat = start + 1 by omega]
      cases hr : ((onlyA max).tokenLoopCount (List.replicate n 97) fuel (start + 1)).1 with
      | none => exact absurd hr i2
      | some ts =>
        simp only [i1]
        refine ⟨?_, by simp⟩
        rw [show n - start = (n - (start + 1)) + 1 by omega]
        simp only [triangle]
        omega
    · rw [if_neg (by simpa using hs), show n - start = 0 by omega]
      simp [triangle]

end WordPiece

/-! ## Merging -/

theorem stepKind_nonempty {merges : MergeMap} {d : Bool} {rnd : Nat → Bool} {st st' : Word.MState} {L L' : List Sym}
    (h : StepKind merges d rnd st st' L L') (hL : L ≠ []) : L' ≠ [] := by
  cases h with
  | drop => exact hL
  | stale => exact hL
  | merge => simp

theorem potential_nodrop {merges : MergeMap} {rnd : Nat → Bool} {st st' : Word.MState} {L L' : List Sym}
    (h : StepKind merges false rnd st st' L L') : potential st' L' < potential st L := by
  rcases potential_step h with ⟨e1, e2⟩ | h'
  · cases h with
    | drop top rest h1 => simp at h1
    | stale top rest h1 h3 h4 h5 h6 h7 =>
      unfold potential at *
      have := h3.length_eq
      have := h6.length_eq
      rw [h7]
      simp at *
      omega
    | merge top rest A s t B m h1 h3 h4 h5 h6 h7 =>
      unfold potential at *
      have := h3.length_eq
      have := h6.length_eq
      have := newEntries_length merges A (mergedSym s t top.value.id) B
      obtain ⟨rfl, -⟩ := h5
      rw [h7]
      simp at *
      omega
  · exact h'

theorem mergeLoop_ends {merges : MergeMap} {rnd : Nat → Bool} {n : Nat} (fuel : Nat) : ∀ (st : Word.MState) (L : List Sym),
    Good n false st L → L ≠ [] → potential st L ≤ fuel + 2 →
    ∃ st', Word.mergeLoop merges false rnd fuel st = .ok (some st') := by
  induction fuel with
  | zero =>
    intro st L hg hL hp
    have := List.length_pos_iff.2 hL
    unfold potential at hp
    unfold Word.mergeLoop
    rw [if_pos (by omega)]
    exact ⟨st, rfl⟩
  | succ fuel ih =>
    intro st L hg hL hp
    unfold Word.mergeLoop
    by_cases hq : st.queue.length = 0
    · rw [if_pos hq]; exact ⟨st, rfl⟩
    · rw [if_neg hq]
      obtain ⟨st', L', h1, h2, h3⟩ := mergeStep_spec (merges := merges) (rnd := rnd) hg (by rintro e; rw [e] at hq; simp at hq)
      rw [h1]
      simp only
      have := potential_nodrop h3
      exact ih st' L' h2 (stepKind_nonempty h3 hL) (by omega)

theorem mergeLoop_ends_dropout {merges : MergeMap} {d : Bool} {rnd : Nat → Bool} {n P : Nat} (fuel : Nat) :
    ∀ (st : Word.MState) (L : List Sym) (p : Nat), Good n d st L → L ≠ [] → potential st L ≤ p + 2 → p ≤ P →
    p * (P + 1) + st.queue.length ≤ fuel → ∃ st', Word.mergeLoop merges d rnd fuel st = .ok (some st') := by
  induction fuel with
  | zero =>
    intro st L p hg hL hp hP hf
    unfold Word.mergeLoop
    rw [if_pos (by omega)]
    exact ⟨st, rfl⟩
  | succ fuel ih =>
    intro st L p hg hL hp hP hf
    unfold Word.mergeLoop
    by_cases hq : st.queue.length = 0
    · rw [if_pos hq]; exact ⟨st, rfl⟩
    · rw [if_neg hq]
      obtain ⟨st', L', h1, h2, h3⟩ := mergeStep_spec (merges := merges) (rnd := rnd) hg (by rintro e; rw [e] at hq; simp at hq)
      rw [h1]
      simp only
      have hL' := stepKind_nonempty h3 hL
      have hl := List.length_pos_iff.2 hL
      have hl' := List.length_pos_iff.2 hL'
      rcases potential_step h3 with ⟨e1, e2⟩ | hlt
      · exact ih st' L' p h2 hL' (by omega) hP (by omega)
      · have hp1 : 1 ≤ p := by unfold potential at *; omega
        refine ih st' L' (p - 1) h2 hL' (by omega) (by omega) ?_
        have hq' : st'.queue.length ≤ P := by unfold potential at *; omega
        have : p * (P + 1) = (p - 1) * (P + 1) + (P + 1) := by
          rw [← Nat.succ_mul]; congr 1; omega
        omega

theorem mergeLoop_unique {merges : MergeMap} {d : Bool} {rnd : Nat → Bool} {a b : Nat} {st r r' : Word.MState}
    (h : Word.mergeLoop merges d rnd a st = .ok (some r)) (h' : Word.mergeLoop merges d rnd b st = .ok (some r')) : r = r' := by
  have h1 := mergeLoop_more a b st r h
  have h2 := mergeLoop_more b a st r' h'
  rw [Nat.add_comm] at h2
  rw [h1] at h2
  simpa using h2

theorem mergeAllFuel_enough {merges : MergeMap} {d : Bool} {rnd : Nat → Bool} {l : List (Int × Int)} (hp : Positive l) {fuel : Nat}
    (h : ∃ st', Word.mergeLoop merges d rnd fuel (startState merges l) = .ok (some st')) :
    (built l).mergeAllFuel fuel merges d rnd = (built l).mergeAll merges d rnd := by
  obtain ⟨st', h⟩ := h
  obtain ⟨w', st'', -, h1, -, h2, -, -, -, h3⟩ := mergeAll_loop (P := fun _ _ => True) (d := d) (rnd := rnd) (merges := merges) hp
    trivial (fun _ _ _ _ _ _ _ _ => trivial)
  rw [h1, h2, mergeLoop_unique h3 h]
  unfold Word.mergeAllFuel
  simp only
  rw [show (⟨built l, Word.initQueue merges (built l) 0 [], [], 0⟩ : Word.MState) = startState merges l from rfl, h]
  rfl

theorem start_potential_less (merges : MergeMap) {l : List (Int × Int)} (hp : Positive l) :
    potential (startState merges l) (symsFrom 0 l) ≤ 3 * (l.length - 1) + 2
    ∧ (startState merges l).queue.length ≤ l.length - 1 := by
  have h1 := (start_good merges false hp).2.length_eq
  have h2 : ∀ L : List Sym, (pairEntries merges L).length ≤ L.length - 1 := by
    intro L
    induction L with
    | nil => simp [pairEntries]
    | cons s L ih =>
      cases L with
      | nil => simp [pairEntries]
      | cons t L =>
        simp only [pairEntries, List.length_append, List.length_cons] at ih ⊢
        split <;> simp only [List.length_cons, List.length_nil] <;> omega
  have h3 := h2 (symsFrom 0 l)
  unfold potential
  rw [symsFrom_length] at *
  have : (startState merges l).skip.length = 0 := rfl
  omega

/-- The bound on the iterations of the loop with dropout, for `n` symbols. -/
def drawBound (n : Nat) : Nat := 3 * (n - 1) * (3 * (n - 1) + 1) + (n - 1)

theorem symsFrom_ne {l : List (Int × Int)} (h : l ≠ []) : symsFrom 0 l ≠ [] := by
  intro e
  have := symsFrom_length 0 l
  rw [e] at this
  exact h (List.length_eq_zero_iff.1 this.symm)

theorem mergeLoop_agree {merges : MergeMap} {d : Bool} {rnd rnd' : Nat → Bool} (fuel : Nat) : ∀ (st : Word.MState),
    (∀ k, k < st.draws + fuel → rnd k = rnd' k) →
    Word.mergeLoop merges d rnd fuel st = Word.mergeLoop merges d rnd' fuel st := by
  induction fuel with
  | zero => intro st _; unfold Word.mergeLoop; rfl
  | succ fuel ih =>
    intro st h
    unfold Word.mergeLoop
    by_cases hq : st.queue.length = 0
    · rw [if_pos hq, if_pos hq]
    · rw [if_neg hq, if_neg hq]
      have hs : Word.mergeStep merges d rnd st = Word.mergeStep merges d rnd' st := by
        unfold Word.mergeStep
        rw [h st.draws (by omega)]
      rw [hs]
      cases hm : Word.mergeStep merges d rnd' st with
      | panic => rfl
      | ok st' =>
        simp only
        have hd : st'.draws ≤ st.draws + 1 := by
          unfold Word.mergeStep at hm
          simp only at hm
          split at hm
          · simp at hm; subst hm; simp
          · obtain ⟨w, -, hm⟩ := GoM.bind_eq_ok.1 hm
            simp only [GoM.pure_eq, GoM.ok.injEq] at hm
            rw [← hm]
            simp only
            split <;> omega
        exact ih st' fun k hk => h k (by omega)

/-! ## The queue -/

namespace WMHeap

theorem upL_log (fuel : Nat) : ∀ (f : Nat) (h : WMHeap) (j : Nat), j + 1 < 2 ^ fuel → j ≤ f → j < h.length →
    upL fuel h j = .ok (some (up f h j)) := by
  induction fuel with
  | zero => intro f h j hj; simp at hj
  | succ fuel ih =>
    intro f h j hj hf hl
    simp only [upL, parent_eq]
    cases f with
    | zero =>
      have : j = 0 := by omega
      subst this
      rw [if_pos (by simp)]; rfl
    | succ f =>
      simp only [up]
      by_cases e : (j - 1) / 2 = j
      · rw [if_pos (by exact_mod_cast e), if_pos (Or.inl e)]
      · rw [if_neg (by exact_mod_cast e), lessL_nat hl (by omega), GoM.bind_ok]
        by_cases b : h.less j ((j - 1) / 2) = true
        · rw [if_neg (by simp [b]), if_neg (by simp [b, e]), goSwap_eq (by omega) hl, GoM.bind_ok]
          rw [Nat.pow_succ] at hj
          exact ih f _ _ (by omega) (by omega) (by rw [length_swap]; omega)
        · simp only [Bool.not_eq_true] at b
          rw [if_pos (by simp [b]), if_pos (by simp [b])]

theorem downL_more (fuel k : Nat) : ∀ (h : WMHeap) (i n : Int) (r : WMHeap), downL fuel h i n = .ok (some r) →
    downL (fuel + k) h i n = .ok (some r) := by
  induction fuel with
  | zero => intro h i n r e; simp [downL] at e
  | succ fuel ih =>
    intro h i n r e
    rw [show fuel + 1 + k = (fuel + k) + 1 by omega]
    simp only [downL] at e ⊢
    by_cases c : 2 * i + 1 ≥ n ∨ 2 * i + 1 < 0
    · rw [if_pos c] at e ⊢; exact e
    · rw [if_neg c] at e ⊢
      simp only [GoM.bind_eq_ok] at e ⊢
      obtain ⟨right, h1, b, h2, e⟩ := e
      refine ⟨right, h1, b, h2, ?_⟩
      cases b with
      | false => exact e
      | true =>
        simp only [Bool.not_true, Bool.false_eq_true, if_false, GoM.bind_eq_ok] at e ⊢
        obtain ⟨h', h3, e⟩ := e
        exact ⟨h', h3, ih _ _ _ _ e⟩

theorem downL_log (fuel : Nat) : ∀ (h : WMHeap) (i n : Nat), n + 1 ≤ (i + 1) * 2 ^ (fuel + 1) → n ≤ h.length →
    ∃ r, downL (fuel + 1) h i n = .ok (some r) := by
  induction fuel with
  | zero =>
    intro h i n hn hl
    simp only [downL]
    rw [if_pos (by omega)]
    exact ⟨h, rfl⟩
  | succ fuel ih =>
    intro h i n hn hl
    rw [downL]
    simp only
    by_cases c : 2 * i + 1 ≥ n
    · rw [if_pos (by omega)]; exact ⟨h, rfl⟩
    · rw [if_neg (by omega)]
      have key : ∀ j : Nat, 2 * i + 1 ≤ j → j < n → ∃ r, (lessL h (j : Int) (i : Int) >>= fun b =>
          if (!b) = true then .ok (some h) else goSwap h (i : Int) (j : Int) >>= fun h' => downL (fuel + 1) h' (j : Int) (n : Int))
            = .ok (some r) := by
        intro j h1 h2
        rw [lessL_nat (by omega) (by omega), GoM.bind_ok]
        cases h.less j i with
        | false => exact ⟨h, rfl⟩
        | true =>
          simp only [Bool.not_true, Bool.false_eq_true, if_false]
          rw [goSwap_eq (by omega) (by omega), GoM.bind_ok]
          refine ih _ j n ?_ (by rw [length_swap]; omega)
          have h3 : (i + 1) * 2 ^ (fuel + 1 + 1) = (2 * i + 2) * 2 ^ (fuel + 1) := by
            rw [Nat.pow_succ 2 (fuel + 1)]; grind
          have h4 : (2 * i + 2) * 2 ^ (fuel + 1) ≤ (j + 1) * 2 ^ (fuel + 1) := Nat.mul_le_mul_right _ (by omega)
          omega
      have e1 : 2 * (i : Int) + 1 = ((2 * i + 1 : Nat) : Int) := by omega
      have e2 : ((2 * i + 1 : Nat) : Int) + 1 = ((2 * i + 2 : Nat) : Int) := by omega
      rw [e1, e2]
      by_cases c2 : 2 * i + 2 < n
      · rw [if_pos (by omega), lessL_nat (by omega) (by omega), GoM.bind_ok]
        cases h.less (2 * i + 2) (2 * i + 1) with
        | false => exact key (2 * i + 1) (by omega) (by omega)
        | true => exact key (2 * i + 2) (by omega) (by omega)
      · rw [if_neg (by omega)]
        exact key (2 * i + 1) (by omega) (by omega)

end WMHeap

/-! ## C80 -/

/-- **C80, WordPiece.** The number of vocabulary lookups is at most `n(n+1)/2 + 1` for a word of `n` bytes, and at most
`8M² + 2M + 1` for every text at all, where `M` is the maximum of characters per word; a longer text costs one. -/
theorem C80_wordPiece (m : WordPiece) (s : Str) :
    (m.tokenizeCount s).1 = m.tokenize s
    ∧ 2 * (m.tokenizeCount s).2 ≤ s.length * (s.length + 1) + 2
    ∧ (m.tokenizeCount s).2 ≤ 8 * m.maxInputCharsPerWord.toNat * m.maxInputCharsPerWord.toNat + 2 * m.maxInputCharsPerWord.toNat + 1
    ∧ (((runesOf s).length : Int) > m.maxInputCharsPerWord → (m.tokenizeCount s).2 = 1) := by
  have h1 := WordPiece.tokenLoopCount_snd m s s.length 0
  have h2 := WordPiece.triangle_eq s.length
  have h3 := WordPiece.length_le_runes s
  rw [Nat.sub_zero] at h1
  refine ⟨WordPiece.tokenizeCount_fst m s, ?_, ?_, ?_⟩
  · unfold WordPiece.tokenizeCount
    split
    · simp
    · simp only
      split <;> simp only <;> omega
  · unfold WordPiece.tokenizeCount
    split
    · simp
    · rename_i hle
      simp only
      have hs : s.length ≤ 4 * m.maxInputCharsPerWord.toNat := by omega
      have h4 := WordPiece.triangle_mono hs
      have h5 := WordPiece.triangle_eq (4 * m.maxInputCharsPerWord.toNat)
      have h6 : 4 * m.maxInputCharsPerWord.toNat * (4 * m.maxInputCharsPerWord.toNat + 1)
          = 2 * (8 * m.maxInputCharsPerWord.toNat * m.maxInputCharsPerWord.toNat + 2 * m.maxInputCharsPerWord.toNat) := by
        generalize m.maxInputCharsPerWord.toNat = M; grind
      split <;> simp only <;> omega
  · intro h
    unfold WordPiece.tokenizeCount
    rw [if_pos h]

/-- The bound is attained: a word of `n` letters `a` costs `n(n+1)/2` lookups when only the letter is known. -/
theorem C80_wordPiece_attained (n : Nat) : 2 * ((WordPiece.onlyA n).tokenizeCount (List.replicate n 97)).2 = n * (n + 1) := by
  obtain ⟨h1, h2⟩ := WordPiece.onlyA_loop n n n 0 (by omega)
  rw [Nat.sub_zero] at h1
  unfold WordPiece.tokenizeCount
  have hr := runesOf_length_le (List.replicate n 97)
  rw [List.length_replicate] at hr
  rw [if_neg (by simp only [WordPiece.onlyA]; omega)]
  simp only [List.length_replicate]
  cases ht : ((WordPiece.onlyA n).tokenLoopCount (List.replicate n 97) n 0).1 with
  | none => exact absurd ht h2
  | some ts => simp only [h1]; exact WordPiece.triangle_eq n

/-- **C80, merging without dropout.** The main loop of `MergeAll` ends within `3(n-1)` iterations on a word of `n` symbols. -/
theorem C80_merge (merges : MergeMap) (rnd : Nat → Bool) (l : List (Int × Int)) (hp : Positive l) (fuel : Nat)
    (hf : 3 * (l.length - 1) ≤ fuel) : (built l).mergeAllFuel fuel merges false rnd = (built l).mergeAll merges false rnd := by
  by_cases hl : l = []
  · subst hl
    unfold Word.mergeAll Word.mergeAllFuel Word.mergeLoop
    rfl
  · refine mergeAllFuel_enough hp (mergeLoop_ends fuel _ _ (start_good merges false hp).1 (symsFrom_ne hl) ?_)
    have := (start_potential_less merges hp).1
    omega

/-- **C80, merging with dropout.** The loop ends within `3(n-1)(3(n-1)+1) + (n-1)` iterations, each of which draws at most
once: later draws do not matter. -/
theorem C80_draws (merges : MergeMap) (d : Bool) (rnd rnd' : Nat → Bool) (l : List (Int × Int)) (hp : Positive l)
    (h : ∀ k, k < drawBound l.length → rnd k = rnd' k) :
    (built l).mergeAllFuel (drawBound l.length) merges d rnd = (built l).mergeAll merges d rnd
    ∧ (built l).mergeAll merges d rnd = (built l).mergeAll merges d rnd' := by
  have key : ∀ rnd, (built l).mergeAllFuel (drawBound l.length) merges d rnd = (built l).mergeAll merges d rnd := by
    intro rnd
    by_cases hl : l = []
    · subst hl
      unfold Word.mergeAll Word.mergeAllFuel Word.mergeLoop
      rfl
    · obtain ⟨h1, h2⟩ := start_potential_less merges hp
      exact mergeAllFuel_enough hp (mergeLoop_ends_dropout (P := 3 * (l.length - 1)) _ _ _ (3 * (l.length - 1))
        (start_good merges d hp).1 (symsFrom_ne hl) h1 (Nat.le_refl _) (by unfold drawBound; omega))
  refine ⟨key rnd, ?_⟩
  rw [← key rnd, ← key rnd']
  unfold Word.mergeAllFuel
  simp only
  rw [mergeLoop_agree _ _ (by simpa using h)]

/-- **C80, the queue.** `Push` onto a queue of `n` elements takes at most `log₂(n+1) + 1` rounds of `up`, each with one
comparison; `Pop` from it at most `log₂(n-1) + 1` rounds of `down`, each with two. -/
theorem C80_queue (h : WMHeap) (x : WordMerge) :
    h.pushWithin (Nat.log2 (h.length + 1) + 1) x = .ok (some (h.push x))
    ∧ (h ≠ [] → h.popWithin (Nat.log2 (h.length - 1) + 1) = .ok (some h.pop)) := by
  constructor
  · exact WMHeap.upL_log (Nat.log2 (h.length + 1) + 1) h.length (h ++ [x]) h.length Nat.lt_log2_self (Nat.le_refl _) (by simp)
  · intro hne
    have hpos := List.length_pos_iff.2 hne
    have hn : h.length - 1 + 1 ≤ (0 + 1) * 2 ^ (Nat.log2 (h.length - 1) + 1) := by
      rw [Nat.zero_add, Nat.one_mul]
      exact Nat.lt_log2_self
    obtain ⟨r, hr⟩ := WMHeap.downL_log (Nat.log2 (h.length - 1)) (h.swap 0 (h.length - 1)) 0 (h.length - 1) hn
      (by rw [WMHeap.length_swap]; omega)
    have hd := WMHeap.downL_eq h.length (h.length - 1) (h.swap 0 (h.length - 1)) 0 (h.length - 1) hpos (by omega) (by omega)
      (by rw [WMHeap.length_swap]; omega)
    have m1 := WMHeap.downL_more _ h.length _ _ _ _ hr
    have m2 := WMHeap.downL_more _ (Nat.log2 (h.length - 1) + 1) _ _ _ _ hd
    rw [Nat.add_comm] at m2
    rw [m1] at m2
    simp only [GoM.ok.injEq, Option.some.injEq] at m2
    rw [m2, ← hd] at hr
    rw [← WMHeap.popL_eq h hne]
    have hs := WMHeap.goSwap_eq (h := h) (i := 0) (j := h.length - 1) (by omega) (by omega)
    unfold WMHeap.popWithin WMHeap.popL
    simp only [show ((h.length : Int) - 1) = ((h.length - 1 : Nat) : Int) by omega]
    simp only [Int.natCast_zero] at hs hr
    rw [hs]
    simp only [GoM.bind_ok]
    rw [hr]
    rfl

/-- The logarithm is needed: with nine entries, pushing the least takes four rounds, and so does popping the least. -/
example :
    let h : WMHeap := [⟨⟨1, 0⟩, 0⟩, ⟨⟨2, 0⟩, 0⟩, ⟨⟨3, 0⟩, 0⟩, ⟨⟨4, 0⟩, 0⟩, ⟨⟨5, 0⟩, 0⟩, ⟨⟨6, 0⟩, 0⟩, ⟨⟨7, 0⟩, 0⟩, ⟨⟨8, 0⟩, 0⟩, ⟨⟨9, 0⟩, 0⟩]
    h.pushWithin 3 ⟨⟨0, 0⟩, 0⟩ = .ok none ∧ h.pushWithin 4 ⟨⟨0, 0⟩, 0⟩ = .ok (some (h.push ⟨⟨0, 0⟩, 0⟩))
    ∧ h.popWithin 3 = .ok none ∧ h.popWithin 4 = .ok (some h.pop) := by decide +kernel

/-- Four symbols can take 6 iterations, and 5 are not enough. -/
example :
    let merges : MergeMap := [((1, 2), ⟨0, 4⟩), ((0, 4), ⟨1, 5⟩), ((5, 3), ⟨2, 6⟩), ((0, 1), ⟨3, 7⟩), ((2, 3), ⟨4, 8⟩), ((4, 3), ⟨5, 9⟩)]
    let w := built [(0, 1), (1, 1), (2, 1), (3, 1)]
    w.mergeAllFuel 5 merges false (fun _ => false) = .ok none
    ∧ w.mergeAllFuel 6 merges false (fun _ => false) = .ok (some [⟨6, 4, -1, -1⟩]) := by decide +kernel

/-- With dropout the bound `3(n-1)` does not hold: draws that pass the queue by until its last entry. -/
example :
    let merges : MergeMap := [((0, 0), ⟨0, 1⟩)]
    let w := built (List.replicate 8 (0, 1))
    w.mergeAllFuel 21 merges true (fun k => !(k ∈ [6, 12, 17, 21, 24, 26, 27])) = .ok none := by decide +kernel

end Verif
