import Verif.Model.PatternMemory
import Verif.Spec.Tiling
import Verif.Lemmas.Go
import Verif.Model.Notation

/-! C92: inverted patterns and the slices they change. -/

set_option autoImplicit false

namespace Verif

namespace PatternMemory

/-- The capture with its flag negated. -/
def negated (c : Capture) : Capture := ⟨c.offsets, !c.isMatch⟩

theorem negated_negated (c : Capture) : negated (negated c) = c := by
  cases c; simp [negated]

/-- The loop of `InvertedPattern.FindMatches` on the rest of a slice. -/
theorem flip_loop (r : Slice) : ∀ (todo : List Capture) (σ : Mem) (k : Nat) (a b : List Capture),
    r.arr < σ.length → σ[r.arr]? = some (a ++ todo ++ b) → a.length = r.off + k → k + todo.length = r.len →
    goFor (List.range' k todo.length) σ (flipAt r) = .ok (σ.set r.arr (a ++ todo.map negated ++ b)) := by
  intro todo
  induction todo with
  | nil =>
    intro σ k a b hlt h _ _
    simp only [List.length_nil, List.range'_zero, goFor_nil, List.map_nil, List.append_nil, GoM.ok.injEq] at h ⊢
    have := List.getElem?_eq_some_iff.1 h
    obtain ⟨_, hx⟩ := this
    rw [← hx, List.set_getElem_self]
  | cons c cs ih =>
    intro σ k a b hlt h ha hk
    simp only [List.length_cons] at hk
    have h0 : (a ++ c :: cs ++ b)[r.off + k]? = some c := by
      rw [← ha, List.append_assoc, List.getElem?_append_right (by omega)]
      simp
    have hs : (a ++ c :: cs ++ b).set (r.off + k) (negated c) = (a ++ [negated c]) ++ cs ++ b := by
      rw [← ha]
      simp
    have hf : flipAt r σ k = .ok (σ.set r.arr ((a ++ [negated c]) ++ cs ++ b)) := by
      unfold flipAt
      rw [if_pos (by omega), h]
      simp only [h0]
      rw [← hs]
      rfl
    simp only [List.length_cons, List.range'_succ]
    rw [goFor_cons, hf, GoM.bind_ok,
      ih (σ.set r.arr ((a ++ [negated c]) ++ cs ++ b)) (k + 1) (a ++ [negated c]) b (by simpa using hlt) (by
        rw [List.getElem?_set_self hlt]) (by simp; omega) (by omega), List.set_set]
    simp

theorem read_some {σ : Mem} {r : Slice} {cs : List Capture} (h : read σ r = some cs) :
    ∃ a b, r.arr < σ.length ∧ σ[r.arr]? = some (a ++ cs ++ b) ∧ a.length = r.off ∧ cs.length = r.len := by
  unfold read at h
  split at h
  · cases h
  · next x hx =>
    split at h
    · next hle =>
      cases h
      refine ⟨x.take r.off, (x.drop r.off).drop r.len, (List.getElem?_eq_some_iff.1 hx).1, ?_, ?_, ?_⟩
      · rw [hx, List.append_assoc, List.take_append_drop, List.take_append_drop]
      · simp; omega
      · simp; omega
    · cases h

theorem read_of {σ : Mem} {r : Slice} {a cs b : List Capture} (h : σ[r.arr]? = some (a ++ cs ++ b))
    (ha : a.length = r.off) (hc : cs.length = r.len) : read σ r = some cs := by
  unfold read
  simp only [h]
  rw [if_pos (by simp; omega), ← ha, ← hc]
  simp

/-- **C92, one call.**  When the wrapped pattern returns a slice, the inverted pattern returns that very slice, with the
flags negated.  Every other array, and the rest of the array of the slice, is as the wrapped pattern left it. -/
theorem C92_call (p : Pattern) (s : Str) (σ σ' : Mem) (r : Slice) (cs : List Capture) (h : p s σ = .ok (σ', .ok r))
    (hr : read σ' r = some cs) :
    ∃ σ'', invert p s σ = .ok (σ'', .ok r) ∧ read σ'' r = some (cs.map negated) ∧ σ''.length = σ'.length
      ∧ (∀ i, i ≠ r.arr → σ''[i]? = σ'[i]?)
      ∧ (∀ a, σ'[r.arr]? = some a → ∃ a', σ''[r.arr]? = some a' ∧ a'.length = a.length
          ∧ ∀ j, ¬ (r.off ≤ j ∧ j < r.off + r.len) → a'[j]? = a[j]?) := by
  obtain ⟨a, b, h1, h2, h3, h4⟩ := read_some hr
  have hl := flip_loop r cs σ' 0 a b h1 h2 (by simpa using h3) (by simpa using h4)
  rw [h4, ← List.range_eq_range'] at hl
  have hset : (σ'.set r.arr (a ++ cs.map negated ++ b))[r.arr]? = some (a ++ cs.map negated ++ b) :=
    List.getElem?_set_self h1
  refine ⟨σ'.set r.arr (a ++ cs.map negated ++ b), ?_, read_of hset h3 (by simpa using h4), by simp, ?_, ?_⟩
  · unfold invert; rw [h]; simp only [hl]
  · intro i hi
    rw [List.getElem?_set_ne (Ne.symm hi)]
  · intro x hx
    rw [h2] at hx
    cases hx
    refine ⟨_, hset, by simp, ?_⟩
    intro j hj
    by_cases hlt : j < a.length
    · rw [List.append_assoc, List.append_assoc, List.getElem?_append_left hlt, List.getElem?_append_left hlt]
    · rw [List.getElem?_append_right (by simp; omega), List.getElem?_append_right (by simp; omega)]
      simp

/-- `p` computes what `q` says, in arrays made during the call, and changes no other array. -/
def Makes (p : Pattern) (q : SplitPattern) : Prop :=
  ∀ s σ, (q s = .panic → p s σ = .panic)
    ∧ (∀ e, q s = .ok (.error e) → ∃ σ', p s σ = .ok (σ', .error e) ∧ σ <+: σ')
    ∧ (∀ cs, q s = .ok (.ok cs) → ∃ σ' r, p s σ = .ok (σ', .ok r) ∧ σ <+: σ' ∧ σ.length ≤ r.arr ∧ read σ' r = some cs)

/-- **C92, the patterns of the package.** -/
theorem C92_alloc (q : SplitPattern) : Makes (alloc q) q := by
  intro s σ
  refine ⟨?_, ?_, ?_⟩
  · intro h; simp [alloc, h]
  · intro e h; exact ⟨σ, by simp [alloc, h], List.prefix_rfl⟩
  · intro cs h
    refine ⟨σ ++ [cs], ⟨σ.length, 0, cs.length⟩, by simp [alloc, h], ⟨_, rfl⟩, Nat.le_refl _, ?_⟩
    simp [read]

/-- **C92, new slices.**  Over a pattern that returns new slices, `Invert` is the function on lists of captures of C23, and
it returns new slices again (so that inversions can be nested). -/
theorem C92_invert {p : Pattern} {q : SplitPattern} (h : Makes p q) : Makes (invert p) (Verif.invert q) := by
  intro s σ
  obtain ⟨h1, h2, h3⟩ := h s σ
  refine ⟨?_, ?_, ?_⟩
  · intro hq
    have : q s = .panic := by
      unfold Verif.invert at hq
      split at hq <;> first | assumption | cases hq
    simp [invert, h1 this]
  · intro e hq
    have : q s = .ok (.error e) := by
      unfold Verif.invert at hq
      split at hq <;> first | cases hq; assumption | cases hq
    obtain ⟨σ', k1, k2⟩ := h2 e this
    exact ⟨σ', by simp [invert, k1], k2⟩
  · intro cs hq
    obtain ⟨ds, hd, rfl⟩ : ∃ ds, q s = .ok (.ok ds) ∧ ds.map negated = cs := by
      unfold Verif.invert at hq
      split at hq
      · cases hq
      · cases hq
      · next ds hds => cases hq; exact ⟨ds, hds, rfl⟩
    obtain ⟨σ', r, k1, k2, k3, k4⟩ := h3 ds hd
    obtain ⟨σ'', m1, m2, m3, m4, -⟩ := C92_call p s σ σ' r ds k1 k4
    refine ⟨σ'', r, m1, ?_, k3, m2⟩
    rw [List.prefix_iff_getElem?]
    intro i hi
    rw [m4 i (by omega)]
    exact (List.prefix_iff_getElem?.1 k2) i hi

theorem read_prefix {σ σ' : Mem} {r : Slice} {cs : List Capture} (h : σ <+: σ') (hr : read σ r = some cs) : read σ' r = some cs := by
  obtain ⟨a, b, h1, h2, h3, h4⟩ := read_some hr
  refine read_of (b := b) ?_ h3 h4
  have := List.prefix_iff_getElem?.1 h r.arr h1
  rw [this, ← h2, List.getElem?_eq_getElem h1]

/-- **C92, histories.**  After any number of calls of such patterns, plain, inverted, or inverted several times, on any texts,
every result still holds what its call gave. -/
theorem C92_history : ∀ (calls : List (Pattern × Str)) (qs : List SplitPattern) (σ : Mem),
    All2 (fun c q => Makes c.1 q) calls qs →
    ∀ σ' xs, runAll calls σ = .ok (σ', xs) →
      σ <+: σ' ∧ All2 (fun (cq : (Pattern × Str) × SplitPattern) x => match cq.2 cq.1.2 with
        | .panic => False
        | .ok (.error e) => x = .error e
        | .ok (.ok cs) => ∃ r, x = .ok r ∧ read σ' r = some cs) (calls.zip qs) xs := by
  intro calls
  induction calls with
  | nil =>
    intro qs σ hq σ' xs h
    cases hq
    simp only [runAll, GoM.ok.injEq, Prod.mk.injEq] at h
    obtain ⟨rfl, rfl⟩ := h
    exact ⟨List.prefix_rfl, All2.nil⟩
  | cons c calls ih =>
    intro qs σ hq σ' xs h
    obtain ⟨p, s⟩ := c
    cases hq with
    | @cons _ q _ qs hpq hrest =>
      unfold runAll at h
      split at h
      · cases h
      · next σ1 x hp =>
        split at h
        · cases h
        · next σ2 ys hrun =>
          simp only [GoM.ok.injEq, Prod.mk.injEq] at h
          obtain ⟨rfl, rfl⟩ := h
          obtain ⟨i1, i2⟩ := ih qs σ1 hrest σ2 ys hrun
          have hpq : Makes p q := hpq
          obtain ⟨h1, h2, h3⟩ := hpq s σ
          cases hqs : q s with
          | panic => rw [h1 hqs] at hp; cases hp
          | ok y =>
            cases y with
            | error e =>
              obtain ⟨τ, k1, k2⟩ := h2 e hqs
              rw [k1] at hp
              simp only [GoM.ok.injEq, Prod.mk.injEq] at hp
              obtain ⟨rfl, rfl⟩ := hp
              exact ⟨k2.trans i1, All2.cons (by simp [hqs]) i2⟩
            | ok cs =>
              obtain ⟨τ, r, k1, k2, _, k4⟩ := h3 cs hqs
              rw [k1] at hp
              simp only [GoM.ok.injEq, Prod.mk.injEq] at hp
              obtain ⟨rfl, rfl⟩ := hp
              exact ⟨k2.trans i1, All2.cons (by simp only [hqs]; exact ⟨r, rfl, read_prefix i1 k4⟩) i2⟩

/-- **C92, a kept slice.**  A pattern that returns a slice it keeps is changed by being inverted: after `n` calls of the inverted
pattern, on any texts, the slice it keeps, which is also what all the calls returned, has its flags negated iff `n` is odd. -/
theorem C92_kept (r : Slice) : ∀ (texts : List Str) (σ : Mem) (cs : List Capture), read σ r = some cs →
    ∃ σ', runAll (texts.map fun s => (invert (kept r), s)) σ = .ok (σ', texts.map fun _ => .ok r)
      ∧ read σ' r = some (if texts.length % 2 = 1 then cs.map negated else cs) := by
  intro texts
  induction texts with
  | nil => intro σ cs h; exact ⟨σ, rfl, by simpa using h⟩
  | cons s texts ih =>
    intro σ cs h
    obtain ⟨σ1, h1, h2, -⟩ := C92_call (kept r) s σ σ r cs rfl h
    obtain ⟨σ2, k1, k2⟩ := ih σ1 _ h2
    refine ⟨σ2, ?_, ?_⟩
    · simp only [List.map_cons, runAll, h1, k1]
    · rw [k2]
      have hnn : (cs.map negated).map negated = cs := by
        rw [List.map_map]
        have : negated ∘ negated = id := by funext c; exact negated_negated c
        rw [this, List.map_id]
      simp only [List.length_cons, hnn]
      by_cases hp : texts.length % 2 = 1
      · rw [if_pos hp, if_neg (by omega)]
      · rw [if_neg hp, if_pos (by omega)]

/-- Two calls of an inverted pattern over a pattern that keeps its slice: the second gives the flags of the wrapped
pattern, and so does now the first. -/
theorem C92_kept_example :
    let caps : List Capture := [⟨⟨0, 1⟩, true⟩, ⟨⟨1, 3⟩, false⟩]
    let r : Slice := ⟨0, 0, 2⟩
    invert (kept r) b!"abc" [caps] = .ok ([caps.map negated], .ok r)
      ∧ runAll [(invert (kept r), b!"abc"), (invert (kept r), b!"abc")] [caps] = .ok ([caps], [.ok r, .ok r]) := by
  decide +kernel

/-- Three calls over a pattern of the package; the first result is still what it was. -/
example : runAll [(invert (alloc (fromFunc fun r => r = u!"-")), b!"a-b"), (invert (invert (alloc (fromFunc fun r => r = u!"-"))), b!"--"),
      (alloc (fromFunc fun r => r = u!"-"), b!"é")] []
    = .ok ([[⟨⟨0, 1⟩, true⟩, ⟨⟨1, 2⟩, false⟩, ⟨⟨2, 3⟩, true⟩], [⟨⟨0, 1⟩, true⟩, ⟨⟨1, 2⟩, true⟩], [⟨⟨0, 2⟩, false⟩]],
      [.ok ⟨0, 0, 3⟩, .ok ⟨1, 0, 2⟩, .ok ⟨2, 0, 1⟩]) := by decide +kernel

end PatternMemory

end Verif
