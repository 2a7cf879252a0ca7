import Verif.Model.EncodingMemory
import Verif.Model.Notation

/-! Encodings in memory (C128): when the constructors panic, what they allocate, and what they share. -/
set_option autoImplicit false

namespace Verif.EncodingMemory

open Memory (Slc)

/-! ## Arrays -/

/-- An array of `n` elements of which the first are `xs`. -/
def fill {α : Type} (zero : α) (n : Nat) (xs : List α) : List α := xs ++ List.replicate (n - xs.length) zero

theorem elems_fill {α : Type} {zero : α} {n : Nat} {xs : List α} {pre post m : List (List α)} {i : Nat}
    (hm : m = pre ++ fill zero n xs :: post) (hi : i = pre.length) : elems m ⟨i, 0, xs.length, n⟩ = xs := by
  subst hm; subst hi
  simp [elems, fill]

theorem modify_mid {α : Type} (f : α → α) (a : α) (post : List α) : ∀ pre : List α,
    (pre ++ a :: post).modify pre.length f = pre ++ f a :: post := by
  intro pre
  induction pre with
  | nil => rfl
  | cons b pre ih => simp [ih]

/-- An append within the capacity writes the next element and touches nothing else. -/
theorem push_room {α : Type} (grow : Nat → Nat → Nat) {zero x : α} {n : Nat} {xs : List α} (h : xs.length < n)
    {pre post m : List (List α)} {i : Nat} (hm : m = pre ++ fill zero n xs :: post) (hi : i = pre.length) :
    push grow zero m ⟨i, 0, xs.length, n⟩ x
      = (pre ++ fill zero n (xs ++ [x]) :: post, ⟨i, 0, (xs ++ [x]).length, n⟩) := by
  subst hm; subst hi
  obtain ⟨d, rfl⟩ : ∃ d, n = xs.length + (d + 1) := ⟨n - xs.length - 1, by omega⟩
  unfold push
  rw [if_pos (show xs.length + 1 ≤ xs.length + (d + 1) by omega)]
  have h1 : xs.length + (d + 1) - xs.length = d + 1 := by omega
  have : (pre ++ fill zero (xs.length + (d + 1)) xs :: post).modify pre.length (fun a => a.set (0 + xs.length) x)
      = pre ++ fill zero (xs.length + (d + 1)) (xs ++ [x]) :: post := by
    rw [modify_mid]
    simp [fill, h1, List.replicate_succ]
    omega
  simp only [this, List.length_append, List.length_cons, List.length_nil]

/-- An append to a full slice takes a new array: every array there was is as it was. -/
theorem push_full {α : Type} (grow : Nat → Nat → Nat) (zero x : α) (m : List (List α)) {s : Slc} (h : s.len = s.cap) :
    ∃ a, (push grow zero m s x).1 = m ++ [a] ∧ (push grow zero m s x).2.arr = m.length := by
  unfold push
  rw [if_neg (by omega)]
  exact ⟨_, rfl, rfl⟩

/-! ## When the constructors panic -/

/-- The largest capacity: seven arrays, the largest elements being strings and offsets of two machine words. -/
def Fits (k : Mach) (c : Int) : Prop := 0 ≤ c ∧ c * (2 * k.word : Nat) ≤ k.maxAlloc

theorem mk_ok {α : Type} {k : Mach} {c : Int} (h : Fits k c) {w : Nat} (hw : w ≤ 2) (zero : α) (m : List (List α)) :
    mk k w zero m c = .ok (m ++ [List.replicate c.toNat zero], ⟨m.length, 0, 0, c.toNat⟩) := by
  unfold mk
  rw [if_pos]
  refine ⟨h.1, Int.le_trans (Int.mul_le_mul_of_nonneg_left ?_ h.1) h.2⟩
  exact_mod_cast Nat.mul_le_mul_right _ hw

theorem mk_zero {α : Type} (k : Mach) (w : Nat) (zero : α) (m : List (List α)) :
    mk k w zero m 0 = .ok (m ++ [[]], ⟨m.length, 0, 0, 0⟩) := by
  unfold mk
  rw [if_pos ⟨Int.le_refl _, by simp⟩]
  rfl

/-- The struct `NewEncodingWithCapacity` makes. -/
def freshObj (m : EMem) (n l : Nat) : Obj :=
  ⟨⟨m.ints.length, 0, l, n⟩, ⟨m.ints.length + 1, 0, l, n⟩, ⟨m.strs.length, 0, l, n⟩, ⟨m.ints.length + 2, 0, l, n⟩,
    ⟨m.offs.length, 0, l, n⟩, ⟨m.ints.length + 3, 0, l, n⟩, ⟨m.ints.length + 4, 0, l, n⟩, ⟨m.ptrs.length, 0, 0, 0⟩⟩

/-- The memory after it, with the given contents in the new arrays. -/
def freshMem (m : EMem) (n : Nat) (e : Encoding) : EMem :=
  { m with
    ints := m.ints ++ [fill 0 n e.ids, fill 0 n e.typeIDs, fill 0 n e.words, fill 0 n e.specialTokensMask, fill 0 n e.attentionMask]
    strs := m.strs ++ [fill [] n e.tokens]
    offs := m.offs ++ [fill ⟨0, 0⟩ n e.offsets]
    ptrs := m.ptrs ++ [[]] }

theorem withCapacityObj_ok {k : Mach} {c : Int} (h : Fits k c) (m : EMem) :
    withCapacityObj k m c = .ok (freshMem m c.toNat Encoding.default, freshObj m c.toNat 0) := by
  simp only [withCapacityObj, mk_ok h (show 1 ≤ 2 by omega), mk_ok h (show 2 ≤ 2 by omega), mk_zero, GoM.bind_ok, GoM.pure_eq]
  simp [freshMem, freshObj, fill, Encoding.default]

theorem withCapacityObj_panic {k : Mach} {c : Int} (h : ¬Fits k c) (m : EMem) : withCapacityObj k m c = .panic := by
  have h2 : ∀ {α : Type} (zero : α) (m : List (List α)), mk k 2 zero m c = .panic := by
    intro α zero m
    unfold mk
    exact if_neg h
  simp only [withCapacityObj, h2]
  unfold mk
  by_cases h1 : 0 ≤ c ∧ c * (1 * k.word : Nat) ≤ k.maxAlloc
  · simp only [if_pos h1, GoM.bind_ok, GoM.bind_panic]
  · simp only [if_neg h1, GoM.bind_panic]

/-- **C128, capacity.** `NewEncodingWithCapacity(c)` panics exactly when `c` is negative or an array of `c` strings is more than can be
allocated.  Otherwise the encoding is empty, its seven arrays are new and distinct with room for `c` elements, `Overflowing` is an
empty slice, and nothing there was is changed. -/
theorem C128_capacity (k : Mach) (m : EMem) (c : Int) :
    (newEncodingWithCapacity k m c = .panic ↔ ¬Fits k c) ∧
    (Fits k c → newEncodingWithCapacity k m c
      = .ok ({ freshMem m c.toNat Encoding.default with objs := m.objs ++ [freshObj m c.toNat 0] }, m.objs.length)) := by
  have h1 : Fits k c → newEncodingWithCapacity k m c
      = .ok ({ freshMem m c.toNat Encoding.default with objs := m.objs ++ [freshObj m c.toNat 0] }, m.objs.length) := by
    intro h
    simp only [newEncodingWithCapacity, withCapacityObj_ok h, GoM.bind_ok, GoM.pure_eq]
    rfl
  refine ⟨⟨fun h hf => ?_, fun h => ?_⟩, h1⟩
  · rw [h1 hf] at h; cases h
  · simp only [newEncodingWithCapacity, withCapacityObj_panic h, GoM.bind_panic]

theorem fits_zero (k : Mach) : Fits k 0 := ⟨Int.le_refl _, by simp⟩

/-- `NewDefaultEncoding` never panics. -/
theorem C128_default (k : Mach) (m : EMem) :
    newDefaultEncoding k m = .ok ({ freshMem m 0 Encoding.default with objs := m.objs ++ [freshObj m 0 0] }, m.objs.length) :=
  (C128_capacity k m 0).2 (fits_zero k)

/-! ## EncodingFromEncodableTokens -/

/-- Seven columns of the same length. -/
def Even (e : Encoding) (l : Nat) : Prop :=
  e.ids.length = l ∧ e.typeIDs.length = l ∧ e.tokens.length = l ∧ e.words.length = l ∧ e.offsets.length = l ∧
    e.specialTokensMask.length = l ∧ e.attentionMask.length = l

theorem appendToken_fresh (grow : Nat → Nat → Nat) (m : EMem) {n l : Nat} {e : Encoding} (he : Even e l) (h : l < n)
    (t : EncodableToken) :
    appendToken grow (freshMem m n e, freshObj m n l) t = (freshMem m n (e.appendToken t), freshObj m n (l + 1)) ∧
      Even (e.appendToken t) (l + 1) := by
  obtain ⟨h1, h2, h3, h4, h5, h6, h7⟩ := he
  refine ⟨?_, by simp [Even, Encoding.appendToken, h1, h2, h3, h4, h5, h6, h7]⟩
  have p1 := push_room grow (zero := (0 : Int)) (x := t.id) (n := n) (xs := e.ids) (by omega) (pre := m.ints)
    (post := [fill 0 n e.typeIDs, fill 0 n e.words, fill 0 n e.specialTokensMask, fill 0 n e.attentionMask]) rfl rfl
  have p2 := push_room grow (zero := ([] : Str)) (x := t.token) (n := n) (xs := e.tokens) (by omega) (pre := m.strs)
    (post := []) rfl rfl
  have p3 := push_room grow (zero := (⟨0, 0⟩ : ByteOffsets)) (x := t.offsets) (n := n) (xs := e.offsets) (by omega) (pre := m.offs)
    (post := []) rfl rfl
  have p4 := push_room grow (zero := (0 : Int)) (x := t.typeID) (n := n) (xs := e.typeIDs) (by omega)
    (m := m.ints ++ [fill 0 n (e.ids ++ [t.id]), fill 0 n e.typeIDs, fill 0 n e.words, fill 0 n e.specialTokensMask, fill 0 n e.attentionMask])
    (pre := m.ints ++ [fill 0 n (e.ids ++ [t.id])])
    (post := [fill 0 n e.words, fill 0 n e.specialTokensMask, fill 0 n e.attentionMask]) (i := m.ints.length + 1)
    (by simp) (by simp)
  have p5 := push_room grow (zero := (0 : Int)) (x := t.wordIndex) (n := n) (xs := e.words) (by omega)
    (m := m.ints ++ [fill 0 n (e.ids ++ [t.id])] ++ fill 0 n (e.typeIDs ++ [t.typeID]) :: [fill 0 n e.words, fill 0 n e.specialTokensMask, fill 0 n e.attentionMask])
    (pre := m.ints ++ [fill 0 n (e.ids ++ [t.id]), fill 0 n (e.typeIDs ++ [t.typeID])])
    (post := [fill 0 n e.specialTokensMask, fill 0 n e.attentionMask]) (i := m.ints.length + 2)
    (by simp) (by simp)
  have p6 := push_room grow (zero := (0 : Int)) (x := 0) (n := n) (xs := e.specialTokensMask) (by omega)
    (m := m.ints ++ [fill 0 n (e.ids ++ [t.id]), fill 0 n (e.typeIDs ++ [t.typeID])] ++ fill 0 n (e.words ++ [t.wordIndex]) :: [fill 0 n e.specialTokensMask, fill 0 n e.attentionMask])
    (pre := m.ints ++ [fill 0 n (e.ids ++ [t.id]), fill 0 n (e.typeIDs ++ [t.typeID]), fill 0 n (e.words ++ [t.wordIndex])])
    (post := [fill 0 n e.attentionMask]) (i := m.ints.length + 3)
    (by simp) (by simp)
  have p7 := push_room grow (zero := (0 : Int)) (x := 1) (n := n) (xs := e.attentionMask) (by omega)
    (m := m.ints ++ [fill 0 n (e.ids ++ [t.id]), fill 0 n (e.typeIDs ++ [t.typeID]), fill 0 n (e.words ++ [t.wordIndex])] ++ fill 0 n (e.specialTokensMask ++ [0]) :: [fill 0 n e.attentionMask])
    (pre := m.ints ++ [fill 0 n (e.ids ++ [t.id]), fill 0 n (e.typeIDs ++ [t.typeID]), fill 0 n (e.words ++ [t.wordIndex]), fill 0 n (e.specialTokensMask ++ [0])])
    (post := []) (i := m.ints.length + 4)
    (by simp) (by simp)
  rw [h1] at p1; rw [h3] at p2; rw [h5] at p3; rw [h2] at p4; rw [h4] at p5; rw [h6] at p6; rw [h7] at p7
  simp only [appendToken, freshMem, freshObj, p1, p2, p3, p4, p5, p6, p7]
  simp [Encoding.appendToken, h1, h2, h3, h4, h5, h6, h7]

theorem foldl_fresh (grow : Nat → Nat → Nat) (m : EMem) (n : Nat) : ∀ (ts : List EncodableToken) (e : Encoding) (l : Nat),
    Even e l → l + ts.length ≤ n →
    ts.foldl (appendToken grow) (freshMem m n e, freshObj m n l)
      = (freshMem m n (ts.foldl Encoding.appendToken e), freshObj m n (l + ts.length)) ∧
      Even (ts.foldl Encoding.appendToken e) (l + ts.length) := by
  intro ts
  induction ts with
  | nil => intro e l he _; exact ⟨rfl, he⟩
  | cons t ts ih =>
    intro e l he hl
    rw [List.length_cons] at hl
    obtain ⟨a, b⟩ := appendToken_fresh grow m he (by omega : l < n) t
    obtain ⟨c, d⟩ := ih _ _ b (by omega)
    rw [List.foldl_cons, List.foldl_cons, a, c, List.length_cons]
    rw [show l + 1 + ts.length = l + (ts.length + 1) by omega] at d ⊢
    exact ⟨rfl, d⟩

theorem view_fresh (m : EMem) {n l : Nat} {e : Encoding} (he : Even e l) : view (freshMem m n e) (freshObj m n l) = e := by
  obtain ⟨h1, h2, h3, h4, h5, h6, h7⟩ := he
  have q1 := elems_fill (zero := (0 : Int)) (n := n) (xs := e.ids) (m := (freshMem m n e).ints) (pre := m.ints) rfl rfl
  have q2 := elems_fill (zero := (0 : Int)) (n := n) (xs := e.typeIDs) (m := (freshMem m n e).ints) (i := m.ints.length + 1)
    (pre := m.ints ++ [fill 0 n e.ids])
    (post := [fill 0 n e.words, fill 0 n e.specialTokensMask, fill 0 n e.attentionMask]) (by simp [freshMem]) (by simp)
  have q3 := elems_fill (zero := ([] : Str)) (n := n) (xs := e.tokens) (m := (freshMem m n e).strs) (pre := m.strs) rfl rfl
  have q4 := elems_fill (zero := (0 : Int)) (n := n) (xs := e.words) (m := (freshMem m n e).ints) (i := m.ints.length + 2)
    (pre := m.ints ++ [fill 0 n e.ids, fill 0 n e.typeIDs])
    (post := [fill 0 n e.specialTokensMask, fill 0 n e.attentionMask]) (by simp [freshMem]) (by simp)
  have q5 := elems_fill (zero := (⟨0, 0⟩ : ByteOffsets)) (n := n) (xs := e.offsets) (m := (freshMem m n e).offs) (pre := m.offs) rfl rfl
  have q6 := elems_fill (zero := (0 : Int)) (n := n) (xs := e.specialTokensMask) (m := (freshMem m n e).ints) (i := m.ints.length + 3)
    (pre := m.ints ++ [fill 0 n e.ids, fill 0 n e.typeIDs, fill 0 n e.words])
    (post := [fill 0 n e.attentionMask]) (by simp [freshMem]) (by simp)
  have q7 := elems_fill (zero := (0 : Int)) (n := n) (xs := e.attentionMask) (m := (freshMem m n e).ints) (i := m.ints.length + 4)
    (pre := m.ints ++ [fill 0 n e.ids, fill 0 n e.typeIDs, fill 0 n e.words, fill 0 n e.specialTokensMask])
    (post := []) (by simp [freshMem]) (by simp)
  rw [h1] at q1; rw [h2] at q2; rw [h3] at q3; rw [h4] at q4; rw [h5] at q5; rw [h6] at q6; rw [h7] at q7
  simp only [view, freshObj, q1, q2, q3, q4, q5, q6, q7]

/-- **C128, tokens.** `EncodingFromEncodableTokens` panics exactly when its first allocations do.  Otherwise whatever capacities
`append` would choose, no append allocates: the memory has just the eight new arrays and the new struct, every slice is filled to
its capacity, and it holds what the list model says. -/
theorem C128_tokens (k : Mach) (grow : Nat → Nat → Nat) (m : EMem) (ts : List EncodableToken) :
    (fromEncodableTokens k grow m ts = .panic ↔ ¬Fits k ts.length) ∧
    (Fits k ts.length → fromEncodableTokens k grow m ts
      = .ok ({ freshMem m ts.length (Encoding.fromEncodableTokens ts) with objs := m.objs ++ [freshObj m ts.length ts.length] },
          m.objs.length) ∧
      view (freshMem m ts.length (Encoding.fromEncodableTokens ts)) (freshObj m ts.length ts.length)
        = Encoding.fromEncodableTokens ts) := by
  have h1 : Fits k ts.length → fromEncodableTokens k grow m ts
      = .ok ({ freshMem m ts.length (Encoding.fromEncodableTokens ts) with objs := m.objs ++ [freshObj m ts.length ts.length] },
          m.objs.length) ∧
      view (freshMem m ts.length (Encoding.fromEncodableTokens ts)) (freshObj m ts.length ts.length)
        = Encoding.fromEncodableTokens ts := by
    intro h
    obtain ⟨a, b⟩ := foldl_fresh grow { m with objs := m.objs ++ [freshObj m ts.length 0] } ts.length ts Encoding.default 0
      (by simp [Even, Encoding.default]) (by omega)
    rw [Nat.zero_add] at a b
    refine ⟨?_, view_fresh m b⟩
    have e := (C128_capacity k m ts.length).2 h
    rw [Int.toNat_natCast] at e
    have hi : goIndex (m.objs ++ [freshObj m ts.length 0]) (m.objs.length : Int) = .ok (freshObj m ts.length 0) := by
      simp [goIndex]
    have hs : ∀ o, goSet (m.objs ++ [freshObj m ts.length 0]) (m.objs.length : Int) o = .ok (m.objs ++ [o]) := by
      intro o
      rw [goSet, if_pos ⟨by omega, by simp; omega⟩]
      simp
    have a' : ts.foldl (appendToken grow)
        ({ freshMem m ts.length Encoding.default with objs := m.objs ++ [freshObj m ts.length 0] }, freshObj m ts.length 0)
        = ({ freshMem m ts.length (Encoding.fromEncodableTokens ts) with objs := m.objs ++ [freshObj m ts.length 0] },
          freshObj m ts.length ts.length) := a
    simp only [fromEncodableTokens, e, GoM.bind_ok, hi, a', hs, GoM.pure_eq]
  refine ⟨⟨fun h hf => ?_, fun h => ?_⟩, h1⟩
  · rw [(h1 hf).1] at h; cases h
  · simp only [fromEncodableTokens, (C128_capacity k m ts.length).1.2 h, GoM.bind_panic]

/-- Tokens that are themselves in memory (seven machine words each) always fit. -/
theorem C128_no_panic {k : Mach} {ts : List EncodableToken} (h : ts.length * (7 * k.word) ≤ k.maxAlloc)
    (grow : Nat → Nat → Nat) (m : EMem) : fromEncodableTokens k grow m ts ≠ .panic := by
  rw [Ne, (C128_tokens k grow m ts).1]
  refine fun hn => hn ⟨by omega, ?_⟩
  have : ts.length * (2 * k.word) ≤ ts.length * (7 * k.word) := Nat.mul_le_mul_left _ (Nat.mul_le_mul_right _ (by omega))
  have : ts.length * (2 * k.word) ≤ k.maxAlloc := by omega
  exact_mod_cast this

/-- Appending to any slice of the result, whatever the element, takes a new array: no other slice sees it. -/
theorem C128_append_after (grow : Nat → Nat → Nat) (m : EMem) (n : Nat) (e : Encoding) (x : Int) :
    ∀ s ∈ [(freshObj m n n).ids, (freshObj m n n).typeIDs, (freshObj m n n).words, (freshObj m n n).specialTokensMask,
        (freshObj m n n).attentionMask],
      ∃ a, (push grow 0 (freshMem m n e).ints s x).1 = (freshMem m n e).ints ++ [a] := by
  intro s hs
  have : s.len = s.cap := by
    simp only [List.mem_cons, List.not_mem_nil, or_false] at hs
    rcases hs with rfl | rfl | rfl | rfl | rfl <;> rfl
  obtain ⟨a, h, _⟩ := push_full grow 0 x (freshMem m n e).ints this
  exact ⟨a, h⟩

/-! ## NewEncoding, Len and IsEmpty -/

/-- **C128, NewEncoding.** It allocates only the struct and keeps the slices it is given, so that what they hold is what the encoding
holds, then and after any later write to the arrays. -/
theorem C128_newEncoding (m : EMem) (a b c d e f g o : Slc) :
    newEncoding m a b c d e f g o = ({ m with objs := m.objs ++ [⟨a, b, c, d, e, f, g, o⟩] }, m.objs.length) ∧
    ∀ m' : EMem, view m' ⟨a, b, c, d, e, f, g, o⟩ = ⟨elems m'.ints a, elems m'.ints b, elems m'.strs c, elems m'.ints d,
      elems m'.offs e, elems m'.ints f, elems m'.ints g⟩ := ⟨rfl, fun _ => rfl⟩

/-- `IsEmpty` is `Len() == 0`, and both look at `IDs` only. -/
theorem C128_len (m : EMem) (p : Nat) : isEmpty m p = (len m p >>= fun n => pure (n == 0)) ∧
    ∀ o, m.objs[p]? = some o → len m p = .ok (o.ids.len : Int) := by
  constructor
  · unfold isEmpty len
    cases goIndex m.objs (p : Int) with
    | panic => rfl
    | ok o =>
      simp only [GoM.bind_ok, GoM.pure_eq, GoM.ok.injEq]
      cases h : o.ids.len <;> simp
      omega
  · intro o h
    simp [len, goIndex, h]

/-- A 64-bit machine. -/
def amd64 : Mach := ⟨8, 2 ^ 48⟩

def noMem : EMem := ⟨[], [], [], [], []⟩

example : newEncodingWithCapacity amd64 noMem (-1) = .panic := by decide +kernel
example : Fits amd64 (2 ^ 44) ∧ ¬Fits amd64 (2 ^ 44 + 1) := by
  unfold Fits amd64
  decide +kernel
example : (fromEncodableTokens amd64 (fun _ _ => 0) noMem [⟨7, b!"a", ⟨0, 1⟩, 0, 0⟩, ⟨9, b!"b", ⟨1, 2⟩, -1, 3⟩]).bind (fun r => .ok (r.1.ints, r.2))
    = .ok ([[7, 9], [0, 3], [0, -1], [0, 0], [1, 1]], 0) := by decide +kernel

/-- Two encodings made of one slice with spare capacity: appending to the first and then to the second overwrites the first one's
element. -/
example :
    let m : EMem := { noMem with ints := [[1, 0]] }
    let s : Slc := ⟨0, 0, 1, 2⟩
    let (i1, s1) := push (fun _ _ => 0) 0 m.ints s 5
    let (i2, _) := push (fun _ _ => 0) 0 i1 s 6
    elems i1 s1 = [1, 5] ∧ elems i2 s1 = [1, 6] := by decide +kernel

end Verif.EncodingMemory
