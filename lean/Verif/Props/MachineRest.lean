import Verif.Model.MachineRest
import Verif.Props.Machine
import Verif.Props.StrUtils
import Verif.Props.Bpe
import Verif.Props.WordPiece
import Verif.Props.Literal

/-! # Machine integers outside `normalizedstring` (C79)

Split patterns, `Split`, offset conversion, byte splits, encodings, merges files and the two models compute the
same with wrapping integers, as long as the texts are well below the largest `int`. -/

set_option autoImplicit false

namespace Verif
namespace Machine

variable {m : Machine}

theorem encodeRune_le_four (r : Rune) : (encodeRune r).length ≤ 4 := by
  have := encodeRunes_le_four [r]
  simpa using this

/-! ## Split patterns -/

theorem funcFold_eq (f : Rune → Bool) (xs : List (Nat × Rune)) : ∀ st : FuncState, (∀ p ∈ xs, (p.1 : Int) + 4 < m.half) →
    xs.foldl (m.funcStep f) ((st.lastOffset : Int), (st.lastSeen : Int), st.splits)
      = (((xs.foldl (Verif.funcStep f) st).lastOffset : Int), ((xs.foldl (Verif.funcStep f) st).lastSeen : Int),
          (xs.foldl (Verif.funcStep f) st).splits) := by
  induction xs with
  | nil => intros; rfl
  | cons p xs ih =>
    intro st h
    have hp := h p (by simp)
    have h4 := encodeRune_le_four p.2
    have hw : m.wrap ((p.1 : Int) + (encodeRune p.2).length) = ((p.1 + (encodeRune p.2).length : Nat) : Int) := by
      rw [wrap_eq ⟨by omega, by omega⟩]; omega
    have hs : m.funcStep f ((st.lastOffset : Int), (st.lastSeen : Int), st.splits) p
        = (((Verif.funcStep f st p).lastOffset : Int), ((Verif.funcStep f st p).lastSeen : Int),
            (Verif.funcStep f st p).splits) := by
      unfold funcStep Verif.funcStep
      simp only [hw]
      cases f p.2 with
      | false => simp
      | true =>
        simp only [Bool.not_true, Bool.false_eq_true, if_false]
        by_cases hlt : st.lastOffset < p.1
        · rw [if_pos (by omega), if_pos hlt]
        · rw [if_neg (by omega), if_neg hlt]
    rw [List.foldl_cons, List.foldl_cons, hs]
    exact ih _ fun q hq => h q (by simp [hq])

theorem fromFunc_eq {f : Rune → Bool} {s : Str} (hs : m.Sized s.length) : m.fromFunc f s = Verif.fromFunc f s := by
  unfold fromFunc Verif.fromFunc funcFindMatches
  by_cases h0 : s.length = 0
  · rw [if_pos h0, if_pos h0]
  · rw [if_neg h0, if_neg h0]
    have := funcFold_eq (m := m) f (rangeStr s) ⟨0, 0, []⟩ (by
      intro p hp
      have := rangeAux_lt s 0 0 p hp
      unfold Sized at hs
      omega)
    simp only [Int.natCast_zero] at this
    simp only [this]
    by_cases hlt : ((rangeStr s).foldl (Verif.funcStep f) ⟨0, 0, []⟩).lastSeen
        > ((rangeStr s).foldl (Verif.funcStep f) ⟨0, 0, []⟩).lastOffset
    · rw [if_pos (by omega), if_pos hlt]
    · rw [if_neg (by omega), if_neg hlt]

theorem regexp2Step_eq {runes : List Rune} {st : Int × List Capture} {mt : Nat × Nat} (h : mt.1 ≤ runes.length)
    (hl : ((encodeRunes runes).length : Int) < m.half) :
    m.regexp2Step runes st mt = .ok (regexpStep st (regexp2Bytes runes mt)) := by
  unfold regexp2Step regexp2Bytes
  have hb : goSlice runes 0 (mt.1 : Int) = .ok (runes.take mt.1) := by
    rw [goSlice_of (by omega) (by omega) (by omega)]; simp
  have hle : (encodeRunes (runes.take mt.1)).length + (encodeRunes ((runes.drop mt.1).take mt.2)).length
      ≤ (encodeRunes runes).length := by
    have e : encodeRunes runes = encodeRunes (runes.take mt.1) ++ (encodeRunes ((runes.drop mt.1).take mt.2)
        ++ encodeRunes ((runes.drop mt.1).drop mt.2)) := by
      rw [← encodeRunes_append, List.take_append_drop, ← encodeRunes_append, List.take_append_drop]
    rw [e]; simp
  rw [hb, GoM.bind_ok]
  simp only [GoM.pure_eq]
  rw [wrap_eq ⟨by omega, by omega⟩]
  push_cast
  rfl

theorem fromRegexp2_eq {findAll2 : List Rune → Except Err (List (Nat × Nat))} {s : Str} (hs : m.Sized s.length)
    (h : ∀ ms, findAll2 (runesOf s) = .ok ms → ∀ mt ∈ ms, mt.1 ≤ (runesOf s).length) :
    m.fromRegexp2 findAll2 s = Verif.fromRegexp2 findAll2 s := by
  have hl : ((encodeRunes (runesOf s)).length : Int) < m.half := by
    have := encodeRunes_runesOf_le s
    unfold Sized at hs; omega
  unfold fromRegexp2 Verif.fromRegexp2
  by_cases h0 : s.length = 0
  · rw [if_pos h0, if_pos h0]
  · rw [if_neg h0, if_neg h0]
    cases hf : findAll2 (runesOf s) with
    | error e => rfl
    | ok ms =>
      have key : ∀ (ms : List (Nat × Nat)) (st : Int × List Capture), (∀ mt ∈ ms, mt.1 ≤ (runesOf s).length) →
          goFor ms st (m.regexp2Step (runesOf s)) = .ok ((ms.map (regexp2Bytes (runesOf s))).foldl regexpStep st) := by
        intro ms
        induction ms with
        | nil => intros; rfl
        | cons mt ms ih =>
          intro st hm
          rw [goFor_cons, regexp2Step_eq (hm mt (by simp)) hl, GoM.bind_ok, ih _ fun x hx => hm x (by simp [hx])]
          rfl
      simp only
      rw [key ms _ (h ms hf), GoM.bind_ok]
      rfl

theorem invertLoop_eq (b : List Capture) : ∀ (a : List Capture), ((a.length + b.length : Nat) : Int) < m.half →
    m.invertLoop b.length a.length (a ++ b) = .ok (a ++ b.map fun c => { c with isMatch := !c.isMatch }) := by
  induction b with
  | nil => intro a _; simp [invertLoop]
  | cons c b ih =>
    intro a h
    simp only [List.length_cons] at h ⊢
    have hi := goIndex_mid a c b (i := (a.length : Int)) rfl
    simp only [invertLoop]
    rw [hi, GoM.bind_ok, GoM.bind_ok, goSet_of_index hi, GoM.bind_ok, wrap_eq ⟨by omega, by omega⟩]
    have := ih (a ++ [{ c with isMatch := !c.isMatch }]) (by simp; omega)
    simp only [List.length_append, List.length_cons, List.length_nil, List.append_assoc, List.cons_append,
      List.nil_append] at this
    rw [show ((a ++ c :: b).set (a.length : Int).toNat { c with isMatch := !c.isMatch })
      = a ++ { c with isMatch := !c.isMatch } :: b by simp]
    rw [show ((a.length : Int) + 1) = ((a.length + (0 + 1) : Nat) : Int) by omega, this]
    simp

/-- Flipping in place gives what the model's `map` gives. -/
theorem invert_eq {sp : SplitPattern} {s : Str} (h : ∀ cs, sp s = .ok (.ok cs) → (cs.length : Int) < m.half) :
    m.invert sp s = Verif.invert sp s := by
  unfold invert Verif.invert
  cases hs : sp s with
  | panic => rfl
  | ok r =>
    cases r with
    | error e => rfl
    | ok cs =>
      have := invertLoop_eq (m := m) cs [] (by simpa using h cs hs)
      simp only [List.length_nil, Int.natCast_zero, List.nil_append] at this
      simp only [GoM.bind_ok, this]
      rfl

/-! ## `Split` -/

theorem setLast_concat (acc : List SplitMatch) (x : SplitMatch) (f : ByteOffsets → ByteOffsets)
    (h : ((acc.length + 1 : Nat) : Int) < m.half) :
    m.setLast (acc ++ [x]) f = .ok (acc ++ [{ x with offsets := f x.offsets }]) := by
  unfold setLast
  have hw : m.wrap (((acc ++ [x]).length : Int) - 1) = acc.length := by
    rw [wrap_eq ⟨by simp only [List.length_append, List.length_singleton]; omega,
      by simp only [List.length_append, List.length_singleton]; omega⟩]; simp
  have hi := goIndex_mid acc x [] (i := (acc.length : Int)) rfl
  simp only [hw, hi, GoM.bind_ok]
  rw [goSet_of_index hi]
  simp

theorem mergePrevStep_eq {st : List SplitMatch × Bool} {c : Capture} (h : (st.1.length : Int) < m.half) :
    m.mergePrevStep st c = .ok (Verif.mergePrevStep st c) := by
  obtain ⟨l, pm⟩ := st
  unfold mergePrevStep Verif.mergePrevStep
  by_cases hc : c.isMatch = true ∧ (!pm) = true ∧ l.length > 0
  · rw [if_pos hc, if_pos hc]
    obtain ⟨acc, x, rfl⟩ : ∃ acc x, l = acc ++ [x] :=
      ⟨_, _, (List.dropLast_concat_getLast (List.ne_nil_of_length_pos hc.2.2)).symm⟩
    simp only at h
    rw [setLast_concat _ _ _ (by simpa using h), GoM.bind_ok, setLastStop_concat]
    rfl
  · rw [if_neg hc, if_neg hc]; rfl

theorem contiguousStep_eq {st : List SplitMatch × Bool} {c : Capture} (h : (st.1.length : Int) < m.half) :
    m.contiguousStep st c = .ok (Verif.contiguousStep st c) := by
  obtain ⟨l, pm⟩ := st
  unfold contiguousStep Verif.contiguousStep
  by_cases hc : c.isMatch = pm ∧ l.length > 0
  · rw [if_pos hc, if_pos hc]
    obtain ⟨acc, x, rfl⟩ : ∃ acc x, l = acc ++ [x] :=
      ⟨_, _, (List.dropLast_concat_getLast (List.ne_nil_of_length_pos hc.2)).symm⟩
    simp only at h
    rw [setLast_concat _ _ _ (by simpa using h), GoM.bind_ok, setLastStop_concat]
    rfl
  · rw [if_neg hc, if_neg hc]; rfl

theorem setLastStop_length (l : List SplitMatch) (e : Int) : (setLastStop l e).length = l.length := by
  rcases List.eq_nil_or_concat l with rfl | ⟨acc, x, rfl⟩
  · rfl
  · simp [List.concat_eq_append, setLastStop_concat]

theorem setLastStart_length (l : List SplitMatch) (e : Int) : (setLastStart l e).length = l.length := by
  rcases List.eq_nil_or_concat l with rfl | ⟨acc, x, rfl⟩
  · rfl
  · simp [List.concat_eq_append, setLastStart_concat]

/-- A loop whose body appends at most one element per round and never panics while the list is short. -/
theorem goFor_grow {α β : Type} {f : List β × Bool → α → GoM (List β × Bool)} {g : List β × Bool → α → List β × Bool}
    {H : Nat} (hf : ∀ st c, st.1.length < H → f st c = .ok (g st c)) (hg : ∀ st c, (g st c).1.length ≤ st.1.length + 1)
    (xs : List α) : ∀ st : List β × Bool, st.1.length + xs.length < H → goFor xs st f = .ok (xs.foldl g st) := by
  induction xs with
  | nil => intros; rfl
  | cons x xs ih =>
    intro st h
    simp only [List.length_cons] at h
    rw [goFor_cons, hf st x (by omega), GoM.bind_ok, List.foldl_cons]
    have := hg st x
    exact ih _ (by omega)

theorem mergePrevStep_length (st : List SplitMatch × Bool) (c : Capture) :
    (Verif.mergePrevStep st c).1.length ≤ st.1.length + 1 := by
  unfold Verif.mergePrevStep
  split <;> simp [setLastStop_length]

theorem contiguousStep_length (st : List SplitMatch × Bool) (c : Capture) :
    (Verif.contiguousStep st c).1.length ≤ st.1.length + 1 := by
  unfold Verif.contiguousStep
  split <;> simp [setLastStop_length]

theorem mergeNextStep_length (st : List SplitMatch × Bool) (c : Capture) :
    (Verif.mergeNextStep st c).1.length ≤ st.1.length + 1 := by
  unfold Verif.mergeNextStep
  split <;> simp [setLastStart_length]

theorem mergeNextLoop_eq (captures : List Capture) (n : Nat) : ∀ (st : List SplitMatch × Bool), n ≤ captures.length →
    ((st.1.length + n : Nat) : Int) < m.half →
    m.mergeNextLoop captures n st = .ok ((captures.take n).reverse.foldl Verif.mergeNextStep st) := by
  induction n with
  | zero => intro st _ _; simp [mergeNextLoop]
  | succ n ih =>
    intro st hn h
    simp only [mergeNextLoop]
    rw [goIndex_nat (by omega), GoM.bind_ok, List.take_succ_eq_append_getElem (by omega)]
    simp only [List.reverse_append, List.reverse_cons, List.reverse_nil, List.nil_append, List.cons_append,
      List.foldl_cons]
    have hstep := mergeNextStep_length st captures[n]
    have key : Verif.mergeNextStep st captures[n]
        = if captures[n].isMatch = true ∧ (!st.2) = true ∧ st.1.length > 0 then
            (setLastStart st.1 captures[n].offsets.start, captures[n].isMatch)
          else (st.1 ++ [⟨captures[n].offsets, false⟩], captures[n].isMatch) := rfl
    by_cases hc : captures[n].isMatch = true ∧ (!st.2) = true ∧ st.1.length > 0
    · rw [if_pos hc] at key ⊢
      rw [key] at hstep ⊢
      obtain ⟨acc, x, e⟩ : ∃ acc x, st.1 = acc ++ [x] :=
        ⟨_, _, (List.dropLast_concat_getLast (List.ne_nil_of_length_pos hc.2.2)).symm⟩
      rw [e] at hstep h ⊢
      simp only [List.length_append, List.length_cons, List.length_nil] at h
      rw [setLast_concat _ _ _ (by omega), GoM.bind_ok, setLastStart_concat]
      rw [ih _ (by omega) (by simp only [List.length_append, List.length_cons, List.length_nil]; omega)]
    · rw [if_neg hc] at key ⊢
      rw [key]
      exact ih _ (by omega) (by simp only [List.length_append, List.length_cons, List.length_nil]; omega)

theorem reverseLoop_eq (n : Nat) : ∀ (l : List SplitMatch), 2 * n ≤ l.length → (l.length : Int) < m.half →
    m.reverseLoop n l = Verif.reverseLoop n l := by
  induction n with
  | zero => intros; rfl
  | succ n ih =>
    intro l h1 h2
    simp only [reverseLoop, Verif.reverseLoop]
    rw [wrap_eq (x := (l.length : Int) - 1) ⟨by omega, by omega⟩, wrap_eq ⟨by omega, by omega⟩]
    cases hs : goSwap l (n : Int) ((l.length : Int) - 1 - n) with
    | panic => rfl
    | ok l' =>
      simp only [GoM.bind_ok]
      have hl : l'.length = l.length := by
        have := goSwap_nat (l := l) (i := n) (j := l.length - 1 - n) (by omega) (by omega)
        rw [show ((l.length - 1 - n : Nat) : Int) = (l.length : Int) - 1 - n by omega, hs] at this
        simp only [GoM.ok.injEq] at this
        rw [this]; simp
      exact ih l' (by omega) (by omega)

theorem splitMatches_eq {b : Behavior} {captures : List Capture} (h : (captures.length : Int) < m.half) :
    m.splitMatches b captures = .ok (Verif.splitMatches b captures) := by
  have app : ∀ (g : Capture → SplitMatch) (cs : List Capture) (l : List SplitMatch),
      goFor cs l (fun l c => (pure (l ++ [g c]) : GoM (List SplitMatch))) = .ok (l ++ cs.map g) := by
    intro g cs
    induction cs with
    | nil => intro l; simp
    | cons c cs ih => intro l; rw [goFor_cons, GoM.pure_eq, GoM.bind_ok, ih]; simp
  cases b with
  | removed => exact app _ _ _
  | isolated => exact app _ _ _
  | mergedWithPrevious =>
    simp only [splitMatches, Verif.splitMatches]
    rw [goFor_grow (H := m.half) (fun st c hl => mergePrevStep_eq (by exact_mod_cast hl)) mergePrevStep_length captures
      ([], false) (by simp; omega)]
    rfl
  | contiguous =>
    simp only [splitMatches, Verif.splitMatches]
    rw [goFor_grow (H := m.half) (fun st c hl => contiguousStep_eq (by exact_mod_cast hl)) contiguousStep_length captures
      ([], false) (by simp; omega)]
    rfl
  | mergedWithNext =>
    simp only [splitMatches, Verif.splitMatches]
    rw [mergeNextLoop_eq captures captures.length _ (by omega) (by simp; omega), GoM.bind_ok, List.take_length]
    have hlen : ∀ (cs : List Capture) (st : List SplitMatch × Bool),
        (cs.foldl Verif.mergeNextStep st).1.length ≤ st.1.length + cs.length := by
      intro cs
      induction cs with
      | nil => intro st; simp
      | cons c cs ih =>
        intro st
        have h1 := ih (Verif.mergeNextStep st c)
        have h2 := mergeNextStep_length st c
        simp only [List.foldl_cons, List.length_cons]
        omega
    have h1 := hlen captures.reverse ([], false)
    simp only [List.length_nil, List.length_reverse] at h1
    generalize (captures.reverse.foldl Verif.mergeNextStep ([], false)).1 = l at h1
    rw [reverseLoop_eq _ l (by omega) (by omega)]
    exact reverseInPlace_eq l

theorem sliceAll_eq {root : Str} {ns : NS} (hwf : WF ns) (hp : PartOf root ns) (hr : m.Sized root.length)
    (hn : m.Sized ns.normalized.length) (sms : List SplitMatch) : ∀ (result : List NS),
    (∀ sm ∈ sms, m.InInt sm.offsets.start ∧ m.InInt sm.offsets.stop) →
    m.sliceAll ns sms result = (do
      match ← ns.sliceAll sms with
      | .error e => pure (.error e)
      | .ok rest => pure (.ok (result ++ rest))) := by
  induction sms with
  | nil => intro result _; simp [sliceAll, NS.sliceAll]
  | cons sm sms ih =>
    intro result h
    have h0 := h sm (by simp)
    have ih' := fun r => ih r fun x hx => h x (by simp [hx])
    simp only [sliceAll, NS.sliceAll]
    by_cases hrm : sm.shouldRemove = true
    · rw [if_pos hrm, if_pos hrm]; exact ih' result
    · rw [if_neg hrm, if_neg hrm, slice_eq (r := .normalized sm.offsets.start sm.offsets.stop) hwf hp hr hn h0.1 h0.2]
      cases ns.slice (.normalized sm.offsets.start sm.offsets.stop) with
      | panic => rfl
      | ok o =>
        cases o with
        | none => rfl
        | some piece =>
          simp only [GoM.bind_ok]
          rw [ih']
          cases ns.sliceAll sms with
          | panic => rfl
          | ok r => cases r <;> simp

theorem splitMatches_offsets {P : Int → Prop} (b : Behavior) (captures : List Capture)
    (h : ∀ c ∈ captures, P c.offsets.start ∧ P c.offsets.stop) :
    ∀ sm ∈ Verif.splitMatches b captures, P sm.offsets.start ∧ P sm.offsets.stop := by
  have fold : ∀ (g : List SplitMatch × Bool → Capture → List SplitMatch × Bool) (cs : List Capture)
      (hg : ∀ st c, (∀ sm ∈ st.1, P sm.offsets.start ∧ P sm.offsets.stop) → (P c.offsets.start ∧ P c.offsets.stop) →
        ∀ sm ∈ (g st c).1, P sm.offsets.start ∧ P sm.offsets.stop)
      (st : List SplitMatch × Bool), (∀ c ∈ cs, P c.offsets.start ∧ P c.offsets.stop) →
      (∀ sm ∈ st.1, P sm.offsets.start ∧ P sm.offsets.stop) →
      ∀ sm ∈ (cs.foldl g st).1, P sm.offsets.start ∧ P sm.offsets.stop := by
    intro g cs hg
    induction cs with
    | nil => intro st _ hst; exact hst
    | cons c cs ih =>
      intro st hcs hst
      exact ih _ (fun x hx => hcs x (by simp [hx])) (hg st c hst (hcs c (by simp)))
  have app : ∀ (l : List SplitMatch) (c : Capture), (∀ sm ∈ l, P sm.offsets.start ∧ P sm.offsets.stop) →
      (P c.offsets.start ∧ P c.offsets.stop) →
      ∀ sm ∈ l ++ [(⟨c.offsets, false⟩ : SplitMatch)], P sm.offsets.start ∧ P sm.offsets.stop := by
    intro l c hl hc sm hm
    simp only [List.mem_append, List.mem_singleton] at hm
    rcases hm with hm | rfl
    · exact hl sm hm
    · exact hc
  have stop : ∀ (l : List SplitMatch) (e : Int), (∀ sm ∈ l, P sm.offsets.start ∧ P sm.offsets.stop) → P e →
      ∀ sm ∈ setLastStop l e, P sm.offsets.start ∧ P sm.offsets.stop := by
    intro l e hl he sm hm
    rcases List.eq_nil_or_concat l with rfl | ⟨acc, x, rfl⟩
    · exact absurd hm (by simp [setLastStop])
    · rw [List.concat_eq_append, setLastStop_concat] at hm
      simp only [List.concat_eq_append, List.mem_append, List.mem_singleton] at hm hl
      rcases hm with hm | rfl
      · exact hl sm (.inl hm)
      · exact ⟨(hl x (.inr rfl)).1, he⟩
  have start : ∀ (l : List SplitMatch) (e : Int), (∀ sm ∈ l, P sm.offsets.start ∧ P sm.offsets.stop) → P e →
      ∀ sm ∈ setLastStart l e, P sm.offsets.start ∧ P sm.offsets.stop := by
    intro l e hl he sm hm
    rcases List.eq_nil_or_concat l with rfl | ⟨acc, x, rfl⟩
    · exact absurd hm (by simp [setLastStart])
    · rw [List.concat_eq_append, setLastStart_concat] at hm
      simp only [List.concat_eq_append, List.mem_append, List.mem_singleton] at hm hl
      rcases hm with hm | rfl
      · exact hl sm (.inl hm)
      · exact ⟨he, (hl x (.inr rfl)).2⟩
  cases b with
  | removed => intro sm hm; simp only [Verif.splitMatches, List.mem_map] at hm; obtain ⟨c, hc, rfl⟩ := hm; exact h c hc
  | isolated => intro sm hm; simp only [Verif.splitMatches, List.mem_map] at hm; obtain ⟨c, hc, rfl⟩ := hm; exact h c hc
  | mergedWithPrevious =>
    refine fold _ captures ?_ ([], false) h (by simp)
    intro st c hst hc
    unfold Verif.mergePrevStep
    split
    · exact stop _ _ hst hc.2
    · exact app _ _ hst hc
  | contiguous =>
    refine fold _ captures ?_ ([], false) h (by simp)
    intro st c hst hc
    unfold Verif.contiguousStep
    split
    · exact stop _ _ hst hc.2
    · exact app _ _ hst hc
  | mergedWithNext =>
    intro sm hm
    simp only [Verif.splitMatches, List.mem_reverse] at hm
    refine fold Verif.mergeNextStep captures.reverse ?_ ([], false) (fun c hc => h c (by simpa using hc)) (by simp) sm hm
    intro st c hst hc
    unfold Verif.mergeNextStep
    split
    · exact start _ _ hst hc.1
    · exact app _ _ hst hc

theorem split_eq {root : Str} {ns : NS} {pattern : SplitPattern} {b : Behavior} (hwf : WF ns) (hp : PartOf root ns)
    (hr : m.Sized root.length) (hn : m.Sized ns.normalized.length)
    (hc : ∀ cs, pattern ns.normalized = .ok (.ok cs) → (cs.length : Int) < m.half
      ∧ ∀ c ∈ cs, m.InInt c.offsets.start ∧ m.InInt c.offsets.stop) :
    m.split ns pattern b = ns.split pattern b := by
  unfold split NS.split
  cases hpt : pattern ns.normalized with
  | panic => rfl
  | ok r =>
    cases r with
    | error e => rfl
    | ok cs =>
      obtain ⟨h1, h2⟩ := hc cs hpt
      simp only [GoM.bind_ok]
      rw [splitMatches_eq h1, GoM.bind_ok, sliceAll_eq hwf hp hr hn _ _ (splitMatches_offsets b cs h2)]
      cases ns.sliceAll (Verif.splitMatches b cs) with
      | panic => rfl
      | ok r => cases r <;> simp

/-! ## Offsets, byte splits, encodings -/

theorem convertOffsets_eq {s : Str} {o : ByteOffsets} (hs : m.Sized s.length) :
    m.convertOffsets (newBytesToRuneOffsetConverter s) o = Verif.convertOffsets (newBytesToRuneOffsetConverter s) o := by
  have hx : ∀ x ∈ newBytesToRuneOffsetConverter s, 0 ≤ x ∧ x < (s.length : Int) := by
    intro x hx
    unfold newBytesToRuneOffsetConverter at hx
    simp only [List.mem_flatMap, List.mem_replicate] at hx
    obtain ⟨p, hp, -, rfl⟩ := hx
    have := rangeAux_lt s 0 0 p hp
    omega
  have hlen : (newBytesToRuneOffsetConverter s).length ≤ 4 * s.length := by
    have e : ∀ l : List (Nat × Rune), (l.flatMap fun (i, r) => List.replicate (encodeRune r).length (i : Int)).length
        = (encodeRunes (l.map (·.2))).length := by
      intro l
      induction l with
      | nil => rfl
      | cons p l ih => simp only [List.flatMap_cons, List.length_append, List.length_replicate, ih, List.map_cons,
          encodeRunes_cons]
    have := encodeRunes_runesOf_le s
    unfold newBytesToRuneOffsetConverter
    rw [e]
    exact this
  unfold Sized at hs
  unfold convertOffsets Verif.convertOffsets
  by_cases h0 : (newBytesToRuneOffsetConverter s).length = 0
  · rw [if_pos h0, if_pos h0]
  · rw [if_neg h0, if_neg h0]
    cases goIndex (newBytesToRuneOffsetConverter s) o.start with
    | panic => rfl
    | ok a =>
      simp only [GoM.bind_ok]
      by_cases h1 : o.stop = ((newBytesToRuneOffsetConverter s).length : Int)
      · rw [if_pos h1, if_pos h1, wrap_eq ⟨by omega, by omega⟩]
        cases hg : goIndex (newBytesToRuneOffsetConverter s) (o.stop - 1) with
        | panic => rfl
        | ok x =>
          have hm := hx x (List.mem_of_getElem? (goIndex_eq_ok.1 hg).2)
          simp only [GoM.bind_ok, GoM.pure_eq]
          rw [wrap_eq ⟨by omega, by omega⟩]
      · rw [if_neg h1, if_neg h1]

theorem getOriginalByteSplits_eq {root : Str} {p : PTS} (hp : ∀ sp ∈ p.splits, PartOf root sp.ns)
    (hr : m.Sized root.length) : m.getOriginalByteSplits p = p.getOriginalByteSplits := by
  unfold getOriginalByteSplits PTS.getOriginalByteSplits
  refine List.map_congr_left ?_
  intro sp hsp
  rw [originalOffsets_eq (hp sp hsp) hr]

theorem normalizedByteSplitsLoop_eq (sps : List Piece) : ∀ (done : List ByteSplit) (offset : Int), 0 ≤ offset →
    offset + (sps.map fun sp => sp.ns.len).sum < m.half → (done.length : Int) + sps.length < m.half →
    m.normalizedByteSplitsLoop sps done.length offset (done ++ List.replicate sps.length ⟨[], ⟨0, 0⟩, none⟩)
      = .ok (done ++ PTS.normalizedByteSplitsLoop sps offset) := by
  induction sps with
  | nil => intro done offset _ _ _; simp [normalizedByteSplitsLoop, PTS.normalizedByteSplitsLoop]
  | cons sp sps ih =>
    intro done offset h0 h1 h2
    simp only [List.map_cons, List.sum_cons, List.length_cons] at h1 h2
    have hn : ∀ l : List Piece, 0 ≤ (l.map fun sp => sp.ns.len).sum := by
      intro l
      induction l with
      | nil => simp
      | cons x l ih => simp only [List.map_cons, List.sum_cons]; unfold NS.len at *; omega
    have hns := hn sps
    have hl : 0 ≤ sp.ns.len := by unfold NS.len; omega
    simp only [normalizedByteSplitsLoop, PTS.normalizedByteSplitsLoop, List.length_cons, List.replicate_succ]
    rw [wrap_eq (x := offset + sp.ns.len) ⟨by omega, by omega⟩, wrap_eq (x := (done.length : Int) + 1) ⟨by omega, by omega⟩]
    have hi := goIndex_mid done (⟨[], ⟨0, 0⟩, none⟩ : ByteSplit) (List.replicate sps.length ⟨[], ⟨0, 0⟩, none⟩)
      (i := (done.length : Int)) rfl
    rw [goSet_of_index hi, GoM.bind_ok]
    have := ih (done ++ [⟨sp.ns.get, ⟨offset, offset + sp.ns.len⟩, sp.tokens⟩]) (offset + sp.ns.len) (by omega) (by omega)
      (by simp only [List.length_append, List.length_singleton]; omega)
    simp only [List.length_append, List.length_singleton, List.append_assoc, List.cons_append, List.nil_append] at this
    rw [show (done ++ (⟨[], ⟨0, 0⟩, none⟩ : ByteSplit) :: List.replicate sps.length ⟨[], ⟨0, 0⟩, none⟩).set
        (done.length : Int).toNat ⟨sp.ns.get, ⟨offset, offset + sp.ns.len⟩, sp.tokens⟩
      = done ++ ⟨sp.ns.get, ⟨offset, offset + sp.ns.len⟩, sp.tokens⟩ :: List.replicate sps.length ⟨[], ⟨0, 0⟩, none⟩ by simp,
      show ((done.length : Int) + 1) = ((done.length + 1 : Nat) : Int) by omega]
    exact this

theorem getNormalizedByteSplits_eq {p : PTS} (h1 : (p.splits.map fun sp => sp.ns.len).sum < m.half)
    (h2 : (p.splits.length : Int) < m.half) : m.getNormalizedByteSplits p = .ok p.getNormalizedByteSplits := by
  have := normalizedByteSplitsLoop_eq (m := m) p.splits [] 0 (by omega) (by omega) (by simpa using h2)
  simpa [getNormalizedByteSplits, PTS.getNormalizedByteSplits] using this

/-- A value of type `int` whose double is one too. -/
def InHalf (m : Machine) (x : Int) : Prop := -(m.half : Int) ≤ 2 * x ∧ 2 * x < (m.half : Int)

theorem tokenOffsets_eq {root : Str} {ns : NS} {t : Token} (hwf : WF ns) (hp : PartOf root ns) (hr : m.Sized root.length)
    (hn : m.Sized ns.normalized.length) (h1 : m.InHalf t.offsets.start) (h2 : m.InHalf t.offsets.stop) :
    m.tokenOffsets ns t = PTS.tokenOffsets ns t := by
  obtain ⟨a1, a2⟩ := h1
  obtain ⟨a3, a4⟩ := h2
  have hal : ns.alignments.length < m.half := by rw [hwf.len]; unfold Sized at hn; omega
  unfold tokenOffsets PTS.tokenOffsets
  rw [originalOffsets_eq hp hr, coerceRangeToOriginal_eq (r := .normalized t.offsets.start t.offsets.stop)
    ⟨by simp only [Rng.start]; omega, by simp only [Rng.start]; omega⟩
    ⟨by simp only [Rng.stop]; omega, by simp only [Rng.stop]; omega⟩ hal]
  cases hc : ns.coerceRangeToOriginal (.normalized t.offsets.start t.offsets.stop) with
  | panic => rfl
  | ok o =>
    cases o with
    | none => rfl
    | some q =>
      obtain ⟨a, b⟩ := q
      obtain ⟨pre, post, e1, e2⟩ := hp
      have hlr : root.length = pre.length + ns.original.length + post.length := by rw [e1]; simp; omega
      have hb : m.InHalf a ∧ m.InHalf b := by
        simp only [NS.coerceRangeToOriginal] at hc
        unfold Sized at hr
        by_cases c1 : t.offsets.stop - t.offsets.start = 0
        · rw [if_pos c1] at hc
          simp only [GoM.ok.injEq, Option.some.injEq, Prod.mk.injEq] at hc
          obtain ⟨rfl, rfl⟩ := hc
          exact ⟨⟨a1, a2⟩, ⟨a3, a4⟩⟩
        · rw [if_neg c1] at hc
          by_cases c2 : t.offsets.start > t.offsets.stop
          · rw [if_pos c2] at hc; simp at hc
          · rw [if_neg c2] at hc
            by_cases c3 : ns.normalized.length = 0 ∧ t.offsets.start = 0 ∧ t.offsets.stop = 0
            · omega
            · rw [if_neg c3] at hc
              simp only [GoM.bind_eq_ok, GoM.pure_eq, GoM.ok.injEq, Option.some.injEq, Prod.mk.injEq] at hc
              obtain ⟨als, g1, f, g2, l, g3, rfl, rfl⟩ := hc
              have hsub : ∀ x ∈ als, x ∈ ns.alignments := by
                intro x hx
                rw [(goSlice_eq_ok.1 g1).2] at hx
                exact List.mem_of_mem_drop (List.mem_of_mem_take hx)
              have b1 := hwf.bounds f (hsub f (List.mem_of_getElem? (goIndex_eq_ok.1 g2).2))
              have b2 := hwf.bounds l (hsub l (List.mem_of_getElem? (goIndex_eq_ok.1 g3).2))
              unfold InHalf
              exact ⟨⟨by omega, by omega⟩, ⟨by omega, by omega⟩⟩
      obtain ⟨⟨b1, b2⟩, b3, b4⟩ := hb
      unfold Sized at hr
      simp only [GoM.bind_ok, NS.originalOffsets]
      rw [wrap_eq (x := ns.originalShift + a) ⟨by omega, by omega⟩, wrap_eq ⟨by omega, by omega⟩]

/-- What the token offsets of a split must satisfy. -/
def TokensFit (m : Machine) (sp : Piece) : Prop :=
  ∀ ts, sp.tokens = some ts → ∀ t ∈ ts, m.InHalf t.offsets.start ∧ m.InHalf t.offsets.stop

theorem encodeTokens_eq {root : Str} {ns : NS} {w ty : Int} (hwf : WF ns) (hp : PartOf root ns) (hr : m.Sized root.length)
    (hn : m.Sized ns.normalized.length) (ts : List Token) : ∀ (sq : List EncodableToken),
    (∀ t ∈ ts, m.InHalf t.offsets.start ∧ m.InHalf t.offsets.stop) →
    m.encodeTokens ns w ty ts sq = (PTS.encodeTokens ns w ty ts >>= fun r => pure (sq ++ r)) := by
  induction ts with
  | nil => intro sq _; simp [encodeTokens, PTS.encodeTokens]
  | cons t ts ih =>
    intro sq h
    have h0 := h t (by simp)
    simp only [encodeTokens, PTS.encodeTokens]
    rw [tokenOffsets_eq hwf hp hr hn h0.1 h0.2]
    cases PTS.tokenOffsets ns t with
    | panic => rfl
    | ok o =>
      simp only [GoM.bind_ok]
      rw [ih _ fun x hx => h x (by simp [hx])]
      cases PTS.encodeTokens ns w ty ts with
      | panic => rfl
      | ok r => simp

theorem encodeSplits_eq {root : Str} {w ty : Int} (hr : m.Sized root.length) (sps : List Piece) :
    ∀ (i : Nat) (sq : List EncodableToken), ((i + sps.length : Nat) : Int) < m.half →
    (∀ sp ∈ sps, WF sp.ns ∧ PartOf root sp.ns ∧ m.Sized sp.ns.normalized.length ∧ m.TokensFit sp) →
    m.encodeSplits w ty sps i sq = (PTS.encodeSplits w ty i sps >>= fun r => pure (sq ++ r)) := by
  induction sps with
  | nil => intro i sq _ _; simp [encodeSplits, PTS.encodeSplits]
  | cons sp sps ih =>
    intro i sq hl h
    simp only [List.length_cons] at hl
    obtain ⟨h1, h2, h3, h4⟩ := h sp (by simp)
    simp only [encodeSplits, PTS.encodeSplits]
    rw [encodeTokens_eq h1 h2 hr h3 _ _ (by
      cases ht : sp.tokens with
      | none => simp
      | some ts => exact h4 ts ht)]
    cases PTS.encodeTokens sp.ns (if w < 0 then (i : Int) else w) ty (sp.tokens.getD []) with
    | panic => rfl
    | ok here =>
      simp only [GoM.bind_ok, GoM.pure_eq]
      rw [wrap_eq ⟨by omega, by omega⟩, show ((i : Int) + 1) = ((i + 1 : Nat) : Int) by omega,
        ih (i + 1) _ (by omega) fun x hx => h x (by simp [hx])]
      cases PTS.encodeSplits w ty (i + 1) sps with
      | panic => rfl
      | ok r => simp

theorem intoEncoding_eq {root : Str} {p : PTS} {w ty : Int} (hr : m.Sized root.length) (hl : (p.splits.length : Int) < m.half)
    (h : ∀ sp ∈ p.splits, WF sp.ns ∧ PartOf root sp.ns ∧ m.Sized sp.ns.normalized.length ∧ m.TokensFit sp) :
    m.intoEncoding p w ty = p.intoEncoding w ty := by
  unfold intoEncoding PTS.intoEncoding
  by_cases h0 : p.splits.length = 0
  · rw [if_pos h0, if_pos h0]
  · rw [if_neg h0, if_neg h0]
    by_cases h1 : (!p.allSplitsHaveTokens) = true
    · rw [if_pos h1, if_pos h1]
    · rw [if_neg h1, if_neg h1]
      have := encodeSplits_eq (w := w) (ty := ty) hr p.splits 0 [] (by simpa using hl) h
      simp only [Int.natCast_zero] at this
      rw [this]
      cases PTS.encodeSplits w ty 0 p.splits with
      | panic => rfl
      | ok r => simp

/-! ## Merges files -/

theorem mergeMapLoop_eq (vocab : Vocab) (pl : Int) (lines : List Str) : ∀ (lc : Nat) (rank : Int) (mm : MergeMap), 0 ≤ rank →
    rank + lines.length < m.half → m.mergeMapLoop vocab pl lines lc rank mm = Verif.mergeMapLoop vocab pl lines lc rank mm := by
  induction lines with
  | nil => intros; rfl
  | cons line rest ih =>
    intro lc rank mm h0 h
    simp only [List.length_cons] at h
    simp only [mergeMapLoop, Verif.mergeMapLoop]
    by_cases hv : versionPrefix.isPrefixOf line = true
    · rw [if_pos hv, if_pos hv]; exact ih _ _ _ h0 (by omega)
    · rw [if_neg hv, if_neg hv]
      cases parseMergeLine vocab pl lc rank line with
      | panic => rfl
      | ok r =>
        cases r with
        | error e => rfl
        | ok kv => simp only; rw [wrap_eq ⟨by omega, by omega⟩]; exact ih _ _ _ (by omega) (by omega)

theorem scanLinesAux_length (s : Str) : ∀ cur : Str, (scanLinesAux s cur).1.length ≤ s.length + 1 := by
  induction s with
  | nil =>
    intro cur
    cases cur with
    | nil => simp [scanLinesAux]
    | cons c cs => simp only [scanLinesAux]; split <;> simp
  | cons b bs ih =>
    intro cur
    have h1 := ih []
    have h2 := ih (b :: cur)
    simp only [scanLinesAux]
    split
    · split
      · simp
      · simp; omega
    · simp; omega

theorem mergeMapFromFile_eq {content : Str} {vocab : Vocab} {pl : Int} (h : m.Sized content.length) :
    m.mergeMapFromFile content vocab pl = Verif.mergeMapFromFile content vocab pl := by
  unfold mergeMapFromFile Verif.mergeMapFromFile
  have := scanLinesAux_length content []
  unfold Sized at h
  rw [mergeMapLoop_eq _ _ _ _ _ _ (by omega) (by unfold scanLines; omega)]
  cases Verif.mergeMapLoop vocab pl (scanLines content) 1 0 [] with
  | panic => rfl
  | ok r => cases r <;> rfl

/-! ## WordPiece -/

theorem byteStringLen_le (b : UInt8) : 1 ≤ WordPiece.byteStringLen b ∧ WordPiece.byteStringLen b ≤ 4 := by
  unfold WordPiece.byteStringLen
  exact ⟨encodeRune_length_pos _, encodeRune_le_four _⟩

theorem pieceInner_eq {wp : WordPiece} {seq : Str} {start : Nat} (hs : m.Sized seq.length)
    (hp : m.Sized (wp.continuingSubwordPrefix.length + seq.length)) (fuel : Nat) : ∀ (stop : Int), -4 ≤ stop →
    stop ≤ seq.length → stop ≤ fuel →
    m.pieceInner wp seq start fuel stop = .ok (some (wp.findToken seq start fuel stop)) := by
  induction fuel with
  | zero =>
    intro stop h0 h1 h2
    unfold pieceInner WordPiece.findToken
    rw [if_neg (by omega)]
  | succ fuel ih =>
    intro stop h0 h1 h2
    unfold pieceInner WordPiece.findToken
    by_cases hlt : (start : Int) < stop
    · rw [if_pos hlt, if_pos hlt]
      simp only
      unfold Sized at hs hp
      have hsl : goSlice seq (start : Int) stop = .ok ((seq.drop start).take (stop.toNat - start)) := by
        rw [goSlice_of (by omega) (by omega) (by omega)]
        congr 2
        omega
      have hsub : (if (start : Int) > 0 then wp.continuingSubwordPrefix ++ (seq.drop start).take (stop.toNat - start)
          else (seq.drop start).take (stop.toNat - start)) = wp.subStr seq start stop.toNat := by
        unfold WordPiece.subStr
        by_cases h : start > 0
        · rw [if_pos h, if_pos (by omega)]
        · rw [if_neg h, if_neg (by omega)]
      rw [hsl, GoM.bind_ok, hsub]
      have hlen : (wp.subStr seq start stop.toNat).length ≤ wp.continuingSubwordPrefix.length + seq.length := by
        unfold WordPiece.subStr
        split <;> simp <;> omega
      generalize hsb : wp.subStr seq start stop.toNat = sub at hlen
      cases hg : wp.vocab.getID sub with
      | some id => rfl
      | none =>
        simp only
        rcases List.eq_nil_or_concat sub with rfl | ⟨pre, b, rfl⟩
        · rw [if_neg (by simp)]
          simp only [List.getLast?_nil]
          rw [wrap_eq ⟨by omega, by omega⟩]
          exact ih _ (by omega) (by omega) (by omega)
        · simp only [List.concat_eq_append, List.length_append, List.length_cons, List.length_nil] at hlen ⊢
          rw [if_pos (by omega), List.getLast?_concat]
          simp only
          obtain ⟨b1, b2⟩ := byteStringLen_le b
          rw [wrap_eq (x := ((pre.length + (0 + 1) : Nat) : Int) - 1) ⟨by omega, by omega⟩,
            goIndex_mid pre b [] (by omega), GoM.bind_ok, wrap_eq ⟨by omega, by omega⟩]
          exact ih _ (by omega) (by omega) (by omega)
    · rw [if_neg hlt, if_neg hlt]

theorem findToken_bounds {wp : WordPiece} {seq : Str} {start : Nat} (fuel : Nat) : ∀ (stop : Int) (t : Token),
    wp.findToken seq start fuel stop = some t → (start : Int) < t.offsets.stop ∧ t.offsets.stop ≤ stop := by
  induction fuel with
  | zero => intro stop t h; simp [WordPiece.findToken] at h
  | succ fuel ih =>
    intro stop t h
    unfold WordPiece.findToken at h
    by_cases hlt : (start : Int) < stop
    · rw [if_pos hlt] at h
      simp only at h
      cases hg : wp.vocab.getID (wp.subStr seq start stop.toNat) with
      | some id =>
        rw [hg] at h
        simp only [Option.some.injEq] at h
        subst h
        exact ⟨hlt, by simp⟩
      | none =>
        rw [hg] at h
        simp only at h
        cases hl : (wp.subStr seq start stop.toNat).getLast? with
        | none => rw [hl] at h; have := ih _ _ h; omega
        | some b => rw [hl] at h; have := ih _ _ h; omega
    · rw [if_neg hlt] at h; simp at h

theorem pieceOuter_eq {wp : WordPiece} {seq : Str} (hs : m.Sized seq.length)
    (hp : m.Sized (wp.continuingSubwordPrefix.length + seq.length)) (fuel : Nat) : ∀ (start : Nat) (subTokens : List Token),
    seq.length ≤ start + fuel →
    m.pieceOuter wp seq fuel start subTokens = .ok (some ((wp.tokenLoop seq fuel start).map (subTokens ++ ·))) := by
  induction fuel with
  | zero =>
    intro start subTokens hf
    unfold pieceOuter WordPiece.tokenLoop
    rw [if_neg (by omega), if_neg (by omega)]
    simp
  | succ fuel ih =>
    intro start subTokens hf
    unfold pieceOuter WordPiece.tokenLoop
    by_cases hlt : start < seq.length
    · rw [if_pos (by omega), if_pos hlt]
      simp only
      rw [pieceInner_eq hs hp seq.length (seq.length : Int) (by omega) (by omega) (by omega), GoM.bind_ok]
      cases ht : wp.findToken seq start seq.length seq.length with
      | none => rfl
      | some t =>
        obtain ⟨h1, h2⟩ := findToken_bounds _ _ _ ht
        simp only
        rw [show t.offsets.stop = ((t.offsets.stop.toNat : Nat) : Int) by omega, ih _ _ (by omega)]
        simp only [Int.toNat_natCast]
        cases wp.tokenLoop seq fuel t.offsets.stop.toNat with
        | none => rfl
        | some ts => simp
    · rw [if_neg (by omega), if_neg hlt]
      simp

theorem pieceTokenize_eq {wp : WordPiece} {seq : Str} (hp : m.Sized (wp.continuingSubwordPrefix.length + seq.length)) :
    m.pieceTokenize wp seq = .ok (some (wp.tokenize seq)) := by
  have hs : m.Sized seq.length := by unfold Sized at *; omega
  unfold pieceTokenize WordPiece.tokenize
  by_cases h : ((runesOf seq).length : Int) > wp.maxInputCharsPerWord
  · rw [if_pos h, if_pos h]
  · rw [if_neg h, if_neg h]
    have := pieceOuter_eq hs hp seq.length 0 [] (by omega)
    simp only [Int.natCast_zero] at this
    rw [this, GoM.bind_ok]
    cases wp.tokenLoop seq seq.length 0 with
    | none => rfl
    | some ts => simp

/-! ## The queue -/

theorem heapUp_eq (fuel : Nat) : ∀ (h : WMHeap) (j : Int), 0 ≤ j → j < m.half → m.heapUp fuel h j = WMHeap.upL fuel h j := by
  induction fuel with
  | zero => intros; rfl
  | succ fuel ih =>
    intro h j h0 h1
    have hd : 0 ≤ Int.tdiv (j - 1) 2 ∧ Int.tdiv (j - 1) 2 ≤ j := by
      have := WMHeap.parent_eq j.toNat
      rw [show ((j.toNat : Nat) : Int) = j by omega] at this
      omega
    simp only [heapUp, WMHeap.upL]
    rw [wrap_eq (x := j - 1) ⟨by omega, by omega⟩]
    by_cases e : Int.tdiv (j - 1) 2 = j
    · rw [if_pos e, if_pos e]
    · rw [if_neg e, if_neg e]
      cases WMHeap.lessL h j (Int.tdiv (j - 1) 2) with
      | panic => rfl
      | ok b =>
        simp only [GoM.bind_ok]
        cases b with
        | false => rfl
        | true =>
          simp only [Bool.not_true, Bool.false_eq_true, if_false]
          cases goSwap h (Int.tdiv (j - 1) 2) j with
          | panic => rfl
          | ok h' => exact ih _ _ hd.1 (by omega)

theorem heapDown_eq (fuel : Nat) : ∀ (h : WMHeap) (i n : Int), 0 ≤ i → 2 * i + 2 < m.half → 2 * n + 2 < m.half →
    m.heapDown fuel h i n = WMHeap.downL fuel h i n := by
  induction fuel with
  | zero => intros; rfl
  | succ fuel ih =>
    intro h i n h0 h1 h2
    simp only [heapDown, WMHeap.downL]
    rw [wrap_eq (x := 2 * i) ⟨by omega, by omega⟩, wrap_eq (x := 2 * i + 1) ⟨by omega, by omega⟩,
      wrap_eq (x := 2 * i + 1 + 1) ⟨by omega, by omega⟩]
    by_cases e : 2 * i + 1 ≥ n ∨ 2 * i + 1 < 0
    · rw [if_pos e, if_pos e]
    · rw [if_neg e, if_neg e]
      have key : ∀ right : Bool, (right = true → 2 * i + 1 + 1 < n) →
          (WMHeap.lessL h (if right = true then 2 * i + 1 + 1 else 2 * i + 1) i >>= fun b =>
            if (!b) = true then .ok (some h) else goSwap h i (if right = true then 2 * i + 1 + 1 else 2 * i + 1) >>= fun h' =>
              m.heapDown fuel h' (if right = true then 2 * i + 1 + 1 else 2 * i + 1) n)
          = (WMHeap.lessL h (if right = true then 2 * i + 1 + 1 else 2 * i + 1) i >>= fun b =>
            if (!b) = true then .ok (some h) else goSwap h i (if right = true then 2 * i + 1 + 1 else 2 * i + 1) >>= fun h' =>
              WMHeap.downL fuel h' (if right = true then 2 * i + 1 + 1 else 2 * i + 1) n) := by
        intro right hr
        have hj : ∀ j : Int, 0 ≤ j → j < n → (WMHeap.lessL h j i >>= fun b =>
            if (!b) = true then .ok (some h) else goSwap h i j >>= fun h' => m.heapDown fuel h' j n)
          = (WMHeap.lessL h j i >>= fun b =>
            if (!b) = true then .ok (some h) else goSwap h i j >>= fun h' => WMHeap.downL fuel h' j n) := by
          intro j j0 j1
          cases WMHeap.lessL h j i with
          | panic => rfl
          | ok b =>
            simp only [GoM.bind_ok]
            cases b with
            | false => rfl
            | true =>
              simp only [Bool.not_true, Bool.false_eq_true, if_false]
              cases goSwap h i j with
              | panic => rfl
              | ok h' => exact ih _ _ _ j0 (by omega) h2
        cases right with
        | false => exact hj _ (by simp; omega) (by simp; omega)
        | true => exact hj _ (by simp; omega) (by simpa using hr rfl)
      by_cases c : 2 * i + 1 + 1 < n
      · rw [if_pos c]
        cases WMHeap.lessL h (2 * i + 1 + 1) (2 * i + 1) with
        | panic => rfl
        | ok right => exact key right fun _ => c
      · rw [if_neg c]
        exact key false (by simp)

theorem heapPush_eq {h : WMHeap} {x : WordMerge} (hl : (h.length : Int) < m.half) : m.heapPush h x = WMHeap.pushL h x := by
  unfold heapPush WMHeap.pushL
  simp only [List.length_append, List.length_singleton]
  rw [wrap_eq ⟨by omega, by omega⟩, heapUp_eq _ _ _ (by omega) (by omega)]

theorem goSwap_length {α : Type} {l l' : List α} {i j : Int} (h : goSwap l i j = .ok l') : l'.length = l.length := by
  unfold goSwap at h
  simp only [GoM.bind_eq_ok] at h
  obtain ⟨a, -, b, -, l1, h1, h2⟩ := h
  unfold goSet at h1 h2
  split at h1
  · split at h2
    · simp at h1 h2; subst h1; subst h2; simp
    · simp at h2
  · simp at h1

theorem downL_length (fuel : Nat) : ∀ (h h' : WMHeap) (i n : Int), WMHeap.downL fuel h i n = .ok (some h') →
    h'.length = h.length := by
  induction fuel with
  | zero => intro h h' i n e; simp [WMHeap.downL] at e
  | succ fuel ih =>
    intro h h' i n e
    simp only [WMHeap.downL] at e
    split at e
    · simp at e; rw [e]
    · simp only [GoM.bind_eq_ok] at e
      obtain ⟨right, -, b, -, e⟩ := e
      split at e
      · simp at e; rw [e]
      · simp only [GoM.bind_eq_ok] at e
        obtain ⟨h1, e1, e2⟩ := e
        rw [ih _ _ _ _ e2, goSwap_length e1]

theorem heapPop_eq {h : WMHeap} (hl : 2 * (h.length : Int) + 2 < m.half) : m.heapPop h = WMHeap.popL h := by
  unfold heapPop WMHeap.popL
  simp only
  rw [wrap_eq ⟨by omega, by omega⟩]
  cases hsw : goSwap h 0 ((h.length : Int) - 1) with
  | panic => rfl
  | ok h1 =>
    simp only [GoM.bind_ok]
    rw [heapDown_eq _ _ _ _ (by omega) (by omega) (by omega)]
    cases hd : WMHeap.downL h.length h1 0 ((h.length : Int) - 1) with
    | panic => rfl
    | ok o =>
      cases o with
      | none => rfl
      | some h2 =>
        have e1 := goSwap_length hsw
        have e2 := downL_length _ _ _ _ _ hd
        have : m.heapPopLast h2 = WMHeap.popLast h2 := by
          unfold heapPopLast WMHeap.popLast
          rw [wrap_eq ⟨by omega, by omega⟩]
        simp only [GoM.bind_ok, this]

theorem push_length (h : WMHeap) (x : WordMerge) : (WMHeap.push h x).length = h.length + 1 := by
  have up : ∀ (fuel : Nat) (h : WMHeap) (j : Nat), (WMHeap.up fuel h j).length = h.length := by
    intro fuel
    induction fuel with
    | zero => intros; rfl
    | succ fuel ih =>
      intro h j
      simp only [WMHeap.up]
      split
      · rfl
      · rw [ih, WMHeap.length_swap]
  unfold WMHeap.push
  rw [up]
  simp

/-! ## Words -/

theorem wordAdd_eq {w : Word} {id len : Int} (hl : (w.length : Int) < m.half) : m.wordAdd w id len = .ok (w.add id len) := by
  rw [← Word.addL_eq]
  unfold wordAdd Word.addL
  rw [wrap_eq ⟨by omega, by omega⟩]

theorem goSlice_length {α : Type} {l l' : List α} {a b : Int} (h : goSlice l a b = .ok l') : (l'.length : Int) = b - a := by
  obtain ⟨h1, h2⟩ := goSlice_eq_ok.1 h
  subst h2
  simp
  omega

theorem removeLoop_eq (fuel : Nat) : ∀ (w : Word) (i : Int), 0 ≤ i → (w.length : Int) < m.half →
    m.removeLoop fuel w i = Word.removeLoop fuel w i := by
  induction fuel with
  | zero => intro w i _ _; unfold removeLoop Word.removeLoop; rfl
  | succ fuel ih =>
    intro w i h0 hl
    unfold removeLoop Word.removeLoop
    by_cases hlt : i < (w.length : Int)
    · rw [if_pos hlt, if_pos hlt]
      simp only
      cases goIndex w i with
      | panic => rfl
      | ok s =>
        simp only [GoM.bind_ok]
        by_cases hs : s.length = 0
        · rw [if_pos hs, if_pos hs]
          have : m.removeSymbol w i = Word.removeSymbol w i := by
            unfold removeSymbol Word.removeSymbol
            rw [wrap_eq ⟨by omega, by omega⟩]
          rw [this]
          cases hr : Word.removeSymbol w i with
          | panic => rfl
          | ok w' =>
            have hw' : w'.length ≤ w.length := by
              unfold Word.removeSymbol at hr
              simp only [GoM.bind_eq_ok, GoM.pure_eq, GoM.ok.injEq] at hr
              obtain ⟨a, ha, b, hb, rfl⟩ := hr
              have := goSlice_length ha
              have := goSlice_length hb
              simp only [List.length_append]
              omega
            exact ih _ _ h0 (by omega)
        · rw [if_neg hs, if_neg hs, wrap_eq ⟨by omega, by omega⟩]
          exact ih _ _ (by omega) hl
    · rw [if_neg hlt, if_neg hlt]

theorem initLoop_eq {merges : MergeMap} {w : Word} (hw : (w.length : Int) < m.half) (n : Nat) : ∀ (index : Int) (q : WMHeap),
    0 ≤ index → index + n < m.half → (q.length : Int) + n < m.half →
    m.initLoop merges w n index q = Word.initLoop merges w n index q := by
  induction n with
  | zero => intros; rfl
  | succ n ih =>
    intro index q h0 h1 h2
    simp only [initLoop, Word.initLoop]
    rw [wrap_eq ⟨by omega, by omega⟩]
    cases goIndex w index with
    | panic => rfl
    | ok a =>
      simp only [GoM.bind_ok]
      cases goIndex w (index + 1) with
      | panic => rfl
      | ok b =>
        simp only [GoM.bind_ok]
        cases merges.get a.id b.id with
        | none => exact ih _ _ (by omega) (by omega) (by omega)
        | some mv =>
          simp only
          rw [heapPush_eq (by omega), WMHeap.pushL_eq]
          simp only [GoM.bind_ok]
          exact ih _ _ (by omega) (by omega) (by rw [push_length]; omega)

theorem pushAll_eq (ss : List WordMerge) : ∀ (q : WMHeap), (q.length : Int) + ss.length < m.half →
    m.pushAll ss q = Word.pushAll ss q := by
  induction ss with
  | nil => intros; rfl
  | cons s ss ih =>
    intro q h
    simp only [List.length_cons] at h
    simp only [pushAll, Word.pushAll]
    rw [heapPush_eq (by omega), WMHeap.pushL_eq]
    simp only [GoM.bind_ok]
    exact ih _ (by rw [push_length]; omega)

theorem pushPrev_eq {merges : MergeMap} {w : Word} {q : WMHeap} {s : WordSymbol} (h : (q.length : Int) < m.half) :
    m.pushPrev merges w q s = Word.pushPrevL merges w q s := by
  unfold pushPrev Word.pushPrevL
  simp only [heapPush_eq h]
  rfl

theorem pushPrev_length {merges : MergeMap} {w : Word} {q q' : WMHeap} {s : WordSymbol}
    (h : Word.pushPrevL merges w q s = .ok (some q')) : q'.length ≤ q.length + 1 := by
  unfold Word.pushPrevL at h
  split at h
  · simp only [GoM.bind_eq_ok] at h
    obtain ⟨p, -, h⟩ := h
    split at h
    · rw [WMHeap.pushL_eq] at h
      simp at h; subst h
      rw [push_length]; omega
    · simp at h; subst h; omega
  · simp at h; subst h; omega

theorem pushNext_eq {merges : MergeMap} {w : Word} {q : WMHeap} {s : WordSymbol} {pos : Int} (h : (q.length : Int) < m.half) :
    m.pushNext merges w q s pos = Word.pushNextL merges w q s pos := by
  unfold pushNext Word.pushNextL
  simp only [heapPush_eq h]
  rfl

/-- Lengths of symbols: not negative, and two of them add up to an `int`. -/
def ShortSymbols (m : Machine) (w : Word) : Prop := ∀ s ∈ w, 0 ≤ s.length ∧ 2 * s.length < m.half

theorem process_eq {merges : MergeMap} {w : Word} {q : WMHeap} {top : WordMerge} (hw : m.ShortSymbols w)
    (h : (q.length : Int) + 1 < m.half) : m.process merges w q top = Word.processL merges w q top := by
  unfold process Word.processL
  cases h1 : goIndex w top.pos with
  | panic => rfl
  | ok cur =>
    simp only [GoM.bind_ok]
    split
    · rfl
    · cases h2 : goIndex w cur.next with
      | panic => rfl
      | ok right =>
        simp only [GoM.bind_ok]
        cases merges.get cur.id right.id with
        | none => rfl
        | some mv =>
          simp only
          split
          · rfl
          · have hc := hw cur (List.mem_of_getElem? (goIndex_eq_ok.1 h1).2)
            have hr := hw right (List.mem_of_getElem? (goIndex_eq_ok.1 h2).2)
            have hm : m.mergeWith cur right top.value.id = cur.mergeWith right top.value.id := by
              unfold mergeWith WordSymbol.mergeWith
              rw [wrap_eq ⟨by omega, by omega⟩]
            rw [hm, goSet_of_index h1]
            simp only [GoM.bind_ok]
            cases h3 : goIndex (w.set top.pos.toNat (cur.mergeWith right top.value.id)) cur.next with
            | panic => rfl
            | ok right' =>
              simp only [GoM.bind_ok]
              rw [goSet_of_index h3]
              simp only [GoM.bind_ok]
              cases Word.relink ((w.set top.pos.toNat (cur.mergeWith right top.value.id)).set cur.next.toNat
                  { right' with length := 0 }) { right' with length := 0 } top.pos with
              | panic => rfl
              | ok w' =>
                simp only [GoM.bind_ok]
                cases goIndex w' top.pos with
                | panic => rfl
                | ok current =>
                  simp only [GoM.bind_ok]
                  rw [pushPrev_eq (by omega)]
                  cases hp : Word.pushPrevL merges w' q current with
                  | panic => rfl
                  | ok o =>
                    cases o with
                    | none => rfl
                    | some q1 =>
                      have := pushPrev_length hp
                      simp only [GoM.bind_ok]
                      rw [pushNext_eq (by omega)]
                      rfl

theorem mergeStep_eq {merges : MergeMap} {d : Bool} {rnd : Nat → Bool} {st : Word.MState} (hw : m.ShortSymbols st.word)
    (hq : 2 * ((st.queue.length : Int) + st.skip.length) + 2 < m.half) (hinv : WMHeap.Inv st.queue) (hne : st.queue ≠ []) :
    m.mergeStep merges d rnd st = Word.mergeStepL merges d rnd st := by
  unfold mergeStep Word.mergeStepL
  rw [heapPop_eq (by omega), WMHeap.popL_eq _ hne]
  simp only [GoM.bind_ok]
  have hl := (WMHeap.pop_spec hinv hne).2.1.length_eq
  simp only [List.length_cons] at hl
  split
  · rfl
  · rw [pushAll_eq _ _ (by omega), Word.pushAll_eq]
    simp only [GoM.bind_ok]
    rw [process_eq hw (by
      have : ∀ (ss : List WordMerge) (q : WMHeap), (ss.foldl (fun q s => WMHeap.push q s) q).length = q.length + ss.length := by
        intro ss
        induction ss with
        | nil => intro q; rfl
        | cons s ss ih => intro q; rw [List.foldl_cons, ih, push_length]; simp; omega
      rw [this]; omega)]
    rfl

theorem holds_short {w : Word} {L : List Sym} (h : Holds w L) (hs : 2 * (L.map fun s => s.len).sum < m.half) :
    m.ShortSymbols w := by
  have hle : ∀ (L : List Sym), (∀ s ∈ L, 0 < s.len) → (0 ≤ (L.map fun s => s.len).sum ∧ ∀ s ∈ L, s.len ≤ (L.map fun s => s.len).sum) := by
    intro L
    induction L with
    | nil => intro _; simp
    | cons s L ih =>
      intro hp
      obtain ⟨i1, i2⟩ := ih fun x hx => hp x (by simp [hx])
      have h0 := hp s (by simp)
      simp only [List.map_cons, List.sum_cons]
      refine ⟨by omega, ?_⟩
      intro x hx
      rcases List.mem_cons.1 hx with rfl | hx
      · omega
      · have := i2 x hx; omega
  intro x hx
  obtain ⟨i, hi, rfl⟩ := List.mem_iff_getElem.1 hx
  have hb := hle L h.positive
  by_cases hm : ∃ s ∈ L, s.pos = i
  · obtain ⟨s, hs1, rfl⟩ := hm
    obtain ⟨y, hy, -, hy2⟩ := seg_get h.seg hs1
    rw [List.getElem?_eq_getElem hi] at hy
    simp only [Option.some.injEq] at hy
    rw [hy, hy2]
    have h1 := h.positive s hs1
    have h2 := hb.2 s hs1
    omega
  · obtain ⟨y, hy, hy0⟩ := h.dead i hi fun s hs1 e => hm ⟨s, hs1, e⟩
    rw [List.getElem?_eq_getElem hi] at hy
    simp only [Option.some.injEq] at hy
    rw [hy, hy0]
    omega

theorem stepKind_sum {merges : MergeMap} {d : Bool} {rnd : Nat → Bool} {st st' : Word.MState} {L L' : List Sym}
    (h : StepKind merges d rnd st st' L L') : (L'.map fun s => s.len).sum = (L.map fun s => s.len).sum := by
  rcases stepKind_mergeOne h with rfl | h
  · rfl
  · have := h.sum
    simpa [Function.comp_def] using this

theorem mergeLoop_eq {merges : MergeMap} {d : Bool} {rnd : Nat → Bool} {n : Nat} (fuel : Nat) : ∀ (st : Word.MState) (L : List Sym),
    Good n d st L → 2 * (L.map fun s => s.len).sum < m.half → 2 * (potential st L : Int) + 2 < m.half →
    m.mergeLoop merges d rnd fuel st = Word.mergeLoop merges d rnd fuel st := by
  induction fuel with
  | zero => intro st L _ _ _; unfold mergeLoop Word.mergeLoop; rfl
  | succ fuel ih =>
    intro st L hg hs hp
    unfold mergeLoop Word.mergeLoop
    by_cases h0 : st.queue.length = 0
    · rw [if_pos h0, if_pos h0]
    · rw [if_neg h0, if_neg h0]
      have hne : st.queue ≠ [] := by rintro e; rw [e] at h0; simp at h0
      obtain ⟨st', L', h1, h2, h3⟩ := mergeStep_spec (merges := merges) (rnd := rnd) hg hne
      have hpot := potential_step h3
      simp only
      rw [mergeStep_eq (holds_short hg.holds hs) (by unfold potential at hp; omega) hg.inv hne,
        Word.mergeStepL_eq _ _ _ _ hne, h1]
      simp only [GoM.map_ok, GoM.bind_ok]
      exact ih st' L' h2 (by rw [stepKind_sum h3]; exact hs) (by omega)

theorem mergeLoop_length {merges : MergeMap} {d : Bool} {rnd : Nat → Bool} {n : Nat} (fuel : Nat) :
    ∀ (st st' : Word.MState) (L : List Sym), Good n d st L → Word.mergeLoop merges d rnd fuel st = .ok (some st') →
    st'.word.length = n := by
  induction fuel with
  | zero =>
    intro st st' L hg h
    unfold Word.mergeLoop at h
    split at h
    · simp at h; subst h; exact hg.len
    · simp at h
  | succ fuel ih =>
    intro st st' L hg h
    unfold Word.mergeLoop at h
    by_cases h0 : st.queue.length = 0
    · rw [if_pos h0] at h; simp at h; subst h; exact hg.len
    · rw [if_neg h0] at h
      obtain ⟨st1, L1, h1, h2, -⟩ := mergeStep_spec (merges := merges) (rnd := rnd) hg
        (by rintro e; rw [e] at h0; simp at h0)
      simp only [h1] at h
      exact ih _ _ _ h2 h

theorem mergeAll_eq {merges : MergeMap} {d : Bool} {rnd : Nat → Bool} {l : List (Int × Int)} {fuel : Nat} (hp : Positive l)
    (hs : 2 * (l.map (·.2)).sum < m.half) (hl : 6 * (l.length : Int) + 2 < m.half) :
    m.mergeAll fuel merges d rnd (built l) = (built l).mergeAllFuel fuel merges d rnd := by
  have hlen := (built_seg l).1
  have hpot := start_potential merges hp
  obtain ⟨hg, -⟩ := start_good merges d hp
  unfold mergeAll Word.mergeAllFuel
  simp only
  rw [wrap_eq ⟨by omega, by omega⟩, show (((built l).length : Int) - 1).toNat = (built l).length - 1 by omega,
    initLoop_eq (by omega) _ _ _ (by omega) (by omega) (by simp; omega)]
  have hi := Word.initLoop_eq merges (built l) ((built l).length - 1) 0 [] (by simp)
  simp only [Int.natCast_zero, List.drop_zero] at hi
  rw [hi]
  simp only [GoM.bind_ok]
  have hsum : ((symsFrom 0 l).map fun s => s.len).sum = (l.map (·.2)).sum := by
    have := congrArg (fun x => (x.map (·.2)).sum) (symsFrom_pairs 0 l)
    simpa [Function.comp_def] using this
  have := mergeLoop_eq (m := m) (merges := merges) (rnd := rnd) fuel (startState merges l) _ hg (by rw [hsum]; exact hs) (by omega)
  rw [show startState merges l = ⟨built l, Word.initQueue merges (built l) 0 [], [], 0⟩ from rfl] at this
  rw [this]
  cases hm : Word.mergeLoop merges d rnd fuel ⟨built l, Word.initQueue merges (built l) 0 [], [], 0⟩ with
  | panic => rfl
  | ok o =>
    cases o with
    | none => rfl
    | some st =>
      simp only [GoM.bind_ok]
      have hk : st.word.length = l.length := mergeLoop_length fuel _ _ _ hg hm
      rw [removeLoop_eq _ _ _ (by omega) (by omega)]
      have := Word.removeLoop_eq st.word.length [] st.word (by omega)
      simpa using this

/-! ## BPE -/

theorem pending_sum {b : BPE} {u : Int} (cs : List (Option Int × Int)) : ∀ p : Option (Int × Int), (∀ c ∈ cs, 0 < c.2) →
    ((BPE.pending b u p cs).map (·.2)).sum ≤ (p.toList.map (·.2)).sum + (cs.map (·.2)).sum
    ∧ (BPE.pending b u p cs).length ≤ p.toList.length + cs.length := by
  induction cs with
  | nil => intro p _; simp [BPE.pending]
  | cons c cs ih =>
    intro p hc
    obtain ⟨o, len⟩ := c
    have h0 := hc (o, len) (by simp)
    have ih' := fun p => ih p fun x hx => hc x (by simp [hx])
    have i0 := ih' none
    simp only at h0
    cases o with
    | some id =>
      simp only [BPE.pending, List.map_append, List.sum_append, List.map_cons, List.sum_cons, List.length_append, List.length_cons]
      simp at i0
      omega
    | none =>
      cases p with
      | none =>
        simp only [BPE.pending]
        have i1 := ih' (some (u, len))
        simp at i0 i1
        split <;> simp <;> omega
      | some q =>
        simp only [BPE.pending]
        have i1 := ih' (some (u, len))
        have i2 := ih' (some (q.1, q.2 + len))
        have i3 := ih' (some q)
        simp at i0 i1 i2 i3
        split
        · split <;> simp <;> omega
        · simp; omega

theorem lookups_sum (b : BPE) (s : Str) : ((b.lookups s).map (·.2)).sum = ((encodeRunes (runesOf s)).length : Int)
    ∧ (b.lookups s).length = (runesOf s).length := by
  unfold BPE.lookups
  refine ⟨?_, by simp⟩
  generalize (runesOf s).length - 1 = last
  generalize runesOf s = rs
  have : ∀ (rs : List Rune) (f : Nat → Rune → Option Int), ((rs.mapIdx fun i r => (f i r, ((encodeRune r).length : Int))).map (·.2)).sum
      = ((encodeRunes rs).length : Int) := by
    intro rs
    induction rs with
    | nil => intro f; rfl
    | cons r rs ih =>
      intro f
      rw [List.mapIdx_cons, List.map_cons, List.sum_cons, ih fun i r => f (i + 1) r, encodeRunes_cons, List.length_append]
      omega
  exact this rs fun i r => b.vocab.getID (b.lookupKey i last r)

/-- The symbols and the length waiting after `k` characters. -/
def AfterRunes (k : Nat) (st : Word × Option (Int × Int)) : Prop :=
  st.1.length + st.2.toList.length ≤ k ∧ ∀ q, st.2 = some q → 0 ≤ q.2 ∧ q.2 ≤ 4 * k

theorem add_length (w : Word) (a b : Int) : (w.add a b).length = w.length + 1 := by
  unfold Word.add
  simp only [List.length_append, List.length_singleton]
  split
  · split <;> simp [Word.setAt]
  · rfl

theorem symbolStep_eq {b : BPE} {u : Int} {last k : Nat} {st : Word × Option (Int × Int)} {ir : Nat × Rune}
    (h : AfterRunes k st) (hk : 8 * ((k : Int) + 1) ≤ m.half) :
    m.symbolStep b u last st ir = .ok (b.symbolStep u last st ir) ∧ AfterRunes (k + 1) (b.symbolStep u last st ir) := by
  obtain ⟨word, unk⟩ := st
  obtain ⟨h1, h2⟩ := h
  have h4 := encodeRune_le_four ir.2
  have hkey : (if (ir.1 : Int) = (last : Int) ∧ b.hasEndOfWordSuffix = true then
        (if ir.1 = 0 ∧ b.hasContinuingSubwordPrefix = true then b.continuingSubwordPrefix ++ encodeRune ir.2 else encodeRune ir.2)
          ++ b.endOfWordSuffix
      else (if ir.1 = 0 ∧ b.hasContinuingSubwordPrefix = true then b.continuingSubwordPrefix ++ encodeRune ir.2 else encodeRune ir.2))
      = b.lookupKey ir.1 last ir.2 := by
    unfold BPE.lookupKey
    simp only [Int.natCast_inj]
  unfold symbolStep BPE.symbolStep
  simp only [hkey]
  simp only at h1 h2
  cases b.vocab.getID (b.lookupKey ir.1 last ir.2) with
  | some id =>
    cases unk with
    | none =>
      simp only [Option.toList_none, List.length_nil] at h1
      simp only
      rw [wordAdd_eq (by omega)]
      refine ⟨rfl, ?_, by simp⟩
      simp [add_length]; omega
    | some q =>
      simp only [Option.toList_some, List.length_singleton] at h1
      simp only
      rw [wordAdd_eq (by omega)]
      simp only [GoM.bind_ok]
      rw [wordAdd_eq (by rw [add_length]; omega)]
      refine ⟨rfl, ?_, by simp⟩
      simp [add_length]; omega
  | none =>
    simp only
    by_cases hu : b.hasUnknownToken = true
    · rw [if_pos hu, if_pos hu]
      cases unk with
      | none =>
        simp only [Option.toList_none, List.length_nil] at h1
        refine ⟨rfl, ?_, ?_⟩
        · simp; omega
        · intro q hq; simp at hq; subst hq; simp; omega
      | some q =>
        simp only [Option.toList_some, List.length_singleton] at h1
        have hq := h2 q rfl
        simp only
        by_cases hf : b.unknownFusionEnabled = true
        · rw [if_pos hf, if_pos hf, wrap_eq ⟨by omega, by omega⟩]
          refine ⟨rfl, ?_, ?_⟩
          · simp; omega
          · intro q' hq'; simp at hq'; subst hq'; simp; omega
        · rw [if_neg hf, if_neg hf, wordAdd_eq (by omega)]
          refine ⟨rfl, ?_, ?_⟩
          · simp [add_length]; omega
          · intro q' hq'; simp at hq'; subst hq'; simp; omega
    · rw [if_neg hu, if_neg hu]
      refine ⟨rfl, by simp only; omega, ?_⟩
      intro q hq
      have := h2 q hq
      omega

theorem symbolLoop_eq {b : BPE} {u : Int} {last : Nat} (xs : List (Nat × Rune)) : ∀ (k : Nat) (st : Word × Option (Int × Int)),
    AfterRunes k st → 8 * ((k : Int) + xs.length + 1) ≤ m.half →
    goFor xs st (m.symbolStep b u last) = .ok (xs.foldl (b.symbolStep u last) st)
    ∧ AfterRunes (k + xs.length) (xs.foldl (b.symbolStep u last) st) := by
  induction xs with
  | nil => intro k st h _; exact ⟨rfl, h⟩
  | cons x xs ih =>
    intro k st h hk
    simp only [List.length_cons] at hk ⊢
    obtain ⟨h1, h2⟩ := symbolStep_eq (b := b) (u := u) (last := last) (ir := x) h (m := m) (by omega)
    rw [goFor_cons, h1, GoM.bind_ok, List.foldl_cons, show k + (xs.length + 1) = k + 1 + xs.length by omega]
    exact ih _ _ h2 (by omega)

theorem wordToTokensLoop_eq (vocab : Vocab) (w : Word) : ∀ (done : List Token) (offset : Int), 0 ≤ offset →
    (∀ s ∈ w, 0 ≤ s.length) → offset + (w.map fun s => s.length).sum < m.half → (done.length : Int) + w.length < m.half →
    m.wordToTokensLoop vocab w done.length offset (done ++ List.replicate w.length ⟨0, [], ⟨0, 0⟩⟩)
      = .ok ((BPE.wordToTokens vocab w offset).map (done ++ ·)) := by
  induction w with
  | nil => intro done offset _ _ _ _; simp [wordToTokensLoop, BPE.wordToTokens, Except.map]
  | cons s w ih =>
    intro done offset h0 hn h1 h2
    simp only [List.map_cons, List.sum_cons, List.length_cons] at h1 h2
    have hs := hn s (by simp)
    have hsum : 0 ≤ (w.map fun s => s.length).sum := by
      have : ∀ w : Word, (∀ s ∈ w, 0 ≤ s.length) → 0 ≤ (w.map fun s => s.length).sum := by
        intro w
        induction w with
        | nil => intro _; simp
        | cons x w ih =>
          intro h
          have := ih fun y hy => h y (by simp [hy])
          have := h x (by simp)
          simp only [List.map_cons, List.sum_cons]
          omega
      exact this w fun x hx => hn x (by simp [hx])
    simp only [wordToTokensLoop, BPE.wordToTokens, List.length_cons, List.replicate_succ]
    cases vocab.getString s.id with
    | none => rfl
    | some value =>
      simp only
      rw [wrap_eq (x := offset + s.length) ⟨by omega, by omega⟩, wrap_eq (x := (done.length : Int) + 1) ⟨by omega, by omega⟩,
        goSet_of_index (goIndex_mid done (⟨0, [], ⟨0, 0⟩⟩ : Token) (List.replicate w.length ⟨0, [], ⟨0, 0⟩⟩)
          (i := (done.length : Int)) rfl), GoM.bind_ok]
      have := ih (done ++ [⟨s.id, value, ⟨offset, offset + s.length⟩⟩]) (offset + s.length) (by omega)
        (fun x hx => hn x (by simp [hx])) (by omega) (by simp only [List.length_append, List.length_singleton]; omega)
      simp only [List.length_append, List.length_singleton, List.append_assoc, List.cons_append, List.nil_append] at this
      rw [show (done ++ (⟨0, [], ⟨0, 0⟩⟩ : Token) :: List.replicate w.length ⟨0, [], ⟨0, 0⟩⟩).set
          (done.length : Int).toNat ⟨s.id, value, ⟨offset, offset + s.length⟩⟩
        = done ++ ⟨s.id, value, ⟨offset, offset + s.length⟩⟩ :: List.replicate w.length ⟨0, [], ⟨0, 0⟩⟩ by simp,
        show ((done.length : Int) + 1) = ((done.length + 1 : Nat) : Int) by omega, this]
      cases BPE.wordToTokens vocab w (offset + s.length) <;> rfl

theorem bpeTokenize_eq {b : BPE} {rnd : Nat → Bool} {s : Str} {fuel : Nat} (hs : m.Sized s.length)
    (hf : Word.mergeFuel s.length ≤ fuel) : m.bpeTokenize fuel b rnd s = b.tokenize rnd s := by
  unfold bpeTokenize
  by_cases h0 : s.length = 0
  · rw [if_pos h0]
    have : s = [] := List.length_eq_zero_iff.1 h0
    subst this
    rfl
  · rw [if_neg h0]
    have hne : s ≠ [] := fun e => h0 (by rw [e]; rfl)
    have hr := runesOf_length_le s
    have hx : (BPE.indexed (runesOf s)).length = (runesOf s).length := by simp [BPE.indexed]
    unfold Sized at hs
    have hi := BPE.initialWord_eq b s
    -- the symbols before merging
    have hfold : ∀ u, ∃ st, goFor (BPE.indexed (runesOf s)) ([], none) (m.symbolStep b u (m.wrap (((runesOf s).length : Int) - 1)))
        = .ok st ∧ AfterRunes (runesOf s).length st ∧ BPE.finish st = built (BPE.pending b u none (b.lookups s)) := by
      intro u
      have hwr : runesOf s ≠ [] → m.wrap (((runesOf s).length : Int) - 1) = (((runesOf s).length - 1 : Nat) : Int) := by
        intro hne
        have := List.length_pos_iff.2 hne
        rw [wrap_eq ⟨by omega, by omega⟩]
        omega
      have key := BPE.fold_symbolStep b u ((runesOf s).length - 1) (BPE.indexed (runesOf s)) [] none
      rw [BPE.indexed_map (runesOf s) (fun i r => (b.vocab.getID (b.lookupKey i ((runesOf s).length - 1) r),
        ((encodeRune r).length : Int)))] at key
      obtain ⟨g1, g2⟩ := symbolLoop_eq (m := m) (b := b) (u := u) (last := (runesOf s).length - 1) (BPE.indexed (runesOf s)) 0
        ([], none) ⟨by simp, by simp⟩ (by omega)
      rw [hx, Nat.zero_add] at g2
      refine ⟨_, ?_, g2, key⟩
      by_cases he : runesOf s = []
      · rw [he]; rfl
      · rw [hwr he]; exact g1
    have hmw : ∀ u, (do
          let (word, unk) ← goFor (BPE.indexed (runesOf s)) ([], none) (m.symbolStep b u (m.wrap (((runesOf s).length : Int) - 1)))
          let word ← match unk with
            | some (uid, ulen) => m.wordAdd word uid ulen
            | none => pure word
          let r ← m.mergeAll fuel b.merges b.hasDropout rnd word
          pure (Except.ok r) : GoM (Except Err (Option Word)))
        = ((built (BPE.pending b u none (b.lookups s))).mergeAll b.merges b.hasDropout rnd >>= fun r => pure (.ok r)) := by
      intro u
      obtain ⟨⟨word, unk⟩, g1, ⟨g2, -⟩, g3⟩ := hfold u
      have hpos := BPE.pending_positive b u (b.lookups s) (BPE.lookups_positive b s) none (by simp)
      obtain ⟨hsum, hlen⟩ := pending_sum (b := b) (u := u) (b.lookups s) none (BPE.lookups_positive b s)
      obtain ⟨l1, l2⟩ := lookups_sum b s
      have h4 := encodeRunes_runesOf_le s
      simp only [Option.toList_none, List.map_nil, List.sum_nil, List.length_nil] at hsum hlen
      have hmerge : m.mergeAll fuel b.merges b.hasDropout rnd (built (BPE.pending b u none (b.lookups s)))
          = (built (BPE.pending b u none (b.lookups s))).mergeAll b.merges b.hasDropout rnd := by
        rw [mergeAll_eq hpos (by omega) (by omega), C38_bound _ _ _ _ hpos]
        refine Nat.le_trans ?_ hf
        unfold Word.mergeFuel
        exact Nat.mul_le_mul (by omega) (by omega)
      rw [g1, ← hmerge]
      simp only [GoM.bind_ok]
      simp only at g2
      cases unk with
      | none =>
        simp only [BPE.finish] at g3
        subst g3
        rfl
      | some q =>
        simp only [BPE.finish] at g3
        simp only
        rw [wordAdd_eq (by omega), GoM.bind_ok, g3]
    have hmerged : m.mergeWord fuel b rnd s = b.mergeWord rnd s := by
      unfold mergeWord BPE.mergeWord
      rw [hi]
      unfold BPE.unkID
      simp only
      by_cases hu : b.hasUnknownToken = true
      · rw [if_pos hu, if_pos hu]
        cases b.vocab.getID b.unknownToken with
        | none => rfl
        | some u => exact hmw u
      · rw [if_neg hu, if_neg hu]
        exact hmw 0
    rw [hmerged]
    rcases BPE.tokenize_eq b rnd s hne with ⟨h1, h2⟩ | ⟨u, ss, w', h1, rfl, h3, h4, h5, h6⟩
    · have : b.mergeWord rnd s = .ok (.error .unkOutOfVocab) := by
        unfold BPE.mergeWord
        rw [hi, h1]
      rw [this, h2]
      rfl
    · rw [h5, h6]
      simp only [GoM.bind_ok]
      obtain ⟨hsum, -⟩ := pending_sum (b := b) (u := u) (b.lookups s) none (BPE.lookups_positive b s)
      obtain ⟨l1, -⟩ := lookups_sum b s
      have hfour := encodeRunes_runesOf_le s
      simp only [Option.toList_none, List.map_nil, List.sum_nil] at hsum
      obtain ⟨-, c2, c3⟩ := C39_table_merges b.merges b.hasDropout rnd _ h3 h4
      have hv : ((visible w').map (·.2)).sum = (w'.map fun s => s.length).sum := by
        simp [visible, Function.comp_def]
      have hpos : ∀ x ∈ w', 0 < x.length := fun x hx => c3 (x.id, x.length) (List.mem_map.2 ⟨x, hx, rfl⟩)
      have hle : ∀ w : Word, (∀ x ∈ w, 0 < x.length) → (w.length : Int) ≤ (w.map fun s => s.length).sum := by
        intro w
        induction w with
        | nil => intro _; simp
        | cons x w ih =>
          intro h
          have := ih fun y hy => h y (by simp [hy])
          have := h x (by simp)
          simp only [List.map_cons, List.sum_cons, List.length_cons]
          omega
      have := hle w' hpos
      have ht : m.wordToTokens b.vocab w' = .ok (BPE.wordToTokens b.vocab w' 0) := by
        have := wordToTokensLoop_eq (m := m) b.vocab w' [] 0 (by omega) (fun x hx => by have := hpos x hx; omega) (by omega)
          (by simp only [List.length_nil]; omega)
        simp only [List.length_nil, Int.natCast_zero, List.nil_append] at this
        unfold wordToTokens
        rw [this]
        cases BPE.wordToTokens b.vocab w' 0 <;> rfl
      rw [ht]
      cases BPE.wordToTokens b.vocab w' 0 <;> rfl

/-! ## C79 -/

end Machine

open Machine

/-- **C79, split patterns.** On texts shorter than an eighth of the largest `int` the patterns report the same captures,
for every predicate, and for every engine whose matches start in the text; so does the inversion of any pattern. -/
theorem C79_patterns {m : Machine} {s : Str} (hs : m.Sized s.length) (f : Rune → Bool)
    (findAll2 : List Rune → Except Err (List (Nat × Nat))) (sp : SplitPattern)
    (h2 : ∀ ms, findAll2 (runesOf s) = .ok ms → ∀ mt ∈ ms, mt.1 ≤ (runesOf s).length)
    (h3 : ∀ cs, sp s = .ok (.ok cs) → (cs.length : Int) < m.half) :
    m.fromFunc f s = fromFunc f s ∧ m.fromRegexp2 findAll2 s = fromRegexp2 findAll2 s ∧ m.invert sp s = invert sp s :=
  ⟨fromFunc_eq hs, fromRegexp2_eq hs h2, invert_eq h3⟩

/-- **C79, splitting.** `Split` with its five behaviours, on every consistent string that is part of a text: same pieces,
errors and panics, for every pattern, even one that reports the extreme integers. -/
theorem C79_split {m : Machine} {root : Str} {ns : NS} (hwf : WF ns) (hp : PartOf root ns) (hr : m.Sized root.length)
    (hn : m.Sized ns.normalized.length) (pattern : SplitPattern) (b : Behavior)
    (hc : ∀ cs, pattern ns.normalized = .ok (.ok cs) → (cs.length : Int) < m.half
      ∧ ∀ c ∈ cs, m.InInt c.offsets.start ∧ m.InInt c.offsets.stop) :
    m.split ns pattern b = ns.split pattern b := Machine.split_eq hwf hp hr hn hc

/-- **C79, offsets.** Conversion to rune offsets, for all offsets; byte splits by original and by normalized text; and the
encoding, when the token offsets are at most half of the largest `int` in size. -/
theorem C79_offsets {m : Machine} {root : Str} {p : PTS} (hr : m.Sized root.length)
    (hall : ∀ sp ∈ p.splits, WF sp.ns ∧ PartOf root sp.ns ∧ m.Sized sp.ns.normalized.length ∧ m.TokensFit sp)
    (hsum : (p.splits.map fun sp => sp.ns.len).sum < m.half) (hl : (p.splits.length : Int) < m.half)
    (o : ByteOffsets) (wordIndex typeID : Int) :
    m.convertOffsets (newBytesToRuneOffsetConverter root) o = convertOffsets (newBytesToRuneOffsetConverter root) o
    ∧ m.getOriginalByteSplits p = p.getOriginalByteSplits
    ∧ m.getNormalizedByteSplits p = .ok p.getNormalizedByteSplits
    ∧ m.intoEncoding p wordIndex typeID = p.intoEncoding wordIndex typeID :=
  ⟨convertOffsets_eq hr, getOriginalByteSplits_eq (fun sp h => (hall sp h).2.1) hr, getNormalizedByteSplits_eq hsum hl,
    intoEncoding_eq hr hl hall⟩

/-- **C79, merges files.** -/
theorem C79_merges {m : Machine} {content : Str} (h : m.Sized content.length) (vocab : Vocab) (prefixLength : Int) :
    m.mergeMapFromFile content vocab prefixLength = mergeMapFromFile content vocab prefixLength := mergeMapFromFile_eq h

/-- **C79, `MergeAll`.** The index arithmetic of the queue, the symbol lengths and the indices of the loops: same word, for
every table and sequence of draws, when all lengths are positive and add up to less than half of the largest `int`. -/
theorem C79_mergeAll {m : Machine} {l : List (Int × Int)} (hp : Positive l) (hs : 2 * (l.map (·.2)).sum < m.half)
    (hl : 6 * (l.length : Int) + 2 < m.half) (merges : MergeMap) (d : Bool) (rnd : Nat → Bool) :
    m.mergeAll (Word.mergeFuel l.length) merges d rnd (built l) = (built l).mergeAll merges d rnd := by
  rw [mergeAll_eq hp hs hl, C38_bound _ _ _ _ hp _ (Nat.le_refl _)]

/-- **C79, BPE.** -/
theorem C79_bpe {m : Machine} {s : Str} (hs : m.Sized s.length) (b : BPE) (rnd : Nat → Bool) (fuel : Nat)
    (hf : Word.mergeFuel s.length ≤ fuel) : m.bpeTokenize fuel b rnd s = b.tokenize rnd s := bpeTokenize_eq hs hf

/-- **C79, WordPiece.** It never panics: the checked accesses of the loop succeed. -/
theorem C79_wordPiece {m : Machine} {wp : WordPiece} {s : Str} (h : m.Sized (wp.continuingSubwordPrefix.length + s.length)) :
    m.pieceTokenize wp s = .ok (some (wp.tokenize s)) := pieceTokenize_eq h

/-- The bounds are needed: `Add` takes any lengths, and three symbols whose lengths add up to 2⁶⁴ merge to one of length
zero, which is removed. -/
theorem C79_wraps_word :
    let merges : MergeMap := [((0, 0), ⟨0, 1⟩), ((1, 0), ⟨1, 2⟩)]
    let w := built [(0, 2 ^ 63 - 1), (0, 2 ^ 63 - 1), (0, 2)]
    go64.mergeAll 50 merges false (fun _ => false) w = .ok (some [])
    ∧ w.mergeAllFuel 50 merges false (fun _ => false) = .ok (some [⟨2, 2 ^ 64, -1, -1⟩]) := by decide +kernel

/-- A token with the largest offsets on a shifted split gets a negative offset. -/
theorem C79_wraps_encoding :
    let p : PTS := ⟨b!"ab", [⟨⟨b!"b", b!"b", [⟨0, 1⟩], 1⟩, some [⟨7, b!"b", ⟨2 ^ 63 - 1, 2 ^ 63 - 1⟩⟩]⟩]⟩
    (Except.map Encoding.offsets <$> go64.intoEncoding p 0 0) = .ok (.ok [⟨-2 ^ 63, -2 ^ 63⟩])
    ∧ (Except.map Encoding.offsets <$> p.intoEncoding 0 0) = .ok (.ok [⟨2 ^ 63, 2 ^ 63⟩]) := by decide +kernel

/-- Non-vacuity: a text of two characters fits, also on 32 bits, and the models run. -/
example : go32.Sized (List.length b!"ab") := by unfold Sized; decide
example : go32.bpeTokenize 1000
      ⟨⟨some [(b!"a", 0), (b!"b", 1), (b!"ab", 2)], [(0, b!"a"), (1, b!"b"), (2, b!"ab")]⟩, [((0, 1), ⟨0, 2⟩)], ⟨0⟩, false, [], [], [], false⟩
      (fun _ => false) b!"ab" = .ok (.ok (some [⟨2, b!"ab", ⟨0, 2⟩⟩])) := by decide +kernel
example : go32.pieceTokenize ⟨⟨some [(b!"a", 0), (b!"##b", 1)], [(0, b!"a"), (1, b!"##b")]⟩, b!"?", b!"##", 100⟩ b!"ab"
    = .ok (some (.ok [⟨0, b!"a", ⟨0, 1⟩⟩, ⟨1, b!"##b", ⟨1, 2⟩⟩])) := by decide +kernel

end Verif
