import Verif.Spec.Pieces
import Verif.Props.PreTokenizers

/-! How patterns given by their matches cut any state, character by character. -/

set_option autoImplicit false

namespace Verif

/-! ## The piece of a state that holds some of its characters -/

/-- The characters moved `k` bytes to the left. -/
def moveLeft (k : Int) (cs : List Ch) : List Ch := cs.map fun c => (c.1, ⟨c.2.start - k, c.2.stop - k⟩)

theorem moveLeft_runes (k : Int) (cs : List Ch) : (moveLeft k cs).map (·.1) = cs.map (·.1) := by
  simp [moveLeft, Function.comp_def]

theorem aligns_moveLeft (k : Int) (cs : List Ch) :
    aligns (moveLeft k cs) = (aligns cs).map (fun al => ⟨al.start - k, al.stop - k⟩) := by
  induction cs with
  | nil => rfl
  | cons c cs ih =>
    simp only [moveLeft, List.map_cons, aligns_cons, List.map_append, List.map_replicate] at ih ⊢
    rw [ih]

theorem pieceOf_repr (ns : NS) {B : List Ch} (h : ValidChars B) :
    Repr (pieceOf ns B) (moveLeft (firstAlign B).start B) := by
  refine ⟨?_, ?_, ?_⟩
  · simp [pieceOf, text, moveLeft_runes]
  · rw [aligns_moveLeft]; rfl
  · intro c hc
    obtain ⟨d, hd, rfl⟩ := List.mem_map.1 hc
    exact h d hd

theorem slice_chars_bounds {ns : NS} (hwf : WF ns) {A B C : List Ch} (h : Repr ns (A ++ B ++ C)) (hB : B ≠ []) :
    (0 ≤ (firstAlign B).start ∧ (firstAlign B).start ≤ (lastAlign B).stop
      ∧ (lastAlign B).stop ≤ ns.original.length)
      ∧ ns.slice (.normalized (text A).length (text (A ++ B)).length) = .ok (some (pieceOf ns B)) := by
  have hBl : 0 < (text B).length := List.length_pos_iff.2 (fun h => hB (text_eq_nil.1 h))
  have ht : ns.normalized = text A ++ text B ++ text C := by rw [h.text_eq]; simp
  have hal : ns.alignments = aligns A ++ aligns B ++ aligns C := by rw [h.aligns_eq]; simp
  have hlA := aligns_length A
  have hlB := aligns_length B
  have e1 : ((text (A ++ B)).length : Int) = (text A).length + (text B).length := by simp
  obtain ⟨f, l, k1, k2, b1, b2, b3, -, k3⟩ := slice_normalized hwf (a := (text A).length) (b := (text (A ++ B)).length)
    (by
      rw [h.text_eq, List.append_assoc]
      exact isRuneBoundary_of (isBoundary_text A (B ++ C)))
    (by rw [h.text_eq]; exact isRuneBoundary_of (isBoundary_text (A ++ B) C)) (by omega)
  have hf : f = firstAlign B := by
    cases B with
    | nil => exact absurd rfl hB
    | cons c B =>
      have := runeLen_pos c.1
      rw [hal, Int.toNat_natCast, List.append_assoc, List.getElem?_append_right (by omega), hlA, Nat.sub_self,
        aligns_cons, List.append_assoc, List.getElem?_append_left (by simpa using this)] at k1
      simp [this] at k1
      rw [← k1]; rfl
  have hl : l = lastAlign B := by
    have := aligns_last (A ++ B) C (by simp [hB])
    rw [lastAlign_append_of_ne hB, goIndex_eq_ok] at this
    rw [h.aligns_eq, this.2] at k2
    simpa using k2.symm
  refine ⟨⟨hf ▸ b1, hf ▸ hl ▸ b2, hl ▸ b3⟩, ?_⟩
  rw [k3, hf, hl]
  congr 2
  have d1 : (ns.normalized.drop (text A).length).take ((text (A ++ B)).length - (text A).length : Int).toNat = text B := by
    rw [ht, e1, List.append_assoc, List.drop_left]
    rw [show ((text A).length + (text B).length - (text A).length : Int).toNat = (text B).length by omega]
    exact List.take_left
  have d2 : (ns.alignments.drop (text A).length).take ((text (A ++ B)).length - (text A).length : Int).toNat = aligns B := by
    rw [hal, e1, List.append_assoc, ← hlA, List.drop_left, hlA]
    rw [show ((text A).length + (text B).length - (text A).length : Int).toNat = (aligns B).length by omega]
    exact List.take_left
  simp only [Int.toNat_natCast, d1, d2]
  rfl

theorem slice_chars {ns : NS} (hwf : WF ns) {A B C : List Ch} (h : Repr ns (A ++ B ++ C)) (hB : B ≠ []) :
    ns.slice (.normalized (text A).length (text (A ++ B)).length) = .ok (some (pieceOf ns B)) :=
  (slice_chars_bounds hwf h hB).2

/-! ## Splitting by given segments -/

/-- The runes of segments of characters. -/
def segRunes (t : List (Bool × List Ch)) : List (Bool × List Rune) := t.map fun x => (x.1, x.2.map (·.1))

/-- Whether the segment survives when the matches are dropped unless `keep`. -/
def kept (keep : Bool) (x : Bool × List Ch) : Bool := !(x.1 && !keep)

theorem capsOf_chars {ns : NS} (hwf : WF ns) (keep : Bool) : ∀ (t : List (Bool × List Ch)) (A : List Ch),
    (∀ x ∈ t, x.2 ≠ []) → Repr ns (A ++ t.flatMap (·.2)) →
    All2 (fun g q => ns.slice (.normalized (span g).1 (span g).2) = .ok (some q))
      (splitGroups (if keep then .isolated else .removed) (capsOf (text A).length (segRunes t)))
      ((t.filter (kept keep)).map fun x => pieceOf ns x.2) := by
  intro t
  induction t with
  | nil => intro A _ _; cases keep <;> exact .nil
  | cons x t ih =>
    intro A hne h
    obtain ⟨b, B⟩ := x
    have h' : Repr ns (A ++ B ++ t.flatMap (·.2)) := by simpa using h
    have i1 := ih (A ++ B) (fun y hy => hne y (by simp [hy])) h'
    have hs := slice_chars hwf h' (hne (b, B) (by simp))
    have e2 : ((text (A ++ B)).length : Int) = (text A).length + (encodeRunes (B.map (·.1))).length := by
      simp [text]
    rw [e2] at i1 hs
    cases keep <;> cases b <;> simp only [segRunes, splitGroups, capsOf, Bool.false_eq_true, if_false,
      if_true, List.map_cons] at i1 ⊢
    · rw [List.filter_cons_of_pos (by simp), List.filter_cons_of_pos (by simp [kept])]
      exact .cons hs i1
    · rw [List.filter_cons_of_neg (by simp), List.filter_cons_of_neg (by simp [kept])]
      exact i1
    · rw [List.filter_cons_of_pos (by simp [kept])]
      exact .cons hs i1
    · rw [List.filter_cons_of_pos (by simp [kept])]
      exact .cons hs i1

/-- Splitting any well-formed state with a pattern whose captures are given segments. -/
theorem split_chars {ns : NS} (hwf : WF ns) (keep : Bool) {pattern : SplitPattern} {t : List (Bool × List Ch)}
    (hne : ∀ x ∈ t, x.2 ≠ []) (h : Repr ns (t.flatMap (·.2)))
    (hp : pattern ns.normalized = .ok (.ok (capsOf 0 (segRunes t)))) :
    ns.split pattern (if keep then .isolated else .removed)
      = .ok (.ok ((t.filter (kept keep)).map fun x => pieceOf ns x.2)) := by
  refine split_eq hp ?_
  have := capsOf_chars hwf keep t [] hne (by simpa using h)
  simpa using this

/-! ## The segments of a list of matches -/

/-- The elements from index `i` on, cut at the matches (index, length). -/
def matchSegs {α : Type} : Nat → List (Nat × Nat) → List α → List (Bool × List α)
  | _, [], l => if l.isEmpty then [] else [(false, l)]
  | i, m :: ms, l =>
    (if i = m.1 then [] else [(false, l.take (m.1 - i))])
      ++ (true, (l.drop (m.1 - i)).take m.2) :: matchSegs (m.1 + m.2) ms (l.drop (m.1 - i + m.2))

theorem matchSegs_map {α β : Type} (f : α → β) : ∀ (ms : List (Nat × Nat)) (i : Nat) (l : List α),
    (matchSegs i ms l).map (fun x => (x.1, x.2.map f)) = matchSegs i ms (l.map f) := by
  intro ms
  induction ms with
  | nil => intro i l; cases l <;> rfl
  | cons m ms ih =>
    intro i l
    simp only [matchSegs, List.map_append, List.map_cons, ih, List.map_take, List.map_drop]
    congr 1
    split <;> simp

theorem Ordered2.le : ∀ {ms : List (Nat × Nat)} {i n : Nat}, Ordered2 ms i n → i ≤ n := by
  intro ms
  induction ms with
  | nil => intro i n h; exact h
  | cons m ms ih => intro i n h; have := ih h.2; have := h.1; omega

theorem matchSegs_flatten {α : Type} : ∀ (ms : List (Nat × Nat)) (i : Nat) (l : List α),
    (matchSegs i ms l).flatMap (·.2) = l ∨ ¬ Ordered2 ms i (i + l.length) := by
  intro ms
  induction ms with
  | nil => intro i l; left; cases l <;> simp [matchSegs]
  | cons m ms ih =>
    intro i l
    by_cases h : Ordered2 (m :: ms) i (i + l.length)
    · left
      obtain ⟨h1, h2⟩ := h
      have h3 := h2.le
      have e : m.1 + m.2 + (l.drop (m.1 - i + m.2)).length = i + l.length := by simp; omega
      rcases ih (m.1 + m.2) (l.drop (m.1 - i + m.2)) with h4 | h4
      · simp only [matchSegs, List.flatMap_append, List.flatMap_cons, h4]
        have e2 : (l.drop (m.1 - i)).take m.2 ++ l.drop (m.1 - i + m.2) = l.drop (m.1 - i) := by
          rw [← List.drop_drop, List.take_append_drop]
        rw [e2]
        split
        · rename_i he; simp [he]
        · simp
      · rw [e] at h4; exact absurd h2 h4
    · exact Or.inr h

theorem matchSegs_ne_nil {α : Type} : ∀ (ms : List (Nat × Nat)) (i : Nat) (l : List α), (∀ m ∈ ms, 0 < m.2) →
    Ordered2 ms i (i + l.length) → ∀ x ∈ matchSegs i ms l, x.2 ≠ [] := by
  intro ms
  induction ms with
  | nil =>
    intro i l _ _ x hx
    cases l with
    | nil => simp [matchSegs] at hx
    | cons a l => simp [matchSegs] at hx; subst hx; simp
  | cons m ms ih =>
    intro i l hp h x hx
    obtain ⟨h1, h2⟩ := h
    have h3 := h2.le
    have hm := hp m (by simp)
    simp only [matchSegs] at hx
    rcases List.mem_append.1 hx with hx | hx
    · split at hx
      · simp at hx
      · simp at hx; subst hx
        intro h
        have := congrArg List.length h
        simp only [List.length_take, List.length_nil] at this; omega
    · rcases List.mem_cons.1 hx with rfl | hx
      · intro h
        have := congrArg List.length h
        simp only [List.length_take, List.length_drop, List.length_nil] at this; omega
      · refine ih (m.1 + m.2) _ (fun y hy => hp y (by simp [hy])) ?_ x hx
        have e : m.1 + m.2 + (l.drop (m.1 - i + m.2)).length = i + l.length := by simp; omega
        rw [e]; exact h2

theorem capsOf_snoc_false (i : Int) (t : List (Bool × List Rune)) (g : List Rune) :
    capsOf i (t ++ [(false, g)]) = capsOf i t
      ++ [⟨⟨i + (encodeRunes (t.flatMap (·.2))).length, i + (encodeRunes (t.flatMap (·.2))).length
          + (encodeRunes g).length⟩, false⟩] := by
  rw [capsOf_append]; rfl

/-- The captures of `Regexp2SplitPattern` are the segments of the matches. -/
theorem regexp2_fold (rs : List Rune) : ∀ (ms : List (Nat × Nat)) (i : Nat) (acc : List Capture),
    Ordered2 ms i rs.length →
    let st := (ms.map (regexp2Bytes rs)).foldl regexpStep (((encodeRunes (rs.take i)).length : Int), acc)
    (if st.1 ≠ ((encodeRunes rs).length : Int) then st.2 ++ [⟨⟨st.1, (encodeRunes rs).length⟩, false⟩] else st.2)
      = acc ++ capsOf (encodeRunes (rs.take i)).length (matchSegs i ms (rs.drop i)) := by
  intro ms
  induction ms with
  | nil =>
    intro i acc h
    simp only [List.map_nil, List.foldl_nil, matchSegs]
    have e1 : (encodeRunes rs).length = (encodeRunes (rs.take i)).length + (encodeRunes (rs.drop i)).length := by
      rw [← List.length_append, ← encodeRunes_append, List.take_append_drop]
    cases hd : rs.drop i with
    | nil =>
      rw [hd] at e1
      simp [e1, capsOf]
    | cons r t =>
      have hp := encodeRunes_pos (g := rs.drop i) (by rw [hd]; simp)
      rw [if_pos (by omega)]
      simp only [List.isEmpty_cons, Bool.false_eq_true, if_false, capsOf]
      rw [← hd, e1]
      simp
  | cons m ms ih =>
    intro i acc h
    obtain ⟨h1, h2⟩ := h
    have h3 := h2.le
    have i1 := ih (m.1 + m.2) ((if i = m.1 then acc else acc ++ [⟨⟨(encodeRunes (rs.take i)).length,
      (encodeRunes (rs.take m.1)).length⟩, false⟩]) ++ [⟨⟨(encodeRunes (rs.take m.1)).length,
      (encodeRunes (rs.take (m.1 + m.2))).length⟩, true⟩]) h2
    simp only [List.map_cons, List.foldl_cons, take_add_bytes] at i1 ⊢
    have hstep : regexpStep (((encodeRunes (rs.take i)).length : Int), acc)
        (((encodeRunes (rs.take m.1)).length : Int), ((encodeRunes (rs.take (m.1 + m.2))).length : Int))
        = (((encodeRunes (rs.take (m.1 + m.2))).length : Int), (if i = m.1 then acc else acc ++ [⟨⟨(encodeRunes (rs.take i)).length,
      (encodeRunes (rs.take m.1)).length⟩, false⟩]) ++ [⟨⟨(encodeRunes (rs.take m.1)).length,
      (encodeRunes (rs.take (m.1 + m.2))).length⟩, true⟩]) := by
      unfold regexpStep
      have : (((encodeRunes (rs.take i)).length : Int) ≠ ((encodeRunes (rs.take m.1)).length : Int)) ↔ ¬ i = m.1 := by
        constructor
        · intro hne he; exact hne (by rw [he])
        · intro hne he
          have e : rs.take m.1 = rs.take i ++ (rs.drop i).take (m.1 - i) := by
            rw [← List.take_add]; congr 1; omega
          have hp := encodeRunes_pos (g := (rs.drop i).take (m.1 - i)) (by
            intro h
            have := congrArg List.length h
            simp only [List.length_take, List.length_drop, List.length_nil] at this; omega)
          rw [e] at he
          simp at he; omega
      by_cases he : i = m.1
      · simp [he]
      · simp only [if_pos (this.2 he), if_neg he]
    rw [hstep, i1]
    have hd : (rs.drop i).drop (m.1 - i + m.2) = rs.drop (m.1 + m.2) := by
      rw [List.drop_drop]; congr 1; omega
    have hd1 : ((rs.drop i).drop (m.1 - i)).take m.2 = (rs.drop m.1).take m.2 := by
      rw [List.drop_drop]; congr 2; omega
    have t1 : rs.take (m.1 + m.2) = rs.take m.1 ++ (rs.drop m.1).take m.2 := List.take_add
    have t2 : rs.take m.1 = rs.take i ++ (rs.drop i).take (m.1 - i) := by
      rw [← List.take_add]; congr 1; omega
    have l1 : ((encodeRunes (rs.take (m.1 + m.2))).length : Int)
        = (encodeRunes (rs.take m.1)).length + (encodeRunes ((rs.drop m.1).take m.2)).length := by rw [t1]; simp
    have l2 : ((encodeRunes (rs.take m.1)).length : Int)
        = (encodeRunes (rs.take i)).length + (encodeRunes ((rs.drop i).take (m.1 - i))).length := by
      conv => lhs; rw [t2]
      simp
    simp only [matchSegs, hd, hd1]
    by_cases he : i = m.1
    · simp only [he, if_true, List.nil_append, capsOf]
      rw [← l1]; simp
    · simp only [if_neg he, List.singleton_append, capsOf]
      rw [← l2, ← l1]; simp

theorem fromRegexp2_caps (findAll2 : List Rune → Except Err (List (Nat × Nat))) {rs : List Rune}
    (hv : ∀ r ∈ rs, ValidRune r) (hs : rs ≠ []) {ms : List (Nat × Nat)} (he : findAll2 rs = .ok ms)
    (ho : Ordered2 ms 0 rs.length) :
    fromRegexp2 findAll2 (encodeRunes rs) = .ok (.ok (capsOf 0 (matchSegs 0 ms rs))) := by
  have hne : ¬ (encodeRunes rs).length = 0 := by
    intro h'; exact hs (encodeRunes_eq_nil.1 (List.length_eq_zero_iff.1 h'))
  simp only [fromRegexp2, if_neg hne, runesOf_encodeRunes rs hv, he]
  have := regexp2_fold rs ms 0 [] ho
  simp only [List.take_zero, encodeRunes_nil, List.length_nil, Int.natCast_zero, List.drop_zero,
    List.nil_append] at this
  rw [← this]; rfl

theorem capsOf_not : ∀ (t : List (Bool × List Rune)) (i : Int),
    (capsOf i t).map (fun c => { c with isMatch := !c.isMatch }) = capsOf i (t.map fun x => (!x.1, x.2)) := by
  intro t
  induction t with
  | nil => intro i; rfl
  | cons x t ih => intro i; simp [capsOf, ih]

end Verif
