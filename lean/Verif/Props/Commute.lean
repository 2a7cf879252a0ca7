import Verif.Model.Notation
import Verif.Props.Laws
import Verif.Props.Slice
import Verif.Props.History
import Verif.Props.AnyState

/-! Changes of different parts of a text commute (C102). -/

set_option autoImplicit false

namespace Verif

/-- The state of a list of characters in the place of another state. -/
theorem same_state {ns a b : NS} {cs : List Ch} (ha : Repr a cs ∧ a.original = ns.original ∧ a.originalShift = ns.originalShift)
    (hb : Repr b cs ∧ b.original = ns.original ∧ b.originalShift = ns.originalShift) : a = b :=
  ha.1.ext hb.1 (by rw [ha.2.1, hb.2.1]) (by rw [ha.2.2, hb.2.2])

theorem takeWhile_map_chars (p : Rune → Bool) (g : Rune → Rune) (cs : List Ch) :
    (cs.map fun c => (g c.1, c.2)).takeWhile (fun c => p c.1) = (cs.takeWhile fun c => p (g c.1)).map fun c => (g c.1, c.2) := by
  rw [List.takeWhile_map]; rfl

/-- **C102, Filter and Map.** Filtering what `Map` made is mapping what the filter of the mapped runes keeps: the same text and the
same alignments.  (Filter needs that the characters dropped at the start are one byte long, C06.) -/
theorem C102_map_filter {ns : NS} {cs : List Ch} (h : Repr ns cs) (f : Rune → Rune) (keep : Rune → Bool)
    (hl : ∀ c ∈ cs.takeWhile fun c => !keep (sanitize (f c.1)), c.1 < 0x80 ∧ sanitize (f c.1) < 0x80) :
    ∃ m p q, ns.map f = .ok m ∧ m.filter keep = .ok q
      ∧ ns.filter (fun r => keep (sanitize (f r))) = .ok p ∧ p.map f = .ok q := by
  obtain ⟨m, m1, m2, m3⟩ := C05_map h f
  obtain ⟨q, q1, q2, q3, q4⟩ := C06_filter_partial m2 keep (.inr (by
    rw [takeWhile_map_chars (fun r => !keep r) (fun r => sanitize (f r))]
    intro c hc
    obtain ⟨d, hd, rfl⟩ := List.mem_map.1 hc
    exact (hl d hd).2))
  obtain ⟨p, p1, p2, p3, p4⟩ := C06_filter_partial h (fun r => keep (sanitize (f r))) (.inr fun c hc => (hl c hc).1)
  obtain ⟨q', r1, r2, r3, r4⟩ := C05_map p2 f
  have e : q' = q := by
    refine same_state (ns := ns) ⟨r2, by rw [r3, p3], by rw [r4, p4]⟩ ⟨?_, by rw [q3, m3.1], by rw [q4, m3.2]⟩
    rw [List.filter_map] at q2
    exact q2
  exact ⟨m, p, q, m1, q1, p1, by rw [r1, e]⟩

theorem runesOf_append_valid {s : Str} (hs : ValidUtf8 s) (t : Str) (ht : ValidUtf8 t) : runesOf (s ++ t) = runesOf s ++ runesOf t := by
  obtain ⟨a, ha, rfl⟩ := hs
  obtain ⟨b, hb, rfl⟩ := ht
  rw [← encodeRunes_append, runesOf_encodeRunes a ha, runesOf_encodeRunes b hb, runesOf_encodeRunes]
  intro r hr
  rcases List.mem_append.1 hr with h | h
  · exact ha r h
  · exact hb r h

theorem prepend_empty {ns : NS} (h : Repr ns []) (s : Str) : ns.prepend s = .ok ns := by
  unfold NS.prepend
  rw [if_pos (by rw [h.text_eq]; rfl)]

theorem append_empty {ns : NS} (h : Repr ns []) (s : Str) : ns.append s = .ok ns := by
  unfold NS.append
  rw [if_pos (by rw [h.text_eq]; rfl)]

/-- **C102, Prepend twice** is to prepend both. -/
theorem C102_prepend_prepend {ns : NS} {cs : List Ch} (h : Repr ns cs) {s t : Str} (hs : ValidUtf8 s) (ht : ValidUtf8 t) (hs0 : s ≠ [])
    (ht0 : t ≠ []) : ∃ m q, ns.prepend s = .ok m ∧ m.prepend t = .ok q ∧ ns.prepend (t ++ s) = .ok q := by
  cases cs with
  | nil => exact ⟨ns, ns, prepend_empty h s, prepend_empty h t, prepend_empty h _⟩
  | cons c cs =>
    obtain ⟨m, m1, m2, m3⟩ := C08_prepend_partial h s hs0
    have hne : runesOf s ≠ [] := by
      intro e
      have := hs.runes
      rw [e] at this
      exact hs0 this.symm
    obtain ⟨r, rs, hr⟩ : ∃ r rs, runesOf s = r :: rs := by
      cases hx : runesOf s with
      | nil => exact (hne hx).elim
      | cons r rs => exact ⟨r, rs, rfl⟩
    rw [hr] at m2
    obtain ⟨q, q1, q2, q3⟩ := C08_prepend_partial (c := (r, c.2)) (cs := rs.map (fun r => (r, c.2)) ++ c :: cs) m2 t ht0
    obtain ⟨p, p1, p2, p3⟩ := C08_prepend_partial h (t ++ s) (by simp [ht0])
    have e : p = q := by
      refine same_state (ns := ns) ⟨p2, p3⟩ ⟨?_, by rw [q3.1, m3.1], by rw [q3.2, m3.2]⟩
      rw [runesOf_append_valid ht s hs, hr]
      simpa using q2
    exact ⟨m, q, m1, q1, by rw [p1, e]⟩

/-- **C102, Append twice** is to append both.  (Append needs that all but the last character are one byte long, C09.) -/
theorem C102_append_append {ns : NS} {c : Ch} {cs : List Ch} (h : Repr ns (cs ++ [c])) (ha : AsciiChars cs) {s t : Str} (hs : ValidUtf8 s)
    (ht : ValidUtf8 t) (hs' : AsciiChars ((c :: (runesOf s).map fun r => (r, c.2)).dropLast)) :
    ∃ m q, ns.append s = .ok m ∧ m.append t = .ok q ∧ ns.append (s ++ t) = .ok q := by
  obtain ⟨m, m1, m2, m3⟩ := C09_append_partial h ha s
  obtain ⟨p, p1, p2, p3⟩ := C09_append_partial h ha (s ++ t)
  have hx : ∃ d ds, (c :: (runesOf s).map fun r => (r, c.2)) = ds ++ [d] ∧ d.2 = c.2 := by
    have hne : (c :: (runesOf s).map fun r => ((r, c.2) : Ch)) ≠ [] := by simp
    refine ⟨_, _, (List.dropLast_concat_getLast hne).symm, ?_⟩
    have := List.getLast_mem hne
    rcases List.mem_cons.1 this with h | h
    · rw [h]
    · obtain ⟨r, -, hr⟩ := List.mem_map.1 h
      rw [← hr]
  obtain ⟨d, ds, hd, hdc⟩ := hx
  rw [hd, List.dropLast_concat] at hs'
  rw [hd, ← List.append_assoc] at m2
  obtain ⟨q, q1, q2, q3⟩ := C09_append_partial m2 (by
    intro x hx
    rcases List.mem_append.1 hx with h | h
    · exact ha x h
    · exact hs' x h) t
  have e : p = q := by
    refine same_state (ns := ns) ⟨p2, p3⟩ ⟨?_, by rw [q3.1, m3.1], by rw [q3.2, m3.2]⟩
    rw [runesOf_append_valid hs t ht, List.map_append]
    have : cs ++ c :: ((runesOf s).map (fun r => (r, c.2)) ++ (runesOf t).map (fun r => (r, c.2)))
        = cs ++ ds ++ d :: (runesOf t).map (fun r => (r, d.2)) := by
      rw [hdc, ← List.cons_append, hd]
      simp
    rw [this]
    exact q2
  exact ⟨m, q, m1, q1, by rw [p1, e]⟩

/-- **C102, Prepend and Append** can be made in either order. -/
theorem C102_prepend_append {ns : NS} {c : Ch} {cs : List Ch} (h : Repr ns (cs ++ [c])) (ha : AsciiChars cs) {s t : Str} (hs0 : s ≠ [])
    (hs : ∀ r ∈ runesOf s, r < 0x80) :
    ∃ m p q, ns.prepend s = .ok m ∧ m.append t = .ok q ∧ ns.append t = .ok p ∧ p.prepend s = .ok q := by
  obtain ⟨p, p1, p2, p3⟩ := C09_append_partial h ha t
  obtain ⟨b, bs, hb⟩ : ∃ b bs, cs ++ [c] = b :: bs := by
    cases cs with
    | nil => exact ⟨c, [], rfl⟩
    | cons b bs => exact ⟨b, bs ++ [c], rfl⟩
  have h' := h
  rw [hb] at h'
  obtain ⟨m, m1, m2, m3⟩ := C08_prepend_partial h' s hs0
  rw [← hb, ← List.append_assoc] at m2
  obtain ⟨q, q1, q2, q3⟩ := C09_append_partial m2 (by
    intro x hx
    rcases List.mem_append.1 hx with h | h
    · obtain ⟨r, hr, rfl⟩ := List.mem_map.1 h
      exact hs r hr
    · exact ha x h) t
  have e1 : cs ++ c :: (runesOf t).map (fun r => (r, c.2)) = b :: (bs ++ (runesOf t).map fun r => (r, c.2)) := by
    have : cs ++ c :: (runesOf t).map (fun r => ((r, c.2) : Ch)) = (cs ++ [c]) ++ (runesOf t).map (fun r => (r, c.2)) := by simp
    rw [this, hb]; rfl
  have p2' := p2
  rw [e1] at p2'
  obtain ⟨q', r1, r2, r3⟩ := C08_prepend_partial p2' s hs0
  have e : q' = q := by
    refine same_state (ns := ns) ⟨r2, by rw [r3.1, p3.1], by rw [r3.2, p3.2]⟩ ⟨?_, by rw [q3.1, m3.1], by rw [q3.2, m3.2]⟩
    rw [← e1]
    simpa using q2
  exact ⟨m, p, q, m1, q1, p1, by rw [r1, e]⟩

/-- **C102, Map and Prepend.** To map a text with something in front is to put the mapped something in front of the mapped text. -/
theorem C102_map_prepend {ns : NS} {cs : List Ch} (h : Repr ns cs) (f : Rune → Rune) {s : Str} (hs0 : s ≠ []) :
    ∃ m p q, ns.prepend s = .ok p ∧ p.map f = .ok q ∧ ns.map f = .ok m ∧ m.prepend (encodeRunes ((runesOf s).map f)) = .ok q := by
  cases cs with
  | nil =>
    obtain ⟨m, m1, m2, m3⟩ := C05_map h f
    exact ⟨m, ns, m, prepend_empty h s, m1, m1, prepend_empty m2 _⟩
  | cons c cs =>
    have hne : runesOf s ≠ [] := by
      intro e
      cases s with
      | nil => exact hs0 rfl
      | cons b s => simp [runesOf, rangeStr, rangeAux] at e
    obtain ⟨m, m1, m2, m3⟩ := C05_map h f
    obtain ⟨p, p1, p2, p3⟩ := C08_prepend_partial h s hs0
    obtain ⟨q, q1, q2, q3⟩ := C05_map p2 f
    obtain ⟨q', r1, r2, r3⟩ := C08_prepend_partial m2 (encodeRunes ((runesOf s).map f)) (by
      rw [Ne, encodeRunes_eq_nil]; simpa using hne)
    have e : q' = q := by
      refine same_state (ns := ns) ⟨r2, by rw [r3.1, m3.1], by rw [r3.2, m3.2]⟩ ⟨?_, by rw [q3.1, p3.1], by rw [q3.2, p3.2]⟩
      rw [runesOf_encodeRunes']
      simpa [Function.comp_def] using q2
    exact ⟨m, p, q, p1, q1, m1, by rw [r1, e]⟩

/-- **C102, Map and Append.** -/
theorem C102_map_append {ns : NS} {c : Ch} {cs : List Ch} (h : Repr ns (cs ++ [c])) (f : Rune → Rune) (ha : AsciiChars cs)
    (ha' : ∀ d ∈ cs, sanitize (f d.1) < 0x80) (s : Str) :
    ∃ m p q, ns.append s = .ok p ∧ p.map f = .ok q ∧ ns.map f = .ok m ∧ m.append (encodeRunes ((runesOf s).map f)) = .ok q := by
  obtain ⟨m, m1, m2, m3⟩ := C05_map h f
  obtain ⟨p, p1, p2, p3⟩ := C09_append_partial h ha s
  obtain ⟨q, q1, q2, q3⟩ := C05_map p2 f
  rw [List.map_append] at m2
  obtain ⟨q', r1, r2, r3⟩ := C09_append_partial (c := (sanitize (f c.1), c.2)) m2 (by
    intro x hx
    obtain ⟨d, hd, rfl⟩ := List.mem_map.1 hx
    exact ha' d hd) (encodeRunes ((runesOf s).map f))
  have e : q' = q := by
    refine same_state (ns := ns) ⟨r2, by rw [r3.1, m3.1], by rw [r3.2, m3.2]⟩ ⟨?_, by rw [q3.1, p3.1], by rw [q3.2, p3.2]⟩
    rw [runesOf_encodeRunes']
    simpa [Function.comp_def] using q2
  exact ⟨m, p, q, p1, q1, m1, by rw [r1, e]⟩

/-! ## Map and the parts of a text -/

/-- The characters of a mapped text. -/
def mapCh (f : Rune → Rune) (c : Ch) : Ch := (sanitize (f c.1), c.2)

theorem firstAlign_mapCh (f : Rune → Rune) (cs : List Ch) : firstAlign (cs.map (mapCh f)) = firstAlign cs := by cases cs <;> rfl

theorem lastAlign_mapCh (f : Rune → Rune) (cs : List Ch) : lastAlign (cs.map (mapCh f)) = lastAlign cs := by
  unfold lastAlign
  rw [List.getLast?_map]
  cases cs.getLast? <;> rfl

/-- The pieces of a mapped text are the mapped pieces. -/
theorem pieceOf_map {ns m : NS} (f : Rune → Rune) {cs : List Ch} (hv : ValidChars cs) (ho : m.original = ns.original)
    (hs : m.originalShift = ns.originalShift) : (pieceOf ns cs).map f = .ok (pieceOf m (cs.map (mapCh f))) := by
  have hv' : ValidChars (cs.map (mapCh f)) := by
    intro c hc
    obtain ⟨d, -, rfl⟩ := List.mem_map.1 hc
    exact sanitize_valid _
  obtain ⟨q, q1, q2, q3⟩ := C05_map (pieceOf_repr ns hv) f
  have e : q = pieceOf m (cs.map (mapCh f)) := by
    refine q2.ext ?_ ?_ ?_
    · have := pieceOf_repr m hv'
      rw [firstAlign_mapCh] at this
      simpa [moveLeft, mapCh, Function.comp_def] using this
    · rw [q3.1]; simp only [pieceOf, firstAlign_mapCh, lastAlign_mapCh, ho]
    · rw [q3.2]; simp only [pieceOf, firstAlign_mapCh, hs]
  rw [q1, e]

/-- **C102, Map and Slice.** To slice a mapped text where the mapped runes are is to map the slice: text, alignments, original and
shift. -/
theorem C102_map_slice {ns : NS} (hr : Reachable ns) {A B C : List Ch} (h : Repr ns (A ++ B ++ C)) (f : Rune → Rune) (hB : B ≠ []) :
    ∃ m p q, ns.map f = .ok m
      ∧ m.slice (.normalized (text (A.map (mapCh f))).length (text ((A ++ B).map (mapCh f))).length) = .ok (some q)
      ∧ ns.slice (.normalized (text A).length (text (A ++ B)).length) = .ok (some p) ∧ p.map f = .ok q := by
  obtain ⟨m, m1, m2, m3⟩ := C05_map h f
  have mwf : WF m := Op.run_wf (op := .map f) hr.wf m1
  have m2' : Repr m (A.map (mapCh f) ++ B.map (mapCh f) ++ C.map (mapCh f)) := by
    rw [← List.map_append, ← List.map_append]
    exact m2
  have hv : ValidChars B := fun c hc => h.valid c (by simp [hc])
  refine ⟨m, _, _, m1, ?_, slice_chars hr.wf h hB, pieceOf_map f hv m3.1 m3.2⟩
  have := slice_chars mwf m2' (by simpa using hB)
  rwa [← List.map_append] at this

theorem segs_map (p : Rune → Bool) (g : Rune → Rune) : ∀ rs : List Rune,
    segs p (rs.map g) = (segs (fun r => p (g r)) rs).map fun x => (x.1, x.2.map g)
  | [] => rfl
  | r :: rs => by
    have ih := segs_map p g rs
    simp only [List.map_cons, segs, ih]
    by_cases h : p (g r) = true
    · simp [h]
    · simp only [h, Bool.false_eq_true, if_false]
      cases hx : segs (fun r => p (g r)) rs with
      | nil => rfl
      | cons x t =>
        obtain ⟨b, g'⟩ := x
        cases b <;> rfl

theorem cutAs_mapped {α β γ δ : Type} (f : α → γ) (g : β → δ) : ∀ (t : List (Bool × List α)) (l : List β),
    cutAs (t.map fun x => (x.1, x.2.map f)) (l.map g) = (cutAs t l).map fun x => (x.1, x.2.map g)
  | [], _ => rfl
  | (b, x) :: t, l => by
    simp only [List.map_cons, cutAs, List.length_map, ← List.map_take, ← List.map_drop, cutAs_mapped f g t]

/-- **C102, Map and Split.** To split a mapped text at the runes that satisfy a condition is to split the text at the runes whose image
satisfies it and to map the pieces. -/
theorem C102_map_split {ns : NS} (hr : Reachable ns) {cs : List Ch} (h : Repr ns cs) (hne : cs ≠ []) (f : Rune → Rune) (p : Rune → Bool)
    (b : Behavior) (hb : b = .isolated ∨ b = .removed) :
    ∃ m ps qs, ns.map f = .ok m ∧ m.split (fromFunc p) b = .ok (.ok qs)
      ∧ ns.split (fromFunc fun r => p (sanitize (f r))) b = .ok (.ok ps) ∧ All2 (fun x y => NS.map x f = .ok y) ps qs := by
  obtain ⟨m, m1, m2, m3⟩ := C05_map h f
  have mwf : WF m := Op.run_wf (op := .map f) hr.wf m1
  replace m2 : Repr m (cs.map (mapCh f)) := m2
  obtain ⟨keep, rfl⟩ : ∃ keep : Bool, b = if keep then .isolated else .removed := by
    rcases hb with h | h
    · exact ⟨true, h⟩
    · exact ⟨false, h⟩
  have e0 : (cs.map (mapCh f)).map (·.1) = (cs.map (·.1)).map fun r => sanitize (f r) := by simp [Function.comp_def, mapCh]
  have et : charSegs (segs p) (cs.map (mapCh f))
      = (charSegs (segs fun r => p (sanitize (f r))) cs).map fun x => (x.1, x.2.map (mapCh f)) := by
    unfold charSegs
    rw [e0, segs_map p (fun r => sanitize (f r)), cutAs_mapped]
  have c1 := (fromFunc_cuts fun r => p (sanitize (f r))).chars cs
  have c2 := (fromFunc_cuts p).chars (cs.map (mapCh f))
  have s1 := split_chars hr.wf keep c1.2.2 (by rw [c1.2.1]; exact h) (pattern := fromFunc fun r => p (sanitize (f r))) (by
    rw [c1.1, h.norm_eq]
    exact (fromFunc_cuts _).caps _ h.runes_valid (by simpa using hne))
  have s2 := split_chars mwf keep c2.2.2 (by rw [c2.2.1]; exact m2) (pattern := fromFunc p) (by
    rw [c2.1, m2.norm_eq]
    exact (fromFunc_cuts p).caps _ m2.runes_valid (by simpa using hne))
  refine ⟨m, _, _, m1, s2, s1, ?_⟩
  rw [et]
  have hv : ∀ x ∈ charSegs (segs fun r => p (sanitize (f r))) cs, ValidChars x.2 := by
    intro x hx c hc
    refine h.valid c ?_
    rw [← c1.2.1]
    exact List.mem_flatMap.2 ⟨x, hx, hc⟩
  revert hv
  generalize charSegs (segs fun r => p (sanitize (f r))) cs = t
  intro hv
  induction t with
  | nil => exact .nil
  | cons x t ih =>
    have ih := ih fun y hy => hv y (by simp [hy])
    rw [List.map_cons]
    by_cases hk : kept keep x = true
    · rw [List.filter_cons_of_pos hk, List.filter_cons_of_pos (by simpa [kept] using hk)]
      exact .cons (pieceOf_map f (hv x (by simp)) m3.1 m3.2) ih
    · rw [List.filter_cons_of_neg hk, List.filter_cons_of_neg (by simpa [kept] using hk)]
      exact ih

/-! ## Examples -/

/-- Lower-casing and splitting at "x". -/
example : (do
      let m ← NS.map (NS.fromString b!"aXÉx") fun r => if r = u!"É" then u!"é" else if r = u!"X" then u!"x" else r
      match ← m.split (fromFunc fun r => r == u!"x") .isolated with
      | .ok l => pure (l.map fun (n : NS) => (n.normalized, n.original, n.originalShift))
      | .error _ => pure [])
    = GoM.ok [(b!"a", b!"a", 0), (b!"x", b!"X", 1), (b!"é", b!"É", 2), (b!"x", b!"x", 4)] := by decide +kernel

/-- The other order. -/
example : (do
      match ← (NS.fromString b!"aXÉx").split (fromFunc fun r => r == u!"x" || r == u!"X") .isolated with
      | .ok l => l.mapM fun n => do
          let n ← NS.map n fun r => if r = u!"É" then u!"é" else if r = u!"X" then u!"x" else r
          pure (n.normalized, n.original, n.originalShift)
      | .error _ => pure [])
    = GoM.ok [(b!"a", b!"a", 0), (b!"x", b!"X", 1), (b!"é", b!"É", 2), (b!"x", b!"x", 4)] := by decide +kernel

/-- "é" with "ab" in front and "€" behind. -/
example : (do let m ← (NS.fromString b!"é").prepend b!"ab"; m.append b!"€")
    = .ok ⟨b!"é", b!"abé€", [⟨0, 2⟩, ⟨0, 2⟩, ⟨0, 2⟩, ⟨0, 2⟩, ⟨0, 2⟩, ⟨0, 2⟩, ⟨0, 2⟩], 0⟩ := by decide +kernel

/-- Without the condition on the runes in front the order matters: `Append` then does not look at the last character (C09). -/
theorem C102_counterexample : ∃ (ns : NS) (s t : Str), Reachable ns
    ∧ (do let m ← ns.prepend s; m.append t) ≠ (do let m ← ns.append t; m.prepend s) :=
  ⟨NS.fromString b!"ab", b!"é", b!"x", ⟨b!"ab", by decide +kernel, .none⟩, by decide +kernel⟩

end Verif
