import Verif.Props.NormalizeBytes
import Verif.Props.BytesRegexp
import Verif.Model.Notation

/-! C129: Prepend and Append on any bytes and any state, exactly. -/

set_option autoImplicit false

namespace Verif

/-! ## The first bytes of a text -/

theorem chunks_head_rune {s : Str} {c : Chunk} {cs : List Chunk} (h : chunks s = c :: cs) :
    s ≠ [] ∧ c.rune = (decodeRune s).1 ∧ runesOf s = c.rune :: cs.map (·.rune) := by
  refine ⟨fun e => ?_, ?_, by rw [runesOf_chunks, h]; rfl⟩
  · subst e; cases h
  · cases s with
    | nil => cases h
    | cons b s =>
      simp only [chunks, chunksAux, List.cons.injEq] at h
      rw [← h.1]

/-- Of the bytes that the first rune takes in UTF-8, the first rune is that one again; also if it is a bad byte, read as U+FFFD of
three bytes. -/
theorem chunks_take_head {s : Str} {c : Chunk} {cs : List Chunk} (h : chunks s = c :: cs) :
    ∃ ds, runesOf (s.take (encodeRune c.rune).length) = c.rune :: ds := by
  obtain ⟨hs, hc, -⟩ := chunks_head_rune h
  have hpos := encodeRune_length_pos c.rune
  have hv : ValidRune c.rune := by rw [hc]; exact decodeRune_valid _
  have htne : s.take (encodeRune c.rune).length ≠ [] := by
    intro e
    have := congrArg List.length e
    simp at this
    rcases this with h0 | h0
    · rw [h0] at hpos; simp at hpos
    · exact hs h0
  have hhead : ∀ {t : Str}, t ≠ [] → ∃ ds, runesOf t = (decodeRune t).1 :: ds := by
    intro t ht
    cases t with
    | nil => exact absurd rfl ht
    | cons b t => exact ⟨_, rfl⟩
  obtain ⟨ds, hd⟩ := hhead htne
  refine ⟨ds, ?_⟩
  rw [hd]
  congr 1
  rcases decodeRune_cases s hs with h1 | ⟨rest, h1⟩
  · -- a bad byte
    have hce : c.rune = runeError := by rw [hc, h1]
    rw [hce]
    rcases decodeRune_cases _ htne with h2 | ⟨rest, h2⟩
    · rw [hce] at h2; rw [h2]
    · have h3 : s = encodeRune (decodeRune (s.take (encodeRune c.rune).length)).1
          ++ (rest ++ s.drop (encodeRune c.rune).length) := by
        rw [← List.append_assoc, ← h2, List.take_append_drop]
      have h4 := decodeRune_encodeRune (decodeRune_valid (s.take (encodeRune c.rune).length))
        (rest ++ s.drop (encodeRune c.rune).length)
      rw [← h3, h1] at h4
      rw [hce] at h4
      exact (congrArg Prod.fst h4).symm
  · rw [← hc] at h1
    have : s.take (encodeRune c.rune).length = encodeRune c.rune ++ [] := by
      conv => lhs; rw [h1]
      simp
    rw [this, decodeRune_encodeRune hv]

theorem prependChanges_cons {s : Str} {r : Rune} {rs : List Rune} (h : runesOf s = r :: rs) :
    NS.prependChanges s = ⟨r, 0⟩ :: rs.map fun x => ⟨x, 1⟩ := by
  cases s with
  | nil => cases h
  | cons b s =>
    have h1 : ∀ (t : Str) (i k : Nat), 0 < i → (rangeAux t i k).map (fun (x : Nat × Rune) => (⟨x.2, if x.1 > 0 then 1 else 0⟩ : RuneChange))
        = ((rangeAux t i k).map (·.2)).map fun x => ⟨x, 1⟩ := by
      intro t
      induction t with
      | nil => intro i k _; rfl
      | cons b t ih =>
        intro i k hi
        cases k with
        | zero => simp only [rangeAux, List.map_cons, ih _ _ (Nat.succ_pos i), if_pos (show i > 0 from hi)]
        | succ k => simp only [rangeAux]; exact ih _ _ (Nat.succ_pos i)
    simp only [runesOf, rangeStr, rangeAux, List.map_cons, List.cons.injEq] at h
    simp only [NS.prependChanges, rangeStr, rangeAux, List.map_cons]
    rw [← h.2, ← h.1]
    have := h1 s (0 + 1) ((decodeRune (b :: s)).2 - 1) (by omega)
    rw [this]
    rfl

/-! ## Prepend -/

/-- **C129, Prepend.** Any bytes, any state with as many alignments as bytes or more; `c` is the first thing read, `n` the bytes its
rune takes in UTF-8.  `Prepend` panics exactly when the text is shorter than that (which takes a bad first byte).  Otherwise the
first `n` bytes are replaced by the new text and the rune.  The first rune of the new text is aligned as the first byte was, the
rest and the old first rune as the `n`-th byte was; if the new text is empty, the first rune is aligned to `(0,0)`. -/
theorem C129_prepend {ns : NS} (hal : ns.get.length ≤ ns.alignments.length) {c : Chunk} {cs : List Chunk}
    (hc : chunks ns.get = c :: cs) (s : Str) :
    (ns.prepend s = .panic ↔ ns.get.length < (encodeRune c.rune).length) ∧
    ((encodeRune c.rune).length ≤ ns.get.length → ∃ a b : Align, ns.alignments[0]? = some a ∧
      ns.alignments[(encodeRune c.rune).length - 1]? = some b ∧
      ns.prepend s = .ok { ns with
        normalized := sanitizeText s ++ encodeRune c.rune ++ ns.get.drop (encodeRune c.rune).length
        alignments := (match runesOf s with
          | [] => List.replicate (encodeRune c.rune).length ⟨0, 0⟩
          | r :: rs => List.replicate (encodeRune r).length a
              ++ List.replicate (encodeRunes (rs ++ [c.rune])).length b)
          ++ ns.alignments.drop (encodeRune c.rune).length }) := by
  have hal' : ns.normalized.length ≤ ns.alignments.length := hal
  obtain ⟨hne, -, hr⟩ := chunks_head_rune hc
  have hn : ns.normalized.length ≠ 0 := fun e => hne (List.length_eq_zero_iff.1 e)
  have hi : goIndex (runesOf ns.normalized) 0 = .ok c.rune := by
    rw [show runesOf ns.normalized = _ from hr]; rfl
  have hpos := encodeRune_length_pos c.rune
  have hpre : ns.prepend s = ns.transformNormalized 0 ((encodeRune c.rune).length : Int)
      (NS.prependChanges s ++ [⟨c.rune, 1⟩]) 0 := by
    simp only [NS.prepend, hn, if_false, hi, GoM.bind_ok, NS.transformRange, NS.coerceRangeToNormalized]
  have hok : (encodeRune c.rune).length ≤ ns.get.length → ∃ a b : Align, ns.alignments[0]? = some a ∧
      ns.alignments[(encodeRune c.rune).length - 1]? = some b ∧
      ns.prepend s = .ok { ns with
        normalized := sanitizeText s ++ encodeRune c.rune ++ ns.get.drop (encodeRune c.rune).length
        alignments := (match runesOf s with
          | [] => List.replicate (encodeRune c.rune).length ⟨0, 0⟩
          | r :: rs => List.replicate (encodeRune r).length a
              ++ List.replicate (encodeRunes (rs ++ [c.rune])).length b)
          ++ ns.alignments.drop (encodeRune c.rune).length } := by
    intro hl
    obtain ⟨ds, hds⟩ := chunks_take_head hc
    have hl' : (encodeRune c.rune).length ≤ ns.normalized.length := hl
    obtain ⟨a, ha⟩ : ∃ a, ns.alignments[0]? = some a := ⟨_, List.getElem?_eq_getElem (by omega)⟩
    obtain ⟨b, hb⟩ : ∃ b, ns.alignments[(encodeRune c.rune).length - 1]? = some b :=
      ⟨_, List.getElem?_eq_getElem (by omega)⟩
    refine ⟨a, b, ha, hb, ?_⟩
    generalize hL : (encodeRune c.rune).length = L at *
    have e1 : goSlice ns.normalized 0 (L : Int) = .ok (ns.normalized.take L) := by
      rw [goSlice_of (by omega) (by omega) (by omega)]; simp
    have e2 : goSlice (ns.normalized.take L) 0 0 = .ok [] := by
      rw [goSlice_of (by omega) (by omega) (by omega)]; simp
    have e3 : goSlice (ns.normalized.take L) 0 ((ns.normalized.take L).length : Int) = .ok (ns.normalized.take L) := by
      rw [goSlice_of (by omega) (by omega) (by omega), List.take_of_length_le (by simp)]; simp
    have e4 : goSlice ns.alignments 0 0 = .ok [] := by
      rw [goSlice_of (by omega) (by omega) (by omega)]; simp
    have e5 : goSlice ns.alignments (L : Int) (ns.alignments.length : Int) = .ok (ns.alignments.drop L) := by
      rw [goSlice_of (by omega) (by omega) (by omega), List.take_of_length_le (by simp)]; simp
    have e6 : goSlice ns.normalized 0 0 = .ok [] := by
      rw [goSlice_of (by omega) (by omega) (by omega)]; simp
    have e7 : goSlice ns.normalized (L : Int) (ns.normalized.length : Int) = .ok (ns.normalized.drop L) := by
      rw [goSlice_of (by omega) (by omega) (by omega), List.take_of_length_le (by simp)]; simp
    have e8 : runesOf (ns.normalized.take L) = c.rune :: ds := hds
    rw [hpre]
    simp only [NS.transformNormalized, e1, e2, e3, e4, e5, e6, e7, e8, GoM.bind_ok, List.length_nil]
    rw [sanitizeText_eq]
    cases hs : runesOf s with
    | nil =>
      have hs0 := runesOf_eq_nil.1 hs
      subst hs0
      have hp : NS.prependChanges [] = [] := rfl
      simp [hp, goFor_cons, transformStep, hL, NS.get]
    | cons r rs =>
      have hst := step_keep ns.alignments 0 (c.rune :: ds) r 0 [] [] (by simp)
      rw [ha] at hst
      simp only [Int.natCast_zero, Int.neg_zero, List.take_succ_cons, List.take_zero, encodeRunes_cons, encodeRunes_nil,
        List.append_nil, List.nil_append, Nat.zero_add, List.drop_succ_cons, List.drop_zero, hL] at hst
      have hlast : [(⟨c.rune, 1⟩ : RuneChange)] = [c.rune].map fun x => ⟨x, 1⟩ := rfl
      rw [prependChanges_cons hs, hlast, List.cons_append, ← List.map_append, goFor_cons]
      rw [show (((0 : Nat) : Int) + 0) = 0 by omega, hst]
      simp only [GoM.bind_ok]
      have hloop : goFor ((rs ++ [c.rune]).map fun x => (⟨x, 1⟩ : RuneChange))
          ⟨(L : Int), ds, List.replicate (encodeRune r).length a, encodeRune r⟩ (transformStep ns.alignments)
          = .ok ⟨(L : Int), ds, List.replicate (encodeRune r).length a ++ List.replicate (encodeRunes (rs ++ [c.rune])).length b,
            encodeRune r ++ encodeRunes (rs ++ [c.rune])⟩ := by
        rw [appended_loop _ _ _ (by omega), hb]
        cases hrc : rs ++ [c.rune] with
        | nil => simp at hrc
        | cons x xs => rfl
      rw [hloop]
      simp [NS.get]
  refine ⟨⟨fun h => ?_, fun h => ?_⟩, hok⟩
  · apply Classical.byContradiction
    intro hlt
    obtain ⟨a, b, -, -, e⟩ := hok (by omega)
    rw [e] at h; cases h
  · have h' : ns.normalized.length < (encodeRune c.rune).length := h
    have : goSlice ns.normalized 0 ((encodeRune c.rune).length : Int) = .panic := by
      apply goSlice_eq_panic.2
      omega
    rw [hpre]
    simp only [NS.transformNormalized, this, GoM.bind_panic]

/-! ## Append -/

/-- **C129, Append.** Any bytes, any state with as many alignments as bytes or more; `c` is the last thing read, `k` how many there are
before it, and `x` what is read at byte `k`.  The text is cut at byte `k`, and the last rune and the new text follow.  `Append`
panics exactly when the new text is not empty and there is no alignment at the last byte that the rune of `x` takes in UTF-8. -/
theorem C129_append {ns : NS} (hal : ns.get.length ≤ ns.alignments.length) {c : Chunk} {cs : List Chunk}
    (hc : chunks ns.get = cs ++ [c]) (s : Str) :
    ∃ (a : Align) (x : Chunk) (xs : List Chunk), ns.alignments[cs.length]? = some a ∧ chunks (ns.get.drop cs.length) = x :: xs
      ∧ ns.append s
        = if s = [] then
            .ok { ns with normalized := ns.get.take cs.length ++ encodeRune c.rune
                          alignments := ns.alignments.take cs.length ++ List.replicate (encodeRune c.rune).length a
                            ++ ns.alignments.drop ns.get.length }
          else match ns.alignments[cs.length + (encodeRune x.rune).length - 1]? with
          | none => .panic
          | some b =>
            .ok { ns with normalized := ns.get.take cs.length ++ encodeRune c.rune ++ sanitizeText s
                          alignments := ns.alignments.take cs.length ++ List.replicate (encodeRune c.rune).length a
                            ++ List.replicate (sanitizeText s).length b ++ ns.alignments.drop ns.get.length } := by
  have hal' : ns.normalized.length ≤ ns.alignments.length := hal
  have hle : cs.length + 1 ≤ ns.normalized.length := by
    have := chunks_le ns.get
    rw [hc] at this
    simpa [NS.get] using this
  have hn : ns.normalized.length ≠ 0 := by omega
  have hrunes : runesOf ns.normalized = cs.map (·.rune) ++ [c.rune] := by
    rw [show runesOf ns.normalized = runesOf ns.get from rfl, runesOf_chunks, hc]
    simp
  have hi : ((runesOf ns.normalized).length : Int) - 1 = (cs.length : Int) := by rw [hrunes]; simp
  have hf : goIndex (runesOf ns.normalized) (cs.length : Int) = .ok c.rune := by
    rw [hrunes]
    exact goIndex_mid _ _ _ (by simp)
  obtain ⟨x, xs, hx⟩ : ∃ x xs, chunks (ns.get.drop cs.length) = x :: xs := by
    apply List.exists_cons_of_ne_nil
    intro e
    have h1 := textOf_chunks (ns.get.drop cs.length)
    rw [e] at h1
    have := congrArg List.length h1
    simp only [NS.get, List.length_drop] at this
    have h0 : (textOf []).length = 0 := rfl
    omega
  obtain ⟨a, ha⟩ : ∃ a, ns.alignments[cs.length]? = some a := ⟨_, List.getElem?_eq_getElem (by omega)⟩
  refine ⟨a, x, xs, ha, hx, ?_⟩
  have e1 : goSlice ns.normalized (cs.length : Int) ns.len = .ok (ns.normalized.drop cs.length) := by
    rw [goSlice_of (by omega) (by simp [NS.len]; omega) (by simp [NS.len])]
    rw [List.take_of_length_le (by simp [NS.len])]; simp
  have e2 : goSlice (ns.normalized.drop cs.length) 0 0 = .ok [] := by
    rw [goSlice_of (by omega) (by omega) (by omega)]; simp
  have e3 : goSlice (ns.normalized.drop cs.length) 0 ((ns.normalized.drop cs.length).length : Int) = .ok (ns.normalized.drop cs.length) := by
    rw [goSlice_of (by omega) (by omega) (by omega), List.take_of_length_le (by simp)]; simp
  have e4 : goSlice ns.alignments 0 (cs.length : Int) = .ok (ns.alignments.take cs.length) := by
    rw [goSlice_of (by omega) (by omega) (by omega)]; simp
  have e5 : goSlice ns.alignments ns.len (ns.alignments.length : Int) = .ok (ns.alignments.drop ns.get.length) := by
    rw [goSlice_of (by simp [NS.len]) (by simp [NS.len]; omega) (by omega)]
    rw [List.take_of_length_le (by simp [NS.len])]
    simp [NS.len, NS.get]
  have e6 : goSlice ns.normalized 0 (cs.length : Int) = .ok (ns.normalized.take cs.length) := by
    rw [goSlice_of (by omega) (by omega) (by omega)]; simp
  have e7 : goSlice ns.normalized ns.len (ns.normalized.length : Int) = .ok [] := by
    rw [goSlice_of (by simp [NS.len]) (by simp [NS.len]) (by omega)]
    simp [NS.len]
  have e8 : runesOf (ns.normalized.drop cs.length) = x.rune :: xs.map (·.rune) := (chunks_head_rune hx).2.2
  unfold NS.append
  simp only [hn, if_false, hi, hf, GoM.bind_ok, NS.transformRange, NS.coerceRangeToNormalized, NS.transformNormalized, e1, e2,
    e3, e8, List.length_nil, goFor_cons]
  have hst := step_keep ns.alignments cs.length (x.rune :: xs.map (·.rune)) c.rune 0 [] [] (by simp)
  rw [ha] at hst
  simp only [Int.natCast_zero, Int.neg_zero, List.take_succ_cons, List.take_zero, encodeRunes_cons, encodeRunes_nil,
    List.append_nil, List.nil_append, Nat.zero_add, List.drop_succ_cons, List.drop_zero] at hst
  rw [show (((0 : Nat) : Int) + (cs.length : Int)) = (cs.length : Int) by omega, hst]
  have hseen := encodeRune_length_pos x.rune
  simp only [GoM.bind_ok]
  rw [appended_loop _ _ _ (by omega), sanitizeText_eq]
  cases s with
  | nil => simp [runesOf, rangeStr, rangeAux, e4, e5, e6, e7, NS.get]
  | cons b s =>
    cases hrb : runesOf (b :: s) with
    | nil => cases hrb
    | cons r rs =>
      simp only [List.cons_ne_nil, if_false]
      cases ns.alignments[cs.length + (encodeRune x.rune).length - 1]? with
      | none => rfl
      | some d => simp [e4, e5, e6, e7, NS.get]

/-- On `FromString` of any bytes and after whole-text calls on it: if everything before the last rune is ASCII or a bad byte, `Append`
returns, and only a bad last byte is changed, into U+FFFD. -/
theorem C129_append_ok {ns : NS} (h : Roomy ns) {c : Chunk} {cs : List Chunk} (hc : chunks ns.get = cs ++ [c])
    (h1 : ∀ d ∈ cs, d.bytes.length = 1) (s : Str) :
    ∃ ns', ns.append s = .ok ns' ∧ ns'.get = textOf cs ++ encodeRune c.rune ++ sanitizeText s := by
  obtain ⟨a, x, xs, -, hx, he⟩ := C129_append h.len hc s
  have hd := runes_drop_lead hc h1
  have hxc : x.rune = c.rune := by
    have := (chunks_head_rune hx).2.2
    rw [hd.2] at this
    simp at this
    exact this.1.symm
  have htake : ns.get.take cs.length = textOf cs := by
    have h2 := List.take_append_drop cs.length ns.get
    have h3 := textOf_chunks ns.get
    rw [hc] at h3
    rw [hd.1] at h2
    have h4 : textOf (cs ++ [c]) = textOf cs ++ textOf [c] := by simp [textOf]
    rw [h4, ← h2] at h3
    exact (List.append_cancel_right h3).symm
  have hroom : cs.length + (encodeRune c.rune).length - 1 < ns.alignments.length := by
    have h2 : Roomy ns := h
    unfold Roomy at h2
    rw [runesOf_chunks, hc, List.map_append, encodeRunes_append, List.length_append] at h2
    have h3 := length_le_encodeRunes (cs.map (·.rune))
    rw [List.length_map] at h3
    have h4 : (encodeRunes ([c].map (·.rune))).length = (encodeRune c.rune).length := by simp
    have := encodeRune_length_pos c.rune
    omega
  rw [he, hxc, List.getElem?_eq_getElem hroom]
  by_cases hs : s = []
  · rw [if_pos hs]
    subst hs
    refine ⟨_, rfl, ?_⟩
    simp [NS.get, ← htake, sanitizeText_eq, runesOf, rangeStr, rangeAux]
  · rw [if_neg hs]
    refine ⟨_, rfl, ?_⟩
    simp [NS.get, ← htake]

/-! ## Examples -/

/-- A bad byte and one more: `Prepend` panics; with two more it returns, and they are gone. -/
example : (NS.fromString [0xFF, 0x61]).prepend b!"x" = .panic ∧
    (NS.fromString [0xFF, 0x61, 0x62, 0x63]).prepend b!"x" >>= (fun n => pure n.get) = .ok [0x78, 0xEF, 0xBF, 0xBD, 0x63] := by
  decide +kernel

/-- Bad bytes before the end do `Append` no harm, a character of two bytes does. -/
example : (NS.fromString [0xFF, 0x61]).append b!"x" >>= (fun n => pure n.get) = .ok [0xFF, 0x61, 0x78] ∧
    (NS.fromString [0x61, 0xFF]).append b!"x" >>= (fun n => pure n.get) = .ok [0x61, 0xEF, 0xBF, 0xBD, 0x78] ∧
    (NS.fromString b!"éa").append b!"x" = .panic := by decide +kernel

end Verif
