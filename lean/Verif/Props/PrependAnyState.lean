import Verif.Props.AppendBytes
import Verif.Props.TransformAnyState
import Verif.Model.Notation

/-! C150: `Prepend` and `Append` in any state whatever: C129 without the condition on the number of alignments. -/

set_option autoImplicit false

namespace Verif

/-- **C150, nothing there.** In any state, an empty text stays empty. -/
theorem C150_empty {ns : NS} (h : ns.get = []) (s : Str) : ns.prepend s = .ok ns ∧ ns.append s = .ok ns := by
  have h : ns.normalized.length = 0 := by rw [show ns.normalized = [] from h]; rfl
  simp [NS.prepend, NS.append, h]

/-- **C150, Prepend.** In any state with a text, `c` the first thing read and `n` the bytes its rune takes in UTF-8: `Prepend` panics
exactly when there are fewer than `n` bytes or fewer than `n` alignments; otherwise it does what C129 says. -/
theorem C150_prepend {ns : NS} {c : Chunk} {cs : List Chunk} (hc : chunks ns.get = c :: cs) (s : Str) :
    (ns.prepend s = .panic ↔ ns.get.length < (encodeRune c.rune).length ∨ ns.alignments.length < (encodeRune c.rune).length) ∧
    ((encodeRune c.rune).length ≤ ns.get.length → (encodeRune c.rune).length ≤ ns.alignments.length →
      ∃ a b : Align, ns.alignments[0]? = some a ∧ ns.alignments[(encodeRune c.rune).length - 1]? = some b ∧
      ns.prepend s = .ok { ns with
        normalized := sanitizeText s ++ encodeRune c.rune ++ ns.get.drop (encodeRune c.rune).length
        alignments := (match runesOf s with
          | [] => List.replicate (encodeRune c.rune).length ⟨0, 0⟩
          | r :: rs => List.replicate (encodeRune r).length a
              ++ List.replicate (encodeRunes (rs ++ [c.rune])).length b)
          ++ ns.alignments.drop (encodeRune c.rune).length }) := by
  obtain ⟨hne, -, hr⟩ := chunks_head_rune hc
  have hn : ns.normalized.length ≠ 0 := fun e => hne (List.length_eq_zero_iff.1 e)
  have hi : goIndex (runesOf ns.normalized) 0 = .ok c.rune := by
    rw [show runesOf ns.normalized = _ from hr]; rfl
  have hpos := encodeRune_length_pos c.rune
  have hpre' : ns.prepend s = ns.transformRange (.normalized 0 ((encodeRune c.rune).length : Int)) (NS.prependChanges s ++ [⟨c.rune, 1⟩]) 0 := by
    simp only [NS.prepend, hn, if_false, hi, GoM.bind_ok]
  have hpre : ns.prepend s = ns.transformNormalized 0 ((encodeRune c.rune).length : Int)
      (NS.prependChanges s ++ [⟨c.rune, 1⟩]) 0 := by
    rw [hpre']
    simp only [NS.transformRange, NS.coerceRangeToNormalized]
  have hok : (encodeRune c.rune).length ≤ ns.get.length → (encodeRune c.rune).length ≤ ns.alignments.length →
      ∃ a b : Align, ns.alignments[0]? = some a ∧ ns.alignments[(encodeRune c.rune).length - 1]? = some b ∧
      ns.prepend s = .ok { ns with
        normalized := sanitizeText s ++ encodeRune c.rune ++ ns.get.drop (encodeRune c.rune).length
        alignments := (match runesOf s with
          | [] => List.replicate (encodeRune c.rune).length ⟨0, 0⟩
          | r :: rs => List.replicate (encodeRune r).length a
              ++ List.replicate (encodeRunes (rs ++ [c.rune])).length b)
          ++ ns.alignments.drop (encodeRune c.rune).length } := by
    intro hl hal
    obtain ⟨ds, hds⟩ := chunks_take_head hc
    have hl' : (encodeRune c.rune).length ≤ ns.normalized.length := hl
    obtain ⟨a, ha⟩ : ∃ a, ns.alignments[0]? = some a := ⟨_, List.getElem?_eq_getElem (by omega)⟩
    obtain ⟨b, hb⟩ : ∃ b, ns.alignments[(encodeRune c.rune).length - 1]? = some b :=
      ⟨_, List.getElem?_eq_getElem (by omega)⟩
    refine ⟨a, b, ha, hb, ?_⟩
    generalize hL : (encodeRune c.rune).length = L at *
    have e1 : goSlice ns.normalized 0 (L : Int) = .ok (ns.normalized.take L) := by
      rw [goSlice_of (by omega) (by omega) (by omega)]; simp
    have e2 : goSlice (ns.normalized.take L) 0 0 = .ok [] := by
      rw [goSlice_of (by omega) (by omega) (by omega)]; simp
    have e3 : goSlice (ns.normalized.take L) 0 ((ns.normalized.take L).length : Int) = .ok (ns.normalized.take L) := by
      rw [goSlice_of (by omega) (by omega) (by omega), List.take_of_length_le (by simp)]; simp
    have e4 : goSlice ns.alignments 0 0 = .ok [] := by
      rw [goSlice_of (by omega) (by omega) (by omega)]; simp
    have e5 : goSlice ns.alignments (L : Int) (ns.alignments.length : Int) = .ok (ns.alignments.drop L) := by
      rw [goSlice_of (by omega) (by omega) (by omega), List.take_of_length_le (by simp)]; simp
    have e6 : goSlice ns.normalized 0 0 = .ok [] := by
      rw [goSlice_of (by omega) (by omega) (by omega)]; simp
    have e7 : goSlice ns.normalized (L : Int) (ns.normalized.length : Int) = .ok (ns.normalized.drop L) := by
      rw [goSlice_of (by omega) (by omega) (by omega), List.take_of_length_le (by simp)]; simp
    have e8 : runesOf (ns.normalized.take L) = c.rune :: ds := hds
    rw [hpre]
    simp only [NS.transformNormalized, e1, e2, e3, e4, e5, e6, e7, e8, GoM.bind_ok, List.length_nil]
    rw [sanitizeText_eq]
    cases hs : runesOf s with
    | nil =>
      have hs0 := runesOf_eq_nil.1 hs
      subst hs0
      have hp : NS.prependChanges [] = [] := rfl
      simp [hp, goFor_cons, transformStep, hL, NS.get]
    | cons r rs =>
      have hst := step_keep ns.alignments 0 (c.rune :: ds) r 0 [] [] (by simp)
      rw [ha] at hst
      simp only [Int.natCast_zero, Int.neg_zero, List.take_succ_cons, List.take_zero, encodeRunes_cons, encodeRunes_nil,
        List.append_nil, List.nil_append, Nat.zero_add, List.drop_succ_cons, List.drop_zero, hL] at hst
      have hlast : [(⟨c.rune, 1⟩ : RuneChange)] = [c.rune].map fun x => ⟨x, 1⟩ := rfl
      rw [prependChanges_cons hs, hlast, List.cons_append, ← List.map_append, goFor_cons]
      rw [show (((0 : Nat) : Int) + 0) = 0 by omega, hst]
      simp only [GoM.bind_ok]
      have hloop : goFor ((rs ++ [c.rune]).map fun x => (⟨x, 1⟩ : RuneChange))
          ⟨(L : Int), ds, List.replicate (encodeRune r).length a, encodeRune r⟩ (transformStep ns.alignments)
          = .ok ⟨(L : Int), ds, List.replicate (encodeRune r).length a ++ List.replicate (encodeRunes (rs ++ [c.rune])).length b,
            encodeRune r ++ encodeRunes (rs ++ [c.rune])⟩ := by
        rw [appended_loop _ _ _ (by omega), hb]
        cases hrc : rs ++ [c.rune] with
        | nil => simp at hrc
        | cons x xs => rfl
      rw [hloop]
      simp [NS.get]
  refine ⟨⟨fun h => ?_, fun h => ?_⟩, hok⟩
  · apply Classical.byContradiction
    intro hlt
    obtain ⟨a, b, -, -, e⟩ := hok (by omega) (by omega)
    rw [e] at h; cases h
  · rw [hpre']
    refine (C138_exact ns 0 _ _ 0).2 ?_
    rintro ⟨ps, hp⟩
    have h1 := hp.range.2.2
    have h2 := hp.behind
    have h3 : ns.get.length = ns.normalized.length := rfl
    omega

/-- **C150, Append.** In any state, with fewer alignments than bytes `Append` panics; otherwise it does what C129 says. -/
theorem C150_append {ns : NS} (h : ns.alignments.length < ns.get.length) (s : Str) : ns.append s = .panic := by
  have h' : ns.alignments.length < ns.normalized.length := h
  have hn : ns.normalized.length ≠ 0 := by omega
  obtain ⟨r, hr⟩ : ∃ r, goIndex (runesOf ns.normalized) (((runesOf ns.normalized).length : Int) - 1) = .ok r := by
    cases hg : goIndex (runesOf ns.normalized) (((runesOf ns.normalized).length : Int) - 1) with
    | ok r => exact ⟨r, rfl⟩
    | panic =>
      have := goIndex_eq_panic.1 hg
      have h0 : runesOf ns.normalized ≠ [] := fun e => hn (by rw [runesOf_eq_nil.1 e]; rfl)
      have := List.length_pos_iff.2 h0
      omega
  have ha : ns.append s = ns.transformRange (.normalized (((runesOf ns.normalized).length : Int) - 1) ns.len)
      (⟨r, 0⟩ :: (runesOf s).map fun r => ⟨r, 1⟩) 0 := by
    simp only [NS.append, hn, if_false, hr, GoM.bind_ok]
  rw [ha]
  refine (C138_exact ns _ _ _ 0).2 ?_
  rintro ⟨ps, hp⟩
  have h2 := hp.behind
  have h3 : ns.len = (ns.normalized.length : Int) := rfl
  omega

/-! ## Prepend twice -/

theorem chunks_rune_append {r : Rune} (h : ValidRune r) (t : Str) : chunks (encodeRune r ++ t) = ⟨encodeRune r, r⟩ :: chunks t :=
  (Reads.rune h (reads_chunks t)).chunks_eq

theorem runesOf_front : ∀ {rs : List Rune}, (∀ r ∈ rs, ValidRune r) → ∀ t : Str, runesOf (encodeRunes rs ++ t) = rs ++ runesOf t := by
  intro rs
  induction rs with
  | nil => intro _ t; rfl
  | cons r rs ih =>
    intro h t
    have := ih (fun x hx => h x (by simp [hx])) t
    rw [encodeRunes_cons, List.append_assoc, runesOf_chunks, chunks_rune_append (h r (by simp)), List.map_cons, ← runesOf_chunks, this]
    rfl

/-- **C150, Prepend twice.** In any state where it does not panic, and with texts that are not empty, the one in front UTF-8: to prepend
one text and then another is to prepend both at once exactly if the first and the last byte of the first rune are aligned alike. -/
theorem C150_twice {ns : NS} {c : Chunk} {cs : List Chunk} (hc : chunks ns.get = c :: cs) (h1 : (encodeRune c.rune).length ≤ ns.get.length)
    (h2 : (encodeRune c.rune).length ≤ ns.alignments.length) {s t : Str} (hs : ValidUtf8 s) (hs0 : s ≠ []) (ht0 : t ≠ []) :
    (ns.prepend t >>= fun m => m.prepend s) = ns.prepend (s ++ t) ↔ ns.alignments[0]? = ns.alignments[(encodeRune c.rune).length - 1]? := by
  obtain ⟨a, b, ha, hb, hp⟩ := (C150_prepend hc t).2 h1 h2
  obtain ⟨a', b', ha', hb', hq⟩ := (C150_prepend hc (s ++ t)).2 h1 h2
  rw [ha] at ha'; cases ha'
  rw [hb] at hb'; cases hb'
  obtain ⟨rs, hr, rfl⟩ := hs
  obtain ⟨t0, ts, ht⟩ : ∃ t0 ts, runesOf t = t0 :: ts := List.exists_cons_of_ne_nil fun e => ht0 (runesOf_eq_nil.1 e)
  obtain ⟨s0, ss, rfl⟩ : ∃ s0 ss, rs = s0 :: ss := List.exists_cons_of_ne_nil (by rintro rfl; exact hs0 rfl)
  have hst : runesOf (encodeRunes (s0 :: ss) ++ t) = s0 :: (ss ++ t0 :: ts) := by rw [runesOf_front hr, ht]; rfl
  have hsr : runesOf (encodeRunes (s0 :: ss)) = s0 :: ss := runesOf_encodeRunes _ hr
  have hv : ValidRune t0 := runesOf_valid t t0 (by rw [ht]; simp)
  have hpos := encodeRune_length_pos t0
  rw [hp, hq]
  simp only [ht, hst, sanitizeText_eq, GoM.bind_ok]
  generalize hm : ({ ns with
      normalized := encodeRunes (t0 :: ts) ++ encodeRune c.rune ++ ns.get.drop (encodeRune c.rune).length
      alignments := (List.replicate (encodeRune t0).length a ++ List.replicate (encodeRunes (ts ++ [c.rune])).length b)
        ++ ns.alignments.drop (encodeRune c.rune).length } : NS) = m
  have hmg : m.get = encodeRune t0 ++ (encodeRunes ts ++ encodeRune c.rune ++ ns.get.drop (encodeRune c.rune).length) := by
    rw [← hm]; simp [NS.get, encodeRunes_cons]
  have hma : m.alignments = List.replicate (encodeRune t0).length a ++ (List.replicate (encodeRunes (ts ++ [c.rune])).length b
      ++ ns.alignments.drop (encodeRune c.rune).length) := by rw [← hm]; simp
  have hmc := chunks_rune_append hv (encodeRunes ts ++ encodeRune c.rune ++ ns.get.drop (encodeRune c.rune).length)
  rw [← hmg] at hmc
  obtain ⟨a2, b2, ha2, hb2, hp2⟩ := (C150_prepend hmc (encodeRunes (s0 :: ss))).2 (by rw [hmg]; simp) (by rw [hma]; simp)
  simp only at ha2 hb2
  rw [hma, List.getElem?_append_left (by simpa using hpos), List.getElem?_replicate, if_pos hpos] at ha2
  rw [hma, List.getElem?_append_left (by simp; omega), List.getElem?_replicate, if_pos (by omega)] at hb2
  cases ha2
  cases hb2
  rw [hp2, ha, hb]
  simp only [hsr, sanitizeText_eq]
  have hd1 : m.get.drop (encodeRune t0).length = encodeRunes ts ++ encodeRune c.rune ++ ns.get.drop (encodeRune c.rune).length := by
    rw [hmg]; simp
  have hd2 : m.alignments.drop (encodeRune t0).length = List.replicate (encodeRunes (ts ++ [c.rune])).length b
      ++ ns.alignments.drop (encodeRune c.rune).length := by rw [hma]; simp
  rw [hd1, hd2]
  have ho : m.original = ns.original ∧ m.originalShift = ns.originalShift := by rw [← hm]; exact ⟨rfl, rfl⟩
  have hlen : (encodeRunes ((ss ++ t0 :: ts) ++ [c.rune])).length = (encodeRunes (ss ++ [t0])).length + (encodeRunes (ts ++ [c.rune])).length := by
    rw [← List.length_append, ← encodeRunes_append]; simp
  rw [hlen, ← List.replicate_append_replicate]
  have hlp : 0 < (encodeRunes (ss ++ [t0])).length := by
    rw [encodeRunes_append, List.length_append]
    simp [encodeRunes]
    omega
  constructor
  · intro e
    simp only [GoM.ok.injEq, NS.mk.injEq] at e
    have e := e.2.2.1
    simp only [List.append_assoc] at e
    have e := List.append_cancel_left e
    have e := congrArg (fun l : List Align => l[0]?) e
    rw [List.getElem?_append_left (by simpa using hlp), List.getElem?_append_left (by simpa using hlp), List.getElem?_replicate,
      List.getElem?_replicate, if_pos hlp, if_pos hlp] at e
    exact e
  · intro e
    cases e
    simp only [GoM.ok.injEq, NS.mk.injEq]
    refine ⟨ho.1, ?_, ?_, ho.2⟩
    · simp only [encodeRunes_cons, encodeRunes_append, List.append_assoc]
    · simp only [List.append_assoc]

/-! ## Concrete -/

/-- One alignment for two letters: `Prepend` needs only that of the first, `Append` that of each. -/
theorem C150_example :
    (⟨b!"ab", b!"ab", [⟨0, 1⟩], 0⟩ : NS).prepend b!"xy" = .ok ⟨b!"ab", b!"xyab", [⟨0, 1⟩, ⟨0, 1⟩, ⟨0, 1⟩], 0⟩
    ∧ (⟨b!"ab", b!"ab", [⟨0, 1⟩], 0⟩ : NS).append b!"xy" = .panic
    ∧ (⟨b!"éb", b!"éb", [⟨0, 2⟩], 0⟩ : NS).prepend b!"xy" = .panic
    ∧ (⟨b!"ab", [], [⟨0, 1⟩], 0⟩ : NS).prepend b!"xy" = .ok ⟨b!"ab", [], [⟨0, 1⟩], 0⟩
    ∧ ((⟨b!"ab", b!"é", [⟨0, 1⟩, ⟨1, 2⟩], 0⟩ : NS).prepend b!"y" >>= fun m => m.prepend b!"x")
      = .ok ⟨b!"ab", b!"xyé", [⟨0, 1⟩, ⟨0, 1⟩, ⟨1, 2⟩, ⟨1, 2⟩], 0⟩
    ∧ (⟨b!"ab", b!"é", [⟨0, 1⟩, ⟨1, 2⟩], 0⟩ : NS).prepend b!"xy" = .ok ⟨b!"ab", b!"xyé", [⟨0, 1⟩, ⟨1, 2⟩, ⟨1, 2⟩, ⟨1, 2⟩], 0⟩ := by
  decide +kernel

end Verif
