import Verif.Lemmas.Go
import Verif.Lemmas.Utf8
import Verif.Model.Notation
import Verif.Spec.Tiling

/-! C10: `Replace`. -/

set_option autoImplicit false

namespace Verif

/-- The loop of `TransformRange` when every change is an insertion. -/
theorem insert_loop (als : List Align) (x : Align) (o : Int)
    (hx : (o < 1 ∧ x = ⟨0, 0⟩) ∨ (1 ≤ o ∧ goIndex als (o - 1) = .ok x)) :
    ∀ (rs : List Rune) (repl : List Rune) (al : List Align) (out : Str),
      goFor (rs.map fun r => (⟨r, 1⟩ : RuneChange)) ⟨o, repl, al, out⟩ (transformStep als)
        = .ok ⟨o, repl, al ++ List.replicate (encodeRunes rs).length x, out ++ encodeRunes rs⟩ := by
  intro rs
  induction rs with
  | nil => intro repl al out; simp
  | cons r rs ih =>
    intro repl al out
    rw [List.map_cons, goFor_cons]
    have : transformStep als ⟨o, repl, al, out⟩ ⟨r, 1⟩
        = .ok ⟨o, repl, al ++ List.replicate (encodeRune r).length x, out ++ encodeRune r⟩ := by
      unfold transformStep
      rcases hx with ⟨h1, rfl⟩ | ⟨h1, h2⟩
      · simp [h1]
      · have : ¬ o < 1 := by omega
        simp [this, h2]
    rw [this, GoM.bind_ok, ih]
    simp [List.replicate_append_replicate]

/-- What `Replace` must produce for one capture: `content`, uniformly aligned (to a byte of
the match when the match is not empty), for a match; the same bytes with the same alignments
otherwise. -/
def ReplacePart (ns : NS) (content : Str) (c : Capture) (part : Str × List Align) : Prop :=
  if c.isMatch then
    part.1 = content ∧ ∃ x, part.2 = List.replicate content.length x
      ∧ (c.offsets.start < c.offsets.stop → x ∈ sub ns.alignments c.offsets.start c.offsets.stop)
  else
    part = (sub ns.normalized c.offsets.start c.offsets.stop,
      sub ns.alignments c.offsets.start c.offsets.stop)

theorem Tiles.le : ∀ {cs : List Capture} {i n : Int}, Tiles cs i n → i ≤ n
  | [], _, _, h => by simp [Tiles] at h; omega
  | c :: cs, i, n, h => by
    obtain ⟨h1, h2, h3⟩ := h
    have := Tiles.le h3
    omega

/-- Peel `[i, j)` off a suffix. -/
theorem drop_eq_sub {α : Type} (l : List α) {i j : Int} (h0 : 0 ≤ i) (hij : i ≤ j) :
    l.drop i.toNat = sub l i j ++ l.drop j.toNat := by
  unfold sub
  have : j.toNat = i.toNat + (j - i).toNat := by omega
  rw [this, ← List.drop_drop, List.take_append_drop]

theorem sub_length {α : Type} (l : List α) {i j : Int} (h0 : 0 ≤ i) (hij : i ≤ j) (hj : j ≤ l.length) :
    (sub l i j).length = (j - i).toNat := by
  unfold sub; simp; omega

theorem sub_full {α : Type} (l : List α) : sub l 0 l.length = l := by simp [sub]

theorem runesOf_length_pos {s : Str} (h : s ≠ []) : 0 < (runesOf s).length := by
  apply List.length_pos_iff.2
  intro h'; exact h (runesOf_eq_nil.1 h')

theorem replace_loop {ns : NS} (hlen : ns.alignments.length = ns.normalized.length) {content : Str}
    (hc : ValidUtf8 content) (caps : List Capture) :
    ∀ (i : Int) (dt : Str) (da : List Align), 0 ≤ i → da.length = dt.length →
      Tiles caps i ns.normalized.length →
      ∃ (parts : List (Str × List Align)) (off : Int),
        All2 (ReplacePart ns content) caps parts
        ∧ goFor caps ({ ns with normalized := dt ++ ns.normalized.drop i.toNat,
                                alignments := da ++ ns.alignments.drop i.toNat }, (dt.length : Int) - i)
            (NS.replaceStep content)
          = .ok ({ ns with normalized := dt ++ parts.flatMap (·.1),
                           alignments := da ++ parts.flatMap (·.2) }, off) := by
  induction caps with
  | nil =>
    intro i dt da h0 hd ht
    simp only [Tiles] at ht
    subst ht
    refine ⟨[], (dt.length : Int) - ns.normalized.length, .nil, ?_⟩
    simp [← hlen]
  | cons c cs ih =>
    intro i dt da h0 hd ht
    obtain ⟨t1, t2, t3⟩ := ht
    have hjn := t3.le
    have hN := drop_eq_sub ns.normalized h0 t2
    have hA := drop_eq_sub ns.alignments h0 t2
    have hNl := sub_length ns.normalized h0 t2 hjn
    have hAl := sub_length ns.alignments h0 t2 (by rw [hlen]; exact hjn)
    cases hm : c.isMatch with
    | false =>
      obtain ⟨parts, off, p1, p2⟩ := ih c.offsets.stop (dt ++ sub ns.normalized i c.offsets.stop)
        (da ++ sub ns.alignments i c.offsets.stop) (by omega) (by simp [hd, hNl, hAl]) t3
      refine ⟨(sub ns.normalized i c.offsets.stop, sub ns.alignments i c.offsets.stop) :: parts, off,
        .cons ?_ p1, ?_⟩
      · simp [ReplacePart, hm, t1]
      · rw [goFor_cons]
        simp only [NS.replaceStep, hm, Bool.not_false, if_true, GoM.bind_ok]
        have e : ((dt ++ sub ns.normalized i c.offsets.stop).length : Int) - c.offsets.stop
            = (dt.length : Int) - i := by simp [hNl]; omega
        rw [e] at p2
        rw [hN, hA]
        simp only [List.append_assoc] at p2 ⊢
        rw [p2]
        simp
    | true =>
      -- the matched text, in the current string
      obtain ⟨rs, hv, rfl⟩ := hc
      have hrunes : runesOf (encodeRunes rs) = rs := runesOf_encodeRunes rs hv
      generalize hseg : sub ns.normalized i c.offsets.stop = seg at hN hNl
      generalize hals : sub ns.alignments i c.offsets.stop = segA at hA hAl
      -- the alignment of the inserted text
      have hrl := runesOf_length_le seg
      obtain ⟨x, hx, hmem⟩ : ∃ x : Align,
          ((((dt.length : Int) + (runesOf seg).length) < 1 ∧ x = ⟨0, 0⟩) ∨
            (1 ≤ ((dt.length : Int) + (runesOf seg).length) ∧
              goIndex (da ++ (segA ++ ns.alignments.drop c.offsets.stop.toNat))
                ((dt.length : Int) + (runesOf seg).length - 1) = .ok x))
          ∧ (i < c.offsets.stop → x ∈ segA) := by
        by_cases hs : seg = []
        · subst hs
          have : (runesOf ([] : Str)).length = 0 := rfl
          rw [this]
          have hnot : ¬ i < c.offsets.stop := by simp at hNl; omega
          by_cases hdz : dt.length = 0
          · exact ⟨⟨0, 0⟩, Or.inl ⟨by simp [hdz], rfl⟩, fun h => absurd h hnot⟩
          · refine ⟨da[dt.length - 1]'(by omega), Or.inr ⟨by simp; omega, ?_⟩, fun h => absurd h hnot⟩
            apply goIndex_of_getElem? (by simp; omega)
            have e : ((dt.length : Int) + ((0 : Nat) : Int) - 1).toNat = dt.length - 1 := by simp
            rw [e, List.getElem?_append_left (by omega)]
            simp
        · have hp := runesOf_length_pos hs
          have hlt : (runesOf seg).length - 1 < segA.length := by omega
          refine ⟨segA[(runesOf seg).length - 1], Or.inr ⟨by omega, ?_⟩, fun _ => List.getElem_mem hlt⟩
          apply goIndex_of_getElem? (by omega)
          have e : ((dt.length : Int) + (runesOf seg).length - 1).toNat
              = da.length + ((runesOf seg).length - 1) := by omega
          rw [e, List.getElem?_append_right (by omega), Nat.add_sub_cancel_left,
            List.getElem?_append_left hlt]
          simp
      have hstep : NS.replaceStep (encodeRunes rs)
          ({ ns with normalized := dt ++ ns.normalized.drop i.toNat,
                     alignments := da ++ ns.alignments.drop i.toNat }, (dt.length : Int) - i) c
          = .ok ({ ns with normalized := (dt ++ encodeRunes rs) ++ ns.normalized.drop c.offsets.stop.toNat,
                           alignments := (da ++ List.replicate (encodeRunes rs).length x)
                              ++ ns.alignments.drop c.offsets.stop.toNat },
              ((dt ++ encodeRunes rs).length : Int) - c.offsets.stop) := by
        unfold NS.replaceStep
        simp only [hm, Bool.not_true, Bool.false_eq_true, if_false, t1, hrunes]
        have e1 : i + ((dt.length : Int) - i) = dt.length := by omega
        have e2 : c.offsets.stop + ((dt.length : Int) - i) = dt.length + seg.length := by omega
        rw [e1, e2, if_neg (by omega), if_neg (by omega), hN, hA]
        have g1 : goSlice (dt ++ (seg ++ ns.normalized.drop c.offsets.stop.toNat)) (dt.length : Int)
            (dt.length + seg.length) = .ok seg := by
          rw [← List.append_assoc]; exact goSlice_mid dt seg _ rfl rfl
        rw [g1]
        simp only [GoM.bind_ok, NS.transformRange, NS.coerceRangeToNormalized, NS.transformNormalized, g1]
        have g2 : goSlice seg 0 ((runesOf seg).length : Int)
            = .ok (seg.take (runesOf seg).length) := by
          rw [goSlice_of (by omega) (by omega) (by omega)]; simp
        have g3 : goSlice seg ((runesOf seg).length : Int) (seg.length : Int)
            = .ok (seg.drop (runesOf seg).length) := by
          rw [goSlice_of (by omega) (by omega) (by omega), List.take_of_length_le (by simp)]; simp
        rw [g2, g3]
        simp only [GoM.bind_ok, List.length_take]
        have e3 : (((min (runesOf seg).length seg.length : Nat) : Int) + (dt.length : Int))
            = (dt.length : Int) + (runesOf seg).length := by omega
        rw [e3, insert_loop _ x _ hx]
        simp only [GoM.bind_ok, List.nil_append]
        have g4 : goSlice (da ++ (segA ++ ns.alignments.drop c.offsets.stop.toNat)) 0 (dt.length : Int)
            = .ok da := goSlice_prefix da _ (by omega)
        have g5 : goSlice (da ++ (segA ++ ns.alignments.drop c.offsets.stop.toNat))
            ((dt.length : Int) + seg.length) ((da ++ (segA ++ ns.alignments.drop c.offsets.stop.toNat)).length : Int)
            = .ok (ns.alignments.drop c.offsets.stop.toNat) := by
          rw [← List.append_assoc]
          exact goSlice_suffix (da ++ segA) _ (by simp; omega) (by simp; omega)
        have g6 : goSlice (dt ++ (seg ++ ns.normalized.drop c.offsets.stop.toNat)) 0 (dt.length : Int)
            = .ok dt := goSlice_prefix dt _ rfl
        have g7 : goSlice (dt ++ (seg ++ ns.normalized.drop c.offsets.stop.toNat))
            ((dt.length : Int) + seg.length) ((dt ++ (seg ++ ns.normalized.drop c.offsets.stop.toNat)).length : Int)
            = .ok (ns.normalized.drop c.offsets.stop.toNat) := by
          rw [← List.append_assoc]
          exact goSlice_suffix (dt ++ seg) _ (by simp) (by simp; omega)
        rw [g4, g5, g6, g7]
        simp only [GoM.bind_ok, GoM.pure_eq]
        congr 2
        simp; omega
      obtain ⟨parts, off, p1, p2⟩ := ih c.offsets.stop (dt ++ encodeRunes rs)
        (da ++ List.replicate (encodeRunes rs).length x) (by omega) (by simp [hd]) t3
      refine ⟨(encodeRunes rs, List.replicate (encodeRunes rs).length x) :: parts, off, .cons ?_ p1, ?_⟩
      · simp only [ReplacePart, hm, if_true, true_and]
        refine ⟨x, rfl, ?_⟩
        rw [t1, hals]; exact hmem
      · rw [goFor_cons, hstep, GoM.bind_ok, p2]
        simp

/-- **C10.** On any state with one alignment per byte, for every pattern whose captures tile
the text and every valid UTF-8 `content`, `Replace` succeeds; the new text is, capture by
capture, `content` for matches and the unchanged slice otherwise; bytes of unmatched slices
keep their alignment and inserted bytes are aligned to a byte of a (non-empty) match. -/
theorem C10_replace {ns : NS} (hlen : ns.alignments.length = ns.normalized.length)
    {pattern : SplitPattern} {caps : List Capture} (hp : pattern ns.normalized = .ok (.ok caps))
    (ht : Tiles caps 0 ns.normalized.length) {content : Str} (hc : ValidUtf8 content) :
    ∃ ns' parts, ns.replace pattern content = .ok (.ok ns')
      ∧ All2 (ReplacePart ns content) caps parts
      ∧ ns'.normalized = parts.flatMap (·.1) ∧ ns'.alignments = parts.flatMap (·.2)
      ∧ ns'.original = ns.original ∧ ns'.originalShift = ns.originalShift := by
  obtain ⟨parts, off, p1, p2⟩ := replace_loop hlen hc caps 0 [] [] (by omega) rfl ht
  refine ⟨{ ns with normalized := parts.flatMap (·.1), alignments := parts.flatMap (·.2) }, parts,
    ?_, p1, rfl, rfl, rfl, rfl⟩
  · simp only [Int.toNat_zero, List.drop_zero, List.nil_append, List.length_nil, Int.natCast_zero,
      Int.sub_zero] at p2
    simp only [NS.replace, hp, GoM.bind_ok]
    show ((goFor caps (ns, 0) (NS.replaceStep content)).bind fun st => _) = _
    rw [p2]
    rfl

theorem replaceParts_text {ns : NS} {content : Str} {caps : List Capture} {parts : List (Str × List Align)}
    (h : All2 (ReplacePart ns content) caps parts) :
    parts.flatMap (·.1) = caps.flatMap fun c =>
      if c.isMatch then content else sub ns.normalized c.offsets.start c.offsets.stop := by
  induction h with
  | nil => rfl
  | cons hd _ ih =>
    rw [List.flatMap_cons, List.flatMap_cons, ih]
    congr 1
    unfold ReplacePart at hd
    split at hd
    · rename_i hm; simp [hm, hd.1]
    · rename_i hm; simp [hm, hd]

/-- The text after `Replace`, as one formula. -/
theorem C10_text {ns ns' : NS} (hlen : ns.alignments.length = ns.normalized.length)
    {pattern : SplitPattern} {caps : List Capture} (hp : pattern ns.normalized = .ok (.ok caps))
    (ht : Tiles caps 0 ns.normalized.length) {content : Str} (hc : ValidUtf8 content)
    (h : ns.replace pattern content = .ok (.ok ns')) :
    ns'.get = caps.flatMap fun c =>
      if c.isMatch then content else sub ns.get c.offsets.start c.offsets.stop := by
  obtain ⟨n2, parts, h1, h2, h3, -⟩ := C10_replace hlen hp ht hc
  rw [h1] at h
  simp only [GoM.ok.injEq, Except.ok.injEq] at h
  subst h
  show n2.normalized = _
  rw [h3, replaceParts_text h2]
  rfl

/-- Non-vacuity: three matches, one at each end, replaced by a longer multi-byte text. -/
example :
    let ns := NS.fromString b!"-a-bé-"
    let p := fromRune u!"-"
    Tiles [⟨⟨0, 1⟩, true⟩, ⟨⟨1, 2⟩, false⟩, ⟨⟨2, 3⟩, true⟩, ⟨⟨3, 6⟩, false⟩, ⟨⟨6, 7⟩, true⟩] 0 7
    ∧ p ns.normalized = .ok (.ok [⟨⟨0, 1⟩, true⟩, ⟨⟨1, 2⟩, false⟩, ⟨⟨2, 3⟩, true⟩, ⟨⟨3, 6⟩, false⟩,
        ⟨⟨6, 7⟩, true⟩])
    ∧ (ns.replace p b!"€x") = .ok (.ok ⟨b!"-a-bé-", b!"€xa€xbé€x",
        [⟨0, 1⟩, ⟨0, 1⟩, ⟨0, 1⟩, ⟨0, 1⟩, ⟨1, 2⟩, ⟨2, 3⟩, ⟨2, 3⟩, ⟨2, 3⟩, ⟨2, 3⟩, ⟨3, 4⟩, ⟨4, 6⟩, ⟨4, 6⟩,
          ⟨6, 7⟩, ⟨6, 7⟩, ⟨6, 7⟩, ⟨6, 7⟩], 0⟩) := by decide +kernel

end Verif
