import Verif.Props.JoinBytes
import Verif.Props.AppendBytes

/-! C130: Replace on any bytes never panics, and its alignments. -/

set_option autoImplicit false

namespace Verif

/-- The alignments after the runes `d` have been replaced by `n` bytes each: these are all aligned as the first byte of the rune was,
everything else as before. -/
def replaceAligns (d : Rune) (n : Nat) : List Chunk → List Align → List Align
  | [], als => als
  | c :: cs, als =>
    (if c.rune == d then List.replicate n (als.headD ⟨0, 0⟩) else als.take c.bytes.length)
      ++ replaceAligns d n cs (als.drop c.bytes.length)

theorem replaceAligns_none {d : Rune} {n : Nat} : ∀ {g : List Chunk} (_ : ∀ c ∈ g, (c.rune == d) = false) (rest : List Chunk)
    (als : List Align), replaceAligns d n (g ++ rest) als
      = als.take (textOf g).length ++ replaceAligns d n rest (als.drop (textOf g).length) := by
  intro g
  induction g with
  | nil => intro _ rest als; simp [textOf]
  | cons c g ih =>
    intro h rest als
    have h1 := h c (by simp)
    rw [List.cons_append, replaceAligns, ih fun x hx => h x (by simp [hx])]
    simp only [h1, Bool.false_eq_true, if_false]
    rw [textOf_cons, List.length_append, ← List.append_assoc, List.drop_drop, List.take_add]

/-- One replacement never panics. -/
theorem replace_one_total {ns : NS} {content : Str} (hc : ValidUtf8 content) {pre post : Str} {d : Rune} (hd : ValidRune d)
    {o a b : Int} (ht : ns.normalized = pre ++ encodeRune d ++ post) {A B : List Align} (hA : ns.alignments = A ++ B)
    (hl : A.length = pre.length) (hB : (encodeRune d).length ≤ B.length)
    (ha : a + o = pre.length) (hb : b + o = (pre ++ encodeRune d).length) :
    NS.replaceStep content (ns, o) ⟨⟨a, b⟩, true⟩
      = .ok ({ ns with normalized := pre ++ content ++ post
                       alignments := A ++ List.replicate content.length (B.headD ⟨0, 0⟩) ++ B.drop (encodeRune d).length },
          o + ((content.length : Int) - (b - a))) := by
  have hpos := encodeRune_length_pos d
  rw [List.length_append] at hb
  push_cast at hb
  have hb' : ¬ b + o < 0 := by omega
  have ha' : ¬ a + o < 0 := by omega
  have hlen : ns.normalized.length = pre.length + (encodeRune d).length + post.length := by rw [ht]; simp; omega
  have halen : ns.alignments.length = pre.length + B.length := by rw [hA]; simp [hl]
  generalize hL : (encodeRune d).length = L at *
  have e1 : goSlice ns.normalized (a + o) (b + o) = .ok (encodeRune d) := by
    rw [ha, hb, goSlice_of (by omega) (by omega) (by omega), ht]
    rw [show ((pre.length : Int) + L - pre.length).toNat = L by omega] <;> simp [← hL]
  have hr1 : runesOf (encodeRune d) = [d] := by
    have := runesOf_encodeRunes [d] (by simpa using hd)
    simpa using this
  have e2 : goSlice (encodeRune d) 0 1 = .ok ((encodeRune d).take 1) := by
    rw [goSlice_of (by omega) (by omega) (by omega)]; simp
  have e3 : goSlice (encodeRune d) 1 ((encodeRune d).length : Int) = .ok ((encodeRune d).drop 1) := by
    rw [goSlice_of (by omega) (by omega) (by omega), List.take_of_length_le (by simp)]; simp
  have e4 : goSlice ns.alignments 0 (a + o) = .ok A := by
    rw [ha, goSlice_of (by omega) (by omega) (by omega), hA]; simp [← hl]
  have e5 : goSlice ns.alignments (b + o) (ns.alignments.length : Int) = .ok (B.drop L) := by
    rw [hb, goSlice_of (by omega) (by omega) (by omega), List.take_of_length_le (by simp; omega), hA]
    rw [show ((pre.length : Int) + (L : Nat)).toNat = A.length + L by omega]
    simp
  have e6 : goSlice ns.normalized 0 (a + o) = .ok pre := by
    rw [ha, goSlice_of (by omega) (by omega) (by omega), ht]; simp
  have e7 : goSlice ns.normalized (b + o) (ns.normalized.length : Int) = .ok post := by
    rw [hb, goSlice_of (by omega) (by omega) (by omega), List.take_of_length_le (by simp; omega), ht]
    rw [show ((pre.length : Int) + (L : Nat)).toNat = (pre ++ encodeRune d).length by simp [hL]; omega]
    simp
  have hal : ns.alignments[pre.length + 1 - 1]? = some (B.headD ⟨0, 0⟩) := by
    rw [hA, Nat.add_sub_cancel, ← hl]
    cases B with
    | nil => simp at hB; omega
    | cons x B => simp
  have hrs : encodeRunes (runesOf content) = content := hc.runes
  have hloop : goFor ((runesOf content).map fun r => (⟨r, 1⟩ : RuneChange))
      ⟨(((encodeRune d).take 1).length : Int) + (a + o), runesOf ((encodeRune d).drop 1), [], []⟩ (transformStep ns.alignments)
      = .ok ⟨((pre.length + 1 : Nat) : Int), runesOf ((encodeRune d).drop 1),
          List.replicate content.length (B.headD ⟨0, 0⟩), content⟩ := by
    have h1 : (((encodeRune d).take 1).length : Int) + (a + o) = ((pre.length + 1 : Nat) : Int) := by
      rw [List.length_take, hL, ha]; omega
    rw [h1, appended_loop _ _ _ (by omega), hal]
    cases hrc : runesOf content with
    | nil =>
      rw [hrc] at hrs
      simp only [encodeRunes_nil] at hrs
      simp [← hrs]
    | cons r rs =>
      rw [hrc] at hrs
      simp [hrs]
  simp only [NS.replaceStep, Bool.not_true, Bool.false_eq_true, if_false, ha', hb', e1, GoM.bind_ok, hr1, List.length_cons,
    List.length_nil, NS.transformRange, NS.coerceRangeToNormalized, NS.transformNormalized, Nat.zero_add, Int.natCast_one, e2, e3,
    hloop, e4, e5, e6, e7, GoM.pure_eq]

theorem replace_chunks_total {d : Rune} (hd : d ≠ 0xFFFD) {content : Str} (hc : ValidUtf8 content) :
    ∀ (t : List (Bool × List Chunk)) (i : Nat) (done : Str) (A B : List Align) (ns : NS),
    (∀ x ∈ t, GoodChunks x.2 ∧ (x.1 = true → ∃ c, x.2 = [c] ∧ c.rune = d ∧ ValidRune d) ∧ (x.1 = false → ∀ c ∈ x.2, (c.rune == d) = false)) →
    ns.normalized = done ++ textOf (t.flatMap (·.2)) → ns.alignments = A ++ B → A.length = done.length →
    (textOf (t.flatMap (·.2))).length ≤ B.length →
    ∃ o, goFor (chunkCaps i t) (ns, (done.length : Int) - i) (NS.replaceStep content)
      = .ok ({ ns with normalized := done ++ replaceRune d content (t.flatMap (·.2))
                       alignments := A ++ replaceAligns d content.length (t.flatMap (·.2)) B }, o) := by
  intro t
  induction t with
  | nil =>
    intro i done A B ns _ hn hA _ _
    refine ⟨(done.length : Int) - i, ?_⟩
    simp only [chunkCaps, goFor, List.flatMap_nil, replaceRune, replaceAligns]
    rw [← hA]
    simp only [List.flatMap_nil, textOf] at hn
    rw [← hn]
  | cons x t ih =>
    obtain ⟨m, g⟩ := x
    intro i done A B ns hx hn hA hAl hBl
    obtain ⟨g1, g2, g3⟩ := hx (m, g) (by simp)
    have hrest := fun y (hy : y ∈ t) => hx y (by simp [hy])
    have hn' : ns.normalized = done ++ textOf g ++ textOf (t.flatMap (·.2)) := by
      rw [hn]; simp [textOf]
    have hBl' : (textOf g).length + (textOf (t.flatMap (·.2))).length ≤ B.length := by
      have : textOf (((m, g) :: t).flatMap (·.2)) = textOf g ++ textOf (t.flatMap (·.2)) := by simp [textOf]
      rw [this, List.length_append] at hBl
      exact hBl
    rw [List.flatMap_cons, replaceRune_append]
    cases m with
    | false =>
      rw [replaceRune_none (g3 rfl), replaceAligns_none (g3 rfl)]
      have skip : ∀ (e : Int) (o : Int), NS.replaceStep content (ns, o) ⟨⟨(i : Int), e⟩, false⟩ = .ok (ns, o) := by
        intro e o; simp [NS.replaceStep]
      obtain ⟨o, ho⟩ := ih (i + (textOf g).length) (done ++ textOf g) (A ++ B.take (textOf g).length) (B.drop (textOf g).length) ns
        hrest hn' (by rw [List.append_assoc, List.take_append_drop]; exact hA)
        (by simp [hAl]; omega) (by rw [List.length_drop]; omega)
      refine ⟨o, ?_⟩
      rw [show (((done ++ textOf g).length : Int) - ((i + (textOf g).length : Nat) : Int)) = (done.length : Int) - i by
        rw [List.length_append]; push_cast; omega] at ho
      cases t with
      | nil =>
        simp only [chunkCaps, goFor_cons, skip, GoM.bind_ok]
        rw [show (goFor [] (ns, (done.length : Int) - i) (NS.replaceStep content)) = _ from ho]
        simp
      | cons y t =>
        simp only [chunkCaps, goFor_cons, skip, GoM.bind_ok]
        have hcast : ((i : Int) + (textOf g).length) = ((i + (textOf g).length : Nat) : Int) := by push_cast; rfl
        first
          | rw [hcast, ho]
          | rw [ho]
        simp
    | true =>
      obtain ⟨c, rfl, hcd, hv⟩ := g2 rfl
      have hbytes : c.bytes = encodeRune c.rune := by
        rcases (g1 c (by simp)).2 with h | ⟨-, h⟩
        · exact h
        · exact absurd (hcd.symm.trans h) hd
      have htx : textOf [c] = encodeRune d := by simp [textOf, hbytes, hcd]
      have hseen : seen [c] = (textOf [c]).length := by
        have := seen_append [] c
        rw [List.nil_append] at this
        rw [this, htx, hcd]; simp [runeLen, textOf]
      have hrep : replaceRune d content [c] = content := by simp [replaceRune, hcd]
      have hral : replaceAligns d content.length ([c] ++ t.flatMap (·.2)) B
          = List.replicate content.length (B.headD ⟨0, 0⟩)
            ++ replaceAligns d content.length (t.flatMap (·.2)) (B.drop (encodeRune d).length) := by
        simp [replaceAligns, hcd, hbytes]
      rw [hrep, hral]
      rw [htx] at hn' hBl'
      have step := replace_one_total (o := (done.length : Int) - i) (a := i) (b := (i : Int) + (textOf [c]).length) hc hv hn' hA hAl
        (by omega) (by omega) (by rw [htx, List.length_append]; push_cast; omega)
      obtain ⟨o, ho⟩ := ih (i + (textOf [c]).length) (done ++ content) (A ++ List.replicate content.length (B.headD ⟨0, 0⟩))
        (B.drop (encodeRune d).length)
        { ns with normalized := done ++ content ++ textOf (t.flatMap (·.2))
                  alignments := A ++ List.replicate content.length (B.headD ⟨0, 0⟩) ++ B.drop (encodeRune d).length }
        hrest rfl rfl (by simp [hAl]) (by rw [List.length_drop]; omega)
      refine ⟨o, ?_⟩
      have hoff : (done.length : Int) - i + ((content.length : Int) - ((i : Int) + (textOf [c]).length - i))
          = ((done ++ content).length : Int) - ((i + (textOf [c]).length : Nat) : Int) := by
        rw [List.length_append]; push_cast; omega
      rw [hoff] at step
      cases t with
      | nil =>
        simp only [chunkCaps, hseen, goFor_cons, step, GoM.bind_ok]
        rw [show goFor [] _ (NS.replaceStep content) = _ from ho]
        simp
      | cons y t =>
        simp only [chunkCaps, goFor_cons, step, GoM.bind_ok]
        have hcast : ((i : Int) + (textOf [c]).length) = ((i + (textOf [c]).length : Nat) : Int) := by push_cast; rfl
        first
          | rw [hcast, ho]
          | rw [ho]
        simp

/-- **C130, Replace.** Any bytes, any state with as many alignments as bytes or more, any rune but U+FFFD, any valid content: `Replace`
returns; the content stands for every such rune, aligned as its first byte was, and everything else is as it was. -/
theorem C130_replace {ns : NS} (hal : ns.get.length ≤ ns.alignments.length) {d : Rune} (hd : d ≠ 0xFFFD) {content : Str}
    (hc : ValidUtf8 content) :
    ns.replace (fromRune d) content = .ok (.ok { ns with
      normalized := replaceRune d content (chunks ns.get)
      alignments := replaceAligns d content.length (chunks ns.get) ns.alignments }) := by
  have hf : (fun other : Rune => other == d) 0xFFFD = false := by simpa using fun e => hd e.symm
  have hp : fromRune d ns.normalized = .ok (.ok (funcFindMatches (fun other => other == d) ns.get)) := rfl
  simp only [NS.replace, hp, GoM.bind_ok]
  rw [funcFindMatches_chunks _ hf]
  by_cases h0 : ns.get = []
  · rw [if_pos h0, h0]
    have h0' : ns.normalized = [] := h0
    simp only [emptyCaptures, goFor_cons, goFor]
    simp [NS.replaceStep, replaceRune, replaceAligns, chunks, chunksAux, ← h0']
  · rw [if_neg h0]
    obtain ⟨o, ho⟩ := replace_chunks_total hd hc (chunkSegs (fun other => other == d) (chunks ns.get)) 0 [] [] ns.alignments ns
      (by
        intro x hx
        obtain ⟨k1, k2⟩ := chunkSegs_kinds _ _ x hx
        exact ⟨goodSegs _ _ x hx, fun hm => by
          obtain ⟨c, e1, e2⟩ := k1 hm
          have hcd : c.rune = d := by simpa using e2
          have hm : c ∈ chunks ns.get := by
            rw [← chunkSegs_flatten (fun other => other == d) (chunks ns.get)]
            exact List.mem_flatMap.2 ⟨x, hx, by rw [e1]; simp⟩
          exact ⟨c, e1, hcd, hcd ▸ ((reads_chunks ns.get).chunk c hm).2.1⟩, k2⟩)
      (by rw [chunkSegs_flatten, textOf_chunks]; rfl) rfl rfl
      (by rw [chunkSegs_flatten, textOf_chunks]; exact hal)
    rw [chunkSegs_flatten] at ho
    simp only [List.length_nil, Int.natCast_zero, Int.sub_zero, List.nil_append] at ho
    rw [ho]
    rfl

/-- Bad bytes on both sides of what is replaced. -/
example : (NS.fromString [0xFF, 0x20, 0xC3]).replace (fromRune 32) b!"__" >>= (fun r => pure (r.toOption.map fun n => (n.get, n.alignments.length)))
    = .ok (some ([0xFF, 0x5F, 0x5F, 0xC3], 8)) := by decide +kernel

end Verif
