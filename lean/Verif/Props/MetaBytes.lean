import Verif.Props.SplitBytes
import Verif.Props.ReplaceBytes

/-! C131: the meta-space pre-tokenizer on any bytes. -/

set_option autoImplicit false

namespace Verif

/-- What the meta-space pre-tokenizer makes of a chunk. -/
def metaChunk (R : Rune) (c : Chunk) : Chunk := if c.rune == 32 then ⟨encodeRune R, R⟩ else c

theorem metaChunk_text (R : Rune) (cs : List Chunk) : replaceRune 32 (encodeRune R) cs = textOf (cs.map (metaChunk R)) := by
  induction cs with
  | nil => rfl
  | cons c cs ih =>
    rw [List.map_cons, textOf_cons, ← ih]
    show (if c.rune == 32 then encodeRune R else c.bytes) ++ _ = _
    unfold metaChunk
    split <;> rfl

/-- Continuation bytes in front are not touched. -/
theorem metaChunk_conts (R : Rune) : ∀ (cs : List Chunk) (k t' : Str), (∀ x ∈ k, isCont x = true) →
    textOf (cs.map (metaChunk R)) = k ++ t' → ∃ t'', textOf cs = k ++ t'' := by
  intro cs
  induction cs with
  | nil =>
    intro k t' _ h
    rw [List.map_nil, textOf_nil] at h
    have : k = [] := (List.append_eq_nil_iff.1 h.symm).1
    exact ⟨[], by rw [this]; rfl⟩
  | cons c cs ih =>
    intro k t' hk h
    by_cases hc : (c.rune == 32) = true
    · obtain ⟨b, u, e1, e2, -⟩ := encodeRune_bytes R
      rw [List.map_cons, textOf_cons] at h
      simp only [metaChunk, hc, if_true] at h
      rw [e1] at h
      cases k with
      | nil => exact ⟨_, rfl⟩
      | cons y k =>
        simp only [List.cons_append, List.cons.injEq] at h
        have := hk y (by simp)
        rw [← h.1, e2] at this; cases this
    · rw [List.map_cons, textOf_cons] at h
      simp only [metaChunk, hc, Bool.false_eq_true, if_false] at h
      rw [textOf_cons]
      rcases List.append_eq_append_iff.1 h with ⟨m, h1, h2⟩ | ⟨m, h1, h2⟩
      · obtain ⟨t'', e⟩ := ih m t' (fun x hx => hk x (by rw [h1]; simp [hx])) h2
        exact ⟨t'', by rw [e, h1]; simp⟩
      · exact ⟨m ++ textOf cs, by rw [h1]; simp⟩

theorem reads_metaChunk {R : Rune} (hR : ValidRune R) {s : Str} {cs : List Chunk} (h : Reads s cs) :
    Reads (textOf (cs.map (metaChunk R))) (cs.map (metaChunk R)) := by
  induction h with
  | nil => exact .nil
  | @rune r t cs hr h ih =>
    rw [List.map_cons, textOf_cons]
    by_cases h32 : (r == 32) = true
    · simp only [metaChunk, h32, if_true]
      exact .rune hR ih
    · simp only [metaChunk, h32, Bool.false_eq_true, if_false]
      exact .rune hr ih
  | @bad b t cs hb h ih =>
    rw [List.map_cons, textOf_cons]
    have : (((0xFFFD : Rune)) == 32) = false := by decide
    simp only [metaChunk, this, Bool.false_eq_true, if_false, List.singleton_append]
    refine .bad ?_ ih
    intro r t' hr e
    obtain ⟨x, k, e1, -, e3⟩ := encodeRune_bytes r
    rw [e1, List.cons_append, List.cons.injEq] at e
    obtain ⟨rfl, e⟩ := e
    obtain ⟨t'', e4⟩ := metaChunk_conts R cs k t' e3 e
    refine hb r t'' hr ?_
    rw [← h.text_eq, e4, e1]
    rfl

theorem chunks_metaChunk {R : Rune} (hR : ValidRune R) (s : Str) :
    chunks (replaceRune 32 (encodeRune R) (chunks s)) = (chunks s).map (metaChunk R) := by
  rw [metaChunk_text]
  exact (reads_metaChunk hR (reads_chunks s)).chunks_eq

theorem metaChunk_bad (R : Rune) {c : Chunk}
    (hg : c.bytes ≠ [] ∧ (c.bytes = encodeRune c.rune ∨ (c.bytes.length = 1 ∧ c.rune = 0xFFFD))) : (metaChunk R c).isBad = c.isBad := by
  unfold metaChunk
  split
  · rename_i h
    have h : c.rune = 32 := by simpa using h
    rcases hg.2 with e | e
    · simp [Chunk.isBad, e]
    · rw [h] at e; exact absurd e.2 (by decide)
  · rfl

/-! ## The alignments -/

theorem space_one {c : Chunk} (hg : c.bytes ≠ [] ∧ (c.bytes = encodeRune c.rune ∨ (c.bytes.length = 1 ∧ c.rune = 0xFFFD)))
    (h : (c.rune == 32) = true) : c.bytes.length = 1 := by
  have h : c.rune = 32 := by simpa using h
  rcases hg.2 with e | e
  · rw [e, h]; decide +kernel
  · exact e.1

/-- Every alignment is one of those before, in the same chunk. -/
theorem replaceAligns_get {R : Rune} : ∀ {cs : List Chunk} {als : List Align} (_ : GoodChunks cs) (_ : (textOf cs).length ≤ als.length) {k : Nat}
    (_ : k < (textOf (cs.map (metaChunk R))).length), ∃ p c u i j, cs = p ++ c :: u
      ∧ k = (textOf (p.map (metaChunk R))).length + j ∧ j < (metaChunk R c).bytes.length ∧ i < c.bytes.length
      ∧ (j + 1 = (metaChunk R c).bytes.length → i + 1 = c.bytes.length)
      ∧ (replaceAligns 32 (encodeRune R).length cs als)[k]? = als[(textOf p).length + i]? := by
  intro cs
  induction cs with
  | nil => intro als _ _ k h; simp at h
  | cons c cs ih =>
    intro als hg hl k hk
    have hg' : GoodChunks cs := fun x hx => hg x (by simp [hx])
    have hc := hg c (by simp)
    rw [textOf_cons, List.length_append] at hl
    have hcp := List.length_pos_iff.2 hc.1
    have hfst : (if c.rune == 32 then List.replicate (encodeRune R).length (als.headD ⟨0, 0⟩) else als.take c.bytes.length).length
        = (metaChunk R c).bytes.length := by
      unfold metaChunk
      split
      · simp
      · simp; omega
    by_cases hlt : k < (metaChunk R c).bytes.length
    · rw [replaceAligns, List.getElem?_append_left (by rw [hfst]; exact hlt)]
      by_cases h32 : (c.rune == 32) = true
      · have h1 := space_one hc h32
        refine ⟨[], c, cs, 0, k, rfl, by simp, hlt, by omega, fun _ => by omega, ?_⟩
        simp only [h32, if_true]
        simp only [metaChunk, h32, if_true] at hlt
        rw [List.getElem?_replicate, if_pos hlt]
        cases als with
        | nil => rw [List.length_nil] at hl; omega
        | cons a als => simp
      · simp only [h32, Bool.false_eq_true, if_false]
        simp only [metaChunk, h32, Bool.false_eq_true, if_false] at hlt
        refine ⟨[], c, cs, k, k, rfl, by simp, by simpa [metaChunk, h32] using hlt, hlt, ?_, ?_⟩
        · simp [metaChunk, h32]
        · simp [hlt]
    · rw [List.map_cons, textOf_cons, List.length_append] at hk
      obtain ⟨p, d, u, i, j, e1, e2, e3, e4, e5, e6⟩ := ih (als := als.drop c.bytes.length) hg' (by simp; omega)
        (k := k - (metaChunk R c).bytes.length) (by omega)
      refine ⟨c :: p, d, u, i, j, by rw [e1]; rfl, ?_, e3, e4, e5, ?_⟩
      · simp; omega
      · rw [replaceAligns, List.getElem?_append_right (by rw [hfst]; omega), hfst, e6, List.getElem?_drop]
        simp [Nat.add_assoc]

theorem replaceAligns_mem {d : Rune} {n : Nat} : ∀ {cs : List Chunk} {als : List Align} (_ : GoodChunks cs)
    (_ : (textOf cs).length ≤ als.length), ∀ x ∈ replaceAligns d n cs als, x ∈ als := by
  intro cs
  induction cs with
  | nil => intro als _ _ x hx; exact hx
  | cons c cs ih =>
    intro als hg hl x hx
    have hcp := List.length_pos_iff.2 (hg c (by simp)).1
    rw [textOf_cons, List.length_append] at hl
    rw [replaceAligns, List.mem_append] at hx
    rcases hx with hx | hx
    · split at hx
      · rw [List.eq_of_mem_replicate hx]
        cases als with
        | nil => rw [List.length_nil] at hl; omega
        | cons a als => simp
      · exact List.mem_of_mem_take hx
    · exact List.mem_of_mem_drop (ih (fun y hy => hg y (by simp [hy])) (by simp; omega) x hx)

theorem replaceAligns_mono {d : Rune} {n : Nat} {r : Align → Align → Prop} (hr : ∀ x, r x x) : ∀ {cs : List Chunk} {als : List Align}
    (_ : GoodChunks cs) (_ : (textOf cs).length ≤ als.length), als.Pairwise r → (replaceAligns d n cs als).Pairwise r := by
  intro cs
  induction cs with
  | nil => intro als _ _ h; exact h
  | cons c cs ih =>
    intro als hg hl h
    have hcp := List.length_pos_iff.2 (hg c (by simp)).1
    have hg' : GoodChunks cs := fun y hy => hg y (by simp [hy])
    rw [textOf_cons, List.length_append] at hl
    have hl' : (textOf cs).length ≤ (als.drop c.bytes.length).length := by simp; omega
    have hdrop : (als.drop c.bytes.length).Pairwise r := h.sublist (List.drop_sublist _ _)
    rw [replaceAligns, List.pairwise_append]
    have hsplit : (als.take c.bytes.length ++ als.drop c.bytes.length).Pairwise r := by rwa [List.take_append_drop]
    rw [List.pairwise_append] at hsplit
    refine ⟨?_, ih hg' hl' hdrop, ?_⟩
    · split
      · rw [List.pairwise_replicate]; exact .inr (hr _)
      · exact hsplit.1
    · intro x hx y hy
      have hy := replaceAligns_mem hg' hl' y hy
      refine hsplit.2.2 x ?_ y hy
      split at hx
      · rw [List.eq_of_mem_replicate hx]
        cases als with
        | nil => rw [List.length_nil] at hl; omega
        | cons a als =>
          cases hn : c.bytes.length with
          | zero => omega
          | succ m => simp
      · exact hx

theorem replaceAligns_length {R : Rune} : ∀ {cs : List Chunk} {als : List Align} (_ : GoodChunks cs) (_ : (textOf cs).length ≤ als.length),
    (textOf (cs.map (metaChunk R))).length ≤ (replaceAligns 32 (encodeRune R).length cs als).length := by
  intro cs
  induction cs with
  | nil => intro als _ _; simp
  | cons c cs ih =>
    intro als hg hl
    rw [textOf_cons, List.length_append] at hl
    have := ih (als := als.drop c.bytes.length) (fun y hy => hg y (by simp [hy])) (by simp; omega)
    rw [List.map_cons, textOf_cons, List.length_append, replaceAligns, List.length_append]
    by_cases h32 : (c.rune == 32) = true
    · have e : metaChunk R c = ⟨encodeRune R, R⟩ := by simp [metaChunk, h32]
      rw [e, if_pos h32]
      simp; exact this
    · have e : metaChunk R c = c := by simp [metaChunk, h32]
      rw [e, if_neg h32]
      simp; omega

/-! ## What stays as it was -/

/-- The state after the spaces have been replaced. -/
def metaState (R : Rune) (ns : NS) : NS := { ns with
  normalized := replaceRune 32 (encodeRune R) (chunks ns.get)
  alignments := replaceAligns 32 (encodeRune R).length (chunks ns.get) ns.alignments }

/-- Replacing the spaces keeps the shape of the state. -/
theorem metaState_keeps {ns ns2 : NS} (ht : Tidy ns) (hT : Tail ns) (hne : ns.get ≠ []) {R : Rune} (hR : ValidRune R)
    (h : ns.replace (fromRune 32) (encodeRune R) = .ok (.ok ns2)) :
    chunks ns2.get = (chunks ns.get).map (metaChunk R) ∧ Tidy ns2 ∧ Tail ns2 ∧ ns2.get ≠ []
      ∧ (Over ns2 (ns2.get.length - 1) ↔ Over ns (ns.get.length - 1)) := by
  have hl : ns.get.length ≤ ns.alignments.length := ht.len
  have hv : ValidUtf8 (encodeRune R) := by
    have := validUtf8_encodeRunes [R]
    simpa using this
  rw [C130_replace hl (by decide) hv] at h
  simp only [GoM.ok.injEq, Except.ok.injEq] at h
  have h : metaState R ns = ns2 := h
  subst h
  have good := goodChunks ns.get
  have hlt : (textOf (chunks ns.get)).length ≤ ns.alignments.length := by rw [textOf_chunks]; exact hl
  have hget : (metaState R ns).get
      = textOf ((chunks ns.get).map (metaChunk R)) := metaChunk_text R _
  have hpos : ∀ l : List Chunk, l ≠ [] → (∀ c ∈ l, c ∈ chunks ns.get) → 0 < (textOf (l.map (metaChunk R))).length := by
    intro l h1 h2
    cases l with
    | nil => exact absurd rfl h1
    | cons c l =>
      have h3 := List.length_pos_iff.2 (good c (h2 c (by simp))).1
      have h4 := encodeRune_length_pos R
      rw [List.map_cons, textOf_cons, List.length_append]
      unfold metaChunk
      split
      · simp only; omega
      · omega
  have hcne : chunks ns.get ≠ [] := by
    intro h
    have := textOf_chunks ns.get
    rw [h] at this; exact hne this.symm
  have hne2 := hpos (chunks ns.get) hcne fun c hc => hc
  have hch : chunks (textOf ((chunks ns.get).map (metaChunk R))) = (chunks ns.get).map (metaChunk R) :=
    (reads_metaChunk hR (reads_chunks ns.get)).chunks_eq
  -- each byte has the alignment of a byte of the same chunk
  have corr : ∀ k, k < (textOf ((chunks ns.get).map (metaChunk R))).length → ∃ k', k' < ns.get.length
      ∧ (Over (metaState R ns) k ↔ Over ns k')
      ∧ (k + 1 = (textOf ((chunks ns.get).map (metaChunk R))).length → k' + 1 = ns.get.length)
      ∧ ∀ P u, chunks ns.get = P ++ u → (textOf P).length ≤ k' → (textOf (P.map (metaChunk R))).length ≤ k := by
    intro k hk
    obtain ⟨p, c, u, i, j, e1, e2, e3, e4, e5, e6⟩ := replaceAligns_get (R := R) good hlt hk
    have hlen : ns.get.length = (textOf p).length + c.bytes.length + (textOf u).length := by
      rw [← textOf_chunks ns.get, e1]; simp; omega
    refine ⟨(textOf p).length + i, by omega, ?_, ?_, ?_⟩
    · unfold Over
      rw [show (metaState R ns).alignments[k]? = ns.alignments[(textOf p).length + i]? from e6]
      rfl
    · intro hlast
      rw [e1, List.map_append, List.map_cons, textOf_append, textOf_cons, List.length_append, List.length_append] at hlast
      have hu : u = [] := by
        apply Classical.byContradiction
        intro hu
        have := hpos u hu fun c hc => by rw [e1]; simp [hc]
        omega
      subst hu
      simp at hlast hlen
      have := e5 (by omega)
      omega
    · intro P v hP hle
      rw [e1] at hP
      rcases List.append_eq_append_iff.1 hP with ⟨m, h1, h2⟩ | ⟨m, h1, h2⟩
      · cases m with
        | nil =>
          rw [List.append_nil] at h1
          rw [h1]; omega
        | cons c' m =>
          simp only [List.cons_append, List.cons.injEq] at h2
          rw [h1, ← h2.1] at hle
          simp at hle; omega
      · rw [h1, List.map_append, textOf_append, List.length_append] at e2
        omega
  refine ⟨?_, ?_, ?_, ?_, ?_⟩
  · rw [hget, hch]
  · refine ⟨?_, ?_, ?_⟩
    · show (replaceRune 32 (encodeRune R) (chunks ns.get)).length ≤ _
      rw [metaChunk_text]
      exact replaceAligns_length good hlt
    · intro x hx
      exact ht.nonneg x (replaceAligns_mem good hlt x hx)
    · exact replaceAligns_mono (fun x => Int.le_refl _) good hlt ht.mono
  · refine ⟨?_, ?_⟩
    · intro k hk ho
      rw [hget] at hk
      obtain ⟨k', q1, q2, q3, q4⟩ := corr k hk
      obtain ⟨P, c, u, k1, k2, k3, k4, k5⟩ := hT.first k' q1 (q2.1 ho)
      refine ⟨P.map (metaChunk R), metaChunk R c, u.map (metaChunk R), ?_, ?_, ?_, ?_, ?_⟩
      · rw [hget, hch, k1]; simp
      · intro d hd
        obtain ⟨d', hd', rfl⟩ := List.mem_map.1 hd
        rw [metaChunk_bad R (good d' (by rw [k1]; simp [hd']))]
        exact k2 d' hd'
      · rw [metaChunk_bad R (good c (by rw [k1]; simp))]; exact k3
      · exact q4 P _ k1 k4
      · simpa using k5
    · intro k hk ho
      rw [hget] at hk ⊢
      obtain ⟨k', q1, q2, -, -⟩ := corr k hk
      obtain ⟨l', r1, r2, r3, -⟩ := corr ((textOf ((chunks ns.get).map (metaChunk R))).length - 1) (by omega)
      rw [r2]
      have := r3 (by omega)
      rw [show l' = ns.get.length - 1 by omega]
      exact hT.last k' q1 (q2.1 ho)
  · rw [hget]
    exact List.length_pos_iff.1 hne2
  · rw [hget]
    obtain ⟨l', r1, r2, r3, -⟩ := corr ((textOf ((chunks ns.get).map (metaChunk R))).length - 1) (by omega)
    rw [r2]
    have := r3 (by omega)
    rw [show l' = ns.get.length - 1 by omega]

theorem chunks_eq_of_valid_one {R : Rune} (hR : ValidRune R) : chunks (encodeRune R) = [⟨encodeRune R, R⟩] := by
  have := (Reads.rune hR Reads.nil).chunks_eq
  rwa [List.append_nil] at this

/-- The state after the mark has been put in front of a fresh string that does not start with a bad byte. -/
theorem prepend_fresh {R : Rune} (hR : ValidRune R) {s : Str} {c : Chunk} {cs : List Chunk} (hc : chunks s = c :: cs)
    (hb : c.isBad = false) : ∃ ns1, (NS.fromString s).prepend (encodeRune R) = .ok ns1
      ∧ ns1.get = encodeRune R ++ s ∧ chunks ns1.get = ⟨encodeRune R, R⟩ :: chunks s ∧ Tidy ns1 ∧ Tail ns1
      ∧ (Over ns1 (ns1.get.length - 1) ↔ Over (NS.fromString s) (s.length - 1)) := by
  have hbytes : c.bytes = encodeRune c.rune := by simpa [Chunk.isBad] using hb
  have htx : s = encodeRune c.rune ++ textOf cs := by
    rw [← textOf_chunks s, hc, textOf_cons, hbytes]
  have ht := tidy_fromString s
  have hT := tail_fromString s
  have hlen : s.length = (encodeRune c.rune).length + (textOf cs).length := by rw [htx]; simp
  have hcp := encodeRune_length_pos c.rune
  have hRp := encodeRune_length_pos R
  have hal : (NS.fromString s).alignments
      = List.replicate (encodeRune c.rune).length ⟨0, ((encodeRune c.rune).length : Int)⟩
        ++ chunkAligns (encodeRune c.rune).length cs := by
    rw [fromString_aligns, hc, chunkAligns_cons, hbytes]
    simp [runeLen]
  obtain ⟨a, b, h1, h2, h3⟩ := (C129_prepend (ns := NS.fromString s) ht.len (c := c) (cs := cs) hc (encodeRune R)).2 (by
    show _ ≤ s.length; omega)
  have ha : a = ⟨0, ((encodeRune c.rune).length : Int)⟩ := by
    rw [hal, List.getElem?_append_left (by simpa using hcp), List.getElem?_replicate, if_pos hcp] at h1
    exact (Option.some.inj h1).symm
  have hb2 : b = ⟨0, ((encodeRune c.rune).length : Int)⟩ := by
    rw [hal, List.getElem?_append_left (by simp; omega), List.getElem?_replicate, if_pos (by omega)] at h2
    exact (Option.some.inj h2).symm
  have hrs : runesOf (encodeRune R) = [R] := by
    have := runesOf_encodeRunes (rs := [R]) (by simpa using hR)
    simpa using this
  have hsan : sanitizeText (encodeRune R) = encodeRune R := by
    have := (chunks_eq_of_valid_one hR)
    simp [sanitizeText, this]
  have e : (NS.fromString s).prepend (encodeRune R) = .ok { NS.fromString s with
      normalized := encodeRune R ++ s
      alignments := List.replicate (encodeRune R).length ⟨0, ((encodeRune c.rune).length : Int)⟩ ++ (NS.fromString s).alignments } := by
    rw [h3, hsan, hrs, ha, hb2]
    congr 2
    · show encodeRune R ++ encodeRune c.rune ++ s.drop _ = _
      conv => lhs; rw [htx]
      rw [List.drop_left, List.append_assoc, ← htx]
    · rw [hal]
      simp [-List.replicate_append_replicate]
  refine ⟨_, e, rfl, ?_, ?_, ?_, ?_⟩
  · exact (Reads.rune hR (reads_chunks s)).chunks_eq
  · refine ⟨?_, ?_, ?_⟩
    · have : s.length ≤ (NS.fromString s).alignments.length := ht.len
      simp; exact this
    · intro x hx
      rcases List.mem_append.1 hx with hx | hx
      · rw [List.eq_of_mem_replicate hx]; simp
      · exact ht.nonneg x hx
    · show List.Pairwise _ (_ ++ _)
      rw [List.pairwise_append]
      refine ⟨?_, ht.mono, ?_⟩
      · rw [List.pairwise_replicate]; exact .inr (Int.le_refl _)
      · intro x hx y hy
        rw [List.eq_of_mem_replicate hx]
        exact (ht.nonneg y hy).1
  all_goals
    have ov : ∀ k, Over { NS.fromString s with
        normalized := encodeRune R ++ s
        alignments := List.replicate (encodeRune R).length ⟨0, ((encodeRune c.rune).length : Int)⟩ ++ (NS.fromString s).alignments } k
        ↔ (encodeRune R).length ≤ k ∧ Over (NS.fromString s) (k - (encodeRune R).length) := by
      intro k
      unfold Over
      by_cases hk : k < (encodeRune R).length
      · have : (List.replicate (encodeRune R).length (⟨0, ((encodeRune c.rune).length : Int)⟩ : Align) ++ (NS.fromString s).alignments)[k]?
            = some ⟨0, ((encodeRune c.rune).length : Int)⟩ := by
          rw [List.getElem?_append_left (by simpa using hk), List.getElem?_replicate, if_pos hk]
        simp only [this]
        constructor
        · rintro ⟨al, h1, h2⟩
          simp only [Option.some.injEq] at h1
          subst h1
          have h2 : ((s.length : Nat) : Int) < ((encodeRune c.rune).length : Int) := h2
          omega
        · rintro ⟨h, -⟩; omega
      · have : (List.replicate (encodeRune R).length (⟨0, ((encodeRune c.rune).length : Int)⟩ : Align) ++ (NS.fromString s).alignments)[k]?
            = (NS.fromString s).alignments[k - (encodeRune R).length]? := by
          rw [List.getElem?_append_right (by simpa using Nat.le_of_not_lt hk)]
          simp
        simp only [this]
        exact ⟨fun h => ⟨by omega, h⟩, fun h => h.2⟩
  · refine ⟨?_, ?_⟩
    · intro k hk ho
      rw [ov] at ho
      have hk : k < (encodeRune R ++ s).length := hk
      rw [List.length_append] at hk
      obtain ⟨p, d, u, k1, k2, k3, k4, k5⟩ := hT.first _ (show k - (encodeRune R).length < s.length by omega) ho.2
      refine ⟨⟨encodeRune R, R⟩ :: p, d, u, ?_, ?_, k3, ?_, k5⟩
      · show chunks (encodeRune R ++ s) = _
        rw [(Reads.rune hR (reads_chunks s)).chunks_eq, show chunks s = _ from k1]; rfl
      · intro x hx
        rcases List.mem_cons.1 hx with rfl | hx
        · simp [Chunk.isBad]
        · exact k2 x hx
      · rw [textOf_cons, List.length_append]; simp only; omega
    · intro k hk ho
      rw [ov] at ho ⊢
      have hk : k < (encodeRune R ++ s).length := hk
      show _ ≤ (encodeRune R ++ s).length - 1 ∧ Over _ ((encodeRune R ++ s).length - 1 - _)
      rw [List.length_append] at hk ⊢
      have := hT.last _ (show k - (encodeRune R).length < s.length by omega) ho.2
      refine ⟨by omega, ?_⟩
      rw [show (encodeRune R).length + s.length - 1 - (encodeRune R).length = s.length - 1 by omega]
      exact this
  · rw [ov]
    show _ ≤ (encodeRune R ++ s).length - 1 ∧ Over _ ((encodeRune R ++ s).length - 1 - _) ↔ _
    rw [List.length_append, show (encodeRune R).length + s.length - 1 - (encodeRune R).length = s.length - 1 by omega]
    exact ⟨fun h => h.2, fun h => ⟨by omega, h⟩⟩

theorem endsBad_meta (R : Rune) {cs : List Chunk} (hg : GoodChunks cs) : EndsBad (cs.map (metaChunk R)) ↔ EndsBad cs := by
  constructor
  · rintro ⟨a, c, e, hb⟩
    obtain ⟨a', r, e1, -, e2⟩ := List.map_eq_append_iff.1 e
    match r, e2 with
    | [c'], e2 =>
      simp only [List.map_cons, List.map_nil, List.cons.injEq, and_true] at e2
      refine ⟨a', c', e1, ?_⟩
      rw [← metaChunk_bad R (hg c' (by rw [e1]; simp)), e2]
      exact hb
  · rintro ⟨a, c, e, hb⟩
    refine ⟨a.map (metaChunk R), metaChunk R c, by rw [e]; simp, ?_⟩
    rw [metaChunk_bad R (hg c (by rw [e]; simp))]
    exact hb

/-- The last two steps of the meta-space pre-tokenizer. -/
theorem metaSteps {R : Rune} (hR : ValidRune R) (hF : R ≠ 0xFFFD) {ns : NS} (ht : Tidy ns) (hT : Tail ns) (hne : ns.get ≠ []) :
    ∃ ns2, ns.replace (fromRune 32) (encodeRune R) = .ok (.ok ns2)
      ∧ (EndsBad (chunks ns.get) → ns2.split (fromRune R) .mergedWithNext = .ok (.error .badSplit))
      ∧ (¬ EndsBad (chunks ns.get) → Over ns (ns.get.length - 1) → ns2.split (fromRune R) .mergedWithNext = .panic)
      ∧ (¬ EndsBad (chunks ns.get) → ¬ Over ns (ns.get.length - 1) → ∃ ps, ns2.split (fromRune R) .mergedWithNext = .ok (.ok ps)) := by
  have hv : ValidUtf8 (encodeRune R) := by
    have := validUtf8_encodeRunes [R]
    simpa using this
  have h := C130_replace (ns := ns) ht.len (d := 32) (by decide) hv
  refine ⟨_, h, ?_⟩
  obtain ⟨h1, h2, h3, h4, h5⟩ := metaState_keeps ht hT hne hR h
  have out := split_tail h2 h3 (f := fun r => r == R) (by simpa using fun e => hF e.symm) (b := .mergedWithNext) (by decide) h4
  rw [h5, h1, endsBad_meta R (goodChunks ns.get)] at out
  have out' := out
  simp only [ne_eq, not_true_eq_false, false_and, false_or] at out'
  exact out'

/-- **C131, meta-space.** Any bytes, any mark but U+FFFD, with or without the mark put in front; if it is to be put in front, the text
must not start with a bad byte.  The meta-space pre-tokenizer reports an error exactly when the last byte is bad; it panics
exactly when the only bad byte is the last but one and ASCII follows; otherwise it succeeds. -/
theorem C131_metaSpace {R : Rune} (hR : ValidRune R) (hF : R ≠ 0xFFFD) {b : Bool} {s : Str}
    (hs : b = false ∨ (encodeRune R).isPrefixOf s = true ∨ ∀ c cs, chunks s = c :: cs → c.isBad = false) :
    ((∃ p, metaSpace R b (PTS.fromString s) = .ok (p, some .badSplit)) ↔ EndsBad (chunks s))
    ∧ (metaSpace R b (PTS.fromString s) = .panic ↔ BadBeforeLast s)
    ∧ ((∃ p, metaSpace R b (PTS.fromString s) = .ok (p, none)) ↔ ¬ BadBeforeLast s ∧ ¬ EndsBad (chunks s)) := by
  -- the function on the one split
  have pts : metaSpace R b (PTS.fromString s) = (metaSpaceSplitFunc R b 0 (NS.fromString s)).bind fun r => match r with
      | (ns', .error e) => .ok (⟨s, [⟨ns', none⟩]⟩, some e)
      | (ns', .ok items) => .ok (⟨s, items.filter fun it => !it.ns.isEmpty⟩, none) := by
    simp only [metaSpace, PTS.split, PTS.fromString, PTS.fromNormalizedString, PTS.splitLoop]
    cases metaSpaceSplitFunc R b 0 (NS.fromString s) with
    | panic => rfl
    | ok r =>
      obtain ⟨ns', r⟩ := r
      cases r with
      | error e => rfl
      | ok items => simp [GoM.bind, GoM.pure_eq, NS.getOriginal, NS.fromString]
  have steps : ∀ ns : NS, Tidy ns → Tail ns → ns.get ≠ [] → (EndsBad (chunks ns.get) ↔ EndsBad (chunks s)) →
      (Over ns (ns.get.length - 1) ↔ Over (NS.fromString s) (s.length - 1)) → s ≠ [] →
      metaSpaceSplitFunc R b 0 (NS.fromString s) = (do
        match ← ns.replace (fromRune 32) (encodeRune R) with
        | .error e => pure (ns, .error e)
        | .ok ns =>
          match ← ns.split (fromRune R) .mergedWithNext with
          | .error e => pure (ns, .error e)
          | .ok nss => pure (ns, .ok (splitsFromNormalizedStrings nss)) : GoM (NS × Except Err (List Piece))) →
      ((∃ p, metaSpace R b (PTS.fromString s) = .ok (p, some .badSplit)) ↔ EndsBad (chunks s))
      ∧ (metaSpace R b (PTS.fromString s) = .panic ↔ BadBeforeLast s)
      ∧ ((∃ p, metaSpace R b (PTS.fromString s) = .ok (p, none)) ↔ ¬ BadBeforeLast s ∧ ¬ EndsBad (chunks s)) := by
    intro ns ht hT hne he ho hs0 hfun
    obtain ⟨ns2, r1, r2, r3, r4⟩ := metaSteps hR hF ht hT hne
    rw [he, ho] at r3 r4
    rw [he] at r2
    rw [r1] at hfun
    simp only [GoM.bind_ok] at hfun
    rw [pts, hfun]
    by_cases hE : EndsBad (chunks s)
    · have hB : ¬ BadBeforeLast s := fun h => not_endsBad h hE
      rw [r2 hE]
      simp [GoM.bind, GoM.pure_eq, hE, hB]
    · have hol := over_last hs0 hE
      by_cases hB : BadBeforeLast s
      · rw [r3 hE (hol.2 hB)]
        simp [GoM.bind, hE, hB]
      · obtain ⟨ps, e⟩ := r4 hE (fun h => hB (hol.1 h))
        rw [e]
        simp [GoM.bind, GoM.pure_eq, hE, hB]
  by_cases h0 : s = []
  · subst h0
    have n2 : ¬ EndsBad (chunks []) := by
      rintro ⟨a, c, e, -⟩
      have := congrArg List.length e
      simp [chunks, chunksAux] at this
    have n3 : ¬ BadBeforeLast [] := by
      rintro ⟨t, x, c, e, -⟩
      have := congrArg List.length e
      simp at this
    have : ∃ r, metaSpaceSplitFunc R b 0 (NS.fromString []) = .ok (NS.fromString [], .ok r) := by
      unfold metaSpaceSplitFunc
      by_cases hp : b = true ∧ (!(encodeRune R).isPrefixOf (NS.fromString []).get) = true
      · simp only [if_pos hp]; exact ⟨_, rfl⟩
      · simp only [if_neg hp]; exact ⟨_, rfl⟩
    obtain ⟨r, hr⟩ := this
    rw [pts, hr]
    simp [GoM.bind, n2, n3]
  · by_cases hp : b = true ∧ (!(encodeRune R).isPrefixOf s) = true
    · have hgood : ∀ c cs, chunks s = c :: cs → c.isBad = false := by
        rcases hs with h | h | h
        · rw [hp.1] at h; cases h
        · simp [h] at hp
        · exact h
      cases hc : chunks s with
      | nil =>
        have := textOf_chunks s
        rw [hc] at this; exact absurd this.symm h0
      | cons c cs =>
        obtain ⟨ns1, e1, e2, e3, e4, e5, e6⟩ := prepend_fresh hR hc (hgood c cs hc)
        rw [← hc]
        refine steps ns1 e4 e5 ?_ ?_ e6 h0 ?_
        · rw [e2]
          have := encodeRune_length_pos R
          intro h
          have := congrArg List.length h
          rw [List.length_append, List.length_nil] at this
          omega
        · rw [e3, hc]
          constructor
          · rintro ⟨a, d, h1, h2⟩
            cases a with
            | nil => simp at h1
            | cons x a =>
              simp only [List.cons_append, List.cons.injEq] at h1
              exact ⟨a, d, h1.2, h2⟩
          · rintro ⟨a, d, h1, h2⟩
            exact ⟨⟨encodeRune R, R⟩ :: a, d, by rw [h1]; rfl, h2⟩
        · unfold metaSpaceSplitFunc
          have hp' : b = true ∧ (!(encodeRune R).isPrefixOf (NS.fromString s).get) = true := hp
          simp only [if_pos hp', e1, GoM.bind_ok]
          rfl
    · refine steps (NS.fromString s) (tidy_fromString s) (tail_fromString s) h0 Iff.rfl Iff.rfl h0 ?_
      unfold metaSpaceSplitFunc
      have hp' : ¬ (b = true ∧ (!(encodeRune R).isPrefixOf (NS.fromString s).get) = true) := hp
      simp only [if_neg hp', GoM.pure_eq, GoM.bind_ok]
      rfl

/-- If the mark is to be put in front and the text starts with a bad byte, it takes two more bytes to avoid a panic. -/
theorem C131_metaSpace_short {R : Rune} {s : Str} {c : Chunk} {cs : List Chunk} (hc : chunks s = c :: cs) (hb : c.isBad = true)
    (hp : (encodeRune R).isPrefixOf s = false) (hl : s.length < 3) : metaSpace R true (PTS.fromString s) = .panic := by
  have hr : c.rune = 0xFFFD := by
    rcases (goodChunks s c (by rw [hc]; simp)).2 with h | h
    · simp [Chunk.isBad, h] at hb
    · exact h.2
  have h3 : (encodeRune (0xFFFD : Rune)).length = 3 := by decide +kernel
  have h : (NS.fromString s).prepend (encodeRune R) = .panic :=
    (C129_prepend (ns := NS.fromString s) (tidy_fromString s).len (c := c) (cs := cs) hc (encodeRune R)).1.2 (by
      rw [hr, h3]; exact hl)
  have key : ∀ b, b = true → metaSpaceSplitFunc R b 0 (NS.fromString s) = .panic := by
    intro b hb
    have hp' : b = true ∧ (!(encodeRune R).isPrefixOf (NS.fromString s).get) = true :=
      ⟨hb, by rw [show (NS.fromString s).get = s from rfl, hp]; rfl⟩
    unfold metaSpaceSplitFunc
    simp only [if_pos hp', h]
    rfl
  simp only [metaSpace, PTS.split, PTS.fromString, PTS.fromNormalizedString, PTS.splitLoop, key true rfl]
  rfl

/-! ## Cases -/

-- a stray continuation byte right after a delimiter: refused, unless the delimiter goes with what follows
example : (NS.fromString [0x20, 0x80, 0x61, 0x61, 0x61]).split (fromRune 32) .mergedWithPrevious = .ok (.error .badSplit)
    ∧ (NS.fromString [0x20, 0x80, 0x61, 0x61, 0x61]).split (fromRune 32) .contiguous = .ok (.error .badSplit)
    ∧ ((NS.fromString [0x20, 0x80, 0x61, 0x61, 0x61]).split (fromRune 32) .mergedWithNext
        >>= fun r => pure (r.toOption.map fun ps => ps.map NS.get)) = .ok (some [[0x20, 0x80, 0x61, 0x61, 0x61]]) := by decide +kernel

-- the last byte is bad
example : (metaSpace 0x2581 true (PTS.fromString [0x61, 0xFF])).bind (fun r => .ok r.2) = .ok (some .badSplit) := by decide +kernel

-- the only bad byte stands before the last, which is ASCII
example : metaSpace 0x2581 true (PTS.fromString [0x61, 0xFF, 0x20]) = .panic := by decide +kernel

-- starting with a bad byte: a panic, or two more bytes lost
example : metaSpace 0x2581 true (PTS.fromString [0xFF, 0x61]) = .panic := by decide +kernel
example : (metaSpace 0x2581 true (PTS.fromString [0xFF, 0x61, 0x62, 0x63])).bind (fun r => .ok (r.1.splits.map fun q => q.ns.get, r.2))
    = .ok ([[0xE2, 0x96, 0x81, 0xEF, 0xBF, 0xBD, 0x63]], none) := by decide +kernel

end Verif
