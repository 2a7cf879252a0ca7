import Verif.Props.RangesAnyState
import Verif.Lemmas.Bytes

/-! `OriginalAlignments` in any state whatever, exactly (C145). -/

set_option autoImplicit false

namespace Verif

/-! ## Specification -/

/-- The groups `gs`, each an alignment and how many bytes in a row have it, written out. -/
def writtenOut (gs : List (Align × Nat)) : List Align := gs.flatMap fun g => List.replicate g.2 g.1

/-- Every two neighbours of the list are in the relation `R`. -/
def Neighbours {α : Type} (R : α → α → Prop) : List α → Prop
  | [] => True
  | [_] => True
  | x :: y :: l => R x y ∧ Neighbours R (y :: l)

/-- `gs` are the longest groups of equal alignments of `als`. -/
structure GroupsOf (gs : List (Align × Nat)) (als : List Align) : Prop where
  whole : writtenOut gs = als
  full : ∀ g ∈ gs, 0 < g.2
  longest : Neighbours (fun g h => g.1 ≠ h.1) gs

/-- For the bytes of the original from the beginning of the first group to the end of the last, `o` bytes of the text being before
them: the bytes of a group get its bytes of the text, those between two groups the place between these. -/
def asOriginal (o : Nat) : List (Align × Nat) → List Align
  | [] => []
  | [g] => List.replicate (g.1.stop - g.1.start).toNat ⟨o, o + g.2⟩
  | g :: h :: gs => List.replicate (g.1.stop - g.1.start).toNat ⟨o, o + g.2⟩
      ++ List.replicate (h.1.start - g.1.stop).toNat ⟨(o + g.2 : Nat), (o + g.2 : Nat)⟩ ++ asOriginal (o + g.2) (h :: gs)

/-! ## Proofs -/

theorem groups_exist : ∀ als : List Align, ∃ gs, GroupsOf gs als := by
  intro als
  induction als with
  | nil => exact ⟨[], rfl, by simp, trivial⟩
  | cons a als ih =>
    obtain ⟨gs, h1, h2, h3⟩ := ih
    cases gs with
    | nil =>
      refine ⟨[(a, 1)], ?_, by simp, trivial⟩
      simp [writtenOut] at h1 ⊢
      exact h1
    | cons g gs =>
      by_cases hg : a = g.1
      · refine ⟨(a, g.2 + 1) :: gs, ?_, ?_, ?_⟩
        · simp only [writtenOut, List.flatMap_cons, List.replicate_succ, List.cons_append] at h1 ⊢
          rw [← h1, hg]
        · intro x hx
          rcases List.mem_cons.1 hx with rfl | hx
          · exact Nat.succ_pos _
          · exact h2 x (List.mem_cons_of_mem _ hx)
        · cases gs with
          | nil => trivial
          | cons h gs => exact ⟨by rw [hg]; exact h3.1, h3.2⟩
      · refine ⟨(a, 1) :: g :: gs, ?_, ?_, hg, h3⟩
        · rw [← h1]
          rfl
        · intro x hx
          rcases List.mem_cons.1 hx with rfl | hx
          · exact Nat.one_pos
          · exact h2 x hx

theorem loop_same (a : Align) (o : Int) (out rest : List Align) : ∀ (k l : Nat),
    NS.origAlignLoop (List.replicate k a ++ rest) a o (l : Int) out = NS.origAlignLoop rest a o ((l + k : Nat) : Int) out := by
  intro k
  induction k with
  | zero => intro l; rfl
  | succ k ih =>
    intro l
    rw [List.replicate_succ, List.cons_append, NS.origAlignLoop, if_pos rfl]
    have := ih (l + 1)
    rw [show ((l : Int) + 1) = ((l + 1 : Nat) : Int) by omega, this]
    congr 1
    omega

theorem loop_groups : ∀ (gs : List (Align × Nat)) (last : Align) (o l : Nat) (out : List Align), (∀ g ∈ gs, 0 < g.2) →
    Neighbours (fun g h => g.1 ≠ h.1) ((last, l) :: gs) →
    (Neighbours (fun g h => g.1.stop ≤ h.1.start) ((last, l) :: gs) → ∃ last' o' l' out',
      NS.origAlignLoop (writtenOut gs) last o l out = .ok (last', (o' : Nat), (l' : Nat), out')
      ∧ out' ++ List.replicate (last'.stop - last'.start).toNat ⟨(o' : Int), (o' : Int) + (l' : Int)⟩ = out ++ asOriginal o ((last, l) :: gs)
      ∧ o' + l' = o + l + (writtenOut gs).length)
    ∧ (¬ Neighbours (fun g h => g.1.stop ≤ h.1.start) ((last, l) :: gs) → NS.origAlignLoop (writtenOut gs) last o l out = .panic) := by
  intro gs
  induction gs with
  | nil =>
    intro last o l out _ _
    refine ⟨fun _ => ⟨last, o, l, out, rfl, rfl, rfl⟩, fun h => absurd trivial h⟩
  | cons g gs ih =>
    intro last o l out hp hn
    obtain ⟨a, k⟩ := g
    have hk : 0 < k := hp (a, k) (List.mem_cons_self ..)
    obtain ⟨j, rfl⟩ : ∃ j, k = j + 1 := ⟨k - 1, by omega⟩
    have hne : ¬ last = a := hn.1
    have hw : writtenOut ((a, j + 1) :: gs) = a :: (List.replicate j a ++ writtenOut gs) := by
      simp [writtenOut, List.replicate_succ]
    rw [hw, NS.origAlignLoop, if_neg hne]
    by_cases hs : a.start < last.stop
    · rw [if_pos hs]
      exact ⟨fun h => absurd h.1 (by simpa using hs), fun _ => rfl⟩
    · rw [if_neg hs]
      simp only
      rw [show (1 : Int) = ((1 : Nat) : Int) by rfl, loop_same, show (o : Int) + (l : Int) = ((o + l : Nat) : Int) by omega]
      have hn' : Neighbours (fun g h => g.1 ≠ h.1) ((a, j + 1) :: gs) := hn.2
      rw [show 1 + j = j + 1 by omega]
      have hih := ih a (o + l) (j + 1) (out ++ List.replicate (last.stop - last.start).toNat ⟨(o : Int), ((o + l : Nat) : Int)⟩
        ++ List.replicate (a.start - last.stop).toNat ⟨((o + l : Nat) : Int), ((o + l : Nat) : Int)⟩)
        (fun g hg => hp g (List.mem_cons_of_mem _ hg)) hn'
      constructor
      · intro h
        obtain ⟨last', o', l', out', h1, h2, h3⟩ := hih.1 h.2
        refine ⟨last', o', l', out', h1, ?_, ?_⟩
        · rw [h2]
          simp only [asOriginal, List.append_assoc]
          congr 3
        · rw [h3]
          simp
          omega
      · intro h
        exact hih.2 fun h' => h ⟨by simpa using Int.not_lt.1 hs, h'⟩

/-- **C145.** In any state with at least one alignment: `OriginalAlignments` panics exactly when a group of equal alignments begins
before the end of the group in front of it; otherwise the bytes of the original before the first group get (0, 0), those up to the
end of the last are read back from the groups, and those after it, if the original has any, get the end of the text. -/
theorem C145_exact (ns : NS) (g : Align × Nat) (gs : List (Align × Nat)) (h : GroupsOf (g :: gs) ns.alignments) :
    (Neighbours (fun g h => g.1.stop ≤ h.1.start) (g :: gs) → ns.originalAlignments = .ok (
      let front := List.replicate g.1.start.toNat ⟨0, 0⟩ ++ asOriginal 0 (g :: gs)
      front ++ List.replicate (ns.original.length - front.length) ⟨ns.alignments.length, ns.alignments.length⟩))
    ∧ (¬ Neighbours (fun g h => g.1.stop ≤ h.1.start) (g :: gs) → ns.originalAlignments = .panic) := by
  obtain ⟨a, k⟩ := g
  have hk : 0 < k := h.full (a, k) (List.mem_cons_self ..)
  have hw : ns.alignments = List.replicate k a ++ writtenOut gs := by rw [← h.whole]; simp [writtenOut]
  have hf : goIndex ns.alignments 0 = .ok a := by
    obtain ⟨j, rfl⟩ : ∃ j, k = j + 1 := ⟨k - 1, by omega⟩
    rw [hw]
    simp [goIndex, List.replicate_succ]
  have hl : ∀ out, NS.origAlignLoop ns.alignments a 0 0 out = NS.origAlignLoop (writtenOut gs) a ((0 : Nat) : Int) (k : Nat) out := by
    intro out
    have := loop_same a 0 out (writtenOut gs) k 0
    rw [hw]
    simpa using this
  have key := loop_groups gs a 0 k (List.replicate a.start.toNat ⟨0, 0⟩) (fun g hg => h.full g (List.mem_cons_of_mem _ hg)) h.longest
  unfold NS.originalAlignments
  simp only [hf, GoM.bind_ok, hl]
  constructor
  · intro hn
    obtain ⟨last', o', l', out', h1, h2, h3⟩ := key.1 hn
    rw [h1]
    simp only [GoM.bind_ok, GoM.pure_eq, h2]
    have hlen : (o' : Int) + (l' : Int) = (ns.alignments.length : Int) := by
      rw [hw]
      simp
      omega
    rw [hlen]
    congr 2
    congr 1
    omega
  · intro hn
    rw [key.2 hn]
    rfl

theorem asOriginal_length : ∀ (gs : List (Align × Nat)) (g : Align × Nat) (o : Nat), (∀ x ∈ g :: gs, x.1.start ≤ x.1.stop) →
    Neighbours (fun g h => g.1.stop ≤ h.1.start) (g :: gs) →
    g.1.start + ((asOriginal o (g :: gs)).length : Int) = ((g :: gs).getLast (by simp)).1.stop := by
  intro gs
  induction gs with
  | nil =>
    intro g o h _
    have := h g (List.mem_cons_self ..)
    simp [asOriginal]
    omega
  | cons h gs ih =>
    intro g o hle hn
    have h1 := hle g (List.mem_cons_self ..)
    have h2 : g.1.stop ≤ h.1.start := hn.1
    have := ih h (o + g.2) (fun x hx => hle x (List.mem_cons_of_mem _ hx)) hn.2
    rw [List.getLast_cons (by simp), ← this]
    simp only [asOriginal, List.length_append, List.length_replicate]
    omega

theorem writtenOut_getLast? : ∀ (gs : List (Align × Nat)), (∀ g ∈ gs, 0 < g.2) → (writtenOut gs).getLast? = gs.getLast?.map (·.1) := by
  intro gs hp
  rcases List.eq_nil_or_concat gs with rfl | ⟨l, g, rfl⟩
  · rfl
  · have : 0 < g.2 := hp g (by simp)
    simp only [writtenOut, List.flatMap_append, List.flatMap_cons, List.flatMap_nil, List.append_nil, List.getLast?_append,
      List.concat_eq_append]
    simp [List.getLast?_replicate]
    omega

/-- **C145, how many.** If no alignment ends before it begins and the first does not begin below 0, there is one for every byte
of the original, and more than that exactly if the last alignment ends after the end of the original. -/
theorem C145_length (ns : NS) {A : List Align} (hA : ns.originalAlignments = .ok A) (hle : ∀ al ∈ ns.alignments, al.start ≤ al.stop)
    (h0 : ∀ al, ns.alignments.head? = some al → 0 ≤ al.start) :
    ∃ last, ns.alignments.getLast? = some last ∧ (A.length : Int) = max (ns.original.length : Int) last.stop := by
  obtain ⟨gs, hg⟩ := groups_exist ns.alignments
  cases gs with
  | nil =>
    have : ns.alignments = [] := by rw [← hg.whole]; rfl
    rw [(C17_panics ns).2 (Or.inl this)] at hA
    exact absurd hA (by simp)
  | cons g gs =>
    have hx := C145_exact ns g gs hg
    by_cases hn : Neighbours (fun g h => g.1.stop ≤ h.1.start) (g :: gs)
    · rw [hx.1 hn] at hA
      have hmem : ∀ x ∈ g :: gs, x.1 ∈ ns.alignments := by
        intro x hx
        rw [← hg.whole]
        exact List.mem_flatMap.2 ⟨x, hx, List.mem_replicate.2 ⟨by have := hg.full x hx; omega, rfl⟩⟩
      have hlen := asOriginal_length gs g 0 (fun x hx => hle _ (hmem x hx)) hn
      have hlast := writtenOut_getLast? (g :: gs) hg.full
      rw [hg.whole, List.getLast?_eq_some_getLast (l := g :: gs) (by simp)] at hlast
      refine ⟨_, hlast, ?_⟩
      have hh : ns.alignments.head? = some g.1 := by
        have := hg.full g (List.mem_cons_self ..)
        obtain ⟨j, hj⟩ : ∃ j, g.2 = j + 1 := ⟨g.2 - 1, by omega⟩
        rw [← hg.whole]
        simp [writtenOut, hj, List.replicate_succ]
      have h0 := h0 _ hh
      simp only [GoM.ok.injEq] at hA
      rw [← hA]
      simp only [List.length_append, List.length_replicate]
      rw [← hlen]
      omega
    · rw [hx.2 hn] at hA
      exact absurd hA (by simp)

/-! ## Strings that nothing was done to -/

theorem chunks_valid_append {t : Str} (ht : ValidUtf8 t) (u : Str) : ∃ cs, chunks (t ++ u) = cs ++ chunks u ∧ ∀ c ∈ cs, c.bytes = encodeRune c.rune := by
  obtain ⟨rs, hv, rfl⟩ := ht
  refine ⟨rs.map fun r => ⟨encodeRune r, r⟩, ?_, by simp⟩
  apply Reads.chunks_eq
  induction rs with
  | nil => exact reads_chunks u
  | cons r rs ih =>
    rw [encodeRunes_cons, List.append_assoc]
    exact .rune (hv r (List.mem_cons_self ..)) (ih fun x hx => hv x (List.mem_cons_of_mem _ hx))

theorem valid_of_chunks : ∀ (cs : List Chunk), (∀ c ∈ cs, ValidRune c.rune ∧ c.bytes = encodeRune c.rune) → ValidUtf8 (textOf cs) := by
  intro cs h
  refine ⟨cs.map (·.rune), ?_, ?_⟩
  · intro r hr
    obtain ⟨c, hc, rfl⟩ := List.mem_map.1 hr
    exact (h c hc).1
  · induction cs with
    | nil => rfl
    | cons c cs ih =>
      rw [List.map_cons, encodeRunes_cons, textOf_cons, ih fun x hx => h x (List.mem_cons_of_mem _ hx), (h c (List.mem_cons_self ..)).2]

/-- The alignments of a new string, in groups. -/
def chunkGroups : Nat → List Chunk → List (Align × Nat)
  | _, [] => []
  | i, c :: cs => (⟨(i : Int), ((i + (encodeRune c.rune).length : Nat) : Int)⟩, (encodeRune c.rune).length) :: chunkGroups (i + c.bytes.length) cs

theorem chunkGroups_of : ∀ (cs : List Chunk) (i : Nat), (∀ c ∈ cs, c.bytes ≠ []) →
    GroupsOf (chunkGroups i cs) ((rangeChunks i cs).flatMap fun (runeIndex, r) =>
      List.replicate (encodeRune r).length ⟨(runeIndex : Int), ((runeIndex + (encodeRune r).length : Nat) : Int)⟩) := by
  intro cs
  induction cs with
  | nil => intro i _; exact ⟨rfl, by simp [chunkGroups], trivial⟩
  | cons c cs ih =>
    intro i h
    obtain ⟨h1, h2, h3⟩ := ih (i + c.bytes.length) fun x hx => h x (List.mem_cons_of_mem _ hx)
    refine ⟨?_, ?_, ?_⟩
    · simp only [chunkGroups, rangeChunks, List.flatMap_cons, ← h1]
      rfl
    · intro g hg
      rcases List.mem_cons.1 hg with rfl | hg
      · exact encodeRune_length_pos _
      · exact h2 g hg
    · cases cs with
      | nil => trivial
      | cons d cs =>
        refine ⟨?_, h3⟩
        have := List.length_pos_iff.2 (h c (List.mem_cons_self ..))
        simp only [ne_eq, Align.mk.injEq]
        omega

theorem chunkGroups_apart : ∀ (cs : List Chunk) (i : Nat),
    (∀ c ∈ cs, c.bytes ≠ [] ∧ ValidRune c.rune ∧ (c.bytes = encodeRune c.rune ∨ (c.bytes.length = 1 ∧ c.rune = 0xFFFD))) →
    (Neighbours (fun g h => g.1.stop ≤ h.1.start) (chunkGroups i cs) ↔ ∀ c ∈ cs.dropLast, c.bytes = encodeRune c.rune) := by
  intro cs
  induction cs with
  | nil => intro i _; simp [chunkGroups, Neighbours]
  | cons c cs ih =>
    intro i h
    cases cs with
    | nil => simp [chunkGroups, Neighbours]
    | cons d cs =>
      have hi := ih (i + c.bytes.length) fun x hx => h x (List.mem_cons_of_mem _ hx)
      rw [List.dropLast_cons_of_ne_nil (by simp), List.forall_mem_cons, ← hi]
      simp only [chunkGroups, Neighbours]
      refine and_congr_left fun _ => ?_
      rcases (h c (List.mem_cons_self ..)).2.2 with hc | ⟨hc, hr⟩
      · rw [hc]; simp
      · have h3 : (encodeRune 0xFFFD).length = 3 := by decide
        rw [hr, h3, hc]
        constructor
        · intro h; omega
        · intro h; rw [h] at hc; rw [h3] at hc; omega

/-- **C145, new strings.** On a string that nothing was done to, `OriginalAlignments` works exactly if the string is valid UTF-8 but for
at most the last byte, and not empty. -/
theorem C145_fromString (s : Str) :
    (NS.fromString s).originalAlignments = .panic ↔ s = [] ∨ ¬ ∃ t, ValidUtf8 t ∧ (s = t ∨ ∃ b, s = t ++ [b]) := by
  have hch := (reads_chunks s).chunk
  have hg := chunkGroups_of (chunks s) 0 fun c hc => (hch c hc).1
  have hap := chunkGroups_apart (chunks s) 0 hch
  have htext := textOf_chunks s
  have hal : (NS.fromString s).alignments = (rangeChunks 0 (chunks s)).flatMap fun (runeIndex, r) =>
      List.replicate (encodeRune r).length ⟨(runeIndex : Int), ((runeIndex + (encodeRune r).length : Nat) : Int)⟩ := by
    rw [← rangeStr_chunks]; rfl
  rw [← hal] at hg
  have hvalid : (∀ c ∈ (chunks s).dropLast, c.bytes = encodeRune c.rune) ↔ ∃ t, ValidUtf8 t ∧ (s = t ∨ ∃ b, s = t ++ [b]) := by
    constructor
    · intro h
      rcases List.eq_nil_or_concat (chunks s) with e | ⟨l, c, e⟩
      · rw [e] at htext
        exact ⟨[], ⟨[], by simp, rfl⟩, .inl htext.symm⟩
      · rw [List.concat_eq_append] at e
        rw [e, List.dropLast_concat] at h
        rw [e] at hch htext
        have hv := valid_of_chunks l fun x hx => ⟨(hch x (by simp [hx])).2.1, h x hx⟩
        have hs : s = textOf l ++ c.bytes := by rw [← htext]; simp
        rcases (hch c (by simp)).2 with ⟨hr, hc | ⟨hc, -⟩⟩
        · exact ⟨s, by rw [hs, hc]; exact hv.append ⟨[c.rune], by simpa using hr, by simp [encodeRunes]⟩, .inl rfl⟩
        · obtain ⟨b, hb⟩ := List.length_eq_one_iff.1 hc
          exact ⟨textOf l, hv, .inr ⟨b, by rw [hs, hb]⟩⟩
    · rintro ⟨t, ht, rfl | ⟨b, rfl⟩⟩
      · obtain ⟨cs, h1, h2⟩ := chunks_valid_append ht []
        rw [List.append_nil] at h1
        rw [h1]
        intro c hc
        exact h2 c (by simpa [chunks, chunksAux] using List.dropLast_subset _ hc)
      · obtain ⟨cs, h1, h2⟩ := chunks_valid_append ht [b]
        have : ∃ c, chunks [b] = [c] := ⟨_, rfl⟩
        obtain ⟨c, hc⟩ := this
        rw [h1, hc, List.dropLast_concat]
        exact h2
  rw [← hvalid, ← hap]
  cases hc : chunks s with
  | nil =>
    have hs : s = [] := by rw [← htext, hc]; rfl
    subst hs
    exact ⟨fun _ => .inl rfl, fun _ => rfl⟩
  | cons c cs =>
    have hs : s ≠ [] := by rintro rfl; exact absurd hc (by simp [chunks, chunksAux])
    rw [hc, chunkGroups] at hg
    have hx := C145_exact _ _ _ hg
    rw [← chunkGroups] at hx
    simp only [hs, false_or]
    constructor
    · intro h hn
      rw [hx.1 hn] at h
      exact absurd h (by simp)
    · exact hx.2

/-! ## Concrete -/

/-- A bad byte is counted for three: at the end of the text there are too many, elsewhere there is a panic.  An alignment that ends
before it begins is skipped, with the place before it counted as a gap. -/
theorem C145_example :
    (NS.fromString (b!"ab" ++ [0xFF])).originalAlignments = .ok [⟨0, 1⟩, ⟨1, 2⟩, ⟨2, 5⟩, ⟨2, 5⟩, ⟨2, 5⟩]
    ∧ (NS.fromString (0xFF :: b!"ab")).originalAlignments = .panic
    ∧ NS.originalAlignments ⟨b!"abc", b!"xyz", [⟨0, 1⟩, ⟨2, 1⟩, ⟨1, 2⟩], 0⟩ = .ok [⟨0, 1⟩, ⟨1, 1⟩, ⟨2, 3⟩]
    ∧ NS.originalAlignments ⟨b!"abc", b!"xyz", [⟨0, 2⟩, ⟨1, 2⟩], 0⟩ = .panic := by decide +kernel

end Verif
