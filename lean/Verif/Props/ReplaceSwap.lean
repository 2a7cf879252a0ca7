import Verif.Props.ReplaceGone

/-! When two calls of `Replace` may change places (C157). -/

set_option autoImplicit false

namespace Verif

/-! ## Specification -/

/-- Each rune `d` gives way to `s`, each rune `e` to `t`, at once. -/
def replaceBoth (d e : Rune) (s t : Str) (cs : List Chunk) : Str :=
  cs.flatMap fun c => if c.rune == d then s else if c.rune == e then t else c.bytes

/-- The alignments of that: of every replaced rune, those of its first byte, as often as needed. -/
def alignsBoth (d e : Rune) (n k : Nat) : List Chunk → List Align → List Align
  | [], als => als
  | c :: cs, als =>
    (if c.rune == d then List.replicate n (als.headD ⟨0, 0⟩)
      else if c.rune == e then List.replicate k (als.headD ⟨0, 0⟩) else als.take c.bytes.length)
      ++ alignsBoth d e n k cs (als.drop c.bytes.length)

/-! ## Proofs -/

theorem putChunks_no {e : Rune} {rs : List Rune} (he : e ∉ rs) :
    ∀ c ∈ rs.map (fun r => (⟨encodeRune r, r⟩ : Chunk)), (c.rune == e) = false := by
  intro c hc
  obtain ⟨r, hr, rfl⟩ := List.mem_map.1 hc
  simp only [beq_eq_false_iff_ne, ne_eq]
  intro h
  exact he (h ▸ hr)

theorem replaceBoth_eq {d e : Rune} {rs : List Rune} (t : Str) (he : e ∉ rs) (cs : List Chunk) :
    replaceRune e t (cs.flatMap (putChunks d rs)) = replaceBoth d e (encodeRunes rs) t cs := by
  induction cs with
  | nil => rfl
  | cons c cs ih =>
    rw [List.flatMap_cons, replaceRune_append, ih]
    unfold replaceBoth
    rw [List.flatMap_cons]
    congr 1
    unfold putChunks
    split
    · rw [replaceRune_none (putChunks_no he), textOf_runes]
    · simp [replaceRune]

theorem alignsBoth_eq {d e : Rune} {rs : List Rune} (k : Nat) (he : e ∉ rs) : ∀ (cs : List Chunk) (als : List Align),
    (∀ c ∈ cs, c.bytes ≠ []) → (textOf cs).length ≤ als.length →
    replaceAligns e k (cs.flatMap (putChunks d rs)) (replaceAligns d (encodeRunes rs).length cs als)
      = alignsBoth d e (encodeRunes rs).length k cs als := by
  intro cs
  induction cs with
  | nil => intro als _ _; rfl
  | cons c cs ih =>
    intro als hb hl
    rw [textOf_cons, List.length_append] at hl
    have ih' := ih (als.drop c.bytes.length) (fun x hx => hb x (by simp [hx])) (by rw [List.length_drop]; omega)
    have hp : 0 < c.bytes.length := List.length_pos_iff.2 (hb c (by simp))
    rw [List.flatMap_cons]
    by_cases hc : (c.rune == d) = true
    · simp only [putChunks, replaceAligns, alignsBoth, hc, if_true]
      rw [replaceAligns_none (putChunks_no he), textOf_runes]
      rw [List.take_left' (by simp), List.drop_left' (by simp)]
      exact congrArg _ ih'
    · simp only [putChunks, replaceAligns, alignsBoth, hc, Bool.false_eq_true, if_false, List.singleton_append]
      have htl : (als.take c.bytes.length).length = c.bytes.length := by rw [List.length_take]; omega
      rw [List.take_left' htl, List.drop_left' htl]
      have hh : (als.take c.bytes.length ++ replaceAligns d (encodeRunes rs).length cs (als.drop c.bytes.length)).headD ⟨0, 0⟩
          = als.headD ⟨0, 0⟩ := by
        cases als with
        | nil => rw [List.length_nil] at hl; omega
        | cons x xs =>
          obtain ⟨i, hi⟩ : ∃ i, c.bytes.length = i + 1 := ⟨c.bytes.length - 1, by omega⟩
          rw [hi]; rfl
      rw [hh]
      exact congrArg _ ih'

theorem replaceBoth_swap {d e : Rune} (hde : d ≠ e) (s t : Str) (cs : List Chunk) : replaceBoth d e s t cs = replaceBoth e d t s cs := by
  unfold replaceBoth
  congr 1
  funext c
  by_cases h1 : c.rune = d
  · have : ¬ c.rune = e := fun h => hde (h1 ▸ h)
    simp [h1, hde]
  · simp [h1]

theorem alignsBoth_swap {d e : Rune} (hde : d ≠ e) (n k : Nat) : ∀ (cs : List Chunk) (als : List Align),
    alignsBoth d e n k cs als = alignsBoth e d k n cs als := by
  intro cs
  induction cs with
  | nil => intro _; rfl
  | cons c cs ih =>
    intro als
    simp only [alignsBoth, ih]
    congr 1
    by_cases h1 : c.rune = d
    · simp [h1, hde]
    · simp [h1]

theorem replaceAligns_enough (d : Rune) (s : Str) : ∀ (cs : List Chunk) (als : List Align), (textOf cs).length ≤ als.length →
    (replaceRune d s cs).length ≤ (replaceAligns d s.length cs als).length := by
  intro cs
  induction cs with
  | nil => intro als _; exact Nat.zero_le _
  | cons c cs ih =>
    intro als hl
    rw [textOf_cons, List.length_append] at hl
    have := ih (als.drop c.bytes.length) (by rw [List.length_drop]; omega)
    simp only [replaceRune, List.flatMap_cons, replaceAligns, List.length_append] at this ⊢
    split
    · rw [List.length_replicate]; omega
    · rw [List.length_take]; omega

theorem reads_nonempty {s : Str} {cs : List Chunk} (h : Reads s cs) : ∀ c ∈ cs, c.bytes ≠ [] := by
  induction h with
  | nil => simp
  | @rune r t cs hr h ih =>
    intro c hc
    rcases List.mem_cons.1 hc with rfl | hc
    · exact List.length_pos_iff.1 (encodeRune_length_pos r)
    · exact ih c hc
  | @bad b t cs hb h ih =>
    intro c hc
    rcases List.mem_cons.1 hc with rfl | hc
    · simp
    · exact ih c hc

theorem replace_both {ns : NS} (hal : ns.get.length ≤ ns.alignments.length) {d e : Rune} (hd : d ≠ 0xFFFD) (he : e ≠ 0xFFFD)
    {rs : List Rune} (hv : ∀ r ∈ rs, ValidRune r) (hne : rs ≠ []) (her : e ∉ rs) {t : Str} (ht : ValidUtf8 t) :
    ∃ m, ns.replace (fromRune d) (encodeRunes rs) = .ok (.ok m) ∧ m.replace (fromRune e) t = .ok (.ok { ns with
      normalized := replaceBoth d e (encodeRunes rs) t (chunks ns.get)
      alignments := alignsBoth d e (encodeRunes rs).length t.length (chunks ns.get) ns.alignments }) := by
  refine ⟨_, C130_replace hal hd ⟨rs, hv, rfl⟩, ?_⟩
  have hr := reads_chunks ns.get
  have hl : (textOf (chunks ns.get)).length ≤ ns.alignments.length := by rw [hr.text_eq]; exact hal
  refine (C130_replace ?_ he ht).trans ?_
  · exact replaceAligns_enough d (encodeRunes rs) _ _ hl
  have hc : chunks (replaceRune d (encodeRunes rs) (chunks ns.get)) = (chunks ns.get).flatMap (putChunks d rs) := by
    rw [putChunks_text]; exact (reads_putChunks hd hv hne hr).chunks_eq
  simp only [NS.get] at hc hl hr ⊢
  rw [hc, replaceBoth_eq t her, alignsBoth_eq _ her _ _ (reads_nonempty hr) hl]

/-- **C157.**  Any bytes, in any state with as many alignments as bytes or more; two runes, neither of them U+FFFD, each to give way to one or
more valid runes.  If neither is among the runes put in place of the other, the two calls of `Replace` may change places: both orders return,
with the same text and alignments, which are those of replacing both at once. -/
theorem C157_swap {ns : NS} (hal : ns.get.length ≤ ns.alignments.length) {d e : Rune} (hd : d ≠ 0xFFFD) (he : e ≠ 0xFFFD) (hde : d ≠ e)
    {rs qs : List Rune} (hr : ∀ r ∈ rs, ValidRune r) (hq : ∀ r ∈ qs, ValidRune r) (hr0 : rs ≠ []) (hq0 : qs ≠ [])
    (her : e ∉ rs) (hdq : d ∉ qs) :
    ∃ m m' n, ns.replace (fromRune d) (encodeRunes rs) = .ok (.ok m) ∧ m.replace (fromRune e) (encodeRunes qs) = .ok (.ok n)
      ∧ ns.replace (fromRune e) (encodeRunes qs) = .ok (.ok m') ∧ m'.replace (fromRune d) (encodeRunes rs) = .ok (.ok n)
      ∧ n.get = replaceBoth d e (encodeRunes rs) (encodeRunes qs) (chunks ns.get)
      ∧ n.alignments = alignsBoth d e (encodeRunes rs).length (encodeRunes qs).length (chunks ns.get) ns.alignments := by
  obtain ⟨m, h1, h2⟩ := replace_both hal hd he hr hr0 her (t := encodeRunes qs) ⟨qs, hq, rfl⟩
  obtain ⟨m', h3, h4⟩ := replace_both hal he hd hq hq0 hdq (t := encodeRunes rs) ⟨rs, hr, rfl⟩
  refine ⟨m, m', _, h1, h2, h3, ?_, rfl, rfl⟩
  rw [h4, replaceBoth_swap hde, alignsBoth_swap hde]

/-- The second and third: what is put in place of "a" contains "b"; nothing is put in place of "é", on bytes that are not UTF-8. -/
theorem C157_example :
    (∃ m m' n, (NS.fromString b!"abé").replace (fromRune 0x61) b!"xé" = .ok (.ok m) ∧ m.replace (fromRune 0x62) b!"▁" = .ok (.ok n)
      ∧ (NS.fromString b!"abé").replace (fromRune 0x62) b!"▁" = .ok (.ok m') ∧ m'.replace (fromRune 0x61) b!"xé" = .ok (.ok n)
      ∧ n.get = b!"xé▁é")
    ∧ (∃ m m' n n', (NS.fromString b!"ab").replace (fromRune 0x61) b!"b" = .ok (.ok m) ∧ m.replace (fromRune 0x62) b!"c" = .ok (.ok n)
      ∧ (NS.fromString b!"ab").replace (fromRune 0x62) b!"c" = .ok (.ok m') ∧ m'.replace (fromRune 0x61) b!"b" = .ok (.ok n')
      ∧ n.get = b!"cc" ∧ n'.get = b!"bc")
    ∧ (∃ m m' n n', (NS.fromString [0xC3, 0x61, 0xA9]).replace (fromRune 0x61) [] = .ok (.ok m) ∧ m.replace (fromRune 0xE9) b!"e" = .ok (.ok n)
      ∧ (NS.fromString [0xC3, 0x61, 0xA9]).replace (fromRune 0xE9) b!"e" = .ok (.ok m') ∧ m'.replace (fromRune 0x61) [] = .ok (.ok n')
      ∧ n.get = b!"e" ∧ n'.get = b!"é") := by
  refine ⟨⟨_, _, _, rfl, rfl, rfl, ?_, ?_⟩, ⟨_, _, _, _, rfl, rfl, rfl, rfl, ?_, ?_⟩, ⟨_, _, _, _, rfl, rfl, rfl, rfl, ?_, ?_⟩⟩ <;> decide +kernel

theorem reads_bytes {d : Rune} (hd : d ≠ 0xFFFD) {s : Str} {cs : List Chunk} (h : Reads s cs) :
    ∀ c ∈ cs, c.rune = d → c.bytes = encodeRune d := by
  induction h with
  | nil => simp
  | @rune r t cs hr h ih =>
    intro c hc e
    rcases List.mem_cons.1 hc with rfl | hc
    · rw [← e]
    · exact ih c hc e
  | @bad b t cs hb h ih =>
    intro c hc e
    rcases List.mem_cons.1 hc with rfl | hc
    · exact absurd e.symm hd
    · exact ih c hc e

theorem replaceRune_self {d : Rune} : ∀ {cs : List Chunk}, (∀ c ∈ cs, c.rune = d → c.bytes = encodeRune d) →
    replaceRune d (encodeRune d) cs = textOf cs := by
  intro cs
  induction cs with
  | nil => intro _; rfl
  | cons c cs ih =>
    intro h
    have := ih fun x hx => h x (by simp [hx])
    rw [textOf_cons, ← this]
    simp only [replaceRune, List.flatMap_cons]
    congr 1
    by_cases hc : c.rune = d
    · simp [hc, h c (by simp) hc]
    · simp [hc]

theorem replaceAligns_self {d : Rune} (h1 : (encodeRune d).length = 1) : ∀ (cs : List Chunk) (p : Nat) (als : List Align),
    (∀ c ∈ cs, c.rune = d → c.bytes = encodeRune d) → EndsWithin d als.length p cs → replaceAligns d 1 cs (als.drop p) = als.drop p := by
  intro cs
  induction cs with
  | nil => intro p als _ _; rfl
  | cons c cs ih =>
    intro p als h hw
    have ih' := ih (p + c.bytes.length) als (fun x hx => h x (by simp [hx])) hw.2
    rw [replaceAligns, List.drop_drop, ih', ← List.drop_drop]
    by_cases hc : c.rune = d
    · have hb : c.bytes.length = 1 := by rw [h c (by simp) hc, h1]
      have hl := hw.1 hc
      rw [hb] at hl ⊢
      simp only [hc, beq_self_eq_true, if_true]
      cases hx : als.drop p with
      | nil =>
        have := congrArg List.length hx
        rw [List.length_drop, List.length_nil] at this
        omega
      | cons x xs => rfl
    · simp only [beq_iff_eq, hc, if_false]
      exact List.take_append_drop _ _

/-- **C157, a rune for itself.**  Any bytes, any state: if `Replace` returns, the text is what it was; for a rune of one byte, everything is. -/
theorem C157_self {ns ns' : NS} {d : Rune} (hd : d ≠ 0xFFFD) (hv : ValidRune d) (h : ns.replace (fromRune d) (encodeRune d) = .ok (.ok ns')) :
    ns'.get = ns.get ∧ ((encodeRune d).length = 1 → ns' = ns) := by
  have hu : ValidUtf8 (encodeRune d) := ⟨[d], by simpa using hv, by simp⟩
  have hr := reads_chunks ns.get
  have ht : replaceRune d (encodeRune d) (chunks ns.get) = ns.get := (replaceRune_self (reads_bytes hd hr)).trans hr.text_eq
  obtain ⟨k1, k2⟩ := C152_replace ns hd hu
  by_cases hw : EndsWithin d ns.alignments.length 0 (chunks ns.get)
  · rw [k1 hw, GoM.ok.injEq, Except.ok.injEq] at h
    subst h
    refine ⟨ht, fun h1 => ?_⟩
    have := replaceAligns_self h1 _ 0 ns.alignments (reads_bytes hd hr) hw
    rw [List.drop_zero] at this
    rw [h1, this, ht]
    rfl
  · rw [k2 hw] at h; cases h

/-- The two bytes of "é", aligned apart, are aligned together afterwards. -/
theorem C157_self_example :
    (⟨b!"ab", b!"é", [⟨0, 1⟩, ⟨1, 2⟩], 0⟩ : NS).replace (fromRune 0xE9) b!"é" = .ok (.ok ⟨b!"ab", b!"é", [⟨0, 1⟩, ⟨0, 1⟩], 0⟩) := by
  decide +kernel

end Verif
