import Verif.Props.ReplaceShort
import Verif.Props.MetaBytes

/-! What is read after `Replace`, on any bytes and in any state (C154). -/

set_option autoImplicit false

namespace Verif

/-! ## Proofs -/

/-- The chunks of what stands for a chunk. -/
def putChunks (d : Rune) (rs : List Rune) (c : Chunk) : List Chunk :=
  if c.rune == d then rs.map fun r => ⟨encodeRune r, r⟩ else [c]

theorem textOf_runes (rs : List Rune) : textOf (rs.map fun r => (⟨encodeRune r, r⟩ : Chunk)) = encodeRunes rs := by
  induction rs with
  | nil => rfl
  | cons r rs ih => rw [List.map_cons, textOf_cons, ih, encodeRunes_cons]

theorem putChunks_text (d : Rune) (rs : List Rune) (cs : List Chunk) :
    replaceRune d (encodeRunes rs) cs = textOf (cs.flatMap (putChunks d rs)) := by
  induction cs with
  | nil => rfl
  | cons c cs ih =>
    rw [List.flatMap_cons, textOf_append, ← ih]
    show (if c.rune == d then encodeRunes rs else c.bytes) ++ _ = _
    unfold putChunks
    split
    · rw [textOf_runes]; rfl
    · rw [textOf_cons, textOf_nil, List.append_nil]; rfl

/-- Continuation bytes in front are not touched. -/
theorem putChunks_conts (d : Rune) {rs : List Rune} (hne : rs ≠ []) : ∀ (cs : List Chunk) (k t' : Str), (∀ x ∈ k, isCont x = true) →
    textOf (cs.flatMap (putChunks d rs)) = k ++ t' → ∃ t'', textOf cs = k ++ t'' := by
  intro cs
  induction cs with
  | nil =>
    intro k t' _ h
    rw [List.flatMap_nil, textOf_nil] at h
    have : k = [] := (List.append_eq_nil_iff.1 h.symm).1
    exact ⟨[], by rw [this]; rfl⟩
  | cons c cs ih =>
    intro k t' hk h
    rw [List.flatMap_cons, textOf_append] at h
    by_cases hc : (c.rune == d) = true
    · obtain ⟨r, rs', rfl⟩ := List.exists_cons_of_ne_nil hne
      obtain ⟨b, u, e1, e2, -⟩ := encodeRune_bytes r
      simp only [putChunks, hc, if_true, textOf_runes, encodeRunes_cons] at h
      rw [e1] at h
      cases k with
      | nil => exact ⟨_, rfl⟩
      | cons y k =>
        simp only [List.cons_append, List.cons.injEq] at h
        have := hk y (by simp)
        rw [← h.1, e2] at this; cases this
    · simp only [putChunks, hc, Bool.false_eq_true, if_false] at h
      rw [textOf_cons, textOf_nil, List.append_nil] at h
      rw [textOf_cons]
      rcases List.append_eq_append_iff.1 h with ⟨m, h1, h2⟩ | ⟨m, h1, h2⟩
      · obtain ⟨t'', e⟩ := ih m t' (fun x hx => hk x (by rw [h1]; simp [hx])) h2
        exact ⟨t'', by rw [e, h1]; simp⟩
      · exact ⟨m ++ textOf cs, by rw [h1]; simp⟩

theorem reads_putChunks {d : Rune} (hd : d ≠ 0xFFFD) {rs : List Rune} (hv : ∀ r ∈ rs, ValidRune r) (hne : rs ≠ []) {s : Str} {cs : List Chunk}
    (h : Reads s cs) : Reads (textOf (cs.flatMap (putChunks d rs))) (cs.flatMap (putChunks d rs)) := by
  induction h with
  | nil => exact .nil
  | @rune r t cs hr h ih =>
    rw [List.flatMap_cons, textOf_append]
    by_cases hc : (r == d) = true
    · simp only [putChunks, hc, if_true, textOf_runes]
      exact reads_runes rs hv ih
    · simp only [putChunks, hc, Bool.false_eq_true, if_false, List.singleton_append]
      rw [textOf_cons, textOf_nil, List.append_nil]
      exact .rune hr ih
  | @bad b t cs hb h ih =>
    rw [List.flatMap_cons, textOf_append]
    have : ((0xFFFD : Rune) == d) = false := by simpa using fun e => hd e.symm
    simp only [putChunks, this, Bool.false_eq_true, if_false, List.singleton_append]
    rw [textOf_cons, textOf_nil, List.append_nil]
    refine .bad ?_ ih
    intro r t' hr e
    obtain ⟨x, k, e1, -, e3⟩ := encodeRune_bytes r
    rw [e1, List.cons_append, List.cons.injEq] at e
    obtain ⟨rfl, e⟩ := e
    obtain ⟨t'', e4⟩ := putChunks_conts d hne cs k t' e3 e
    refine hb r t'' hr ?_
    rw [← h.text_eq, e4, e1]
    rfl

/-- **C154, what is read.**  Any bytes, any state, any rune but U+FFFD, content of at least one valid rune: if `Replace` returns, the runes
read are those read before, the runes of the content in place of each such rune.  No bad byte becomes part of a rune. -/
theorem C154_runes {ns ns' : NS} {d : Rune} (hd : d ≠ 0xFFFD) {rs : List Rune} (hv : ∀ r ∈ rs, ValidRune r) (hne : rs ≠ [])
    (h : ns.replace (fromRune d) (encodeRunes rs) = .ok (.ok ns')) :
    runesOf ns'.get = (runesOf ns.get).flatMap fun r => if r = d then rs else [r] := by
  rw [C127_replace hd ⟨rs, hv, rfl⟩ h, putChunks_text, runesOf_chunks, (reads_putChunks hd hv hne (reads_chunks ns.get)).chunks_eq,
    runesOf_chunks]
  generalize chunks ns.get = cs
  induction cs with
  | nil => rfl
  | cons c cs ih =>
    rw [List.flatMap_cons, List.map_append, ih, List.map_cons, List.flatMap_cons]
    congr 1
    by_cases hc : c.rune = d
    · simp [putChunks, hc, Function.comp_def]
    · simp [putChunks, hc]

/-- **C154, gone.**  So if the rune is not in the content, it is not in the text any more, and replacing it again by whatever valid content
changes nothing, also where bytes have no alignments. -/
theorem C154_gone {ns ns' : NS} {d : Rune} (hd : d ≠ 0xFFFD) {rs : List Rune} (hv : ∀ r ∈ rs, ValidRune r) (hne : rs ≠ []) (hdr : d ∉ rs)
    (h : ns.replace (fromRune d) (encodeRunes rs) = .ok (.ok ns')) :
    d ∉ runesOf ns'.get ∧ ∀ content, ValidUtf8 content → ns'.replace (fromRune d) content = .ok (.ok ns') := by
  have hg : d ∉ runesOf ns'.get := by
    rw [C154_runes hd hv hne h]
    intro hm
    obtain ⟨r, -, hr⟩ := List.mem_flatMap.1 hm
    by_cases e : r = d
    · rw [if_pos e] at hr; exact hdr hr
    · rw [if_neg e] at hr; exact e (List.mem_singleton.1 hr).symm
  refine ⟨hg, fun content hc => ?_⟩
  rw [runesOf_chunks] at hg
  have hno : ∀ c ∈ chunks ns'.get, (c.rune == d) = false := by
    intro c hcm
    rw [beq_eq_false_iff_ne]
    exact fun e => hg (List.mem_map.2 ⟨c, hcm, e⟩)
  have hw : EndsWithin d ns'.alignments.length 0 (chunks ns'.get) := by
    rw [← List.append_nil (chunks ns'.get), endsWithin_run hno]
    trivial
  rw [(C152_replace ns' hd hc).1 hw, replaceAligns_same hno, replaceRune_none hno, textOf_chunks]
  rfl

/-- Removing is different: the bytes around a removed rune may be read together, even as the same rune again. -/
theorem C154_counterexample :
    (∃ m, (NS.fromString [0xC3, 0xC3, 0xA9, 0xA9]).replace (fromRune 0xE9) [] = .ok (.ok m) ∧ runesOf m.get = [0xE9])
    ∧ (∃ m, (NS.fromString [0xC3, 0xC3, 0xA9, 0xA9]).replace (fromRune 0xE9) b!"e" = .ok (.ok m) ∧ runesOf m.get = [0xFFFD, 0x65, 0xFFFD]) := by
  refine ⟨⟨_, rfl, ?_⟩, ⟨_, rfl, ?_⟩⟩ <;> decide +kernel

end Verif
