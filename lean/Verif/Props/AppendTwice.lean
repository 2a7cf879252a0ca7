import Verif.Props.AppendBytes
import Verif.Props.PrependAnyState

/-! When to append twice is to append once (C155). -/

set_option autoImplicit false

namespace Verif

/-- The runes are all of one byte. -/
def OneByte (rs : List Rune) : Prop := ∀ r ∈ rs, (encodeRune r).length = 1

theorem OneByte.len {rs : List Rune} (h : OneByte rs) : (encodeRunes rs).length = rs.length := by
  induction rs with
  | nil => rfl
  | cons r rs ih =>
    rw [encodeRunes_cons, List.length_append, h r (by simp), ih fun x hx => h x (by simp [hx]), List.length_cons]
    omega

theorem oneByte_of_len : ∀ {rs : List Rune}, (encodeRunes rs).length ≤ rs.length → OneByte rs := by
  intro rs
  induction rs with
  | nil => intro _ r hr; cases hr
  | cons r rs ih =>
    intro h x hx
    rw [encodeRunes_cons, List.length_append, List.length_cons] at h
    have h1 := encodeRune_length_pos r
    have h2 := length_le_encodeRunes rs
    rcases List.mem_cons.1 hx with rfl | hx
    · omega
    · exact ih (by omega) x hx

theorem rep_add {α : Type} (x : α) (m n : Nat) : List.replicate (m + n) x = List.replicate m x ++ List.replicate n x := by
  rw [List.replicate_append_replicate]

theorem chunks_concat {as : List Rune} {z : Rune} (h : ∀ r ∈ as ++ [z], ValidRune r) :
    chunks (encodeRunes (as ++ [z])) = as.map (fun r => ⟨encodeRune r, r⟩) ++ [⟨encodeRune z, z⟩] := by
  have := (reads_runes (as ++ [z]) h Reads.nil).chunks_eq
  simpa using this

/-- `Append` to a text whose runes but the last have one byte each. -/
theorem append_oneByte {ns : NS} {as : List Rune} {z : Rune} (hv : ∀ r ∈ as ++ [z], ValidRune r) (ht : ns.get = encodeRunes (as ++ [z]))
    (hal : ns.get.length ≤ ns.alignments.length) (h1 : OneByte as) {s : Str} (hs : s ≠ []) :
    ∃ a b, ns.alignments[as.length]? = some a ∧ ns.alignments[as.length + (encodeRune z).length - 1]? = some b
      ∧ ns.append s = .ok { ns with
          normalized := encodeRunes (as ++ [z]) ++ sanitizeText s
          alignments := ns.alignments.take as.length ++ List.replicate (encodeRune z).length a
            ++ List.replicate (sanitizeText s).length b ++ ns.alignments.drop ns.get.length } := by
  have hc := chunks_concat hv
  rw [← ht] at hc
  obtain ⟨a, x, xs, ha, hx, he⟩ := C129_append hal hc s
  rw [List.length_map] at ha hx he
  have hpos := encodeRune_length_pos z
  have htl : ns.get.length = as.length + (encodeRune z).length := by rw [ht]; simp [h1.len]
  have hdrop : ns.get.drop as.length = encodeRune z := by rw [ht, encodeRunes_append, ← h1.len]; simp
  have htake : ns.get.take as.length = encodeRunes as := by rw [ht, encodeRunes_append, ← h1.len]; simp
  have hxz : x.rune = z := by
    have h2 := chunks_concat (as := []) (z := z) (by intro r hr; exact hv r (by simp at hr; simp [hr]))
    rw [hdrop] at hx
    simp only [List.nil_append, encodeRunes_cons, encodeRunes_nil, List.append_nil, List.map_nil] at h2
    rw [h2] at hx
    simp only [List.cons.injEq] at hx
    rw [← hx.1]
  rw [if_neg hs, hxz, htake] at he
  obtain ⟨b, hb⟩ : ∃ b, ns.alignments[as.length + (encodeRune z).length - 1]? = some b :=
    ⟨_, List.getElem?_eq_getElem (by omega)⟩
  refine ⟨a, b, ha, hb, ?_⟩
  rw [he, hb]
  simp

/-- **C155.**  A text of valid runes, all but the last of one byte, in any state with as many alignments as bytes or more; `rs` and then
`l` are appended, then a text `t` that is not empty.  This is to append all at once exactly if the last rune of the text and the runes
`rs` have one byte each. -/
theorem C155_twice {ns : NS} {as rs : List Rune} {z l : Rune} {t : Str} (hv : ∀ r ∈ as ++ [z], ValidRune r)
    (ht : ns.get = encodeRunes (as ++ [z])) (hal : ns.get.length ≤ ns.alignments.length) (h1 : OneByte as)
    (hw : ∀ r ∈ rs ++ [l], ValidRune r) (ht0 : t ≠ []) :
    (ns.append (encodeRunes (rs ++ [l])) >>= fun m => m.append t) = ns.append (encodeRunes (rs ++ [l]) ++ t) ↔ OneByte (z :: rs) := by
  have hpl := encodeRune_length_pos l
  have hpz := encodeRune_length_pos z
  have hs0 : encodeRunes (rs ++ [l]) ≠ [] := by
    intro e
    have := congrArg List.length e
    rw [encodeRunes_append, List.length_append, encodeRunes_cons, encodeRunes_nil, List.append_nil, List.length_nil] at this
    omega
  obtain ⟨a, b, ha, hb, e1⟩ := append_oneByte hv ht hal h1 hs0
  obtain ⟨a', b', ha', hb', e2⟩ := append_oneByte hv ht hal h1 (s := encodeRunes (rs ++ [l]) ++ t) (by simp [ht0])
  rw [ha] at ha'; cases ha'
  rw [hb] at hb'; cases hb'
  have hsan : sanitizeText (encodeRunes (rs ++ [l])) = encodeRunes (rs ++ [l]) := by
    rw [sanitizeText, ← runesOf_chunks, runesOf_encodeRunes _ hw]
  have hsan2 : sanitizeText (encodeRunes (rs ++ [l]) ++ t) = encodeRunes (rs ++ [l]) ++ sanitizeText t := by
    rw [sanitizeText, ← runesOf_chunks, runesOf_front hw, encodeRunes_append, runesOf_chunks, sanitizeText]
  rw [hsan] at e1
  rw [hsan2] at e2
  rw [e1, e2, GoM.bind_ok]
  have htl : ns.get.length = as.length + (encodeRune z).length := by rw [ht]; simp [h1.len]
  generalize hm : ({ ns with
      normalized := encodeRunes (as ++ [z]) ++ encodeRunes (rs ++ [l])
      alignments := ns.alignments.take as.length ++ List.replicate (encodeRune z).length a
        ++ List.replicate (encodeRunes (rs ++ [l])).length b ++ ns.alignments.drop ns.get.length } : NS) = m
  have hmt : m.get = encodeRunes ((as ++ z :: rs) ++ [l]) := by
    rw [← hm]; simp [NS.get]
  have hmv : ∀ r ∈ (as ++ z :: rs) ++ [l], ValidRune r := by
    intro r hr
    have : r ∈ as ++ [z] ∨ r ∈ rs ++ [l] := by
      simp at hr ⊢
      rcases hr with h | h | h | h <;> simp [h]
    exact this.elim (hv r) (hw r)
  have hma : m.alignments = ns.alignments.take as.length ++ (List.replicate (encodeRune z).length a
        ++ (List.replicate (encodeRunes (rs ++ [l])).length b ++ ns.alignments.drop ns.get.length)) := by
    rw [← hm]; simp
  have hmal : m.get.length ≤ m.alignments.length := by
    rw [hmt, hma]
    simp only [encodeRunes_append, List.length_append, List.length_take, List.length_replicate, List.length_drop, encodeRunes_cons, encodeRunes_nil, List.append_nil, h1.len]
    omega
  constructor
  · intro h
    have hc := chunks_concat hmv
    rw [← hmt] at hc
    obtain ⟨a2, x, xs, -, -, he⟩ := C129_append hmal hc t
    rw [if_neg ht0, h] at he
    split at he
    · cases he
    · simp only [GoM.ok.injEq, NS.mk.injEq] at he
      have hlen := congrArg List.length he.2.1
      simp only [List.length_append, List.length_take, List.length_map, encodeRunes_append, encodeRunes_cons, encodeRunes_nil,
        List.append_nil, List.length_cons, h1.len] at hlen
      refine oneByte_of_len ?_
      rw [encodeRunes_cons, List.length_append, List.length_cons]
      omega
  · intro h
    have h2 : OneByte (as ++ z :: rs) := by
      intro r hr
      rcases List.mem_append.1 hr with hr | hr
      · exact h1 r hr
      · exact h r hr
    have hz := h z (by simp)
    have hr : OneByte rs := fun r hr => h r (by simp [hr])
    obtain ⟨a3, b3, ha3, hb3, e3⟩ := append_oneByte hmv hmt hmal h2 ht0
    rw [e3]
    have hsl : (encodeRunes (rs ++ [l])).length = rs.length + (encodeRune l).length := by simp [hr.len]
    have hat : ∀ i, as.length + 1 ≤ i → i < as.length + 1 + (rs.length + (encodeRune l).length) → m.alignments[i]? = some b := by
      intro i hi hi'
      rw [hma, hz, hsl]
      rw [List.getElem?_append_right (by simp; omega), List.getElem?_append_right (by simp; omega), List.getElem?_append_left (by simp; omega)]
      rw [List.getElem?_replicate, if_pos (by simp; omega)]
    rw [hat _ (by simp <;> omega) (by simp <;> omega)] at ha3
    rw [hat _ (by simp; omega) (by simp; omega)] at hb3
    cases ha3
    cases hb3
    have hml : m.get.length = as.length + 1 + (rs.length + (encodeRune l).length) := by
      rw [hmt, encodeRunes_append, List.length_append, h2.len]; simp [Nat.add_assoc]; omega
    have htk : (ns.alignments.take as.length).length = as.length := by simp; omega
    have hdr : m.alignments.drop m.get.length = ns.alignments.drop ns.get.length := by
      rw [hma, hz, hsl, ← List.append_assoc, ← List.append_assoc]
      refine List.drop_left' ?_
      rw [hml, List.length_append, List.length_append, htk]
      simp
    have htkm : m.alignments.take (as ++ z :: rs).length = ns.alignments.take as.length ++ (List.replicate 1 a ++ List.replicate rs.length b) := by
      have : m.alignments = (ns.alignments.take as.length ++ (List.replicate 1 a ++ List.replicate rs.length b))
          ++ (List.replicate (encodeRune l).length b ++ ns.alignments.drop ns.get.length) := by
        rw [hma, hz, hsl, rep_add]; simp only [List.append_assoc]
      rw [this]
      refine List.take_left' ?_
      rw [List.length_append, htk]
      simp
    rw [hdr, htkm, hz]
    rw [← hm]
    simp only [GoM.ok.injEq, NS.mk.injEq, true_and, and_true]
    constructor
    · simp
    · simp only [List.length_append, hsl, List.append_assoc, rep_add]

/-- **C155, otherwise.**  If one of them is longer, the second call panics or leaves a text that is shorter than all there was. -/
theorem C155_loses {ns r : NS} {as rs : List Rune} {z l : Rune} {t : Str} (hv : ∀ r ∈ as ++ [z], ValidRune r)
    (ht : ns.get = encodeRunes (as ++ [z])) (hal : ns.get.length ≤ ns.alignments.length) (h1 : OneByte as)
    (hw : ∀ r ∈ rs ++ [l], ValidRune r) (ht0 : t ≠ []) (hno : ¬ OneByte (z :: rs))
    (hr : (ns.append (encodeRunes (rs ++ [l])) >>= fun m => m.append t) = .ok r) :
    r.get.length < (ns.get ++ encodeRunes (rs ++ [l]) ++ sanitizeText t).length := by
  have hs0 : encodeRunes (rs ++ [l]) ≠ [] := by
    intro e
    have := congrArg List.length e
    have hpl := encodeRune_length_pos l
    rw [encodeRunes_append, List.length_append, encodeRunes_cons, encodeRunes_nil, List.append_nil, List.length_nil] at this
    omega
  obtain ⟨a, b, ha, hb, e1⟩ := append_oneByte hv ht hal h1 hs0
  have hsan : sanitizeText (encodeRunes (rs ++ [l])) = encodeRunes (rs ++ [l]) := by
    rw [sanitizeText, ← runesOf_chunks, runesOf_encodeRunes _ hw]
  have htl : ns.get.length = as.length + (encodeRune z).length := by rw [ht]; simp [h1.len]
  rw [hsan] at e1
  rw [e1, GoM.bind_ok] at hr
  generalize hm : ({ ns with
      normalized := encodeRunes (as ++ [z]) ++ encodeRunes (rs ++ [l])
      alignments := ns.alignments.take as.length ++ List.replicate (encodeRune z).length a
        ++ List.replicate (encodeRunes (rs ++ [l])).length b ++ ns.alignments.drop ns.get.length } : NS) = m at hr
  have hmt : m.get = encodeRunes ((as ++ z :: rs) ++ [l]) := by
    rw [← hm]; simp [NS.get]
  have hmv : ∀ r ∈ (as ++ z :: rs) ++ [l], ValidRune r := by
    intro r hr
    have : r ∈ as ++ [z] ∨ r ∈ rs ++ [l] := by
      simp at hr ⊢
      rcases hr with h | h | h | h <;> simp [h]
    exact this.elim (hv r) (hw r)
  have hmal : m.get.length ≤ m.alignments.length := by
    rw [hmt, ← hm]
    simp only [encodeRunes_append, List.length_append, List.length_take, List.length_replicate, List.length_drop, encodeRunes_cons, encodeRunes_nil, List.append_nil, h1.len]
    omega
  have hc := chunks_concat hmv
  rw [← hmt] at hc
  obtain ⟨a2, x, xs, -, -, he⟩ := C129_append hmal hc t
  rw [if_neg ht0, hr] at he
  have hlt : rs.length + 1 < (encodeRunes (z :: rs)).length := by
    have := length_le_encodeRunes (z :: rs)
    rw [List.length_cons] at this
    rcases Nat.lt_or_ge (rs.length + 1) (encodeRunes (z :: rs)).length with h | h
    · exact h
    · exact absurd (oneByte_of_len (by rw [List.length_cons]; exact h)) hno
  rw [encodeRunes_cons, List.length_append] at hlt
  split at he
  · cases he
  · simp only [GoM.ok.injEq] at he
    rw [he]
    show List.length (_ ++ _ ++ _) < _
    simp only [List.length_append, List.length_take, List.length_map, encodeRunes_append, encodeRunes_cons, encodeRunes_nil,
      List.append_nil, List.length_cons, htl]
    omega

/-- "é" as the last rune does no harm; before it, the next `Append` panics or loses
a letter. -/
theorem C155_example :
    ((NS.fromString b!"a").append b!"bc" >>= fun m => m.append b!"d") = (NS.fromString b!"a").append b!"bcd"
    ∧ ((NS.fromString b!"a").append b!"bé" >>= fun m => m.append b!"d") = (NS.fromString b!"a").append b!"béd"
    ∧ ((NS.fromString b!"a").append b!"éb" >>= fun m => m.append b!"d") ≠ (NS.fromString b!"a").append b!"ébd"
    ∧ ((NS.fromString b!"é").append b!"b" >>= fun m => m.append b!"d") ≠ (NS.fromString b!"é").append b!"bd"
    ∧ ((NS.fromString b!"a").append b!"éb" >>= fun m => m.append b!"d") = .panic
    ∧ (((NS.fromString b!"a").append b!"ébc" >>= fun m => m.append b!"d") >>= fun m => .ok m.get) = .ok b!"aécd" := by decide +kernel

end Verif
