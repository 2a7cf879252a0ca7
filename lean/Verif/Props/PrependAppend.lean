import Verif.Props.AppendTwice

/-! When `Prepend` and `Append` may change places (C156). -/

set_option autoImplicit false

namespace Verif

/-- `Prepend` to a text that begins with a rune of one byte. -/
theorem prepend_oneByte {ns : NS} {y : Rune} {u : Str} (hy : ValidRune y) (h1 : (encodeRune y).length = 1) (ht : ns.get = encodeRune y ++ u)
    {x : Align} {xs : List Align} (hx : ns.alignments = x :: xs) {rs : List Rune} (hv : ∀ r ∈ rs, ValidRune r) (hne : rs ≠ []) :
    ns.prepend (encodeRunes rs) = .ok { ns with
      normalized := encodeRunes rs ++ ns.get
      alignments := List.replicate (encodeRunes rs).length x ++ ns.alignments } := by
  have hc : chunks ns.get = ⟨encodeRune y, y⟩ :: chunks u := by rw [ht]; exact chunks_rune_append hy u
  obtain ⟨a, b, ha, hb, he⟩ := (C150_prepend hc (encodeRunes rs)).2 (by rw [ht]; simp) (by rw [hx]; simp [h1])
  simp only [h1, hx, Nat.sub_self, List.getElem?_cons_zero, Option.some.injEq] at ha hb
  subst ha
  subst hb
  rw [he]
  obtain ⟨r, rs', rfl⟩ := List.exists_cons_of_ne_nil hne
  have hsan : sanitizeText (encodeRunes (r :: rs')) = encodeRunes (r :: rs') := by
    rw [sanitizeText, ← runesOf_chunks, runesOf_encodeRunes _ hv]
  simp only [hsan, runesOf_encodeRunes _ hv, h1, hx, ht, GoM.ok.injEq, NS.mk.injEq, true_and, and_true]
  constructor
  · rw [show List.drop 1 (encodeRune y ++ u) = u by rw [← h1]; simp]; simp
  · rw [encodeRunes_append, encodeRunes_cons, encodeRunes_cons, encodeRunes_nil, List.append_nil, List.length_append, List.length_append, h1, rep_add, rep_add]
    simp only [List.append_assoc, List.replicate_one, List.singleton_append, List.drop_succ_cons, List.drop_zero]

/-- **C156.**  A text of at least two valid runes, all but the last of one byte, in any state with as many alignments as bytes or more;
`rs` are the runes to put in front, `t` the text to add behind.  The two calls may change places exactly if the runes in front have one byte each. -/
theorem C156_swap {ns : NS} {y z : Rune} {ys rs : List Rune} {t : Str} (hv : ∀ r ∈ (y :: ys) ++ [z], ValidRune r)
    (ht : ns.get = encodeRunes ((y :: ys) ++ [z])) (hal : ns.get.length ≤ ns.alignments.length) (h1 : OneByte (y :: ys))
    (hw : ∀ r ∈ rs, ValidRune r) (hne : rs ≠ []) (ht0 : t ≠ []) :
    (ns.prepend (encodeRunes rs) >>= fun m => m.append t) = (ns.append t >>= fun m => m.prepend (encodeRunes rs)) ↔ OneByte rs := by
  have hy : ValidRune y := hv y (by simp)
  have hy1 := h1 y (by simp)
  have hpz := encodeRune_length_pos z
  have htl : ns.get.length = (y :: ys).length + (encodeRune z).length := by rw [ht, encodeRunes_append, List.length_append, h1.len]; simp
  have hyl : (y :: ys).length = ys.length + 1 := rfl
  obtain ⟨x, xs, hx⟩ : ∃ x xs, ns.alignments = x :: xs := List.exists_cons_of_ne_nil (by
    intro e
    rw [e, List.length_nil] at hal
    omega)
  have ep := prepend_oneByte hy hy1 (u := encodeRunes (ys ++ [z])) (by rw [ht]; simp) hx hw hne
  obtain ⟨a, b, ha, hb, ea⟩ := append_oneByte hv ht hal h1 ht0
  have eap : (ns.append t >>= fun m => m.prepend (encodeRunes rs)) = .ok { ns with
      normalized := encodeRunes rs ++ (encodeRunes ((y :: ys) ++ [z]) ++ sanitizeText t)
      alignments := List.replicate (encodeRunes rs).length x ++ (ns.alignments.take (y :: ys).length ++ List.replicate (encodeRune z).length a
            ++ List.replicate (sanitizeText t).length b ++ ns.alignments.drop ns.get.length) } := by
    rw [ea, GoM.bind_ok]
    refine prepend_oneByte hy hy1 (u := encodeRunes (ys ++ [z]) ++ sanitizeText t) ?_ (x := x)
      (xs := xs.take ys.length ++ List.replicate (encodeRune z).length a ++ List.replicate (sanitizeText t).length b
        ++ ns.alignments.drop ns.get.length) ?_ hw hne
    · simp [NS.get]
    · simp [hx]
  rw [eap, ep, GoM.bind_ok]
  generalize hm : ({ ns with
      normalized := encodeRunes rs ++ ns.get
      alignments := List.replicate (encodeRunes rs).length x ++ ns.alignments } : NS) = m
  have hmt : m.get = encodeRunes ((rs ++ y :: ys) ++ [z]) := by
    rw [← hm]
    show encodeRunes rs ++ ns.get = _
    rw [ht]; simp
  have hma : m.alignments = List.replicate (encodeRunes rs).length x ++ ns.alignments := by rw [← hm]
  have hml : m.get.length = (encodeRunes rs).length + ns.get.length := by
    rw [← hm]
    show (encodeRunes rs ++ ns.get).length = _
    rw [List.length_append]
  have hmal : m.get.length ≤ m.alignments.length := by
    rw [hml, hma, List.length_append, List.length_replicate]; omega
  have hmv : ∀ r ∈ (rs ++ y :: ys) ++ [z], ValidRune r := by
    intro r hr
    rw [List.append_assoc] at hr
    rcases List.mem_append.1 hr with h | h
    · exact hw r h
    · exact hv r h
  constructor
  · intro h
    have hc := chunks_concat hmv
    rw [← hmt] at hc
    obtain ⟨a2, w, ws, -, -, he⟩ := C129_append hmal hc t
    rw [if_neg ht0, h] at he
    split at he
    · cases he
    · simp only [GoM.ok.injEq, NS.mk.injEq] at he
      have hlen := congrArg List.length he.2.1
      simp only [List.length_append, List.length_take, List.length_map, encodeRunes_append, h1.len] at hlen
      simp only [encodeRunes_cons, encodeRunes_nil, List.append_nil] at hlen
      refine oneByte_of_len ?_
      omega
  · intro h
    have h2 : OneByte (rs ++ y :: ys) := by
      intro r hr
      rcases List.mem_append.1 hr with hr | hr
      · exact h r hr
      · exact h1 r hr
    obtain ⟨a3, b3, ha3, hb3, e3⟩ := append_oneByte hmv hmt hmal h2 ht0
    have hat : ∀ i, m.alignments[rs.length + i]? = ns.alignments[i]? := by
      intro i
      rw [hma, h.len, List.getElem?_append_right (by simp)]
      simp
    rw [List.length_append, hat] at ha3
    rw [List.length_append, show rs.length + (y :: ys).length + (encodeRune z).length - 1
      = rs.length + ((y :: ys).length + (encodeRune z).length - 1) by omega, hat] at hb3
    rw [ha] at ha3
    rw [hb] at hb3
    cases ha3
    cases hb3
    rw [e3]
    have htk : m.alignments.take (rs ++ y :: ys).length = List.replicate rs.length x ++ ns.alignments.take (y :: ys).length := by
      rw [hma, h.len, List.length_append, List.take_append]
      simp
    have hdr : m.alignments.drop m.get.length = ns.alignments.drop ns.get.length := by
      rw [hma, hml, h.len, List.drop_append]
      simp
    rw [htk, hdr, ← hm, h.len]
    simp only [GoM.ok.injEq, NS.mk.injEq, true_and, and_true]
    constructor
    · simp
    · simp only [List.append_assoc]

/-- With "é" in front, adding behind it loses a letter. -/
theorem C156_example :
    ((NS.fromString b!"abc").prepend b!"x" >>= fun m => m.append b!"y") = ((NS.fromString b!"abc").append b!"y" >>= fun m => m.prepend b!"x")
    ∧ (((NS.fromString b!"abc").prepend b!"é" >>= fun m => m.append b!"y") >>= fun m => .ok m.get) = .ok b!"éacy"
    ∧ (((NS.fromString b!"abc").append b!"y" >>= fun m => m.prepend b!"é") >>= fun m => .ok m.get) = .ok b!"éabcy" := by decide +kernel

end Verif
