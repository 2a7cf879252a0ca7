import Verif.Props.FilterAnyState

/-! `Map` after `Map` or `Filter`, in any state whatever (C142). -/

set_option autoImplicit false

namespace Verif

/-! ## Proofs -/

theorem spread_length (out : List Rune) (ps : List Align) (h : ps.length = out.length) :
    ((out.zip ps).flatMap fun x => List.replicate (encodeRune x.1).length x.2).length = (encodeRunes out).length := by
  induction out generalizing ps with
  | nil => simp [encodeRunes]
  | cons r out ih =>
    cases ps with
    | nil => simp at h
    | cons p ps =>
      simp only [List.length_cons, Nat.add_right_cancel_iff] at h
      simp [encodeRunes, ih ps h] at *

theorem spread_at (rest : List Align) : ∀ (out : List Rune) (ps : List Align) (k : Nat), ps.length = out.length → k < out.length →
    (((out.zip ps).flatMap fun x => List.replicate (encodeRune x.1).length x.2) ++ rest)[(encodeRunes (out.take k)).length]? = ps[k]? := by
  intro out
  induction out with
  | nil => intro ps k _ hk; simp at hk
  | cons r out ih =>
    intro ps k h hk
    cases ps with
    | nil => simp at h
    | cons p ps =>
      simp only [List.length_cons, Nat.add_right_cancel_iff] at h
      have hpos := encodeRune_length_pos r
      cases k with
      | zero =>
        simp only [List.take_zero, List.zip_cons_cons, List.flatMap_cons, encodeRunes, List.flatMap_nil, List.length_nil, List.append_assoc]
        rw [List.getElem?_append_left (by simpa using hpos)]
        simp [hpos]
      | succ k =>
        have := ih ps k h (by simpa using hk)
        simp only [List.take_succ_cons, List.zip_cons_cons, List.flatMap_cons, List.append_assoc, List.getElem?_cons_succ]
        have he : (encodeRunes (r :: out.take k)).length = (encodeRune r).length + (encodeRunes (out.take k)).length := by
          simp [encodeRunes]
        rw [he, List.getElem?_append_right (by simp)]
        simpa using this

theorem keeping_map (ns : NS) (out : List Rune) (ps : List Align) (h : ps.length = out.length) (g : Rune → Rune) :
    (keeping ns out ps).map g = .ok (keeping ns (out.map fun r => g (sanitize r)) ps) := by
  have hl := spread_length out ps h
  have hru : runesOf (keeping ns out ps).normalized = out.map sanitize := runesOf_encodeRunes' out
  have hc := (C140_map (keeping ns out ps) g).1 ps ⟨?_, ?_, ?_⟩
  · rw [hc, hru]
    simp only [keeping, GoM.ok.injEq, List.map_map, Function.comp_def]
    congr 1
    rw [List.drop_append_of_le_length (by omega), List.drop_of_length_le (by omega), List.nil_append]
  · simp only [keeping, List.length_append]
    omega
  · intro k0 hk0
    rw [hru] at hk0 ⊢
    rw [List.length_map] at hk0 ⊢
    cases out with
    | nil => simp at hk0
    | cons r out =>
      simp only [List.length_cons, List.range_succ_eq_map, List.head?_cons, Option.mem_def, Option.some.injEq] at hk0
      subst hk0
      rw [List.drop_zero, hru]
      simp
  · rw [hru, List.length_map]
    apply List.ext_getElem?
    intro k
    by_cases hk : k < out.length
    · have h0 : (List.range out.length).headD 0 = 0 := by
        cases out with
        | nil => simp at hk
        | cons r out => simp [List.range_succ_eq_map]
      rw [h0]
      simp only [List.getElem?_map, List.getElem?_range hk, Option.map_some, placeKept, List.drop_zero, hru, Nat.zero_add, Nat.sub_zero]
      have := spread_at (ns.alignments.drop ns.normalized.length) out ps k h hk
      rw [← List.map_take, encodeRunes_sanitize]
      simp only [keeping]
      rw [this, List.getElem?_eq_getElem (by omega : k < ps.length)]
      rfl
    · rw [List.getElem?_eq_none (by simp; omega), List.getElem?_eq_none (by simp; omega)]

theorem KeepsOrPanics.map {ns : NS} {call : GoM NS} {ks : List Nat} {out : List Rune} (h : KeepsOrPanics ns call ks out)
    (hl : ks.length = out.length) (g : Rune → Rune) :
    KeepsOrPanics ns (call.bind fun ns' => ns'.map g) ks (out.map fun r => g (sanitize r)) := by
  constructor
  · intro ps hp
    have : ps.length = ks.length := by simpa using congrArg List.length hp.each
    rw [h.1 ps hp]
    exact keeping_map ns out ps (by omega) g
  · intro hn
    rw [h.2 hn]
    rfl

theorem KeepsOrPanics.unique {ns : NS} {c c' : GoM NS} {ks : List Nat} {out : List Rune} (h : KeepsOrPanics ns c ks out)
    (h' : KeepsOrPanics ns c' ks out) : c = c' := by
  by_cases hx : ∃ ps, KeepsRunes ns ks ps
  · obtain ⟨ps, hp⟩ := hx
    rw [h.1 ps hp, h'.1 ps hp]
  · rw [h.2 hx, h'.2 hx]

/-- **C142, Map after Map** is one `Map`, in any state, also when they panic. -/
theorem C142_map (ns : NS) (f g : Rune → Rune) :
    ((ns.map f).bind fun ns' => ns'.map g) = ns.map fun r => g (sanitize (f r)) := by
  have h1 := (C140_map ns f).map (by simp) g
  rw [List.map_map] at h1
  exact h1.unique (C140_map ns _)

/-- **C142, Map after Filter**: the runes kept, each mapped; `Map` adds no panic. -/
theorem C142_filter (ns : NS) (keep : Rune → Bool) (g : Rune → Rune) :
    KeepsOrPanics ns ((ns.filter keep).bind fun ns' => ns'.map g) (((runesOf ns.normalized).zipIdx.filter fun x => keep x.1).map (·.2))
      (((runesOf ns.normalized).filter keep).map fun r => g (sanitize r)) := by
  refine (C140_filter ns keep).map ?_ g
  have : (runesOf ns.normalized).filter keep = ((runesOf ns.normalized).zipIdx.filter fun x => keep x.1).map (·.1) := by
    conv => lhs; rw [← List.zipIdx_map_fst 0 (runesOf ns.normalized), List.filter_map]
    rfl
  rw [this]; simp

/-- **C142, Map heals**: after a `Map` that returns, the text is UTF-8 and every `Map` returns; one that gives back the rune changes
nothing more. -/
theorem C142_heals {ns ns' : NS} {f : Rune → Rune} (h : ns.map f = .ok ns') :
    ValidUtf8 ns'.normalized ∧ ns'.normalized.length ≤ ns'.alignments.length ∧ ns'.map (fun r => r) = .ok ns'
    ∧ ∀ g, ∃ ns'', ns'.map g = .ok ns'' := by
  have hk := C140_map ns f
  by_cases hx : ∃ ps, KeepsRunes ns (List.range (runesOf ns.normalized).length) ps
  · obtain ⟨ps, hp⟩ := hx
    have hl : ps.length = ((runesOf ns.normalized).map f).length := by
      have := congrArg List.length hp.each
      simpa using this
    rw [hk.1 ps hp, GoM.ok.injEq] at h
    subst h
    refine ⟨?_, ?_, ?_, fun g => ⟨_, keeping_map ns _ ps hl g⟩⟩
    · simp only [keeping]
      rw [← encodeRunes_sanitize]
      exact ⟨_, fun r hr => by obtain ⟨x, -, rfl⟩ := List.mem_map.1 hr; exact sanitize_valid x, rfl⟩
    · have := spread_length _ ps hl
      simp only [keeping, List.length_append]
      omega
    · rw [keeping_map ns _ ps hl]
      simp only [keeping, encodeRunes_sanitize]
      congr 3
      rw [List.zip_map_left, List.flatMap_map]
      simp
  · rw [hk.2 hx] at h; cases h

/-! ## Concrete -/

/-- On a bad byte and a letter; and without alignments, where the panic is that of the first call. -/
theorem C142_example :
    ((NS.fromString [0xFF, 0x61]).map (fun r => r + 1)).bind (fun ns => ns.map fun r => r + 1)
      = .ok ⟨[0xFF, 0x61], [0xEF, 0xBF, 0xBF, 0x63], [⟨0, 3⟩, ⟨0, 3⟩, ⟨0, 3⟩, ⟨1, 2⟩, ⟨0, 3⟩, ⟨1, 2⟩], 0⟩
    ∧ ((⟨b!"a", b!"a", [], 0⟩ : NS).map (fun r => r + 1)).bind (fun ns => ns.map fun r => r + 1) = .panic := by
  decide +kernel

/-- `Filter` twice is not `Filter` once: without é and then without a, `Filter` panics on éab; without both at once it gives b the
alignment of a. -/
theorem C142_filter_twice :
    ((NS.fromString b!"éab").filter (· != u!"é")).bind (fun ns => ns.filter (· != u!"a")) = .panic
    ∧ (NS.fromString b!"éab").filter (fun r => r != u!"é" && r != u!"a") = .ok ⟨b!"éab", b!"b", [⟨2, 3⟩], 0⟩ := by
  decide +kernel

end Verif
