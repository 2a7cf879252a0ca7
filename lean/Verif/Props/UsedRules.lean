import Verif.Props.MergeCut

/-! C116: rules of a merges file that a text does not need. -/

set_option autoImplicit false

namespace Verif

open Ref Json

/-- The rules that BPE applies, in order. -/
def usedRules (rules : List (Str × Str)) : Nat → List Str → List (Str × Str)
  | 0, _ => []
  | n + 1, w =>
    match firstRule rules w with
    | none => []
    | some (a, b) => (a, b) :: usedRules rules n (mergeFirst a b w)

theorem lastOnly_filter (keep : Str × Str → Bool) (rules : List (Str × Str)) :
    lastOnly (rules.filter keep) = (lastOnly rules).filter keep := by
  induction rules with
  | nil => rfl
  | cons r rules ih =>
    by_cases hk : keep r = true
    · rw [List.filter_cons_of_pos hk, lastOnly, lastOnly]
      by_cases h : r ∈ rules
      · rw [if_pos (List.mem_filter.2 ⟨h, hk⟩), if_pos h, ih]
      · rw [if_neg (fun h' => h (List.mem_filter.1 h').1), if_neg h, List.filter_cons_of_pos hk, ih]
    · rw [List.filter_cons_of_neg hk, ih, lastOnly]
      split
      · rfl
      · rw [List.filter_cons_of_neg hk]

/-- Dropping rules keeps the first rule that applies, unless it is dropped. -/
theorem firstRule_filter {keep : Str × Str → Bool} {rules : List (Str × Str)} {w : List Str} (h : ∀ r, firstRule rules w = some r → keep r = true) :
    firstRule (rules.filter keep) w = firstRule rules w := by
  unfold firstRule at h ⊢
  rw [lastOnly_filter]
  generalize lastOnly rules = l at h ⊢
  induction l with
  | nil => rfl
  | cons r l ih =>
    rw [List.find?_cons] at h ⊢
    by_cases hn : r ∈ neighbours w
    · simp only [hn, decide_true] at h ⊢
      rw [List.filter_cons_of_pos (h r rfl), List.find?_cons]
      simp only [hn, decide_true]
    · simp only [hn, decide_false] at h ⊢
      rw [← ih h]
      by_cases hk : keep r = true
      · rw [List.filter_cons_of_pos hk, List.find?_cons]; simp only [hn, decide_false]
      · rw [List.filter_cons_of_neg hk]

/-- **C116, by rules.** BPE applies as many rules as there are fewer pieces at the end; dropping any others changes nothing. -/
theorem C116_rules (rules : List (Str × Str)) : ∀ (n : Nat) (w : List Str), w.length ≤ n →
    (usedRules rules n w).length + (bpe rules w).length = w.length
    ∧ (∀ r ∈ usedRules rules n w, r ∈ rules ∧ ∃ x ∈ bpe rules w, r.1 ++ r.2 <:+: x)
    ∧ ∀ keep : Str × Str → Bool, (∀ r ∈ usedRules rules n w, keep r = true) → bpe (rules.filter keep) w = bpe rules w
  | 0, w, h => by
    rw [List.length_eq_zero_iff.1 (by omega : w.length = 0)]
    exact ⟨rfl, by simp [usedRules], fun _ _ => rfl⟩
  | n + 1, w, h => by
    cases hr : firstRule rules w with
    | none =>
      simp only [usedRules, hr]
      refine ⟨by rw [bpe_none hr]; simp, by simp, fun keep _ => ?_⟩
      rw [bpe_none hr]
      apply bpe_none
      rw [firstRule_filter (by rw [hr]; simp), hr]
    | some r =>
      obtain ⟨a, b⟩ := r
      have hm := (firstRule_some.1 hr).1
      have hl := mergeFirst_length hm
      obtain ⟨A, B, e1, e2, -⟩ := mergeFirst_split hm
      obtain ⟨i1, i2, i3⟩ := C116_rules rules n (mergeFirst a b w) (by omega)
      simp only [usedRules, hr]
      rw [bpe_some hr]
      refine ⟨by simp only [List.length_cons]; omega, ?_, ?_⟩
      · intro r hmem
        rcases List.mem_cons.1 hmem with rfl | hmem
        · refine ⟨?_, ?_⟩
          · apply Classical.byContradiction
            intro hn
            have hf := List.mem_of_find?_eq_some hr
            rw [mem_lastOnly] at hf
            exact hn hf
          · obtain ⟨gs, g1, g2, -⟩ := bpe_coarser rules _ (mergeFirst a b w) (Nat.le_refl _)
            have hin : (a ++ b) ∈ gs.flatten := by rw [g1, e2]; simp
            obtain ⟨g, hg, hx⟩ := List.mem_flatten.1 hin
            refine ⟨g.flatten, by rw [← g2]; exact List.mem_map.2 ⟨g, hg, rfl⟩, ?_⟩
            obtain ⟨P, Q, rfl⟩ := List.append_of_mem hx
            exact ⟨P.flatten, Q.flatten, by simp⟩
        · exact i2 r hmem
      · intro keep hk
        have hkr := hk (a, b) (by simp)
        have hf : firstRule (rules.filter keep) w = some (a, b) := by
          rw [firstRule_filter (by rw [hr]; rintro _ ⟨⟩; exact hkr), hr]
        rw [bpe_some hf]
        exact i3 keep fun r h => hk r (by simp [h])

/-- **C116, by pieces.** Rules whose product is in none of the pieces are not needed. -/
theorem C116_products (rules : List (Str × Str)) (w : List Str) (keep : Str × Str → Bool)
    (h : ∀ r ∈ rules, ∀ x ∈ bpe rules w, r.1 ++ r.2 <:+: x → keep r = true) : bpe (rules.filter keep) w = bpe rules w := by
  obtain ⟨-, h2, h3⟩ := C116_rules rules _ w (Nat.le_refl _)
  refine h3 keep fun r hr => ?_
  obtain ⟨h4, x, hx, h5⟩ := h2 r hr
  exact h r h4 x hx h5

theorem nodup_fst_unique {es : List (Str × Int)} (hk : (es.map (·.1)).Nodup) {x : Str} {i j : Int} (hi : (x, i) ∈ es) (hj : (x, j) ∈ es) : i = j := by
  induction es with
  | nil => cases hi
  | cons e es ih =>
    rw [List.map_cons, List.nodup_cons] at hk
    rcases List.mem_cons.1 hi with rfl | hi' <;> rcases List.mem_cons.1 hj with h | hj
    · simp at h; exact h.symm
    · exact absurd (List.mem_map.2 ⟨_, hj, rfl⟩) hk.1
    · subst h; exact absurd (List.mem_map.2 ⟨(x, i), by assumption, rfl⟩) hk.1
    · exact ih hk.2 hi' hj

theorem tokens_eq {ts ts' : List Token} {es : List (Str × Int)} (hk : (es.map (·.1)).Nodup)
    (h : ∀ t ∈ ts, (t.value, t.id) ∈ es) (h' : ∀ t ∈ ts', (t.value, t.id) ∈ es)
    (e : ts.map (fun t => (t.value, t.offsets.start, t.offsets.stop)) = ts'.map (fun t => (t.value, t.offsets.start, t.offsets.stop))) : ts = ts' := by
  induction ts generalizing ts' with
  | nil => cases ts' with
    | nil => rfl
    | cons t ts' => cases e
  | cons t ts ih => cases ts' with
    | nil => cases e
    | cons t' ts' =>
      simp only [List.map_cons, List.cons.injEq, Prod.mk.injEq] at e
      obtain ⟨⟨e1, e2, e3⟩, e4⟩ := e
      have hid : t.id = t'.id := by
        have a := h t (by simp)
        have b := h' t' (by simp)
        rw [← e1] at b
        exact nodup_fst_unique hk a b
      obtain ⟨i, v, o1, o2⟩ := t
      obtain ⟨i', v', o1', o2'⟩ := t'
      simp only at e1 e2 e3 hid
      subst e1 e2 e3 hid
      rw [ih (fun t ht => h t (by simp [ht])) (fun t ht => h' t (by simp [ht])) e4]

/-- **C116.** A vocabulary and rules are written to files.  For each text of known characters there are as many rules as the text has
characters more than tokens, each with a product inside a token, such that a merges file with these and any of the others, in
the order of the whole file, gives the same tokens. -/
theorem C116_files (m : Machine) (es : List (Str × Int)) (rules : List (Str × Str))
    (order : GoMap Str Int → List (Str × Int)) (ho : IterationOrder order)
    (hv : ∀ e ∈ es, ValidUtf8 e.1 ∧ e.1 ≠ []) (hi : ∀ e ∈ es, -(m.half : Int) ≤ e.2 ∧ e.2 < m.half)
    (hk : (es.map (·.1)).Nodup) (hid : (es.map (·.2)).Nodup) (hw : ∀ r ∈ rules, Writable r)
    (hr : ∀ r ∈ rules, ∀ t ∈ [r.1, r.2, r.1 ++ r.2], t ∈ es.map (·.1)) :
    ∃ v whole, Vocab.fromJSONFile m (writeVocab es) order = .ok v
      ∧ mergeMapFromFile (writeRules rules) v 0 = .ok (.ok whole)
      ∧ ∀ rs : List Rune, (∀ r ∈ rs, ValidRune r) → (∀ r ∈ rs, encodeRune r ∈ es.map (·.1)) →
        ∃ (ts : List Token) (used : List (Str × Str)), used.length + ts.length = rs.length
          ∧ (∀ r ∈ used, r ∈ rules ∧ ∃ t ∈ ts, r.1 ++ r.2 <:+: t.value)
          ∧ (∀ (capacity : Int) (unk : Str) (fuse : Bool) (rnd : Nat → Bool), unk = [] ∨ unk ∈ es.map (·.1) →
            (plainBPE v whole capacity unk [] fuse).tokenize rnd (encodeRunes rs) = .ok (.ok (some ts)))
          ∧ ∀ keep : Str × Str → Bool, (∀ r ∈ used, keep r = true) →
            ∃ part, mergeMapFromFile (writeRules (rules.filter keep)) v 0 = .ok (.ok part)
              ∧ ∀ (capacity : Int) (unk : Str) (fuse : Bool) (rnd : Nat → Bool), unk = [] ∨ unk ∈ es.map (·.1) →
                (plainBPE v part capacity unk [] fuse).tokenize rnd (encodeRunes rs) = .ok (.ok (some ts)) := by
  obtain ⟨v, whole, h1, h2, h3, h4⟩ := C82_files m es rules order ho (fun e he => (hv e he).1) hi hk hid hw hr
  refine ⟨v, whole, h1, h2, ?_⟩
  intro rs hrs hx
  have hx' : ∀ x ∈ suffixed [] rs, x ∈ es.map (·.1) := by
    rw [suffixed_nil]
    intro x h
    obtain ⟨r, hr, rfl⟩ := List.mem_map.1 h
    exact hx r hr
  obtain ⟨ts, a1, a2, a3, a4⟩ := loaded_tokens hv h2 h3 h4 0 [] [] false (fun _ => false) rs (.inl rfl) hrs hx'
  rw [suffixed_nil] at a2
  obtain ⟨u1, u2, u3⟩ := C116_rules rules _ (rs.map encodeRune) (Nat.le_refl _)
  refine ⟨ts, usedRules rules (rs.map encodeRune).length (rs.map encodeRune), ?_, ?_, ?_, ?_⟩
  · rw [← a2] at u1
    simpa using u1
  · intro r h
    obtain ⟨h5, x, hx, h6⟩ := u2 r h
    rw [← a2] at hx
    obtain ⟨t, ht, rfl⟩ := List.mem_map.1 hx
    exact ⟨h5, t, ht, h6⟩
  · intro capacity unk fuse rnd hu
    obtain ⟨ts', b1, -, b3, b4⟩ := loaded_tokens hv h2 h3 h4 capacity unk [] fuse rnd rs hu hrs hx'
    rw [b1, tokens_eq hk b3 a3 (by rw [b4 rfl, a4 rfl])]
  · intro keep hkeep
    obtain ⟨v', part, k1, k2, k3, k4⟩ := C82_files m es (rules.filter keep) order ho (fun e he => (hv e he).1) hi hk hid
      (fun r h => hw r (List.mem_filter.1 h).1) (fun r h => hr r (List.mem_filter.1 h).1)
    rw [h1] at k1
    injection k1 with k1
    subst k1
    refine ⟨part, k2, ?_⟩
    intro capacity unk fuse rnd hu
    obtain ⟨ts', b1, -, b3, b4⟩ := loaded_tokens hv k2 k3 k4 capacity unk [] fuse rnd rs hu hrs hx'
    rw [b1, tokens_eq hk b3 a3 (by rw [b4 rfl, a4 rfl, u3 keep hkeep])]

/-- Of three rules two are used; the last one can be dropped, and the tokens stay. -/
example : let rules := [(b!"b", b!"c"), (b!"a", b!"bc"), (b!"a", b!"b")]
    usedRules rules 3 [b!"a", b!"b", b!"c"] = [(b!"b", b!"c"), (b!"a", b!"bc")]
    ∧ bpe rules [b!"a", b!"b", b!"c"] = [b!"abc"] ∧ bpe (rules.take 2) [b!"a", b!"b", b!"c"] = [b!"abc"] := by decide +kernel

/-- The product of a rule that is used, `ab` here, is only inside a token: dropping the rules whose product is no token is not enough. -/
theorem C116_counterexample : ¬ ∀ (rules : List (Str × Str)) (w : List Str),
    bpe (rules.filter fun r => decide (r.1 ++ r.2 ∈ bpe rules w)) w = bpe rules w := by
  intro h
  have := h [(b!"a", b!"b"), (b!"ab", b!"c")] [b!"a", b!"b", b!"c"]
  revert this
  decide +kernel

end Verif
