import Verif.Lemmas.Json
import Verif.Props.Vocab

/-! C81: vocabularies from JSON files, byte by byte. -/

set_option autoImplicit false

namespace Verif
namespace Json

/-! ## The parser and the grammar -/

theorem skipSpace_idem (s : Str) : skipSpace (skipSpace s) = skipSpace s := by
  obtain ⟨-, -, -, h⟩ := skipSpace_split s
  exact skipSpace_eq h

theorem parse_sound : ∀ fuel,
    (∀ d s v r, parseValue fuel d s = some (v, r) → ∃ t, s = t ++ r ∧ Value d t v)
    ∧ (∀ d s vs r, parseElems fuel d s = some (vs, r) → ∃ t, s = t ++ 0x5D :: r ∧ Elems d t vs)
    ∧ (∀ d s ms r, parseMembers fuel d s = some (ms, r) → ∃ t, s = t ++ 0x7D :: r ∧ Members d t ms) := by
  intro fuel
  induction fuel with
  | zero =>
    refine ⟨?_, ?_, ?_⟩
    · intro d s v r h; simp [parseValue] at h
    · intro d s v r h; simp [parseElems] at h
    · intro d s v r h; simp [parseMembers] at h
  | succ fuel ih =>
    obtain ⟨ihv, ihe, ihm⟩ := ih
    refine ⟨?_, ?_, ?_⟩
    · intro d s v r h
      rw [parseValue.eq_def] at h
      simp only at h
      split at h
      · simp only [Option.some.injEq, Prod.mk.injEq] at h; obtain ⟨rfl, rfl⟩ := h; exact ⟨b!"null", rfl, .null⟩
      · simp only [Option.some.injEq, Prod.mk.injEq] at h; obtain ⟨rfl, rfl⟩ := h; exact ⟨b!"true", rfl, .boolTrue⟩
      · simp only [Option.some.injEq, Prod.mk.injEq] at h; obtain ⟨rfl, rfl⟩ := h; exact ⟨b!"false", rfl, .boolFalse⟩
      · simp only [Option.map_eq_some_iff, Prod.mk.injEq] at h
        obtain ⟨⟨str, r'⟩, h1, rfl, rfl⟩ := h
        obtain ⟨t, rfl, hb⟩ := parseString_some h1
        exact ⟨_, by simp, .str hb⟩
      · rename_i s
        split at h
        · cases h
        · rename_i d
          obtain ⟨w, hw, hs, -⟩ := skipSpace_split s
          split at h
          · rename_i s' heq
            simp only [Option.some.injEq, Prod.mk.injEq] at h
            obtain ⟨rfl, rfl⟩ := h
            rw [heq] at hs
            exact ⟨b!"[" ++ w ++ b!"]", by simp [hs], .arr0 hw⟩
          · simp only [Option.map_eq_some_iff, Prod.mk.injEq] at h
            obtain ⟨⟨vs, r'⟩, h1, rfl, rfl⟩ := h
            obtain ⟨t, ht, he⟩ := ihe _ _ _ _ h1
            rw [ht] at hs
            refine ⟨b!"[" ++ (w ++ t) ++ b!"]", by simp [hs], .arr ?_⟩
            cases he with
            | one e1 e2 e3 => simpa using Elems.one (hw.append e1) e2 e3
            | cons e1 e2 e3 e4 => simpa using Elems.cons (hw.append e1) e2 e3 e4
      · rename_i s
        split at h
        · cases h
        · rename_i d
          obtain ⟨w, hw, hs, -⟩ := skipSpace_split s
          split at h
          · rename_i s' heq
            simp only [Option.some.injEq, Prod.mk.injEq] at h
            obtain ⟨rfl, rfl⟩ := h
            rw [heq] at hs
            exact ⟨b!"{" ++ w ++ b!"}", by simp [hs], .obj0 hw⟩
          · simp only [Option.map_eq_some_iff, Prod.mk.injEq] at h
            obtain ⟨⟨ms, r'⟩, h1, rfl, rfl⟩ := h
            obtain ⟨t, ht, he⟩ := ihm _ _ _ _ h1
            rw [ht] at hs
            refine ⟨b!"{" ++ (w ++ t) ++ b!"}", by simp [hs], .obj ?_⟩
            cases he with
            | one e1 e2 e3 e4 e5 e6 => simpa using Members.one (hw.append e1) e2 e3 e4 e5 e6
            | cons e1 e2 e3 e4 e5 e6 e7 => simpa using Members.cons (hw.append e1) e2 e3 e4 e5 e6 e7
      · simp only [Option.map_eq_some_iff, Prod.mk.injEq] at h
        obtain ⟨⟨t, r'⟩, h1, rfl, rfl⟩ := h
        obtain ⟨rfl, hn⟩ := scanNumber_some h1
        exact ⟨t, rfl, .num hn⟩
    · intro d s vs r h
      rw [parseElems.eq_def] at h
      simp only [Option.bind_eq_bind, Option.bind_eq_some_iff] at h
      obtain ⟨⟨v, s1⟩, h1, h⟩ := h
      obtain ⟨t, ht, hv⟩ := ihv _ _ _ _ h1
      obtain ⟨w, hw, hs, -⟩ := skipSpace_split s
      obtain ⟨w', hw', hs', -⟩ := skipSpace_split s1
      simp only at h
      split at h
      · rename_i s2 heq
        simp only [Option.bind_eq_some_iff, Option.pure_def, Option.some.injEq, Prod.mk.injEq] at h
        obtain ⟨⟨vs', s3⟩, h2, rfl, rfl⟩ := h
        obtain ⟨u, hu, he⟩ := ihe _ _ _ _ h2
        refine ⟨w ++ t ++ w' ++ b!"," ++ u, ?_, .cons hw hv hw' he⟩
        rw [hs, ht, hs', heq, hu]; simp
      · rename_i s2 heq
        simp only [Option.pure_def, Option.some.injEq, Prod.mk.injEq] at h
        obtain ⟨rfl, rfl⟩ := h
        refine ⟨w ++ t ++ w', ?_, .one hw hv hw'⟩
        rw [hs, ht, hs', heq]; simp
      · cases h
    · intro d s ms r h
      rw [parseMembers.eq_def] at h
      simp only [Option.bind_eq_bind] at h
      obtain ⟨w, hw, hs, -⟩ := skipSpace_split s
      split at h
      · rename_i s0 heq0
        simp only [Option.bind_eq_some_iff] at h
        obtain ⟨⟨key, s1⟩, h1, h⟩ := h
        obtain ⟨k, hk, hb⟩ := parseString_some h1
        obtain ⟨w1, hw1, hs1, -⟩ := skipSpace_split s1
        simp only at h
        split at h
        · rename_i s2 heq1
          simp only [Option.bind_eq_some_iff] at h
          obtain ⟨⟨v, s3⟩, h2, h⟩ := h
          obtain ⟨t, ht, hv⟩ := ihv _ _ _ _ h2
          obtain ⟨w2, hw2, hs2, -⟩ := skipSpace_split s2
          obtain ⟨w', hw', hs', -⟩ := skipSpace_split s3
          simp only at h
          split at h
          · rename_i s4 heq
            simp only [Option.bind_eq_some_iff, Option.pure_def, Option.some.injEq, Prod.mk.injEq] at h
            obtain ⟨⟨ms', s5⟩, h3, rfl, rfl⟩ := h
            obtain ⟨u, hu, he⟩ := ihm _ _ _ _ h3
            refine ⟨_, ?_, .cons hw hb hw1 hw2 hv hw' he⟩
            rw [hs, heq0, hk, hs1, heq1, hs2, ht, hs', heq, hu]; simp
          · rename_i s4 heq
            simp only [Option.pure_def, Option.some.injEq, Prod.mk.injEq] at h
            obtain ⟨rfl, rfl⟩ := h
            refine ⟨_, ?_, .one hw hb hw1 hw2 hv hw'⟩
            rw [hs, heq0, hk, hs1, heq1, hs2, ht, hs', heq]; simp
          · cases h
        · cases h
      · cases h

/-- The first byte of a value. -/
theorem Value.head {d : Nat} {t : Str} {v : Val} (h : Value d t v) : ∃ b t', t = b :: t' ∧ isSpace b = false ∧ b ≠ 0x5D ∧ b ≠ 0x7D := by
  cases h with
  | null => exact ⟨_, _, rfl, by decide⟩
  | boolTrue => exact ⟨_, _, rfl, by decide⟩
  | boolFalse => exact ⟨_, _, rfl, by decide⟩
  | num h =>
    obtain ⟨b, t', rfl, hb⟩ := h.head
    have key : ∀ b ∈ b!"-0123456789", isSpace b = false ∧ b ≠ 0x5D ∧ b ≠ 0x7D := by decide +kernel
    exact ⟨b, t', rfl, key b hb⟩
  | str h => exact ⟨_, _, rfl, by decide⟩
  | arr0 h => exact ⟨_, _, rfl, by decide⟩
  | arr h => exact ⟨_, _, rfl, by decide⟩
  | obj0 h => exact ⟨_, _, rfl, by decide⟩
  | obj h => exact ⟨_, _, rfl, by decide⟩

theorem Value.noSpace {d : Nat} {t : Str} {v : Val} (h : Value d t v) (r : Str) : NoSpace (t ++ r) := by
  obtain ⟨b, t', rfl, hb, -⟩ := h.head
  intro c u e
  simp only [List.cons_append, List.cons.injEq] at e
  rw [← e.1]; exact hb

theorem Value.length_pos {d : Nat} {t : Str} {v : Val} (h : Value d t v) : 0 < t.length := by
  obtain ⟨b, t', rfl, -⟩ := h.head
  simp

theorem noSpace_cons {b : UInt8} (hb : isSpace b = false) (r : Str) : NoSpace (b :: r) := by
  intro c u e
  simp only [List.cons.injEq] at e
  rw [← e.1]; exact hb

theorem follow_ws {w r : Str} (hw : Ws w) (hr : Follow r) : Follow (w ++ r) := by
  cases w with
  | nil => exact hr
  | cons b w =>
    intro c u e
    simp only [List.cons_append, List.cons.injEq] at e
    rw [← e.1]
    have := hw b (by simp)
    have key : ∀ b ∈ b!" \t\n\r", b ∈ b!" \t\n\r,]}" := by decide +kernel
    exact key b this

theorem follow_cons {b : UInt8} (hb : b ∈ b!" \t\n\r,]}") (r : Str) : Follow (b :: r) := by
  intro c u e
  simp only [List.cons.injEq] at e
  rw [← e.1]; exact hb

theorem parseValue_num (fuel d : Nat) {b : UInt8} (hb : b ∈ b!"-0123456789") (s : Str) :
    parseValue (fuel + 1) d (b :: s) = (scanNumber (b :: s)).map fun p => (.num p.1, p.2) := by
  simp only [List.mem_cons, List.not_mem_nil, or_false] at hb
  rcases hb with rfl | rfl | rfl | rfl | rfl | rfl | rfl | rfl | rfl | rfl | rfl <;> (rw [parseValue.eq_def]; rfl)

theorem parseElems_skip (fuel d : Nat) (s : Str) : parseElems fuel d (skipSpace s) = parseElems fuel d s := by
  cases fuel with
  | zero => simp [parseElems]
  | succ fuel => simp only [parseElems, skipSpace_idem]

theorem parseMembers_skip (fuel d : Nat) (s : Str) : parseMembers fuel d (skipSpace s) = parseMembers fuel d s := by
  cases fuel with
  | zero => simp [parseMembers]
  | succ fuel => simp only [parseMembers, skipSpace_idem]

theorem Elems.start {d : Nat} {t : Str} {vs : List Val} (h : Elems d t vs) (r : Str) :
    ∃ b t', skipSpace (t ++ r) = b :: t' ∧ b ≠ 0x5D := by
  cases h with
  | one h1 h2 h3 =>
    rw [show ∀ a b c d : Str, a ++ b ++ c ++ d = a ++ (b ++ (c ++ d)) by intros; simp, skipSpace_ws h1 (h2.noSpace _)]
    obtain ⟨b, t', rfl, -, hb, -⟩ := h2.head
    exact ⟨b, _, rfl, hb⟩
  | cons h1 h2 h3 h4 =>
    rw [show ∀ a b c d e f : Str, a ++ b ++ c ++ d ++ e ++ f = a ++ (b ++ (c ++ d ++ e ++ f)) by intros; simp,
      skipSpace_ws h1 (h2.noSpace _)]
    obtain ⟨b, t', rfl, -, hb, -⟩ := h2.head
    exact ⟨b, _, rfl, hb⟩

theorem Members.start {d : Nat} {t : Str} {ms : List (Str × Val)} (h : Members d t ms) (r : Str) :
    ∃ t', skipSpace (t ++ r) = 0x22 :: t' := by
  cases h with
  | one h1 =>
    simp only [List.append_assoc, List.cons_append, List.nil_append]
    rw [skipSpace_ws h1 (noSpace_cons (by decide) _)]
    exact ⟨_, rfl⟩
  | cons h1 =>
    simp only [List.append_assoc, List.cons_append, List.nil_append]
    rw [skipSpace_ws h1 (noSpace_cons (by decide) _)]
    exact ⟨_, rfl⟩

theorem parse_complete : ∀ fuel,
    (∀ d t v r, Value d t v → Follow r → 2 * t.length ≤ fuel → parseValue fuel d (t ++ r) = some (v, r))
    ∧ (∀ d t vs r, Elems d t vs → 2 * t.length + 1 ≤ fuel → parseElems fuel d (t ++ 0x5D :: r) = some (vs, r))
    ∧ (∀ d t ms r, Members d t ms → 2 * t.length + 1 ≤ fuel → parseMembers fuel d (t ++ 0x7D :: r) = some (ms, r)) := by
  intro fuel
  induction fuel with
  | zero =>
    refine ⟨?_, ?_, ?_⟩
    · intro d t v r h _ hf; have := h.length_pos; omega
    · intro d t vs r h hf; omega
    · intro d t ms r h hf; omega
  | succ fuel ih =>
    obtain ⟨ihv, ihe, ihm⟩ := ih
    refine ⟨?_, ?_, ?_⟩
    · intro d t v r h hr hf
      cases h with
      | null => rw [parseValue.eq_def]; rfl
      | boolTrue => rw [parseValue.eq_def]; rfl
      | boolFalse => rw [parseValue.eq_def]; rfl
      | num hn =>
        have := scanNumber_eq hn hr
        obtain ⟨b, t', rfl, hb⟩ := hn.head
        rw [List.cons_append] at this ⊢
        rw [parseValue_num fuel d hb, this]; rfl
      | @str _ t s hb =>
        have := parseString_eq hb r
        simp only [List.cons_append, List.nil_append, List.append_assoc] at this ⊢
        rw [parseValue.eq_def]
        simp only [this]
        rfl
      | @arr0 d w hw =>
        have := skipSpace_ws hw (noSpace_cons (b := 0x5D) (by decide) r)
        simp only [List.cons_append, List.nil_append, List.append_assoc] at this ⊢
        rw [parseValue.eq_def]
        simp only [this]
      | @arr d t vs he =>
        obtain ⟨b, t', hs, hb⟩ := he.start (0x5D :: r)
        have h1 := ihe d t vs r he (by simp only [List.length_append, List.length_cons, List.length_nil] at hf; omega)
        rw [← parseElems_skip, hs] at h1
        simp only [List.cons_append, List.nil_append, List.append_assoc] at hs ⊢
        rw [parseValue.eq_def]
        simp only [hs]
        split
        · rename_i heq; simp only [List.cons.injEq] at heq; exact absurd heq.1 hb
        · rw [h1]; rfl
      | @obj0 d w hw =>
        have := skipSpace_ws hw (noSpace_cons (b := 0x7D) (by decide) r)
        simp only [List.cons_append, List.nil_append, List.append_assoc] at this ⊢
        rw [parseValue.eq_def]
        simp only [this]
      | @obj d t ms he =>
        obtain ⟨t', hs⟩ := he.start (0x7D :: r)
        have h1 := ihm d t ms r he (by simp only [List.length_append, List.length_cons, List.length_nil] at hf; omega)
        rw [← parseMembers_skip, hs] at h1
        simp only [List.cons_append, List.nil_append, List.append_assoc] at hs ⊢
        rw [parseValue.eq_def]
        simp only [hs]
        split
        · rename_i heq; simp at heq
        · rw [h1]; rfl
    · intro d t vs r h hf
      cases h with
      | @one _ w t w' v h1 h2 h3 =>
        simp only [List.length_append] at hf
        have a1 := skipSpace_ws h1 (h2.noSpace (w' ++ 0x5D :: r))
        have a2 := ihv d t v (w' ++ 0x5D :: r) h2 (follow_ws h3 (follow_cons (by decide) _)) (by omega)
        have a3 := skipSpace_ws h3 (noSpace_cons (b := 0x5D) (by decide) r)
        rw [parseElems.eq_def]
        simp only [List.append_assoc, a1, a2, a3, Option.bind_eq_bind, Option.bind_some]
        rfl
      | @cons _ w t w' u v vs h1 h2 h3 h4 =>
        simp only [List.length_append, List.length_cons, List.length_nil] at hf
        have a1 := skipSpace_ws h1 (h2.noSpace (w' ++ 0x2C :: (u ++ 0x5D :: r)))
        have a2 := ihv d t v (w' ++ 0x2C :: (u ++ 0x5D :: r)) h2 (follow_ws h3 (follow_cons (by decide) _)) (by omega)
        have a3 := skipSpace_ws h3 (noSpace_cons (b := 0x2C) (by decide) (u ++ 0x5D :: r))
        have a4 := ihe d u vs r h4 (by omega)
        rw [parseElems.eq_def]
        simp only [List.append_assoc, List.cons_append, List.nil_append, a1, a2, a3, a4, Option.bind_eq_bind, Option.bind_some]
        rfl
    · intro d t ms r h hf
      cases h with
      | @one _ w k w1 w2 t w' key v h1 hk hw1 hw2 h2 h3 =>
        simp only [List.length_append, List.length_cons, List.length_nil] at hf
        have a0 := skipSpace_ws h1 (noSpace_cons (b := 0x22) (by decide) (k ++ 0x22 :: (w1 ++ 0x3A :: (w2 ++ (t ++ (w' ++ 0x7D :: r))))))
        have b0 := parseString_eq hk (w1 ++ 0x3A :: (w2 ++ (t ++ (w' ++ 0x7D :: r))))
        have b1 := skipSpace_ws hw1 (noSpace_cons (b := 0x3A) (by decide) (w2 ++ (t ++ (w' ++ 0x7D :: r))))
        have a1 := skipSpace_ws hw2 (h2.noSpace (w' ++ 0x7D :: r))
        have a2 := ihv d t v (w' ++ 0x7D :: r) h2 (follow_ws h3 (follow_cons (by decide) _)) (by omega)
        have a3 := skipSpace_ws h3 (noSpace_cons (b := 0x7D) (by decide) r)
        rw [parseMembers.eq_def]
        simp only [List.append_assoc, List.cons_append, List.nil_append, a0, b0, b1, a1, a2, a3, Option.bind_eq_bind, Option.bind_some]
        rfl
      | @cons _ w k w1 w2 t w' u key v ms h1 hk hw1 hw2 h2 h3 h4 =>
        simp only [List.length_append, List.length_cons, List.length_nil] at hf
        have a0 := skipSpace_ws h1 (noSpace_cons (b := 0x22) (by decide)
          (k ++ 0x22 :: (w1 ++ 0x3A :: (w2 ++ (t ++ (w' ++ 0x2C :: (u ++ 0x7D :: r)))))))
        have b0 := parseString_eq hk (w1 ++ 0x3A :: (w2 ++ (t ++ (w' ++ 0x2C :: (u ++ 0x7D :: r)))))
        have b1 := skipSpace_ws hw1 (noSpace_cons (b := 0x3A) (by decide) (w2 ++ (t ++ (w' ++ 0x2C :: (u ++ 0x7D :: r)))))
        have a1 := skipSpace_ws hw2 (h2.noSpace (w' ++ 0x2C :: (u ++ 0x7D :: r)))
        have a2 := ihv d t v (w' ++ 0x2C :: (u ++ 0x7D :: r)) h2 (follow_ws h3 (follow_cons (by decide) _)) (by omega)
        have a3 := skipSpace_ws h3 (noSpace_cons (b := 0x2C) (by decide) (u ++ 0x7D :: r))
        have a4 := ihm d u ms r h4 (by omega)
        rw [parseMembers.eq_def]
        simp only [List.append_assoc, List.cons_append, List.nil_append, a0, b0, b1, a1, a2, a3, a4, Option.bind_eq_bind, Option.bind_some]
        rfl

/-- The parser accepts exactly the documents of the grammar. -/
theorem parse_iff (content : Str) (v : Val) : parse content = some v ↔ Document content v := by
  unfold parse
  constructor
  · intro h
    split at h
    · rename_i v' r h1
      split at h
      · rename_i hr
        simp only [Option.some.injEq] at h
        subst h
        obtain ⟨t, ht, hv⟩ := (parse_sound _).1 _ _ _ _ h1
        obtain ⟨w, hw, hs, -⟩ := skipSpace_split content
        exact ⟨w, t, r, by rw [hs, ht]; simp, hw, hv, ws_of_skipSpace hr⟩
      · cases h
    · cases h
  · rintro ⟨w, t, w', rfl, hw, hv, hw'⟩
    have a1 := skipSpace_ws hw (hv.noSpace w')
    have a2 := (parse_complete (2 * (w ++ t ++ w').length + 1)).1 10000 t v w' hv
      (by simpa using follow_ws hw' (r := []) (by intro b t h; cases h)) (by simp only [List.length_append]; omega)
    rw [show w ++ t ++ w' = w ++ (t ++ w') by simp] at a2 ⊢
    rw [a1, a2]
    simp only
    rw [skipSpace_all hw', if_pos rfl]

theorem Document.unique {content : Str} {v v' : Val} (h : Document content v) (h' : Document content v') : v = v' := by
  have := (parse_iff content v).2 h
  rw [(parse_iff content v').2 h'] at this
  simpa using this.symm

/-! ## Integers -/

theorem parseNat_digits {ds : Str} (h : Digits ds) (n : Nat) : parseNat ds n = some (digitsVal n ds) := by
  induction ds generalizing n with
  | nil => rfl
  | cons b ds ih =>
    have : isDigit b = true := (isDigit_iff b).2 (h b (by simp))
    simp only [parseNat, this, if_true]
    rw [ih fun x hx => h x (by simp [hx])]
    simp [digitsVal, Nat.mul_comm]

theorem parseNat_some {ds : Str} {n k : Nat} (h : parseNat ds n = some k) : Digits ds := by
  induction ds generalizing n with
  | nil => simp [Digits]
  | cons b ds ih =>
    simp only [parseNat] at h
    split at h
    · rename_i hb
      intro x hx
      rcases List.mem_cons.1 hx with rfl | hx
      · exact (isDigit_iff x).1 hb
      · exact ih h x hx
    · cases h

theorem IntPart.digits {t : Str} (h : IntPart t) : Digits t := by
  rcases h with rfl | h
  · intro b hb; simp only [List.mem_singleton] at hb; subst hb; decide
  · exact h.1

theorem IntText.parse {t : Str} {i : Int} (h : IntText t i) : parseInt t = some i := by
  obtain ⟨ds, hi, ⟨rfl, rfl⟩ | ⟨rfl, rfl⟩⟩ := h
  · obtain ⟨b, t', rfl, hb⟩ := hi.head
    have hp := parseNat_digits hi.digits 0
    unfold parseInt
    split
    · rename_i heq
      simp only [List.cons.injEq] at heq
      rw [heq.1] at hb; simp at hb
    · rw [hp]; rfl
  · have hp := parseNat_digits hi.digits 0
    simp only [List.cons_append, List.nil_append, parseInt, hp]
    rfl

theorem intText_of_parse {t : Str} {i : Int} (hn : Number t) (h : parseInt t = some i) : IntText t i := by
  obtain ⟨sign, ip, f, e, rfl, hsign, hi, hf, he⟩ := hn
  have key : ∀ k n, parseNat (ip ++ f ++ e) n = some k → f = [] ∧ e = [] := by
    intro k n hk
    have hd := parseNat_some hk
    constructor
    · rcases hf with rfl | ⟨ds, rfl, -⟩
      · rfl
      · have := hd 46 (by simp); simp at this
    · rcases he with rfl | ⟨x, y, ds, rfl, hx, -⟩
      · rfl
      · rcases hx with rfl | rfl
        · have := hd 101 (by simp); simp at this
        · have := hd 69 (by simp); simp at this
  have hp := parseNat_digits hi.digits 0
  obtain ⟨b, t', hb, hb'⟩ := hi.head
  rcases hsign with rfl | rfl
  · have : parseInt ([] ++ ip ++ f ++ e) = (parseNat (ip ++ f ++ e) 0).map fun n : Nat => (n : Int) := by
      rw [hb]
      simp only [List.nil_append, List.cons_append]
      unfold parseInt
      split
      · rename_i heq
        simp only [List.cons.injEq] at heq
        rw [heq.1] at hb'; simp at hb'
      · rfl
    rw [this, Option.map_eq_some_iff] at h
    obtain ⟨k, hk, rfl⟩ := h
    obtain ⟨rfl, rfl⟩ := key k 0 hk
    simp only [List.append_nil, hp, Option.some.injEq] at hk
    exact ⟨ip, hi, .inl ⟨by simp, by rw [hk]⟩⟩
  · have : parseInt (b!"-" ++ ip ++ f ++ e) = (parseNat (ip ++ f ++ e) 0).map fun n : Nat => -(n : Int) := rfl
    rw [this, Option.map_eq_some_iff] at h
    obtain ⟨k, hk, rfl⟩ := h
    obtain ⟨rfl, rfl⟩ := key k 0 hk
    simp only [List.append_nil, hp, Option.some.injEq] at hk
    exact ⟨ip, hi, .inr ⟨by simp, by rw [hk]⟩⟩

theorem storeInt_iff (m : Machine) {d : Nat} {t : Str} {v : Val} (hv : Value d t v) (i : Int) :
    storeInt m v = (i, Bool.true) ↔ IdOf m v i := by
  unfold IdOf
  cases hv with
  | null => simp [storeInt, eq_comm]
  | num hn =>
    simp only [storeInt, reduceCtorEq, false_and, Val.num.injEq, false_or]
    constructor
    · intro h
      split at h
      · rename_i i' hi
        split at h
        · rename_i hr
          simp only [Prod.mk.injEq, and_true] at h
          subst h
          exact ⟨t, rfl, intText_of_parse hn hi, hr⟩
        · simp at h
      · simp at h
    · rintro ⟨t', rfl, hi, hr⟩
      rw [hi.parse]
      simp only
      rw [if_pos hr]
  | boolTrue => simp [storeInt]
  | boolFalse => simp [storeInt]
  | str => simp [storeInt]
  | arr0 => simp [storeInt]
  | arr => simp [storeInt]
  | obj0 => simp [storeInt]
  | obj => simp [storeInt]

theorem Members.value : ∀ (n : Nat) {d : Nat} {t : Str} {ms : List (Str × Val)}, t.length ≤ n → Members d t ms →
    ∀ e ∈ ms, (∃ d t, Value d t e.2) ∧ ∃ k, Body k e.1 := by
  intro n
  induction n with
  | zero =>
    intro d t ms hl h
    cases h <;> simp at hl
  | succ n ih =>
    intro d t ms hl h e he
    cases h with
    | one h1 h2 h3 h4 h5 h6 =>
      simp only [List.mem_singleton] at he
      subst he
      exact ⟨⟨_, _, h5⟩, _, h2⟩
    | cons h1 h2 h3 h4 h5 h6 h7 =>
      rcases List.mem_cons.1 he with rfl | he
      · exact ⟨⟨_, _, h5⟩, _, h2⟩
      · refine ih ?_ h7 e he
        simp only [List.length_append, List.length_cons] at hl
        omega

theorem Document.value {content : Str} {ms : List (Str × Val)} (h : Document content (.obj ms)) :
    ∀ e ∈ ms, (∃ d t, Value d t e.2) ∧ ∃ k, Body k e.1 := by
  obtain ⟨w, t, w', -, -, hv, -⟩ := h
  cases hv with
  | obj0 => simp
  | obj hm => exact Members.value _ (Nat.le_refl _) hm

/-! ## The map -/

theorem map_set_keys (mp : GoMap Str Int) (k : Str) (v : Int) :
    (mp.set k v).map (·.1) = if k ∈ mp.map (·.1) then mp.map (·.1) else mp.map (·.1) ++ [k] := by
  induction mp with
  | nil => simp [GoMap.set]
  | cons e mp ih =>
    obtain ⟨a, b⟩ := e
    simp only [GoMap.set]
    by_cases h : a = k
    · subst h; simp
    · simp only [if_neg h, List.map_cons, ih, List.mem_cons, Ne.symm h, false_or]
      split <;> simp

theorem storeMembers_keys (m : Machine) (ms : List (Str × Val)) (st : GoMap Str Int × Bool) :
    (storeMembers m ms st).1.map (·.1)
      = (ms.map (·.1)).foldl (fun acc t => if t ∈ acc then acc else acc ++ [t]) (st.1.map (·.1)) := by
  induction ms generalizing st with
  | nil => rfl
  | cons e ms ih =>
    obtain ⟨k, v⟩ := e
    simp only [storeMembers, ih, map_set_keys, List.map_cons, List.foldl_cons]

theorem storeMembers_ok (m : Machine) (ms : List (Str × Val)) (st : GoMap Str Int × Bool) :
    (storeMembers m ms st).2 = Bool.true ↔ st.2 = Bool.true ∧ ∀ e ∈ ms, (storeInt m e.2).2 = Bool.true := by
  induction ms generalizing st with
  | nil => simp [storeMembers]
  | cons e ms ih =>
    obtain ⟨k, v⟩ := e
    simp only [storeMembers, ih, Bool.and_eq_true, List.forall_mem_cons, and_assoc]

theorem storeMembers_get (m : Machine) (ms : List (Str × Val)) (st : GoMap Str Int × Bool) (t : Str) :
    (storeMembers m ms st).1.get? t = match ms.reverse.find? fun e => decide (e.1 = t) with
      | some e => some (storeInt m e.2).1
      | none => st.1.get? t := by
  induction ms generalizing st with
  | nil => rfl
  | cons e ms ih =>
    obtain ⟨k, v⟩ := e
    simp only [storeMembers, ih, List.reverse_cons, List.find?_append]
    cases hf : (ms.reverse.find? fun e => decide (e.1 = t)) with
    | some x => simp
    | none =>
      simp only [Option.none_or, List.find?_cons, List.find?_nil, GoMap.get?_set]
      by_cases he : k = t <;> simp [he]

theorem find_last (ms : List (Str × Val)) (t : Str) (e : Str × Val) :
    (ms.reverse.find? fun e => decide (e.1 = t)) = some e ↔ ∃ pre v post, ms = pre ++ (t, v) :: post
      ∧ (∀ e ∈ post, e.1 ≠ t) ∧ e = (t, v) := by
  rw [List.find?_eq_some_iff_append]
  constructor
  · rintro ⟨h1, as, bs, h2, h3⟩
    obtain ⟨k, v⟩ := e
    simp only [decide_eq_true_eq] at h1
    subst h1
    refine ⟨bs.reverse, v, as.reverse, ?_, ?_, rfl⟩
    · rw [← List.reverse_inj, h2]; simp
    · intro e he
      simpa using h3 e (by simpa using he)
  · rintro ⟨pre, v, post, rfl, h2, rfl⟩
    refine ⟨by simp, post.reverse, pre.reverse, by simp, ?_⟩
    intro e he
    simpa using h2 e (by simpa using he)

theorem unmarshal_obj {m : Machine} {content : Str} {ms : List (Str × Val)} (h : Document content (.obj ms))
    (hid : ∀ e ∈ ms, ∃ i, IdOf m e.2 i) : unmarshal m content = .ok (some (storeMembers m ms ([], Bool.true)).1) := by
  unfold unmarshal
  rw [(parse_iff _ _).2 h]
  simp only
  rw [if_pos]
  rw [storeMembers_ok]
  refine ⟨rfl, fun e he => ?_⟩
  obtain ⟨⟨d, t, hv⟩, -⟩ := h.value e he
  obtain ⟨i, hi⟩ := hid e he
  rw [(storeInt_iff m hv i).2 hi]

theorem storeMembers_last {m : Machine} {content : Str} {ms : List (Str × Val)} (h : Document content (.obj ms))
    (hid : ∀ e ∈ ms, ∃ i, IdOf m e.2 i) (t : Str) (i : Int) :
    (storeMembers m ms ([], Bool.true)).1.get? t = some i ↔ LastId m ms t i := by
  rw [storeMembers_get]
  have key : ∀ e ∈ ms, ∀ i, (storeInt m e.2).1 = i ↔ IdOf m e.2 i := by
    intro e he i
    obtain ⟨⟨d, t, hv⟩, -⟩ := h.value e he
    obtain ⟨j, hj⟩ := hid e he
    rw [← storeInt_iff m hv, (storeInt_iff m hv j).2 hj]
    simp
  cases hf : (ms.reverse.find? fun e => decide (e.1 = t)) with
  | some e =>
    have hf' := hf
    rw [find_last] at hf
    obtain ⟨pre, v, post, rfl, h2, rfl⟩ := hf
    have hk := key (t, v) (by simp) i
    simp only at hk ⊢
    simp only [Option.some.injEq]
    rw [hk]
    constructor
    · intro hi; exact ⟨pre, v, post, rfl, h2, hi⟩
    · rintro ⟨pre', v', post', e1, e2, e3⟩
      have := (find_last _ t (t, v')).2 ⟨pre', v', post', e1, e2, rfl⟩
      rw [hf'] at this
      simp only [Option.some.injEq, Prod.mk.injEq, true_and] at this
      rw [this]; exact e3
  | none =>
    simp only [GoMap.get?]
    constructor
    · intro e; cases e
    · rintro ⟨pre, v, post, e1, e2, -⟩
      have := (find_last _ t (t, v)).2 ⟨pre, v, post, e1, e2, rfl⟩
      rw [hf] at this
      cases this

theorem Body.valid {t s : Str} (h : Body t s) : ValidUtf8 s := by
  have one : ∀ r : Rune, ValidUtf8 (encodeRune r) := by
    intro r; simpa [encodeRunes] using validUtf8_encodeRunes [r]
  induction h with
  | nil => exact ⟨[], by simp, rfl⟩
  | char _ _ _ _ _ ih => exact (one _).append ih
  | bad _ _ ih => exact (one _).append ih
  | @short c x t s hc _ ih =>
    have key : ∀ p ∈ shortEscapes, p.2.toNat < 0x80 := by decide +kernel
    have := one (x.toNat : Int)
    rw [ascii_encode (key _ hc)] at this
    exact this.append ih
  | unicode _ _ _ ih => exact (one _).append ih
  | pair _ _ _ _ _ _ _ ih => exact (one _).append ih
  | lone _ _ _ _ _ ih => exact (one _).append ih

end Json

/-! ## The writer -/

namespace Json

theorem hexDigit_spec {n : Nat} (h : n < 16) : HexDigit (hexDigit n) n := by
  have key : ∀ n < 16, b!"0123456789abcdef"[n]? = some (hexDigit n) := by decide +kernel
  exact .inl (key n h)

theorem writeByte_high {p : Str} (h : ∀ b ∈ p, 0x80 ≤ b.toNat) : p.flatMap writeByte = p := by
  induction p with
  | nil => rfl
  | cons b p ih =>
    have hb := plain_high (h b (by simp))
    rw [List.flatMap_cons, ih fun x hx => h x (by simp [hx])]
    unfold writeByte
    rw [if_neg (by simp [hb.1, hb.2.1]), if_neg hb.2.2]
    rfl

theorem body_write {s : Str} (h : ValidUtf8 s) : Body (s.flatMap writeByte) s := by
  obtain ⟨rs, hr, rfl⟩ := h
  induction rs with
  | nil => exact .nil
  | cons r rs ih =>
    have ih := ih fun x hx => hr x (by simp [hx])
    have hr := hr r (by simp)
    simp only [encodeRunes, List.flatMap_cons, List.flatMap_append] at ih ⊢
    by_cases hlow : r < 0x80
    · have hnn : 0 ≤ r := by rcases hr with h | h <;> omega
      have h1 : (UInt8.ofNat r.toNat).toNat = r.toNat := toNat_ofNat (by omega)
      have h2 : encodeRune r = [UInt8.ofNat r.toNat] := by
        rw [← ascii_encode (by rw [h1]; omega), h1]
        congr 1; omega
      generalize UInt8.ofNat r.toNat = b at h1 h2
      rw [h2]
      simp only [List.flatMap_cons, List.flatMap_nil, List.append_nil]
      unfold writeByte
      by_cases hq : b = 0x22 ∨ b = 0x5C
      · rw [if_pos hq]
        refine .short ?_ ih
        rcases hq with rfl | rfl <;> decide
      · rw [if_neg hq]
        by_cases hc : b < 0x20
        · rw [if_pos hc]
          have hc' : b.toNat < 32 := by rw [UInt8.lt_iff_toNat_lt] at hc; exact hc
          have hx : Hex4 [48, 48, hexDigit (b.toNat / 16), hexDigit (b.toNat % 16)] b.toNat :=
            ⟨_, _, _, _, 0, 0, _, _, rfl, .inl rfl, .inl rfl, hexDigit_spec (by omega), hexDigit_spec (by omega), by omega⟩
          have := Body.unicode hx (.inl (by omega)) ih
          rw [ascii_encode (by omega)] at this
          exact this
        · rw [if_neg hc]
          have hch : ¬ b.toNat < 32 := by rw [UInt8.lt_iff_toNat_lt] at hc; exact hc
          have := Body.char hr (by omega) (by rintro rfl; exact hq (.inl (by rw [← UInt8.toNat_inj, h1]; rfl)))
            (by rintro rfl; exact hq (.inr (by rw [← UInt8.toNat_inj, h1]; rfl))) ih
          rw [h2] at this
          exact this
    · have hall : ∀ b ∈ encodeRune r, 0x80 ≤ b.toNat := by
        intro b hb
        rcases encodeRune_high hr b hb with h | ⟨h, e⟩
        · exact h
        · have hl : runeLen r = 1 := by unfold runeLen; rw [h]; rfl
          have := runeLen_eq_one.1 hl
          omega
      rw [writeByte_high hall]
      exact .char hr (by omega) (by omega) (by omega) ih

theorem digitsVal_append (n : Nat) (a b : Str) : digitsVal n (a ++ b) = digitsVal (digitsVal n a) b := by
  simp [digitsVal]

theorem digit_byte {n : Nat} (h : n < 10) : UInt8.ofNat (48 + n) ∈ b!"0123456789" ∧ (UInt8.ofNat (48 + n)).toNat - 48 = n
    ∧ (UInt8.ofNat (48 + n) = 0x30 → n = 0) := by
  have key : ∀ n < 10, UInt8.ofNat (48 + n) ∈ b!"0123456789" ∧ (UInt8.ofNat (48 + n)).toNat - 48 = n
    ∧ (UInt8.ofNat (48 + n) = 0x30 → n = 0) := by decide +kernel
  exact key n h

theorem decimal_spec (fuel : Nat) : ∀ n, n ≤ fuel → IntPart (decimalAux fuel n) ∧ digitsVal 0 (decimalAux fuel n) = n
    ∧ (0 < n → (decimalAux fuel n).head? ≠ some 0x30) := by
  have small : ∀ n, n < 10 → IntPart [UInt8.ofNat (48 + n)] ∧ digitsVal 0 [UInt8.ofNat (48 + n)] = n
      ∧ (0 < n → [UInt8.ofNat (48 + n)].head? ≠ some 0x30) := by
    intro n h
    obtain ⟨h1, h2, h3⟩ := digit_byte h
    refine ⟨?_, by simp only [digitsVal, List.foldl_cons, List.foldl_nil]; rw [h2]; omega, fun hn => by simp only [List.head?_cons, ne_eq, Option.some.injEq]; intro e; have := h3 e; omega⟩
    by_cases h0 : n = 0
    · subst h0; exact .inl rfl
    · refine .inr ⟨by intro b hb; simp only [List.mem_singleton] at hb; rw [hb]; exact h1, by simp, ?_⟩
      simp only [List.head?_cons, ne_eq, Option.some.injEq]
      intro e; exact h0 (h3 e)
  induction fuel with
  | zero =>
    intro n hn
    have : n = 0 := by omega
    subst this
    exact small 0 (by omega)
  | succ fuel ih =>
    intro n hn
    unfold decimalAux
    by_cases h : n < 10
    · rw [if_pos h]; exact small n h
    · rw [if_neg h]
      obtain ⟨h1, h2, h3⟩ := ih (n / 10) (by omega)
      have h3 := h3 (by omega)
      obtain ⟨d1, d2, -⟩ := digit_byte (n := n % 10) (by omega)
      obtain ⟨b, t, hb, -⟩ := h1.head
      have hhd : (decimalAux fuel (n / 10) ++ [UInt8.ofNat (48 + n % 10)]).head? ≠ some 0x30 := by
        rw [hb] at h3 ⊢
        simpa using h3
      refine ⟨.inr ⟨?_, by simp, hhd⟩, ?_, fun _ => hhd⟩
      · intro x hx
        rcases List.mem_append.1 hx with hx | hx
        · exact h1.digits x hx
        · simp only [List.mem_singleton] at hx; rw [hx]; exact d1
      · rw [digitsVal_append, h2]
        simp only [digitsVal, List.foldl_cons, List.foldl_nil]
        rw [d2]
        omega

theorem writeInt_spec (i : Int) : IntText (writeInt i) i := by
  obtain ⟨h1, h2, -⟩ := decimal_spec i.natAbs i.natAbs (Nat.le_refl _)
  unfold writeInt
  by_cases h : i < 0
  · rw [if_pos h]
    exact ⟨_, h1, .inr ⟨rfl, by rw [h2]; omega⟩⟩
  · rw [if_neg h]
    exact ⟨_, h1, .inl ⟨rfl, by rw [h2]; omega⟩⟩

theorem IntText.number {t : Str} {i : Int} (h : IntText t i) : Number t := by
  obtain ⟨ds, hi, ⟨rfl, -⟩ | ⟨rfl, -⟩⟩ := h
  · exact ⟨[], t, [], [], by simp, .inl rfl, hi, .inl rfl, .inl rfl⟩
  · exact ⟨b!"-", ds, [], [], by simp, .inr rfl, hi, .inl rfl, .inl rfl⟩

theorem writeMembers_spec {d : Nat} : ∀ (es : List (Str × Int)), es ≠ [] → (∀ e ∈ es, ValidUtf8 e.1) →
    Members d (writeMembers es) (es.map fun e => (e.1, .num (writeInt e.2))) := by
  intro es
  induction es with
  | nil => intro h; exact absurd rfl h
  | cons e es ih =>
    intro _ hv
    have hb := body_write (hv e (by simp))
    have hn : Value d (writeInt e.2) (.num (writeInt e.2)) := .num (writeInt_spec e.2).number
    cases es with
    | nil =>
      have := Members.one Ws.nil hb Ws.nil Ws.nil hn Ws.nil
      simpa [writeMembers, writeMember] using this
    | cons e' es =>
      have := Members.cons Ws.nil hb Ws.nil Ws.nil hn Ws.nil (ih (by simp) fun x hx => hv x (by simp [hx]))
      simpa [writeMembers, writeMember] using this

theorem writeVocab_spec (es : List (Str × Int)) (hv : ∀ e ∈ es, ValidUtf8 e.1) :
    Document (writeVocab es) (.obj (es.map fun e => (e.1, .num (writeInt e.2)))) := by
  refine ⟨[], writeVocab es, [], by simp, Ws.nil, ?_, Ws.nil⟩
  unfold writeVocab
  cases es with
  | nil => exact .obj0 Ws.nil
  | cons e es => exact .obj (writeMembers_spec (e :: es) (by simp) hv)

end Json

open Json

/-- The order in which Go iterates over a map: every entry once. -/
def IterationOrder (order : GoMap Str Int → List (Str × Int)) : Prop := ∀ mp, (order mp).Perm mp

/-- **C81, which files load.** -/
theorem C81_loads (m : Machine) (content : Str) (order : GoMap Str Int → List (Str × Int)) :
    (∃ v, Vocab.fromJSONFile m content order = .ok v)
      ↔ Document content .null ∨ ∃ ms, Document content (.obj ms) ∧ ∀ e ∈ ms, ∃ i, IdOf m e.2 i := by
  unfold Vocab.fromJSONFile
  constructor
  · rintro ⟨v, h⟩
    unfold unmarshal at h
    cases hp : parse content with
    | none => rw [hp] at h; simp at h
    | some j =>
      rw [hp] at h
      have hd := (parse_iff _ _).1 hp
      cases j with
      | null => exact .inl hd
      | obj ms =>
        refine .inr ⟨ms, hd, ?_⟩
        simp only at h
        split at h
        · cases h
        · rename_i hk
          split at hk
          · rename_i hok
            rw [storeMembers_ok] at hok
            intro e he
            obtain ⟨⟨d, t, hv⟩, -⟩ := hd.value e he
            exact ⟨(storeInt m e.2).1, (storeInt_iff m hv _).1 (Prod.ext rfl (hok.2 e he))⟩
          · cases hk
      | bool => simp at h
      | num => simp at h
      | str => simp at h
      | arr => simp at h
  · rintro (h | ⟨ms, h, hid⟩)
    · refine ⟨Vocab.fromJSON none (order []), ?_⟩
      unfold unmarshal
      rw [(parse_iff _ _).2 h]
      rfl
    · rw [unmarshal_obj h hid]
      exact ⟨_, rfl⟩

/-- **C81, ids.** A file that is an object gives every term the id of the last member with this key; `Size` is the number
of different keys. -/
theorem C81_ids {m : Machine} {content : Str} {order : GoMap Str Int → List (Str × Int)} {v : Vocab}
    {ms : List (Str × Val)} (hv : Vocab.fromJSONFile m content order = .ok v) (h : Document content (.obj ms)) :
    (∀ t i, v.getID t = some i ↔ LastId m ms t i) ∧ v.size = (distinct (ms.map (·.1))).length := by
  have hid : ∀ e ∈ ms, ∃ i, IdOf m e.2 i := by
    rcases (C81_loads m content order).1 ⟨v, hv⟩ with h' | ⟨ms', h', hid⟩
    · cases h.unique h'
    · cases h.unique h'; exact hid
  unfold Vocab.fromJSONFile at hv
  rw [unmarshal_obj h hid] at hv
  simp only [Except.ok.injEq] at hv
  subst hv
  refine ⟨fun t i => storeMembers_last h hid t i, ?_⟩
  have := storeMembers_keys m ms ([], true)
  simp only [Vocab.size, Vocab.fromJSON, Option.getD_some]
  rw [← List.length_map (f := (·.1)), this]
  rfl

/-- **C81, terms.** `GetString` gives a term with that id whenever there is one, in every iteration order; so when no two
terms have the same id both directions agree. -/
theorem C81_strings {m : Machine} {content : Str} {order : GoMap Str Int → List (Str × Int)} {v : Vocab}
    (ho : IterationOrder order) (hv : Vocab.fromJSONFile m content order = .ok v) :
    (∀ i t, v.getString i = some t → v.getID t = some i)
    ∧ (∀ t i, v.getID t = some i → ∃ t', v.getString i = some t')
    ∧ ((∀ t t' i, v.getID t = some i → v.getID t' = some i → t = t') → v.Inverse) := by
  have key : (∀ i t, v.getString i = some t → v.getID t = some i)
      ∧ (∀ t i, v.getID t = some i → ∃ t', v.getString i = some t') := by
    unfold Vocab.fromJSONFile at hv
    have hu : ∀ mp, unmarshal m content = .ok (some mp) → GoMap.UniqueKeys mp := by
      intro mp h
      unfold unmarshal at h
      split at h <;> simp only [Except.ok.injEq, reduceCtorEq] at h
      split at h
      · rename_i ms _ _
        simp only [Except.ok.injEq, Option.some.injEq] at h
        subst h
        unfold GoMap.UniqueKeys
        rw [storeMembers_keys]
        exact (distinct_spec (ms.map (·.1))).1
      · cases h
    cases hd : unmarshal m content with
    | error e => rw [hd] at hv; cases hv
    | ok dec =>
      rw [hd] at hv
      simp only [Except.ok.injEq] at hv
      subst hv
      have huk : GoMap.UniqueKeys (dec.getD []) := by
        cases dec with
        | none => simp [GoMap.UniqueKeys]
        | some mp => exact hu mp hd
      have hget : ∀ t i, (Vocab.fromJSON dec (order (dec.getD []))).getID t = some i ↔ (t, i) ∈ dec.getD [] := by
        intro t i
        exact GoMap.get?_eq_some huk t i
      have hperm := ho (dec.getD [])
      simp only [hget]
      simp only [Vocab.getString, Vocab.fromJSON, Vocab.buildIdToTerm, foldl_set_get?]
      constructor
      · intro i t h
        split at h
        · rename_i e hf
          simp only [Option.some.injEq] at h
          have h1 := List.mem_of_find?_eq_some hf
          have h2 := List.find?_some hf
          simp only [List.mem_reverse, decide_eq_true_eq] at h1 h2
          rw [← h, ← h2]
          exact hperm.mem_iff.1 h1
        · cases h
      · intro t i h
        have h1 := hperm.mem_iff.2 h
        split
        · exact ⟨_, rfl⟩
        · rename_i hf
          rw [List.find?_eq_none] at hf
          have := hf (t, i) (by simpa using h1)
          simp at this
  refine ⟨key.1, key.2, ?_⟩
  intro hd t i
  constructor
  · intro h
    obtain ⟨t', h'⟩ := key.2 t i h
    rw [hd t t' i h (key.1 i t' h')]
    exact h'
  · exact key.1 i t

/-- **C81, errors.** A syntax error means that the file is not JSON; a type error that it is JSON but neither `null` nor an
object of integers in range and `null`s. -/
theorem C81_errors (m : Machine) (content : Str) (order : GoMap Str Int → List (Str × Int)) :
    (Vocab.fromJSONFile m content order = .error .syntax ↔ ∀ v, ¬ Document content v)
    ∧ (Vocab.fromJSONFile m content order = .error .type ↔ ∃ v, Document content v ∧ v ≠ .null
        ∧ ∀ ms, v = .obj ms → ∃ e ∈ ms, ∀ i, ¬ IdOf m e.2 i) := by
  have hl := C81_loads m content order
  have hs : Vocab.fromJSONFile m content order = .error .syntax ↔ parse content = none := by
    unfold Vocab.fromJSONFile unmarshal
    cases parse content with
    | none => simp
    | some j =>
      cases j <;> simp
      split <;> rename_i h <;> split at h <;> simp at h ⊢
      exact h.symm ▸ (by simp)
  have hs' : Vocab.fromJSONFile m content order = .error .syntax ↔ ∀ v, ¬ Document content v := by
    rw [hs]
    constructor
    · intro h v hd
      rw [(parse_iff _ _).2 hd] at h; cases h
    · intro h
      cases hp : parse content with
      | none => rfl
      | some j => exact absurd ((parse_iff _ _).1 hp) (h j)
  refine ⟨hs', ?_⟩
  constructor
  · intro h
    have h1 : ¬ ∀ v, ¬ Document content v := by
      rw [← hs', h]; simp
    have h2 := mt hl.2 (by rw [h]; simp)
    simp only [Classical.not_forall, Classical.not_not] at h1
    obtain ⟨v, hv⟩ := h1
    refine ⟨v, hv, ?_, ?_⟩
    · rintro rfl; exact h2 (.inl hv)
    · rintro ms rfl
      refine Classical.byContradiction fun hc => h2 (.inr ⟨ms, hv, fun e he => ?_⟩)
      refine Classical.byContradiction fun hc' => hc ⟨e, he, fun i hi => hc' ⟨i, hi⟩⟩
  · rintro ⟨v, hv, hne, hob⟩
    cases hr : Vocab.fromJSONFile m content order with
    | ok w =>
      rcases hl.1 ⟨w, hr⟩ with h | ⟨ms, h, hid⟩
      · exact absurd (hv.unique h) hne
      · obtain ⟨e, he, hn⟩ := hob ms (hv.unique h)
        obtain ⟨i, hi⟩ := hid e he
        exact absurd hi (hn i)
    | error e =>
      cases e with
      | type => rfl
      | «syntax» => exact absurd hv (hs'.1 hr v)

/-- **C81, `null`.** The file `null` loads as an empty vocabulary that panics when a term is added. -/
theorem C81_null {m : Machine} {content : Str} {order : GoMap Str Int → List (Str × Int)} (ho : IterationOrder order)
    (h : Document content .null) : ∃ v, Vocab.fromJSONFile m content order = .ok v ∧ v.size = 0
      ∧ (∀ t, v.getID t = none) ∧ (∀ i, v.getString i = none) ∧ ∀ t, v.addTerm t = .panic := by
  have : order [] = [] := (ho []).eq_nil
  refine ⟨Vocab.fromJSON none [], ?_, rfl, fun _ => rfl, fun _ => rfl, fun _ => rfl⟩
  unfold Vocab.fromJSONFile unmarshal
  rw [(parse_iff _ _).2 h]
  simp [this]

/-- **C81, terms are UTF-8.** No vocabulary read from a file has a term that is not valid UTF-8. -/
theorem C81_valid {m : Machine} {content : Str} {order : GoMap Str Int → List (Str × Int)} {v : Vocab}
    (hv : Vocab.fromJSONFile m content order = .ok v) {t : Str} {i : Int} (h : v.getID t = some i) : ValidUtf8 t := by
  rcases (C81_loads m content order).1 ⟨v, hv⟩ with h' | ⟨ms, h', hid⟩
  · unfold Vocab.fromJSONFile unmarshal at hv
    rw [(parse_iff _ _).2 h'] at hv
    simp only [Except.ok.injEq] at hv
    subst hv
    simp [Vocab.getID, Vocab.fromJSON, GoMap.get?] at h
  · obtain ⟨pre, w, post, rfl, -, -⟩ := ((C81_ids hv h').1 t i).1 h
    obtain ⟨-, k, hk⟩ := h'.value (t, w) (by simp)
    exact hk.valid

/-- **C81, round trip.** What the writer makes of a list of terms and ids loads as this list: terms in valid UTF-8, each once,
and ids of type `int`. -/
theorem C81_roundtrip (m : Machine) (es : List (Str × Int)) (order : GoMap Str Int → List (Str × Int))
    (hv : ∀ e ∈ es, ValidUtf8 e.1) (hi : ∀ e ∈ es, -(m.half : Int) ≤ e.2 ∧ e.2 < m.half) (hk : (es.map (·.1)).Nodup) :
    ∃ v, Vocab.fromJSONFile m (writeVocab es) order = .ok v ∧ (∀ t i, v.getID t = some i ↔ (t, i) ∈ es)
      ∧ v.size = es.length
      ∧ (IterationOrder order → (es.map (·.2)).Nodup → ∀ t i, v.getString i = some t ↔ (t, i) ∈ es) := by
  have hd := writeVocab_spec es hv
  have hid : ∀ e ∈ es, ∀ i, IdOf m (.num (writeInt e.2)) i ↔ i = e.2 := by
    intro e he i
    have hw := writeInt_spec e.2
    constructor
    · rintro (⟨h, -⟩ | ⟨t, h1, h2, -⟩)
      · cases h
      · simp only [Val.num.injEq] at h1
        subst h1
        have := h2.parse
        rw [hw.parse] at this
        simpa using this.symm
    · rintro rfl
      exact .inr ⟨_, rfl, hw, hi e he⟩
  obtain ⟨v, hvv⟩ := (C81_loads m (writeVocab es) order).2 (.inr ⟨_, hd, by
    intro e he
    obtain ⟨e', he', rfl⟩ := List.mem_map.1 he
    exact ⟨_, (hid e' he' _).2 rfl⟩⟩)
  obtain ⟨h1, h2⟩ := C81_ids hvv hd
  have hget : ∀ t i, v.getID t = some i ↔ (t, i) ∈ es := by
    intro t i
    rw [h1]
    constructor
    · rintro ⟨pre, w, post, e1, -, e3⟩
      have hm : (t, w) ∈ es.map fun e => (e.1, Val.num (writeInt e.2)) := by rw [e1]; simp
      obtain ⟨e, he, h⟩ := List.mem_map.1 hm
      simp only [Prod.mk.injEq] at h
      obtain ⟨rfl, rfl⟩ := h
      rw [(hid e he i).1 e3]
      exact he
    · intro h
      obtain ⟨pre, post, rfl⟩ := List.append_of_mem h
      refine ⟨_, _, _, by rw [List.map_append, List.map_cons], ?_, (hid (t, i) h _).2 rfl⟩
      intro e he heq
      obtain ⟨e', he', rfl⟩ := List.mem_map.1 he
      simp only [List.map_append, List.map_cons, List.nodup_append, List.nodup_cons] at hk
      exact hk.2.1.1 (List.mem_map.2 ⟨e', he', heq⟩)
  refine ⟨v, hvv, hget, ?_, ?_⟩
  · rw [h2]
    have hkeys : ((es.map fun e => (e.1, Val.num (writeInt e.2))).map (·.1)) = es.map (·.1) := by simp [Function.comp_def]
    rw [hkeys]
    have : ∀ (l acc : List Str), (acc ++ l).Nodup → l.foldl (fun acc t => if t ∈ acc then acc else acc ++ [t]) acc = acc ++ l := by
      intro l
      induction l with
      | nil => intro acc _; simp
      | cons x l ih =>
        intro acc h
        have hx : x ∉ acc := by
          intro hx
          rw [List.nodup_append] at h
          exact h.2.2 x hx x (by simp) rfl
        simp only [List.foldl_cons, if_neg hx]
        rw [ih (acc ++ [x]) (by simpa using h)]
        simp
    unfold distinct
    rw [this _ [] (by simpa using hk)]
    simp
  · intro ho hn t i
    rw [← hget]
    refine (((C81_strings ho hvv).2.2 ?_) t i).symm
    intro t t' i h h'
    rw [hget] at h h'
    obtain ⟨a, ha, e⟩ := List.mem_iff_getElem.1 h
    obtain ⟨b, hb, e'⟩ := List.mem_iff_getElem.1 h'
    have : a = b := by
      have h1 : (es.map (·.2))[a]'(by simpa using ha) = (es.map (·.2))[b]'(by simpa using hb) := by simp [e, e']
      exact (List.getElem_inj hn).1 h1
    subst this
    rw [e] at e'
    simpa using congrArg Prod.fst e'

/-- A file with white space, escapes, `null` for 0 and two equal keys. -/
def jsonSample : Str :=
  b!" { \"a\\u00e9\\n\" : -12 ,\n\"x\":null, \"\\ud83d\\ude00\":7,\"x\":3, \"\\ud83d\": 0} "

example : (Vocab.fromJSONFile Machine.go64 jsonSample id).toOption.map
      (fun v => [v.getID b!"aé\n", v.getID b!"x", v.getID b!"😀", v.getID b!"\uFFFD", some v.size])
    = some [some (-12), some 3, some 7, some 0, some 4] := by decide +kernel

example : (Vocab.fromJSONFile Machine.go64 jsonSample id).toOption.map
      (fun v => [v.getString 3, v.getString 7, v.getString 1]) = some [some b!"x", some b!"😀", none] := by decide +kernel

/-- Files that do not load. -/
example : (Vocab.fromJSONFile Machine.go64 b!"{\"a\":1,}" id = .error .syntax)
    ∧ (Vocab.fromJSONFile Machine.go64 b!"{\"a\":01}" id = .error .syntax)
    ∧ (Vocab.fromJSONFile Machine.go64 b!"" id = .error .syntax)
    ∧ (Vocab.fromJSONFile Machine.go64 b!"{\"a\":1.0}" id = .error .type)
    ∧ (Vocab.fromJSONFile Machine.go64 b!"{\"a\":9223372036854775808}" id = .error .type)
    ∧ (Vocab.fromJSONFile Machine.go32 b!"{\"a\":2147483648}" id = .error .type)
    ∧ (Vocab.fromJSONFile Machine.go64 b!"[\"a\", {\"b\": [true, false]}]" id = .error .type)
    ∧ (Vocab.fromJSONFile Machine.go64 b!"{\"a\":1} x" id = .error .syntax) := by decide +kernel

/-- The writer. -/
example : writeVocab [(b!"a\"", 10), (b!"\n", -3)] = b!"{\"a\\\"\":10,\"\\u000a\":-3}" := by decide +kernel

end Verif
