import Verif.Spec.Json
import Verif.Lemmas.Utf8
import Verif.Lemmas.Bytes
import Verif.Lemmas.FromString

/-! Lemmas on the JSON scanner and parser. -/

set_option autoImplicit false

namespace Verif
namespace Json

theorem forall_u8 {P : UInt8 → Prop} (h : ∀ n : Fin 256, P (UInt8.ofNat n.val)) (b : UInt8) : P b := by
  have := h ⟨b.toNat, b.toNat_lt⟩
  simpa using this

theorem isSpace_iff (b : UInt8) : isSpace b = true ↔ b ∈ b!" \t\n\r" := by
  revert b; apply forall_u8; decide +kernel

theorem isDigit_iff (b : UInt8) : isDigit b = true ↔ b ∈ b!"0123456789" := by
  revert b; apply forall_u8; decide +kernel

theorem hexVal_some (b : UInt8) : ∀ n, hexVal b = some n → HexDigit b n := by
  have : ∀ b : UInt8, ∀ n ∈ hexVal b, b!"0123456789abcdef"[n]? = some b ∨ b!"0123456789ABCDEF"[n]? = some b := by
    apply forall_u8; decide +kernel
  exact fun n h => this b n h

theorem HexDigit.val {b : UInt8} {n : Nat} (h : HexDigit b n) : hexVal b = some n := by
  have key : ∀ n < 16, (∀ b ∈ b!"0123456789abcdef"[n]?, hexVal b = some n) ∧ ∀ b ∈ b!"0123456789ABCDEF"[n]?, hexVal b = some n := by
    decide +kernel
  have hn : n < 16 := by
    rcases h with h | h
    · exact (List.getElem?_eq_some_iff.1 h).1
    · exact (List.getElem?_eq_some_iff.1 h).1
  rcases h with h | h
  · exact (key n hn).1 b h
  · exact (key n hn).2 b h

theorem Hex4.hex4 {h : Str} {n : Nat} (hh : Hex4 h n) (t : Str) : hex4 (h ++ t) = some (n, t) := by
  obtain ⟨b1, b2, b3, b4, n1, n2, n3, n4, rfl, h1, h2, h3, h4, rfl⟩ := hh
  simp only [List.cons_append, List.nil_append, Json.hex4, h1.val, h2.val, h3.val, h4.val]
  show some _ = _
  simp only [Option.some.injEq, Prod.mk.injEq, and_true]
  omega

theorem hex4_some {s t : Str} {n : Nat} (hs : hex4 s = some (n, t)) : ∃ h, s = h ++ t ∧ Hex4 h n := by
  unfold Json.hex4 at hs
  split at hs
  · rename_i a b c d s
    cases ha : hexVal a with
    | none => rw [ha] at hs; cases hs
    | some a' =>
      cases hb : hexVal b with
      | none => rw [ha, hb] at hs; cases hs
      | some b' =>
        cases hc : hexVal c with
        | none => rw [ha, hb, hc] at hs; cases hs
        | some c' =>
          cases hd : hexVal d with
          | none => rw [ha, hb, hc, hd] at hs; cases hs
          | some d' =>
            rw [ha, hb, hc, hd] at hs
            have hs : some (((a' * 16 + b') * 16 + c') * 16 + d', s) = some (n, t) := hs
            simp only [Option.some.injEq, Prod.mk.injEq] at hs
            refine ⟨[a, b, c, d], by simp [hs.2], a, b, c, d, a', b', c', d', rfl, hexVal_some _ _ ha, hexVal_some _ _ hb,
              hexVal_some _ _ hc, hexVal_some _ _ hd, by omega⟩
  · cases hs

theorem Hex4.digits {h : Str} {n : Nat} (hh : Hex4 h n) : ∃ a b c d, h = [a, b, c, d]
    ∧ (hexVal a).isSome ∧ (hexVal b).isSome ∧ (hexVal c).isSome ∧ (hexVal d).isSome := by
  obtain ⟨b1, b2, b3, b4, n1, n2, n3, n4, rfl, h1, h2, h3, h4, -⟩ := hh
  exact ⟨b1, b2, b3, b4, rfl, by simp [h1.val], by simp [h2.val], by simp [h3.val], by simp [h4.val]⟩

theorem Hex4.lt {h : Str} {n : Nat} (hh : Hex4 h n) : n < 0x10000 := by
  obtain ⟨b1, b2, b3, b4, n1, n2, n3, n4, rfl, h1, h2, h3, h4, rfl⟩ := hh
  have key : ∀ {b n}, HexDigit b n → n < 16 := by
    intro b n h
    rcases h with h | h
    · exact (List.getElem?_eq_some_iff.1 h).1
    · exact (List.getElem?_eq_some_iff.1 h).1
  have := key h1; have := key h2; have := key h3; have := key h4
  omega

theorem escape_iff (c x : UInt8) : escape c = some x ↔ (c, x) ∈ shortEscapes := by
  have h1 : ∀ c : UInt8, ∀ x ∈ escape c, (c, x) ∈ shortEscapes := by
    apply forall_u8; decide +kernel
  have h2 : ∀ p ∈ shortEscapes, escape p.1 = some p.2 := by decide +kernel
  exact ⟨fun h => h1 c x h, fun h => h2 _ h⟩

/-! ## White space -/

/-- The text does not start with white space. -/
def NoSpace (s : Str) : Prop := ∀ b t, s = b :: t → isSpace b = false

theorem skipSpace_eq {s : Str} (h : NoSpace s) : skipSpace s = s := by
  cases s with
  | nil => rfl
  | cons b t => simp [skipSpace, h b t rfl]

theorem skipSpace_ws {w t : Str} (hw : Ws w) (ht : NoSpace t) : skipSpace (w ++ t) = t := by
  induction w with
  | nil => exact skipSpace_eq ht
  | cons b w ih =>
    have : isSpace b = true := (isSpace_iff b).2 (hw b (by simp))
    simp only [List.cons_append, skipSpace, this, if_true]
    exact ih fun x hx => hw x (by simp [hx])

theorem skipSpace_split (s : Str) : ∃ w, Ws w ∧ s = w ++ skipSpace s ∧ NoSpace (skipSpace s) := by
  induction s with
  | nil => exact ⟨[], by simp [Ws], rfl, by intro b t h; simp [skipSpace] at h⟩
  | cons b s ih =>
    simp only [skipSpace]
    split
    · rename_i hb
      obtain ⟨w, h1, h2, h3⟩ := ih
      refine ⟨b :: w, ?_, by simp [← h2], h3⟩
      intro x hx
      rcases List.mem_cons.1 hx with rfl | hx
      · exact (isSpace_iff x).1 hb
      · exact h1 x hx
    · rename_i hb
      refine ⟨[], by simp [Ws], rfl, ?_⟩
      intro c t h
      simp only [List.cons.injEq] at h
      rw [← h.1]
      simpa using hb

theorem Ws.append {a b : Str} (ha : Ws a) (hb : Ws b) : Ws (a ++ b) := by
  intro x hx
  rcases List.mem_append.1 hx with h | h
  · exact ha x h
  · exact hb x h

theorem Ws.nil : Ws [] := by simp [Ws]

theorem skipSpace_all {w : Str} (hw : Ws w) : skipSpace w = [] := by
  have := skipSpace_ws (t := []) hw (by intro b t h; cases h)
  simpa using this

theorem ws_of_skipSpace {s : Str} (h : skipSpace s = []) : Ws s := by
  obtain ⟨w, h1, h2, -⟩ := skipSpace_split s
  rw [h, List.append_nil] at h2
  exact h2 ▸ h1

/-! ## Digits and numbers -/

/-- The text does not start with a digit. -/
def NoDigit (s : Str) : Prop := ∀ b t, s = b :: t → isDigit b = false

theorem digits_eq {ds r : Str} (hd : Digits ds) (hr : NoDigit r) : digits (ds ++ r) = (ds, r) := by
  induction ds with
  | nil =>
    cases r with
    | nil => rfl
    | cons b t => simp [digits, hr b t rfl]
  | cons b ds ih =>
    have : isDigit b = true := (isDigit_iff b).2 (hd b (by simp))
    simp only [List.cons_append, digits, this, if_true]
    rw [ih fun x hx => hd x (by simp [hx])]

theorem digits_split (s : Str) : s = (digits s).1 ++ (digits s).2 ∧ Digits (digits s).1 := by
  induction s with
  | nil => simp [digits, Digits]
  | cons b s ih =>
    simp only [digits]
    split
    · rename_i hb
      refine ⟨by simp [← ih.1], ?_⟩
      intro x hx
      rcases List.mem_cons.1 hx with rfl | hx
      · exact (isDigit_iff x).1 hb
      · exact ih.2 x hx
    · simp [Digits]

theorem scanInt_some {s i r : Str} (h : scanInt s = some (i, r)) : s = i ++ r ∧ IntPart i := by
  cases s with
  | nil => simp [scanInt] at h
  | cons b s =>
    simp only [scanInt] at h
    split at h
    · rename_i hb
      simp only [Option.some.injEq, Prod.mk.injEq] at h
      obtain ⟨rfl, rfl⟩ := h
      exact ⟨rfl, .inl (by rw [hb])⟩
    · rename_i hb
      split at h
      · rename_i hd
        have hs := digits_split (b :: s)
        simp only [Option.some.injEq] at h
        rw [h] at hs
        refine ⟨hs.1, .inr ⟨hs.2, ?_, ?_⟩⟩
        · intro e
          simp [digits, hd] at h
          simp [← h.1] at e
        · simp only [digits, hd, if_true, Prod.mk.injEq] at h
          rw [← h.1]
          simp only [List.head?_cons, ne_eq, Option.some.injEq]
          exact hb
      · cases h

theorem scanInt_eq {i r : Str} (hi : IntPart i) (hr : NoDigit r) : scanInt (i ++ r) = some (i, r) := by
  rcases hi with rfl | ⟨h1, h2, h3⟩
  · rfl
  · cases i with
    | nil => exact absurd rfl h2
    | cons b i =>
      simp only [List.head?_cons, ne_eq, Option.some.injEq] at h3
      have : isDigit b = true := (isDigit_iff b).2 (h1 b (by simp))
      have hd := digits_eq h1 hr
      simp only [List.cons_append] at hd ⊢
      simp only [scanInt, if_neg h3, this, if_true, hd]

theorem scanFrac_some {s f r : Str} (h : scanFrac s = some (f, r)) :
    s = f ++ r ∧ (f = [] ∨ ∃ ds, f = b!"." ++ ds ∧ Digits ds ∧ ds ≠ []) := by
  unfold scanFrac at h
  split at h
  · rename_i s
    split at h
    · cases h
    · rename_i hd
      have hs := digits_split s
      simp only [Option.some.injEq, Prod.mk.injEq] at h
      obtain ⟨rfl, rfl⟩ := h
      exact ⟨by simp [← hs.1], .inr ⟨_, rfl, hs.2, hd⟩⟩
  · simp only [Option.some.injEq, Prod.mk.injEq] at h
    obtain ⟨rfl, rfl⟩ := h
    exact ⟨rfl, .inl rfl⟩

theorem scanFrac_eq {f r : Str} (hf : f = [] ∨ ∃ ds, f = b!"." ++ ds ∧ Digits ds ∧ ds ≠ []) (hr : NoDigit r)
    (hdot : ∀ t, r ≠ 0x2E :: t) : scanFrac (f ++ r) = some (f, r) := by
  rcases hf with rfl | ⟨ds, rfl, h1, h2⟩
  · simp only [List.nil_append]
    unfold scanFrac
    split
    · exact absurd rfl (hdot _)
    · rfl
  · have := digits_eq h1 hr
    simp only [List.cons_append, List.nil_append, scanFrac, this, if_neg h2]

theorem scanExp_some {s e r : Str} (h : scanExp s = some (e, r)) :
    s = e ++ r ∧ (e = [] ∨ ∃ x y ds, e = x ++ y ++ ds ∧ (x = b!"e" ∨ x = b!"E") ∧ (y = [] ∨ y = b!"+" ∨ y = b!"-")
      ∧ Digits ds ∧ ds ≠ []) := by
  cases s with
  | nil =>
    simp only [scanExp, Option.some.injEq, Prod.mk.injEq] at h
    obtain ⟨rfl, rfl⟩ := h
    exact ⟨rfl, .inl rfl⟩
  | cons b s =>
    simp only [scanExp] at h
    split at h
    · rename_i hb
      have hs : s = (scanSign s).1 ++ (scanSign s).2 ∧ ((scanSign s).1 = [] ∨ (scanSign s).1 = b!"+" ∨ (scanSign s).1 = b!"-") := by
        unfold scanSign; split <;> simp
      have hd := digits_split (scanSign s).2
      split at h
      · cases h
      · rename_i hne
        simp only [Option.some.injEq, Prod.mk.injEq] at h
        obtain ⟨rfl, rfl⟩ := h
        refine ⟨?_, .inr ⟨[b], (scanSign s).1, (digits (scanSign s).2).1, by simp, ?_, hs.2, hd.2, hne⟩⟩
        · simp only [List.cons_append, List.append_assoc, ← hd.1, ← hs.1]
        · rcases hb with rfl | rfl
          · exact .inl rfl
          · exact .inr rfl
    · simp only [Option.some.injEq, Prod.mk.injEq] at h
      obtain ⟨rfl, rfl⟩ := h
      exact ⟨rfl, .inl rfl⟩

theorem scanExp_eq {e r : Str} (he : e = [] ∨ ∃ x y ds, e = x ++ y ++ ds ∧ (x = b!"e" ∨ x = b!"E")
      ∧ (y = [] ∨ y = b!"+" ∨ y = b!"-") ∧ Digits ds ∧ ds ≠ []) (hr : NoDigit r)
    (hE : ∀ b t, r = b :: t → b ≠ 0x65 ∧ b ≠ 0x45) : scanExp (e ++ r) = some (e, r) := by
  rcases he with rfl | ⟨x, y, ds, rfl, hx, hy, h1, h2⟩
  · cases r with
    | nil => rfl
    | cons b t =>
      have := hE b t rfl
      simp only [List.nil_append, scanExp]
      rw [if_neg (by simp [this])]
  · have hd := digits_eq h1 hr
    have hsign : scanSign (y ++ (ds ++ r)) = (y, ds ++ r) := by
      rcases hy with rfl | rfl | rfl
      · cases ds with
        | nil => exact absurd rfl h2
        | cons c ds =>
          have hc := h1 c (by simp)
          simp only [List.nil_append, List.cons_append]
          unfold scanSign
          split
          · rename_i heq; simp only [List.cons.injEq] at heq; rw [heq.1] at hc; simp at hc
          · rename_i heq; simp only [List.cons.injEq] at heq; rw [heq.1] at hc; simp at hc
          · rfl
      · rfl
      · rfl
    rcases hx with rfl | rfl
    · simp only [List.cons_append, List.nil_append, List.append_assoc, scanExp, true_or, if_true, hsign, hd, if_neg h2]
    · simp only [List.cons_append, List.nil_append, List.append_assoc, scanExp, or_true, if_true, hsign, hd, if_neg h2]

/-- What may follow a value: nothing, white space, a comma or a closing bracket or brace. -/
def Follow (r : Str) : Prop := ∀ b t, r = b :: t → b ∈ b!" \t\n\r,]}"

theorem Follow.num {r : Str} (h : Follow r) : NoDigit r ∧ (∀ t, r ≠ 0x2E :: t) ∧ ∀ b t, r = b :: t → b ≠ 0x65 ∧ b ≠ 0x45 := by
  have key : ∀ b ∈ b!" \t\n\r,]}", isDigit b = false ∧ b ≠ 0x2E ∧ b ≠ 0x65 ∧ b ≠ 0x45 := by decide +kernel
  refine ⟨fun b t e => (key b (h b t e)).1, fun t e => (key _ (h _ t e)).2.1 rfl, fun b t e => (key b (h b t e)).2.2⟩

theorem scanMinus_split (s : Str) : s = (scanMinus s).1 ++ (scanMinus s).2 ∧ ((scanMinus s).1 = [] ∨ (scanMinus s).1 = b!"-") := by
  unfold scanMinus; split <;> simp

theorem scanNumber_some {s t r : Str} (h : scanNumber s = some (t, r)) : s = t ++ r ∧ Number t := by
  unfold scanNumber at h
  cases h1 : scanInt (scanMinus s).2 with
  | none => rw [h1] at h; cases h
  | some p =>
    obtain ⟨i, s1⟩ := p
    rw [h1] at h
    cases h2 : scanFrac s1 with
    | none => simp only [Option.bind_eq_bind, Option.bind_some, h2] at h; cases h
    | some p =>
      obtain ⟨f, s2⟩ := p
      simp only [Option.bind_eq_bind, Option.bind_some, h2] at h
      cases h3 : scanExp s2 with
      | none => simp only [h3] at h; cases h
      | some p =>
        obtain ⟨e, s3⟩ := p
        simp only [h3, Option.bind_some, Option.pure_def, Option.some.injEq, Prod.mk.injEq] at h
        obtain ⟨rfl, rfl⟩ := h
        have a0 := scanMinus_split s
        have a1 := scanInt_some h1
        have a2 := scanFrac_some h2
        have a3 := scanExp_some h3
        refine ⟨?_, _, i, f, e, rfl, a0.2, a1.2, a2.2, a3.2⟩
        simp only [List.append_assoc, ← a3.1, ← a2.1, ← a1.1]
        exact a0.1

theorem IntPart.head {i : Str} (h : IntPart i) : ∃ b t, i = b :: t ∧ b ∈ b!"0123456789" := by
  rcases h with rfl | ⟨h1, h2, -⟩
  · exact ⟨_, _, rfl, by decide⟩
  · cases i with
    | nil => exact absurd rfl h2
    | cons b t => exact ⟨b, t, rfl, h1 b (by simp)⟩

theorem scanNumber_eq {t r : Str} (h : Number t) (hr : Follow r) : scanNumber (t ++ r) = some (t, r) := by
  obtain ⟨sign, i, f, e, rfl, hsign, hi, hf, he⟩ := h
  obtain ⟨hr1, hr2, hr3⟩ := hr.num
  have hE : NoDigit (e ++ r) ∧ ∀ t, e ++ r ≠ 0x2E :: t := by
    rcases he with rfl | ⟨x, y, ds, rfl, hx, -⟩
    · exact ⟨hr1, hr2⟩
    · rcases hx with rfl | rfl
      · exact ⟨by intro b t h; simp only [List.cons_append, List.cons.injEq] at h; rw [← h.1]; decide,
          by intro t h; simp at h⟩
      · exact ⟨by intro b t h; simp only [List.cons_append, List.cons.injEq] at h; rw [← h.1]; decide,
          by intro t h; simp at h⟩
  have hF : NoDigit (f ++ (e ++ r)) := by
    rcases hf with rfl | ⟨ds, rfl, -⟩
    · exact hE.1
    · intro b t h; simp only [List.cons_append, List.cons.injEq] at h; rw [← h.1]; decide
  have a1 := scanInt_eq hi hF
  have a2 := scanFrac_eq hf hE.1 hE.2
  have a3 := scanExp_eq he hr1 hr3
  obtain ⟨b, i', rfl, hb⟩ := hi.head
  have h2D : b ≠ 0x2D := by intro e; rw [e] at hb; simp at hb
  have hm : scanMinus (sign ++ (b :: i') ++ f ++ e ++ r) = (sign, (b :: i') ++ (f ++ (e ++ r))) := by
    rcases hsign with rfl | rfl
    · simp only [List.nil_append, List.append_assoc, List.cons_append]
      unfold scanMinus
      split
      · rename_i heq; simp only [List.cons.injEq] at heq; exact absurd heq.1 h2D
      · rfl
    · simp only [List.nil_append, List.append_assoc, List.cons_append, scanMinus]
  unfold scanNumber
  rw [hm]
  simp only [Option.bind_eq_bind, Option.pure_def, a1, a2, a3, Option.bind_some]

theorem Number.head {t : Str} (h : Number t) : ∃ b t', t = b :: t' ∧ b ∈ b!"-0123456789" := by
  obtain ⟨sign, i, f, e, rfl, hsign, hi, -⟩ := h
  obtain ⟨b, i', rfl, hb⟩ := hi.head
  rcases hsign with rfl | rfl
  · exact ⟨b, _, rfl, List.mem_cons_of_mem _ hb⟩
  · exact ⟨_, _, rfl, by decide⟩

/-! ## Strings -/

/-- A byte that stands in a string for itself. -/
def Plain (b : UInt8) : Prop := b ≠ 0x22 ∧ b ≠ 0x5C ∧ ¬ b < 0x20

theorem plain_high {b : UInt8} (h : 0x80 ≤ b.toNat) : Plain b := by
  refine ⟨?_, ?_, ?_⟩
  · rintro rfl; revert h; decide
  · rintro rfl; revert h; decide
  · intro hb; rw [UInt8.lt_iff_toNat_lt] at hb; have : (0x20 : UInt8).toNat = 32 := rfl; omega

theorem scanString_cons (b : UInt8) (s : Str) : scanString (b :: s) =
    if b = 0x22 then some ([], s)
    else if b = 0x5C then
      match s with
      | [] => none
      | c :: s =>
        if (escape c).isSome then (scanString s).map fun p => (b :: c :: p.1, p.2)
        else if c = 0x75 then
          match s with
          | h1 :: h2 :: h3 :: h4 :: s =>
            if (hexVal h1).isSome ∧ (hexVal h2).isSome ∧ (hexVal h3).isSome ∧ (hexVal h4).isSome then
              (scanString s).map fun p => (b :: c :: h1 :: h2 :: h3 :: h4 :: p.1, p.2)
            else none
          | _ => none
        else none
    else if b < 0x20 then none
    else (scanString s).map fun p => (b :: p.1, p.2) := by
  rw [scanString.eq_def]
  rfl

theorem unquote_cons (fuel : Nat) (b : UInt8) (s : Str) : unquote (fuel + 1) (b :: s) =
    if b = 0x5C then
      match s with
      | [] => []
      | c :: t =>
        match escape c with
        | some x => x :: unquote fuel t
        | none =>
          match getu4 (b :: s) with
          | none => []
          | some (rr, t) =>
            if isSurrogate rr then
              match getu4 t with
              | some (rr1, t') =>
                match decodePair rr rr1 with
                | some dec => encodeRune dec ++ unquote fuel t'
                | none => encodeRune runeError ++ unquote fuel t
              | none => encodeRune runeError ++ unquote fuel t
            else encodeRune rr ++ unquote fuel t
    else if b < 0x80 then b :: unquote fuel s
    else encodeRune (decodeRune (b :: s)).1 ++ unquote fuel ((b :: s).drop (decodeRune (b :: s)).2) := by
  rw [unquote.eq_def]
  rfl

theorem scanString_plain {b : UInt8} (h : Plain b) (s : Str) :
    scanString (b :: s) = (scanString s).map fun p => (b :: p.1, p.2) := by
  rw [scanString_cons, if_neg h.1, if_neg h.2.1, if_neg h.2.2]

theorem scanString_plains {p : Str} (h : ∀ b ∈ p, Plain b) (s : Str) :
    scanString (p ++ s) = (scanString s).map fun q => (p ++ q.1, q.2) := by
  induction p with
  | nil => simp
  | cons b p ih =>
    rw [List.cons_append, scanString_plain (h b (by simp)), ih fun x hx => h x (by simp [hx])]
    simp [Function.comp_def]

theorem toNat_ofNat {n : Nat} (h : n < 256) : (UInt8.ofNat n).toNat = n := by
  simp [UInt8.toNat_ofNat']; omega

theorem encodeRune_high {r : Rune} (hr : ValidRune r) : ∀ b ∈ encodeRune r, 0x80 ≤ b.toNat ∨ (encodeRune r = [b] ∧ (b.toNat : Int) = r) := by
  intro b hb
  unfold encodeRune at hb ⊢
  rw [sanitize_of_valid hr] at hb ⊢
  have hv : 0 ≤ r ∧ r < 0x110000 := by rcases hr with h | h <;> omega
  unfold encodeNat at hb ⊢
  split at hb
  · rename_i h
    simp only [List.mem_singleton] at hb
    subst hb
    rw [if_pos h]
    exact .inr ⟨rfl, by rw [toNat_ofNat (by omega)]; omega⟩
  · left
    split at hb
    · simp only [List.mem_cons, List.not_mem_nil, or_false] at hb
      rcases hb with rfl | rfl <;> rw [toNat_ofNat (by omega)] <;> omega
    · split at hb
      · simp only [List.mem_cons, List.not_mem_nil, or_false] at hb
        rcases hb with rfl | rfl | rfl <;> rw [toNat_ofNat (by omega)] <;> omega
      · simp only [List.mem_cons, List.not_mem_nil, or_false] at hb
        rcases hb with rfl | rfl | rfl | rfl <;> rw [toNat_ofNat (by omega)] <;> omega

theorem encodeRune_plain {r : Rune} (hr : ValidRune r) (h1 : 0x20 ≤ r) (h2 : r ≠ 0x22) (h3 : r ≠ 0x5C) :
    ∀ b ∈ encodeRune r, Plain b := by
  intro b hb
  rcases encodeRune_high hr b hb with h | ⟨-, h⟩
  · exact plain_high h
  · refine ⟨?_, ?_, ?_⟩
    · rintro rfl; exact h2 (by rw [← h]; rfl)
    · rintro rfl; exact h3 (by rw [← h]; rfl)
    · intro hlt
      rw [UInt8.lt_iff_toNat_lt] at hlt
      have : (0x20 : UInt8).toNat = 32 := rfl
      omega

/-- An ASCII byte is the encoding of a rune. -/
theorem ascii_encode {b : UInt8} (h : b.toNat < 0x80) : encodeRune (b.toNat : Int) = [b] := by
  unfold encodeRune
  rw [sanitize_of_valid (.inl ⟨by omega, by omega⟩)]
  unfold encodeNat
  rw [if_pos (by omega)]
  simp

theorem bad_high {b : UInt8} {t : Str} (h : ∀ (r : Rune) (t' : Str), ValidRune r → b :: t ≠ encodeRune r ++ t') : 0x80 ≤ b.toNat := by
  by_cases hb : b.toNat < 0x80
  · exact absurd (by rw [ascii_encode hb]; rfl) (h _ t (.inl ⟨by omega, by omega⟩))
  · omega

theorem decodeRune_bad {b : UInt8} {t : Str} (h : ∀ (r : Rune) (t' : Str), ValidRune r → b :: t ≠ encodeRune r ++ t') :
    decodeRune (b :: t) = (runeError, 1) := by
  rcases decodeRune_cases (b :: t) (by simp) with h1 | ⟨rest, h1⟩
  · exact h1
  · exact absurd h1 (h _ _ (decodeRune_valid _))

theorem scanString_uni {h : Str} {n : Nat} (hh : Hex4 h n) (s : Str) :
    scanString (b!"\\u" ++ h ++ s) = (scanString s).map fun p => (b!"\\u" ++ h ++ p.1, p.2) := by
  obtain ⟨a, b, c, d, rfl, h1, h2, h3, h4⟩ := hh.digits
  simp only [List.cons_append, List.nil_append]
  rw [scanString_cons]
  simp [show escape 117 = none from rfl, h1, h2, h3, h4]

/-- The scanner finds the end of a string. -/
theorem Body.scan {t s : Str} (h : Body t s) (r : Str) : scanString (t ++ 0x22 :: r) = some (t, r) := by
  induction h with
  | nil => rw [List.nil_append, scanString_cons, if_pos rfl]
  | char h1 h2 h3 h4 _ ih =>
    rw [List.append_assoc, scanString_plains (encodeRune_plain h1 h2 h3 h4), ih]
    rfl
  | bad h _ ih =>
    rw [List.cons_append, scanString_plain (plain_high (bad_high h)), ih]
    rfl
  | @short c x t s hc _ ih =>
    simp only [List.cons_append, List.nil_append]
    rw [scanString_cons, if_neg (by decide), if_pos rfl]
    simp only
    rw [if_pos (by rw [(escape_iff c x).2 hc]; rfl), ih]
    rfl
  | unicode hh _ _ ih => rw [List.append_assoc, scanString_uni hh, ih]; rfl
  | pair h1 h2 _ _ _ _ _ ih =>
    rw [show ∀ a b c d e f : Str, a ++ b ++ c ++ d ++ e ++ f = (a ++ b) ++ ((c ++ d) ++ (e ++ f)) by intros; simp,
      scanString_uni h1, scanString_uni h2, ih]
    simp
  | lone hh _ _ _ _ ih => rw [List.append_assoc, scanString_uni hh, ih]; rfl

theorem getu4_eq {h : Str} {n : Nat} (hh : Hex4 h n) (s : Str) : getu4 (b!"\\u" ++ h ++ s) = some (n, s) := by
  have := hh.hex4 s
  simpa [getu4] using this

theorem getu4_some {s t : Str} {n : Nat} (hs : getu4 s = some (n, t)) : ∃ h, s = b!"\\u" ++ h ++ t ∧ Hex4 h n := by
  unfold getu4 at hs
  split at hs
  · obtain ⟨h, rfl, hh⟩ := hex4_some hs
    exact ⟨h, rfl, hh⟩
  · cases hs

theorem unquote_uni (fuel : Nat) {h : Str} {n : Nat} (hh : Hex4 h n) (t : Str) :
    unquote (fuel + 1) (b!"\\u" ++ h ++ t) =
      if isSurrogate n then
        match getu4 t with
        | some (rr1, t') =>
          match decodePair n rr1 with
          | some dec => encodeRune dec ++ unquote fuel t'
          | none => encodeRune runeError ++ unquote fuel t
        | none => encodeRune runeError ++ unquote fuel t
      else encodeRune n ++ unquote fuel t := by
  have hg := getu4_eq hh t
  simp only [List.cons_append, List.nil_append] at hg ⊢
  rw [unquote_cons, if_pos rfl]
  simp only [show escape 117 = none from rfl, hg]

/-- A string stands for what `unquoteBytes` makes of it. -/
theorem Body.unquote {t s : Str} (h : Body t s) : ∀ fuel, t.length ≤ fuel → unquote fuel t = s := by
  induction h with
  | nil => intro fuel _; cases fuel <;> rfl
  | @char r t s h1 h2 h3 h4 _ ih =>
    intro fuel hf
    have hpos := encodeRune_length_pos r
    rw [List.length_append] at hf
    obtain ⟨fuel, rfl⟩ : ∃ k, fuel = k + 1 := ⟨fuel - 1, by omega⟩
    obtain ⟨b, p, he⟩ : ∃ b p, encodeRune r = b :: p := by
      cases he : encodeRune r with
      | nil => rw [he] at hpos; simp at hpos
      | cons b p => exact ⟨b, p, rfl⟩
    have hd := decodeRune_encodeRune h1 t
    have hpl := encodeRune_plain h1 h2 h3 h4 b (by simp [he])
    have hhi := encodeRune_high h1 b (by simp [he])
    unfold runeLen at hd
    rw [he, List.cons_append] at hd ⊢
    rw [unquote_cons, if_neg hpl.2.1]
    rcases hhi with hhi | ⟨he', hr⟩
    · rw [if_neg (by rw [UInt8.lt_iff_toNat_lt]; have : (0x80 : UInt8).toNat = 128 := rfl; omega), hd]
      simp only [List.length_cons, List.drop_succ_cons, List.drop_left, he]
      rw [ih fuel (by omega)]
    · rw [he] at he'
      simp only [List.cons.injEq, true_and] at he'
      subst he'
      rw [if_pos]
      · rw [List.nil_append, ih fuel (by omega)]; rfl
      · by_cases hlt : b < 0x80
        · exact hlt
        · exfalso
          rw [UInt8.lt_iff_toNat_lt] at hlt
          have h128 : (0x80 : UInt8).toNat = 128 := rfl
          have hl : runeLen r = 1 := by unfold runeLen; rw [he]; rfl
          have := runeLen_eq_one.1 hl
          omega
  | @bad b t s h _ ih =>
    intro fuel hf
    rw [List.length_cons] at hf
    obtain ⟨fuel, rfl⟩ : ∃ k, fuel = k + 1 := ⟨fuel - 1, by omega⟩
    have hb := bad_high h
    rw [unquote_cons, if_neg (plain_high hb).2.1, if_neg (by rw [UInt8.lt_iff_toNat_lt]; have : (0x80 : UInt8).toNat = 128 := rfl; omega),
      decodeRune_bad h]
    simp only [List.drop_succ_cons, List.drop_zero]
    rw [ih fuel (by omega)]
    rfl
  | @short c x t s hc _ ih =>
    intro fuel hf
    simp only [List.cons_append, List.nil_append, List.length_cons] at hf ⊢
    obtain ⟨fuel, rfl⟩ : ∃ k, fuel = k + 1 := ⟨fuel - 1, by omega⟩
    rw [unquote_cons, if_pos rfl]
    simp only [(escape_iff c x).2 hc]
    rw [ih fuel (by omega)]
  | @unicode h t s n hh hn _ ih =>
    intro fuel hf
    simp only [List.length_append, List.length_cons] at hf
    obtain ⟨fuel, rfl⟩ : ∃ k, fuel = k + 1 := ⟨fuel - 1, by omega⟩
    rw [unquote_uni fuel hh, if_neg (by simp [isSurrogate]; omega), ih fuel (by omega)]
  | @pair h h' t s hi lo h1 h2 a1 a2 a3 a4 _ ih =>
    intro fuel hf
    simp only [List.length_append, List.length_cons] at hf
    obtain ⟨fuel, rfl⟩ : ∃ k, fuel = k + 1 := ⟨fuel - 1, by omega⟩
    rw [show ∀ a b c d e : Str, a ++ b ++ c ++ d ++ e = (a ++ b) ++ ((c ++ d) ++ e) by intros; simp,
      unquote_uni fuel h1, if_pos (by simp [isSurrogate]; omega), getu4_eq h2]
    simp only [decodePair]
    rw [if_pos ⟨a1, a2, a3, a4⟩]
    simp only
    rw [ih fuel (by omega)]
    congr 2
    omega
  | @lone h t s n hh a1 a2 hn _ ih =>
    intro fuel hf
    simp only [List.length_append, List.length_cons] at hf
    obtain ⟨fuel, rfl⟩ : ∃ k, fuel = k + 1 := ⟨fuel - 1, by omega⟩
    rw [unquote_uni fuel hh, if_pos (by simp [isSurrogate]; omega)]
    have hr : encodeRune runeError ++ Json.unquote fuel t = encodeRune 0xFFFD ++ s := by rw [ih fuel (by omega)]; rfl
    cases hg : getu4 t with
    | none => exact hr
    | some p =>
      obtain ⟨rr1, t'⟩ := p
      simp only [decodePair]
      rw [if_neg]
      · exact hr
      · rintro ⟨-, b1, b2, b3⟩
        obtain ⟨h', rfl, hh'⟩ := getu4_some hg
        exact hn ⟨b1, h', rr1, t', rfl, hh', b2, b3⟩

/-- What the scanner returns is the text up to a quote. -/
theorem scanString_split : ∀ (n : Nat) (s t r : Str), s.length ≤ n → scanString s = some (t, r) → s = t ++ 0x22 :: r := by
  intro n
  induction n with
  | zero =>
    intro s t r hs h
    have : s = [] := List.length_eq_zero_iff.1 (by omega)
    subst this
    simp [scanString] at h
  | succ n ih =>
    intro s t r hs h
    cases s with
    | nil => simp [scanString] at h
    | cons b s =>
      rw [scanString_cons] at h
      split at h
      · rename_i hb
        simp only [Option.some.injEq, Prod.mk.injEq] at h
        obtain ⟨rfl, rfl⟩ := h
        rw [hb]; rfl
      · split at h
        · split at h
          · cases h
          · rename_i c s
            simp only [List.length_cons] at hs
            split at h
            · simp only [Option.map_eq_some_iff, Prod.mk.injEq] at h
              obtain ⟨⟨p, q⟩, h1, rfl, rfl⟩ := h
              rw [ih s p q (by omega) h1]; rfl
            · split at h
              · split at h
                · rename_i s
                  simp only [List.length_cons] at hs
                  split at h
                  · simp only [Option.map_eq_some_iff, Prod.mk.injEq] at h
                    obtain ⟨⟨p, q⟩, h1, rfl, rfl⟩ := h
                    rw [ih s p q (by omega) h1]; rfl
                  · cases h
                · cases h
              · cases h
        · split at h
          · cases h
          · simp only [List.length_cons] at hs
            simp only [Option.map_eq_some_iff, Prod.mk.injEq] at h
            obtain ⟨⟨p, q⟩, h1, rfl, rfl⟩ := h
            rw [ih s p q (by omega) h1]; rfl

theorem hex4_isSome {a b c d : UInt8} (h : (hexVal a).isSome ∧ (hexVal b).isSome ∧ (hexVal c).isSome ∧ (hexVal d).isSome) :
    ∃ n, Hex4 [a, b, c, d] n := by
  obtain ⟨h1, h2, h3, h4⟩ := h
  obtain ⟨n1, h1⟩ := Option.isSome_iff_exists.1 h1
  obtain ⟨n2, h2⟩ := Option.isSome_iff_exists.1 h2
  obtain ⟨n3, h3⟩ := Option.isSome_iff_exists.1 h3
  obtain ⟨n4, h4⟩ := Option.isSome_iff_exists.1 h4
  exact ⟨_, a, b, c, d, n1, n2, n3, n4, rfl, hexVal_some _ _ h1, hexVal_some _ _ h2, hexVal_some _ _ h3, hexVal_some _ _ h4, rfl⟩

/-- What the scanner accepts is a string. -/
theorem body_of_scan : ∀ (n : Nat) (t r : Str), t.length ≤ n → scanString (t ++ 0x22 :: r) = some (t, r) → ∃ s, Body t s := by
  intro n
  induction n with
  | zero =>
    intro t r hs _
    have : t = [] := List.length_eq_zero_iff.1 (by omega)
    subst this
    exact ⟨[], .nil⟩
  | succ n ih =>
    intro t r hs h
    cases t with
    | nil => exact ⟨[], .nil⟩
    | cons b t =>
      simp only [List.length_cons] at hs
      by_cases hq : b = 0x22
      · subst hq
        rw [List.cons_append, scanString_cons, if_pos rfl] at h
        simp at h
      · by_cases he : b = 0x5C
        · subst he
          rw [List.cons_append, scanString_cons, if_neg hq, if_pos rfl] at h
          cases t with
          | nil =>
            simp only [List.nil_append] at h
            rw [if_pos (by decide)] at h
            simp [Option.map_eq_some_iff] at h
          | cons c t =>
            simp only [List.length_cons] at hs
            simp only [List.cons_append] at h
            split at h
            · rename_i hc
              simp only [Option.map_eq_some_iff, Prod.mk.injEq, List.cons.injEq, true_and] at h
              obtain ⟨⟨p, q⟩, h1, h2, h3⟩ := h
              simp only at h2 h3
              subst h2 h3
              obtain ⟨s, hb⟩ := ih p q (by omega) h1
              obtain ⟨x, hx⟩ := Option.isSome_iff_exists.1 hc
              exact ⟨_, .short ((escape_iff c x).1 hx) hb⟩
            · split at h
              · rename_i hu
                split at h
                · rename_i h1 h2 h3 h4 s heq
                  split at h
                  · rename_i hx
                    simp only [Option.map_eq_some_iff, Prod.mk.injEq, List.cons.injEq, true_and] at h
                    obtain ⟨⟨p, q⟩, e1, e2, e3⟩ := h
                    simp only at e2 e3
                    subst e2 e3
                    simp only [List.cons_append, List.cons.injEq, true_and] at heq
                    subst heq
                    simp only [List.length_cons] at hs
                    obtain ⟨str, hb⟩ := ih p q (by omega) e1
                    obtain ⟨n, hn⟩ := hex4_isSome hx
                    subst hu
                    by_cases hsur : 0xD800 ≤ n ∧ n < 0xE000
                    · by_cases hp : n < 0xDC00 ∧ StartsLow p
                      · obtain ⟨hlt, h', lo, t', rfl, hlo, l1, l2⟩ := hp
                        obtain ⟨str', hb'⟩ := ih t' q (by simp only [List.length_append] at hs; omega) (by
                          rw [List.append_assoc, scanString_uni hlo] at e1
                          simp only [Option.map_eq_some_iff, Prod.mk.injEq, List.append_cancel_left_eq] at e1
                          obtain ⟨⟨p, q⟩, e1, e2, e3⟩ := e1
                          simp only at e2 e3
                          rw [e1, e2, e3])
                        have := Body.pair hn hlo hsur.1 hlt l1 l2 hb'
                        refine ⟨encodeRune (0x10000 + 0x400 * ((n : Int) - 0xD800) + ((lo : Int) - 0xDC00)) ++ str', ?_⟩
                        simpa using this
                      · exact ⟨_, .lone hn hsur.1 hsur.2 hp hb⟩
                    · exact ⟨_, .unicode hn (by omega) hb⟩
                  · cases h
                · cases h
              · cases h
        · have hp : Plain b := by
            refine ⟨hq, he, ?_⟩
            intro hlt
            rw [List.cons_append, scanString_cons, if_neg hq, if_neg he, if_pos hlt] at h
            cases h
          by_cases hc : ∃ (r : Rune) (t' : Str), ValidRune r ∧ b :: t = encodeRune r ++ t'
          · obtain ⟨rn, t', hr, e⟩ := hc
            have hpos := encodeRune_length_pos rn
            have hall : ∀ x ∈ encodeRune rn, Plain x := by
              intro x hx
              rcases encodeRune_high hr x hx with hx' | ⟨he1, -⟩
              · exact plain_high hx'
              · rw [he1] at e
                simp only [List.cons_append, List.nil_append, List.cons.injEq] at e
                rw [← e.1]; exact hp
            have hl := congrArg List.length e
            simp only [List.length_cons, List.length_append] at hl
            rw [e, List.append_assoc, scanString_plains hall] at h
            simp only [Option.map_eq_some_iff, Prod.mk.injEq, List.append_cancel_left_eq] at h
            obtain ⟨⟨p, q⟩, h1, h2, h3⟩ := h
            simp only at h2 h3
            subst h2 h3
            obtain ⟨s, hb⟩ := ih p q (by omega) h1
            rw [e]
            have hmem : ∀ x, encodeRune rn = [x] → Plain x ∧ (x.toNat : Int) = rn ∨ 0x80 ≤ x.toNat := by
              intro x hx
              rcases encodeRune_high hr x (by simp [hx]) with h | ⟨-, h⟩
              · exact .inr h
              · exact .inl ⟨hall x (by simp [hx]), h⟩
            refine ⟨_, .char hr ?_ ?_ ?_ hb⟩
            · by_cases h20 : rn < 0x20
              · exfalso
                have hnn : 0 ≤ rn := by rcases hr with h | h <;> omega
                have h1 : (UInt8.ofNat rn.toNat).toNat = rn.toNat := toNat_ofNat (by omega)
                have h2 : encodeRune rn = [UInt8.ofNat rn.toNat] := by
                  rw [← ascii_encode (by rw [h1]; omega), h1]
                  congr 1; omega
                have h3 := hall _ (by rw [h2]; exact List.mem_singleton.2 rfl)
                exact h3.2.2 (by rw [UInt8.lt_iff_toNat_lt, h1]; have : (0x20 : UInt8).toNat = 32 := rfl; omega)
              · omega
            · rintro rfl
              exact (hall 0x22 (by decide)).1 rfl
            · rintro rfl
              exact (hall 0x5C (by decide)).2.1 rfl
          · rw [List.cons_append, scanString_plain hp] at h
            simp only [Option.map_eq_some_iff, Prod.mk.injEq, List.cons.injEq, true_and] at h
            obtain ⟨⟨p, q⟩, h1, h2, h3⟩ := h
            simp only at h2 h3
            subst h2 h3
            obtain ⟨s, hb⟩ := ih p q (by omega) h1
            exact ⟨_, .bad (fun r t' hr e => hc ⟨r, t', hr, e⟩) hb⟩

theorem parseString_some {s str r : Str} (h : parseString s = some (str, r)) : ∃ t, s = t ++ 0x22 :: r ∧ Body t str := by
  unfold parseString at h
  simp only [Option.map_eq_some_iff, Prod.mk.injEq] at h
  obtain ⟨⟨t, r'⟩, h1, h2, rfl⟩ := h
  have hs := scanString_split _ s t r' (Nat.le_refl _) h1
  subst hs
  obtain ⟨str', hb⟩ := body_of_scan _ t r' (Nat.le_refl _) h1
  rw [← h2, hb.unquote _ (Nat.le_refl _)]
  exact ⟨t, rfl, hb⟩

theorem parseString_eq {t str : Str} (h : Body t str) (r : Str) : parseString (t ++ 0x22 :: r) = some (str, r) := by
  unfold parseString
  rw [h.scan r]
  simp [h.unquote]

end Json
end Verif
