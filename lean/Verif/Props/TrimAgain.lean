import Verif.Props.FilterAnyState
import Verif.Props.NormalizeBytes

/-! Trimming again, on any bytes and in any state (C158). -/

set_option autoImplicit false

namespace Verif

/-! ## Proofs -/

theorem takeWhile_after (p : Rune → Bool) (l : List Rune) (k : Nat) : ((l.drop (l.takeWhile p).length).take k).takeWhile p = [] := by
  induction l with
  | nil => simp
  | cons x l ih =>
    by_cases hx : p x = true
    · rw [List.takeWhile_cons, if_pos hx]; exact ih
    · rw [List.takeWhile_cons, if_neg hx]
      cases k with
      | zero => rfl
      | succ k => simp [hx]

/-- What trimming leaves of the runes has no space at the ends that are trimmed. -/
theorem trim_ends (rs : List Rune) (left right : Bool) {lead trail : Nat} (hl : lead = if left then (rs.takeWhile isWhiteSpace).length else 0)
    (ht : trail = if right ∧ lead < rs.length then (rs.reverse.takeWhile isWhiteSpace).length else 0) :
    (left = true → ((rs.drop lead).take (rs.length - trail - lead)).takeWhile isWhiteSpace = [])
    ∧ (right = true → ((rs.drop lead).take (rs.length - trail - lead)).reverse.takeWhile isWhiteSpace = []) := by
  constructor
  · rintro rfl
    rw [if_pos rfl] at hl
    rw [hl]
    exact takeWhile_after _ _ _
  · rintro rfl
    by_cases hlt : lead < rs.length
    · rw [if_pos ⟨rfl, hlt⟩] at ht
      have e : ((rs.drop lead).take (rs.length - trail - lead)).reverse
          = (rs.reverse.drop trail).take (rs.length - lead - trail) := by
        rw [List.reverse_take, List.reverse_drop, List.length_drop, List.drop_take]
        by_cases h : trail ≤ rs.length - lead
        · rw [show rs.length - lead - (rs.length - trail - lead) = trail by omega]
        · rw [show rs.length - lead - (rs.length - lead - (rs.length - trail - lead)) = 0 by omega,
            show rs.length - lead - trail = 0 by omega]
          simp
      rw [e, ht]
      exact takeWhile_after _ _ _
    · rw [List.drop_eq_nil_of_le (by omega)]
      simp

/-- **C158.**  Any bytes, any state: if `TrimLeftRight` returns, there is no white space left at the ends it was to trim, and the same call
again changes nothing. -/
theorem C158_again {ns m : NS} {left right : Bool} (h : ns.trimLeftRight left right = .ok m) :
    (left = true → ∀ r, (runesOf m.get).head? = some r → isWhiteSpace r = false)
    ∧ (right = true → ∀ r, (runesOf m.get).getLast? = some r → isWhiteSpace r = false)
    ∧ m.trimLeftRight left right = .ok m := by
  obtain ⟨h1, h2⟩ := C140_trim ns left right
  obtain ⟨lead, hl⟩ : ∃ x, x = if left then ((runesOf ns.normalized).takeWhile isWhiteSpace).length else 0 := ⟨_, rfl⟩
  obtain ⟨trail, ht⟩ : ∃ x, x = if right ∧ lead < (runesOf ns.normalized).length
    then ((runesOf ns.normalized).reverse.takeWhile isWhiteSpace).length else 0 := ⟨_, rfl⟩
  rw [← hl, ← ht] at h1 h2
  obtain ⟨e1, e2⟩ := trim_ends _ left right hl ht
  have hm : runesOf m.normalized = ((runesOf ns.normalized).drop lead).take ((runesOf ns.normalized).length - trail - lead) := by
    by_cases hz : lead = 0 ∧ trail = 0
    · rw [h1 hz, GoM.ok.injEq] at h
      rw [← h, hz.1, hz.2]
      simp
    · obtain ⟨k1, k2⟩ := h2 hz
      by_cases hk : ∃ ps, KeepsRunes ns (List.range' lead ((runesOf ns.normalized).length - trail - lead)) ps
      · obtain ⟨ps, hk⟩ := hk
        rw [k1 ps hk, GoM.ok.injEq] at h
        rw [← h]
        show runesOf (encodeRunes _) = _
        refine runesOf_encodeRunes _ fun r hr => runesOf_valid _ r (List.mem_of_mem_drop (List.mem_of_mem_take hr))
      · rw [k2 hk] at h; cases h
  rw [← hm] at e1 e2
  have hhead : ∀ l : List Rune, l.takeWhile isWhiteSpace = [] → ∀ r, l.head? = some r → isWhiteSpace r = false := by
    intro l hl r hr
    cases l with
    | nil => cases hr
    | cons x l =>
      simp only [List.head?_cons, Option.some.injEq] at hr
      subst hr
      by_cases hx : isWhiteSpace x = true
      · rw [List.takeWhile_cons, if_pos hx] at hl; cases hl
      · simpa using hx
  refine ⟨fun a => hhead _ (e1 a), fun a r hr => hhead _ (e2 a) r (by rw [List.head?_reverse]; exact hr), ?_⟩
  refine (C140_trim m left right).1 ⟨?_, ?_⟩
  · cases left with
    | false => rfl
    | true => simp [e1 rfl]
  · cases right with
    | false => simp
    | true => simp only [e2 rfl]; simp

/-- **C158, one end after the other.**  Any bytes, any state: if the calls return, first the left end and then the right one leaves the runes
that trimming both at once leaves. -/
theorem C158_sides {ns m n k : NS} (h1 : ns.trimLeftRight true false = .ok m) (h2 : m.trimLeftRight false true = .ok n)
    (h3 : ns.trimLeftRight true true = .ok k) : runesOf n.get = runesOf k.get := by
  rw [C126_trim_text h2, C126_trim_text h1, C126_trim_text h3]
  rfl

/-- **C158, two filters.**  Any bytes, any state: if the calls return, the text is that of the runes that both keep. -/
theorem C158_filters {ns m n : NS} {p q : Rune → Bool} (h1 : ns.filter p = .ok m) (h2 : m.filter q = .ok n) :
    n.get = encodeRunes ((runesOf ns.get).filter fun r => q r && p r) := by
  have key : ∀ {ns m : NS} {keep : Rune → Bool}, ns.filter keep = .ok m → m.get = encodeRunes ((runesOf ns.get).filter keep) := by
    intro ns m keep h
    obtain ⟨k1, k2⟩ := C140_filter ns keep
    by_cases hk : ∃ ps, KeepsRunes ns (((runesOf ns.normalized).zipIdx.filter fun x => keep x.1).map (·.2)) ps
    · obtain ⟨ps, hk⟩ := hk
      rw [k1 ps hk, GoM.ok.injEq] at h
      rw [← h]
      rfl
    · rw [k2 hk] at h; cases h
  rw [key h2, key h1, runesOf_encodeRunes _ fun r hr => runesOf_valid _ r (List.mem_filter.1 hr).1, List.filter_filter]

/-- With a byte that is not UTF-8, and with a space of three bytes whose letter is misaligned (C07). -/
theorem C158_example :
    (NS.fromString [0x20, 0xFF, 0x20]).trimLeftRight true true = .ok ⟨[0x20, 0xFF, 0x20], b!"�", [⟨1, 4⟩, ⟨1, 4⟩, ⟨1, 4⟩, ⟨1, 4⟩, ⟨2, 3⟩], 0⟩
    ∧ (NS.fromString b!"　a").trimLeftRight true false = .ok ⟨b!"　a", b!"a", [⟨0, 3⟩], 0⟩
    ∧ (⟨b!"　a", b!"a", [⟨0, 3⟩], 0⟩ : NS).trimLeftRight true false = .ok ⟨b!"　a", b!"a", [⟨0, 3⟩], 0⟩ := by
  decide +kernel

/-- On a byte that is not UTF-8 between spaces, and on letters and signs. -/
theorem C158_sides_example :
    (∃ m n k, (NS.fromString [0x20, 0xFF, 0x20]).trimLeftRight true false = .ok m ∧ m.trimLeftRight false true = .ok n
      ∧ (NS.fromString [0x20, 0xFF, 0x20]).trimLeftRight true true = .ok k ∧ runesOf n.get = [0xFFFD] ∧ runesOf k.get = [0xFFFD])
    ∧ (∃ m n, (NS.fromString b!"a-b+c").filter (· != 0x2D) = .ok m ∧ m.filter (· != 0x2B) = .ok n ∧ n.get = b!"abc") := by
  refine ⟨⟨_, _, _, rfl, rfl, rfl, ?_, ?_⟩, ⟨_, _, rfl, rfl, ?_⟩⟩ <;> decide +kernel

end Verif
