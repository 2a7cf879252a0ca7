import Verif.Model.Notation
import Verif.Props.ClosureBytes
import Verif.Props.ReplaceAnyState
import Verif.Props.ReplaceBytes

/-! `Replace` where bytes have no alignments (C152). -/

set_option autoImplicit false

namespace Verif

/-! ## Specification -/

/-- The same with further alignments at the end. -/
def furtherAligned (ns : NS) (more : List Align) : NS := { ns with alignments := ns.alignments ++ more }

/-- Every rune `d` ends within the first `n` bytes; `p` bytes are read before. -/
def EndsWithin (d : Rune) (n : Nat) : Nat → List Chunk → Prop
  | _, [] => True
  | p, c :: cs => (c.rune = d → p + c.bytes.length ≤ n) ∧ EndsWithin d n (p + c.bytes.length) cs

instance decEndsWithin (d : Rune) (n : Nat) : (p : Nat) → (cs : List Chunk) → Decidable (EndsWithin d n p cs)
  | _, [] => .isTrue trivial
  | p, c :: cs => @instDecidableAnd _ _ inferInstance (decEndsWithin d n (p + c.bytes.length) cs)

/-! ## Proofs -/

theorem withContent_more {ns : NS} {content : Str} {a b : Int} (more : List Align) (hf : FitsIn ns.normalized a b)
    (hb : b ≤ (ns.alignments.length : Int)) : withContent (furtherAligned ns more) content a b = furtherAligned (withContent ns content a b) more := by
  obtain ⟨h0, h1, -⟩ := hf
  have hn : newAlign (furtherAligned ns more) a b = newAlign ns a b := by
    simp only [newAlign, furtherAligned]
    split
    · rfl
    · next hb0 =>
      have hl := runesOf_length_le (sub ns.normalized a b)
      have hs : (sub ns.normalized a b).length ≤ (b - a).toNat := by simp only [sub, List.length_take]; omega
      simp only [List.getD_eq_getElem?_getD]
      rw [List.getElem?_append_left (by omega)]
  simp only [withContent, hn]
  simp only [furtherAligned]
  rw [List.take_append_of_le_length (by omega), List.drop_append_of_le_length (by omega)]
  simp

theorem replacing_more {content : Str} {ns ns' : NS} {off : Int} {caps : List Capture} (more : List Align)
    (h : Replacing content ns off caps ns') : Replacing content (furtherAligned ns more) off caps (furtherAligned ns' more) := by
  induction h with
  | done => exact .done _ _
  | skip hc _ ih => exact .skip hc ih
  | put hc hf hb _ ih =>
    refine .put hc hf ?_ ?_
    · simp only [furtherAligned, List.length_append]; omega
    · rw [withContent_more more hf hb]; exact ih

/-- The matches come one after the other. -/
inductive MatchesInOrder : Int → List Capture → Prop
  | nil (lo : Int) : MatchesInOrder lo []
  | skip {lo : Int} {c : Capture} {cs : List Capture} : c.isMatch = false → MatchesInOrder lo cs → MatchesInOrder lo (c :: cs)
  | hit {lo : Int} {c : Capture} {cs : List Capture} : c.isMatch = true → lo ≤ c.offsets.start → c.offsets.start ≤ c.offsets.stop →
      MatchesInOrder c.offsets.stop cs → MatchesInOrder lo (c :: cs)

theorem withContent_length {ns : NS} {content : Str} (hc : ValidUtf8 content) {a b : Int} (h0 : 0 ≤ a) (h1 : a ≤ b)
    (hb : b ≤ (ns.alignments.length : Int)) :
    ((withContent ns content a b).alignments.length : Int) = ns.alignments.length + (content.length - (b - a)) := by
  simp only [withContent, hc.runes, List.length_append, List.length_take, List.length_replicate, List.length_drop]
  omega

theorem movedPlace_of {x off : Int} (h : 0 ≤ x + off) : movedPlace x off = x + off := by
  simp only [movedPlace]; rw [if_neg (by omega)]

theorem replacing_bounds {content : Str} (hv : ValidUtf8 content) {ns ns' : NS} {off : Int} {caps : List Capture}
    (h : Replacing content ns off caps ns') : ∀ {lo A : Int}, MatchesInOrder lo caps → 0 ≤ lo + off → (ns.alignments.length : Int) = A + off →
    ∀ c ∈ caps, c.isMatch = true → c.offsets.stop ≤ A := by
  induction h with
  | done => intro lo A _ _ _ c hc; cases hc
  | @skip ns ns' off c cs hc _ ih =>
    intro lo A ho h0 hA x hx hm
    cases ho with
    | hit h => rw [hc] at h; cases h
    | skip _ ho =>
      rcases List.mem_cons.1 hx with rfl | hx
      · rw [hc] at hm; cases hm
      · exact ih ho h0 hA x hx hm
  | @put ns ns' off c cs hc hf hb _ ih =>
    intro lo A ho h0 hA x hx hm
    cases ho with
    | skip h => rw [hc] at h; cases h
    | hit _ h1 h2 ho =>
      have e1 := movedPlace_of (x := c.offsets.start) (off := off) (by omega)
      have e2 := movedPlace_of (x := c.offsets.stop) (off := off) (by omega)
      rw [e1, e2] at hf ih
      rw [e2] at hb
      rcases List.mem_cons.1 hx with rfl | hx
      · omega
      · refine ih ho ?_ ?_ x hx hm
        · omega
        · rw [withContent_length hv hf.1 hf.2.1 hb]; omega

theorem replacing_less {content : Str} (hv : ValidUtf8 content) {more : List Align} {off : Int} {caps : List Capture} :
    ∀ {m m' : NS}, Replacing content m off caps m' → ∀ {ns : NS} {lo A : Int}, m = furtherAligned ns more → MatchesInOrder lo caps → 0 ≤ lo + off →
    (ns.alignments.length : Int) = A + off → (∀ c ∈ caps, c.isMatch = true → c.offsets.stop ≤ A) →
    ∃ ns', Replacing content ns off caps ns' ∧ m' = furtherAligned ns' more := by
  intro m m' h
  induction h with
  | done => intro ns lo A hm _ _ _ _; exact ⟨ns, .done _ _, hm⟩
  | @skip m m' off c cs hc _ ih =>
    intro ns lo A hm ho h0 hA hall
    cases ho with
    | hit h => rw [hc] at h; cases h
    | skip _ ho =>
      obtain ⟨ns', h1, h2⟩ := ih hm ho h0 hA fun x hx => hall x (by simp [hx])
      exact ⟨ns', .skip hc h1, h2⟩
  | @put m m' off c cs hc hf hb _ ih =>
    intro ns lo A hm ho h0 hA hall
    subst hm
    cases ho with
    | skip h => rw [hc] at h; cases h
    | hit _ h1 h2 ho =>
      have e1 := movedPlace_of (x := c.offsets.start) (off := off) (by omega)
      have e2 := movedPlace_of (x := c.offsets.stop) (off := off) (by omega)
      have hs := hall c (by simp) hc
      have hf' : FitsIn ns.normalized (movedPlace c.offsets.start off) (movedPlace c.offsets.stop off) := hf
      have hb' : movedPlace c.offsets.stop off ≤ (ns.alignments.length : Int) := by rw [e2]; omega
      obtain ⟨ns', k1, k2⟩ := ih (withContent_more more hf' hb') ho (by omega)
        (by rw [withContent_length hv hf'.1 hf'.2.1 hb', e1, e2]; omega) (A := A) fun x hx => hall x (by simp [hx])
      exact ⟨ns', .put hc hf' hb' k1, k2⟩

theorem inOrder_stretch (lo : Int) (a b : Nat) {cs : List Capture} : MatchesInOrder lo (stretch a b ++ cs) ↔ MatchesInOrder lo cs := by
  unfold stretch
  split
  · constructor
    · intro h
      cases h with
      | skip _ h => exact h
      | hit h => cases h
    · intro h; exact .skip rfl h
  · rfl

theorem matches_stretch (P : Capture → Prop) (a b : Nat) (cs : List Capture) :
    (∀ c ∈ stretch a b ++ cs, c.isMatch = true → P c) ↔ ∀ c ∈ cs, c.isMatch = true → P c := by
  unfold stretch
  split
  · simp
  · simp

theorem cuts_inOrder {lo p : Nat} {l : List (Chunk × Bool)} {caps : List Capture} (h : ByteCuts lo p l caps) :
    (∀ x ∈ l, x.2 = true → x.1.bytes = encodeRune x.1.rune) → MatchesInOrder p caps := by
  induction h with
  | done =>
    intro _
    rw [← List.append_nil (stretch _ _), inOrder_stretch]
    exact .nil _
  | @hit lo p q run l c caps hr hq _ ih =>
    intro hw
    have hb := hw (c, true) (by simp) rfl
    simp only at hb
    rw [inOrder_stretch]
    refine .hit rfl ?_ ?_ ?_
    · simp only; omega
    · simp only; omega
    · have := ih fun x hx => hw x (by simp [hx])
      rw [hb] at this
      exact this

theorem endsWithin_run {d : Rune} {n : Nat} : ∀ {run : List Chunk} {p : Nat} {rest : List Chunk}, (∀ c ∈ run, (c.rune == d) = false) →
    (EndsWithin d n p (run ++ rest) ↔ EndsWithin d n (p + (textOf run).length) rest) := by
  intro run
  induction run with
  | nil => intro p rest _; simp [textOf]
  | cons c run ih =>
    intro p rest h
    have hc := h c (by simp)
    rw [List.cons_append, EndsWithin, ih fun x hx => h x (by simp [hx]), textOf_cons, List.length_append, Nat.add_assoc]
    have : c.rune ≠ d := by simpa using hc
    simp [this]

theorem cuts_within {d : Rune} {n : Nat} {lo p : Nat} {l : List (Chunk × Bool)} {caps : List Capture} (h : ByteCuts lo p l caps) :
    (∀ x ∈ l, x.2 = true → x.1.bytes = encodeRune x.1.rune) → (∀ x ∈ l, x.2 = (x.1.rune == d)) →
    ((∀ c ∈ caps, c.isMatch = true → c.offsets.stop ≤ (n : Int)) ↔ EndsWithin d n p (l.map (·.1))) := by
  induction h with
  | @done lo p run hr =>
    intro _ hd
    rw [← List.append_nil (stretch _ _), matches_stretch, ← List.append_nil (run.map (·.1)), endsWithin_run]
    · simp [EndsWithin]
    · intro c hc
      obtain ⟨x, hx, rfl⟩ := List.mem_map.1 hc
      rw [← hd x hx]; exact hr x hx
  | @hit lo p q run l c caps hr hq _ ih =>
    intro hw hd
    have hb := hw (c, true) (by simp) rfl
    have hcd := hd (c, true) (by simp)
    simp only at hb hcd
    have hcd' : c.rune = d := by simpa using hcd.symm
    rw [matches_stretch, List.map_append, List.map_cons, endsWithin_run, ← hq, EndsWithin,
      ← ih (fun x hx => hw x (by simp [hx])) fun x hx => hd x (by simp [hx])]
    · simp only [List.mem_cons, forall_eq_or_imp, hcd', forall_const, hb]
      refine and_congr_left fun _ => ?_
      omega
    · intro x hx
      obtain ⟨y, hy, rfl⟩ := List.mem_map.1 hx
      rw [← hd y (by simp [hy])]; exact hr y hy

theorem endsWithin_none {d : Rune} {n : Nat} : ∀ {cs : List Chunk} {p : Nat}, n < p → EndsWithin d n p cs → ∀ c ∈ cs, (c.rune == d) = false := by
  intro cs
  induction cs with
  | nil => intro p _ _ c hc; cases hc
  | cons x cs ih =>
    intro p hp h c hc
    rcases List.mem_cons.1 hc with rfl | hc
    · rw [beq_eq_false_iff_ne]
      intro e
      have := h.1 e
      omega
    · exact ih (by omega) h.2 c hc

theorem replaceAligns_same {d : Rune} {k : Nat} {cs : List Chunk} (h : ∀ c ∈ cs, (c.rune == d) = false) (als : List Align) :
    replaceAligns d k cs als = als := by
  have := replaceAligns_none (n := k) h [] als
  rw [List.append_nil] at this
  rw [this, replaceAligns, List.take_append_drop]

theorem replaceAligns_more {d : Rune} {k n : Nat} (more : List Align) : ∀ (cs : List Chunk) (p : Nat) (als : List Align),
    (∀ c ∈ cs, c.bytes ≠ []) → als.length + p = n → EndsWithin d n p cs →
    replaceAligns d k cs (als ++ more) = replaceAligns d k cs als ++ more := by
  intro cs
  induction cs with
  | nil => intro p als _ _ _; rfl
  | cons c cs ih =>
    intro p als hne hn he
    by_cases hlt : c.bytes.length ≤ als.length
    · have hc0 := List.length_pos_iff.2 (hne c (by simp))
      rw [replaceAligns, replaceAligns, List.take_append_of_le_length hlt, List.drop_append_of_le_length hlt,
        ih (p + c.bytes.length) (als.drop c.bytes.length) (fun x hx => hne x (by simp [hx])) (by rw [List.length_drop]; omega) he.2]
      have : (als ++ more).headD ⟨0, 0⟩ = als.headD ⟨0, 0⟩ := by
        cases als with
        | nil => simp at hlt; exact absurd hlt (hne c (by simp))
        | cons => rfl
      rw [this, List.append_assoc]
    · have hall : ∀ x ∈ c :: cs, (x.rune == d) = false := by
        intro x hx
        rcases List.mem_cons.1 hx with rfl | hx
        · rw [beq_eq_false_iff_ne]
          intro e
          have := he.1 e
          omega
        · exact endsWithin_none (by omega) he.2 x hx
      rw [replaceAligns_same hall, replaceAligns_same hall]

/-- **C152, more alignments.**  In any state, for every pattern: what `Replace` does when it returns, it also does with further alignments
at the end, which stay there. -/
theorem C152_more (ns ns' : NS) (pattern : SplitPattern) (content : Str) (more : List Align)
    (h : ns.replace pattern content = .ok (.ok ns')) :
    (furtherAligned ns more).replace pattern content = .ok (.ok (furtherAligned ns' more)) := by
  obtain ⟨h1, h2, h3⟩ := C141_exact ns pattern content
  cases hp : pattern ns.normalized with
  | panic => rw [h3 hp] at h; cases h
  | ok x =>
    cases x with
    | error e => rw [h2 e hp] at h; cases h
    | ok caps =>
      obtain ⟨k1, k2⟩ := h1 caps hp
      by_cases hr : ∃ m, Replacing content ns 0 caps m
      · obtain ⟨m, hr⟩ := hr
        rw [k1 m hr] at h
        cases h
        exact ((C141_exact (furtherAligned ns more) pattern content).1 caps hp).1 _ (replacing_more more hr)
      · rw [k2 hr] at h; cases h

/-- **C152, a rune.**  Any bytes, any state, any rune but U+FFFD, any valid content: `Replace` returns exactly when each such rune ends
within the bytes that have alignments, and then does what C130 says; otherwise it panics. -/
theorem C152_replace (ns : NS) {d : Rune} (hd : d ≠ 0xFFFD) {content : Str} (hv : ValidUtf8 content) :
    (EndsWithin d ns.alignments.length 0 (chunks ns.get) → ns.replace (fromRune d) content = .ok (.ok { ns with
      normalized := replaceRune d content (chunks ns.get)
      alignments := replaceAligns d content.length (chunks ns.get) ns.alignments }))
    ∧ (¬ EndsWithin d ns.alignments.length 0 (chunks ns.get) → ns.replace (fromRune d) content = .panic) := by
  by_cases h0 : ns.get = []
  · have hc : chunks ns.get = [] := by rw [h0]; rfl
    refine ⟨fun _ => C130_replace (by rw [h0]; exact Nat.zero_le _) hd hv, fun h => ?_⟩
    rw [hc] at h
    exact absurd trivial h
  · have hp : fromRune d ns.normalized = .ok (.ok (funcFindMatches (fun other => other == d) ns.get)) := rfl
    obtain ⟨k1, k2⟩ := (C141_exact ns (fromRune d) content).1 _ hp
    have hcut := (C149_pure h0 (fun other => other == d) _).2 rfl
    have hw : ∀ x ∈ (chunks ns.get).map fun c => (c, c.rune == d), x.2 = true → x.1.bytes = encodeRune x.1.rune := by
      intro x hx hb
      obtain ⟨c, hc, rfl⟩ := List.mem_map.1 hx
      rcases (goodChunks ns.get c hc).2 with h | ⟨-, h⟩
      · exact h
      · have : c.rune = d := by simpa using hb
        exact absurd (this.symm.trans h) hd
    have hk : ∀ x ∈ (chunks ns.get).map fun c => (c, c.rune == d), x.2 = (x.1.rune == d) := by
      intro x hx
      obtain ⟨c, hc, rfl⟩ := List.mem_map.1 hx
      rfl
    have hord := cuts_inOrder hcut hw
    have hwith := cuts_within (d := d) (n := ns.alignments.length) hcut hw hk
    rw [show ((chunks ns.get).map fun c => (c, c.rune == d)).map (·.1) = chunks ns.get by simp [Function.comp_def]] at hwith
    constructor
    · intro he
      let more : List Align := List.replicate ns.get.length ⟨0, 0⟩
      have hm := C130_replace (ns := furtherAligned ns more) (by simp [furtherAligned, more, NS.get]) hd hv
      obtain ⟨m1, m2⟩ := (C141_exact (furtherAligned ns more) (fromRune d) content).1 _ hp
      by_cases hr : ∃ m, Replacing content (furtherAligned ns more) 0 (funcFindMatches (fun other => other == d) ns.get) m
      · obtain ⟨m, hr⟩ := hr
        obtain ⟨ns', r1, r2⟩ := replacing_less hv hr rfl hord (by simp) (A := ns.alignments.length) (by simp) (hwith.2 he)
        have e := m1 m hr
        rw [hm, r2] at e
        rw [k1 ns' r1]
        simp only [GoM.ok.injEq, Except.ok.injEq] at e ⊢
        have hal := replaceAligns_more (k := content.length) more (chunks ns.get) 0 ns.alignments
          (fun c hc => (goodChunks ns.get c hc).1) rfl he
        cases ns with
        | mk o n al sh =>
          cases ns' with
          | mk o' n' al' sh' =>
            simp only [furtherAligned, NS.get, NS.mk.injEq] at e hal ⊢
            obtain ⟨e1, e2, e3, e4⟩ := e
            rw [hal] at e3
            exact ⟨e1.symm, e2.symm, (List.append_cancel_right e3).symm, e4.symm⟩
      · rw [m2 hr] at hm; cases hm
    · intro he
      exact k2 fun ⟨m, hr⟩ => he (hwith.1 (replacing_bounds hv hr hord (by simp) (by simp)))

/-- Two alignments for a text of four bytes: a space at the second place can be replaced, one at the third cannot; the letters after it
need no alignment. -/
theorem C152_example :
    (⟨b!"abcd", b!"a cd", [⟨0, 1⟩, ⟨1, 2⟩], 0⟩ : NS).replace (fromRune 32) b!"▁"
      = .ok (.ok ⟨b!"abcd", b!"a▁cd", [⟨0, 1⟩, ⟨1, 2⟩, ⟨1, 2⟩, ⟨1, 2⟩], 0⟩)
    ∧ (⟨b!"abcd", b!"ab d", [⟨0, 1⟩, ⟨1, 2⟩], 0⟩ : NS).replace (fromRune 32) b!"▁" = .panic
    ∧ EndsWithin 32 2 0 (chunks b!"a cd") ∧ ¬ EndsWithin 32 2 0 (chunks b!"ab d") := by
  decide +kernel

end Verif
