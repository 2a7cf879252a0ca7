import Verif.Props.Reference
import Verif.Props.BertDecode
import Verif.Props.Offsets

/-! A merges file cut short (C105); tokenizing parts of a tokenized text (C106). -/

set_option autoImplicit false

namespace Verif

open Ref Json

/-! ## More rules -/

/-- The pieces of the second list are made by gluing neighbours of the first. -/
def Coarser (w w' : List Str) : Prop := ∃ gs : List (List Str), gs.flatten = w ∧ gs.map List.flatten = w' ∧ ∀ g ∈ gs, g ≠ []

theorem Coarser.refl (w : List Str) : Coarser w w := by
  refine ⟨w.map fun x => [x], ?_, ?_, by simp⟩
  · induction w with
    | nil => rfl
    | cons x w ih => simpa using ih
  · induction w with
    | nil => rfl
    | cons x w ih => simpa using ih

theorem Coarser.trans {w w' w'' : List Str} (h : Coarser w w') (h' : Coarser w' w'') : Coarser w w'' := by
  obtain ⟨gs, rfl, rfl, h3⟩ := h
  obtain ⟨hs, e1, rfl, h6⟩ := h'
  revert gs
  induction hs with
  | nil =>
    intro gs h3 e1
    have : gs = [] := by simpa using e1.symm
    subst this
    exact ⟨[], rfl, rfl, by simp⟩
  | cons g hs ih =>
    intro gs h3 e1
    rw [List.flatten_cons] at e1
    obtain ⟨g1, g2, rfl, e2, e3⟩ := List.map_eq_append_iff.1 e1.symm
    obtain ⟨ks, k1, k2, k3⟩ := ih (fun g hg => h6 g (by simp [hg])) g2 (fun g hg => h3 g (by simp [hg])) e3.symm
    refine ⟨g1.flatten :: ks, by simp [k1], ?_, ?_⟩
    · rw [List.map_cons, List.map_cons, k2, ← e2, List.flatten_flatten]
    · intro k hk
      rcases List.mem_cons.1 hk with rfl | hk
      · intro hn
        have hg : g ≠ [] := h6 g (by simp)
        cases g1 with
        | nil => exact hg (by simpa using e2.symm)
        | cons x g1 =>
          rw [List.flatten_cons, List.append_eq_nil_iff] at hn
          exact h3 x (by simp) hn.1
      · exact k3 k hk

theorem Coarser.length_le {w w' : List Str} (h : Coarser w w') : w'.length ≤ w.length := by
  obtain ⟨gs, rfl, rfl, h⟩ := h
  induction gs with
  | nil => simp
  | cons g gs ih =>
    have := ih fun g hg => h g (by simp [hg])
    have h0 := List.length_pos_iff.2 (h g (by simp))
    simp only [List.map_cons, List.length_cons, List.flatten_cons, List.length_append]
    omega

theorem Coarser.flatten {w w' : List Str} (h : Coarser w w') : w'.flatten = w.flatten := by
  obtain ⟨gs, rfl, rfl, -⟩ := h
  rw [List.flatten_flatten]

theorem Coarser.merge (A B : List Str) (a b : Str) : Coarser (A ++ a :: b :: B) (A ++ (a ++ b) :: B) := by
  obtain ⟨gA, a1, a2, a3⟩ := Coarser.refl A
  obtain ⟨gB, b1, b2, b3⟩ := Coarser.refl B
  refine ⟨gA ++ [a, b] :: gB, by simp [a1, b1], by simp [a2, b2], ?_⟩
  intro g hg
  rcases List.mem_append.1 hg with hg | hg
  · exact a3 g hg
  · rcases List.mem_cons.1 hg with rfl | hg
    · simp
    · exact b3 g hg

/-- BPE glues neighbours. -/
theorem bpe_coarser (rules : List (Str × Str)) : ∀ (n : Nat) (w : List Str), w.length ≤ n → Coarser w (bpe rules w)
  | 0, w, h => by
    rw [List.length_eq_zero_iff.1 (by omega : w.length = 0)]
    exact Coarser.refl _
  | n + 1, w, h => by
    cases hr : firstRule rules w with
    | none => rw [bpe_none hr]; exact Coarser.refl w
    | some r =>
      obtain ⟨a, b⟩ := r
      have hm := (firstRule_some.1 hr).1
      have hl := mergeFirst_length hm
      obtain ⟨A, B, e1, e2, -⟩ := mergeFirst_split hm
      rw [bpe_some hr]
      refine Coarser.trans ?_ (bpe_coarser rules n _ (by omega))
      rw [e2, e1]
      exact Coarser.merge A B a b

theorem lastOnly_append {rules more : List (Str × Str)} (hd : ∀ r ∈ rules, r ∉ more) :
    lastOnly (rules ++ more) = lastOnly rules ++ lastOnly more := by
  induction rules with
  | nil => rfl
  | cons r rules ih =>
    have ih := ih fun r hr => hd r (by simp [hr])
    rw [List.cons_append, lastOnly, lastOnly]
    by_cases h : r ∈ rules
    · rw [if_pos h, if_pos (by simp [h]), ih]
    · rw [if_neg h, if_neg (by simp [h, hd r (by simp)]), ih]
      rfl

theorem firstRule_append {rules more : List (Str × Str)} (hd : ∀ r ∈ rules, r ∉ more) (w : List Str) {r : Str × Str}
    (h : firstRule rules w = some r) : firstRule (rules ++ more) w = some r := by
  unfold firstRule at h ⊢
  rw [lastOnly_append hd, List.find?_append, h]
  rfl

/-- With more rules, BPE first does all that it does without them. -/
theorem bpe_more {rules more : List (Str × Str)} (hd : ∀ r ∈ rules, r ∉ more) :
    ∀ (n : Nat) (w : List Str), w.length ≤ n → bpe (rules ++ more) w = bpe (rules ++ more) (bpe rules w)
  | 0, w, h => by
    rw [List.length_eq_zero_iff.1 (by omega : w.length = 0)]
    rfl
  | n + 1, w, h => by
    cases hr : firstRule rules w with
    | none => rw [bpe_none hr]
    | some r =>
      obtain ⟨a, b⟩ := r
      have hl := mergeFirst_length (firstRule_some.1 hr).1
      rw [bpe_some hr, bpe_some (firstRule_append hd w hr)]
      exact bpe_more hd n _ (by omega)

/-- **C105, the rules.** Pieces made with more rules are made by gluing those made with the first rules, by BPE itself. -/
theorem C105_rules {rules more : List (Str × Str)} (hd : ∀ r ∈ rules, r ∉ more) (w : List Str) :
    bpe (rules ++ more) w = bpe (rules ++ more) (bpe rules w) ∧ Coarser (bpe rules w) (bpe (rules ++ more) w)
      ∧ (bpe (rules ++ more) w).length ≤ (bpe rules w).length := by
  have h := bpe_more hd _ w (Nat.le_refl _)
  have hc : Coarser (bpe rules w) (bpe (rules ++ more) w) := by
    rw [h]
    exact bpe_coarser _ _ _ (Nat.le_refl _)
  exact ⟨h, hc, hc.length_le⟩

/-- **C105, the condition.** If a rule comes again among the added ones, its place is the later one, and other pieces come out. -/
theorem C105_counterexample :
    bpe [(b!"a", b!"b"), (b!"b", b!"c")] [b!"a", b!"b", b!"c"] = [b!"ab", b!"c"]
    ∧ bpe ([(b!"a", b!"b"), (b!"b", b!"c")] ++ [(b!"a", b!"b")]) [b!"a", b!"b", b!"c"] = [b!"a", b!"bc"] := by decide +kernel

theorem placed_cons (a : Int) (x : Str) (l : List Str) : placed a (x :: l) = (x, a, a + x.length) :: placed (a + x.length) l := rfl

theorem placed_append (a : Int) (w w' : List Str) : placed a (w ++ w') = placed a w ++ placed (a + w.flatten.length) w' := by
  induction w generalizing a with
  | nil => simp [placed]
  | cons x w ih =>
    rw [List.cons_append, placed_cons, placed_cons, ih, List.cons_append]
    congr 3
    simp
    omega

/-- What gluing tokens gives. -/
structure Glued (g : List Token) (t : Token) : Prop where
  some : g ≠ []
  value : t.value = (g.map (·.value)).flatten

/-- A token that has the place of some tokens together. -/
def SamePlace (g : List Token) (t : Token) : Prop :=
  g.head?.map (·.offsets.start) = some t.offsets.start ∧ g.getLast?.map (·.offsets.stop) = some t.offsets.stop

theorem placed_last {a : Int} {w : List Str} (hw : w ≠ []) : (placed a w).getLast?.map (·.2.2) = some (a + w.flatten.length) := by
  induction w generalizing a with
  | nil => exact absurd rfl hw
  | cons x w ih =>
    cases w with
    | nil => simp [placed]
    | cons y w =>
      rw [placed_cons, placed_cons, List.getLast?_cons_cons, ← placed_cons, ih (by simp)]
      congr 1
      simp
      omega

theorem tokens_glued {ts ts' : List Token} (h : Coarser (ts.map (·.value)) (ts'.map (·.value))) :
    ∃ gs : List (List Token), gs.flatten = ts ∧ All2 Glued gs ts' := by
  obtain ⟨gs, h1, h2, h3⟩ := h
  induction gs generalizing ts ts' with
  | nil =>
    have e1 : ts = [] := by simpa using h1.symm
    have e2 : ts' = [] := by simpa using h2.symm
    subst e1 e2
    exact ⟨[], rfl, .nil⟩
  | cons g gs ih =>
    cases ts' with
    | nil => simp at h2
    | cons t ts' =>
      rw [List.flatten_cons] at h1
      obtain ⟨g1, g2, rfl, e2, e3⟩ := List.map_eq_append_iff.1 h1.symm
      simp only [List.map_cons, List.cons.injEq] at h2
      obtain ⟨hs, k1, k2⟩ := ih e3.symm h2.2 (fun g hg => h3 g (by simp [hg]))
      refine ⟨g1 :: hs, by simp [k1], .cons ⟨?_, by rw [e2, h2.1]⟩ k2⟩
      rintro rfl
      exact h3 g (by simp) (by simpa using e2.symm)

theorem glued_place {gs : List (List Token)} {ts' : List Token} (h : All2 Glued gs ts') {a : Int}
    (h1 : gs.flatten.map (fun t => (t.value, t.offsets.start, t.offsets.stop)) = placed a (gs.flatten.map (·.value)))
    (h2 : ts'.map (fun t => (t.value, t.offsets.start, t.offsets.stop)) = placed a (ts'.map (·.value))) : All2 SamePlace gs ts' := by
  induction h generalizing a with
  | nil => exact .nil
  | @cons g t gs ts' hg hrest ih =>
    simp only [List.flatten_cons, List.map_append] at h1
    rw [placed_append] at h1
    obtain ⟨e1, e2⟩ := List.append_inj h1 (by
      have : ∀ (a : Int) (w : List Str), (placed a w).length = w.length := by
        intro a w
        induction w generalizing a with
        | nil => rfl
        | cons x w ih => simp [placed, ih]
      simp [this])
    simp only [List.map_cons, placed_cons, List.cons.injEq, Prod.mk.injEq, true_and] at h2
    obtain ⟨⟨f1, f2⟩, f3⟩ := h2
    refine .cons ⟨?_, ?_⟩ (ih e2 (by rw [← hg.value]; exact f3))
    · obtain ⟨x, g', rfl⟩ : ∃ x g', g = x :: g' := by
        cases g with
        | nil => exact absurd rfl hg.some
        | cons x g' => exact ⟨x, g', rfl⟩
      simp only [List.map_cons, placed_cons, List.cons.injEq, Prod.mk.injEq, true_and] at e1
      simp [e1.1.1, f1]
    · have hl := placed_last (a := a) (w := g.map (·.value)) (by simpa using hg.some)
      rw [← e1, List.getLast?_map, Option.map_map] at hl
      rw [f2, hg.value]
      exact hl

/-- **C105.** A vocabulary and rules are written to files, the rules also without the last ones.  Then each token that comes with the
whole merges file is made of one or more neighbouring tokens that come with the short one, and has their place. -/
theorem C105_files (m : Machine) (es : List (Str × Int)) (rules more : List (Str × Str))
    (order : GoMap Str Int → List (Str × Int)) (ho : IterationOrder order)
    (hv : ∀ e ∈ es, ValidUtf8 e.1 ∧ e.1 ≠ []) (hi : ∀ e ∈ es, -(m.half : Int) ≤ e.2 ∧ e.2 < m.half)
    (hk : (es.map (·.1)).Nodup) (hid : (es.map (·.2)).Nodup) (hw : ∀ r ∈ rules ++ more, Writable r)
    (hr : ∀ r ∈ rules ++ more, ∀ t ∈ [r.1, r.2, r.1 ++ r.2], t ∈ es.map (·.1)) (hd : ∀ r ∈ rules, r ∉ more) :
    ∃ v short whole, Vocab.fromJSONFile m (writeVocab es) order = .ok v
      ∧ mergeMapFromFile (writeRules rules) v 0 = .ok (.ok short)
      ∧ mergeMapFromFile (writeRules (rules ++ more)) v 0 = .ok (.ok whole)
      ∧ ∀ (capacity : Int) (unk suffix : Str) (fuse : Bool) (rnd rnd' : Nat → Bool) (rs : List Rune),
        unk = [] ∨ unk ∈ es.map (·.1) → (∀ r ∈ rs, ValidRune r) → (∀ x ∈ suffixed suffix rs, x ∈ es.map (·.1)) →
        ∃ ts ts', (plainBPE v short capacity unk suffix fuse).tokenize rnd (encodeRunes rs) = .ok (.ok (some ts))
          ∧ (plainBPE v whole capacity unk suffix fuse).tokenize rnd' (encodeRunes rs) = .ok (.ok (some ts'))
          ∧ ∃ gs : List (List Token), gs.flatten = ts ∧ All2 Glued gs ts' ∧ (suffix = [] → All2 SamePlace gs ts') := by
  obtain ⟨v, whole, h1, h2, h3, h4⟩ := C82_files m es (rules ++ more) order ho (fun e he => (hv e he).1) hi hk hid hw hr
  obtain ⟨v', short, k1, k2, k3, k4⟩ := C82_files m es rules order ho (fun e he => (hv e he).1) hi hk hid
    (fun r h => hw r (by simp [h])) (fun r h => hr r (by simp [h]))
  rw [h1] at k1
  injection k1 with k1
  subst k1
  refine ⟨v, short, whole, h1, k2, h2, ?_⟩
  intro capacity unk suffix fuse rnd rnd' rs hu hrs hx
  obtain ⟨ts, a1, a2, -, a4⟩ := loaded_tokens hv k2 k3 k4 capacity unk suffix fuse rnd rs hu hrs hx
  obtain ⟨ts', b1, b2, -, b4⟩ := loaded_tokens hv h2 h3 h4 capacity unk suffix fuse rnd' rs hu hrs hx
  obtain ⟨gs, g1, g2⟩ := tokens_glued (ts := ts) (ts' := ts') (by rw [a2, b2]; exact (C105_rules hd (suffixed suffix rs)).2.1)
  refine ⟨ts, ts', a1, b1, gs, g1, g2, ?_⟩
  rintro rfl
  rw [suffixed_nil] at a2 b2
  refine glued_place (a := 0) g2 ?_ ?_
  · rw [g1, a4 rfl, a2]
  · rw [b4 rfl, b2]

/-! ## Parts of a text -/

theorem neighbours_mono {A w B : List Str} {r : Str × Str} (h : r ∈ neighbours w) : r ∈ neighbours (A ++ w ++ B) := by
  obtain ⟨a, b⟩ := r
  obtain ⟨P, Q, rfl⟩ := mem_neighbours.1 h
  exact mem_neighbours.2 ⟨A ++ P, Q ++ B, by simp⟩

theorem firstRule_part {rules : List (Str × Str)} {A w B : List Str} {r : Str × Str} (h : firstRule rules (A ++ w ++ B) = some r)
    (hr : r ∈ neighbours w) : firstRule rules w = some r := by
  rw [firstRule_some] at h ⊢
  obtain ⟨-, i, h2, h3⟩ := h
  exact ⟨hr, i, h2, fun j r' hj hl hn => h3 j r' hj hl (neighbours_mono hn)⟩

/-- Where two pieces do not grow together, BPE works on the two sides by themselves. -/
theorem bpe_parts {rules : List (Str × Str)} : ∀ (n : Nat) {w A B : List Str}, w.length ≤ n → bpe rules w = A ++ B →
    ∃ w1 w2, w = w1 ++ w2 ∧ bpe rules w1 = A ∧ bpe rules w2 = B
  | 0, w, A, B, hl, h => by
    rw [List.length_eq_zero_iff.1 (by omega : w.length = 0)] at h ⊢
    have h : [] = A ++ B := h
    obtain ⟨rfl, rfl⟩ := List.append_eq_nil_iff.1 h.symm
    exact ⟨[], [], rfl, rfl, rfl⟩
  | n + 1, w, A, B, hl, h => by
    cases hr : firstRule rules w with
    | none =>
      rw [bpe_none hr] at h
      subst h
      have hn := firstRule_none.1 hr
      refine ⟨A, B, rfl, bpe_none (firstRule_none.2 fun r h1 h2 => hn r h1 ?_), bpe_none (firstRule_none.2 fun r h1 h2 => hn r h1 ?_)⟩
      · simpa using neighbours_mono (A := []) (B := B) h2
      · simpa using neighbours_mono (A := A) (B := []) h2
    | some r =>
      obtain ⟨a, b⟩ := r
      have hm := (firstRule_some.1 hr).1
      have hlen := mergeFirst_length hm
      obtain ⟨P, Q, e1, e2, e3⟩ := mergeFirst_split hm
      rw [bpe_some hr] at h
      obtain ⟨u1, u2, k1, k2, k3⟩ := bpe_parts n (by omega) h
      rw [e2] at k1
      subst e1
      rcases List.append_eq_append_iff.1 k1 with ⟨x, rfl, hx⟩ | ⟨x, rfl, rfl⟩
      · -- the merged piece lies in the first part or right behind it
        cases x with
        | nil =>
          refine ⟨P, a :: b :: Q, by simp, by simpa using k2, ?_⟩
          have f : firstRule rules (a :: b :: Q) = some (a, b) := firstRule_part (A := P) (B := []) (by simpa using hr) (by simp [neighbours])
          rw [bpe_some f, mergeFirst, if_pos ⟨rfl, rfl⟩]
          have : u2 = (a ++ b) :: Q := by simpa using hx.symm
          rw [← this, k3]
        | cons y x =>
          simp only [List.cons_append, List.cons.injEq] at hx
          obtain ⟨rfl, rfl⟩ := hx
          refine ⟨P ++ a :: b :: x, u2, by simp, ?_, k3⟩
          have f : firstRule rules (P ++ a :: b :: x) = some (a, b) :=
            firstRule_part (A := []) (B := u2) (by simpa using hr) (mem_neighbours.2 ⟨P, x, rfl⟩)
          rw [bpe_some f, mergeFirst_eq, k2]
          intro A' B' e
          refine e3 A' (B' ++ u2) ?_
          have := congrArg (· ++ u2) e
          simpa using this
      · refine ⟨u1, x ++ a :: b :: Q, by simp, k2, ?_⟩
        have f : firstRule rules (x ++ a :: b :: Q) = some (a, b) :=
          firstRule_part (A := u1) (B := []) (by simpa using hr) (mem_neighbours.2 ⟨x, Q, rfl⟩)
        rw [bpe_some f, mergeFirst_eq, k3]
        intro A' B' e
        have := e3 (u1 ++ A') B' (by rw [List.append_assoc, e, List.append_assoc])
        simp at this
        omega

/-- **C106, the rules.** Neighbouring pieces of a list are what BPE makes of their part of the list. -/
theorem C106_rules {rules : List (Str × Str)} {w A M B : List Str} (h : bpe rules w = A ++ M ++ B) :
    ∃ w1 w2 w3, w = w1 ++ w2 ++ w3 ∧ bpe rules w1 = A ∧ bpe rules w2 = M ∧ bpe rules w3 = B := by
  obtain ⟨x, w3, rfl, h1, h2⟩ := bpe_parts _ (Nat.le_refl _) h
  obtain ⟨w1, w2, rfl, h3, h4⟩ := bpe_parts _ (Nat.le_refl _) h1
  exact ⟨w1, w2, w3, rfl, h3, h4, h2⟩

theorem bpe_flatten (rules : List (Str × Str)) (w : List Str) : (bpe rules w).flatten = w.flatten :=
  (bpe_coarser rules _ w (Nat.le_refl _)).flatten

/-- Tokens with the same values at moved places. -/
theorem tokens_moved {es : List (Str × Int)} (hk : (es.map (·.1)).Nodup) {ts us : List Token} {a d : Int} {w : List Str}
    (h1 : ts.map (fun t => (t.value, t.offsets.start, t.offsets.stop)) = placed a w)
    (h2 : us.map (fun t => (t.value, t.offsets.start, t.offsets.stop)) = placed (a + d) w)
    (h3 : ∀ t ∈ ts, (t.value, t.id) ∈ es) (h4 : ∀ t ∈ us, (t.value, t.id) ∈ es) : us = ts.map (Token.moved d) := by
  induction w generalizing a ts us with
  | nil =>
    have e1 : ts = [] := by simpa [placed] using h1
    have e2 : us = [] := by simpa [placed] using h2
    rw [e1, e2]; rfl
  | cons x w ih =>
    cases ts with
    | nil => simp [placed] at h1
    | cons t ts =>
      cases us with
      | nil => simp [placed] at h2
      | cons u us =>
        simp only [List.map_cons, placed_cons, List.cons.injEq, Prod.mk.injEq] at h1 h2
        obtain ⟨⟨p1, p2, p3⟩, p4⟩ := h1
        obtain ⟨⟨q1, q2, q3⟩, q4⟩ := h2
        have := ih (a := a + x.length) (ts := ts) (us := us) p4 (by rw [q4]; congr 1; omega) (fun t ht => h3 t (by simp [ht]))
          (fun t ht => h4 t (by simp [ht]))
        rw [List.map_cons, ← this]
        congr 1
        have hid : u.id = t.id := by
          have e1 := h4 u (by simp)
          have e2 := h3 t (by simp)
          rw [q1] at e1
          rw [p1] at e2
          have := All2.ids_eq hk (ts := [x]) (is := [u.id]) (js := [t.id]) (.cons e1 .nil) (.cons e2 .nil)
          simpa using this
        cases u; cases t
        rename_i o _ _ o'
        cases o; cases o'
        simp only [Token.moved] at *
        subst p1 q1 p2 q2 p3 q3 hid
        congr 2 <;> omega

/-- **C106.** A vocabulary and rules are written to files and loaded; a text of known characters is tokenized.  If neighbouring tokens are
picked from the result and their values, one after the other, are tokenized, the same tokens come out, at places from 0 on.  So a token
is the only token of its own text. -/
theorem C106_tokens (m : Machine) (es : List (Str × Int)) (rules : List (Str × Str))
    (order : GoMap Str Int → List (Str × Int)) (ho : IterationOrder order)
    (hv : ∀ e ∈ es, ValidUtf8 e.1 ∧ e.1 ≠ []) (hi : ∀ e ∈ es, -(m.half : Int) ≤ e.2 ∧ e.2 < m.half)
    (hk : (es.map (·.1)).Nodup) (hid : (es.map (·.2)).Nodup) (hw : ∀ r ∈ rules, Writable r)
    (hr : ∀ r ∈ rules, ∀ t ∈ [r.1, r.2, r.1 ++ r.2], t ∈ es.map (·.1)) :
    ∃ v merges, Vocab.fromJSONFile m (writeVocab es) order = .ok v
      ∧ mergeMapFromFile (writeRules rules) v 0 = .ok (.ok merges)
      ∧ ∀ (capacity : Int) (unk : Str) (fuse : Bool) (rnd rnd' : Nat → Bool) (rs : List Rune),
        unk = [] ∨ unk ∈ es.map (·.1) → (∀ r ∈ rs, ValidRune r) → (∀ r ∈ rs, encodeRune r ∈ es.map (·.1)) →
        ∃ ts, (plainBPE v merges capacity unk [] fuse).tokenize rnd (encodeRunes rs) = .ok (.ok (some ts))
          ∧ ∀ (P M Q : List Token), ts = P ++ M ++ Q →
            (plainBPE v merges capacity unk [] fuse).tokenize rnd' (M.map (·.value)).flatten
              = .ok (.ok (some (M.map (Token.moved (-(P.map (·.value)).flatten.length))))) := by
  obtain ⟨v, merges, h1, h2, h3, h4⟩ := C82_files m es rules order ho (fun e he => (hv e he).1) hi hk hid hw hr
  refine ⟨v, merges, h1, h2, ?_⟩
  intro capacity unk fuse rnd rnd' rs hu hrs hx
  obtain ⟨ts, a1, a2, a3, a4⟩ := loaded_tokens hv h2 h3 h4 capacity unk [] fuse rnd rs hu hrs (by
    intro x hx'
    rw [suffixed_nil] at hx'
    obtain ⟨r, hr, rfl⟩ := List.mem_map.1 hx'
    exact hx r hr)
  refine ⟨ts, a1, ?_⟩
  rintro P M Q rfl
  rw [suffixed_nil, List.map_append, List.map_append] at a2
  obtain ⟨w1, w2, w3, e, b1, b2, b3⟩ := C106_rules a2.symm
  obtain ⟨rs', rs3, rfl, e', rfl⟩ := List.map_eq_append_iff.1 e
  obtain ⟨rs1, rs2, rfl, rfl, rfl⟩ := List.map_eq_append_iff.1 e'
  have hflat : (M.map (·.value)).flatten = encodeRunes rs2 := by
    rw [← b2, bpe_flatten]
    simp [encodeRunes, List.flatMap_def]
  obtain ⟨us, c1, c2, c3, c4⟩ := loaded_tokens hv h2 h3 h4 capacity unk [] fuse rnd' rs2 hu (fun r hr => hrs r (by simp [hr])) (by
    intro x hx'
    rw [suffixed_nil] at hx'
    obtain ⟨r, hr, rfl⟩ := List.mem_map.1 hx'
    exact hx r (by simp [hr]))
  rw [hflat, c1]
  have a4 := a4 rfl
  have c4 := c4 rfl
  rw [← a2, placed_append, placed_append, List.map_append, List.map_append] at a4
  have hplen : ∀ (l : List Token) (a : Int), (l.map fun t => (t.value, t.offsets.start, t.offsets.stop)).length = (placed a (l.map (·.value))).length := by
    intro l
    induction l with
    | nil => intro a; rfl
    | cons x l ih => intro a; simp only [List.map_cons, List.length_cons, placed_cons]; rw [← ih]
  obtain ⟨f, -⟩ := List.append_inj a4 (by rw [List.length_append, List.length_append, ← hplen, ← hplen])
  obtain ⟨-, f⟩ := List.append_inj f (hplen _ _)
  rw [← b2] at f
  congr 3
  refine tokens_moved hk (a := 0 + ((P.map (·.value)).flatten.length : Int)) (w := bpe rules (rs2.map encodeRune)) f ?_
    (fun t ht => a3 t (by simp [ht])) c3
  rw [c4]
  congr 1
  omega

/-! ## Where a text can be cut -/

theorem parts_unique {w1 w2 u1 u2 : List Str} (hn : ∀ x ∈ w1 ++ w2, x ≠ []) (h : w1 ++ w2 = u1 ++ u2) (hf : w1.flatten = u1.flatten) :
    w1 = u1 ∧ w2 = u2 := by
  rcases List.append_eq_append_iff.1 h with ⟨x, rfl, rfl⟩ | ⟨x, rfl, rfl⟩
  · have : x = [] := by
      cases x with
      | nil => rfl
      | cons y x =>
        rw [List.flatten_append] at hf
        have := congrArg List.length hf
        have h0 := List.length_pos_iff.2 (hn y (by simp))
        simp only [List.flatten_cons, List.length_append] at this
        omega
    simp [this]
  · have : x = [] := by
      cases x with
      | nil => rfl
      | cons y x =>
        rw [List.flatten_append] at hf
        have := congrArg List.length hf
        have h0 := List.length_pos_iff.2 (hn y (by simp))
        simp only [List.flatten_cons, List.length_append] at this
        omega
    simp [this]

/-- BPE on two lists one after the other works on each by itself exactly if a piece ends between them. -/
theorem bpe_cut {rules : List (Str × Str)} {w1 w2 : List Str} (hn : ∀ x ∈ w1 ++ w2, x ≠ []) :
    bpe rules (w1 ++ w2) = bpe rules w1 ++ bpe rules w2
      ↔ ∃ A B, bpe rules (w1 ++ w2) = A ++ B ∧ A.flatten = w1.flatten := by
  constructor
  · intro h
    exact ⟨_, _, h, bpe_flatten rules w1⟩
  · rintro ⟨A, B, h, hf⟩
    obtain ⟨u1, u2, e, rfl, rfl⟩ := bpe_parts _ (Nat.le_refl _) h
    rw [bpe_flatten] at hf
    obtain ⟨rfl, rfl⟩ := parts_unique hn e hf.symm
    exact h

theorem placed_ends {a : Int} {w : List Str} {x : Str × Int × Int} (h : x ∈ placed a w) :
    ∃ A B, w = A ++ B ∧ A ≠ [] ∧ x.2.2 = a + A.flatten.length := by
  induction w generalizing a with
  | nil => simp [placed] at h
  | cons y w ih =>
    rcases List.mem_cons.1 h with rfl | h
    · exact ⟨[y], w, rfl, by simp, by simp⟩
    · obtain ⟨A, B, rfl, -, e⟩ := ih h
      refine ⟨y :: A, B, rfl, by simp, ?_⟩
      rw [e]
      simp
      omega

theorem prefix_length_inj {A B C D : Str} (h : A ++ B = C ++ D) (hl : A.length = C.length) : A = C := (List.append_inj h hl).1

/-- **C106, cutting a text.** A text of known characters in two parts has the tokens of the first part and then those of the second
exactly if the first part is empty or some token ends where it ends. -/
theorem C106_cut (m : Machine) (es : List (Str × Int)) (rules : List (Str × Str))
    (order : GoMap Str Int → List (Str × Int)) (ho : IterationOrder order)
    (hv : ∀ e ∈ es, ValidUtf8 e.1 ∧ e.1 ≠ []) (hi : ∀ e ∈ es, -(m.half : Int) ≤ e.2 ∧ e.2 < m.half)
    (hk : (es.map (·.1)).Nodup) (hid : (es.map (·.2)).Nodup) (hw : ∀ r ∈ rules, Writable r)
    (hr : ∀ r ∈ rules, ∀ t ∈ [r.1, r.2, r.1 ++ r.2], t ∈ es.map (·.1)) :
    ∃ v merges, Vocab.fromJSONFile m (writeVocab es) order = .ok v
      ∧ mergeMapFromFile (writeRules rules) v 0 = .ok (.ok merges)
      ∧ ∀ (capacity : Int) (unk : Str) (fuse : Bool) (rnd rnd1 rnd2 : Nat → Bool) (rs1 rs2 : List Rune),
        unk = [] ∨ unk ∈ es.map (·.1) → (∀ r ∈ rs1 ++ rs2, ValidRune r) → (∀ r ∈ rs1 ++ rs2, encodeRune r ∈ es.map (·.1)) →
        ∃ ts ts1 ts2, (plainBPE v merges capacity unk [] fuse).tokenize rnd (encodeRunes (rs1 ++ rs2)) = .ok (.ok (some ts))
          ∧ (plainBPE v merges capacity unk [] fuse).tokenize rnd1 (encodeRunes rs1) = .ok (.ok (some ts1))
          ∧ (plainBPE v merges capacity unk [] fuse).tokenize rnd2 (encodeRunes rs2) = .ok (.ok (some ts2))
          ∧ (ts = ts1 ++ ts2.map (Token.moved (encodeRunes rs1).length)
              ↔ rs1 = [] ∨ ∃ t ∈ ts, t.offsets.stop = (encodeRunes rs1).length) := by
  obtain ⟨v, merges, h1, h2, h3, h4⟩ := C82_files m es rules order ho (fun e he => (hv e he).1) hi hk hid hw hr
  refine ⟨v, merges, h1, h2, ?_⟩
  intro capacity unk fuse rnd rnd1 rnd2 rs1 rs2 hu hrs hx
  have load : ∀ (rnd : Nat → Bool) (rs : List Rune), (∀ r ∈ rs, r ∈ rs1 ++ rs2) →
      ∃ ts, (plainBPE v merges capacity unk [] fuse).tokenize rnd (encodeRunes rs) = .ok (.ok (some ts))
        ∧ (∀ t ∈ ts, (t.value, t.id) ∈ es)
        ∧ ts.map (fun t => (t.value, t.offsets.start, t.offsets.stop)) = placed 0 (bpe rules (rs.map encodeRune)) := by
    intro rnd rs hsub
    obtain ⟨ts, a1, -, a3, a4⟩ := loaded_tokens hv h2 h3 h4 capacity unk [] fuse rnd rs hu (fun r hr => hrs r (hsub r hr)) (by
      intro x hx'
      rw [suffixed_nil] at hx'
      obtain ⟨r, hr, rfl⟩ := List.mem_map.1 hx'
      exact hx r (hsub r hr))
    exact ⟨ts, a1, a3, a4 rfl⟩
  obtain ⟨ts, a1, a2, a3⟩ := load rnd (rs1 ++ rs2) fun r hr => hr
  obtain ⟨ts1, b1, b2, b3⟩ := load rnd1 rs1 fun r hr => by simp [hr]
  obtain ⟨ts2, c1, c2, c3⟩ := load rnd2 rs2 fun r hr => by simp [hr]
  refine ⟨ts, ts1, ts2, a1, b1, c1, ?_⟩
  have hn : ∀ x ∈ rs1.map encodeRune ++ rs2.map encodeRune, x ≠ [] := by
    rw [← List.map_append]
    intro x hx'
    obtain ⟨r, -, rfl⟩ := List.mem_map.1 hx'
    intro h
    have := encodeRune_length_pos r
    rw [h] at this
    simp at this
  have hf : ∀ rs : List Rune, (rs.map encodeRune).flatten = encodeRunes rs := fun rs => by simp [encodeRunes, List.flatMap_def]
  have hmoved : (ts2.map (Token.moved (encodeRunes rs1).length)).map (fun t => (t.value, t.offsets.start, t.offsets.stop))
      = placed (0 + (encodeRunes rs1).length) (bpe rules (rs2.map encodeRune)) := by
    have : ∀ (w : List Str) (a d : Int), placed (a + d) w = (placed a w).map fun (x : Str × Int × Int) => (x.1, d + x.2.1, d + x.2.2) := by
      intro w
      induction w with
      | nil => intro a d; rfl
      | cons x w ih =>
        intro a d
        rw [placed_cons, placed_cons, List.map_cons, ← ih, show a + d + (x.length : Int) = a + x.length + d by omega, Int.add_comm d a, show d + (a + (x.length : Int)) = a + x.length + d by omega]
    rw [this, ← c3, List.map_map, List.map_map]
    rfl
  have hplen : ∀ (a : Int) (w : List Str), (placed a w).map (·.1) = w := by
    intro a w
    induction w generalizing a with
    | nil => rfl
    | cons x w ih => simp [placed, ih]
  constructor
  · rintro rfl
    by_cases hr1 : rs1 = []
    · exact .inl hr1
    · right
      have hne : bpe rules (rs1.map encodeRune) ≠ [] := by
        intro h
        have := bpe_flatten rules (rs1.map encodeRune)
        rw [h, hf] at this
        exact hr1 (by
          cases rs1 with
          | nil => rfl
          | cons r rs1 =>
            have h0 := encodeRune_length_pos r
            have := congrArg List.length this
            simp [encodeRunes] at this
            omega)
      have := placed_last (a := 0) hne
      rw [← b3, List.getLast?_map, Option.map_map] at this
      obtain ⟨t, ht, he⟩ := Option.map_eq_some_iff.1 this
      refine ⟨t, by simp [List.mem_of_getLast? ht], ?_⟩
      rw [bpe_flatten, hf] at he
      simpa using he
  · intro h
    have hcut : bpe rules (rs1.map encodeRune ++ rs2.map encodeRune) = bpe rules (rs1.map encodeRune) ++ bpe rules (rs2.map encodeRune) := by
      rw [bpe_cut hn]
      rcases h with rfl | ⟨t, ht, he⟩
      · exact ⟨[], _, rfl, rfl⟩
      · have hmem : (t.value, t.offsets.start, t.offsets.stop) ∈ placed 0 (bpe rules ((rs1 ++ rs2).map encodeRune)) := by
          rw [← a3]
          exact List.mem_map.2 ⟨t, ht, rfl⟩
        obtain ⟨A, B, e, -, hl⟩ := placed_ends hmem
        rw [List.map_append] at e
        refine ⟨A, B, e, ?_⟩
        have hfl := bpe_flatten rules (rs1.map encodeRune ++ rs2.map encodeRune)
        rw [e, List.flatten_append, List.flatten_append] at hfl
        refine prefix_length_inj hfl ?_
        rw [hf]
        simp only [he] at hl
        omega
    rw [List.map_append, hcut, placed_append, bpe_flatten, hf, ← b3, ← hmoved, ← List.map_append] at a3
    have := tokens_moved hk (a := 0) (d := 0) (ts := ts1 ++ ts2.map (Token.moved (encodeRunes rs1).length)) (us := ts)
      (w := bpe rules (rs1.map encodeRune) ++ bpe rules (rs2.map encodeRune))
      (by rw [placed_append, bpe_flatten, hf, ← b3, ← hmoved, ← List.map_append])
      (by rw [a3, placed_append, bpe_flatten, hf, List.map_append, b3, hmoved]; rfl)
      (by
        intro t ht
        rcases List.mem_append.1 ht with ht | ht
        · exact b2 t ht
        · obtain ⟨u, hu, rfl⟩ := List.mem_map.1 ht
          exact c2 u hu)
      a2
    rw [this]
    have hid' : ∀ l : List Token, l.map (Token.moved 0) = l := by
      intro l
      induction l with
      | nil => rfl
      | cons t l ih => rw [List.map_cons, ih]; cases t; simp [Token.moved]
    exact hid' _

/-! ## Examples -/

example : bpe fileRules [b!"l", b!"o", b!"w", b!"é", b!"é", b!"l"] = [b!"low", b!"éé", b!"l"]
    ∧ bpe (fileRules.take 1) [b!"l", b!"o", b!"w", b!"é", b!"é", b!"l"] = [b!"lo", b!"w", b!"é", b!"é", b!"l"] := by decide +kernel

/-- A text cut inside a token has other tokens. -/
example : bpe fileRules [b!"l", b!"o"] ++ bpe fileRules [b!"w"] ≠ bpe fileRules [b!"l", b!"o", b!"w"] := by decide +kernel

/-- A term that no text ever gives: `xab` is a term and the product of a rule, but the text `xab` has the tokens `xa` and `b`. -/
example : bpe [(b!"x", b!"a"), (b!"a", b!"b"), (b!"x", b!"ab")] [b!"x", b!"a", b!"b"] = [b!"xa", b!"b"] := by decide +kernel

end Verif
