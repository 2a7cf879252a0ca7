import Verif.Props.Bert
import Verif.Props.CharPipeline

/-! Property C68: the whole BERT pipeline, from the input to the encoding. -/

set_option autoImplicit false

namespace Verif

/-! ## Replacing every character by some characters in its place -/

theorem flatMap_left {α β : Type} (f : α → List β) : ∀ (cs : List α) (A B : List β), cs.flatMap f = A ++ B → B ≠ [] →
    ∃ a x b X Z, cs = a ++ x :: b ∧ f x = X ++ Z ∧ Z ≠ [] ∧ A = a.flatMap f ++ X ∧ B = Z ++ b.flatMap f := by
  intro cs
  induction cs with
  | nil =>
    intro A B h hB
    exact absurd (List.append_eq_nil_iff.1 h.symm).2 hB
  | cons c cs ih =>
    intro A B h hB
    rw [List.flatMap_cons] at h
    by_cases hl : (f c).length ≤ A.length
    · rcases List.append_eq_append_iff.1 h with ⟨A', e1, e2⟩ | ⟨A', e1, e2⟩
      · obtain ⟨a, x, b, X, Z, r1, r2, r3, r4, r5⟩ := ih A' B e2 hB
        exact ⟨c :: a, x, b, X, Z, by rw [r1]; rfl, r2, r3, by rw [e1, r4]; simp, r5⟩
      · have hA' : A' = [] := by
          apply List.length_eq_zero_iff.1
          have := congrArg List.length e1
          rw [List.length_append] at this; omega
        subst hA'
        simp only [List.append_nil, List.nil_append] at e1 e2
        obtain ⟨a, x, b, X, Z, r1, r2, r3, r4, r5⟩ := ih [] B e2.symm hB
        refine ⟨c :: a, x, b, X, Z, by rw [r1]; rfl, r2, r3, ?_, r5⟩
        rw [List.flatMap_cons, List.append_assoc, ← r4, e1, List.append_nil]
    · rcases List.append_eq_append_iff.1 h with ⟨A', e1, e2⟩ | ⟨A', e1, e2⟩
      · have := congrArg List.length e1
        rw [List.length_append] at this; omega
      · refine ⟨[], c, cs, A, A', rfl, e1, ?_, rfl, e2⟩
        rintro rfl
        simp at e1; rw [e1] at hl; omega

theorem flatMap_right {α β : Type} (f : α → List β) : ∀ (cs : List α) (B C : List β), cs.flatMap f = B ++ C → B ≠ [] →
    ∃ a y b Z Y, cs = a ++ y :: b ∧ f y = Z ++ Y ∧ Z ≠ [] ∧ B = a.flatMap f ++ Z ∧ C = Y ++ b.flatMap f := by
  intro cs
  induction cs with
  | nil =>
    intro B C h hB
    exact absurd (List.append_eq_nil_iff.1 h.symm).1 hB
  | cons c cs ih =>
    intro B C h hB
    rw [List.flatMap_cons] at h
    by_cases hl : B.length ≤ (f c).length
    · rcases List.append_eq_append_iff.1 h with ⟨A', e1, e2⟩ | ⟨A', e1, e2⟩
      · have hA' : A' = [] := by
          apply List.length_eq_zero_iff.1
          have := congrArg List.length e1
          rw [List.length_append] at this; omega
        subst hA'
        simp only [List.append_nil, List.nil_append] at e1 e2
        exact ⟨[], c, cs, B, [], rfl, by rw [e1, List.append_nil], hB, by simp, by rw [e2]; rfl⟩
      · exact ⟨[], c, cs, B, A', rfl, e1, hB, by simp, e2⟩
    · rcases List.append_eq_append_iff.1 h with ⟨A', e1, e2⟩ | ⟨A', e1, e2⟩
      · have hA' : A' ≠ [] := by
          rintro rfl
          simp at e1; rw [e1] at hl; omega
        obtain ⟨a, y, b, Z, Y, r1, r2, r3, r4, r5⟩ := ih A' C e2 hA'
        exact ⟨c :: a, y, b, Z, Y, by rw [r1]; rfl, r2, r3, by rw [e1, r4]; simp, r5⟩
      · have := congrArg List.length e1
        rw [List.length_append] at this; omega

/-- Every character is replaced by characters with the same alignment. -/
def InPlace (f : Ch → List Ch) : Prop := ∀ x, ∀ y ∈ f x, y.2 = x.2

/-- A group of characters of the new text comes from a run of characters of the old one: the first
character of the run gives the first of the group, the last the last. -/
theorem group_source {f : Ch → List Ch} (hf : InPlace f) {cs A G C : List Ch} (h : cs.flatMap f = A ++ G ++ C) (hG : G ≠ []) :
    ∃ a H c X Y, cs = a ++ H ++ c ∧ H ≠ [] ∧ H.flatMap f = X ++ G ++ Y
      ∧ firstAlign G = firstAlign H ∧ lastAlign G = lastAlign H
      ∧ (∃ x ∈ H, ∃ Z, f x = X ++ Z ∧ ∀ g ∈ G.head?, g ∈ Z.head?)
      ∧ (∃ y ∈ H, ∃ Z, f y = Z ++ Y ∧ ∀ g ∈ G.getLast?, g ∈ Z.getLast?) := by
  rw [List.append_assoc] at h
  obtain ⟨a, x, b, X, Z, e1, e2, e3, e4, e5⟩ := flatMap_left f cs A (G ++ C) h (by simp [hG])
  have h2 : (x :: b).flatMap f = X ++ G ++ C := by
    rw [List.flatMap_cons, e2, List.append_assoc, ← e5, List.append_assoc]
  obtain ⟨a', y, b', Z', Y, d1, d2, d3, d4, d5⟩ := flatMap_right f (x :: b) (X ++ G) C h2 (by simp [hG])
  have hH : x ∈ a' ++ [y] := by
    cases a' with
    | nil => simp at d1; simp [d1.1]
    | cons z a' => simp at d1; simp [d1.1]
  have hhead : ∀ g ∈ G.head?, g ∈ Z.head? := by
    intro g hg
    cases Z with
    | nil => exact absurd rfl e3
    | cons z Z =>
      cases G with
      | nil => simp at hg
      | cons g' G =>
        simp at e5 hg
        rw [← hg, e5.1]; simp
  have hlast : ∀ g ∈ G.getLast?, g ∈ Z'.getLast? := by
    intro g hg
    have : (X ++ G).getLast? = (a'.flatMap f ++ Z').getLast? := by rw [d4]
    obtain ⟨G', l, rfl⟩ : ∃ G' l, G = G' ++ [l] := ⟨_, _, (List.dropLast_concat_getLast hG).symm⟩
    obtain ⟨Z'', l', rfl⟩ : ∃ G' l, Z' = G' ++ [l] := ⟨_, _, (List.dropLast_concat_getLast d3).symm⟩
    rw [← List.append_assoc, ← List.append_assoc, List.getLast?_concat, List.getLast?_concat] at this
    rw [List.getLast?_concat] at hg ⊢
    rw [← this]; exact hg
  refine ⟨a, a' ++ [y], b', X, Y, ?_, by simp, ?_, ?_, ?_, ⟨x, hH, Z, e2, hhead⟩, ⟨y, by simp, Z', d2, hlast⟩⟩
  · rw [e1, d1]; simp
  · rw [List.flatMap_append, List.flatMap_cons, List.flatMap_nil, List.append_nil, d2, ← List.append_assoc, ← d4]
  · obtain ⟨g, G', rfl⟩ := List.exists_cons_of_ne_nil hG
    have hg := hhead g (by simp)
    have hgx : g ∈ f x := by
      rw [e2]; exact List.mem_append_right _ (List.mem_of_head? hg)
    have : firstAlign (a' ++ [y]) = x.2 := by
      cases a' with
      | nil => simp at d1; simp [firstAlign, d1.1]
      | cons z a' => simp at d1; simp [firstAlign, d1.1]
    rw [this]
    exact hf x g hgx
  · rcases List.eq_nil_or_concat G with rfl | ⟨G', g, rfl⟩
    · exact absurd rfl hG
    · rw [List.concat_eq_append] at *
      have hg := hlast g (by simp)
      have hgy : g ∈ f y := by
        rw [d2]; exact List.mem_append_left _ (List.mem_of_getLast? hg)
      rw [lastAlign_concat, lastAlign_concat]
      exact hf y g hgy

theorem inPlace_ordered {f : Ch → List Ch} (hf : InPlace f) {cs : List Ch} (h : cs.Pairwise fun c d => AlignLE c.2 d.2) :
    (cs.flatMap f).Pairwise fun c d => AlignLE c.2 d.2 := by
  rw [List.pairwise_flatMap]
  refine ⟨?_, ?_⟩
  · intro x _
    apply List.Pairwise.imp_of_mem (R := fun _ _ => True)
    · intro y z hy hz _
      left; rw [hf x y hy, hf x z hz]
    · exact List.pairwise_of_forall fun _ _ => trivial
  · refine h.imp ?_
    intro x x' hx y hy z hz
    rw [hf x y hy, hf x' z hz]; exact hx

theorem wf_of_chars {ns : NS} {cs : List Ch} (h : Repr ns cs) (ho : cs.Pairwise fun c d => AlignLE c.2 d.2)
    (hb : ∀ c ∈ cs, 0 ≤ c.2.start ∧ c.2.start ≤ c.2.stop ∧ c.2.stop ≤ (ns.original.length : Int)) : WF ns := by
  refine ⟨by rw [h.aligns_eq, h.text_eq, aligns_length], ?_, ?_⟩
  · rw [h.aligns_eq]; exact pairwise_aligns (List.pairwise_map.2 ho)
  · intro a ha
    rw [h.aligns_eq] at ha
    obtain ⟨c, hc, rfl⟩ := mem_aligns.1 ha
    exact hb c hc

/-! ## `BertNormalizer` works in place -/

theorem bertSpec_append (u : Uni) (c : BertCfg) (a b : List Ch) : bertSpec u c (a ++ b) = bertSpec u c a ++ bertSpec u c b := by
  have h1 : bertDrop u c (a ++ b) = bertDrop u c a ++ bertDrop u c b := by unfold bertDrop; split <;> simp
  have h2 : ∀ a b, bertSpaces c (a ++ b) = bertSpaces c a ++ bertSpaces c b := by
    intro a b; unfold bertSpaces; simp only; split <;> split <;> simp
  have h3 : ∀ a b, bertAccents u c (a ++ b) = bertAccents u c a ++ bertAccents u c b := by
    intro a b; unfold bertAccents; split <;> simp
  have h4 : ∀ a b, bertLower u c (a ++ b) = bertLower u c a ++ bertLower u c b := by
    intro a b; unfold bertLower; split <;> simp
  unfold bertSpec
  rw [h1, h2, h3, h4]

theorem bertSpec_flatMap (u : Uni) (c : BertCfg) (cs : List Ch) : bertSpec u c cs = cs.flatMap fun x => bertSpec u c [x] := by
  induction cs with
  | nil =>
    unfold bertSpec bertLower bertAccents bertSpaces bertDrop
    simp only
    split <;> split <;> split <;> split <;> rfl
  | cons x cs ih =>
    rw [show x :: cs = [x] ++ cs from rfl, bertSpec_append, ih]
    simp

theorem bertSpec_runes (u : Uni) (c : BertCfg) (cs : List Ch) : (bertSpec u c cs).map (·.1) = bertText u c (cs.map (·.1)) := by
  have h1 : (bertDrop u c cs).map (·.1) = if c.textCleaning then (cs.map (·.1)).filter fun r => !bertDropped u r else cs.map (·.1) := by
    unfold bertDrop; split
    · rw [List.filter_map]; rfl
    · rfl
  have h2 : (bertSpaces c (bertDrop u c cs)).map (·.1) =
      (let rs := if c.textCleaning then
          ((cs.map (·.1)).filter fun r => !bertDropped u r).map fun r => if isWhiteSpace r then 0x20 else r else cs.map (·.1)
       if c.chineseCharsHandling then rs.flatMap fun r => if isChinese r then [0x20, r, 0x20] else [r] else rs) := by
    have k : ∀ l : List Ch, (l.flatMap fun x => if isChinese x.1 then [(0x20, x.2), x, (0x20, x.2)] else [x]).map (·.1)
        = (l.map (·.1)).flatMap fun r => if isChinese r then [0x20, r, 0x20] else [r] := by
      intro l
      rw [List.map_flatMap, List.flatMap_map]
      congr 1
      funext x
      split <;> rfl
    have k' : (if c.textCleaning then (bertDrop u c cs).map fun x => (if isWhiteSpace x.1 then 0x20 else x.1, x.2)
        else bertDrop u c cs).map (·.1) = if c.textCleaning then
          ((cs.map (·.1)).filter fun r => !bertDropped u r).map fun r => if isWhiteSpace r then 0x20 else r else cs.map (·.1) := by
      by_cases ht : c.textCleaning = true
      · rw [if_pos ht, if_pos ht]
        rw [if_pos ht] at h1
        rw [← h1]; simp
      · rw [if_neg ht, if_neg ht]
        rw [if_neg ht] at h1
        exact h1
    unfold bertSpaces
    simp only
    rw [← k']
    split
    · exact k _
    · rfl
  unfold bertSpec bertText
  simp only at h2 ⊢
  rw [← h2]
  unfold bertLower bertAccents
  split <;> split <;> simp [List.filter_map, Function.comp_def]

theorem bertSpec_inPlace (u : Uni) (c : BertCfg) : InPlace fun x => bertSpec u c [x] := by
  intro x y hy
  have h : ∀ l : List Ch, (∀ y ∈ l, y.2 = x.2) → ∀ y ∈ bertLower u c (bertAccents u c l), y.2 = x.2 := by
    intro l hl
    have : ∀ y ∈ bertAccents u c l, y.2 = x.2 := by
      unfold bertAccents; split
      · intro y hy; exact hl y (List.mem_filter.1 hy).1
      · exact hl
    unfold bertLower; split
    · intro y hy
      obtain ⟨z, hz, rfl⟩ := List.mem_map.1 hy
      exact this z hz
    · exact this
  refine h _ ?_ y hy
  have h1 : ∀ y ∈ bertDrop u c [x], y.2 = x.2 := by
    unfold bertDrop; split
    · intro y hy; have := (List.mem_filter.1 hy).1; simp at this; rw [this]
    · intro y hy; simp at hy; rw [hy]
  unfold bertSpaces
  simp only
  have h2 : ∀ y ∈ (if c.textCleaning then (bertDrop u c [x]).map fun x => (if isWhiteSpace x.1 then 0x20 else x.1, x.2)
        else bertDrop u c [x]), y.2 = x.2 := by
    split
    · intro y hy
      obtain ⟨z, hz, rfl⟩ := List.mem_map.1 hy
      exact h1 z hz
    · exact h1
  split
  · intro y hy
    obtain ⟨z, hz, hy⟩ := List.mem_flatMap.1 hy
    have := h2 z hz
    split at hy
    · simp at hy
      rcases hy with rfl | rfl | rfl <;> exact this
    · simp at hy; subst hy; exact this
  · exact h2

/-- What becomes of one rune: at most one rune, between spaces. -/
theorem bertText_one (u : Uni) (hu : u.toLower 0x20 = 0x20) (c : BertCfg) (r : Rune) :
    ∃ (S M S' : List Rune), bertText u c [r] = S ++ M ++ S' ∧ M.length ≤ 1 ∧ (∀ x ∈ S, x = 0x20) ∧ ∀ x ∈ S', x = 0x20 := by
  have h1 : (if c.textCleaning then ([r].filter fun r => !bertDropped u r).map fun r => if isWhiteSpace r then 0x20 else r else [r]).length ≤ 1 := by
    split
    · rw [List.length_map]; exact List.length_filter_le _ _
    · simp
  generalize hl1 : (if c.textCleaning then ([r].filter fun r => !bertDropped u r).map fun r => if isWhiteSpace r then 0x20 else r else [r]) = l1 at h1
  obtain ⟨S, M, S', e, h2, h3, h4⟩ : ∃ S M S' : List Rune,
      (if c.chineseCharsHandling then l1.flatMap fun r => if isChinese r then [0x20, r, 0x20] else [r] else l1) = S ++ M ++ S'
        ∧ M.length ≤ 1 ∧ (∀ x ∈ S, x = 0x20) ∧ ∀ x ∈ S', x = 0x20 := by
    by_cases hc : c.chineseCharsHandling = true
    · rw [if_pos hc]
      match l1, h1 with
      | [], _ => exact ⟨[], [], [], rfl, by simp, by simp, by simp⟩
      | [x], _ =>
        by_cases hx : isChinese x = true
        · exact ⟨[0x20], [x], [0x20], by simp [hx], by simp, by simp, by simp⟩
        · exact ⟨[], [x], [], by simp [hx], by simp, by simp, by simp⟩
      | _ :: _ :: _, h => simp at h
    · rw [if_neg hc]
      exact ⟨[], l1, [], by simp, h1, by simp, by simp⟩
  obtain ⟨S1, M1, S1', e1, h5, h6, h7⟩ : ∃ S1 M1 S1' : List Rune,
      (if c.accentsStripping then (S ++ M ++ S').filter fun r => !u.isMn r else S ++ M ++ S') = S1 ++ M1 ++ S1'
        ∧ M1.length ≤ 1 ∧ (∀ x ∈ S1, x = 0x20) ∧ ∀ x ∈ S1', x = 0x20 := by
    split
    · refine ⟨S.filter fun r => !u.isMn r, M.filter fun r => !u.isMn r, S'.filter fun r => !u.isMn r, by simp,
        Nat.le_trans (List.length_filter_le _ _) h2, fun x hx => h3 x (List.mem_filter.1 hx).1, fun x hx => h4 x (List.mem_filter.1 hx).1⟩
    · exact ⟨S, M, S', rfl, h2, h3, h4⟩
  have hsp : sanitize (u.toLower 0x20) = 0x20 := by rw [hu]; decide
  unfold bertText
  simp only
  rw [hl1, e, e1]
  split
  · refine ⟨S1.map fun r => sanitize (u.toLower r), M1.map fun r => sanitize (u.toLower r), S1'.map fun r => sanitize (u.toLower r),
      by simp, by simpa using h5, ?_, ?_⟩
    · intro x hx
      obtain ⟨y, hy, rfl⟩ := List.mem_map.1 hx
      rw [h6 y hy]; exact hsp
    · intro x hx
      obtain ⟨y, hy, rfl⟩ := List.mem_map.1 hx
      rw [h7 y hy]; exact hsp
  · exact ⟨S1, M1, S1', rfl, h5, h6, h7⟩

theorem edge_left {S M S' X Z : List Rune} {z : Rune} {p : Rune → Bool} (e : X ++ z :: Z = S ++ M ++ S') (hM : M.length ≤ 1)
    (hS : ∀ x ∈ S, p x = true) (hS' : ∀ x ∈ S', p x = true) (hz : p z = false) : X = S ∧ M = [z] ∧ Z = S' := by
  have hx : (X ++ z :: Z)[X.length]? = some z := by simp
  rw [e, List.append_assoc] at hx
  have h1 : S.length ≤ X.length := by
    apply Nat.le_of_not_lt
    intro h
    rw [List.getElem?_append_left h] at hx
    have := hS z (List.mem_of_getElem? hx)
    rw [hz] at this; simp at this
  rw [List.getElem?_append_right h1] at hx
  have h2 : X.length - S.length < M.length := by
    apply Nat.lt_of_not_le
    intro h
    rw [List.getElem?_append_right h] at hx
    have := hS' z (List.mem_of_getElem? hx)
    rw [hz] at this; simp at this
  have hl : X.length = S.length := by omega
  rw [List.append_assoc] at e
  obtain ⟨e1, e2⟩ := List.append_inj e hl
  match M, hM, h2 with
  | [m], _, _ =>
    simp at e2
    exact ⟨e1, by rw [e2.1], e2.2⟩
  | [], _, h => simp at h
  | _ :: _ :: _, h, _ => simp at h

/-- The runes of a text after normalization that are not white space. -/
def bertVisible (u : Uni) (c : BertCfg) (rs : List Rune) : List Rune := (bertText u c rs).filter fun r => !isWhiteSpace r

/-- A group of visible characters comes from a run of characters of the input that normalizes to it. -/
theorem bert_source {u : Uni} (hu : u.toLower 0x20 = 0x20) {c : BertCfg} {cs A G C : List Ch}
    (h : bertSpec u c cs = A ++ G ++ C) (hG : G ≠ []) (hv : ∀ g ∈ G, isWhiteSpace g.1 = false) :
    ∃ a H b, cs = a ++ H ++ b ∧ H ≠ [] ∧ bertVisible u c (H.map (·.1)) = G.map (·.1)
      ∧ firstAlign G = firstAlign H ∧ lastAlign G = lastAlign H := by
  rw [bertSpec_flatMap] at h
  obtain ⟨a, H, b, X, Y, e1, e2, e3, e4, e5, ⟨x, hx, Z, k1, k2⟩, ⟨y, hy, Z', k3, k4⟩⟩ := group_source (bertSpec_inPlace u c) h hG
  refine ⟨a, H, b, e1, e2, ?_, e4, e5⟩
  have hX : ∀ r ∈ X.map (·.1), isWhiteSpace r = true := by
    obtain ⟨S, M, S', r1, r2, r3, r4⟩ := bertText_one u hu c x.1
    have hr := bertSpec_runes u c [x]
    rw [k1] at hr
    obtain ⟨g, G', rfl⟩ := List.exists_cons_of_ne_nil hG
    have hz := k2 g (by simp)
    cases Z with
    | nil => simp at hz
    | cons z Z =>
      simp at hz; subst hz
      simp only [List.map_cons, List.map_append, List.map_nil] at hr
      rw [r1] at hr
      have := edge_left (p := isWhiteSpace) hr r2 (fun x hx => by rw [r3 x hx]; decide) (fun x hx => by rw [r4 x hx]; decide)
        (hv z (by simp))
      rw [this.1]
      intro r hr
      rw [r3 r hr]; decide
  have hY : ∀ r ∈ Y.map (·.1), isWhiteSpace r = true := by
    obtain ⟨S, M, S', r1, r2, r3, r4⟩ := bertText_one u hu c y.1
    have hr := bertSpec_runes u c [y]
    rw [k3] at hr
    obtain ⟨G', g, rfl⟩ : ∃ G' l, G = G' ++ [l] := ⟨_, _, (List.dropLast_concat_getLast hG).symm⟩
    have hz := k4 g (by simp)
    rcases List.eq_nil_or_concat Z' with rfl | ⟨Z', z, rfl⟩
    · simp at hz
    · rw [List.concat_eq_append] at *
      simp at hz; subst hz
      simp only [List.map_append, List.map_cons, List.map_nil, List.append_assoc, List.singleton_append] at hr
      rw [r1] at hr
      have := edge_left (p := isWhiteSpace) hr r2 (fun x hx => by rw [r3 x hx]; decide) (fun x hx => by rw [r4 x hx]; decide)
        (hv z (by simp))
      rw [this.2.2]
      intro r hr
      rw [r4 r hr]; decide
  unfold bertVisible
  rw [← bertSpec_runes, bertSpec_flatMap, e3]
  simp only [List.map_append, List.filter_append]
  have q1 : (X.map (·.1)).filter (fun r => !isWhiteSpace r) = [] := List.filter_eq_nil_iff.2 (by intro r hr; simp [hX r hr])
  have q2 : (Y.map (·.1)).filter (fun r => !isWhiteSpace r) = [] := List.filter_eq_nil_iff.2 (by intro r hr; simp [hY r hr])
  have q3 : (G.map (·.1)).filter (fun r => !isWhiteSpace r) = G.map (·.1) := List.filter_eq_self.2 (by
      intro r hr
      obtain ⟨g, hg, rfl⟩ := List.mem_map.1 hr
      simp [hv g hg])
  rw [q1, q2, q3]
  simp

/-- Different visible characters come from different characters of the input. -/
theorem bert_disjoint {u : Uni} (hu : u.toLower 0x20 = 0x20) {c : BertCfg} {cs : List Ch}
    (h : cs.Pairwise fun x y => x.2.stop ≤ y.2.start) :
    ((bertSpec u c cs).filter fun x => !isWhiteSpace x.1).Pairwise fun x y => x.2.stop ≤ y.2.start := by
  rw [bertSpec_flatMap, List.filter_flatMap, List.pairwise_flatMap]
  refine ⟨?_, ?_⟩
  · intro x _
    obtain ⟨S, M, S', r1, r2, r3, r4⟩ := bertText_one u hu c x.1
    have hr := bertSpec_runes u c [x]
    have hl : ((bertSpec u c [x]).filter fun x => !isWhiteSpace x.1).length ≤ 1 := by
      have e : ((bertSpec u c [x]).filter fun x => !isWhiteSpace x.1).map (·.1)
          = (bertText u c [x.1]).filter fun r => !isWhiteSpace r := by
        rw [show [x.1] = [x].map (·.1) from rfl, ← hr, List.filter_map]; rfl
      have := congrArg List.length e
      rw [List.length_map] at this
      have q1 : S.filter (fun r => !isWhiteSpace r) = [] := List.filter_eq_nil_iff.2 (by intro r hr; rw [r3 r hr]; decide)
      have q2 : S'.filter (fun r => !isWhiteSpace r) = [] := List.filter_eq_nil_iff.2 (by intro r hr; rw [r4 r hr]; decide)
      rw [this, r1, List.filter_append, List.filter_append, q1, q2]
      simp only [List.nil_append, List.append_nil]
      exact Nat.le_trans (List.length_filter_le _ _) r2
    generalize (bertSpec u c [x]).filter (fun x => !isWhiteSpace x.1) = l at hl
    match l, hl with
    | [], _ => exact .nil
    | [a], _ => exact List.pairwise_singleton _ _
    | _ :: _ :: _, h => simp at h
  · refine h.imp ?_
    intro x y hxy a ha b hb
    rw [bertSpec_inPlace u c x a (List.mem_filter.1 ha).1, bertSpec_inPlace u c y b (List.mem_filter.1 hb).1]
    exact hxy

/-! ## The words hold exactly the kept characters -/

theorem words_chars {keep : Rune → Bool} {cs : List Ch} {L : List (List Ch × List Ch)} (hL : StandsIn cs L)
    (hw : WordsOf keep (cs.map (·.1)) (wordRunes L)) : L.flatMap (·.2) = cs.filter fun c => keep c.1 := by
  have hsub : (L.flatMap (·.2)).Sublist cs := by
    have := words_sublist L 0 hL (by
      have := hw.ordered
      rw [wordRunes, List.pairwise_map] at this
      simpa using this) (by simp)
    simpa using this
  have hc := hw.complete
  have e1 : (wordRunes L).flatMap (·.2) = (L.flatMap (·.2)).map (·.1) := by
    simp [wordRunes, List.flatMap_map, List.map_flatMap]
  have e2 : (cs.map (·.1)).filter keep = (cs.filter fun c => keep c.1).map (·.1) := by
    rw [List.filter_map]; rfl
  rw [e1, e2] at hc
  have hk : ∀ c ∈ L.flatMap (·.2), keep c.1 = true := by
    intro c hcm
    have : c.1 ∈ (L.flatMap (·.2)).map (·.1) := List.mem_map.2 ⟨c, hcm, rfl⟩
    rw [hc] at this
    obtain ⟨d, hd, e⟩ := List.mem_map.1 this
    rw [← e]; exact (List.mem_filter.1 hd).2
  have hs2 : (L.flatMap (·.2)).Sublist (cs.filter fun c => keep c.1) := by
    have := hsub.filter fun c => keep c.1
    rwa [List.filter_eq_self.2 hk] at this
  exact hs2.eq_of_length (by
    have := congrArg List.length hc
    simpa using this)

theorem group_in_word {cs : List Ch} {L : List (List Ch × List Ch)} (hL : StandsIn cs L) {Gf : List Ch × List Ch → List (List Ch)}
    (hg : ∀ x ∈ L, (Gf x).flatten = x.2) : ∀ G ∈ (L.map Gf).flatten, ∃ A C, cs = A ++ G ++ C := by
  intro G hG
  obtain ⟨Gs, hGs, hG⟩ := List.mem_flatten.1 hG
  obtain ⟨x, hx, rfl⟩ := List.mem_map.1 hGs
  obtain ⟨-, C, e⟩ := hL x hx
  obtain ⟨G1, G2, eG⟩ := List.append_of_mem hG
  have := hg x hx
  rw [eG] at this
  refine ⟨x.1 ++ G1.flatten, G2.flatten ++ C, ?_⟩
  rw [e, ← this]; simp

/-! ## C68 -/

theorem selfChars_disjoint (i : Nat) (rs : List Rune) : (selfChars i rs).Pairwise fun x y => x.2.stop ≤ y.2.start := by
  induction rs generalizing i with
  | nil => exact .nil
  | cons r rs ih =>
    refine List.Pairwise.cons ?_ (ih _)
    intro c hc
    have := selfChars_bounds _ _ c hc
    simp only; omega

/-- The runes dropped before the first kept one are ASCII, or nothing is kept. -/
def GoodStart (drop : Rune → Bool) (rs : List Rune) : Prop :=
  (∀ r ∈ rs, drop r = true) ∨ ∀ r ∈ rs.takeWhile drop, r < 0x80

theorem goodLead_iff {drop : Rune → Bool} {cs : List Ch} (h : GoodStart drop (cs.map (·.1))) : GoodLead drop cs := by
  rcases h with h | h
  · left; intro c hc; exact h c.1 (List.mem_map.2 ⟨c, hc, rfl⟩)
  · right
    intro c hc
    refine h c.1 ?_
    rw [List.takeWhile_map]
    exact List.mem_map.2 ⟨c, hc, rfl⟩

/-- The text of a run of the input at these offsets normalizes to the runes of the group, white space left out. -/
def BertSource (u : Uni) (c : BertCfg) (rs : List Rune) (o : ByteOffsets) (G : List Rune) : Prop :=
  ∃ a h b, rs = a ++ h ++ b ∧ o = ⟨(encodeRunes a).length, (encodeRunes (a ++ h)).length⟩ ∧ h ≠ [] ∧ bertVisible u c h = G

/-- The settings with the first two steps only. -/
def spacesOnly (c : BertCfg) : BertCfg := { c with accentsStripping := false, lowerCaseEnabled := false }

theorem spacesOnly_text (u : Uni) (c : BertCfg) (cs : List Ch) :
    (bertSpaces c (bertDrop u c cs)).map (·.1) = bertText u (spacesOnly c) (cs.map (·.1)) := by
  rw [← bertSpec_runes]
  unfold bertSpec bertLower bertAccents spacesOnly
  simp only [Bool.false_eq_true, if_false]
  rfl

/-- **C68.** The BERT pipeline on any valid input, for every setting of the normalizer, any Unicode
tables that keep the space when lower-casing, and any WordPiece model with a vocabulary of valid
terms that has the unknown token: if no multi-byte rune is dropped at the very front, nothing fails
or crashes.  The words are those of the normalized text; the tokens are their WordPiece tokens, one
row each; the offsets are increasing and disjoint; the input at the offsets of a token normalizes to
exactly the characters the token stands for; together these are all the visible characters. -/
theorem C68_bert {u : Uni} (hu : u.toLower 0x20 = 0x20) (c : BertCfg) (m : WordPiece) (hval : m.vocab.AllValid)
    (hunk : m.vocab.getID m.unknownToken ≠ none) (rs : List Rune) (hv : ∀ r ∈ rs, ValidRune r)
    (h1 : c.textCleaning = true → GoodStart (bertDropped u) rs)
    (h2 : c.accentsStripping = true → GoodStart u.isMn (bertText u (spacesOnly c) rs)) (w ty : Int) :
    ∃ p0 p1 p2 enc L T Gf, (PTS.fromString (encodeRunes rs)).normalize (bertNormalize u c) = .ok (p0, none)
      ∧ bertPreTokenize u p0 = .ok (p1, none)
      ∧ p1.tokenize (fun ns => .ok (m.tokenize ns.get)) = .ok (p2, none)
      ∧ p2.intoEncoding w ty = .ok (.ok enc)
      ∧ TokenizedBy isWhiteSpace u.isPunct (bertText u c rs) (wordRunes L)
      ∧ (∀ x ∈ L, m.tokenize (text x.2) = .ok (T x) ∧ WordPieceWord m (Gf x) (T x))
      ∧ EncodesChars 0 w ty (L.map (·.2)) (L.map T) (L.map Gf) enc
      ∧ All2 (fun o G => BertSource u c rs o (G.map (·.1))) enc.offsets (L.map Gf).flatten
      ∧ (L.map Gf).flatten.flatten.map (·.1) = bertVisible u c rs
      ∧ enc.offsets.Pairwise (fun o o' => o.stop ≤ o'.start) := by
  have hvs : ValidUtf8 (encodeRunes rs) := ⟨rs, hv, rfl⟩
  have hr : Repr (NS.fromString (encodeRunes rs)) (selfChars 0 rs) := by
    have := fromString_repr hvs
    rwa [runesOf_encodeRunes rs hv] at this
  have hfst : (selfChars 0 rs).map (·.1) = rs := selfChars_map_fst 0 rs
  obtain ⟨ns, n1, n2, n3, n4⟩ := C34_bert_partial hr u c (fun h => goodLead_iff (by rw [hfst]; exact h1 h))
    (fun h => goodLead_iff (by rw [spacesOnly_text, hfst]; exact h2 h))
  have hself := (fromString_wf hvs).chars hr
  have hwf : WF ns := by
    refine wf_of_chars n2 ?_ ?_
    · rw [bertSpec_flatMap]; exact inPlace_ordered (bertSpec_inPlace u c) hself.1
    · intro x hx
      rw [bertSpec_flatMap] at hx
      obtain ⟨y, hy, hx⟩ := List.mem_flatMap.1 hx
      rw [bertSpec_inPlace u c y x hx, n3]
      exact hself.2 y hy
  have hshift : ns.originalShift = 0 := by rw [n4]; rfl
  have hnorm : (PTS.fromString (encodeRunes rs)).normalize (bertNormalize u c) = .ok (⟨encodeRunes rs, [⟨ns, none⟩]⟩, none) := by
    have := C59_normalize_ok (PTS.fromString (encodeRunes rs)) (bertNormalize u c) (fun _ => ns) (by
      intro sp hsp _
      simp [PTS.fromString, PTS.fromNormalizedString] at hsp
      rw [hsp]; exact n1)
    rw [this]
    simp [PTS.fromString, PTS.fromNormalizedString, withText, NS.getOriginal, NS.fromString]
  obtain ⟨p1, p2, enc, L, T, Gf, k1, k2, k3, k4, k5, k6, k7, k8⟩ := C67_wordPiece (C66_bert u) m hval hunk hwf n2 (encodeRunes rs) w ty
  have htext : (bertSpec u c (selfChars 0 rs)).map (·.1) = bertText u c rs := by rw [bertSpec_runes, hfst]
  rw [htext] at k6
  have hg := all2_maps k8.groups
  have hfl : (L.map Gf).flatten.flatten = L.flatMap (·.2) := by
    clear k1 k2 k3 k4 k5 k6 k7 k8
    induction L with
    | nil => rfl
    | cons x L ih =>
      rw [List.map_cons, List.flatten_cons, List.flatten_append, ih (fun y hy => hg y (by simp [hy])), (hg x (by simp)).1]
      rfl
  have hwc := words_chars k4 k5
  have hvis : ∀ G ∈ (L.map Gf).flatten, G ≠ [] ∧ ∀ g ∈ G, isWhiteSpace g.1 = false := by
    intro G hG
    constructor
    · obtain ⟨Gs, hGs, hG⟩ := List.mem_flatten.1 hG
      obtain ⟨x, hx, rfl⟩ := List.mem_map.1 hGs
      exact (hg x hx).2 G hG
    · intro g hgm
      have : g ∈ L.flatMap (·.2) := hfl ▸ List.mem_flatten.2 ⟨G, hG, hgm⟩
      rw [hwc] at this
      simpa using (List.mem_filter.1 this).2
  rw [hshift] at k8
  refine ⟨_, p1, p2, enc, L, T, Gf, hnorm, k1, k2, k3, k6, k7, k8, ?_, ?_, ?_⟩
  · rw [k8.offsets]
    have hin := group_in_word k4 (fun x hx => (hg x hx).1)
    clear hfl
    generalize (L.map Gf).flatten = Gs at hvis hin
    induction Gs with
    | nil => exact .nil
    | cons G Gs ih =>
      refine .cons ?_ (ih (fun X hX => hvis X (by simp [hX])) (fun X hX => hin X (by simp [hX])))
      obtain ⟨A, C, e⟩ := hin G (by simp)
      obtain ⟨hne, hws⟩ := hvis G (by simp)
      obtain ⟨a, H, b, e1, e2, e3, e4, e5⟩ := bert_source hu e hne hws
      obtain ⟨-, hcut⟩ := selfChars_cut e1
      have hne' : H.map (·.1) ≠ [] := by simpa using e2
      have f1 := firstAlign_self (i := 0 + (encodeRunes (a.map (·.1))).length) hne'
      have f2 := lastAlign_self (i := 0 + (encodeRunes (a.map (·.1))).length) hne'
      rw [← hcut] at f1 f2
      refine ⟨a.map (·.1), H.map (·.1), b.map (·.1), ?_, ?_, hne', e3⟩
      · have := congrArg (List.map (·.1)) e1
        rw [hfst] at this
        simpa using this
      · simp only [groupOffsets, e4, e5, f1, f2]
        simp
  · rw [hfl, hwc]
    unfold bertVisible
    rw [← htext, List.filter_map]; rfl
  · rw [k8.offsets, List.pairwise_map]
    have hd : (L.map Gf).flatten.flatten.Pairwise fun x y => x.2.stop ≤ y.2.start := by
      rw [hfl, hwc]
      exact bert_disjoint hu (selfChars_disjoint 0 rs)
    clear hfl
    generalize (L.map Gf).flatten = Gs at hvis hd
    induction Gs with
    | nil => exact .nil
    | cons G Gs ih =>
      rw [List.flatten_cons, List.pairwise_append] at hd
      refine List.Pairwise.cons ?_ (ih (fun X hX => hvis X (by simp [hX])) hd.2.1)
      intro G' hG'
      obtain ⟨l, hl, el⟩ := lastAlign_mem (hvis G (by simp)).1
      obtain ⟨f, hf, ef⟩ := firstAlign_mem (hvis G' (by simp [hG'])).1
      have := hd.2.2 l hl f (List.mem_flatten.2 ⟨G', hG', hf⟩)
      simp only [groupOffsets, el, ef]; omega

/-- One row of the encoding: the offsets select a part `h` of the input, and the token, which has
this id in the vocabulary, is the unknown token or the visible part of the normalized `h`, possibly
after the continuing prefix. -/
def BertRow (u : Uni) (c : BertCfg) (m : WordPiece) (rs : List Rune) (o : ByteOffsets) (t : Str) (id : Int) : Prop :=
  ∃ h, goSlice (encodeRunes rs) o.start o.stop = .ok (encodeRunes h) ∧ bertVisible u c h ≠ [] ∧ m.vocab.getID t = some id
    ∧ (t = m.unknownToken ∨ t = encodeRunes (bertVisible u c h) ∨ t = m.continuingSubwordPrefix ++ encodeRunes (bertVisible u c h))

theorem pieceValues_all2 {m : WordPiece} : ∀ (first : Bool) (Gs : List (List Ch)) (ts : List Token), PieceValues m first Gs ts →
    All2 (fun G t => m.vocab.getID t.value = some t.id
      ∧ (t.value = m.unknownToken ∨ t.value = text G ∨ t.value = m.continuingSubwordPrefix ++ text G)) Gs ts
  | _, [], [], _ => .nil
  | first, G :: Gs, t :: ts, h => by
    obtain ⟨h1, h2, h3⟩ := h
    refine .cons ⟨h2, ?_⟩ (pieceValues_all2 false Gs ts h3)
    cases first
    · exact Or.inr (Or.inr h1)
    · exact Or.inr (Or.inl h1)

theorem wordPieceWord_all2 {m : WordPiece} {Gs : List (List Ch)} {ts : List Token} (h : WordPieceWord m Gs ts) :
    All2 (fun G t => m.vocab.getID t.value = some t.id
      ∧ (t.value = m.unknownToken ∨ t.value = text G ∨ t.value = m.continuingSubwordPrefix ++ text G)) Gs ts := by
  rcases h with ⟨G, t, rfl, rfl, h1, h2⟩ | h
  · exact .cons ⟨h1 ▸ h2, Or.inl h1⟩ .nil
  · exact pieceValues_all2 _ _ _ h

theorem All2.index {α β : Type} {R : α → β → Prop} {l : List α} {l' : List β} (h : All2 R l l') :
    ∀ (i : Nat) (a : α) (b : β), l[i]? = some a → l'[i]? = some b → R a b := by
  induction h with
  | nil => intro i a b ha; simp at ha
  | cons hx _ ih =>
    intro i a b ha hb
    cases i with
    | zero => simp at ha hb; subst ha; subst hb; exact hx
    | succ i => exact ih i a b (by simpa using ha) (by simpa using hb)

/-- **C68, row by row**: under the same conditions the pipeline gives an encoding with one offset,
token and id per row, each row as it should be, the offsets in order and apart. -/
theorem C68_rows {u : Uni} (hu : u.toLower 0x20 = 0x20) (c : BertCfg) (m : WordPiece) (hval : m.vocab.AllValid)
    (hunk : m.vocab.getID m.unknownToken ≠ none) (rs : List Rune) (hv : ∀ r ∈ rs, ValidRune r)
    (h1 : c.textCleaning = true → GoodStart (bertDropped u) rs)
    (h2 : c.accentsStripping = true → GoodStart u.isMn (bertText u (spacesOnly c) rs)) (w ty : Int) :
    ∃ p0 p1 p2 enc, (PTS.fromString (encodeRunes rs)).normalize (bertNormalize u c) = .ok (p0, none)
      ∧ bertPreTokenize u p0 = .ok (p1, none)
      ∧ p1.tokenize (fun ns => .ok (m.tokenize ns.get)) = .ok (p2, none)
      ∧ p2.intoEncoding w ty = .ok (.ok enc)
      ∧ enc.tokens.length = enc.offsets.length ∧ enc.ids.length = enc.offsets.length
      ∧ (∀ (i : Nat) (o : ByteOffsets) (t : Str) (id : Int), enc.offsets[i]? = some o → enc.tokens[i]? = some t → enc.ids[i]? = some id →
          BertRow u c m rs o t id)
      ∧ enc.offsets.Pairwise (fun o o' => o.stop ≤ o'.start) := by
  obtain ⟨p0, p1, p2, enc, L, T, Gf, k1, k2, k3, k4, k5, k6, k7, k8, k9, k10⟩ := C68_bert hu c m hval hunk rs hv h1 h2 w ty
  have hall : All2 (fun G (t : Token) => m.vocab.getID t.value = some t.id
      ∧ (t.value = m.unknownToken ∨ t.value = text G ∨ t.value = m.continuingSubwordPrefix ++ text G))
      (L.map Gf).flatten (L.map T).flatten := by
    clear k5 k7 k8 k9 k10
    induction L with
    | nil => exact .nil
    | cons x L ih =>
      exact (wordPieceWord_all2 (k6 x (by simp)).2).append (ih fun y hy => k6 y (by simp [hy]))
  have hl := hall.length_eq
  have hl2 := k8.length_eq
  refine ⟨p0, p1, p2, enc, k1, k2, k3, k4, ?_, ?_, ?_, k10⟩
  · rw [k7.tokens, List.length_map]; omega
  · rw [k7.ids, List.length_map]; omega
  · intro i o t id ho ht hid
    rw [k7.tokens, List.getElem?_map] at ht
    rw [k7.ids, List.getElem?_map] at hid
    cases hT : (L.map T).flatten[i]? with
    | none => rw [hT] at ht; simp at ht
    | some tk =>
      rw [hT] at ht hid
      simp at ht hid
      have hi : i < (L.map Gf).flatten.length := by
        have := (List.getElem?_eq_some_iff.1 hT).1
        omega
      have hG : (L.map Gf).flatten[i]? = some (L.map Gf).flatten[i] := List.getElem?_eq_getElem hi
      obtain ⟨g1, g2⟩ := hall.index i _ _ hG hT
      obtain ⟨a, h, b, e1, e2, -, e4⟩ := k8.index i _ _ ho hG
      have hne : (L.map Gf).flatten[i] ≠ [] := by
        have hm : (L.map Gf).flatten[i] ∈ (L.map Gf).flatten := List.getElem_mem hi
        obtain ⟨Gs, hGs, hm⟩ := List.mem_flatten.1 hm
        obtain ⟨x, hx, rfl⟩ := List.mem_map.1 hGs
        exact (all2_maps k7.groups x hx).2 _ hm
      subst ht; subst hid
      have htx : text (L.map Gf).flatten[i] = encodeRunes (bertVisible u c h) := by rw [e4]; rfl
      refine ⟨h, ?_, ?_, g1, by rwa [← htx]⟩
      · rw [e2, e1]
        simp only [encodeRunes_append, List.length_append]
        exact goSlice_mid _ _ _ rfl (by push_cast; rfl)
      · rw [e4]; simpa using hne

/-- Non-vacuity: a control character, a decomposed accent, capitals, a Chinese character. -/
example :
    let u : Uni := ⟨fun r => r == 1, fun r => r == 0x301, fun r => r == u!"!", fun r => if r == u!"H" then u!"h" else r⟩
    let m : WordPiece := ⟨Vocab.fromJSON (some [(b!"[U]", 0), (b!"h", 1), (b!"##e", 2), (b!"世", 3)]) [], b!"[U]", b!"##", 100⟩
    (((PTS.fromString b!"\x01Hé 世x!").normalize (bertNormalize u ⟨true, true, true, true⟩)).bind fun r =>
      (bertPreTokenize u r.1).bind fun r => (r.1.tokenize fun ns => .ok (m.tokenize ns.get)).bind fun r => r.1.intoEncoding (-1) 7)
    = .ok (.ok ⟨[1, 2, 3, 0, 0], [7, 7, 7, 7, 7], [b!"h", b!"##e", b!"世", b!"[U]", b!"[U]"], [0, 0, 1, 2, 3],
        [⟨1, 2⟩, ⟨2, 3⟩, ⟨6, 9⟩, ⟨9, 10⟩, ⟨10, 11⟩], [0, 0, 0, 0, 0], [1, 1, 1, 1, 1]⟩) := by decide +kernel

end Verif
