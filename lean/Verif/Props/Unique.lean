import Verif.Props.AnyState

/-!
The specifications of the pre-tokenizers determine the pieces: two lists of pieces that
satisfy them for the same text are equal.
-/

set_option autoImplicit false

namespace Verif

/-- Words of a text given by which runes are kept and between which neighbours there is a cut. -/
structure LocalWords {α : Type} (keep : α → Bool) (cut : α → α → Prop) (rs : List α) (L : List (List α × List α)) : Prop where
  located : ∀ x ∈ L, ∃ post, rs = x.1 ++ x.2 ++ post ∧ x.2 ≠ [] ∧ (∀ r ∈ x.2, keep r = true)
    ∧ (∀ u a b v, x.2 = u ++ a :: b :: v → ¬cut a b)
    ∧ (∀ a b, x.1.getLast? = some a → x.2.head? = some b → keep a = true → cut a b)
    ∧ (∀ a b, x.2.getLast? = some a → post.head? = some b → keep b = true → cut a b)
  ordered : L.Pairwise fun x y => (x.1 ++ x.2).length ≤ y.1.length
  complete : L.flatMap (·.2) = rs.filter keep

theorem located_sublist {α : Type} (keep : α → Bool) (rs : List α) (L : List (List α × List α)) : ∀ k : Nat,
    (∀ x ∈ L, k ≤ x.1.length ∧ (∀ r ∈ x.2, keep r = true) ∧ ∃ post, rs = x.1 ++ x.2 ++ post) →
    (L.Pairwise fun x y => (x.1 ++ x.2).length ≤ y.1.length) →
    (L.flatMap (·.2)).Sublist ((rs.drop k).filter keep) := by
  induction L with
  | nil => intro k _ _; simp
  | cons x L ih =>
    intro k h hp
    obtain ⟨h1, h2, post, h3⟩ := h x (by simp)
    rw [List.pairwise_cons] at hp
    have i1 := ih (x.1 ++ x.2).length (fun y hy =>
      ⟨hp.1 y hy, (h y (by simp [hy])).2.1, (h y (by simp [hy])).2.2⟩) hp.2
    rw [List.flatMap_cons]
    have e1 : rs.drop (x.1 ++ x.2).length = post := by rw [h3, List.drop_left]
    rw [e1] at i1
    have e2 : rs.drop k = x.1.drop k ++ x.2 ++ post := by
      rw [h3, List.append_assoc, List.drop_append_of_le_length h1, List.append_assoc]
    rw [e2, List.filter_append, List.filter_append, List.filter_eq_self.2 h2]
    exact ((List.sublist_append_right _ x.2).append i1)

theorem LocalWords.unique {α : Type} {keep : α → Bool} {cut : α → α → Prop} : ∀ (n : Nat) {rs : List α}
    {L M : List (List α × List α)}, rs.length ≤ n →
    LocalWords keep cut rs L → LocalWords keep cut rs M → L = M := by
  intro n
  induction n with
  | zero =>
    intro rs L M hn hL hM
    have hrs : rs = [] := List.length_eq_zero_iff.1 (by omega)
    subst hrs
    have key : ∀ L, LocalWords keep cut [] L → L = [] := by
      intro L h
      cases L with
      | nil => rfl
      | cons x L =>
        obtain ⟨post, e, h1, -⟩ := h.located x (by simp)
        exfalso; apply h1
        have := congrArg List.length e
        simp only [List.length_append, List.length_nil] at this
        exact List.length_eq_zero_iff.1 (by omega)
    rw [key L hL, key M hM]
  | succ n ih =>
    intro rs L M hn hL hM
    cases rs with
    | nil => exact ih (by simp) hL hM
    | cons r rs =>
      simp only [List.length_cons] at hn
      by_cases hk : keep r = true
      · -- the first word starts at the front
        have first : ∀ L, LocalWords keep cut (r :: rs) L → ∃ w N, L = ([], w) :: N := by
          intro L h
          cases L with
          | nil =>
            have := h.complete
            simp [hk] at this
          | cons x N =>
            obtain ⟨post, e, -⟩ := h.located x (by simp)
            rcases x with ⟨x1, x2⟩
            cases x1 with
            | nil => exact ⟨x2, N, rfl⟩
            | cons a t =>
              exfalso
              have hall : ∀ y ∈ (a :: t, x2) :: N, 1 ≤ y.1.length ∧ (∀ r ∈ y.2, keep r = true)
                  ∧ ∃ post, r :: rs = y.1 ++ y.2 ++ post := by
                intro y hy
                obtain ⟨post, e1, e2, e3, -⟩ := h.located y hy
                refine ⟨?_, e3, post, e1⟩
                rcases List.mem_cons.1 hy with rfl | hy
                · simp
                · have := (List.pairwise_cons.1 h.ordered).1 y hy
                  simp only [List.length_append, List.length_cons] at this
                  omega
              have := (located_sublist keep (r :: rs) _ 1 hall h.ordered).length_le
              rw [h.complete] at this
              simp [hk] at this
              omega
        obtain ⟨w, L', rfl⟩ := first L hL
        obtain ⟨w', M', rfl⟩ := first M hM
        obtain ⟨post, e, h1, h2, h3, h4, h5⟩ := hL.located ([], w) (by simp)
        obtain ⟨post', e', h1', h2', h3', h4', h5'⟩ := hM.located ([], w') (by simp)
        simp only [List.nil_append] at e e' h1 h1' h2 h2' h3 h3' h5 h5'
        have two : ∀ {u u' p p' : List α}, u ++ p = u' ++ p' → u ≠ [] →
            (∀ a b, u.getLast? = some a → p.head? = some b → keep b = true → cut a b) →
            (∀ r ∈ u', keep r = true) → (∀ s a b v, u' = s ++ a :: b :: v → ¬cut a b) → u.length < u'.length → False := by
          intro u u' p p' he hu hc hk' hn hlt
          obtain ⟨t, rfl⟩ : ∃ t, u' = u ++ t := by
            have hpre : u <+: u' := List.prefix_of_prefix_length_le (List.prefix_append u p)
              (he ▸ List.prefix_append u' p') (by omega)
            obtain ⟨t, ht⟩ := hpre
            exact ⟨t, ht.symm⟩
          cases t with
          | nil => simp at hlt
          | cons b t =>
            rw [List.append_assoc, List.append_cancel_left_eq] at he
            rcases List.eq_nil_or_concat u with rfl | ⟨s, a, rfl⟩
            · exact hu rfl
            · rw [List.concat_eq_append] at *
              refine hn s a b t (by simp) (hc a b (by simp) (by rw [he]; rfl) (hk' b (by simp)))
        have hww : w = w' := by
          rcases Nat.lt_trichotomy w.length w'.length with h | h | h
          · exact (two (e.symm.trans e') h1 h5 h2' h3' h).elim
          · exact (List.append_inj (e.symm.trans e') h).1
          · exact (two (e'.symm.trans e) h1' h5' h2 h3 h).elim
        subst hww
        have hpost : post = post' := List.append_cancel_left (e.symm.trans e')
        subst hpost
        have hwl : 0 < w.length := List.length_pos_iff.2 h1
        have rest : ∀ N, LocalWords keep cut (r :: rs) (([], w) :: N) →
            ∃ K, N = K.map (fun x => (w ++ x.1, x.2)) ∧ LocalWords keep cut post K := by
          intro N h
          have hpre : ∀ y ∈ N, ∃ t, y.1 = w ++ t := by
            intro y hy
            have hlen := (List.pairwise_cons.1 h.ordered).1 y hy
            simp only [List.nil_append] at hlen
            obtain ⟨post2, e2, -⟩ := h.located y (by simp [hy])
            have : w <+: y.1 := List.prefix_of_prefix_length_le (l₃ := r :: rs) (e ▸ List.prefix_append w post)
              (by rw [e2, List.append_assoc]; exact List.prefix_append _ _) hlen
            obtain ⟨t, ht⟩ := this
            exact ⟨t, ht.symm⟩
          have hK : N = (N.map fun y => (y.1.drop w.length, y.2)).map fun x => (w ++ x.1, x.2) := by
            rw [List.map_map]
            conv => lhs; rw [← List.map_id N]
            apply List.map_congr_left
            intro y hy
            obtain ⟨t, ht⟩ := hpre y hy
            rcases y with ⟨y1, y2⟩
            simp only at ht
            simp [ht]
          refine ⟨_, hK, ?_⟩
          have hcomp : N.flatMap (·.2) = post.filter keep := by
            have := h.complete
            rw [e, List.filter_append, List.filter_eq_self.2 h2, List.flatMap_cons] at this
            exact List.append_cancel_left this
          refine ⟨?_, ?_, ?_⟩
          · intro x hx
            obtain ⟨y, hy, rfl⟩ := List.mem_map.1 hx
            obtain ⟨t, ht⟩ := hpre y hy
            obtain ⟨p2, e2, g1, g2, g3, g4, g5⟩ := h.located y (by simp [hy])
            rw [ht, e, List.append_assoc, List.append_assoc, List.append_cancel_left_eq] at e2
            simp only [ht, List.drop_left]
            refine ⟨p2, by simpa using e2, g1, g2, g3, ?_, g5⟩
            intro a b ha hb hka
            refine g4 a b ?_ hb hka
            rw [ht, List.getLast?_append, ha]; rfl
          · rw [List.pairwise_map]
            have := (List.pairwise_cons.1 h.ordered).2
            refine this.imp_of_mem ?_
            intro x y hx hy hxy
            obtain ⟨t, ht⟩ := hpre x hx
            obtain ⟨t', ht'⟩ := hpre y hy
            simp only [ht, ht', List.length_append, List.drop_left] at hxy ⊢
            omega
          · rw [List.flatMap_map]; exact hcomp
        obtain ⟨K, rfl, hK⟩ := rest L' hL
        obtain ⟨K', rfl, hK'⟩ := rest M' hM
        have hl : post.length ≤ n := by
          have := congrArg List.length e
          simp only [List.length_cons, List.length_append] at this
          omega
        rw [ih hl hK hK']
      · -- the rune is dropped: all words come later
        have rest : ∀ N, LocalWords keep cut (r :: rs) N →
            ∃ K, N = K.map (fun x => (r :: x.1, x.2)) ∧ LocalWords keep cut rs K := by
          intro N h
          have hpre : ∀ y ∈ N, ∃ t, y.1 = r :: t := by
            intro y hy
            obtain ⟨post, e, g1, g2, -⟩ := h.located y hy
            rcases y with ⟨y1, y2⟩
            simp only at e g1 g2 ⊢
            cases y1 with
            | nil =>
              cases y2 with
              | nil => exact absurd rfl g1
              | cons b y2 =>
                simp only [List.nil_append, List.cons_append, List.cons.injEq] at e
                exact absurd (e.1 ▸ g2 b (by simp)) hk
            | cons b t =>
              simp only [List.cons_append, List.cons.injEq] at e
              exact ⟨t, by rw [e.1]⟩
          have hK : N = (N.map fun y => (y.1.tail, y.2)).map fun x => (r :: x.1, x.2) := by
            rw [List.map_map]
            conv => lhs; rw [← List.map_id N]
            apply List.map_congr_left
            intro y hy
            obtain ⟨t, ht⟩ := hpre y hy
            rcases y with ⟨y1, y2⟩
            simp only at ht
            simp [ht]
          refine ⟨_, hK, ?_, ?_, ?_⟩
          · intro x hx
            obtain ⟨y, hy, rfl⟩ := List.mem_map.1 hx
            obtain ⟨t, ht⟩ := hpre y hy
            obtain ⟨p2, e2, g1, g2, g3, g4, g5⟩ := h.located y hy
            rw [ht] at e2
            simp only [List.cons_append, List.cons.injEq, true_and] at e2
            simp only [ht, List.tail_cons]
            refine ⟨p2, e2, g1, g2, g3, ?_, g5⟩
            intro a b ha hb hka
            refine g4 a b ?_ hb hka
            rw [ht, List.getLast?_cons, ha]; rfl
          · rw [List.pairwise_map]
            refine h.ordered.imp_of_mem ?_
            intro x y hx hy hxy
            obtain ⟨t, ht⟩ := hpre x hx
            obtain ⟨t', ht'⟩ := hpre y hy
            simp only [ht, ht', List.length_append, List.length_cons, List.tail_cons] at hxy ⊢
            omega
          · rw [List.flatMap_map]
            have := h.complete
            rw [List.filter_cons_of_neg hk] at this
            exact this
        obtain ⟨K, rfl, hK⟩ := rest L hL
        obtain ⟨K', rfl, hK'⟩ := rest M hM
        rw [ih (by omega) hK hK']

theorem TokenizedBy.localWords {isSep isSolo : Rune → Bool} {rs : List Rune} {L : List (List Rune × List Rune)}
    (h : TokenizedBy isSep isSolo rs L) :
    LocalWords (fun r => !isSep r) (fun a b => isSolo a = true ∨ isSolo b = true) rs L := by
  refine ⟨?_, h.ordered, h.complete⟩
  intro x hx
  obtain ⟨post, e, hc⟩ := h.located x hx
  rcases hc with ⟨r, hr, h1, h2⟩ | ⟨h0, h1, h2, h3⟩
  · refine ⟨post, e, by rw [hr]; simp, ?_, ?_, ?_, ?_⟩
    · intro y hy; rw [hr] at hy; simp at hy; subst hy; simp [h1]
    · intro u a b v hu; rw [hr] at hu
      have := congrArg List.length hu
      simp only [List.length_append, List.length_cons, List.length_nil] at this
      omega
    · intro a b _ hb _; rw [hr] at hb; simp at hb; subst hb; exact .inr h2
    · intro a b ha _ _; rw [hr] at ha; simp at ha; subst ha; exact .inl h2
  · refine ⟨post, e, h0, ?_, ?_, ?_, ?_⟩
    · intro r hr; simp [(h1 r hr).1]
    · intro u a b v hu hcut
      have ha := (h1 a (by rw [hu]; simp)).2
      have hb := (h1 b (by rw [hu]; simp)).2
      rcases hcut with h | h
      · rw [ha] at h; cases h
      · rw [hb] at h; cases h
    · intro a b ha _ hk
      rcases h2 a ha with h | h
      · simp [h] at hk
      · exact .inl h
    · intro a b _ hb hk
      rcases h3 b hb with h | h
      · simp [h] at hk
      · exact .inr h

/-- The pieces of a text are determined by what separates and what stands alone. -/
theorem TokenizedBy.unique {isSep isSolo : Rune → Bool} {rs : List Rune} {L M : List (List Rune × List Rune)}
    (hL : TokenizedBy isSep isSolo rs L) (hM : TokenizedBy isSep isSolo rs M) : L = M :=
  LocalWords.unique rs.length (Nat.le_refl _) hL.localWords hM.localWords

theorem KindRuns.localWords {κ : Type} {kind : Rune → Option κ} {rs : List Rune} {L : List (List Rune × List Rune)}
    (h : KindRuns kind rs L) : LocalWords (fun r => (kind r).isSome) (fun a b => kind a ≠ kind b) rs L := by
  refine ⟨?_, h.ordered, h.complete⟩
  intro x hx
  obtain ⟨post, k, e, h0, h1, h2, h3⟩ := h.located x hx
  refine ⟨post, e, h0, ?_, ?_, ?_, ?_⟩
  · intro r hr; simp [h1 r hr]
  · intro u a b v hu hne
    exact hne (by rw [h1 a (by rw [hu]; simp), h1 b (by rw [hu]; simp)])
  · intro a b ha hb _ he
    exact h2 a ha (he.trans (h1 b (List.mem_of_mem_head? hb)))
  · intro a b ha hb _ he
    exact h3 b hb (he.symm.trans (h1 a (List.mem_of_getLast? ha)))

end Verif
