import Verif.Lemmas.Transform
import Verif.Spec.History

/-! Byte-level facts about `TransformRange` that hold for arbitrary arguments. -/

set_option autoImplicit false

namespace Verif

/-- The alignment `TransformRange` reads at index `k`; `-1` stands for the default `(0,0)`. -/
def pickAt (als : List Align) (k : Int) : Align :=
  if k < 0 then ⟨0, 0⟩ else (als[k.toNat]?).getD ⟨0, 0⟩

theorem pickAt_of_goIndex {als : List Align} {k : Int} {x : Align} (h : goIndex als k = .ok x) :
    pickAt als k = x := by
  obtain ⟨h0, h1⟩ := goIndex_eq_ok.1 h
  simp [pickAt, h1]; omega

theorem lt_of_goIndex {α : Type} {als : List α} {k : Int} {x : α} (h : goIndex als k = .ok x) :
    0 ≤ k ∧ k < (als.length : Int) := by
  obtain ⟨h0, h1⟩ := goIndex_eq_ok.1 h
  have := (List.getElem?_eq_some_iff.1 h1).1
  omega

theorem encodeRunes_take_le (rs : List Rune) (n : Nat) :
    (encodeRunes (rs.take n)).length ≤ (encodeRunes rs).length := by
  conv => rhs; rw [← List.take_append_drop n rs, encodeRunes_append]
  simp

/-- One iteration of the loop. -/
theorem transformStep_ok {als : List Align} {st st' : TState} {rc : RuneChange}
    (h : transformStep als st rc = .ok st') (h0 : 0 ≤ st.offset) :
    ∃ k : Int, st.offset - 1 ≤ k ∧ k < (als.length : Int) ∧ k ≤ st'.offset - 1
      ∧ consumed [rc] ≤ st.repl.length
      ∧ st'.offset = st.offset + (encodeRunes (st.repl.take (consumed [rc]))).length
      ∧ st'.repl = st.repl.drop (consumed [rc])
      ∧ st'.aligns = st.aligns ++ List.replicate (runeLen rc.rune) (pickAt als k)
      ∧ st'.out = st.out ++ encodeRune rc.rune := by
  unfold transformStep at h
  by_cases hc : 1 ≤ rc.change
  · have h1 : ¬ (rc.change ≤ 0) := by omega
    have h2 : ¬ (rc.change ≤ -1) := by omega
    simp only [ge_iff_le, hc, if_true, h1, h2, if_false] at h
    by_cases hi : st.offset < 1
    · simp [hi] at h
      refine ⟨-1, by omega, by omega, ?_⟩
      subst h
      simp [consumed, hc, pickAt, runeLen]; omega
    · simp only [hi, if_false] at h
      cases hg : goIndex als (st.offset - 1) with
      | panic => simp [hg] at h
      | ok x =>
        simp [hg] at h
        have := lt_of_goIndex hg
        have hp := pickAt_of_goIndex hg
        refine ⟨st.offset - 1, by omega, by omega, ?_⟩
        subst h
        simp [consumed, hc, hp, runeLen]
  · have h1 : rc.change ≤ 0 := by omega
    simp only [ge_iff_le, hc, if_false, h1, if_true] at h
    cases hg : goIndex als st.offset with
    | panic => simp [hg] at h
    | ok x =>
      have hlt := lt_of_goIndex hg
      have hp := pickAt_of_goIndex hg
      simp only [hg, GoM.bind_ok] at h
      cases hr : st.repl with
      | nil => simp [hr, goIndex] at h
      | cons r rs =>
        have hr0 : goIndex (r :: rs) 0 = .ok r := by simp [goIndex]
        simp only [hr, hr0, GoM.bind_ok, GoM.pure_eq, List.drop_succ_cons, List.drop_zero] at h
        have hpos := encodeRune_length_pos r
        have hcon : consumed [rc] = (-rc.change).toNat + 1 := by simp [consumed, hc]; omega
        by_cases h2 : rc.change ≤ -1
        · simp only [h2, if_true] at h
          cases hs1 : goSlice rs 0 (-rc.change) with
          | panic => simp [hs1] at h
          | ok removed =>
            cases hs2 : goSlice rs (-rc.change) (rs.length : Int) with
            | panic => simp [hs1, hs2] at h
            | ok rest =>
              simp only [hs1, hs2, GoM.bind_ok, GoM.ok.injEq] at h
              obtain ⟨⟨-, -, hlen⟩, e1⟩ := goSlice_eq_ok.1 hs1
              obtain ⟨-, e2⟩ := goSlice_eq_ok.1 hs2
              refine ⟨st.offset, by omega, by omega, ?_⟩
              subst h
              have e1' : removed = rs.take (-rc.change).toNat := by rw [e1]; simp
              have e2' : rest = rs.drop (-rc.change).toNat := by
                rw [e2, List.take_of_length_le]; simp; omega
              rw [hcon]
              simp [hp, runeLen, e1', e2']
              omega
        · have hz : rc.change = 0 := by omega
          simp only [h2, if_false, GoM.ok.injEq] at h
          refine ⟨st.offset, by omega, by omega, ?_⟩
          subst h
          rw [hcon]
          simp [hz, hp, runeLen]
          omega

theorem transform_loop_ok {als : List Align} (dest : List RuneChange) {st st' : TState}
    (h : goFor dest st (transformStep als) = .ok st') (h0 : 0 ≤ st.offset) :
    ∃ ks : List Int, ks.length = dest.length ∧ ks.Pairwise (· ≤ ·)
      ∧ (∀ k ∈ ks, st.offset - 1 ≤ k ∧ k < (als.length : Int) ∧ k ≤ st'.offset - 1)
      ∧ consumed dest ≤ st.repl.length
      ∧ st.offset ≤ st'.offset
      ∧ st'.offset = st.offset + (encodeRunes (st.repl.take (consumed dest))).length
      ∧ st'.aligns = st.aligns
          ++ aligns ((dest.map fun rc => sanitize rc.rune).zip (ks.map (pickAt als)))
      ∧ st'.out = st.out ++ encodeRunes (dest.map fun rc => sanitize rc.rune) := by
  induction dest generalizing st with
  | nil =>
    simp at h; subst h
    exact ⟨[], by simp [consumed]⟩
  | cons rc rest ih =>
    rw [goFor_cons, GoM.bind_eq_ok] at h
    obtain ⟨s1, h1, h2⟩ := h
    obtain ⟨k, a1, a2, a3, a4, a5, a6, a7, a8⟩ := transformStep_ok h1 h0
    obtain ⟨ks, b1, b2, b3, b4, b5, b6, b7, b8⟩ := ih h2 (by omega)
    have hcon : consumed (rc :: rest) = consumed [rc] + consumed rest := by simp [consumed]
    refine ⟨k :: ks, by simp [b1], ?_, ?_, ?_, by omega, ?_, ?_, ?_⟩
    · refine List.pairwise_cons.2 ⟨fun x hx => ?_, b2⟩
      have := b3 x hx; omega
    · intro x hx
      rcases List.mem_cons.1 hx with rfl | hx
      · omega
      · have := b3 x hx; omega
    · rw [a6, List.length_drop] at b4; omega
    · rw [b6, a5, a6, hcon, List.take_add, encodeRunes_append]; simp; omega
    · rw [b7, a7]; simp
    · rw [b8, a8]; simp

/-- What is known when `TransformRange` returns, whatever its arguments. -/
theorem transformNormalized_ok {ns ns' : NS} {a b io : Int} {dest : List RuneChange}
    (h : ns.transformNormalized a b dest io = .ok ns') :
    ∃ (nPre nInit nTail nPost : Str) (aPre aPost : List Align) (ks : List Int),
      ns.normalized = nPre ++ (nInit ++ nTail) ++ nPost
      ∧ a = (nPre.length : Int) ∧ io = (nInit.length : Int)
      ∧ b = (nPre.length : Int) + (nInit ++ nTail).length
      ∧ aPre = ns.alignments.take a.toNat ∧ aPost = ns.alignments.drop b.toNat
      ∧ b ≤ (ns.alignments.length : Int)
      ∧ ks.length = dest.length ∧ ks.Pairwise (· ≤ ·)
      ∧ (∀ k ∈ ks, a + io - 1 ≤ k ∧ k < (ns.alignments.length : Int)
          ∧ k ≤ a + io + (encodeRunes ((runesOf nTail).take (consumed dest))).length - 1)
      ∧ consumed dest ≤ (runesOf nTail).length
      ∧ ns' = { ns with
          alignments := aPre ++ aligns ((dest.map fun rc => sanitize rc.rune).zip
            (ks.map (pickAt ns.alignments))) ++ aPost
          normalized := nPre ++ encodeRunes (dest.map fun rc => sanitize rc.rune) ++ nPost } := by
  unfold NS.transformNormalized at h
  simp only [GoM.bind_eq_ok] at h
  obtain ⟨replaced, e1, initial, e2, tail, e3, st, e4, alPre, e5, alPost, e6, sPre, e7, sPost, e8, e9⟩ := h
  obtain ⟨p, q, f1, f2, f3⟩ := goSlice_split e1
  obtain ⟨p', q', g1, g2, g3⟩ := goSlice_split e2
  have hp' : p' = [] := by apply List.length_eq_zero_iff.1; omega
  subst hp'
  have htail : tail = q' := by
    obtain ⟨-, e⟩ := goSlice_eq_ok.1 e3
    rw [e]
    rw [List.take_of_length_le (by simp; omega)]
    simp at g3
    rw [g1, g3]; simp
  subst htail
  obtain ⟨ks, k1, k2, k3, k4, k5, k6, k7, k8⟩ := transform_loop_ok dest e4 (by simp; omega)
  have hpre : sPre = p := by
    obtain ⟨-, e⟩ := goSlice_eq_ok.1 e7
    rw [e, f1, f2]; simp
  have hpost : sPost = q := by
    obtain ⟨-, e⟩ := goSlice_eq_ok.1 e8
    rw [e, List.take_of_length_le (by simp; omega), f1, f3]
    have : ((p.length : Int) + replaced.length).toNat = (p ++ replaced).length := by simp; omega
    rw [this, List.drop_left]
  have hapre : alPre = ns.alignments.take a.toNat := by
    obtain ⟨-, e⟩ := goSlice_eq_ok.1 e5
    rw [e]; simp
  have hapost : alPost = ns.alignments.drop b.toNat ∧ b ≤ (ns.alignments.length : Int) := by
    obtain ⟨⟨i1, i2, i3⟩, e⟩ := goSlice_eq_ok.1 e6
    rw [e, List.take_of_length_le (by simp; omega)]
    exact ⟨rfl, i2⟩
  simp only [List.nil_append] at g1
  refine ⟨p, initial, tail, q, alPre, alPost, ks, ?_, f2, ?_, ?_, hapre, hapost.1, hapost.2, k1, k2,
    ?_, k4, ?_⟩
  · rw [← g1]; exact f1
  · simpa using g3
  · rw [← g1]; exact f3
  · intro k hk
    have := k3 k hk
    simp at g3
    rw [k6] at this
    simp only at this
    omega
  · simp at e9
    rw [← e9, k7, k8, hpre, hpost]
    simp

end Verif
