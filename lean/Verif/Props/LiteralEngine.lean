import Verif.Model.LiteralEngine
import Verif.Lemmas.Bytes
import Verif.Props.Patterns
import Verif.Model.Notation

/-! C91: string patterns on any bytes. -/

set_option autoImplicit false

namespace Verif

theorem rangeChunks_stop : ∀ (k i n : Nat) (cs : List Chunk), n = i + (textOf cs).length →
    k ≤ cs.length → stopAt n ((rangeChunks i cs).drop k) = i + (textOf (cs.take k)).length := by
  intro k
  induction k with
  | zero =>
    intro i n cs hn _
    cases cs with
    | nil => simpa [rangeChunks, stopAt] using hn
    | cons c cs => simp [rangeChunks, stopAt]
  | succ k ih =>
    intro i n cs hn hk
    cases cs with
    | nil => simp at hk
    | cons c cs =>
      simp only [textOf_cons, List.length_append] at hn
      simp only [rangeChunks, List.drop_succ_cons, List.take_succ_cons, textOf_cons, List.length_append]
      rw [ih (i + c.bytes.length) n cs (by omega) (by simpa using hk)]
      omega

/-- What the engine finds, in terms of the runes the text is read as. -/
theorem litRunesAux_spec (ps : List Rune) (hp : ps ≠ []) : ∀ (cs pre : List Chunk) (skip : Nat), skip ≤ cs.length →
    Ordered (litRunesAux ps (textOf (pre ++ cs)).length (rangeChunks (textOf pre).length cs) skip)
        (textOf (pre ++ cs.take skip)).length (textOf (pre ++ cs)).length
    ∧ (∀ m ∈ litRunesAux ps (textOf (pre ++ cs)).length (rangeChunks (textOf pre).length cs) skip,
        ∃ a g b : List Chunk, pre ++ cs = a ++ g ++ b ∧ g.map (·.rune) = ps
          ∧ m = (((textOf a).length : Int), ((textOf (a ++ g)).length : Int)))
    ∧ (∀ a g b : List Chunk, pre ++ cs = a ++ g ++ b → g.map (·.rune) = ps → pre.length + skip ≤ a.length →
        ∃ x y z : List Chunk, pre ++ cs = x ++ y ++ z ∧ x.length < a.length + g.length ∧ a.length < x.length + y.length
          ∧ (((textOf x).length : Int), ((textOf (x ++ y)).length : Int))
            ∈ litRunesAux ps (textOf (pre ++ cs)).length (rangeChunks (textOf pre).length cs) skip) := by
  intro cs
  have hpl : 0 < ps.length := List.length_pos_iff.2 hp
  induction cs with
  | nil =>
    intro pre skip hk
    simp only [List.length_nil, Nat.le_zero] at hk
    subst hk
    refine ⟨by simp [rangeChunks, litRunesAux, Ordered], by simp [rangeChunks, litRunesAux], ?_⟩
    intro a g b he hg hl
    exfalso
    have h1 : g.length = ps.length := by rw [← hg]; simp
    have h2 := congrArg List.length he
    simp at h2
    omega
  | cons c cs ih =>
    intro pre skip hk
    have e : pre ++ c :: cs = (pre ++ [c]) ++ cs := by simp
    have ei : (textOf pre).length + c.bytes.length = (textOf (pre ++ [c])).length := by simp
    cases skip with
    | succ k =>
      obtain ⟨h1, h2, h3⟩ := ih (pre ++ [c]) k (by simpa using hk)
      rw [← e] at h1 h2 h3
      simp only [rangeChunks, litRunesAux, ei]
      refine ⟨?_, h2, ?_⟩
      · have : pre ++ (c :: cs).take (k + 1) = (pre ++ [c]) ++ cs.take k := by simp
        rw [this]; exact h1
      · intro a g b he hg hl
        exact h3 a g b he hg (by simp; omega)
    | zero =>
      simp only [rangeChunks, litRunesAux]
      have hmap : (((textOf pre).length, c.rune) :: rangeChunks ((textOf pre).length + c.bytes.length) cs).map (·.2)
          = (c :: cs).map (·.rune) := by simp [rangeChunks_map_snd]
      rw [hmap]
      by_cases hpre : ps.isPrefixOf ((c :: cs).map (·.rune))
      · rw [if_pos hpre]
        obtain ⟨w, hw⟩ := List.isPrefixOf_iff_prefix.1 hpre
        have hle : ps.length ≤ (c :: cs).length := by
          have := congrArg List.length hw; simp at this; simp; omega
        have hst := rangeChunks_stop ps.length (textOf pre).length (textOf (pre ++ c :: cs)).length (c :: cs)
          (by simp) hle
        simp only [rangeChunks] at hst
        rw [hst]
        have htk : ((c :: cs).take ps.length).map (·.rune) = ps := by
          rw [List.map_take, ← hw]; simp
        have hsp : pre ++ c :: cs = pre ++ (c :: cs).take ps.length ++ (c :: cs).drop ps.length := by
          rw [List.append_assoc, List.take_append_drop]
        have hm : (((textOf pre).length : Int), (((textOf pre).length + (textOf ((c :: cs).take ps.length)).length : Nat) : Int))
            = (((textOf pre).length : Int), ((textOf (pre ++ (c :: cs).take ps.length)).length : Int)) := by
          simp
        obtain ⟨h1, h2, h3⟩ := ih (pre ++ [c]) (ps.length - 1) (by simp at hle; omega)
        rw [← e] at h1 h2 h3
        have hnext : pre ++ [c] ++ cs.take (ps.length - 1) = pre ++ (c :: cs).take ps.length := by
          obtain ⟨q, hq⟩ : ∃ q, ps.length = q + 1 := ⟨ps.length - 1, by omega⟩
          rw [hq]; simp
        rw [hnext] at h1
        rw [hm, ei]
        refine ⟨⟨by simp, by simp only [textOf_append, List.length_append]; omega, h1⟩, ?_, ?_⟩
        · intro m hm
          rcases List.mem_cons.1 hm with rfl | hm
          · exact ⟨pre, _, _, hsp, htk, rfl⟩
          · exact h2 m hm
        · intro a g b he hg hl
          by_cases hlt : a.length < pre.length + ps.length
          · refine ⟨pre, _, _, hsp, ?_, ?_, List.mem_cons_self ..⟩
            · have : g.length = ps.length := by rw [← hg]; simp
              omega
            · simp only [List.length_take]; omega
          · obtain ⟨x, y, z, k1, k2, k3, k4⟩ := h3 a g b he hg (by simp; omega)
            exact ⟨x, y, z, k1, k2, k3, List.mem_cons_of_mem _ k4⟩
      · rw [if_neg hpre, ei]
        obtain ⟨h1, h2, h3⟩ := ih (pre ++ [c]) 0 (by omega)
        rw [← e] at h1 h2 h3
        refine ⟨?_, h2, ?_⟩
        · have hmono : ∀ (l : List (Int × Int)) (i j n : Int), i ≤ j → Ordered l j n → Ordered l i n := by
            intro l i j n hij h
            cases l with
            | nil => exact Int.le_trans hij h
            | cons m ms => exact ⟨Int.le_trans hij h.1, h.2⟩
          refine hmono _ _ _ _ ?_ h1
          simp; omega
        · intro a g b he hg hl
          by_cases hq : a.length = pre.length
          · exfalso
            apply hpre
            have hae : pre = a ∧ c :: cs = g ++ b := by
              rw [List.append_assoc] at he
              exact List.append_inj he hq.symm
            rw [hae.2, List.map_append, hg]
            exact List.isPrefixOf_iff_prefix.2 ⟨_, rfl⟩
          · exact h3 a g b he hg (by simp; omega)

/-- **C91, any bytes.**  On every non-empty byte string a non-empty string pattern succeeds.  Its captures
tile the text.  Each match is read as the pattern.  Nothing inside another capture is read as the pattern. -/
theorem C91_any_bytes (ps : List Rune) (hp : ps ≠ []) (s : Str) (hs : s ≠ []) :
    ∃ caps, fromStringAny ps s = .ok (.ok caps) ∧ Tiles caps 0 s.length
      ∧ (∀ c ∈ caps, c.isMatch = true → ∃ a g b : List Chunk, chunks s = a ++ g ++ b ∧ g.map (·.rune) = ps
          ∧ c.offsets.start = (textOf a).length ∧ c.offsets.stop = (textOf (a ++ g)).length)
      ∧ (∀ c ∈ caps, c.isMatch = false → c.offsets.start < c.offsets.stop
          ∧ ∀ a g b : List Chunk, chunks s = a ++ g ++ b → g.map (·.rune) = ps →
            ¬ (c.offsets.start ≤ (textOf a).length ∧ ((textOf (a ++ g)).length : Int) ≤ c.offsets.stop)) := by
  have hsl : ¬ s.length = 0 := by simpa using hs
  obtain ⟨o1, o2, o3⟩ := litRunesAux_spec ps hp (chunks s) [] 0 (by omega)
  have hl : litRunesAux ps (textOf ([] ++ chunks s)).length (rangeChunks (textOf []).length (chunks s)) 0
      = litRunesFindAll ps s := by
    rw [List.nil_append, textOf_chunks, litRunesFindAll, rangeStr_chunks]; rfl
  rw [hl] at o1 o2 o3
  simp only [List.nil_append, List.take_zero, textOf_nil, List.length_nil, textOf_chunks] at o1 o2 o3
  have o1 : Ordered (litRunesFindAll ps s) 0 s.length := o1
  obtain ⟨t1, t2, t3⟩ := capturesOfMatches_spec s _ o1
  refine ⟨_, by rw [fromStringAny, if_neg hp, fromRegexp, if_neg hsl], t1, ?_, ?_⟩
  · intro c hc hm
    have : (c.offsets.start, c.offsets.stop) ∈ litRunesFindAll ps s := by
      rw [← t2]
      exact List.mem_map.2 ⟨c, List.mem_filter.2 ⟨hc, hm⟩, rfl⟩
    obtain ⟨a, g, b, h1, h2, h3⟩ := o2 _ this
    exact ⟨a, g, b, h1, h2, congrArg Prod.fst h3, congrArg Prod.snd h3⟩
  · intro c hc hm
    refine ⟨t3 c hc hm, ?_⟩
    rintro a g b he hg ⟨h1, h2⟩
    obtain ⟨x, y, z, k1, k2, k3, k4⟩ := o3 a g b he hg (by omega)
    rw [← t2] at k4
    obtain ⟨d, hd, hde⟩ := List.mem_map.1 k4
    obtain ⟨hd, hdm⟩ := List.mem_filter.1 hd
    have e1 := congrArg Prod.fst hde
    have e2 := congrArg Prod.snd hde
    simp only at e1 e2
    -- chunk positions and byte positions are in the same order
    have hne : ∀ k ∈ chunks s, k.bytes ≠ [] := fun k hk => ((reads_chunks s).chunk k hk).1
    have hord : ∀ (l m u v : List Chunk), chunks s = l ++ m → chunks s = u ++ v → l.length < u.length →
        (textOf l).length < (textOf u).length := by
      intro l m u v hlm huv hlt
      have hpf : l <+: u := by
        have h1 : l <+: chunks s := ⟨m, hlm.symm⟩
        have h2 : u <+: chunks s := ⟨v, huv.symm⟩
        exact List.prefix_of_prefix_length_le h1 h2 (by omega)
      obtain ⟨w, rfl⟩ := hpf
      cases w with
      | nil => simp at hlt
      | cons k w =>
        have := List.length_pos_iff.2 (hne k (by rw [huv]; simp))
        simp; omega
    have hov1 : (textOf x).length < (textOf (a ++ g)).length :=
      hord x (y ++ z) (a ++ g) b (by rw [k1, List.append_assoc]) he (by simpa using k2)
    have hov2 : (textOf a).length < (textOf (x ++ y)).length :=
      hord a (g ++ b) (x ++ y) z (by rw [he, List.append_assoc]) k1 (by simpa using k3)
    have := Tiles.overlap t1 hc hd (by omega) (by omega)
    subst this
    rw [hm] at hdm
    simp at hdm

/-! ## Reading runes and looking for bytes -/

theorem litAux_pass (pat : Str) : ∀ (pre t : Str) (i k : Nat),
    litAux pat (pre ++ t) i (pre.length + k) = litAux pat t (i + pre.length) k := by
  intro pre
  induction pre with
  | nil => intro t i k; simp
  | cons b bs ih =>
    intro t i k
    have : (b :: bs).length + k = (bs.length + k) + 1 := by simp; omega
    rw [this, List.cons_append, litAux, ih]
    simp only [List.length_cons]
    congr 1; omega

theorem litAux_nomatch (pat : Str) : ∀ (pre t : Str) (i : Nat),
    (∀ u v, pre = u ++ v → v ≠ [] → ¬ pat <+: v ++ t) → litAux pat (pre ++ t) i 0 = litAux pat t (i + pre.length) 0 := by
  intro pre
  induction pre with
  | nil => intro t i _; simp
  | cons b bs ih =>
    intro t i h
    rw [List.cons_append, litAux, if_neg, ih]
    · simp only [List.length_cons]; congr 1; omega
    · intro u v huv hv
      exact h (b :: u) v (by rw [huv]; rfl) hv
    · intro hp
      exact h [] (b :: bs) rfl (by simp) (List.isPrefixOf_iff_prefix.1 hp)

/-- No byte that starts no encoding can be taken for a rune of the pattern. -/
def NoMix (ps : List Rune) (cs : List Chunk) : Prop :=
  (∀ r ∈ ps, r ≠ 0xFFFD) ∨ (∀ c ∈ cs, c.bytes = encodeRune c.rune)

/-- The bytes of the pattern stand at the start of a text iff the text is read as starting with its
runes. -/
theorem prefix_iff : ∀ (ps : List Rune), (∀ r ∈ ps, ValidRune r) → ∀ (s : Str) (cs : List Chunk), Reads s cs → NoMix ps cs →
    ((encodeRunes ps <+: s ↔ ps <+: cs.map (·.rune))
      ∧ (ps <+: cs.map (·.rune) → textOf (cs.take ps.length) = encodeRunes ps)) := by
  intro ps
  induction ps with
  | nil => intro _ s cs _ _; simp [encodeRunes]
  | cons r ps ih =>
    intro hv s cs h hmix
    have hr := hv r (by simp)
    have hsub : ∀ c cs', cs = c :: cs' → NoMix ps cs' := by
      rintro c cs' rfl
      rcases hmix with hm | hm
      · exact .inl fun x hx => hm x (by simp [hx])
      · exact .inr fun x hx => hm x (by simp [hx])
    have ih := ih (fun x hx => hv x (by simp [hx]))
    have key : (∃ t, s = encodeRune r ++ t) ↔ (∃ cs', cs = ⟨encodeRune r, r⟩ :: cs' ∧ ∃ t, s = encodeRune r ++ t ∧ Reads t cs') := by
      constructor
      · rintro ⟨t, rfl⟩
        have : cs = ⟨encodeRune r, r⟩ :: chunks t := Reads.unique h (Reads.rune hr (reads_chunks t))
        exact ⟨_, this, t, rfl, reads_chunks t⟩
      · rintro ⟨_, _, t, h, _⟩; exact ⟨t, h⟩
    have key2 : (∃ l, cs.map (·.rune) = r :: l) → ∃ t, s = encodeRune r ++ t := by
      rintro ⟨l, hl⟩
      cases h with
      | nil => simp at hl
      | rune _ _ => simp at hl; rw [hl.1]; exact ⟨_, rfl⟩
      | @bad b _ _ _ _ =>
        simp at hl
        rcases hmix with hm | hm
        · exact absurd hl.1.symm (hm r (by simp))
        · have := congrArg List.length (hm ⟨[b], 0xFFFD⟩ (by simp))
          exact absurd (show 1 = (encodeRune 0xFFFD).length from this) (by decide +kernel)
    constructor
    · constructor
      · rintro ⟨t, ht⟩
        simp only [encodeRunes, List.flatMap_cons, List.append_assoc] at ht
        obtain ⟨cs', rfl, t', ht', hrd⟩ := key.1 ⟨_, ht.symm⟩
        have : t' = ps.flatMap encodeRune ++ t := List.append_cancel_left (ht'.symm.trans ht.symm)
        simp only [List.map_cons]
        exact List.cons_prefix_cons.2 ⟨rfl, ((ih t' cs' hrd (hsub _ _ rfl)).1).1 ⟨t, this.symm⟩⟩
      · rintro ⟨l, hl⟩
        obtain ⟨cs', rfl, t', rfl, hrd⟩ := key.1 (key2 ⟨ps ++ l, by simpa using hl.symm⟩)
        simp only [List.map_cons, List.cons_append, List.cons.injEq, true_and] at hl
        obtain ⟨w, hw⟩ := ((ih t' cs' hrd (hsub _ _ rfl)).1).2 ⟨l, hl⟩
        refine ⟨w, ?_⟩
        simp only [encodeRunes, List.flatMap_cons, List.append_assoc] at hw ⊢
        rw [hw]
    · rintro ⟨l, hl⟩
      obtain ⟨cs', rfl, t', rfl, hrd⟩ := key.1 (key2 ⟨ps ++ l, by simpa using hl.symm⟩)
      simp only [List.map_cons, List.cons_append, List.cons.injEq, true_and] at hl
      have := (ih t' cs' hrd (hsub _ _ rfl)).2 ⟨l, hl⟩
      simp only [List.length_cons, List.take_succ_cons, textOf_cons, this, encodeRunes, List.flatMap_cons]

theorem litRunes_lit (ps : List Rune) (hp : ps ≠ []) (hv : ∀ r ∈ ps, ValidRune r) {s : Str} {cs : List Chunk}
    (h : Reads s cs) (hmix : NoMix ps cs) : ∀ (i k n : Nat), n = i + s.length → k ≤ cs.length →
      litRunesAux ps n (rangeChunks i cs) k = litAux (encodeRunes ps) s i (textOf (cs.take k)).length := by
  have hpl : 0 < ps.length := List.length_pos_iff.2 hp
  have hel : encodeRunes ps ≠ [] := fun h => hp (encodeRunes_eq_nil.1 h)
  have step : ∀ (c : Chunk) (t : Str) (cs : List Chunk), Reads (c.bytes ++ t) (c :: cs) → NoMix ps (c :: cs) → c.bytes ≠ [] →
      (∀ u v, c.bytes = u ++ v → u ≠ [] → v ≠ [] → ¬ encodeRunes ps <+: v ++ t) →
      (∀ (i k n : Nat), n = i + t.length → k ≤ cs.length →
        litRunesAux ps n (rangeChunks i cs) k = litAux (encodeRunes ps) t i (textOf (cs.take k)).length) →
      ∀ (i k n : Nat), n = i + (c.bytes ++ t).length → k ≤ (c :: cs).length →
        litRunesAux ps n (rangeChunks i (c :: cs)) k
          = litAux (encodeRunes ps) (c.bytes ++ t) i (textOf ((c :: cs).take k)).length := by
    intro c t cs hrd hmx hc hin ih i k n hn hk
    have hpass : ∀ k, k ≤ cs.length → litRunesAux ps n (rangeChunks (i + c.bytes.length) cs) k
        = litAux (encodeRunes ps) (c.bytes ++ t) i (textOf ((c :: cs).take (k + 1))).length := by
      intro k hk
      rw [ih (i + c.bytes.length) k n (by simp at hn; omega) hk]
      simp only [List.take_succ_cons, textOf_cons, List.length_append]
      rw [litAux_pass]
    cases k with
    | succ k =>
      simp only [rangeChunks, litRunesAux]
      exact hpass k (by simpa using hk)
    | zero =>
      have hmap : ((i, c.rune) :: rangeChunks (i + c.bytes.length) cs).map (·.2) = (c :: cs).map (·.rune) := by
        simp [rangeChunks_map_snd]
      obtain ⟨p1, p2⟩ := prefix_iff ps hv _ _ hrd hmx
      simp only [rangeChunks, litRunesAux, hmap, List.take_zero, textOf_nil, List.length_nil]
      by_cases hpre : ps <+: (c :: cs).map (·.rune)
      · rw [if_pos (List.isPrefixOf_iff_prefix.2 hpre)]
        have hle : ps.length ≤ (c :: cs).length := by
          obtain ⟨w, hw⟩ := hpre
          have := congrArg List.length hw; simp at this; simp; omega
        have htx := p2 hpre
        have hst := rangeChunks_stop ps.length i n (c :: cs) (by rw [hn, ← hrd.text_eq]) hle
        simp only [rangeChunks] at hst
        rw [hst, htx]
        obtain ⟨q, hq⟩ : ∃ q, ps.length = q + 1 := ⟨ps.length - 1, by omega⟩
        rw [show ps.length - 1 = q by omega, hpass q (by simp at hle; omega), ← hq, htx]
        obtain ⟨b, bs, hb⟩ : ∃ b bs, c.bytes ++ t = b :: bs := by
          cases hcb : c.bytes with
          | nil => exact absurd hcb hc
          | cons b bs => exact ⟨b, bs ++ t, rfl⟩
        have hbyte := p1.2 hpre
        rw [hb] at hbyte ⊢
        obtain ⟨z, hz⟩ : ∃ z, (encodeRunes ps).length = z + 1 :=
          ⟨(encodeRunes ps).length - 1, by have := List.length_pos_iff.2 hel; omega⟩
        rw [litAux, if_pos (List.isPrefixOf_iff_prefix.2 hbyte), hz]
        simp only [litAux, Nat.add_sub_cancel]
      · rw [if_neg (fun h => hpre (List.isPrefixOf_iff_prefix.1 h))]
        rw [ih (i + c.bytes.length) 0 n (by simp at hn; omega) (by omega)]
        simp only [List.take_zero, textOf_nil, List.length_nil]
        rw [litAux_nomatch]
        intro u v huv hvne hpf
        by_cases hu : u = []
        · subst hu
          rw [List.nil_append] at huv
          rw [← huv] at hpf
          exact hpre (p1.1 hpf)
        · exact hin u v huv hu hvne hpf
  have hsub : ∀ (c : Chunk) (cs : List Chunk), NoMix ps (c :: cs) → NoMix ps cs := by
    rintro c cs (hm | hm)
    · exact .inl hm
    · exact .inr fun x hx => hm x (by simp [hx])
  induction h with
  | nil => intro i k n _ _; simp [rangeChunks, litRunesAux, litAux]
  | @rune r t cs hr hrd ih =>
    refine step ⟨encodeRune r, r⟩ t cs (Reads.rune hr hrd) hmix (encodeRune_ne_nil r) ?_ (ih (hsub _ _ hmix))
    intro u v huv hu hvn hpf
    obtain ⟨b, w, hb, -, hw⟩ := encodeRune_bytes r
    obtain ⟨x, xs, rfl⟩ : ∃ x xs, u = x :: xs := by
      cases u with
      | nil => exact absurd rfl hu
      | cons x xs => exact ⟨x, xs, rfl⟩
    obtain ⟨y, ys, rfl⟩ : ∃ y ys, v = y :: ys := by
      cases v with
      | nil => exact absurd rfl hvn
      | cons y ys => exact ⟨y, ys, rfl⟩
    simp only [hb, List.cons_append, List.cons.injEq] at huv
    have hy : isCont y = true := hw y (by rw [huv.2]; simp)
    obtain ⟨p, q, rfl⟩ : ∃ p q, ps = p :: q := by
      cases ps with
      | nil => exact absurd rfl hp
      | cons p q => exact ⟨p, q, rfl⟩
    obtain ⟨b', w', hb', hnc, -⟩ := encodeRune_bytes p
    simp only [encodeRunes, List.flatMap_cons, hb', List.cons_append] at hpf
    have := (List.cons_prefix_cons.1 hpf).1
    rw [this, hy] at hnc
    exact absurd hnc (by simp)
  | @bad b t cs hb hrd ih =>
    refine step ⟨[b], 0xFFFD⟩ t cs (Reads.bad hb hrd) hmix (by simp) ?_ (ih (hsub _ _ hmix))
    intro u v huv hu hvn _
    have := congrArg List.length huv
    have h1 := List.length_pos_iff.2 hu
    have h2 := List.length_pos_iff.2 hvn
    simp at this
    omega

theorem fromStringAny_eq (ps : List Rune) (hv : ∀ r ∈ ps, ValidRune r) (s : Str) (hmix : NoMix ps (chunks s)) :
    fromStringAny ps s = fromStringPattern (encodeRunes ps) s := by
  unfold fromStringAny fromStringPattern
  by_cases hp : ps = []
  · subst hp; simp [encodeRunes]
  · have hel : ¬ (encodeRunes ps).length = 0 := by
      intro h; exact hp (encodeRunes_eq_nil.1 (List.length_eq_zero_iff.1 h))
    rw [if_neg hp, if_neg hel]
    have : litRunesFindAll ps s = litFindAll (encodeRunes ps) s := by
      rw [litRunesFindAll, rangeStr_chunks, litRunes_lit ps hp hv (reads_chunks s) hmix 0 0 _ (by simp) (by simp)]
      rfl
    unfold fromRegexp
    rw [this]

/-- **C91, looking for bytes.**  For a pattern without U+FFFD reading runes and looking for bytes find the
same matches in every text. -/
theorem C91_bytes (ps : List Rune) (hv : ∀ r ∈ ps, ValidRune r ∧ r ≠ 0xFFFD) (s : Str) :
    fromStringAny ps s = fromStringPattern (encodeRunes ps) s :=
  fromStringAny_eq ps (fun r hr => (hv r hr).1) s (.inl fun r hr => (hv r hr).2)

/-- **C91, valid texts.**  On a valid text the pattern may contain U+FFFD. -/
theorem C91_valid (ps : List Rune) (hv : ∀ r ∈ ps, ValidRune r) (s : Str) (hs : ValidUtf8 s) :
    fromStringAny ps s = fromStringPattern (encodeRunes ps) s := by
  refine fromStringAny_eq ps hv s (.inr ?_)
  obtain ⟨rs, hr, rfl⟩ := hs
  have : ∀ rs : List Rune, (∀ r ∈ rs, ValidRune r) →
      Reads (encodeRunes rs) (rs.map fun r => (⟨encodeRune r, r⟩ : Chunk)) := by
    intro rs
    induction rs with
    | nil => intro _; exact Reads.nil
    | cons r rs ih =>
      intro h
      exact Reads.rune (h r (by simp)) (ih fun x hx => h x (by simp [hx]))
  rw [(this rs hr).chunks_eq]
  intro c hc
  obtain ⟨r, -, rfl⟩ := List.mem_map.1 hc
  rfl

/-- **C91, spelling.**  Every match of a pattern without U+FFFD has the bytes of the pattern. -/
theorem C91_spells (ps : List Rune) (hp : ps ≠ []) (hv : ∀ r ∈ ps, ValidRune r ∧ r ≠ 0xFFFD) (s : Str) (hs : s ≠ []) :
    ∃ caps, fromStringAny ps s = .ok (.ok caps) ∧ Tiles caps 0 s.length
      ∧ (∀ c ∈ caps, c.isMatch = true → sub s c.offsets.start c.offsets.stop = encodeRunes ps) := by
  obtain ⟨caps, h1, h2, h3, -⟩ := C91_any_bytes ps hp s hs
  refine ⟨caps, h1, h2, ?_⟩
  intro c hc hm
  obtain ⟨a, g, b, k1, k2, k3, k4⟩ := h3 c hc hm
  have hg : textOf g = encodeRunes ps := by
    rw [← k2]
    have hall : ∀ c ∈ g, c.bytes = encodeRune c.rune := by
      intro c hc
      rcases ((reads_chunks s).chunk c (by rw [k1]; simp [hc])).2.2 with h | h
      · exact h
      · exact absurd h.2 (hv c.rune (by rw [← k2]; exact List.mem_map.2 ⟨c, hc, rfl⟩)).2
    clear k1 k2 k3 k4
    induction g with
    | nil => rfl
    | cons c g ih =>
      rw [textOf_cons, hall c (by simp), ih fun x hx => hall x (by simp [hx])]
      simp [encodeRunes]
  have hst : s = textOf a ++ (textOf g ++ textOf b) := by
    rw [← textOf_chunks s, k1]; simp
  rw [k3, k4, hst, ← hg]
  unfold sub
  have : (((textOf (a ++ g)).length : Int) - ((textOf a).length : Int)).toNat = (textOf g).length := by
    simp only [textOf_append, List.length_append]; omega
  rw [this]
  simp

/-- U+FFFD in the pattern matches a byte that starts no encoding; looking for its bytes does not. -/
theorem C91_replacement :
    fromStringAny [0xFFFD] [0x61, 0xFF, 0x62] = .ok (.ok [⟨⟨0, 1⟩, false⟩, ⟨⟨1, 2⟩, true⟩, ⟨⟨2, 3⟩, false⟩])
      ∧ fromStringPattern (encodeRunes [0xFFFD]) [0x61, 0xFF, 0x62] = .ok (.ok [⟨⟨0, 3⟩, false⟩]) := by
  decide +kernel

example : fromStringAny (runesOf b!"é") ([0xC3] ++ b!"éa" ++ [0xA9] ++ b!"é")
    = .ok (.ok [⟨⟨0, 1⟩, false⟩, ⟨⟨1, 3⟩, true⟩, ⟨⟨3, 5⟩, false⟩, ⟨⟨5, 7⟩, true⟩]) := by decide +kernel

end Verif
