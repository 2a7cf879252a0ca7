import Verif.Spec.SplitMemory
import Verif.Lemmas.Split
import Verif.Lemmas.Word

/-! The loops over slices of splits in memory against those over lists (for C95). -/
set_option autoImplicit false

namespace Verif.SplitMemory

/-- The pointers to tokens in splits. -/
def ptrs (cs : List Cell) : List Nat := cs.filterMap (·.tokens)

theorem mem_ptrs {cs : List Cell} {p : Nat} : p ∈ ptrs cs ↔ ∃ c ∈ cs, c.tokens = some p := by simp [ptrs]

theorem ptrs_append (cs ds : List Cell) : ptrs (cs ++ ds) = ptrs cs ++ ptrs ds := by simp [ptrs]

theorem ptrs_cons_none {c : Cell} (cs : List Cell) (h : c.tokens = none) : ptrs (c :: cs) = ptrs cs := by simp [ptrs, h]

theorem ptrs_cons_some {c : Cell} (cs : List Cell) {p : Nat} (h : c.tokens = some p) : ptrs (c :: cs) = p :: ptrs cs := by
  simp [ptrs, h]

/-- All pointers lead somewhere. -/
def Ok (W : World) (cs : List Cell) : Prop := ∀ p ∈ ptrs cs, p < W.toks.length

theorem Ok.append {W : World} {cs ds : List Cell} (h : Ok W cs) (h' : Ok W ds) : Ok W (cs ++ ds) := by
  intro p hp
  rw [ptrs_append, List.mem_append] at hp
  exact hp.elim (h p) (h' p)

theorem Ok.cons {W : World} {c : Cell} {cs : List Cell} (h : Ok W (c :: cs)) : Ok W cs := by
  intro p hp
  obtain ⟨d, hd, he⟩ := mem_ptrs.1 hp
  exact h p (mem_ptrs.2 ⟨d, by simp [hd], he⟩)

theorem Ok.mono {W W' : World} {cs : List Cell} (h : Ok W cs) (hl : W.toks.length ≤ W'.toks.length) : Ok W' cs :=
  fun p hp => Nat.lt_of_lt_of_le (h p hp) hl

/-- Tokens are added. -/
def More (W W' : World) : Prop := ∃ new, W'.toks = W.toks ++ new

theorem More.refl (W : World) : More W W := ⟨[], by simp⟩

theorem More.trans {W W' W'' : World} (h : More W W') (h' : More W' W'') : More W W'' := by
  obtain ⟨a, ha⟩ := h
  obtain ⟨b, hb⟩ := h'
  exact ⟨a ++ b, by rw [hb, ha, List.append_assoc]⟩

theorem More.length {W W' : World} (h : More W W') : W.toks.length ≤ W'.toks.length := by
  obtain ⟨a, ha⟩ := h
  rw [ha]; simp

theorem More.get {W W' : World} (h : More W W') {p : Nat} (hp : p < W.toks.length) : W'.toks[p]? = W.toks[p]? := by
  obtain ⟨a, ha⟩ := h
  rw [ha, List.getElem?_append_left hp]

theorem More.look {W W' : World} (h : More W W') {cs : List Cell} (hc : Ok W cs) :
    cs.map (look W') = cs.map (SplitMemory.look W) := by
  apply List.map_congr_left
  intro c hc'
  unfold SplitMemory.look
  cases ht : c.tokens with
  | none => rfl
  | some p => simp only [Option.bind_some, h.get (hc p (mem_ptrs.2 ⟨c, hc', ht⟩))]

theorem look_tokens {W : World} {c : Cell} {cs : List Cell} (h : Ok W (c :: cs)) :
    (look W c).tokens.isSome = c.tokens.isSome := by
  unfold look
  cases ht : c.tokens with
  | none => rfl
  | some p =>
    have := h p (mem_ptrs.2 ⟨c, by simp, ht⟩)
    simp [List.getElem?_eq_getElem this]

/-- Nothing but strings and tokens is different. -/
structure Ext (W W' : World) : Prop where
  arrs : W'.arrs = W.arrs
  objs : W'.objs = W.objs
  more : More W W'

theorem Ext.refl (W : World) : Ext W W := ⟨rfl, rfl, .refl W⟩

theorem Ext.trans {W W' W'' : World} (h : Ext W W') (h' : Ext W' W'') : Ext W W'' :=
  ⟨h'.arrs.trans h.arrs, h'.objs.trans h.objs, h.more.trans h'.more⟩

theorem allocTokens_spec (rs : List Ref) : ∀ (W : World), ∃ W' cs, allocTokens W rs = (W', cs) ∧ Ext W W' ∧ W'.strs = W.strs
    ∧ cs.map (look W') = rs ∧ Ok W' cs ∧ (∀ p ∈ ptrs cs, W.toks.length ≤ p) ∧ (ptrs cs).Nodup := by
  induction rs with
  | nil => intro W; exact ⟨W, [], rfl, .refl W, rfl, rfl, by simp [Ok, ptrs], by simp [ptrs], by simp [ptrs]⟩
  | cons r rs ih =>
    intro W
    unfold allocTokens
    cases ht : r.tokens with
    | none =>
      obtain ⟨W', cs, e, hx, hs, hl, ho, hp, hn⟩ := ih W
      refine ⟨W', ⟨r.addr, none⟩ :: cs, by simp [e], hx, hs, ?_, ?_, ?_, ?_⟩
      · rw [List.map_cons, hl]
        simp [look, ← ht]
      all_goals (first | unfold Ok | skip); rw [ptrs_cons_none _ rfl]
      · exact ho
      · exact hp
      · exact hn
    | some ts =>
      obtain ⟨W', cs, e, hx, hs, hl, ho, hp, hn⟩ := ih { W with toks := W.toks ++ [ts] }
      have hm : More W { W with toks := W.toks ++ [ts] } := ⟨[ts], rfl⟩
      have hlt := hx.more.length
      simp only [List.length_append, List.length_singleton] at hlt hp
      have hg : W'.toks[W.toks.length]? = some ts := by
        rw [hx.more.get (by simp)]; simp
      refine ⟨W', ⟨r.addr, some W.toks.length⟩ :: cs, by simp [e], ⟨hx.arrs, hx.objs, hm.trans hx.more⟩, hs, ?_, ?_, ?_, ?_⟩
      · rw [List.map_cons, hl]
        simp [look, hg, ← ht]
      · unfold Ok
        rw [ptrs_cons_some _ rfl]
        intro p hm
        rcases List.mem_cons.1 hm with rfl | hm
        · omega
        · exact ho p hm
      · rw [ptrs_cons_some _ rfl]
        intro p hm
        rcases List.mem_cons.1 hm with rfl | hm
        · omega
        · have := hp p hm; omega
      · rw [ptrs_cons_some _ rfl, List.nodup_cons]
        exact ⟨fun hm => by have := hp _ hm; omega, hn⟩

theorem appendItems_spec (W : World) (σ : Store) (items : List Cell) : ∀ new : List Cell,
    match RefPTS.keepItems σ (items.map (look W)) with
    | .panic => appendItems σ new items = .panic
    | .ok rs => ∃ cs, appendItems σ new items = .ok (new ++ cs) ∧ cs.map (look W) = rs ∧ cs.Sublist items := by
  induction items with
  | nil => intro new; exact ⟨[], by simp [appendItems], rfl, .slnil⟩
  | cons c items ih =>
    intro new
    simp only [List.map_cons, RefPTS.keepItems, appendItems, look]
    cases hl : σ.load c.addr with
    | panic => simp
    | ok ns =>
      simp only [GoM.bind_ok]
      have hn := ih new
      have hy := ih (new ++ [c])
      cases hk : RefPTS.keepItems σ (items.map (look W)) with
      | panic =>
        rw [hk] at hn hy
        simp only at hn hy
        simp only [GoM.bind_panic]
        split <;> assumption
      | ok rs =>
        rw [hk] at hn hy
        obtain ⟨cs, e1, e2, e3⟩ := hn
        obtain ⟨cs', e1', e2', e3'⟩ := hy
        by_cases he : ns.isEmpty
        · simp only [GoM.bind_ok, GoM.pure_eq, he, if_true]
          exact ⟨cs, e1, e2, e3.cons _⟩
        · simp only [GoM.bind_ok, GoM.pure_eq, he]
          refine ⟨c :: cs', by simpa using e1', ?_, e3'.cons_cons _⟩
          rw [List.map_cons, e2']
          rfl

theorem Sublist_ptrs {cs ds : List Cell} (h : cs.Sublist ds) : (ptrs cs).Sublist (ptrs ds) := h.filterMap _

theorem readAt_spec {W : World} {s : Slc} {a : List Cell} {i : Nat} {c : Cell} {rest : List Cell} (ha : W.arrs[s.arr]? = some a)
    (hl : a.length = s.len) (hd : a.drop i = c :: rest) : readAt W s i = .ok c := by
  unfold readAt
  rw [ha, Option.getD_some, ← hl, List.take_length]
  apply goIndex_some
  rw [← List.head?_drop, hd]
  rfl

theorem drop_next {α : Type} {a rest : List α} {i : Nat} {c : α} (hd : a.drop i = c :: rest) : a.drop (i + 1) = rest := by
  rw [← List.drop_drop, hd]; rfl

theorem splitLoop_spec (F : RefSplitFunc) (s : Slc) (a : List Cell) (hl : a.length = s.len) (rest : List Cell) :
    ∀ (i : Nat) (W : World) (new : List Cell), W.arrs[s.arr]? = some a → a.drop i = rest → Ok W rest → (ptrs rest).Nodup →
    match RefPTS.splitLoop F i (rest.map (look W)) W.strs with
    | .panic => splitLoop (onStrings F) s rest.length i new W = .panic
    | .ok (σ, .error e) => ∃ W', splitLoop (onStrings F) s rest.length i new W = .ok (W', .error e) ∧ Ext W W' ∧ W'.strs = σ
    | .ok (σ, .ok rs) => ∃ W' cs, splitLoop (onStrings F) s rest.length i new W = .ok (W', .ok (new ++ cs)) ∧ Ext W W'
        ∧ W'.strs = σ ∧ cs.map (look W') = rs ∧ Ok W' cs ∧ (ptrs cs).Nodup
        ∧ ∀ p ∈ ptrs cs, p ∈ ptrs rest ∨ W.toks.length ≤ p := by
  induction rest with
  | nil =>
    intro i W new ha hd ho hn
    exact ⟨W, [], by simp [splitLoop], .refl W, rfl, rfl, ho, hn, by simp [ptrs]⟩
  | cons c rest ih =>
    intro i W new ha hd ho hn
    have ht := look_tokens ho
    simp only [List.map_cons, List.length_cons, splitLoop, readAt_spec ha hl hd, GoM.bind_ok]
    unfold RefPTS.splitLoop
    cases hc : c.tokens with
    | some p =>
      rw [hc] at ht
      rw [ptrs_cons_some _ hc, List.nodup_cons] at hn
      obtain ⟨ts, hts⟩ := Option.isSome_iff_exists.1 ht
      rw [hts]
      simp only
      have := ih (i + 1) W (new ++ [c]) ha (drop_next hd) ho.cons hn.2
      cases hr : RefPTS.splitLoop F (i + 1) (rest.map (look W)) W.strs with
      | panic => rw [hr] at this; exact this
      | ok x =>
        obtain ⟨σ, e | rs⟩ := x
        · rw [hr] at this; exact this
        · rw [hr] at this
          obtain ⟨W', cs, e1, hx, hs, hm, ho', hn', hp⟩ := this
          have hcv : p < W.toks.length := ho p (mem_ptrs.2 ⟨c, by simp, hc⟩)
          refine ⟨W', c :: cs, by simpa using e1, hx, hs, ?_, ?_, ?_, ?_⟩
          · have h1 : Ok W [c] := by
              intro q hq
              obtain ⟨d, hd, he⟩ := mem_ptrs.1 hq
              exact ho q (mem_ptrs.2 ⟨d, by simpa using .inl (List.mem_singleton.1 hd), he⟩)
            have := hx.more.look h1
            simp only [List.map_cons, List.map_nil, List.cons.injEq, and_true] at this
            rw [List.map_cons, hm, this]
          · intro q hq
            rw [ptrs_cons_some _ hc] at hq
            rcases List.mem_cons.1 hq with rfl | hq
            · exact Nat.lt_of_lt_of_le hcv hx.more.length
            · exact ho' q hq
          · rw [ptrs_cons_some _ hc, List.nodup_cons]
            refine ⟨fun hq => ?_, hn'⟩
            rcases hp p hq with h | h
            · exact hn.1 h
            · omega
          · intro q hq
            rw [ptrs_cons_some _ hc] at hq ⊢
            rcases List.mem_cons.1 hq with rfl | hq
            · exact .inl (by simp)
            · exact (hp q hq).imp (List.mem_cons_of_mem _) id
    | none =>
      rw [hc] at ht
      rw [ptrs_cons_none _ hc] at hn
      have hts : (look W c).tokens = none := by simpa using ht
      rw [hts]
      simp only [onStrings]
      have haddr : (look W c).addr = c.addr := rfl
      rw [haddr]
      cases hF : F i c.addr W.strs with
      | panic => simp
      | ok x =>
        obtain ⟨σ, e | items⟩ := x
        · simp only [GoM.bind_ok, GoM.pure_eq]
          exact ⟨_, rfl, ⟨rfl, rfl, ⟨[], by simp⟩⟩, rfl⟩
        · simp only [GoM.bind_ok, GoM.pure_eq]
          obtain ⟨W1, cs1, e1, hx1, hs1, hm1, ho1, hp1, hn1⟩ := allocTokens_spec items { W with strs := σ }
          have hx1' : Ext W W1 := ⟨hx1.arrs, hx1.objs, hx1.more⟩
          rw [e1]
          simp only
          have hk := appendItems_spec W1 σ cs1 new
          rw [hm1] at hk
          rw [hs1]
          cases hk' : RefPTS.keepItems σ items with
          | panic => rw [hk'] at hk; simp only at hk; simp [hk]
          | ok kept =>
            rw [hk'] at hk
            obtain ⟨ks, k1, k2, k3⟩ := hk
            simp only [GoM.bind_ok, k1]
            have ho2 : Ok W1 rest := ho.cons.mono hx1'.more.length
            have := ih (i + 1) W1 (new ++ ks) (by rw [hx1'.arrs]; exact ha) (drop_next hd) ho2 hn
            rw [hx1'.more.look ho.cons, hs1] at this
            cases hr : RefPTS.splitLoop F (i + 1) (rest.map (look W)) σ with
            | panic => rw [hr] at this; simpa using this
            | ok y =>
              obtain ⟨σ', e | rs⟩ := y
              · rw [hr] at this
                obtain ⟨W', e2, hx, hs⟩ := this
                exact ⟨W', e2, hx1'.trans hx, hs⟩
              · rw [hr] at this
                obtain ⟨W', cs, e2, hx, hs, hm, ho', hn', hp⟩ := this
                have hks : Ok W1 ks := fun q hq => ho1 q ((Sublist_ptrs k3).subset hq)
                have hlen := hx1'.more.length
                refine ⟨W', ks ++ cs, by simpa using e2, hx1'.trans hx, hs, ?_, (hks.mono hx.more.length).append ho', ?_, ?_⟩
                · rw [List.map_append, hm, hx.more.look hks, k2]
                · rw [ptrs_append, List.nodup_append]
                  refine ⟨hn1.sublist (Sublist_ptrs k3), hn', fun q hq q' hq' => ?_⟩
                  rintro rfl
                  have h1 := hp1 q ((Sublist_ptrs k3).subset hq)
                  have h2 := hks q hq
                  rcases hp q hq' with h | h
                  · have := ho.cons q h
                    simp only at h1; omega
                  · omega
                · intro q hq
                  rw [ptrs_append, List.mem_append] at hq
                  rw [ptrs_cons_none _ hc]
                  rcases hq with hq | hq
                  · exact .inr (hp1 q ((Sublist_ptrs k3).subset hq))
                  · exact (hp q hq).imp id (Nat.le_trans hlen)

theorem normalizeLoop_spec (N : RefNormalizeFunc) (s : Slc) (a : List Cell) (hl : a.length = s.len) (rest : List Cell) :
    ∀ (i : Nat) (W : World), W.arrs[s.arr]? = some a → a.drop i = rest → Ok W rest →
    match RefPTS.normalizeLoop N (rest.map (look W)) W.strs with
    | .panic => normalizeLoop (normalizeOnStrings N) s rest.length i W = .panic
    | .ok (σ, e) => normalizeLoop (normalizeOnStrings N) s rest.length i W = .ok ({ W with strs := σ }, e) := by
  induction rest with
  | nil => intro i W ha hd ho; rfl
  | cons c rest ih =>
    intro i W ha hd ho
    have ht := look_tokens ho
    simp only [List.map_cons, List.length_cons, normalizeLoop, readAt_spec ha hl hd, GoM.bind_ok]
    unfold RefPTS.normalizeLoop
    cases hc : c.tokens with
    | some p =>
      rw [hc] at ht
      obtain ⟨ts, hts⟩ := Option.isSome_iff_exists.1 ht
      rw [hts]
      exact ih (i + 1) W ha (drop_next hd) ho.cons
    | none =>
      rw [hc] at ht
      have hts : (look W c).tokens = none := by simpa using ht
      rw [hts]
      have haddr : (look W c).addr = c.addr := rfl
      simp only [normalizeOnStrings, haddr]
      cases hN : N c.addr W.strs with
      | panic => simp
      | ok x =>
        obtain ⟨σ, _ | e⟩ := x
        · simp only [GoM.bind_ok, GoM.pure_eq]
          exact ih (i + 1) { W with strs := σ } ha (drop_next hd) ho.cons
        · simp only [GoM.bind_ok, GoM.pure_eq]

theorem writeTokens_spec {W : World} {s : Slc} {a : List Cell} {i : Nat} {c : Cell} {rest : List Cell} (p : Nat)
    (ha : W.arrs[s.arr]? = some a) (hl : a.length = s.len) (hd : a.drop i = c :: rest) :
    writeTokens W s i p = .ok { W with arrs := W.arrs.set s.arr (a.set i { c with tokens := some p }) } := by
  unfold writeTokens
  rw [readAt_spec ha hl hd]
  simp only [GoM.bind_ok, GoM.pure_eq, GoM.ok.injEq, World.mk.injEq, true_and, and_true]
  rw [List.modify_eq_set, ha]
  rfl

theorem tokenizeLoop_spec (k : Nat) (t : NS → GoM (Except Err (List Token))) (s : Slc) (P : Obj) (hP : P.splits = s) (rest : List Cell) :
    ∀ (i : Nat) (W : World) (a : List Cell), a.length = s.len → W.objs[k]? = some P → W.arrs[s.arr]? = some a → a.drop i = rest →
      Ok W rest → (ptrs rest).Nodup →
    match RefPTS.tokenizeLoop t W.strs (rest.map (look W)) with
    | .panic => tokenizeLoop k (tokenizeOnStrings t) s rest.length i W = .panic
    | .ok (rs, e) => ∃ toks cs, tokenizeLoop k (tokenizeOnStrings t) s rest.length i W
          = .ok ({ W with toks := toks, arrs := W.arrs.set s.arr (a.take i ++ cs) }, e)
        ∧ More W { W with toks := toks } ∧ cs.map (look { W with toks := toks }) = rs ∧ cs.length = rest.length
        ∧ Ok { W with toks := toks } cs ∧ (ptrs cs).Nodup ∧ ∀ p ∈ ptrs cs, p ∈ ptrs rest ∨ W.toks.length ≤ p := by
  induction rest with
  | nil =>
    intro i W a hl hk ha hd ho hn
    refine ⟨W.toks, [], ?_, .refl W, rfl, rfl, ho, hn, by simp [ptrs]⟩
    have : a.take i = a := by
      apply List.take_of_length_le
      have := congrArg List.length hd
      simp at this; omega
    rw [List.append_nil, this]
    have : W.arrs.set s.arr a = W.arrs := by
      obtain ⟨h, e⟩ := List.getElem?_eq_some_iff.1 ha
      rw [← e]; simp
    rw [this]
    rfl
  | cons c rest ih =>
    intro i W a hl hk ha hd ho hn
    have ht := look_tokens ho
    have hi : i < a.length := by
      have := congrArg List.length hd
      simp at this; omega
    have hai : a[i]? = some c := by rw [← List.head?_drop, hd]; rfl
    have htake : ∀ (b : List Cell) (x : Cell), b[i]? = some x → b.take (i + 1) = b.take i ++ [x] := by
      intro b x hb
      rw [List.take_add_one, hb]; rfl
    simp only [List.map_cons, List.length_cons, tokenizeLoop, readAt_spec ha hl hd, GoM.bind_ok]
    unfold RefPTS.tokenizeLoop
    cases hc : c.tokens with
    | some p =>
      rw [hc] at ht
      rw [ptrs_cons_some _ hc, List.nodup_cons] at hn
      obtain ⟨ts, hts⟩ := Option.isSome_iff_exists.1 ht
      rw [hts]
      simp only
      have := ih (i + 1) W a hl hk ha (drop_next hd) ho.cons hn.2
      cases hr : RefPTS.tokenizeLoop t W.strs (rest.map (look W)) with
      | panic => rw [hr] at this; exact this
      | ok x =>
        obtain ⟨rs, e⟩ := x
        rw [hr] at this
        obtain ⟨toks, cs, e1, hm, hlk, hlen, ho', hn', hp⟩ := this
        have hcv : p < W.toks.length := ho p (mem_ptrs.2 ⟨c, by simp, hc⟩)
        have h1 : Ok W [c] := by
          intro q hq
          obtain ⟨d, hd, he⟩ := mem_ptrs.1 hq
          exact ho q (mem_ptrs.2 ⟨d, by simpa using .inl (List.mem_singleton.1 hd), he⟩)
        refine ⟨toks, c :: cs, ?_, hm, ?_, by simp [hlen], ?_, ?_, ?_⟩
        · rw [e1, htake a c hai]; simp
        · have := hm.look h1
          simp only [List.map_cons, List.map_nil, List.cons.injEq, and_true] at this
          rw [List.map_cons, hlk, this]
        · intro q hq
          rw [ptrs_cons_some _ hc] at hq
          rcases List.mem_cons.1 hq with rfl | hq
          · exact Nat.lt_of_lt_of_le hcv hm.length
          · exact ho' q hq
        · rw [ptrs_cons_some _ hc, List.nodup_cons]
          refine ⟨fun hq => ?_, hn'⟩
          rcases hp p hq with h | h
          · exact hn.1 h
          · omega
        · intro q hq
          rw [ptrs_cons_some _ hc] at hq ⊢
          rcases List.mem_cons.1 hq with rfl | hq
          · exact .inl (by simp)
          · exact (hp q hq).imp (List.mem_cons_of_mem _) id
    | none =>
      rw [hc] at ht
      rw [ptrs_cons_none _ hc] at hn
      have hts : (look W c).tokens = none := by simpa using ht
      rw [hts]
      have haddr : (look W c).addr = c.addr := rfl
      simp only [tokenizeOnStrings, haddr]
      cases hL : W.strs.load c.addr with
      | panic => simp
      | ok ns =>
        simp only [GoM.bind_ok]
        cases hT : t ns with
        | panic => simp
        | ok r =>
          cases r with
          | error e =>
            simp only [GoM.bind_ok, GoM.pure_eq]
            refine ⟨W.toks, c :: rest, ?_, .refl W, ?_, rfl, ho, by rw [ptrs_cons_none _ hc]; exact hn, fun p hp => .inl hp⟩
            · rw [← hd, List.take_append_drop]
              have : W.arrs.set s.arr a = W.arrs := by
                obtain ⟨h, e⟩ := List.getElem?_eq_some_iff.1 ha
                rw [← e]; simp
              rw [this]
            · rfl
          | ok ts =>
            simp only [GoM.bind_ok, GoM.pure_eq]
            rw [show getObj W k = .ok P from goIndex_some hk]
            simp only [GoM.bind_ok, hP]
            rw [writeTokens_spec (W := { W with toks := W.toks ++ [ts] }) W.toks.length ha hl hd]
            simp only [GoM.bind_ok]
            let c' : Cell := { c with tokens := some W.toks.length }
            let W1 : World := { W with toks := W.toks ++ [ts], arrs := W.arrs.set s.arr (a.set i c') }
            have hm1 : More W W1 := ⟨[ts], rfl⟩
            have hs : s.arr < W.arrs.length := (List.getElem?_eq_some_iff.1 ha).1
            have := ih (i + 1) W1 (a.set i c') (by simpa using hl) hk (by simp [W1, hs])
              (by rw [List.drop_set_of_lt (by omega)]; exact drop_next hd) (ho.cons.mono hm1.length) hn
            rw [hm1.look ho.cons] at this
            change match RefPTS.tokenizeLoop t W.strs (rest.map (look W)) with
              | .panic => tokenizeLoop k (tokenizeOnStrings t) s rest.length (i + 1) W1 = .panic
              | .ok (rs, e) => _ at this
            cases hr : RefPTS.tokenizeLoop t W.strs (rest.map (look W)) with
            | panic => rw [hr] at this; simpa using this
            | ok x =>
              obtain ⟨rs, e⟩ := x
              rw [hr] at this
              obtain ⟨toks, cs, e1, hm, hlk, hlen, ho', hn', hp⟩ := this
              simp only [GoM.bind_ok]
              have hm' : More W { W with toks := toks } := hm1.trans hm
              have hnew : toks[W.toks.length]? = some ts := by
                have := hm.get (p := W.toks.length) (by simp [W1])
                rw [show toks[W.toks.length]? = _ from this]
                simp [W1]
              have hl1 := hm.length
              simp only [W1, List.length_append, List.length_singleton] at hl1 hp
              refine ⟨toks, c' :: cs, ?_, hm', ?_, by simp [hlen], ?_, ?_, ?_⟩
              · change tokenizeLoop k _ s rest.length (i + 1) W1 = _
                rw [e1, htake (a.set i c') c' (by simp [hi]), List.take_set_of_le (Nat.le_refl i)]
                simp [W1]
              · rw [List.map_cons]
                congr 1
                simp [look, c', hnew]
              · intro q hq
                rw [ptrs_cons_some _ rfl] at hq
                rcases List.mem_cons.1 hq with rfl | hq
                · simp only; omega
                · exact ho' q hq
              · rw [ptrs_cons_some _ rfl, List.nodup_cons]
                refine ⟨fun hq => ?_, hn'⟩
                rcases hp _ hq with h | h
                · exact Nat.lt_irrefl _ (ho.cons _ h)
                · omega
              · intro q hq
                rw [ptrs_cons_some _ rfl] at hq
                rw [ptrs_cons_none _ hc]
                rcases List.mem_cons.1 hq with rfl | hq
                · exact .inr (Nat.le_refl _)
                · exact (hp q hq).imp id (by omega)

/-! ## Reading -/

theorem derefTokens_spec {W : World} {c : Cell} {cs : List Cell} (h : Ok W (c :: cs)) (hc : c.tokens.isSome) :
    derefTokens W c = .ok ((look W c).tokens.getD []) := by
  obtain ⟨p, hp⟩ := Option.isSome_iff_exists.1 hc
  have := h p (mem_ptrs.2 ⟨c, by simp, hp⟩)
  simp [derefTokens, look, hp, goIndex_nat this, List.getElem?_eq_getElem this]

theorem tokensOf_spec {W : World} {c : Cell} {cs : List Cell} (h : Ok W (c :: cs)) : tokensOf W c = .ok (look W c).tokens := by
  cases hc : c.tokens with
  | none => simp [tokensOf, look, hc]
  | some p =>
    have := h p (mem_ptrs.2 ⟨c, by simp, hc⟩)
    simp [tokensOf, look, hc, goIndex_nat this, List.getElem?_eq_getElem this]

theorem allSplitsHaveTokens_spec {W : World} {s : Slc} {a : List Cell} (ha : W.arrs[s.arr]? = some a) (hl : a.length = s.len)
    (rest : List Cell) : ∀ i, a.drop i = rest → allSplitsHaveTokens W s rest.length i = .ok (rest.all fun c => c.tokens.isSome) := by
  induction rest with
  | nil => intro i _; rfl
  | cons c rest ih =>
    intro i hd
    simp only [List.length_cons, allSplitsHaveTokens, readAt_spec ha hl hd, GoM.bind_ok, List.all_cons]
    cases hc : c.tokens with
    | none => simp
    | some p => simpa using ih (i + 1) (drop_next hd)

theorem encodeSplits_spec {W : World} {s : Slc} {a : List Cell} (ha : W.arrs[s.arr]? = some a) (hl : a.length = s.len) (w ty : Int)
    (rest : List Cell) : ∀ i, a.drop i = rest → Ok W rest → (rest.all fun c => c.tokens.isSome) = true →
      encodeSplits W s w ty rest.length i = RefPTS.encodeSplits W.strs w ty i (rest.map (look W)) := by
  induction rest with
  | nil => intro i _ _ _; rfl
  | cons c rest ih =>
    intro i hd ho hall
    simp only [List.all_cons, Bool.and_eq_true] at hall
    simp only [List.length_cons, encodeSplits, readAt_spec ha hl hd, GoM.bind_ok, List.map_cons, RefPTS.encodeSplits,
      derefTokens_spec ho hall.1, ih (i + 1) (drop_next hd) ho.cons hall.2]
    rfl

theorem originalByteSplits_spec {W : World} {s : Slc} {a : List Cell} (ha : W.arrs[s.arr]? = some a) (hl : a.length = s.len)
    (rest : List Cell) : ∀ i, a.drop i = rest → Ok W rest →
      originalByteSplits W s rest.length i = RefPTS.originalByteSplitsLoop W.strs (rest.map (look W)) := by
  induction rest with
  | nil => intro i _ _; rfl
  | cons c rest ih =>
    intro i hd ho
    simp only [List.length_cons, originalByteSplits, readAt_spec ha hl hd, GoM.bind_ok, List.map_cons, RefPTS.originalByteSplitsLoop,
      tokensOf_spec ho, ih (i + 1) (drop_next hd) ho.cons]
    rfl

theorem normalizedByteSplits_spec {W : World} {s : Slc} {a : List Cell} (ha : W.arrs[s.arr]? = some a) (hl : a.length = s.len)
    (rest : List Cell) : ∀ i offset, a.drop i = rest → Ok W rest →
      normalizedByteSplits W s rest.length i offset = RefPTS.normalizedByteSplitsLoop W.strs (rest.map (look W)) offset := by
  induction rest with
  | nil => intro i _ _ _; rfl
  | cons c rest ih =>
    intro i offset hd ho
    simp only [List.length_cons, normalizedByteSplits, readAt_spec ha hl hd, GoM.bind_ok, List.map_cons, RefPTS.normalizedByteSplitsLoop,
      tokensOf_spec ho, ih (i + 1) _ (drop_next hd) ho.cons]
    rfl

end Verif.SplitMemory
