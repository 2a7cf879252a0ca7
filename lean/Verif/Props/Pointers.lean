import Verif.Spec.Pointers
import Verif.Model.Notation
import Verif.Lemmas.Split

/-! Property C74: the model by values is exact for the pointers of the Go code. -/

set_option autoImplicit false

namespace Verif

theorem StoreKeeps.refl (σ : Store) (as : List Nat) : StoreKeeps σ σ as := ⟨Nat.le_refl _, fun _ _ _ => rfl⟩

theorem StoreKeeps.trans {σ σ' σ'' : Store} {as bs cs : List Nat} (h : StoreKeeps σ σ' as) (h' : StoreKeeps σ' σ'' bs)
    (ha : ∀ a ∈ as, a ∈ cs) (hb : ∀ b ∈ bs, b ∈ cs ∨ σ.length ≤ b) : StoreKeeps σ σ'' cs := by
  refine ⟨Nat.le_trans h.grows h'.grows, fun b hb1 hb2 => ?_⟩
  rw [h'.same b (Nat.lt_of_lt_of_le hb1 h.grows), h.same b hb1 (fun hm => hb2 (ha b hm))]
  intro hm
  rcases hb b hm with h | h
  · exact hb2 h
  · omega

theorem StoreKeeps.mono {σ σ' : Store} {as bs : List Nat} (h : StoreKeeps σ σ' as) (ha : ∀ a ∈ as, a ∈ bs) : StoreKeeps σ σ' bs :=
  ⟨h.grows, fun b h1 h2 => h.same b h1 fun hm => h2 (ha b hm)⟩

theorem PointsTo.lt {σ : Store} {r : Ref} {q : Piece} (h : PointsTo σ r q) : r.addr < σ.length := by
  obtain ⟨hl, -⟩ := List.getElem?_eq_some_iff.1 h.1
  exact hl

theorem pointsTo_lt {σ : Store} {rs : List Ref} {qs : List Piece} (h : All2 (PointsTo σ) rs qs) :
    ∀ r ∈ rs, r.addr < σ.length := by
  induction h with
  | nil => simp
  | cons h1 _ ih =>
    intro r hr
    rcases List.mem_cons.1 hr with rfl | hr
    · exact h1.lt
    · exact ih r hr

theorem StoreKeeps.holds {σ σ' : Store} {as : List Nat} (h : StoreKeeps σ σ' as) {r : Ref} {q : Piece} (hr : PointsTo σ r q)
    (ha : r.addr ∉ as) : PointsTo σ' r q := ⟨by rw [h.same _ hr.lt ha]; exact hr.1, hr.2⟩

theorem StoreKeeps.all {σ σ' : Store} {as : List Nat} (h : StoreKeeps σ σ' as) {rs : List Ref} {qs : List Piece}
    (hr : All2 (PointsTo σ) rs qs) (ha : ∀ r ∈ rs, r.addr ∉ as) : All2 (PointsTo σ') rs qs := by
  induction hr with
  | nil => exact .nil
  | cons h1 _ ih => exact .cons (h.holds h1 (ha _ (by simp))) (ih fun r hr => ha r (by simp [hr]))

theorem Store.load_eq {σ : Store} {a : Nat} {ns : NS} (h : σ[a]? = some ns) : σ.load a = .ok ns := by
  unfold Store.load; rw [h]

/-! ## `Split` -/

theorem RefPTS.keepItems_spec {σ : Store} {rs : List Ref} {qs : List Piece} (h : All2 (PointsTo σ) rs qs) :
    ∃ rs', RefPTS.keepItems σ rs = .ok rs' ∧ All2 (PointsTo σ) rs' (qs.filter fun it => !it.ns.isEmpty)
      ∧ rs'.Sublist rs := by
  induction h with
  | nil => exact ⟨[], rfl, .nil, .slnil⟩
  | @cons r q rs qs h1 _ ih =>
    obtain ⟨rs', e1, e2, e3⟩ := ih
    unfold RefPTS.keepItems
    rw [Store.load_eq h1.1]
    simp only [GoM.bind_ok, e1]
    by_cases he : q.ns.isEmpty
    · exact ⟨rs', by simp [he], by simpa [he] using e2, e3.cons _⟩
    · exact ⟨r :: rs', by simp [he], by simpa [he] using All2.cons h1 e2, e3.cons_cons _⟩

theorem RefPTS.splitLoop_spec {F : RefSplitFunc} {f : SplitFunc} (hF : Implements F f) (i : Nat) (σ : Store)
    (rs : List Ref) (ps : List Piece) (h : All2 (PointsTo σ) rs ps) (hd : (rs.map fun r => r.addr).Nodup) :
    match PTS.splitLoop f i ps with
    | .panic => RefPTS.splitLoop F i rs σ = .panic
    | .ok (old, .error e) => ∃ σ', RefPTS.splitLoop F i rs σ = .ok (σ', .error e)
        ∧ StoreKeeps σ σ' (rs.map fun r => r.addr) ∧ All2 (PointsTo σ') rs old
    | .ok (old, .ok qs) => ∃ σ' rs', RefPTS.splitLoop F i rs σ = .ok (σ', .ok rs')
        ∧ StoreKeeps σ σ' (rs.map fun r => r.addr) ∧ All2 (PointsTo σ') rs old
        ∧ All2 (PointsTo σ') rs' qs ∧ (rs'.map fun r => r.addr).Nodup
        ∧ ∀ a ∈ rs'.map (fun r => r.addr), a ∈ rs.map (fun r => r.addr) ∨ σ.length ≤ a := by
  induction rs generalizing i σ ps with
  | nil =>
    cases h
    exact ⟨σ, [], rfl, StoreKeeps.refl _ _, .nil, .nil, by simp, by simp⟩
  | cons r rs ih =>
    cases h with
    | @cons _ p _ ps h1 h2 =>
    simp only [List.map_cons, List.nodup_cons] at hd
    obtain ⟨hd1, hd2⟩ := hd
    unfold PTS.splitLoop RefPTS.splitLoop
    cases ht : p.tokens with
    | some ts =>
      rw [h1.2, ht]
      simp only
      have := ih (i + 1) σ ps h2 hd2
      cases hv : PTS.splitLoop f (i + 1) ps with
      | panic => rw [hv] at this; simp only at this; simp [this]
      | ok x =>
        obtain ⟨old, new⟩ := x
        rw [hv] at this
        cases new with
        | error e =>
          obtain ⟨σ', e1, e2, e3⟩ := this
          simp only [GoM.bind_ok, GoM.pure_eq]
          exact ⟨σ', by simp [e1], e2.mono (by simp +contextual), .cons (e2.holds h1 hd1) e3⟩
        | ok qs =>
          obtain ⟨σ', rs', e1, e2, e3, e4, e5, e6⟩ := this
          simp only [GoM.bind_ok, GoM.pure_eq]
          refine ⟨σ', r :: rs', by simp [e1], e2.mono (by simp +contextual), .cons (e2.holds h1 hd1) e3,
            .cons (e2.holds h1 hd1) e4, ?_, ?_⟩
          · simp only [List.map_cons, List.nodup_cons]
            refine ⟨fun hm => ?_, e5⟩
            rcases e6 _ hm with h | h
            · exact hd1 h
            · have := h1.lt; omega
          · intro a ha
            simp only [List.map_cons, List.mem_cons] at ha ⊢
            rcases ha with rfl | ha
            · exact .inl (.inl rfl)
            · exact (e6 a ha).imp .inr id
    | none =>
      rw [h1.2, ht]
      simp only
      have hf := hF i r.addr σ p.ns h1.1
      cases hv : f i p.ns with
      | panic => rw [hv] at hf; simp only at hf; simp [hf]
      | ok x =>
        obtain ⟨ns', res⟩ := x
        rw [hv] at hf
        cases res with
        | error e =>
          obtain ⟨σ1, e1, e2, e3⟩ := hf
          simp only [GoM.bind_ok, GoM.pure_eq]
          refine ⟨σ1, by simp [e1], e2.mono (by simp), .cons ⟨e3, h1.2.trans ht⟩ (e2.all h2 ?_)⟩
          intro r' hr' hm
          simp at hm
          exact hd1 (hm ▸ List.mem_map_of_mem hr')
        | ok items =>
          obtain ⟨σ1, its, e1, e2, e3, e4, e5, e6⟩ := hf
          have h2' : All2 (PointsTo σ1) rs ps := e2.all h2 (by
            intro r' hr' hm
            simp at hm
            exact hd1 (hm ▸ List.mem_map_of_mem hr'))
          obtain ⟨kept, k1, k2, k3⟩ := RefPTS.keepItems_spec e4
          have hsub : (kept.map fun r => r.addr).Sublist (its.map fun r => r.addr) := k3.map _
          -- the kept items are not among the later splits
          have hout : ∀ x ∈ kept, x.addr ∉ rs.map fun r => r.addr := by
            intro x hx hm
            rcases e6 x (k3.subset hx) with h | h
            · exact hd1 (h ▸ hm)
            · obtain ⟨r', hr', hx'⟩ := List.mem_map.1 hm
              have := pointsTo_lt h2 r' hr'
              omega
          have hk : PointsTo σ1 r ⟨ns', none⟩ := ⟨e3, h1.2.trans ht⟩
          have := ih (i + 1) σ1 ps h2' hd2
          simp only [GoM.bind_ok, GoM.pure_eq]
          cases hv2 : PTS.splitLoop f (i + 1) ps with
          | panic => rw [hv2] at this; simp only at this; simp [e1, k1, this]
          | ok y =>
            obtain ⟨old, new⟩ := y
            rw [hv2] at this
            cases new with
            | error e =>
              obtain ⟨σ', g1, g2, g3⟩ := this
              simp only [GoM.bind_ok]
              exact ⟨σ', by simp [e1, k1, g1], e2.trans g2 (by simp) (fun b hb => .inl (by simp [hb])),
                .cons (g2.holds hk hd1) g3⟩
            | ok qs =>
              obtain ⟨σ', rs', g1, g2, g3, g4, g5, g6⟩ := this
              simp only [GoM.bind_ok]
              refine ⟨σ', kept ++ rs', by simp [e1, k1, g1],
                e2.trans g2 (by simp) (fun b hb => .inl (List.mem_cons_of_mem _ hb)),
                .cons (g2.holds hk hd1) g3, (g2.all k2 hout).append g4, ?_, ?_⟩
              · rw [List.map_append, List.nodup_append]
                refine ⟨hsub.nodup e5, g5, ?_⟩
                intro a ha b hb hab
                subst hab
                obtain ⟨x, hx, rfl⟩ := List.mem_map.1 ha
                rcases g6 _ hb with h | h
                · exact hout x hx h
                · have := pointsTo_lt k2 x hx; omega
              · intro a ha
                rw [List.map_append, List.mem_append] at ha
                rcases ha with ha | ha
                · obtain ⟨x, hx, rfl⟩ := List.mem_map.1 ha
                  rcases e6 x (k3.subset hx) with h | h
                  · exact .inl (by simp [h])
                  · exact .inr h
                · rcases g6 a ha with h | h
                  · exact .inl (List.mem_cons_of_mem _ h)
                  · have := e2.grows; exact .inr (by omega)

/-- **C74, Split.** -/
theorem C74_split {F : RefSplitFunc} {f : SplitFunc} (hF : Implements F f) :
    Faithful (RefPTS.split F) (fun p => p.split f) := by
  intro σ P p hv hd
  have := RefPTS.splitLoop_spec hF 0 σ P.splits p.splits hv.splits hd
  unfold PTS.split RefPTS.split
  dsimp only
  cases hs : PTS.splitLoop f 0 p.splits with
  | panic => rw [hs] at this; simp only at this; simp [this]
  | ok x =>
    obtain ⟨old, new⟩ := x
    rw [hs] at this
    cases new with
    | error e =>
      obtain ⟨σ', e1, e2, e3⟩ := this
      simp only [GoM.bind_ok, GoM.pure_eq]
      exact ⟨σ', P, by simp [e1], ⟨hv.original, e3⟩, hd, e2, fun a ha => .inl ha⟩
    | ok qs =>
      obtain ⟨σ', rs', e1, e2, -, e4, e5, e6⟩ := this
      simp only [GoM.bind_ok, GoM.pure_eq]
      refine ⟨σ', { P with splits := rs' }, by simp [e1], ⟨hv.original, e4⟩, e5, e2, fun a ha => ?_⟩
      obtain ⟨x, hx, rfl⟩ := List.mem_map.1 ha
      exact (e6 _ ha).imp id fun h => ⟨h, pointsTo_lt e4 x hx⟩

/-! ## `Normalize` -/

theorem RefPTS.normalizeLoop_spec {N : RefNormalizeFunc} {f : NormalizeFunc} (hN : ImplementsN N f) (σ : Store)
    (rs : List Ref) (ps : List Piece) (h : All2 (PointsTo σ) rs ps) (hd : (rs.map fun r => r.addr).Nodup) :
    match PTS.normalizeLoop f ps with
    | .panic => RefPTS.normalizeLoop N rs σ = .panic
    | .ok (ps', e) => ∃ σ', RefPTS.normalizeLoop N rs σ = .ok (σ', e)
        ∧ StoreKeeps σ σ' (rs.map fun r => r.addr) ∧ All2 (PointsTo σ') rs ps' := by
  induction rs generalizing σ ps with
  | nil =>
    cases h
    exact ⟨σ, rfl, StoreKeeps.refl _ _, .nil⟩
  | cons r rs ih =>
    cases h with
    | @cons _ p _ ps h1 h2 =>
    simp only [List.map_cons, List.nodup_cons] at hd
    obtain ⟨hd1, hd2⟩ := hd
    unfold PTS.normalizeLoop RefPTS.normalizeLoop
    cases ht : p.tokens with
    | some ts =>
      rw [h1.2, ht]
      simp only
      have := ih σ ps h2 hd2
      cases hv : PTS.normalizeLoop f ps with
      | panic => rw [hv] at this; simp only at this; simp [this]
      | ok x =>
        obtain ⟨ps', e⟩ := x
        rw [hv] at this
        obtain ⟨σ', e1, e2, e3⟩ := this
        simp only [GoM.bind_ok, GoM.pure_eq]
        exact ⟨σ', e1, e2.mono (by simp +contextual), .cons (e2.holds h1 hd1) e3⟩
    | none =>
      rw [h1.2, ht]
      simp only
      have hf := hN r.addr σ p.ns h1.1
      cases hv : f p.ns with
      | panic => rw [hv] at hf; simp only at hf; simp [hf]
      | ok x =>
        obtain ⟨ns', e⟩ := x
        rw [hv] at hf
        obtain ⟨σ1, e1, e2, e3⟩ := hf
        have h2' : All2 (PointsTo σ1) rs ps := e2.all h2 (by
          intro r' hr' hm
          simp at hm
          exact hd1 (hm ▸ List.mem_map_of_mem hr'))
        have hk : PointsTo σ1 r ⟨ns', none⟩ := ⟨e3, h1.2.trans ht⟩
        cases e with
        | some e =>
          simp only [GoM.bind_ok, GoM.pure_eq]
          exact ⟨σ1, by simp [e1], e2.mono (by simp), .cons hk h2'⟩
        | none =>
          have := ih σ1 ps h2' hd2
          simp only [GoM.bind_ok, GoM.pure_eq]
          cases hv2 : PTS.normalizeLoop f ps with
          | panic => rw [hv2] at this; simp only at this; simp [e1, this]
          | ok y =>
            obtain ⟨ps', e⟩ := y
            rw [hv2] at this
            obtain ⟨σ', g1, g2, g3⟩ := this
            simp only [GoM.bind_ok]
            exact ⟨σ', by simp [e1, g1], e2.trans g2 (by simp) (fun b hb => .inl (List.mem_cons_of_mem _ hb)),
              .cons (g2.holds hk hd1) g3⟩

/-- **C74, Normalize.** -/
theorem C74_normalize {N : RefNormalizeFunc} {f : NormalizeFunc} (hN : ImplementsN N f) :
    Faithful (RefPTS.normalize N) (fun p => p.normalize f) := by
  intro σ P p hv hd
  have := RefPTS.normalizeLoop_spec hN σ P.splits p.splits hv.splits hd
  unfold PTS.normalize RefPTS.normalize
  dsimp only
  cases hs : PTS.normalizeLoop f p.splits with
  | panic => rw [hs] at this; simp only at this; simp [this]
  | ok x =>
    obtain ⟨ps', e⟩ := x
    rw [hs] at this
    obtain ⟨σ', e1, e2, e3⟩ := this
    simp only [GoM.bind_ok, GoM.pure_eq]
    exact ⟨σ', P, by simp [e1], ⟨hv.original, e3⟩, hd, e2, fun a ha => .inl ha⟩

/-! ## `Tokenize` -/

theorem RefPTS.tokenizeLoop_spec (t : NS → GoM (Except Err (List Token))) (σ : Store)
    (rs : List Ref) (ps : List Piece) (h : All2 (PointsTo σ) rs ps) :
    match PTS.tokenizeLoop t ps with
    | .panic => RefPTS.tokenizeLoop t σ rs = .panic
    | .ok (ps', e) => ∃ rs', RefPTS.tokenizeLoop t σ rs = .ok (rs', e)
        ∧ All2 (PointsTo σ) rs' ps' ∧ (rs'.map fun r => r.addr) = rs.map fun r => r.addr := by
  induction h with
  | nil => exact ⟨[], rfl, .nil, rfl⟩
  | @cons r p rs ps h1 h2 ih =>
    unfold PTS.tokenizeLoop RefPTS.tokenizeLoop
    cases ht : p.tokens with
    | some ts =>
      rw [h1.2, ht]
      simp only
      cases hv : PTS.tokenizeLoop t ps with
      | panic => rw [hv] at ih; simp only at ih; simp [ih]
      | ok x =>
        obtain ⟨ps', e⟩ := x
        rw [hv] at ih
        obtain ⟨rs', e1, e2, e3⟩ := ih
        simp only [GoM.bind_ok, GoM.pure_eq]
        exact ⟨r :: rs', by simp [e1], .cons h1 e2, by simp [e3]⟩
    | none =>
      rw [h1.2, ht]
      simp only [Store.load_eq h1.1, GoM.bind_ok]
      cases hv : t p.ns with
      | panic => simp
      | ok x =>
        cases x with
        | error e =>
          simp only [GoM.bind_ok, GoM.pure_eq]
          exact ⟨r :: rs, rfl, .cons h1 h2, rfl⟩
        | ok ts =>
          simp only [GoM.bind_ok, GoM.pure_eq]
          cases hv2 : PTS.tokenizeLoop t ps with
          | panic => rw [hv2] at ih; simp only at ih; simp [ih]
          | ok y =>
            obtain ⟨ps', e⟩ := y
            rw [hv2] at ih
            obtain ⟨rs', e1, e2, e3⟩ := ih
            simp only [GoM.bind_ok]
            exact ⟨⟨r.addr, some ts⟩ :: rs', by simp [e1], .cons ⟨h1.1, rfl⟩ e2, by simp [e3]⟩

/-- **C74, Tokenize.** -/
theorem C74_tokenize (t : NS → GoM (Except Err (List Token))) :
    Faithful (RefPTS.tokenize t) (fun p => p.tokenize t) := by
  intro σ P p hv hd
  have := RefPTS.tokenizeLoop_spec t σ P.splits p.splits hv.splits
  unfold PTS.tokenize RefPTS.tokenize
  dsimp only
  cases hs : PTS.tokenizeLoop t p.splits with
  | panic => rw [hs] at this; simp only at this; simp [this]
  | ok x =>
    obtain ⟨ps', e⟩ := x
    rw [hs] at this
    obtain ⟨rs', e1, e2, e3⟩ := this
    simp only [GoM.bind_ok, GoM.pure_eq]
    have ha : (RefPTS.mk P.original rs').addrs = P.addrs := e3
    exact ⟨σ, { P with splits := rs' }, by simp [e1], ⟨hv.original, e2⟩, by unfold RefPTS.Distinct; rw [ha]; exact hd,
      StoreKeeps.refl _ _, fun a h => .inl (by rw [ha] at h; exact h)⟩

/-! ## Sequences of calls -/

/-- One call after the other, on values. -/
def PTS.andThen (v w : PTS → GoM (PTS × Option Err)) (p : PTS) : GoM (PTS × Option Err) := do
  let (p, e) ← v p
  match e with
  | some e => pure (p, some e)
  | none => w p

/-- **C74, two calls.** -/
theorem C74_andThen {c d : RefCall} {v w : PTS → GoM (PTS × Option Err)} (hc : Faithful c v) (hd : Faithful d w) :
    Faithful (RefPTS.andThen c d) (PTS.andThen v w) := by
  intro σ P p hv hn
  have h1 := hc σ P p hv hn
  unfold PTS.andThen RefPTS.andThen
  cases hx : v p with
  | panic => rw [hx] at h1; simp only at h1; simp [h1]
  | ok x =>
    obtain ⟨p1, e⟩ := x
    rw [hx] at h1
    obtain ⟨σ1, P1, e1, e2, e3, e4, e5⟩ := h1
    cases e with
    | some e =>
      simp only [GoM.bind_ok, GoM.pure_eq]
      exact ⟨σ1, P1, by simp [e1], e2, e3, e4, e5⟩
    | none =>
      have h2 := hd σ1 P1 p1 e2 e3
      simp only [GoM.bind_ok]
      cases hy : w p1 with
      | panic => rw [hy] at h2; simp only at h2; simp [e1, h2]
      | ok y =>
        obtain ⟨p2, e⟩ := y
        rw [hy] at h2
        obtain ⟨σ2, P2, g1, g2, g3, g4, g5⟩ := h2
        refine ⟨σ2, P2, by simp [e1, g1], g2, g3,
          e4.trans g4 (fun a h => h) (fun b hb => (e5 b hb).imp id fun h => h.1), fun a ha => ?_⟩
        rcases g5 a ha with h | h
        · rcases e5 a h with h | h
          · exact .inl h
          · have := g4.grows; exact .inr (by omega)
        · have := e4.grows; exact .inr (by omega)

/-! ## The callbacks of the code -/

theorem Store.write_keeps (σ : Store) (a : Nat) (ns : NS) : StoreKeeps σ (σ.write a ns) [a] := by
  refine ⟨by simp [Store.write], fun b _ hb => ?_⟩
  unfold Store.write
  rw [List.getElem?_set_ne]
  simp at hb
  omega

theorem Store.write_same {σ : Store} {a : Nat} {ns : NS} (h : σ[a]? = some ns) (ns' : NS) : (σ.write a ns')[a]? = some ns' := by
  obtain ⟨hl, -⟩ := List.getElem?_eq_some_iff.1 h
  unfold Store.write
  rw [List.getElem?_set_self hl]

/-- Methods write to their receiver. -/
theorem normalizeCell_implements (f : NormalizeFunc) : ImplementsN (normalizeCell f) f := by
  intro a σ ns h
  unfold normalizeCell
  rw [Store.load_eq h]
  cases hf : f ns with
  | panic => simp [hf]
  | ok x =>
    obtain ⟨ns', e⟩ := x
    exact ⟨_, by simp [hf], Store.write_keeps _ _ _, Store.write_same h _⟩

theorem refSplitByPattern_eq (pattern : SplitPattern) (b : Behavior) (i a : Nat) (σ : Store) (ns : NS) (h : σ[a]? = some ns) :
    match splitByPattern pattern b i ns with
    | .panic => refSplitByPattern pattern b i a σ = .panic
    | .ok (ns', .error e) => ns' = ns ∧ refSplitByPattern pattern b i a σ = .ok (σ, .error e)
    | .ok (ns', .ok qs) => ns' = ns ∧ ∃ nss, qs = splitsFromNormalizedStrings nss
        ∧ refSplitByPattern pattern b i a σ
          = .ok (σ ++ nss, .ok ((List.range nss.length).map fun k => ⟨σ.length + k, none⟩)) := by
  unfold splitByPattern refSplitByPattern
  rw [Store.load_eq h]
  simp only [GoM.bind_ok]
  cases hs : ns.split pattern b with
  | panic => simp
  | ok x =>
    cases x with
    | error e => simp
    | ok nss => exact ⟨rfl, nss, rfl, by simp [Store.allocAll, refsFromNormalizedStrings, Function.comp_def]⟩

theorem alloc_holds (σ : Store) (nss : List NS) :
    All2 (PointsTo (σ ++ nss)) ((List.range nss.length).map fun k => ⟨σ.length + k, none⟩) (splitsFromNormalizedStrings nss) := by
  induction nss generalizing σ with
  | nil => exact .nil
  | cons ns nss ih =>
    rw [List.length_cons, List.range_succ_eq_map, List.map_cons]
    refine .cons ⟨by simp, rfl⟩ ?_
    have := ih (σ ++ [ns])
    rw [List.map_map]
    simp only [List.append_assoc, List.singleton_append] at this
    have e : ((fun k => Ref.mk (σ.length + k) none) ∘ Nat.succ) = fun k => Ref.mk ((σ ++ [ns]).length + k) none := by
      funext k
      simp only [Function.comp, List.length_append, List.length_singleton, Ref.mk.injEq, and_true]
      omega
    rw [e]
    exact this

/-- After possible writes to the string, the result of the split is new in memory. -/
theorem split_after {σ σ1 : Store} {a : Nat} {ns1 : NS} (h1 : StoreKeeps σ σ1 [a]) (h : σ1[a]? = some ns1)
    (pattern : SplitPattern) (b : Behavior) (i : Nat) :
    match splitByPattern pattern b i ns1 with
    | .panic => refSplitByPattern pattern b i a σ1 = .panic
    | .ok (ns', .error e) => ∃ σ', refSplitByPattern pattern b i a σ1 = .ok (σ', .error e) ∧ StoreKeeps σ σ' [a] ∧ σ'[a]? = some ns'
    | .ok (ns', .ok qs) => ∃ σ' rs, refSplitByPattern pattern b i a σ1 = .ok (σ', .ok rs) ∧ StoreKeeps σ σ' [a] ∧ σ'[a]? = some ns'
        ∧ All2 (PointsTo σ') rs qs ∧ (rs.map fun r => r.addr).Nodup
        ∧ ∀ r ∈ rs, r.addr = a ∨ σ.length ≤ r.addr := by
  have := refSplitByPattern_eq pattern b i a σ1 ns1 h
  cases hs : splitByPattern pattern b i ns1 with
  | panic => rw [hs] at this; exact this
  | ok x =>
    obtain ⟨ns', r⟩ := x
    rw [hs] at this
    cases r with
    | error e =>
      obtain ⟨rfl, e1⟩ := this
      exact ⟨σ1, e1, h1, h⟩
    | ok qs =>
      obtain ⟨rfl, nss, rfl, e1⟩ := this
      have hl : a < σ1.length := (List.getElem?_eq_some_iff.1 h).1
      refine ⟨_, _, e1, ⟨?_, ?_⟩, ?_, alloc_holds σ1 nss, ?_, ?_⟩
      · have := h1.grows; simp; omega
      · intro b' hb hn
        have := h1.grows
        rw [List.getElem?_append_left (by omega)]
        exact h1.same b' hb hn
      · rw [List.getElem?_append_left hl]; exact h
      · rw [List.map_map]
        unfold List.Nodup
        rw [List.pairwise_map]
        exact List.nodup_range.imp fun h hxy => h (by simpa using hxy)
      · intro r hr
        obtain ⟨k, -, rfl⟩ := List.mem_map.1 hr
        have := h1.grows
        exact .inr (by simp only; omega)

theorem refSplitByPattern_implements (pattern : SplitPattern) (b : Behavior) :
    Implements (refSplitByPattern pattern b) (splitByPattern pattern b) := by
  intro i a σ ns h
  exact split_after (StoreKeeps.refl σ [a]) h pattern b i

theorem refByteLevelSplitFunc_implements (findAll2 : List Rune → Except Err (List (Nat × Nat))) (pre : Bool) :
    Implements (refByteLevelSplitFunc findAll2 pre) (byteLevelSplitFunc findAll2 pre) := by
  intro i a σ ns h
  unfold refByteLevelSplitFunc byteLevelSplitFunc
  rw [Store.load_eq h]
  simp only [GoM.bind_ok, GoM.pure_eq]
  by_cases hp : pre = true ∧ (!startsWithWhitespace ns.get) = true
  · rw [if_pos hp, if_pos hp]
    cases hq : ns.prepend [32] with
    | panic => simp
    | ok ns1 => exact split_after (Store.write_keeps σ a ns1) (Store.write_same h ns1) _ _ i
  · rw [if_neg hp, if_neg hp]
    exact split_after (StoreKeeps.refl σ [a]) h _ _ i

theorem refMetaSpaceSplitFunc_implements (replacement : Rune) (pre : Bool) :
    Implements (refMetaSpaceSplitFunc replacement pre) (metaSpaceSplitFunc replacement pre) := by
  intro i a σ ns h
  unfold refMetaSpaceSplitFunc metaSpaceSplitFunc
  rw [Store.load_eq h]
  simp only [GoM.bind_ok, GoM.pure_eq]
  -- the part after the prefix
  have rest : ∀ σ1 ns1, StoreKeeps σ σ1 [a] → σ1[a]? = some ns1 →
      match (do
        match ← ns1.replace (fromRune 32) (encodeRune replacement) with
        | .error e => GoM.ok (ns1, .error e)
        | .ok ns2 => splitByPattern (fromRune replacement) .mergedWithNext i ns2 : GoM (NS × Except Err (List Piece))) with
      | .panic => (do
          let ns ← Store.load σ1 a
          match ← ns.replace (fromRune 32) (encodeRune replacement) with
          | .error e => GoM.ok (σ1, .error e)
          | .ok ns => refSplitByPattern (fromRune replacement) .mergedWithNext i a (σ1.write a ns)
          : GoM (Store × Except Err (List Ref))) = .panic
      | .ok (ns', .error e) => ∃ σ', (do
          let ns ← Store.load σ1 a
          match ← ns.replace (fromRune 32) (encodeRune replacement) with
          | .error e => GoM.ok (σ1, .error e)
          | .ok ns => refSplitByPattern (fromRune replacement) .mergedWithNext i a (σ1.write a ns)
          : GoM (Store × Except Err (List Ref))) = .ok (σ', .error e) ∧ StoreKeeps σ σ' [a] ∧ σ'[a]? = some ns'
      | .ok (ns', .ok qs) => ∃ σ' rs, (do
          let ns ← Store.load σ1 a
          match ← ns.replace (fromRune 32) (encodeRune replacement) with
          | .error e => GoM.ok (σ1, .error e)
          | .ok ns => refSplitByPattern (fromRune replacement) .mergedWithNext i a (σ1.write a ns)
          : GoM (Store × Except Err (List Ref))) = .ok (σ', .ok rs) ∧ StoreKeeps σ σ' [a] ∧ σ'[a]? = some ns'
          ∧ All2 (PointsTo σ') rs qs ∧ (rs.map fun r => r.addr).Nodup
          ∧ ∀ r ∈ rs, r.addr = a ∨ σ.length ≤ r.addr := by
    intro σ1 ns1 hk h1
    rw [Store.load_eq h1]
    simp only [GoM.bind_ok]
    cases hr : ns1.replace (fromRune 32) (encodeRune replacement) with
    | panic => simp
    | ok x =>
      cases x with
      | error e => exact ⟨σ1, rfl, hk, h1⟩
      | ok ns2 =>
        exact split_after (hk.trans (Store.write_keeps σ1 a ns2) (by simp) (by simp)) (Store.write_same h1 ns2) _ _ i
  by_cases hp : pre = true ∧ (!(encodeRune replacement).isPrefixOf ns.get) = true
  · rw [if_pos hp, if_pos hp]
    cases hq : ns.prepend (encodeRune replacement) with
    | panic => simp
    | ok ns1 => exact rest _ _ (Store.write_keeps σ a ns1) (Store.write_same h ns1)
  · rw [if_neg hp, if_neg hp]
    exact rest _ _ (StoreKeeps.refl σ [a]) h

/-- **C74, the pre-tokenizers.** All six do on pointers what they do on values. -/
theorem C74_preTokenizers (u : Uni) (findAll2 : List Rune → Except Err (List (Nat × Nat))) (r : Rune) (pre : Bool) :
    Faithful refWhiteSpaceSplit whiteSpaceSplit ∧ Faithful (refBertPreTokenize u) (bertPreTokenize u)
      ∧ Faithful (refRuneDelimiter r) (runeDelimiter r)
      ∧ Faithful (refWhiteSpacePreTokenize findAll2) (whiteSpacePreTokenize findAll2)
      ∧ Faithful (refMetaSpace r pre) (metaSpace r pre)
      ∧ Faithful (refByteLevel findAll2 pre) (byteLevel findAll2 pre) :=
  ⟨C74_split (refSplitByPattern_implements _ _),
    C74_andThen (C74_split (refSplitByPattern_implements _ _)) (C74_split (refSplitByPattern_implements _ _)),
    C74_split (refSplitByPattern_implements _ _), C74_split (refSplitByPattern_implements _ _),
    C74_split (refMetaSpaceSplitFunc_implements _ _),
    C74_andThen (C74_split (refByteLevelSplitFunc_implements _ _)) (C74_normalize (normalizeCell_implements _))⟩

/-- **C74, programs.** Any number of calls, up to the first error. -/
theorem C74_program (calls : List (RefCall × (PTS → GoM (PTS × Option Err)))) (h : ∀ c ∈ calls, Faithful c.1 c.2) :
    Faithful (calls.foldr (fun c d => RefPTS.andThen c.1 d) fun σ P => .ok (σ, P, none))
      (calls.foldr (fun c d => PTS.andThen c.2 d) fun p => .ok (p, none)) := by
  induction calls with
  | nil =>
    intro σ P p hv hd
    exact ⟨σ, P, rfl, hv, hd, StoreKeeps.refl _ _, fun a ha => .inl ha⟩
  | cons c calls ih =>
    exact C74_andThen (h c (by simp)) (ih fun c hc => h c (by simp [hc]))

/-- **C74, the start.** A state made of a string in memory, or of new text, meets the conditions. -/
theorem C74_start (σ : Store) (a : Nat) (ns : NS) (h : σ[a]? = some ns) (s : Str) :
    (∃ P, RefPTS.fromNormalizedString σ a = .ok P ∧ P.addrs = [a] ∧ P.Distinct ∧ View σ P (PTS.fromNormalizedString ns))
      ∧ (RefPTS.fromString σ s).2.addrs = [σ.length] ∧ (RefPTS.fromString σ s).2.Distinct
      ∧ StoreKeeps σ (RefPTS.fromString σ s).1 []
      ∧ View (RefPTS.fromString σ s).1 (RefPTS.fromString σ s).2 (PTS.fromString s) := by
  refine ⟨⟨⟨ns.getOriginal, [⟨a, none⟩]⟩, ?_, rfl, ?_, rfl, .cons ⟨h, rfl⟩ .nil⟩, rfl, ?_, ⟨?_, ?_⟩, rfl,
    .cons ⟨?_, rfl⟩ .nil⟩
  · unfold RefPTS.fromNormalizedString; rw [Store.load_eq h]; rfl
  · simp [RefPTS.Distinct, RefPTS.addrs]
  · simp [RefPTS.Distinct, RefPTS.addrs, RefPTS.fromString]
  · simp [RefPTS.fromString]
  · intro b hb _; simp [RefPTS.fromString, List.getElem?_append_left hb]
  · simp [RefPTS.fromString]

/-- **C74, other states.** A call on one state leaves every state that shares no string with it as
it is, and the two still share none. -/
theorem C74_others {c : RefCall} {v : PTS → GoM (PTS × Option Err)} (hc : Faithful c v)
    {σ σ' : Store} {P P' Q : RefPTS} {p q : PTS} {e : Option Err} (hv : View σ P p) (hd : P.Distinct) (hq : View σ Q q)
    (hs : ∀ a ∈ Q.addrs, a ∉ P.addrs) (h : c σ P = .ok (σ', P', e)) :
    View σ' Q q ∧ ∀ a ∈ Q.addrs, a ∉ P'.addrs := by
  have := hc σ P p hv hd
  cases hx : v p with
  | panic => rw [hx] at this; simp only at this; rw [this] at h; exact absurd h (by simp)
  | ok x =>
    rw [hx] at this
    obtain ⟨σ1, P1, e1, -, -, e4, e5⟩ := this
    rw [h] at e1
    simp only [GoM.ok.injEq, Prod.mk.injEq] at e1
    obtain ⟨rfl, rfl, -⟩ := e1
    refine ⟨⟨hq.original, e4.all hq.splits fun r hr => hs _ (List.mem_map_of_mem hr)⟩, fun a ha hm => ?_⟩
    obtain ⟨r, hr, rfl⟩ := List.mem_map.1 ha
    have := pointsTo_lt hq.splits r hr
    rcases e5 _ hm with h | h
    · exact hs _ ha h
    · omega

/-- **C74, the string given to `FromNormalizedString`.** After a `Split` that does not fail it is
what the callback left of it. -/
theorem C74_caller {F : RefSplitFunc} {f : SplitFunc} (hF : Implements F f) {σ σ' : Store} {a : Nat} {ns : NS} {P P' : RefPTS}
    {e : Option Err} (h : σ[a]? = some ns) (hP : RefPTS.fromNormalizedString σ a = .ok P)
    (hs : RefPTS.split F σ P = .ok (σ', P', e)) :
    ∃ ns' r, f 0 ns = .ok (ns', r) ∧ σ'[a]? = some ns' := by
  unfold RefPTS.fromNormalizedString at hP
  rw [Store.load_eq h] at hP
  simp only [GoM.bind_ok, GoM.pure_eq, GoM.ok.injEq] at hP
  subst hP
  have := RefPTS.splitLoop_spec hF 0 σ [⟨a, none⟩] [⟨ns, none⟩] (.cons ⟨h, rfl⟩ .nil) (by simp)
  unfold RefPTS.split at hs
  cases hf : f 0 ns with
  | panic =>
    simp only [PTS.splitLoop, hf, GoM.bind_panic] at this
    rw [this] at hs
    exact absurd hs (by simp)
  | ok x =>
    obtain ⟨ns', r⟩ := x
    refine ⟨ns', r, rfl, ?_⟩
    cases r with
    | error e' =>
      simp only [PTS.splitLoop, hf, GoM.bind_ok, GoM.pure_eq] at this
      obtain ⟨σ1, e1, -, e3⟩ := this
      rw [e1] at hs
      simp only [GoM.bind_ok, GoM.pure_eq, GoM.ok.injEq, Prod.mk.injEq] at hs
      obtain ⟨rfl, -⟩ := hs
      cases e3 with
      | cons e3 _ => exact e3.1
    | ok qs =>
      simp only [PTS.splitLoop, hf, GoM.bind_ok, GoM.pure_eq] at this
      obtain ⟨σ1, rs', e1, -, e3, -⟩ := this
      rw [e1] at hs
      simp only [GoM.bind_ok, GoM.pure_eq, GoM.ok.injEq, Prod.mk.injEq] at hs
      obtain ⟨rfl, -⟩ := hs
      cases e3 with
      | cons e3 _ => exact e3.1

/-- **C74, the string given to a cutting pre-tokenizer** does not change. -/
theorem C74_caller_cut (pattern : SplitPattern) (b : Behavior) {σ σ' : Store} {a : Nat} {ns : NS} {P P' : RefPTS}
    {e : Option Err} (h : σ[a]? = some ns) (hP : RefPTS.fromNormalizedString σ a = .ok P)
    (hs : RefPTS.split (refSplitByPattern pattern b) σ P = .ok (σ', P', e)) : σ'[a]? = some ns := by
  obtain ⟨ns', r, h1, h2⟩ := C74_caller (refSplitByPattern_implements pattern b) h hP hs
  rw [h2]
  unfold splitByPattern at h1
  cases hx : ns.split pattern b with
  | panic => rw [hx] at h1; exact absurd h1 (by simp)
  | ok x =>
    rw [hx] at h1
    cases x <;> simp at h1 <;> rw [h1.1]

/-! ## Reading -/

theorem RefPTS.encodeSplits_spec (σ : Store) (wi ty : Int) (i : Nat) {rs : List Ref} {ps : List Piece} (h : All2 (PointsTo σ) rs ps) :
    RefPTS.encodeSplits σ wi ty i rs = PTS.encodeSplits wi ty i ps := by
  induction h generalizing i with
  | nil => rfl
  | cons h1 _ ih =>
    unfold RefPTS.encodeSplits PTS.encodeSplits
    rw [Store.load_eq h1.1, h1.2]
    simp only [GoM.bind_ok, ih]

theorem RefPTS.allTokens_spec {σ : Store} {rs : List Ref} {ps : List Piece} (h : All2 (PointsTo σ) rs ps) :
    (rs.all fun r => r.tokens.isSome) = ps.all fun q => q.tokens.isSome := by
  induction h with
  | nil => rfl
  | cons h1 _ ih => simp only [List.all_cons, h1.2, ih]

theorem RefPTS.originalByteSplits_spec {σ : Store} {rs : List Ref} {ps : List Piece} (h : All2 (PointsTo σ) rs ps) :
    RefPTS.originalByteSplitsLoop σ rs = .ok (ps.map fun q => ⟨q.ns.get, q.ns.originalOffsets, q.tokens⟩) := by
  induction h with
  | nil => rfl
  | cons h1 _ ih =>
    unfold RefPTS.originalByteSplitsLoop
    rw [Store.load_eq h1.1, h1.2]
    simp [ih]

theorem RefPTS.normalizedByteSplits_spec {σ : Store} {rs : List Ref} {ps : List Piece} (h : All2 (PointsTo σ) rs ps) (o : Int) :
    RefPTS.normalizedByteSplitsLoop σ rs o = .ok (PTS.normalizedByteSplitsLoop ps o) := by
  induction h generalizing o with
  | nil => rfl
  | cons h1 _ ih =>
    unfold RefPTS.normalizedByteSplitsLoop PTS.normalizedByteSplitsLoop
    rw [Store.load_eq h1.1, h1.2]
    simp [ih]

/-- **C74, reading.** The encoding and both lists of splits are those of the values. -/
theorem C74_read {σ : Store} {P : RefPTS} {p : PTS} (h : View σ P p) (wi ty : Int) :
    P.intoEncoding σ wi ty = p.intoEncoding wi ty ∧ P.getOriginalByteSplits σ = .ok p.getOriginalByteSplits
      ∧ P.getNormalizedByteSplits σ = .ok p.getNormalizedByteSplits := by
  refine ⟨?_, RefPTS.originalByteSplits_spec h.splits, RefPTS.normalizedByteSplits_spec h.splits 0⟩
  unfold RefPTS.intoEncoding PTS.intoEncoding PTS.allSplitsHaveTokens
  rw [h.splits.length_eq, RefPTS.allTokens_spec h.splits, RefPTS.encodeSplits_spec σ wi ty 0 h.splits]

/-! ## Concrete cases -/

/-- The text of the string at an address. -/
def Store.text (σ : Store) (a : Nat) : Option Str := σ[a]?.map fun ns => ns.normalized

/-- C74: `WhiteSpaceSplit` makes two new strings and leaves the given one. -/
example : (refWhiteSpaceSplit [NS.fromString b!"a b"] ⟨b!"a b", [⟨0, none⟩]⟩).bind
    (fun x => .ok (x.1.map fun ns => ns.normalized, x.2.1.addrs)) = .ok ([b!"a b", b!"a", b!"b"], [1, 2]) := by
  decide +kernel

/-- The meta-space pre-tokenizer changes the string that its caller still holds, although the
comment on `PreTokenize` speaks of virtual replacement. -/
theorem C74_metaSpace_changes_argument : (refMetaSpace 95 true [NS.fromString b!"a b"] ⟨b!"a b", [⟨0, none⟩]⟩).bind
    (fun x => .ok (x.1.map fun ns => ns.normalized, x.2.1.addrs)) = .ok ([b!"_a_b", b!"_a", b!"_b"], [1, 2]) := by
  decide +kernel

/-- The condition that states share no string is needed: two states made of the same string are
not independent. -/
theorem C74_shared : (do
    let P ← RefPTS.fromNormalizedString [NS.fromString b!"a b"] 0
    let Q ← RefPTS.fromNormalizedString [NS.fromString b!"a b"] 0
    let (σ, _, _) ← refMetaSpace 95 true [NS.fromString b!"a b"] P
    GoM.ok (Q.splits.map fun r : Ref => Store.text σ r.addr)) = .ok [some b!"_a_b"] := by
  decide +kernel

/-- The condition that a callback returns no string twice is needed: `Normalize` then works on
that string twice. -/
theorem C74_twice : (do
    let (σ, P, _) ← RefPTS.split (fun _ a σ => .ok (σ, .ok [⟨a, none⟩, ⟨a, none⟩])) [NS.fromString b!"a"] ⟨b!"a", [⟨0, none⟩]⟩
    let (σ, P, _) ← RefPTS.normalize (normalizeCell fun ns => do pure (← ns.prepend b!"x", none)) σ P
    GoM.ok (P.splits.map fun r : Ref => Store.text σ r.addr)) = .ok [some b!"xxa", some b!"xxa"] := by
  decide +kernel

end Verif
