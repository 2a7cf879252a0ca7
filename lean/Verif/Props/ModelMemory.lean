import Verif.Props.ClosuresPTS
import Verif.Props.Bpe

/-! Tokenizing all splits with one BPE model: the cache and the source of random numbers go on from split to split (C148). -/

set_option autoImplicit false

namespace Verif

variable {κ τ : Type}

/-- The function a caller gives to `Tokenize` to run one BPE model on every split.  The memory is the cache and the state of the source of
random numbers: `draws t` are the outcomes of the draws from state `t` on, `next t s` is the state after tokenizing `s`. -/
def BPE.withMemory (m : BPE) (ops : CacheOps κ) (draws : τ → Nat → Bool) (next : τ → Str → τ) :
    Left (NS × (κ × τ)) (Except Err (List Token)) := fun w =>
  match m.tokenizeWith ops (draws w.2.2) w.2.1 w.1.get with
  | .panic => (w, .panic)
  | .ok (.error e, c) => ((w.1, (c, next w.2.2 w.1.get)), .ok (.error e))
  | .ok (.ok none, c) => ((w.1, (c, next w.2.2 w.1.get)), .panic)
  | .ok (.ok (some ts), c) => ((w.1, (c, next w.2.2 w.1.get)), .ok (.ok ts))

/-! ## Specification -/

/-- What tokenizing makes of a split: nothing if it has tokens; else it gets the tokens of a call of the model, for some draws. -/
structure GotTokens (m : BPE) (draws : τ → Nat → Bool) (after before : Piece) : Prop where
  string : after.ns = before.ns
  kept : ∀ ts, before.tokens = some ts → after.tokens = some ts
  made : before.tokens = none → ∃ t ts, after.tokens = some ts ∧ m.tokenize (draws t) before.ns.get = .ok (.ok (some ts))

/-! ## Proofs -/

theorem tokenizeWith_goCache (m : BPE) (rnd : Nat → Bool) (c : WordCache) (s : Str) {r : Except Err (Option (List Token))}
    (h : m.tokenize rnd s = .ok r) : ∃ c', m.tokenizeWith goCache rnd c s = .ok (r, c') := by
  unfold BPE.tokenize at h
  unfold BPE.tokenizeWith at h ⊢
  by_cases hs : s.length = 0
  · rw [if_pos hs] at h ⊢
    simp only [GoM.bind_ok, GoM.pure_eq, GoM.ok.injEq] at h
    exact ⟨c, by rw [← h]⟩
  · rw [if_neg hs] at h ⊢
    have hg : ∀ c, goCache.get c s = none := fun _ => rfl
    cases hd : m.hasDropout
    · simp only [hd, Bool.not_false, if_true, BPE.tokenizeWithCache, hg] at h ⊢
      cases hw : m.tokenizeWord rnd s with
      | panic => simp [hw] at h
      | ok x =>
        rcases x with e | _ | ⟨w, ts⟩
        all_goals simp [hw] at h; exact ⟨_, by rw [← h]; rfl⟩
    · simp only [hd, Bool.not_true, Bool.false_eq_true, if_false] at h ⊢
      cases hw : m.tokenizeWord rnd s with
      | panic => simp [hw] at h
      | ok x =>
        rcases x with e | _ | ⟨w, ts⟩
        all_goals simp [hw] at h; exact ⟨_, by rw [← h]; rfl⟩

/-- **C148, random numbers.** With one source of random numbers for all splits, whatever it gives and however it moves on: if the
vocabulary is complete, `Tokenize` succeeds and every split without tokens gets those of a call of the model with some draws, so that all
that holds of such a call whatever the draws holds of every split. -/
theorem C148_source (m : BPE) (draws : τ → Nat → Bool) (next : τ → Str → τ)
    (hv : ∀ t i, m.vocab.getID t = some i → m.vocab.getString i ≠ none)
    (hm : ∀ a b v, m.merges.get a b = some v → m.vocab.getString v.id ≠ none)
    (hu : m.unknownToken ≠ [] → m.vocab.getID m.unknownToken ≠ none) (p : PTS) (c : WordCache) (t : τ) :
    ∃ p' w, PTS.tokenizeC (m.withMemory goCache draws next) (p, (c, t)) = ((p', w), .ok none)
      ∧ p'.original = p.original ∧ All2 (GotTokens m draws) p'.splits p.splits := by
  have key : ∀ (ps : List Piece) (c : WordCache) (t : τ), ∃ ps' w,
      PTS.tokenizeLoopC (m.withMemory goCache draws next) ps (c, t) = ((ps', w), .ok none) ∧ All2 (GotTokens m draws) ps' ps := by
    intro ps
    induction ps with
    | nil => intro c t; exact ⟨[], (c, t), rfl, .nil⟩
    | cons q ps ih =>
      intro c t
      rw [PTS.tokenizeLoopC]
      cases hq : q.tokens with
      | some ts =>
        obtain ⟨ps', w, h1, h2⟩ := ih c t
        exact ⟨q :: ps', w, by simp only [h1], .cons ⟨rfl, fun _ h => h, fun h => absurd (hq.symm.trans h) (by simp)⟩ h2⟩
      | none =>
        obtain ⟨ts, hts⟩ := BPE.C44_success m (draws t) q.ns.get hv hm hu
        obtain ⟨c', hc⟩ := tokenizeWith_goCache m (draws t) c q.ns.get hts
        obtain ⟨ps', w, h1, h2⟩ := ih c' (next t q.ns.get)
        refine ⟨⟨q.ns, some ts⟩ :: ps', w, ?_, .cons ⟨rfl, fun _ h => absurd (hq.symm.trans h) (by simp), fun _ => ⟨t, ts, rfl, hts⟩⟩ h2⟩
        simp only [BPE.withMemory, hc, h1]
  obtain ⟨ps', w, h1, h2⟩ := key p.splits c t
  exact ⟨{ p with splits := ps' }, w, by simp only [PTS.tokenizeC, h1], rfl, h2⟩

/-- **C148, tiles.** In particular the tokens of every split with known characters tile its text. -/
theorem C148_tiles {m : BPE} {draws : τ → Nat → Bool} {after before : Piece} (h : GotTokens m draws after before)
    (hn : before.tokens = none) (hv : ValidUtf8 before.ns.get) (hc : m.Covered before.ns.get) :
    ∃ ts, after.tokens = some ts ∧ BPE.TokenTiles m.vocab 0 ts before.ns.get.length := by
  obtain ⟨t, ts, h1, h2⟩ := h.made hn
  exact ⟨ts, h1, BPE.C44_tiles m (draws t) before.ns.get hv hc h2⟩

/-- **C148, cache.** Without dropout, with any lawful cache after any calls of the model: `Tokenize` on any splits does what it does with
a function that remembers nothing, also if it returns an error, and leaves a cache that calls of the model have made. -/
theorem C148_cache (ops : CacheOps κ) (hl : BPE.Lawful ops) (m : BPE) (hd : m.hasDropout = false) (c0 : κ) (h0 : ∀ k, ops.get c0 k = none)
    (draws : τ → Nat → Bool) (next : τ → Str → τ) (rnd : NS → Nat → Bool) (p : PTS) (c : κ) (hc : BPE.History ops m c0 c) (t : τ) :
    ∃ p' e c' t', PTS.tokenizeC (m.withMemory ops draws next) (p, (c, t)) = ((p', (c', t')), .ok e)
      ∧ p.tokenize (m.tokenizeNS rnd) = .ok (p', e) ∧ BPE.History ops m c0 c' := by
  have call : ∀ (ns : NS) (c : κ) (t : τ), BPE.History ops m c0 c → ∃ c', BPE.History ops m c0 c'
      ∧ ((∃ e, m.withMemory ops draws next (ns, (c, t)) = ((ns, (c', next t ns.get)), .ok (.error e)) ∧ m.tokenizeNS rnd ns = .ok (.error e))
        ∨ ∃ ts, m.withMemory ops draws next (ns, (c, t)) = ((ns, (c', next t ns.get)), .ok (.ok ts)) ∧ m.tokenizeNS rnd ns = .ok (.ok ts)) := by
    intro ns c t hc
    obtain ⟨c', h1, r, h2⟩ := BPE.C48_any_cache ops hl m hd c0 c h0 hc (draws t) (rnd ns) ns.get
    rw [h2] at h1
    simp only [GoM.bind_ok, GoM.pure_eq] at h1
    refine ⟨c', .call _ _ _ hc h2, ?_⟩
    simp only [BPE.withMemory, BPE.tokenizeNS, h2, ← h1, GoM.bind_ok, GoM.pure_eq]
    rcases BPE.C44_outcomes m (rnd ns) ns.get with ⟨ts, h⟩ | ⟨-, -, h⟩ | ⟨id, -, h⟩
    · rw [h] at h1; cases h1; exact .inr ⟨ts, rfl, rfl⟩
    · rw [h] at h1; cases h1; exact .inl ⟨_, rfl, rfl⟩
    · rw [h] at h1; cases h1; exact .inl ⟨_, rfl, rfl⟩
  have key : ∀ (ps : List Piece) (c : κ) (t : τ), BPE.History ops m c0 c → ∃ ps' e c' t',
      PTS.tokenizeLoopC (m.withMemory ops draws next) ps (c, t) = ((ps', (c', t')), .ok e)
      ∧ PTS.tokenizeLoop (m.tokenizeNS rnd) ps = .ok (ps', e) ∧ BPE.History ops m c0 c' := by
    intro ps
    induction ps with
    | nil => intro c t hc; exact ⟨[], none, c, t, rfl, rfl, hc⟩
    | cons q ps ih =>
      intro c t hc
      rw [PTS.tokenizeLoopC, PTS.tokenizeLoop]
      cases hq : q.tokens with
      | some ts =>
        obtain ⟨ps', e, c', t', h1, h2, h3⟩ := ih c t hc
        exact ⟨q :: ps', e, c', t', by simp only [h1], by simp only [h2, GoM.bind_ok, GoM.pure_eq], h3⟩
      | none =>
        obtain ⟨c₁, hc₁, ⟨e, h1, h2⟩ | ⟨ts, h1, h2⟩⟩ := call q.ns c t hc
        · have hq' : (⟨q.ns, none⟩ : Piece) = q := by rw [← hq]
          exact ⟨q :: ps, some e, c₁, next t q.ns.get, by simp only [h1, hq'], by simp only [h2, GoM.bind_ok, GoM.pure_eq], hc₁⟩
        · obtain ⟨ps', e, c', t', k1, k2, k3⟩ := ih c₁ (next t q.ns.get) hc₁
          exact ⟨⟨q.ns, some ts⟩ :: ps', e, c', t', by simp only [h1, k1], by simp only [h2, k2, GoM.bind_ok, GoM.pure_eq], k3⟩
  obtain ⟨ps', e, c', t', h1, h2, h3⟩ := key p.splits c t hc
  exact ⟨{ p with splits := ps' }, e, c', t', by simp only [PTS.tokenizeC, h1],
    by simp only [PTS.tokenize, h2, GoM.bind_ok, GoM.pure_eq], h3⟩

/-! ## Concrete -/

/-- With dropout, two equal splits get different tokens: the first draw of the first split skips, none of the second does.  (In the model
`BPE.tokenizeNS`, without memory, equal splits get equal tokens.) -/
theorem C148_example :
    let m : BPE := { BPE.sample b!"<unk>" false with hasDropout := true }
    let p : PTS := ⟨b!"ab", [⟨NS.fromString b!"ab", none⟩, ⟨NS.fromString b!"ab", none⟩]⟩
    (PTS.tokenizeC (m.withMemory goCache (fun (t : Nat) k => t == 0 && k == 0) (fun t _ => t + 1)) (p, (m.cache, 0))).1.1.splits.map (·.tokens)
      = [some [⟨1, b!"a", ⟨0, 1⟩⟩, ⟨2, b!"b", ⟨1, 2⟩⟩], some [⟨3, b!"ab", ⟨0, 2⟩⟩]] := by decide +kernel

end Verif
