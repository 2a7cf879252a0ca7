import Verif.Props.Recover

/-! C93, the splits: functions given to `Split`, `Normalize` and `Tokenize` that panic or change the string they get. -/

set_option autoImplicit false

namespace Verif

namespace PTS

/-! ## Where nothing panics, and nothing is changed in `Tokenize`, the methods are those of the model by values -/

/-- `f` does what `g` does, and may leave anything when it panics. -/
def SplitAgrees (f : SplitFuncL) (g : SplitFunc) : Prop := ∀ i ns,
  (∀ ns' r, g i ns = .ok (ns', r) → f i ns = (ns', .ok r)) ∧ (g i ns = .panic → (f i ns).2 = .panic)

def NormalizeAgrees (f : NormalizeFuncL) (g : NormalizeFunc) : Prop := ∀ ns,
  (∀ ns' r, g ns = .ok (ns', r) → f ns = (ns', .ok r)) ∧ (g ns = .panic → (f ns).2 = .panic)

def TokenizeAgrees (f : TokenizeFuncL) (g : NS → GoM (Except Err (List Token))) : Prop := ∀ ns,
  (∀ r, g ns = .ok r → f ns = (ns, .ok r)) ∧ (g ns = .panic → (f ns).2 = .panic)

theorem splitLoop_agrees {f : SplitFuncL} {g : SplitFunc} (h : SplitAgrees f g) : ∀ (ps : List Piece) (i : Nat),
    (∀ old x, splitLoop g i ps = .ok (old, x) → splitLoopL f i ps = (old, .ok x))
      ∧ (splitLoop g i ps = .panic → (splitLoopL f i ps).2 = .panic) := by
  intro ps
  induction ps with
  | nil =>
    intro i
    constructor
    · intro old x hx
      simp only [splitLoop, GoM.ok.injEq, Prod.mk.injEq] at hx
      obtain ⟨rfl, rfl⟩ := hx
      rfl
    · intro hx; cases hx
  | cons p ps ih =>
    intro i
    obtain ⟨i1, i2⟩ := ih (i + 1)
    unfold splitLoop splitLoopL
    cases hp : p.tokens with
    | some ts =>
      simp only
      cases hr : splitLoop g (i + 1) ps with
      | panic =>
        have := i2 hr
        constructor
        · intro old x hx; cases hx
        · intro _
          rcases hl : splitLoopL f (i + 1) ps with ⟨old, y⟩
          rw [hl] at this
          simp only at this
          subst this
          rfl
      | ok y =>
        obtain ⟨old, x⟩ := y
        rw [i1 old x hr]
        simp only [GoM.bind_ok]
        cases x <;> simp
    | none =>
      simp only
      obtain ⟨h1, h2⟩ := h i p.ns
      cases hg : g i p.ns with
      | panic =>
        have := h2 hg
        constructor
        · intro old x hx; cases hx
        · intro _
          rcases hl : f i p.ns with ⟨ns', y⟩
          rw [hl] at this
          simp only at this
          subst this
          rfl
      | ok y =>
        obtain ⟨ns', r⟩ := y
        rw [h1 ns' r hg]
        simp only [GoM.bind_ok]
        cases r with
        | error e => simp
        | ok items =>
          simp only
          cases hr : splitLoop g (i + 1) ps with
          | panic =>
            have := i2 hr
            constructor
            · intro old x hx; cases hx
            · intro _
              rcases hl : splitLoopL f (i + 1) ps with ⟨old, y⟩
              rw [hl] at this
              simp only at this
              subst this
              rfl
          | ok y =>
            obtain ⟨old, x⟩ := y
            rw [i1 old x hr]
            simp only [GoM.bind_ok]
            cases x <;> simp

/-- **C93, `Split`, agreement.** -/
theorem C93_split_agrees {f : SplitFuncL} {g : SplitFunc} (h : SplitAgrees f g) (p : PTS) :
    (∀ p' e, p.split g = .ok (p', e) → splitL f p = (p', .ok e)) ∧ (p.split g = .panic → (splitL f p).2 = .panic) := by
  obtain ⟨h1, h2⟩ := splitLoop_agrees h p.splits 0
  unfold split splitL
  cases hr : splitLoop g 0 p.splits with
  | panic =>
    have := h2 hr
    constructor
    · intro p' e hx; cases hx
    · intro _
      rcases hl : splitLoopL f 0 p.splits with ⟨old, y⟩
      rw [hl] at this
      simp only at this
      subst this
      rfl
  | ok y =>
    obtain ⟨old, x⟩ := y
    rw [h1 old x hr]
    simp only [GoM.bind_ok]
    cases x <;> simp

theorem normalizeLoop_agrees {f : NormalizeFuncL} {g : NormalizeFunc} (h : NormalizeAgrees f g) : ∀ (ps : List Piece),
    (∀ old x, normalizeLoop g ps = .ok (old, x) → normalizeLoopL f ps = (old, .ok x))
      ∧ (normalizeLoop g ps = .panic → (normalizeLoopL f ps).2 = .panic) := by
  intro ps
  induction ps with
  | nil =>
    constructor
    · intro old x hx
      simp only [normalizeLoop, GoM.ok.injEq, Prod.mk.injEq] at hx
      obtain ⟨rfl, rfl⟩ := hx
      rfl
    · intro hx; cases hx
  | cons p ps ih =>
    obtain ⟨i1, i2⟩ := ih
    unfold normalizeLoop normalizeLoopL
    cases hp : p.tokens with
    | some ts =>
      simp only
      cases hr : normalizeLoop g ps with
      | panic =>
        have := i2 hr
        exact ⟨(by intro old x hx; cases hx), fun _ => this⟩
      | ok y =>
        obtain ⟨old, x⟩ := y
        rw [i1 old x hr]
        simp
    | none =>
      simp only
      obtain ⟨h1, h2⟩ := h p.ns
      cases hg : g p.ns with
      | panic =>
        have := h2 hg
        refine ⟨(by intro old x hx; cases hx), fun _ => ?_⟩
        rcases hl : f p.ns with ⟨ns', y⟩
        rw [hl] at this
        simp only at this
        subst this
        rfl
      | ok y =>
        obtain ⟨ns', r⟩ := y
        rw [h1 ns' r hg]
        simp only [GoM.bind_ok]
        cases r with
        | some e => simp
        | none =>
          simp only
          cases hr : normalizeLoop g ps with
          | panic =>
            have := i2 hr
            exact ⟨(by intro old x hx; cases hx), fun _ => this⟩
          | ok y =>
            obtain ⟨old, x⟩ := y
            rw [i1 old x hr]
            simp

/-- **C93, `Normalize`, agreement.** -/
theorem C93_normalize_agrees {f : NormalizeFuncL} {g : NormalizeFunc} (h : NormalizeAgrees f g) (p : PTS) :
    (∀ p' e, p.normalize g = .ok (p', e) → normalizeL f p = (p', .ok e))
      ∧ (p.normalize g = .panic → (normalizeL f p).2 = .panic) := by
  obtain ⟨h1, h2⟩ := normalizeLoop_agrees h p.splits
  unfold PTS.normalize normalizeL
  cases hr : normalizeLoop g p.splits with
  | panic =>
    have := h2 hr
    exact ⟨(by intro old x hx; cases hx), fun _ => this⟩
  | ok y =>
    obtain ⟨old, x⟩ := y
    rw [h1 old x hr]
    simp

theorem tokenizeLoop_agrees {f : TokenizeFuncL} {g : NS → GoM (Except Err (List Token))} (h : TokenizeAgrees f g) :
    ∀ (ps : List Piece), (∀ old x, tokenizeLoop g ps = .ok (old, x) → tokenizeLoopL f ps = (old, .ok x))
      ∧ (tokenizeLoop g ps = .panic → (tokenizeLoopL f ps).2 = .panic) := by
  intro ps
  induction ps with
  | nil =>
    constructor
    · intro old x hx
      simp only [tokenizeLoop, GoM.ok.injEq, Prod.mk.injEq] at hx
      obtain ⟨rfl, rfl⟩ := hx
      rfl
    · intro hx; cases hx
  | cons p ps ih =>
    obtain ⟨i1, i2⟩ := ih
    unfold tokenizeLoop tokenizeLoopL
    cases hp : p.tokens with
    | some ts =>
      simp only
      cases hr : tokenizeLoop g ps with
      | panic =>
        have := i2 hr
        exact ⟨(by intro old x hx; cases hx), fun _ => this⟩
      | ok y =>
        obtain ⟨old, x⟩ := y
        rw [i1 old x hr]
        simp
    | none =>
      simp only
      obtain ⟨h1, h2⟩ := h p.ns
      cases hg : g p.ns with
      | panic =>
        have := h2 hg
        refine ⟨(by intro old x hx; cases hx), fun _ => ?_⟩
        rcases hl : f p.ns with ⟨ns', y⟩
        rw [hl] at this
        simp only at this
        subst this
        rfl
      | ok r =>
        rw [h1 r hg]
        simp only [GoM.bind_ok]
        cases r with
        | error e =>
          simp only [← hp, GoM.ok.injEq, Prod.mk.injEq]
          exact ⟨(by rintro old x ⟨rfl, rfl⟩; exact ⟨rfl, rfl⟩), (by intro hx; cases hx)⟩
        | ok ts =>
          simp only
          cases hr : tokenizeLoop g ps with
          | panic =>
            have := i2 hr
            exact ⟨(by intro old x hx; cases hx), fun _ => this⟩
          | ok y =>
            obtain ⟨old, x⟩ := y
            rw [i1 old x hr]
            simp

/-- **C93, `Tokenize`, agreement.** -/
theorem C93_tokenize_agrees {f : TokenizeFuncL} {g : NS → GoM (Except Err (List Token))} (h : TokenizeAgrees f g) (p : PTS) :
    (∀ p' e, p.tokenize g = .ok (p', e) → tokenizeL f p = (p', .ok e))
      ∧ (p.tokenize g = .panic → (tokenizeL f p).2 = .panic) := by
  obtain ⟨h1, h2⟩ := tokenizeLoop_agrees h p.splits
  unfold PTS.tokenize tokenizeL
  cases hr : tokenizeLoop g p.splits with
  | panic =>
    have := h2 hr
    exact ⟨(by intro old x hx; cases hx), fun _ => this⟩
  | ok y =>
    obtain ⟨old, x⟩ := y
    rw [h1 old x hr]
    simp

/-! ## What a panic or an error leaves -/

def SplitStops (f : SplitFuncL) (k : Nat) (ps : List Piece) : Prop :=
  ∃ pre q post, ps = pre ++ q :: post ∧ q.tokens = none
    ∧ (splitLoopL f k ps).1 = (pre.mapIdx fun i r => if r.tokens = none then { r with ns := (f (k + i) r.ns).1 } else r)
      ++ { q with ns := (f (k + pre.length) q.ns).1 } :: post
    ∧ (∀ i r, pre[i]? = some r → r.tokens = none → ∃ items, (f (k + i) r.ns).2 = .ok (.ok items))
    ∧ (((splitLoopL f k ps).2 = .panic ∧ (f (k + pre.length) q.ns).2 = .panic)
      ∨ ∃ e, (splitLoopL f k ps).2 = .ok (.error e) ∧ (f (k + pre.length) q.ns).2 = .ok (.error e))

/-- **C93, `Split`.**  When the call does not succeed, because its function panicked or returned an error on some split, the splits are the old
ones, in number and order and with their tokens.  The function has been called on the splits without tokens up to that one, and their strings are as it left them. -/
theorem C93_split (f : SplitFuncL) (p : PTS) (h : (splitL f p).2 ≠ .ok none) :
    ∃ pre q post, p.splits = pre ++ q :: post ∧ q.tokens = none ∧ (splitL f p).1.original = p.original
      ∧ (splitL f p).1.splits = (pre.mapIdx fun i r => if r.tokens = none then { r with ns := (f i r.ns).1 } else r)
          ++ { q with ns := (f pre.length q.ns).1 } :: post
      ∧ (∀ i r, pre[i]? = some r → r.tokens = none → ∃ items, (f i r.ns).2 = .ok (.ok items))
      ∧ (((splitL f p).2 = .panic ∧ (f pre.length q.ns).2 = .panic)
        ∨ ∃ e, (splitL f p).2 = .ok (some e) ∧ (f pre.length q.ns).2 = .ok (.error e)) := by
  have loop : ∀ (ps : List Piece) (k : Nat), (∀ new, (splitLoopL f k ps).2 ≠ .ok (.ok new)) → SplitStops f k ps := by
    intro ps
    induction ps with
    | nil => intro k h; exact absurd rfl (h [])
    | cons p ps ih =>
      intro k h
      have eidx : ∀ i, k + 1 + i = k + (i + 1) := fun i => by omega
      -- the function has succeeded on `p` or skipped it
      have go : ∀ (p' : Piece), p' = (if p.tokens = none then { p with ns := (f k p.ns).1 } else p) →
          (p.tokens = none → ∃ items, (f k p.ns).2 = .ok (.ok items)) →
          (splitLoopL f k (p :: ps)).1 = p' :: (splitLoopL f (k + 1) ps).1 →
          ((splitLoopL f (k + 1) ps).2 = .panic → (splitLoopL f k (p :: ps)).2 = .panic) →
          (∀ e, (splitLoopL f (k + 1) ps).2 = .ok (.error e) → (splitLoopL f k (p :: ps)).2 = .ok (.error e)) →
          (∀ new, (splitLoopL f (k + 1) ps).2 ≠ .ok (.ok new)) → SplitStops f k (p :: ps) := by
        intro p' hp' hitems e1 e2 e3 hn
        obtain ⟨pre, q, post, k1, k2, k3, k4, k5⟩ := ih (k + 1) hn
        refine ⟨p :: pre, q, post, by rw [k1]; rfl, k2, ?_, ?_, ?_⟩
        · rw [e1, k3, hp']
          simp only [List.mapIdx_cons, List.cons_append, List.length_cons, Nat.add_zero, eidx]
        · intro i r hr ht
          cases i with
          | zero =>
            simp only [List.getElem?_cons_zero, Option.some.injEq] at hr
            subst hr
            exact hitems ht
          | succ i =>
            simp only [List.getElem?_cons_succ] at hr
            have := k4 i r hr ht
            rwa [eidx] at this
        · simp only [List.length_cons]
          rw [eidx] at k5
          rcases k5 with ⟨a, b⟩ | ⟨e, a, b⟩
          · exact .inl ⟨e2 a, b⟩
          · exact .inr ⟨e, e3 e a, b⟩
      cases hp : p.tokens with
      | some ts =>
        rcases hl : splitLoopL f (k + 1) ps with ⟨old, x⟩
        rw [hl] at go
        have hs : splitLoopL f k (p :: ps) = match (old, x) with
            | (old, .ok (.ok new)) => (p :: old, .ok (.ok (p :: new)))
            | (old, x) => (p :: old, x) := by rw [splitLoopL.eq_def]; simp only [hp, hl]; rcases x with (_ | _) | _ <;> rfl
        have hn : ∀ new, x ≠ .ok (.ok new) := by
          intro new hx
          subst hx
          exact h (p :: new) (by rw [hs])
        refine go p (by simp [hp]) (by simp [hp]) ?_ ?_ ?_ hn
        · rw [hs]; rcases x with (e | new) | _ <;> rfl
        · intro hx; simp only at hx; rw [hs, hx]
        · intro e hx; simp only at hx; rw [hs, hx]
      | none =>
        rcases hf : f k p.ns with ⟨ns', y⟩
        cases y with
        | panic =>
          refine ⟨[], p, ps, rfl, hp, ?_, by simp, .inl ⟨?_, by simp [hf]⟩⟩
          · simp [splitLoopL.eq_def, hp, hf]
          · simp [splitLoopL.eq_def, hp, hf]
        | ok y =>
          cases y with
          | error e =>
            refine ⟨[], p, ps, rfl, hp, ?_, by simp, .inr ⟨e, ?_, by simp [hf]⟩⟩
            · simp [splitLoopL.eq_def, hp, hf]
            · simp [splitLoopL.eq_def, hp, hf]
          | ok items =>
            rcases hl : splitLoopL f (k + 1) ps with ⟨old, x⟩
            rw [hl] at go
            have hs : splitLoopL f k (p :: ps) = match (old, x) with
                | (old, .ok (.ok new)) =>
                  ({ p with ns := ns' } :: old, .ok (.ok (items.filter (fun it => !it.ns.isEmpty) ++ new)))
                | (old, x) => ({ p with ns := ns' } :: old, x) := by rw [splitLoopL.eq_def]; simp only [hp, hf, hl]; rcases x with (_ | _) | _ <;> rfl
            have hn : ∀ new, x ≠ .ok (.ok new) := by
              intro new hx
              subst hx
              exact h _ (by rw [hs])
            refine go { p with ns := ns' } (by simp [hp, hf]) (by simp [hf]) ?_ ?_ ?_ hn
            · rw [hs]; rcases x with (e | new) | _ <;> rfl
            · intro hx; simp only at hx; rw [hs, hx]
            · intro e hx; simp only at hx; rw [hs, hx]
  have hn : ∀ new, (splitLoopL f 0 p.splits).2 ≠ .ok (.ok new) := by
    intro new hx
    apply h
    unfold splitL
    rcases hl : splitLoopL f 0 p.splits with ⟨old, x⟩
    rw [hl] at hx
    simp only at hx
    subst hx
    rfl
  obtain ⟨pre, q, post, k1, k2, k3, k4, k5⟩ := loop p.splits 0 hn
  simp only [Nat.zero_add] at k3 k4 k5
  have hfst : (splitL f p).1 = { p with splits := (splitLoopL f 0 p.splits).1 } := by
    unfold splitL
    rcases hl : splitLoopL f 0 p.splits with ⟨old, (e | new) | _⟩
    · rfl
    · rw [hl] at hn; exact absurd rfl (hn new)
    · rfl
  refine ⟨pre, q, post, k1, k2, by rw [hfst], by rw [hfst]; exact k3, k4, ?_⟩
  rcases k5 with ⟨a, b⟩ | ⟨e, a, b⟩
  · refine .inl ⟨?_, b⟩
    unfold splitL
    rcases hl : splitLoopL f 0 p.splits with ⟨old, x⟩
    rw [hl] at a; simp only at a; subst a; rfl
  · refine .inr ⟨e, ?_, b⟩
    unfold splitL
    rcases hl : splitLoopL f 0 p.splits with ⟨old, x⟩
    rw [hl] at a; simp only at a; subst a; rfl

def NormalizeStops (f : NormalizeFuncL) (ps : List Piece) : Prop :=
      ((normalizeLoopL f ps).2 = .ok none
          ∧ (normalizeLoopL f ps).1 = ps.map (fun r => if r.tokens = none then { r with ns := (f r.ns).1 } else r)
          ∧ ∀ r ∈ ps, r.tokens = none → (f r.ns).2 = .ok none)
        ∨ ∃ pre q post, ps = pre ++ q :: post ∧ q.tokens = none
          ∧ (normalizeLoopL f ps).1 = (pre.map fun r => if r.tokens = none then { r with ns := (f r.ns).1 } else r)
              ++ { q with ns := (f q.ns).1 } :: post
          ∧ (∀ r ∈ pre, r.tokens = none → (f r.ns).2 = .ok none)
          ∧ (normalizeLoopL f ps).2 = (f q.ns).2 ∧ (f q.ns).2 ≠ .ok none

/-- **C93, `Normalize`.**  The splits keep their number, order and tokens, whatever happens.  Up to the first failure the strings of those without tokens
are as the function left them; after it they are as they were. -/
theorem C93_normalize (f : NormalizeFuncL) (p : PTS) :
    (normalizeL f p).1.original = p.original
      ∧ (((normalizeL f p).2 = .ok none
          ∧ (normalizeL f p).1.splits = p.splits.map (fun r => if r.tokens = none then { r with ns := (f r.ns).1 } else r)
          ∧ ∀ r ∈ p.splits, r.tokens = none → (f r.ns).2 = .ok none)
        ∨ ∃ pre q post, p.splits = pre ++ q :: post ∧ q.tokens = none
          ∧ (normalizeL f p).1.splits = (pre.map fun r => if r.tokens = none then { r with ns := (f r.ns).1 } else r)
              ++ { q with ns := (f q.ns).1 } :: post
          ∧ (∀ r ∈ pre, r.tokens = none → (f r.ns).2 = .ok none)
          ∧ (normalizeL f p).2 = (f q.ns).2 ∧ (f q.ns).2 ≠ .ok none) := by
  have loop : ∀ (ps : List Piece), NormalizeStops f ps := by
    intro ps
    induction ps with
    | nil => exact .inl ⟨rfl, rfl, by simp⟩
    | cons p ps ih =>
      have go : ∀ (p' : Piece), p' = (if p.tokens = none then { p with ns := (f p.ns).1 } else p) →
          (p.tokens = none → (f p.ns).2 = .ok none) →
          normalizeLoopL f (p :: ps) = (p' :: (normalizeLoopL f ps).1, (normalizeLoopL f ps).2) → NormalizeStops f (p :: ps) := by
        intro p' hp' ht e
        rcases ih with ⟨a, b, c⟩ | ⟨pre, q, post, a, b, c, d, e1, e2⟩
        · refine .inl ⟨by rw [e]; exact a, by rw [e, b, hp']; rfl, ?_⟩
          intro r hr
          rcases List.mem_cons.1 hr with rfl | hr
          · exact ht
          · exact c r hr
        · refine .inr ⟨p :: pre, q, post, by rw [a]; rfl, b, by rw [e, c, hp']; rfl, ?_, by rw [e]; exact e1, e2⟩
          intro r hr
          rcases List.mem_cons.1 hr with rfl | hr
          · exact ht
          · exact d r hr
      cases hp : p.tokens with
      | some ts => exact go p (by simp [hp]) (by simp [hp]) (by rw [normalizeLoopL.eq_def]; simp only [hp])
      | none =>
        rcases hf : f p.ns with ⟨ns', (_ | e) | _⟩
        · exact go { p with ns := ns' } (by simp [hp, hf]) (by simp [hf]) (by rw [normalizeLoopL.eq_def]; simp only [hp, hf])
        · refine .inr ⟨[], p, ps, rfl, hp, ?_, by simp, ?_, by simp [hf]⟩
          · rw [normalizeLoopL.eq_def]; simp only [hp, hf]; rfl
          · rw [normalizeLoopL.eq_def]; simp only [hp, hf]
        · refine .inr ⟨[], p, ps, rfl, hp, ?_, by simp, ?_, by simp [hf]⟩
          · rw [normalizeLoopL.eq_def]; simp only [hp, hf]; rfl
          · rw [normalizeLoopL.eq_def]; simp only [hp, hf]
  exact ⟨rfl, loop p.splits⟩

/-- What `Tokenize` makes of a split on which its function has succeeded, or which has tokens. -/
def tokenized (f : TokenizeFuncL) (r : Piece) : Piece :=
  match r.tokens, (f r.ns).2 with
  | none, .ok (.ok ts) => ⟨(f r.ns).1, some ts⟩
  | _, _ => r

def TokenizeStops (f : TokenizeFuncL) (ps : List Piece) : Prop :=
      ((tokenizeLoopL f ps).2 = .ok none ∧ (tokenizeLoopL f ps).1 = ps.map (tokenized f)
          ∧ ∀ r ∈ ps, r.tokens = none → ∃ ts, (f r.ns).2 = .ok (.ok ts))
        ∨ ∃ pre q post, ps = pre ++ q :: post ∧ q.tokens = none
          ∧ (tokenizeLoopL f ps).1 = pre.map (tokenized f) ++ { q with ns := (f q.ns).1 } :: post
          ∧ (∀ r ∈ pre, r.tokens = none → ∃ ts, (f r.ns).2 = .ok (.ok ts))
          ∧ (((tokenizeLoopL f ps).2 = .panic ∧ (f q.ns).2 = .panic)
            ∨ ∃ e, (tokenizeLoopL f ps).2 = .ok (some e) ∧ (f q.ns).2 = .ok (.error e))

/-- **C93, `Tokenize`.**  The splits keep their number and order, whatever happens.  Up to the first failure those without tokens have the tokens the function returned,
and the string it left; the split it failed on has the string it left and no tokens; the later ones are as they were. -/
theorem C93_tokenize (f : TokenizeFuncL) (p : PTS) :
    (tokenizeL f p).1.original = p.original
      ∧ (((tokenizeL f p).2 = .ok none ∧ (tokenizeL f p).1.splits = p.splits.map (tokenized f)
          ∧ ∀ r ∈ p.splits, r.tokens = none → ∃ ts, (f r.ns).2 = .ok (.ok ts))
        ∨ ∃ pre q post, p.splits = pre ++ q :: post ∧ q.tokens = none
          ∧ (tokenizeL f p).1.splits = pre.map (tokenized f) ++ { q with ns := (f q.ns).1 } :: post
          ∧ (∀ r ∈ pre, r.tokens = none → ∃ ts, (f r.ns).2 = .ok (.ok ts))
          ∧ (((tokenizeL f p).2 = .panic ∧ (f q.ns).2 = .panic)
            ∨ ∃ e, (tokenizeL f p).2 = .ok (some e) ∧ (f q.ns).2 = .ok (.error e))) := by
  have loop : ∀ (ps : List Piece), TokenizeStops f ps := by
    intro ps
    induction ps with
    | nil => exact .inl ⟨rfl, rfl, by simp⟩
    | cons p ps ih =>
      have go : (p.tokens = none → ∃ ts, (f p.ns).2 = .ok (.ok ts)) →
          tokenizeLoopL f (p :: ps) = (tokenized f p :: (tokenizeLoopL f ps).1, (tokenizeLoopL f ps).2) → TokenizeStops f (p :: ps) := by
        intro ht e
        rcases ih with ⟨a, b, c⟩ | ⟨pre, q, post, a, b, c, d, e1⟩
        · refine .inl ⟨by rw [e]; exact a, by rw [e, b]; rfl, ?_⟩
          intro r hr
          rcases List.mem_cons.1 hr with rfl | hr
          · exact ht
          · exact c r hr
        · refine .inr ⟨p :: pre, q, post, by rw [a]; rfl, b, by rw [e, c]; rfl, ?_, by rw [e]; exact e1⟩
          intro r hr
          rcases List.mem_cons.1 hr with rfl | hr
          · exact ht
          · exact d r hr
      cases hp : p.tokens with
      | some ts => exact go (by simp [hp]) (by rw [tokenizeLoopL.eq_def]; simp only [hp, tokenized])
      | none =>
        rcases hf : f p.ns with ⟨ns', (e | ts) | _⟩
        · refine .inr ⟨[], p, ps, rfl, hp, ?_, by simp, .inr ⟨e, ?_, by simp [hf]⟩⟩
          · rw [tokenizeLoopL.eq_def]; simp only [hp, hf]; rfl
          · rw [tokenizeLoopL.eq_def]; simp only [hp, hf]
        · exact go (by simp [hf]) (by rw [tokenizeLoopL.eq_def]; simp only [hp, hf, tokenized])
        · refine .inr ⟨[], p, ps, rfl, hp, ?_, by simp, .inl ⟨?_, by simp [hf]⟩⟩
          · rw [tokenizeLoopL.eq_def]; simp only [hp, hf]; rfl
          · rw [tokenizeLoopL.eq_def]; simp only [hp, hf]
  exact ⟨rfl, loop p.splits⟩

/-! ## Histories -/

/-- A call with a function that may panic, fail, and change strings. -/
inductive Step where
  | split (f : SplitFuncL)
  | normalize (f : NormalizeFuncL)
  | tokenize (f : TokenizeFuncL)

/-- What is left after the call. -/
def Step.left (p : PTS) : Step → PTS
  | .split f => (splitL f p).1
  | .normalize f => (normalizeL f p).1
  | .tokenize f => (tokenizeL f p).1

/-- A well-formed view of a part of the text. -/
def Sound (root : Str) (ns : NS) : Prop := WF ns ∧ PartOf root ns

/-- The function leaves sound strings sound, also when it panics, and returns sound strings. -/
def Step.Sound (root : Str) : Step → Prop
  | .split f => ∀ i ns, PTS.Sound root ns →
      PTS.Sound root (f i ns).1 ∧ ∀ items, (f i ns).2 = .ok (.ok items) → ∀ it ∈ items, PTS.Sound root it.ns
  | .normalize f => ∀ ns, PTS.Sound root ns → PTS.Sound root (f ns).1
  | .tokenize f => ∀ ns, PTS.Sound root ns → PTS.Sound root (f ns).1

theorem cons_sound {root : Str} {p : Piece} {ps : List Piece} (hp : Sound root p.ns) (hps : ∀ r ∈ ps, Sound root r.ns) :
    ∀ r ∈ p :: ps, Sound root r.ns := List.forall_mem_cons.2 ⟨hp, hps⟩

theorem splitLoopL_sound {root : Str} {f : SplitFuncL} (hf : (Step.split f).Sound root) : ∀ (ps : List Piece) (i : Nat),
    (∀ r ∈ ps, Sound root r.ns) → (∀ r ∈ (splitLoopL f i ps).1, Sound root r.ns)
      ∧ ∀ new, (splitLoopL f i ps).2 = .ok (.ok new) → ∀ r ∈ new, Sound root r.ns := by
  intro ps
  induction ps with
  | nil =>
    intro i _
    refine ⟨by simp [splitLoopL], ?_⟩
    intro new h
    simp only [splitLoopL, GoM.ok.injEq, Except.ok.injEq] at h
    subst h; simp
  | cons p ps ih =>
    intro i h
    have hp0 := h p (by simp)
    obtain ⟨i1, i2⟩ := ih (i + 1) fun r hr => h r (by simp [hr])
    cases hp : p.tokens with
    | some ts =>
      rcases hl : splitLoopL f (i + 1) ps with ⟨old, (e | new) | _⟩ <;> rw [hl] at i1 i2 <;> simp only at i1 i2
        <;> simp only [splitLoopL, hp, hl]
      · exact ⟨cons_sound hp0 i1, by intro new hx; cases hx⟩
      · refine ⟨cons_sound hp0 i1, ?_⟩
        intro new' hx
        simp only [GoM.ok.injEq, Except.ok.injEq] at hx
        subst hx
        exact cons_sound hp0 (i2 new rfl)
      · exact ⟨cons_sound hp0 i1, by intro new hx; cases hx⟩
    | none =>
      obtain ⟨f1, f2⟩ := hf i p.ns hp0
      rcases hfi : f i p.ns with ⟨ns', (e | items) | _⟩ <;> rw [hfi] at f1 f2 <;> simp only at f1 f2
        <;> simp only [splitLoopL, hp, hfi]
      · exact ⟨cons_sound f1 fun r hr => h r (by simp [hr]), by intro new hx; cases hx⟩
      · rcases hl : splitLoopL f (i + 1) ps with ⟨old, (e | new) | _⟩ <;> rw [hl] at i1 i2 <;> simp only at i1 i2 <;> simp only
        · exact ⟨cons_sound f1 i1, by intro new hx; cases hx⟩
        · refine ⟨cons_sound f1 i1, ?_⟩
          intro new' hx
          simp only [GoM.ok.injEq, Except.ok.injEq] at hx
          subst hx
          intro r hr
          rcases List.mem_append.1 hr with hr | hr
          · exact f2 items rfl r (List.mem_filter.1 hr).1
          · exact i2 new rfl r hr
        · exact ⟨cons_sound f1 i1, by intro new hx; cases hx⟩
      · exact ⟨cons_sound f1 fun r hr => h r (by simp [hr]), by intro new hx; cases hx⟩

/-- **C93, one call on splits.** -/
theorem C93_step {root : Str} {p : PTS} (hp : ∀ r ∈ p.splits, Sound root r.ns) (c : Step) (hc : c.Sound root) :
    (c.left p).original = p.original ∧ ∀ r ∈ (c.left p).splits, Sound root r.ns := by
  cases c with
  | split f =>
    obtain ⟨h1, h2⟩ := splitLoopL_sound hc p.splits 0 hp
    simp only [Step.left]
    unfold splitL
    rcases hl : splitLoopL f 0 p.splits with ⟨old, (e | new) | _⟩ <;> rw [hl] at h1 h2
    · exact ⟨rfl, h1⟩
    · exact ⟨rfl, h2 new rfl⟩
    · exact ⟨rfl, h1⟩
  | normalize f =>
    obtain ⟨h0, h⟩ := C93_normalize f p
    refine ⟨h0, ?_⟩
    have hm : ∀ r ∈ p.splits, Sound root (if r.tokens = none then { r with ns := (f r.ns).1 } else r : Piece).ns := by
      intro r hr
      split
      · exact hc _ (hp r hr)
      · exact hp r hr
    simp only [Step.left]
    rcases h with ⟨-, h, -⟩ | ⟨pre, q, post, k1, -, k2, -⟩
    · rw [h]
      intro r hr
      obtain ⟨r', hr', rfl⟩ := List.mem_map.1 hr
      exact hm r' hr'
    · rw [k2]
      intro r hr
      rcases List.mem_append.1 hr with hr | hr
      · obtain ⟨r', hr', rfl⟩ := List.mem_map.1 hr
        exact hm r' (by rw [k1]; simp [hr'])
      · rcases List.mem_cons.1 hr with rfl | hr
        · exact hc _ (hp q (by rw [k1]; simp))
        · exact hp r (by rw [k1]; simp [hr])
  | tokenize f =>
    obtain ⟨h0, h⟩ := C93_tokenize f p
    refine ⟨h0, ?_⟩
    have hm : ∀ r ∈ p.splits, Sound root (tokenized f r).ns := by
      intro r hr
      unfold tokenized
      split
      · exact hc _ (hp r hr)
      · exact hp r hr
    simp only [Step.left]
    rcases h with ⟨-, h, -⟩ | ⟨pre, q, post, k1, -, k2, -⟩
    · rw [h]
      intro r hr
      obtain ⟨r', hr', rfl⟩ := List.mem_map.1 hr
      exact hm r' hr'
    · rw [k2]
      intro r hr
      rcases List.mem_append.1 hr with hr | hr
      · obtain ⟨r', hr', rfl⟩ := List.mem_map.1 hr
        exact hm r' (by rw [k1]; simp [hr'])
      · rcases List.mem_cons.1 hr with rfl | hr
        · exact hc _ (hp q (by rw [k1]; simp))
        · exact hp r (by rw [k1]; simp [hr])

/-- **C93, histories of calls on splits.**  After any calls with sound functions, each error ignored and each panic recovered, every split is still a well-formed view of
the part of the input that its offsets say. -/
theorem C93_splits_history {s : Str} (hs : ValidUtf8 s) (calls : List Step) (hc : ∀ c ∈ calls, c.Sound s) :
    (calls.foldl Step.left (PTS.fromString s)).original = s
      ∧ ∀ r ∈ (calls.foldl Step.left (PTS.fromString s)).splits, WF r.ns
        ∧ goSlice s r.ns.originalOffsets.start r.ns.originalOffsets.stop = .ok r.ns.original := by
  have : ∀ (calls : List Step) (p : PTS), (∀ c ∈ calls, c.Sound s) → p.original = s → (∀ r ∈ p.splits, Sound s r.ns) →
      (calls.foldl Step.left p).original = s ∧ ∀ r ∈ (calls.foldl Step.left p).splits, Sound s r.ns := by
    intro calls
    induction calls with
    | nil => intro p _ h1 h2; exact ⟨h1, h2⟩
    | cons c calls ih =>
      intro p hc h1 h2
      obtain ⟨k1, k2⟩ := C93_step h2 c (hc c (by simp))
      exact ih _ (fun c' hc' => hc c' (by simp [hc'])) (k1.trans h1) k2
  obtain ⟨h1, h2⟩ := this calls (PTS.fromString s) hc rfl (by
    intro r hr
    simp only [PTS.fromString, PTS.fromNormalizedString, List.mem_singleton] at hr
    subst hr
    exact ⟨fromString_wf hs, partOf_fromString s⟩)
  refine ⟨h1, ?_⟩
  intro r hr
  obtain ⟨hw, pre, post, hroot, hsh⟩ := h2 r hr
  refine ⟨hw, ?_⟩
  rw [NS.originalOffsets, hsh, goSlice_eq_ok]
  have hlen := congrArg List.length hroot
  simp only [List.length_append] at hlen
  refine ⟨⟨by simp, by simp [NS.originalLen]; omega, by simp [NS.originalLen]; omega⟩, ?_⟩
  have e : ((pre.length : Int) + (r.ns.original.length : Int)).toNat - pre.length = r.ns.original.length := by omega
  rw [hroot]
  simp [NS.originalLen, e]

/-- Functions made of the changing methods of `NormalizedString`, each of which may panic and be recovered, are sound, whatever they return. -/
theorem C93_sound_calls (root : Str) (calls : List Call) (x : NS → GoM (Option Err)) :
    (Step.normalize fun ns => (calls.foldl Call.left ns, x ns)).Sound root := by
  intro ns h
  have : ∀ (calls : List Call) (ns : NS), Sound root ns → Sound root (calls.foldl Call.left ns) := by
    intro calls
    induction calls with
    | nil => intro ns h; exact h
    | cons c calls ih =>
      intro ns h
      obtain ⟨hw, pre, post, hroot, hsh⟩ := h
      obtain ⟨k1, k2, k3⟩ := C93_call hw c
      exact ih _ ⟨k1, pre, post, by rw [k2]; exact hroot, by rw [k3]; exact hsh⟩
  exact this calls ns h

/-- The function that gives each split to `NormalizedString.Split`, with any pattern, is sound. -/
theorem C93_sound_split (root : Str) (pattern : SplitPattern) (b : Behavior) :
    (Step.split fun _ ns => (ns, match ns.split pattern b with
      | .panic => .panic
      | .ok (.error e) => .ok (.error e)
      | .ok (.ok nss) => .ok (.ok (splitsFromNormalizedStrings nss)))).Sound root := by
  intro i ns h
  refine ⟨h, ?_⟩
  intro items hi it hit
  simp only at hi
  split at hi
  · cases hi
  · cases hi
  · next nss hn =>
    simp only [GoM.ok.injEq, Except.ok.injEq] at hi
    subst hi
    obtain ⟨n, hnm, rfl⟩ := List.mem_map.1 hit
    simp only
    have hall : ∀ (ms : List SplitMatch) (nss : List NS), ns.sliceAll ms = .ok (.ok nss) → ∀ n ∈ nss, Sound root n := by
      intro ms
      induction ms with
      | nil =>
        intro nss h
        simp only [NS.sliceAll, GoM.ok.injEq, Except.ok.injEq] at h
        subst h; simp
      | cons m ms ih =>
        intro nss hs
        unfold NS.sliceAll at hs
        split at hs
        · exact ih nss hs
        · rw [GoM.bind_eq_ok] at hs
          obtain ⟨o, ho, hs⟩ := hs
          cases o with
          | none => simp at hs
          | some piece =>
            simp only at hs
            rw [GoM.bind_eq_ok] at hs
            obtain ⟨y, hy, hs⟩ := hs
            cases y with
            | error e => simp at hs
            | ok rest =>
              simp only [GoM.pure_eq, GoM.ok.injEq, Except.ok.injEq] at hs
              subst hs
              exact List.forall_mem_cons.2 ⟨⟨slice_wf h.1 ho, slice_partOf h.2 ho⟩, ih rest hy⟩
    unfold NS.split at hn
    rw [GoM.bind_eq_ok] at hn
    obtain ⟨y, -, hn⟩ := hn
    cases y with
    | error e => simp at hn
    | ok caps => exact hall _ _ hn n hnm

/-- A function that trims each split and panics on the second: the first and the second are trimmed, the third is not, and no split has got lost. -/
example : normalizeL (fun ns => ((NS.trimLeftRightR true true ns).1, if ns.get = b!"b " then .panic else .ok none))
    ⟨b!"a b c ", [⟨⟨b!"a ", b!"a ", [⟨0, 1⟩, ⟨1, 2⟩], 0⟩, none⟩, ⟨⟨b!"b ", b!"b ", [⟨0, 1⟩, ⟨1, 2⟩], 2⟩, none⟩,
      ⟨⟨b!"c ", b!"c ", [⟨0, 1⟩, ⟨1, 2⟩], 4⟩, none⟩]⟩
    = (⟨b!"a b c ", [⟨⟨b!"a ", b!"a", [⟨0, 1⟩], 0⟩, none⟩, ⟨⟨b!"b ", b!"b", [⟨0, 1⟩], 2⟩, none⟩,
      ⟨⟨b!"c ", b!"c ", [⟨0, 1⟩, ⟨1, 2⟩], 4⟩, none⟩]⟩, .panic) := by decide +kernel

end PTS

end Verif
