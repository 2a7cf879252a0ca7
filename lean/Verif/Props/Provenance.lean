import Verif.Props.PreTokenizers
import Verif.Props.History

/-! Property C26: every split of a pre-tokenized string knows where it stands in the input. -/

set_option autoImplicit false

namespace Verif

/-- `ns` comes from `FromString(root)` by some history of calls. -/
def From (root : Str) (ns : NS) : Prop := ∃ ops, runOps (NS.fromString root) ops = .ok ns

theorem From.step {root : Str} {ns ns' : NS} (h : From root ns) {op : Op} (h' : op.run ns = .ok ns') :
    From root ns' := by
  obtain ⟨ops, ho⟩ := h
  refine ⟨ops ++ [op], ?_⟩
  unfold runOps at *
  rw [goFor_append, ho]
  simp [goFor, h']

theorem From.split {root : Str} {ns : NS} (h : From root ns) {pattern : SplitPattern} {b : Behavior}
    {pieces : List NS} (hs : ns.split pattern b = .ok (.ok pieces)) : ∀ p ∈ pieces, From root p := by
  intro p hp
  simp only [NS.split] at hs
  cases hc : pattern ns.normalized with
  | panic => simp [hc] at hs
  | ok r =>
    cases r with
    | error e => simp [hc] at hs
    | ok caps =>
      simp only [hc, GoM.bind_ok] at hs
      obtain ⟨m, -, hm⟩ := (sliceAll_inv ns _ _ hs).exists_left hp
      exact h.step (op := .slice (.normalized m.offsets.start m.offsets.stop)) (by simp [Op.run, hm])

/-- A split function that only produces strings coming from `root` out of such strings. -/
def SplitKeeps (root : Str) (f : SplitFunc) : Prop :=
  ∀ i ns ns' r, From root ns → f i ns = .ok (ns', r) →
    From root ns' ∧ ∀ items, r = .ok items → ∀ it ∈ items, From root it.ns

theorem splitByPattern_keeps (root : Str) (pattern : SplitPattern) (b : Behavior) :
    SplitKeeps root (splitByPattern pattern b) := by
  intro i ns ns' r h hf
  simp only [splitByPattern] at hf
  cases hs : ns.split pattern b with
  | panic => simp [hs] at hf
  | ok x =>
    cases x with
    | error e =>
      simp [hs] at hf
      obtain ⟨rfl, rfl⟩ := hf
      exact ⟨h, by simp⟩
    | ok nss =>
      simp [hs] at hf
      obtain ⟨rfl, rfl⟩ := hf
      refine ⟨h, ?_⟩
      intro items hi it hit
      simp at hi; subst hi
      obtain ⟨p, hp, rfl⟩ := List.mem_map.1 hit
      exact h.split hs p hp

theorem ite_bind {α β : Type} (c : Prop) [Decidable c] (x y : GoM α) (f : α → GoM β) :
    (if c then x >>= f else y >>= f) = (if c then x else y) >>= f := by
  split <;> rfl

theorem metaSpace_keeps (root : Str) (replacement : Rune) (b : Bool) :
    SplitKeeps root (metaSpaceSplitFunc replacement b) := by
  intro i ns ns' r h hf
  simp only [metaSpaceSplitFunc] at hf
  rw [ite_bind, GoM.bind_eq_ok] at hf
  obtain ⟨n1, h1, hf⟩ := hf
  have f1 : From root n1 := by
    split at h1
    · exact h.step (op := .prepend (encodeRune replacement)) h1
    · simp at h1; subst h1; exact h
  cases hr : n1.replace (fromRune 32) (encodeRune replacement) with
  | panic => simp [hr] at hf
  | ok x =>
    cases x with
    | error e =>
      simp [hr] at hf
      obtain ⟨rfl, rfl⟩ := hf
      exact ⟨f1, by simp⟩
    | ok n2 =>
      have f2 : From root n2 := f1.step (op := .replace (fromRune 32) (encodeRune replacement)) (by
        simp [Op.run, hr])
      simp only [hr, GoM.bind_ok] at hf
      exact splitByPattern_keeps root (fromRune replacement) .mergedWithNext 0 n2 ns' r f2 hf

theorem byteLevel_keeps (root : Str) (findAll2 : List Rune → Except Err (List (Nat × Nat))) (b : Bool) :
    SplitKeeps root (byteLevelSplitFunc findAll2 b) := by
  intro i ns ns' r h hf
  simp only [byteLevelSplitFunc] at hf
  rw [ite_bind, GoM.bind_eq_ok] at hf
  obtain ⟨n1, h1, hf⟩ := hf
  have f1 : From root n1 := by
    split at h1
    · exact h.step (op := .prepend [32]) h1
    · simp at h1; subst h1; exact h
  exact splitByPattern_keeps root (fromRegexp2 findAll2) .isolated 0 n1 ns' r f1 hf

/-- All the splits come from `root`. -/
def AllFrom (root : Str) (ps : List Piece) : Prop := ∀ p ∈ ps, From root p.ns

theorem splitLoop_keeps {root : Str} {f : SplitFunc} (hf : SplitKeeps root f) :
    ∀ (ps : List Piece) (i : Nat) old new, AllFrom root ps → PTS.splitLoop f i ps = .ok (old, new) →
      AllFrom root old ∧ ∀ l, new = .ok l → AllFrom root l := by
  intro ps
  induction ps with
  | nil =>
    intro i old new h0 h
    simp [PTS.splitLoop] at h
    obtain ⟨rfl, rfl⟩ := h
    exact ⟨h0, by intro l hl; simp at hl; subst hl; exact h0⟩
  | cons q ps ih =>
    intro i old new h0 h
    have hq := h0 q (by simp)
    have hps : AllFrom root ps := fun p hp => h0 p (by simp [hp])
    have cons : ∀ {a : Piece} {l : List Piece}, From root a.ns → AllFrom root l → AllFrom root (a :: l) := by
      intro a l ha hl p hp
      rcases List.mem_cons.1 hp with rfl | hp
      · exact ha
      · exact hl p hp
    unfold PTS.splitLoop at h
    cases ht : q.tokens with
    | some t =>
      simp only [ht] at h
      cases hl : PTS.splitLoop f (i + 1) ps with
      | panic => simp [hl] at h
      | ok r =>
        obtain ⟨o, n⟩ := r
        obtain ⟨h1, h2⟩ := ih (i + 1) o n hps hl
        simp only [hl, GoM.bind_ok] at h
        cases n with
        | error e =>
          simp at h; obtain ⟨rfl, rfl⟩ := h
          exact ⟨cons hq h1, by simp⟩
        | ok n =>
          simp at h; obtain ⟨rfl, rfl⟩ := h
          refine ⟨cons hq h1, ?_⟩
          intro l hl; simp at hl; subst hl
          exact cons hq (h2 n rfl)
    | none =>
      simp only [ht] at h
      cases hfq : f i q.ns with
      | panic => simp [hfq] at h
      | ok r =>
        obtain ⟨ns', r⟩ := r
        obtain ⟨k1, k2⟩ := hf _ _ _ _ hq hfq
        simp only [hfq, GoM.bind_ok] at h
        cases r with
        | error e =>
          simp at h; obtain ⟨rfl, rfl⟩ := h
          exact ⟨cons k1 hps, by simp⟩
        | ok items =>
          simp only at h
          cases hl : PTS.splitLoop f (i + 1) ps with
          | panic => simp [hl] at h
          | ok r =>
            obtain ⟨o, n⟩ := r
            obtain ⟨h1, h2⟩ := ih (i + 1) o n hps hl
            simp only [hl, GoM.bind_ok] at h
            cases n with
            | error e =>
              simp at h; obtain ⟨rfl, rfl⟩ := h
              exact ⟨cons k1 h1, by simp⟩
            | ok n =>
              simp at h; obtain ⟨rfl, rfl⟩ := h
              refine ⟨cons k1 h1, ?_⟩
              intro l hl; simp at hl; subst hl
              intro p hp
              rcases List.mem_append.1 hp with hp | hp
              · exact k2 items rfl p (List.mem_filter.1 hp).1
              · exact h2 n rfl p hp

theorem split_keeps {root : Str} {f : SplitFunc} (hf : SplitKeeps root f) {pts pts' : PTS} {e : Option Err}
    (h0 : AllFrom root pts.splits) (h : pts.split f = .ok (pts', e)) : AllFrom root pts'.splits := by
  unfold PTS.split at h
  cases hl : PTS.splitLoop f 0 pts.splits with
  | panic => simp [hl] at h
  | ok r =>
    obtain ⟨o, n⟩ := r
    obtain ⟨h1, h2⟩ := splitLoop_keeps hf _ _ _ _ h0 hl
    simp only [hl, GoM.bind_ok] at h
    cases n with
    | error e => simp at h; obtain ⟨rfl, -⟩ := h; exact h1
    | ok n => simp at h; obtain ⟨rfl, -⟩ := h; exact h2 n rfl

theorem normalizeLoop_keeps {root : Str} {f : NormalizeFunc}
    (hf : ∀ ns ns' e, From root ns → f ns = .ok (ns', e) → From root ns') :
    ∀ (ps ps' : List Piece) e, AllFrom root ps → PTS.normalizeLoop f ps = .ok (ps', e) → AllFrom root ps' := by
  intro ps
  induction ps with
  | nil => intro ps' e h0 h; simp [PTS.normalizeLoop] at h; obtain ⟨rfl, -⟩ := h; exact h0
  | cons q ps ih =>
    intro ps' e h0 h
    have hq := h0 q (by simp)
    have hps : AllFrom root ps := fun p hp => h0 p (by simp [hp])
    have cons : ∀ {a : Piece} {l : List Piece}, From root a.ns → AllFrom root l → AllFrom root (a :: l) := by
      intro a l ha hl p hp
      rcases List.mem_cons.1 hp with rfl | hp
      · exact ha
      · exact hl p hp
    unfold PTS.normalizeLoop at h
    cases ht : q.tokens with
    | some t =>
      simp only [ht] at h
      cases hl : PTS.normalizeLoop f ps with
      | panic => simp [hl] at h
      | ok r =>
        obtain ⟨o, n⟩ := r
        simp [hl] at h
        obtain ⟨rfl, rfl⟩ := h
        exact cons hq (ih _ _ hps hl)
    | none =>
      simp only [ht] at h
      cases hfq : f q.ns with
      | panic => simp [hfq] at h
      | ok r =>
        obtain ⟨ns', r⟩ := r
        have k1 := hf _ _ _ hq hfq
        simp only [hfq, GoM.bind_ok] at h
        cases r with
        | some e => simp at h; obtain ⟨rfl, rfl⟩ := h; exact cons k1 hps
        | none =>
          simp only at h
          cases hl : PTS.normalizeLoop f ps with
          | panic => simp [hl] at h
          | ok r =>
            obtain ⟨o, n⟩ := r
            simp [hl] at h
            obtain ⟨rfl, rfl⟩ := h
            exact cons k1 (ih _ _ hps hl)

theorem normalize_keeps {root : Str} {f : NormalizeFunc}
    (hf : ∀ ns ns' e, From root ns → f ns = .ok (ns', e) → From root ns') {pts pts' : PTS} {e : Option Err}
    (h0 : AllFrom root pts.splits) (h : pts.normalize f = .ok (pts', e)) : AllFrom root pts'.splits := by
  unfold PTS.normalize at h
  cases hl : PTS.normalizeLoop f pts.splits with
  | panic => simp [hl] at h
  | ok r =>
    obtain ⟨o, n⟩ := r
    simp [hl] at h
    obtain ⟨rfl, -⟩ := h
    exact normalizeLoop_keeps hf _ _ _ h0 hl

theorem byteLevelNormalize_keeps (root : Str) : ∀ ns ns' e, From root ns →
    byteLevelNormalize ns = .ok (ns', e) → From root ns' := by
  intro ns ns' e h hb
  simp only [byteLevelNormalize] at hb
  rw [GoM.bind_eq_ok] at hb
  obtain ⟨ch, -, hb⟩ := hb
  rw [GoM.bind_eq_ok] at hb
  obtain ⟨n1, h1, hb⟩ := hb
  simp at hb
  obtain ⟨rfl, -⟩ := hb
  exact h.step (op := .transform ch 0) h1

/-- The built-in pre-tokenizers, with any parameters; and, between them, normalizing every
split with any sequence of `NormalizedString` calls. -/
inductive PreTok where
  | whiteSpaceSplit
  | bert (u : Uni)
  | runeDelimiter (d : Rune)
  | whiteSpace (findAll2 : List Rune → Except Err (List (Nat × Nat)))
  | metaSpace (replacement : Rune) (prefixSpace : Bool)
  | byteLevel (findAll2 : List Rune → Except Err (List (Nat × Nat))) (prefixSpace : Bool)
  | normalize (ops : List Op)

/-- Running one of them; the state after an error is kept. -/
def PreTok.run (pts : PTS) : PreTok → GoM PTS
  | .whiteSpaceSplit => do let r ← Verif.whiteSpaceSplit pts; pure r.1
  | .bert u => do let r ← bertPreTokenize u pts; pure r.1
  | .runeDelimiter d => do let r ← Verif.runeDelimiter d pts; pure r.1
  | .whiteSpace fa => do let r ← whiteSpacePreTokenize fa pts; pure r.1
  | .metaSpace c b => do let r ← Verif.metaSpace c b pts; pure r.1
  | .byteLevel fa b => do let r ← Verif.byteLevel fa b pts; pure r.1
  | .normalize ops => do
    let r ← pts.normalize (fun ns => do let ns ← runOps ns ops; pure (ns, none))
    pure r.1

theorem PreTok.run_keeps {root : Str} {pts pts' : PTS} (t : PreTok) (h0 : AllFrom root pts.splits)
    (h : t.run pts = .ok pts') : AllFrom root pts'.splits := by
  cases t with
  | whiteSpaceSplit =>
    simp only [PreTok.run, GoM.bind_eq_ok] at h
    obtain ⟨⟨p, e⟩, h1, h2⟩ := h
    simp at h2; subst h2
    exact split_keeps (splitByPattern_keeps root _ _) h0 h1
  | runeDelimiter d =>
    simp only [PreTok.run, GoM.bind_eq_ok] at h
    obtain ⟨⟨p, e⟩, h1, h2⟩ := h
    simp at h2; subst h2
    exact split_keeps (splitByPattern_keeps root _ _) h0 h1
  | whiteSpace fa =>
    simp only [PreTok.run, GoM.bind_eq_ok] at h
    obtain ⟨⟨p, e⟩, h1, h2⟩ := h
    simp at h2; subst h2
    exact split_keeps (splitByPattern_keeps root _ _) h0 h1
  | metaSpace c b =>
    simp only [PreTok.run, GoM.bind_eq_ok] at h
    obtain ⟨⟨p, e⟩, h1, h2⟩ := h
    simp at h2; subst h2
    exact split_keeps (metaSpace_keeps root _ _) h0 h1
  | bert u =>
    simp only [PreTok.run, GoM.bind_eq_ok] at h
    obtain ⟨⟨p, e⟩, h1, h2⟩ := h
    simp at h2; subst h2
    simp only [bertPreTokenize, GoM.bind_eq_ok] at h1
    obtain ⟨⟨p1, e1⟩, k1, k2⟩ := h1
    have a1 := split_keeps (splitByPattern_keeps root _ _) h0 k1
    cases e1 with
    | some e1 => simp at k2; obtain ⟨rfl, -⟩ := k2; exact a1
    | none => exact split_keeps (splitByPattern_keeps root _ _) a1 k2
  | byteLevel fa b =>
    simp only [PreTok.run, GoM.bind_eq_ok] at h
    obtain ⟨⟨p, e⟩, h1, h2⟩ := h
    simp at h2; subst h2
    simp only [Verif.byteLevel, GoM.bind_eq_ok] at h1
    obtain ⟨⟨p1, e1⟩, k1, k2⟩ := h1
    have a1 := split_keeps (byteLevel_keeps root _ _) h0 k1
    cases e1 with
    | some e1 => simp at k2; obtain ⟨rfl, -⟩ := k2; exact a1
    | none => exact normalize_keeps (byteLevelNormalize_keeps root) a1 k2
  | normalize ops =>
    simp only [PreTok.run, GoM.bind_eq_ok] at h
    obtain ⟨⟨p, e⟩, h1, h2⟩ := h
    simp at h2; subst h2
    refine normalize_keeps ?_ h0 h1
    intro ns ns' e hfrom hr
    simp only [GoM.bind_eq_ok] at hr
    obtain ⟨n, hn, hr⟩ := hr
    simp at hr; obtain ⟨rfl, -⟩ := hr
    obtain ⟨ops0, ho⟩ := hfrom
    refine ⟨ops0 ++ ops, ?_⟩
    unfold runOps at *
    rw [goFor_append, ho]
    exact hn

/-- **C26.** After `FromString(input)` of valid UTF-8 and any sequence of built-in
pre-tokenizers (and normalizations), every split's `OriginalOffsets` are in bounds and select
in the input exactly the split's original text; `GetOriginalByteSplits` reports those
offsets, with the text and the tokens of the split. -/
theorem C26_original_splits {input : Str} (hv : ValidUtf8 input) {ts : List PreTok} {pts : PTS}
    (h : goFor ts (PTS.fromString input) PreTok.run = .ok pts) :
    (∀ sp ∈ pts.splits, goSlice input sp.ns.originalOffsets.start sp.ns.originalOffsets.stop
        = .ok sp.ns.getOriginal ∧ Reachable sp.ns)
    ∧ pts.getOriginalByteSplits.map (·.offsets) = pts.splits.map (fun sp => sp.ns.originalOffsets)
    ∧ pts.getOriginalByteSplits.map (·.string) = pts.splits.map (fun sp => sp.ns.get)
    ∧ pts.getOriginalByteSplits.map (·.tokens) = pts.splits.map (·.tokens) := by
  constructor
  · have : AllFrom input pts.splits := by
      refine goFor_inv (P := fun p => AllFrom input p.splits) ts _ _ _ ?_ ?_ h
      · intro p hp
        simp [PTS.fromString, PTS.fromNormalizedString] at hp
        subst hp
        exact ⟨[], rfl⟩
      · intro s x s' _ h1 h2
        exact x.run_keeps h1 h2
    intro sp hsp
    obtain ⟨ops, ho⟩ := this sp hsp
    exact ⟨C03_provenance ho, .of_ops hv ho⟩
  · simp [PTS.getOriginalByteSplits, Function.comp_def]

example : (goFor [.metaSpace u!"▁" true, .normalize [.map (fun r => r + 1)], .runeDelimiter u!"c"]
    (PTS.fromString b!"éb c") PreTok.run).bind
    (fun p => .ok (p.getOriginalByteSplits.map fun b => (b.string, b.offsets)))
    = .ok [(b!"▂ê", ⟨0, 2⟩), (b!"▂d", ⟨3, 5⟩)] := by decide +kernel

end Verif
