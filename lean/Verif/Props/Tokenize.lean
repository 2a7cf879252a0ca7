import Verif.Props.PreTokenized

/-! Properties C58 and C59: `PreTokenizedString.Tokenize` and `PreTokenizedString.Normalize`. -/

set_option autoImplicit false

namespace Verif

/-! ## C58 -/

/-- The split with tokens: its own, or else the ones given for its string. -/
def withTokens (ts : NS → List Token) (sp : Piece) : Piece := ⟨sp.ns, some (sp.tokens.getD (ts sp.ns))⟩

theorem withTokens_some {ts : NS → List Token} {sp : Piece} {t : List Token} (h : sp.tokens = some t) :
    withTokens ts sp = sp := by
  obtain ⟨ns, tk⟩ := sp
  simp only at h; subst h; rfl

theorem tokenizeLoop_ok (f : NS → GoM (Except Err (List Token))) (ts : NS → List Token) :
    ∀ (ps rest : List Piece) (ps' : List Piece) (e : Option Err),
    (∀ sp ∈ ps, sp.tokens = none → f sp.ns = .ok (.ok (ts sp.ns))) →
    PTS.tokenizeLoop f rest = .ok (ps', e) →
    PTS.tokenizeLoop f (ps ++ rest) = .ok (ps.map (withTokens ts) ++ ps', e) := by
  intro ps
  induction ps with
  | nil => intro rest ps' e _ h; exact h
  | cons sp ps ih =>
    intro rest ps' e h hr
    have i1 := ih rest ps' e (fun x hx => h x (by simp [hx])) hr
    rw [List.cons_append]
    unfold PTS.tokenizeLoop
    cases ht : sp.tokens with
    | some t => simp [i1, withTokens_some ht]
    | none =>
      have := h sp (by simp) ht
      simp [this, i1, withTokens, ht]

/-- **C58, success.** If the tokenization function succeeds on every split without tokens,
`Tokenize` succeeds: every split then has tokens, the ones it had or else the ones of its
string; texts, alignments and the order of the splits do not change. -/
theorem C58_tokenize_ok (p : PTS) (f : NS → GoM (Except Err (List Token))) (ts : NS → List Token)
    (h : ∀ sp ∈ p.splits, sp.tokens = none → f sp.ns = .ok (.ok (ts sp.ns))) :
    p.tokenize f = .ok (⟨p.original, p.splits.map (withTokens ts)⟩, none) := by
  have := tokenizeLoop_ok f ts p.splits [] [] none h rfl
  simp only [List.append_nil] at this
  simp [PTS.tokenize, this]

/-- **C58, failure.** If the tokenization function fails on a split without tokens and succeeds
on those before it, `Tokenize` returns that error; the splits before have their tokens, that
split and the ones after it are as they were. -/
theorem C58_tokenize_error (p : PTS) (f : NS → GoM (Except Err (List Token))) (ts : NS → List Token)
    {pre post : List Piece} {sp : Piece} {e : Err} (hp : p.splits = pre ++ sp :: post)
    (h : ∀ q ∈ pre, q.tokens = none → f q.ns = .ok (.ok (ts q.ns)))
    (hsp : sp.tokens = none) (he : f sp.ns = .ok (.error e)) :
    p.tokenize f = .ok (⟨p.original, pre.map (withTokens ts) ++ sp :: post⟩, some e) := by
  have h0 : PTS.tokenizeLoop f (sp :: post) = .ok (sp :: post, some e) := by
    unfold PTS.tokenizeLoop
    simp [hsp, he]
  have := tokenizeLoop_ok f ts pre _ _ _ h h0
  simp [PTS.tokenize, hp, this]

/-- **C58, crash.** `Tokenize` panics only if the tokenization function does. -/
theorem C58_no_panic (p : PTS) (f : NS → GoM (Except Err (List Token)))
    (h : ∀ sp ∈ p.splits, sp.tokens = none → f sp.ns ≠ .panic) : p.tokenize f ≠ .panic := by
  have key : ∀ ps : List Piece, (∀ sp ∈ ps, sp.tokens = none → f sp.ns ≠ .panic) →
      PTS.tokenizeLoop f ps ≠ .panic := by
    intro ps
    induction ps with
    | nil => intro _ h; simp [PTS.tokenizeLoop] at h
    | cons sp ps ih =>
      intro h hp
      have i1 := ih (fun x hx => h x (by simp [hx]))
      unfold PTS.tokenizeLoop at hp
      cases hl : PTS.tokenizeLoop f ps with
      | panic => exact i1 hl
      | ok r =>
        cases ht : sp.tokens with
        | some t => simp [ht, hl] at hp
        | none =>
          have := h sp (by simp) ht
          cases hf : f sp.ns with
          | panic => exact this hf
          | ok r => cases r <;> simp [ht, hl, hf] at hp
  intro hp
  cases hl : PTS.tokenizeLoop f p.splits with
  | panic => exact key _ h hl
  | ok r => simp [PTS.tokenize, hl] at hp

/-! ## C59 -/

/-- The split with its string normalized, unless it has tokens. -/
def withText (g : NS → NS) (sp : Piece) : Piece :=
  match sp.tokens with
  | some _ => sp
  | none => ⟨g sp.ns, none⟩

theorem normalizeLoop_ok (f : NormalizeFunc) (g : NS → NS) :
    ∀ (ps rest : List Piece) (ps' : List Piece) (e : Option Err),
    (∀ sp ∈ ps, sp.tokens = none → f sp.ns = .ok (g sp.ns, none)) →
    PTS.normalizeLoop f rest = .ok (ps', e) →
    PTS.normalizeLoop f (ps ++ rest) = .ok (ps.map (withText g) ++ ps', e) := by
  intro ps
  induction ps with
  | nil => intro rest ps' e _ h; exact h
  | cons sp ps ih =>
    intro rest ps' e h hr
    have i1 := ih rest ps' e (fun x hx => h x (by simp [hx])) hr
    rw [List.cons_append]
    unfold PTS.normalizeLoop
    cases ht : sp.tokens with
    | some t => simp [i1, withText, ht]
    | none =>
      have := h sp (by simp) ht
      simp [this, i1, withText, ht]

/-- **C59, success.** If the normalization succeeds on every split without tokens, `Normalize`
succeeds and replaces the string of exactly those splits by its normalized form; splits with
tokens are as they were. -/
theorem C59_normalize_ok (p : PTS) (f : NormalizeFunc) (g : NS → NS)
    (h : ∀ sp ∈ p.splits, sp.tokens = none → f sp.ns = .ok (g sp.ns, none)) :
    p.normalize f = .ok (⟨p.original, p.splits.map (withText g)⟩, none) := by
  have := normalizeLoop_ok f g p.splits [] [] none h rfl
  simp only [List.append_nil] at this
  simp [PTS.normalize, this]

/-- **C59, failure.** If the normalization fails on a split without tokens and succeeds on
those before it, `Normalize` returns that error; the splits before are normalized, that split
has what the failing call left, the ones after it are as they were. -/
theorem C59_normalize_error (p : PTS) (f : NormalizeFunc) (g : NS → NS)
    {pre post : List Piece} {sp : Piece} {ns' : NS} {e : Err} (hp : p.splits = pre ++ sp :: post)
    (h : ∀ q ∈ pre, q.tokens = none → f q.ns = .ok (g q.ns, none))
    (hsp : sp.tokens = none) (he : f sp.ns = .ok (ns', some e)) :
    p.normalize f = .ok (⟨p.original, pre.map (withText g) ++ ⟨ns', none⟩ :: post⟩, some e) := by
  have h0 : PTS.normalizeLoop f (sp :: post) = .ok (⟨ns', none⟩ :: post, some e) := by
    unfold PTS.normalizeLoop
    simp [hsp, he]
  have := normalizeLoop_ok f g pre _ _ _ h h0
  simp [PTS.normalize, hp, this]

/-! ## Concrete cases -/

example : (PTS.mk b!"a b" [⟨NS.fromString b!"a", none⟩, ⟨NS.fromString b!"b", some []⟩]).tokenize
      (fun ns => .ok (.ok [⟨1, ns.get, ⟨0, 1⟩⟩]))
    = .ok (⟨b!"a b", [⟨NS.fromString b!"a", some [⟨1, b!"a", ⟨0, 1⟩⟩]⟩, ⟨NS.fromString b!"b", some []⟩]⟩, none) := by
  decide +kernel

example : (PTS.mk b!"a b" [⟨NS.fromString b!"a", none⟩, ⟨NS.fromString b!"b", none⟩]).tokenize
      (fun ns => .ok (if ns.get = b!"b" then .error (.ext 3) else .ok []))
    = .ok (⟨b!"a b", [⟨NS.fromString b!"a", some []⟩, ⟨NS.fromString b!"b", none⟩]⟩, some (.ext 3)) := by
  decide +kernel

example : (PTS.mk b!"a b" [⟨NS.fromString b!"a", none⟩, ⟨NS.fromString b!"b", some []⟩]).normalize
      (fun ns => .ok (ns, some (.ext 3)))
    = .ok (⟨b!"a b", [⟨NS.fromString b!"a", none⟩, ⟨NS.fromString b!"b", some []⟩]⟩, some (.ext 3)) := by
  decide +kernel

end Verif
