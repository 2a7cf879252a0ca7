import Verif.Model.ClosuresPTS
import Verif.Model.Notation
import Verif.Props.Recover

/-! Functions with a memory of their own, given to `Split`, `Normalize` and `Tokenize` (C147). -/

set_option autoImplicit false

namespace Verif

variable {σ β : Type}

/-! ## Specification -/

/-- The function is called once for each split without tokens, in order, with the number of the split, and answers each time.  For each
split: nothing if it had tokens, or the string as the call left it and the answer. -/
inductive Turns (f : Nat → Left (NS × σ) (Except Err β)) : Nat → List Piece → σ → List (Piece × Option (NS × β)) → σ → Prop
  | nil (i : Nat) (s : σ) : Turns f i [] s [] s
  | skip {i : Nat} {p : Piece} {ps : List Piece} {s s' : σ} {xs : List (Piece × Option (NS × β))} :
      p.tokens ≠ none → Turns f (i + 1) ps s xs s' → Turns f i (p :: ps) s ((p, none) :: xs) s'
  | turn {i : Nat} {p : Piece} {ps : List Piece} {s s' s'' : σ} {ns' : NS} {b : β} {xs : List (Piece × Option (NS × β))} :
      p.tokens = none → f i (p.ns, s) = ((ns', s'), .ok (.ok b)) → Turns f (i + 1) ps s' xs s'' →
      Turns f i (p :: ps) s ((p, some (ns', b)) :: xs) s''

/-- What the whole call gives back if one call of the function does not answer. -/
def gaveUp : GoM (Except Err β) → Option (GoM (Option Err))
  | .panic => some .panic
  | .ok (.error e) => some (.ok (some e))
  | .ok (.ok _) => none

/-- The function answers for the splits in front of `q`, and not for `q`: its string is left as `ns'`, the memory as `s'`, and the whole
call gives `o`. -/
structure FailsAt (f : Nat → Left (NS × σ) (Except Err β)) (ps : List Piece) (s : σ) (xs : List (Piece × Option (NS × β))) (q : Piece)
    (rest : List Piece) (ns' : NS) (s' : σ) (o : GoM (Option Err)) : Prop where
  done : ∃ before s₁ x, ps = before ++ q :: rest ∧ Turns f 0 before s xs s₁ ∧ f before.length (q.ns, s₁) = ((ns', s'), x) ∧ gaveUp x = some o
  fresh : q.tokens = none

/-- A split as the call left it. -/
def leftBy (x : Piece × Option (NS × β)) : Piece :=
  match x.2 with
  | none => x.1
  | some (ns', _) => ⟨ns', none⟩

/-- What `Split` puts in place of a split. -/
def replacedBy (x : Piece × Option (NS × List Piece)) : List Piece :=
  match x.2 with
  | none => [x.1]
  | some (_, items) => items.filter fun it => it.ns.normalized ≠ []

/-- What `Tokenize` makes of a split. -/
def tokenizedBy (x : Piece × Option (NS × List Token)) : Piece :=
  match x.2 with
  | none => x.1
  | some (ns', ts) => ⟨ns', some ts⟩

/-- No error is an answer. -/
def verdict : GoM (Option Err) → GoM (Except Err Unit)
  | .panic => .panic
  | .ok none => .ok (.ok ())
  | .ok (some e) => .ok (.error e)

/-- A function for `Normalize`, as one that answers. -/
def judged (f : Left (NS × σ) (Option Err)) : Nat → Left (NS × σ) (Except Err Unit) := fun _ w => ((f w).1, verdict (f w).2)

/-! ## Proofs -/

/-- Either all calls answer or one is the first that does not. -/
theorem turns_or_fails (f : Nat → Left (NS × σ) (Except Err β)) (ps : List Piece) (s : σ) :
    (∃ xs s', Turns f 0 ps s xs s') ∨ ∃ xs q rest ns' s' o, FailsAt f ps s xs q rest ns' s' o := by
  have key : ∀ (ps : List Piece) (i : Nat) (s : σ), (∃ xs s', Turns f i ps s xs s')
      ∨ ∃ before q rest xs s₁ ns' s' x o, ps = before ++ q :: rest ∧ Turns f i before s xs s₁
        ∧ f (i + before.length) (q.ns, s₁) = ((ns', s'), x) ∧ gaveUp x = some o ∧ q.tokens = none := by
    intro ps
    induction ps with
    | nil => intro i s; exact .inl ⟨[], s, .nil i s⟩
    | cons p ps ih =>
      intro i s
      by_cases ht : p.tokens = none
      · cases hf : f i (p.ns, s) with
        | mk w x =>
          obtain ⟨ns', s'⟩ := w
          have stop : ∀ o, gaveUp x = some o → ∃ before q rest xs s₁ ns' s' x o, p :: ps = before ++ q :: rest ∧ Turns f i before s xs s₁
              ∧ f (i + before.length) (q.ns, s₁) = ((ns', s'), x) ∧ gaveUp x = some o ∧ q.tokens = none :=
            fun o ho => ⟨[], p, ps, [], s, ns', s', x, o, rfl, .nil i s, hf, ho, ht⟩
          match x, hf, stop with
          | .panic, _, stop => exact .inr (stop _ rfl)
          | .ok (.error e), _, stop => exact .inr (stop _ rfl)
          | .ok (.ok b), hf, _ =>
            rcases ih (i + 1) s' with ⟨xs, s'', h⟩ | ⟨before, q, rest, xs, s₁, ns₂, s₂, x, o, h1, h2, h3, h4, h5⟩
            · exact .inl ⟨_, _, .turn ht hf h⟩
            · refine .inr ⟨p :: before, q, rest, _, s₁, ns₂, s₂, x, o, by rw [h1]; rfl, .turn ht hf h2, ?_, h4, h5⟩
              rw [← h3]
              congr 1
              simp only [List.length_cons]
              omega
      · rcases ih (i + 1) s with ⟨xs, s'', h⟩ | ⟨before, q, rest, xs, s₁, ns₂, s₂, x, o, h1, h2, h3, h4, h5⟩
        · exact .inl ⟨_, _, .skip ht h⟩
        · refine .inr ⟨p :: before, q, rest, _, s₁, ns₂, s₂, x, o, by rw [h1]; rfl, .skip ht h2, ?_, h4, h5⟩
          rw [← h3]
          congr 1
          simp only [List.length_cons]
          omega
  rcases key ps 0 s with h | ⟨before, q, rest, xs, s₁, ns', s', x, o, h1, h2, h3, h4, h5⟩
  · exact .inl h
  · exact .inr ⟨xs, q, rest, ns', s', o, ⟨before, s₁, x, h1, h2, by simpa using h3, h4⟩, h5⟩

/-! ### Split -/

/-- Putting what was done in front of the rest of the loop. -/
def splitAfter (xs : List (Piece × Option (NS × List Piece))) (y : (List Piece × σ) × GoM (Except Err (List Piece))) :
    (List Piece × σ) × GoM (Except Err (List Piece)) :=
  ((xs.map leftBy ++ y.1.1, y.1.2), match y.2 with
    | .ok (.ok new) => .ok (.ok (xs.flatMap replacedBy ++ new))
    | x => x)

theorem splitLoopC_done {f : Nat → Left (NS × σ) (Except Err (List Piece))} {i : Nat} {ps : List Piece} {s s' : σ}
    {xs : List (Piece × Option (NS × List Piece))} (h : Turns f i ps s xs s') (rest : List Piece) :
    PTS.splitLoopC f i (ps ++ rest) s = splitAfter xs (PTS.splitLoopC f (i + ps.length) rest s') := by
  induction h with
  | nil i s =>
    simp only [List.nil_append, List.length_nil, Nat.add_zero, splitAfter, List.map_nil, List.flatMap_nil]
    rcases PTS.splitLoopC f i rest s with ⟨⟨old, s⟩, x⟩
    rcases x with (_ | _) | _ <;> rfl
  | @skip i p ps s s' xs ht _ ih =>
    obtain ⟨ts, hts⟩ := Option.ne_none_iff_exists'.1 ht
    rw [List.cons_append, PTS.splitLoopC, hts]
    simp only
    rw [ih, show i + 1 + ps.length = i + (p :: ps).length by simp; omega]
    rcases PTS.splitLoopC f (i + (p :: ps).length) rest s' with ⟨⟨old, s⟩, x⟩
    rcases x with (_ | _) | _ <;> rfl
  | @turn i p ps s s' s'' ns' b xs ht hf _ ih =>
    rw [List.cons_append, PTS.splitLoopC, ht]
    simp only
    rw [hf]
    simp only
    rw [ih, show i + 1 + ps.length = i + (p :: ps).length by simp; omega]
    have hp : ({ p with ns := ns' } : Piece) = ⟨ns', none⟩ := by rw [← ht]
    have hit : b.filter (fun it => !it.ns.isEmpty) = b.filter fun it => it.ns.normalized ≠ [] := by
      apply List.filter_congr
      intro it _
      cases h : it.ns.normalized <;> simp [NS.isEmpty, h]
    rcases PTS.splitLoopC f (i + (p :: ps).length) rest s'' with ⟨⟨old, s⟩, x⟩
    rcases x with (_ | _) | _
    · simp only [splitAfter, List.map_cons, List.cons_append, leftBy]
    · simp only [splitAfter, List.map_cons, List.cons_append, leftBy, List.flatMap_cons, replacedBy, hit, List.append_assoc]
    · simp only [splitAfter, List.map_cons, List.cons_append, leftBy]

/-- **C147, Split.** -/
theorem C147_split (p : PTS) (s : σ) (f : Nat → Left (NS × σ) (Except Err (List Piece))) :
    (∀ xs s', Turns f 0 p.splits s xs s' → PTS.splitC f (p, s) = (({ p with splits := xs.flatMap replacedBy }, s'), .ok none))
    ∧ ∀ xs q rest ns' s' o, FailsAt f p.splits s xs q rest ns' s' o →
        PTS.splitC f (p, s) = (({ p with splits := xs.map leftBy ++ ⟨ns', none⟩ :: rest }, s'), o) := by
  constructor
  · intro xs s' h
    have := splitLoopC_done h []
    rw [List.append_nil] at this
    simp only [PTS.splitC, this, splitAfter, PTS.splitLoopC, List.append_nil]
  · rintro xs q rest ns' s' o ⟨⟨before, s₁, x, h1, h2, h3, h4⟩, hq⟩
    have := splitLoopC_done h2 (q :: rest)
    simp only [PTS.splitC, h1, this, splitAfter]
    rw [PTS.splitLoopC, hq]
    simp only [Nat.zero_add]
    rw [h3]
    rcases x with (e | b) | _
    · cases h4; rfl
    · cases h4
    · cases h4; rfl

/-! ### Normalize -/

theorem normalizeLoopC_done {f : Left (NS × σ) (Option Err)} {i : Nat} {ps : List Piece} {s s' : σ} {xs : List (Piece × Option (NS × Unit))}
    (h : Turns (judged f) i ps s xs s') (rest : List Piece) :
    PTS.normalizeLoopC f (ps ++ rest) s = ((xs.map leftBy ++ (PTS.normalizeLoopC f rest s').1.1, (PTS.normalizeLoopC f rest s').1.2),
      (PTS.normalizeLoopC f rest s').2) := by
  induction h with
  | nil i s => rfl
  | @skip i p ps s s' xs ht _ ih =>
    obtain ⟨ts, hts⟩ := Option.ne_none_iff_exists'.1 ht
    rw [List.cons_append, PTS.normalizeLoopC, hts]
    simp only
    rw [ih]
    rfl
  | @turn i p ps s s' s'' ns' b xs ht hf _ ih =>
    have hf' : f (p.ns, s) = ((ns', s'), .ok none) := by
      unfold judged at hf
      rcases hx : f (p.ns, s) with ⟨w, x⟩
      rw [hx] at hf
      rcases x with (_ | e) | _
      · simp only [verdict, Prod.mk.injEq] at hf
        rw [hf.1]
      · simp [verdict] at hf
      · simp [verdict] at hf
    rw [List.cons_append, PTS.normalizeLoopC, ht]
    simp only
    rw [hf']
    simp only
    rw [ih]
    simp only [List.map_cons, List.cons_append, leftBy]

/-- **C147, Normalize.** -/
theorem C147_normalize (p : PTS) (s : σ) (f : Left (NS × σ) (Option Err)) :
    (∀ xs s', Turns (judged f) 0 p.splits s xs s' → PTS.normalizeC f (p, s) = (({ p with splits := xs.map leftBy }, s'), .ok none))
    ∧ ∀ xs q rest ns' s' o, FailsAt (judged f) p.splits s xs q rest ns' s' o →
        PTS.normalizeC f (p, s) = (({ p with splits := xs.map leftBy ++ ⟨ns', none⟩ :: rest }, s'), o) := by
  constructor
  · intro xs s' h
    have := normalizeLoopC_done h []
    rw [List.append_nil] at this
    simp only [PTS.normalizeC, this, PTS.normalizeLoopC, List.append_nil]
  · rintro xs q rest ns' s' o ⟨⟨before, s₁, x, h1, h2, h3, h4⟩, hq⟩
    have := normalizeLoopC_done h2 (q :: rest)
    have hl : PTS.normalizeLoopC f (q :: rest) s₁ = ((⟨ns', none⟩ :: rest, s'), o) := by
      unfold judged at h3
      rw [PTS.normalizeLoopC, hq]
      simp only
      rcases hx : f (q.ns, s₁) with ⟨w, y⟩
      rw [hx] at h3
      simp only [Prod.mk.injEq] at h3
      obtain ⟨rfl, rfl⟩ := h3
      rcases y with (_ | e) | _
      · cases h4
      · cases h4; rfl
      · cases h4; rfl
    simp only [PTS.normalizeC, h1, this, hl]

/-! ### Tokenize -/

theorem tokenizeLoopC_done {f : Left (NS × σ) (Except Err (List Token))} {i : Nat} {ps : List Piece} {s s' : σ}
    {xs : List (Piece × Option (NS × List Token))} (h : Turns (fun _ => f) i ps s xs s') (rest : List Piece) :
    PTS.tokenizeLoopC f (ps ++ rest) s = ((xs.map tokenizedBy ++ (PTS.tokenizeLoopC f rest s').1.1, (PTS.tokenizeLoopC f rest s').1.2),
      (PTS.tokenizeLoopC f rest s').2) := by
  induction h with
  | nil i s => rfl
  | @skip i p ps s s' xs ht _ ih =>
    obtain ⟨ts, hts⟩ := Option.ne_none_iff_exists'.1 ht
    rw [List.cons_append, PTS.tokenizeLoopC, hts]
    simp only
    rw [ih]
    rfl
  | @turn i p ps s s' s'' ns' b xs ht hf _ ih =>
    rw [List.cons_append, PTS.tokenizeLoopC, ht]
    simp only
    rw [hf]
    simp only
    rw [ih]
    rfl

/-- **C147, Tokenize.** -/
theorem C147_tokenize (p : PTS) (s : σ) (f : Left (NS × σ) (Except Err (List Token))) :
    (∀ xs s', Turns (fun _ => f) 0 p.splits s xs s' → PTS.tokenizeC f (p, s) = (({ p with splits := xs.map tokenizedBy }, s'), .ok none))
    ∧ ∀ xs q rest ns' s' o, FailsAt (fun _ => f) p.splits s xs q rest ns' s' o →
        PTS.tokenizeC f (p, s) = (({ p with splits := xs.map tokenizedBy ++ ⟨ns', none⟩ :: rest }, s'), o) := by
  constructor
  · intro xs s' h
    have := tokenizeLoopC_done h []
    rw [List.append_nil] at this
    simp only [PTS.tokenizeC, this, PTS.tokenizeLoopC, List.append_nil]
  · rintro xs q rest ns' s' o ⟨⟨before, s₁, x, h1, h2, h3, h4⟩, hq⟩
    have := tokenizeLoopC_done h2 (q :: rest)
    have hl : PTS.tokenizeLoopC f (q :: rest) s₁ = ((⟨ns', none⟩ :: rest, s'), o) := by
      rw [PTS.tokenizeLoopC, hq]
      simp only
      rw [h3]
      rcases x with (e | b) | _
      · cases h4; rfl
      · cases h4
      · cases h4; rfl
    simp only [PTS.tokenizeC, h1, this, hl]

/-! ### A memory that gives nothing away -/

/-- **C147, memory that does not show.** If what the function remembers changes no answer (as with a cache that is right), `Tokenize` does
what it does with a function without memory. `Ok` are the memories in which the answers are right. -/
theorem C147_cache (p : PTS) (f : Left (NS × σ) (Except Err (List Token))) (g : PTS.TokenizeFuncL) (Ok : σ → Prop)
    (h : ∀ ns s, Ok s → (f (ns, s)).1.1 = (g ns).1 ∧ Ok (f (ns, s)).1.2 ∧ (f (ns, s)).2 = (g ns).2) (s : σ) (hs : Ok s) :
    (PTS.tokenizeC f (p, s)).1.1 = (PTS.tokenizeL g p).1 ∧ (PTS.tokenizeC f (p, s)).2 = (PTS.tokenizeL g p).2
    ∧ Ok (PTS.tokenizeC f (p, s)).1.2 := by
  have key : ∀ (ps : List Piece) (s : σ), Ok s → (PTS.tokenizeLoopC f ps s).1.1 = (PTS.tokenizeLoopL g ps).1
      ∧ (PTS.tokenizeLoopC f ps s).2 = (PTS.tokenizeLoopL g ps).2 ∧ Ok (PTS.tokenizeLoopC f ps s).1.2 := by
    intro ps
    induction ps with
    | nil => intro s hs; exact ⟨rfl, rfl, hs⟩
    | cons q ps ih =>
      intro s hs
      rw [PTS.tokenizeLoopC, PTS.tokenizeLoopL]
      cases hq : q.tokens with
      | some ts =>
        obtain ⟨h1, h2, h3⟩ := ih s hs
        exact ⟨by simp only [h1], h2, h3⟩
      | none =>
        obtain ⟨h1, h2, h3⟩ := h q.ns s hs
        simp only
        rcases hx : f (q.ns, s) with ⟨⟨ns', s'⟩, x⟩
        rcases hy : g q.ns with ⟨ns₂, y⟩
        rw [hx, hy] at h1 h3
        rw [hx] at h2
        simp only at h1 h2 h3
        subst h1 h3
        rcases x with (e | ts) | _
        · exact ⟨rfl, rfl, h2⟩
        · obtain ⟨k1, k2, k3⟩ := ih s' h2
          exact ⟨by simp only [k1], k2, k3⟩
        · exact ⟨rfl, rfl, h2⟩
  obtain ⟨h1, h2, h3⟩ := key p.splits s hs
  refine ⟨?_, ?_, ?_⟩
  · simp only [PTS.tokenizeC, PTS.tokenizeL, h1]
  · simp only [PTS.tokenizeC, PTS.tokenizeL, h2]
  · simp only [PTS.tokenizeC, h3]

/-! ## Concrete -/

/-- Three splits, the second with tokens; a function that numbers its answers, and one that empties its string and
panics the second time. -/
theorem C147_example :
    let p : PTS := ⟨b!"abc", [⟨NS.fromString b!"a", none⟩, ⟨NS.fromString b!"b", some []⟩, ⟨NS.fromString b!"c", none⟩]⟩
    PTS.tokenizeC (fun w => ((w.1, w.2 + 1), .ok (.ok [⟨w.2, b!"x", ⟨0, 1⟩⟩]))) (p, (7 : Int))
      = ((⟨b!"abc", [⟨NS.fromString b!"a", some [⟨7, b!"x", ⟨0, 1⟩⟩]⟩, ⟨NS.fromString b!"b", some []⟩,
          ⟨NS.fromString b!"c", some [⟨8, b!"x", ⟨0, 1⟩⟩]⟩]⟩, 9), .ok none)
    ∧ PTS.splitC (fun i w => ((NS.fromString [], i + w.2 + 1), if w.2 = 0 then .ok (.ok [⟨w.1, none⟩, ⟨NS.fromString [], none⟩]) else .panic)) (p, 0)
      = ((⟨b!"abc", [⟨NS.fromString [], none⟩, ⟨NS.fromString b!"b", some []⟩, ⟨NS.fromString [], none⟩]⟩, 4), .panic) := by
  decide +kernel

end Verif
