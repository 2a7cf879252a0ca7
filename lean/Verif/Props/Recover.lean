import Verif.Model.Recover
import Verif.Props.History
import Verif.Model.Notation

/-! C93: what is left when a call panics. -/

set_option autoImplicit false

namespace Verif

namespace Left

variable {σ α β : Type}

@[simp] theorem pure_apply (a : α) (s : σ) : (pure a : Left σ α) s = (s, .ok a) := rfl

theorem bind_apply (x : Left σ α) (f : α → Left σ β) (s : σ) :
    (x >>= f) s = match x s with
      | (s', .ok a) => f a s'
      | (s', .panic) => (s', .panic) := rfl

@[simp] theorem get_bind (f : σ → Left σ β) (s : σ) : ((get : Left σ σ) >>= f) s = f s s := rfl

@[simp] theorem set_bind (t : σ) (f : Unit → Left σ β) (s : σ) : ((set t : Left σ Unit) >>= f) s = f () t := rfl

@[simp] theorem set_apply (t s : σ) : (set t : Left σ Unit) s = (t, .ok ()) := rfl

@[simp] theorem lift_ok (a : α) (f : α → Left σ β) (s : σ) : ((lift (.ok a) : Left σ α) >>= f) s = f a s := rfl

@[simp] theorem lift_panic (f : α → Left σ β) (s : σ) : ((lift .panic : Left σ α) >>= f) s = (s, .panic) := rfl

end Left

/-- All or nothing: the new state if there is one, and else the old one with the panic. -/
def settle (ns : NS) : GoM NS → NS × GoM Unit
  | .ok ns' => (ns', .ok ())
  | .panic => (ns, .panic)

@[simp] theorem settle_ok (ns ns' : NS) : settle ns (.ok ns') = (ns', .ok ()) := rfl
@[simp] theorem settle_panic (ns : NS) : settle ns .panic = (ns, .panic) := rfl

/-- **C93, `TransformRange`.**  On any state, with any arguments: a call that panics leaves the string as it was. -/
theorem C93_transformRange (ns : NS) (r : Rng) (dest : List RuneChange) (io : Int) :
    NS.transformRangeL r dest io ns = settle ns (ns.transformRange r dest io) := by
  unfold NS.transformRangeL NS.transformRange
  rw [Left.get_bind]
  cases ns.coerceRangeToNormalized r with
  | none => rfl
  | some ab =>
    obtain ⟨a, b⟩ := ab
    simp only
    unfold NS.transformNormalized
    cases h1 : goSlice ns.normalized a b with
    | panic => rfl
    | ok replaced =>
      simp only [Left.lift_ok, GoM.bind_ok]
      cases goSlice replaced 0 io with
      | panic => rfl
      | ok initial =>
        simp only [Left.lift_ok, GoM.bind_ok]
        cases goSlice replaced io replaced.length with
        | panic => rfl
        | ok tail =>
          simp only [Left.lift_ok, GoM.bind_ok]
          cases goFor dest ({ offset := (initial.length : Int) + a, repl := runesOf tail, aligns := [], out := [] } : TState)
              (transformStep ns.alignments) with
          | panic => rfl
          | ok st =>
            simp only [Left.lift_ok, GoM.bind_ok]
            cases goSlice ns.alignments 0 a with
            | panic => rfl
            | ok alPre =>
              simp only [Left.lift_ok, GoM.bind_ok]
              cases goSlice ns.alignments b ns.alignments.length with
              | panic => rfl
              | ok alPost =>
                obtain ⟨⟨k1, k2, k3⟩, -⟩ := goSlice_eq_ok.1 h1
                simp only [Left.lift_ok, GoM.bind_ok, Left.set_bind, Left.get_bind]
                rw [goSlice_of (l := ns.normalized) (Int.le_refl 0) k1 (by omega),
                  goSlice_of (l := ns.normalized) (a := b) (by omega) k3 (Int.le_refl _)]
                rfl

/-- **C93, `Transform`.** -/
theorem C93_transform (ns : NS) (dest : List RuneChange) (io : Int) :
    NS.transformL dest io ns = settle ns (ns.transform dest io) := by
  unfold NS.transformL
  rw [Left.get_bind]
  exact C93_transformRange ..

theorem filter_loop {keep : Rune → GoM Bool} {k : Rune → Bool} : ∀ (rs : List Rune) (st : FilterState),
    (∀ r ∈ rs, keep r = .ok (k r)) → goFor rs st (NS.filterStepL keep) = .ok (rs.foldl (filterStep k) st) := by
  intro rs
  induction rs with
  | nil => intro st _; rfl
  | cons r rs ih =>
    intro st h
    have hs : NS.filterStepL keep st r = .ok (filterStep k st r) := by
      unfold NS.filterStepL
      rw [h r (by simp)]
      rfl
    rw [goFor_cons, hs, GoM.bind_ok, ih _ fun x hx => h x (by simp [hx])]
    rfl

theorem goFor_panic {α σ : Type} {f : σ → α → GoM σ} : ∀ (l : List α) (s : σ), (∃ x ∈ l, ∀ s, f s x = .panic) →
    goFor l s f = .panic := by
  intro l
  induction l with
  | nil => intro s h; simp at h
  | cons y l ih =>
    rintro s ⟨x, hx, hp⟩
    rw [goFor_cons]
    cases hy : f s y with
    | panic => rfl
    | ok s' =>
      rw [GoM.bind_ok]
      rcases List.mem_cons.1 hx with rfl | hx
      · rw [hp] at hy; cases hy
      · exact ih s' ⟨x, hx, hp⟩

/-- **C93, `Filter`.**  A function that does not panic on the runes of the text: as C05 has it, or nothing changed and a panic.  A
function that panics on one of them: nothing changed. -/
theorem C93_filter (ns : NS) (keep : Rune → GoM Bool) :
    (∀ k : Rune → Bool, (∀ r ∈ runesOf ns.normalized, keep r = .ok (k r)) → NS.filterL keep ns = settle ns (ns.filter k))
      ∧ ((∃ r ∈ runesOf ns.normalized, keep r = .panic) → NS.filterL keep ns = (ns, .panic)) := by
  constructor
  · intro k h
    unfold NS.filterL NS.filter NS.filterChanges
    rw [Left.get_bind, filter_loop _ _ h, Left.lift_ok]
    cases hl : ((runesOf ns.normalized).foldl (filterStep k) ⟨0, 0, [], none⟩).lastRune <;>
      · simp only [hl]; exact C93_transform ..
  · rintro ⟨r, hr, hp⟩
    unfold NS.filterL
    rw [Left.get_bind, goFor_panic _ _ ⟨r, hr, fun s => by unfold NS.filterStepL; rw [hp]; rfl⟩, Left.lift_panic]

/-- **C93, `Map`.** -/
theorem C93_map (ns : NS) (f : Rune → GoM Rune) :
    (∀ g : Rune → Rune, (∀ r ∈ runesOf ns.normalized, f r = .ok (g r)) → NS.mapL f ns = settle ns (ns.map g))
      ∧ ((∃ r ∈ runesOf ns.normalized, f r = .panic) → NS.mapL f ns = (ns, .panic)) := by
  constructor
  · intro g h
    have hl : ∀ (rs : List Rune) (acc : List RuneChange), (∀ r ∈ rs, f r = .ok (g r)) →
        (goFor rs acc fun acc r => do
          let r' ← f r
          pure (acc ++ [⟨r', 0⟩])) = .ok (acc ++ rs.map fun r => (⟨g r, 0⟩ : RuneChange)) := by
      intro rs
      induction rs with
      | nil => intro acc _; simp
      | cons r rs ih =>
        intro acc h
        rw [goFor_cons, h r (by simp)]
        rw [GoM.bind_ok, GoM.pure_eq, GoM.bind_ok, ih _ fun x hx => h x (by simp [hx])]
        simp
    unfold NS.mapL NS.map
    rw [Left.get_bind, hl _ _ h, Left.lift_ok, List.nil_append]
    exact C93_transform ..
  · rintro ⟨r, hr, hp⟩
    unfold NS.mapL
    rw [Left.get_bind, goFor_panic _ _ ⟨r, hr, fun s => by rw [hp]; rfl⟩, Left.lift_panic]

/-- **C93, `TrimLeftRight`.** -/
theorem C93_trim (ns : NS) (left right : Bool) :
    NS.trimLeftRightR left right ns = settle ns (ns.trimLeftRight left right) := by
  unfold NS.trimLeftRightR NS.trimLeftRight
  rw [Left.get_bind]
  simp only
  generalize (if left = true then countLeadingSpaces (runesOf ns.normalized) else 0) = a
  generalize (if right = true ∧ a < (runesOf ns.normalized).length then countTrailingSpaces (runesOf ns.normalized) else 0) = b
  split
  · rfl
  · exact C93_transform ..

/-- **C93, `Prepend`.** -/
theorem C93_prepend (ns : NS) (s : Str) : NS.prependL s ns = settle ns (ns.prepend s) := by
  unfold NS.prependL NS.prepend
  rw [Left.get_bind]
  split
  · rfl
  · cases goIndex (runesOf ns.normalized) 0 with
    | panic => rfl
    | ok r => rw [Left.lift_ok]; exact C93_transformRange ..

/-- **C93, `Append`.** -/
theorem C93_append (ns : NS) (s : Str) : NS.appendL s ns = settle ns (ns.append s) := by
  unfold NS.appendL NS.append
  rw [Left.get_bind]
  split
  · rfl
  · simp only
    cases goIndex (runesOf ns.normalized) ((runesOf ns.normalized).length - 1) with
    | panic => rfl
    | ok r => rw [Left.lift_ok]; exact C93_transformRange ..

/-! ## Replace -/

theorem replaceStepL_eq (content : Str) (off : Int) (c : Capture) (ns : NS) :
    NS.replaceStepL content off c ns = match NS.replaceStep content (ns, off) c with
      | .ok (ns', off') => (ns', .ok off')
      | .panic => (ns, .panic) := by
  unfold NS.replaceStepL NS.replaceStep
  split
  · rfl
  · rw [Left.get_bind]
    simp only
    cases goSlice ns.normalized (if c.offsets.start + off < 0 then 0 else c.offsets.start + off)
        (if c.offsets.stop + off < 0 then 0 else c.offsets.stop + off) with
    | panic => rfl
    | ok seg =>
      rw [Left.lift_ok, Left.bind_apply, C93_transformRange, GoM.bind_ok]
      cases ns.transformRange _ _ _ <;> rfl

/-- **C93, `Replace`.**  A call that does not panic is as in the model without recovery.  A call that panics in the pattern leaves the string as it was; one that panics
at a match leaves the string as the matches before it made it. -/
theorem C93_replace (ns : NS) (pattern : SplitPattern) (content : Str) :
    (∀ ns', ns.replace pattern content = .ok (.ok ns') → NS.replaceL pattern content ns = (ns', .ok none))
      ∧ (∀ e, ns.replace pattern content = .ok (.error e) → NS.replaceL pattern content ns = (ns, .ok (some e)))
      ∧ (ns.replace pattern content = .panic → ∃ left, NS.replaceL pattern content ns = (left, .panic)
          ∧ ((pattern ns.normalized = .panic ∧ left = ns)
            ∨ ∃ done c rest off, pattern ns.normalized = .ok (.ok (done ++ c :: rest))
                ∧ goFor done (ns, (0 : Int)) (NS.replaceStep content) = .ok (left, off)
                ∧ NS.replaceStep content (left, off) c = .panic)) := by
  have loop : ∀ (caps : List Capture) (ns : NS) (off : Int),
      (∀ ns' off', goFor caps (ns, off) (NS.replaceStep content) = .ok (ns', off') →
          Left.forEach caps off (NS.replaceStepL content) ns = (ns', .ok off'))
        ∧ (goFor caps (ns, off) (NS.replaceStep content) = .panic → ∃ left,
          Left.forEach caps off (NS.replaceStepL content) ns = (left, .panic)
            ∧ ∃ done c rest off', caps = done ++ c :: rest
              ∧ goFor done (ns, off) (NS.replaceStep content) = .ok (left, off')
              ∧ NS.replaceStep content (left, off') c = .panic) := by
    intro caps
    induction caps with
    | nil =>
      intro ns off
      constructor
      · intro ns' off' h
        simp only [goFor_nil, GoM.ok.injEq, Prod.mk.injEq] at h
        obtain ⟨rfl, rfl⟩ := h
        rfl
      · intro h; cases h
    | cons c caps ih =>
      intro ns off
      have hstep : Left.forEach (c :: caps) off (NS.replaceStepL content) ns
          = match NS.replaceStepL content off c ns with
            | (ns', .ok off') => Left.forEach caps off' (NS.replaceStepL content) ns'
            | (ns', .panic) => (ns', .panic) := by
        simp only [Left.forEach, Left.seq]
        rcases NS.replaceStepL content off c ns with ⟨_, _ | _⟩ <;> rfl
      rw [hstep, replaceStepL_eq, goFor_cons]
      cases h1 : NS.replaceStep content (ns, off) c with
      | panic =>
        refine ⟨?_, ?_⟩
        · intro ns' off' h; cases h
        · intro _
          exact ⟨ns, rfl, [], c, caps, off, rfl, rfl, h1⟩
      | ok st =>
        obtain ⟨n1, o1⟩ := st
        obtain ⟨i1, i2⟩ := ih n1 o1
        simp only [GoM.bind_ok]
        refine ⟨i1, ?_⟩
        intro h
        obtain ⟨left, k1, done, c', rest, off', k2, k3, k4⟩ := i2 h
        refine ⟨left, k1, c :: done, c', rest, off', by rw [k2]; rfl, ?_, k4⟩
        rw [goFor_cons, h1, GoM.bind_ok, k3]
  unfold NS.replaceL NS.replace
  rw [Left.get_bind]
  cases hp : pattern ns.normalized with
  | panic =>
    refine ⟨(by intro _ h; cases h), (by intro _ h; cases h), ?_⟩
    intro _
    exact ⟨ns, rfl, .inl ⟨rfl, rfl⟩⟩
  | ok x =>
    rw [Left.lift_ok]
    cases x with
    | error e =>
      refine ⟨(by intro _ h; cases h), ?_, (by intro h; cases h)⟩
      intro e' h
      simp only [GoM.bind_ok, GoM.pure_eq, GoM.ok.injEq, Except.error.injEq] at h
      subst h; rfl
    | ok caps =>
      obtain ⟨l1, l2⟩ := loop caps ns 0
      simp only [GoM.bind_ok]
      rw [Left.bind_apply]
      cases hg : goFor caps (ns, (0 : Int)) (NS.replaceStep content) with
      | panic =>
        refine ⟨(by intro _ h; cases h), (by intro _ h; cases h), ?_⟩
        intro _
        obtain ⟨left, k1, done, c, rest, off', k2, k3, k4⟩ := l2 hg
        refine ⟨left, by rw [k1], .inr ⟨done, c, rest, off', by rw [k2], k3, k4⟩⟩
      | ok st =>
        obtain ⟨n1, o1⟩ := st
        rw [l1 n1 o1 hg]
        refine ⟨?_, (by intro _ h; cases h), (by intro h; cases h)⟩
        intro ns' h
        simp only [GoM.bind_ok, GoM.pure_eq, GoM.ok.injEq, Except.ok.injEq] at h
        subst h; rfl

/-- Two matches, the second beyond the end of the text: the first has been replaced when the call panics. -/
theorem C93_replace_example :
    NS.replaceL (fun _ => .ok (.ok [⟨⟨0, 1⟩, true⟩, ⟨⟨5, 9⟩, true⟩])) b!"xy" (NS.fromString b!"abc")
      = (⟨b!"abc", b!"xybc", [⟨0, 1⟩, ⟨0, 1⟩, ⟨1, 2⟩, ⟨2, 3⟩], 0⟩, .panic) := by decide +kernel

/-! ## Histories -/

/-- A call of a method that changes its receiver; the functions and patterns given may panic. -/
inductive Call where
  | transform (dest : List RuneChange) (initialOffset : Int)
  | filter (keep : Rune → GoM Bool)
  | map (f : Rune → GoM Rune)
  | trim (left right : Bool)
  | prepend (s : Str)
  | append (s : Str)
  | replace (pattern : SplitPattern) (content : Str)

/-- The string that is left, whether the call returns or panics. -/
def Call.left (ns : NS) : Call → NS
  | .transform dest io => (NS.transformL dest io ns).1
  | .filter keep => (NS.filterL keep ns).1
  | .map f => (NS.mapL f ns).1
  | .trim l r => (NS.trimLeftRightR l r ns).1
  | .prepend s => (NS.prependL s ns).1
  | .append s => (NS.appendL s ns).1
  | .replace p content => (NS.replaceL p content ns).1

theorem settle_inv {P : NS → Prop} {ns : NS} {x : GoM NS} (h0 : P ns) (h : ∀ ns', x = .ok ns' → P ns') : P (settle ns x).1 := by
  cases x with
  | panic => exact h0
  | ok ns' => exact h ns' rfl

theorem Keeps.refl {ns : NS} (h : WF ns) : Keeps ns ns := ⟨h, rfl, rfl⟩

/-- **C93, one call.**  Whatever the arguments, and whether the call returns or panics, a well-formed string stays well-formed, with the
same original and shift. -/
theorem C93_call {ns : NS} (hwf : WF ns) (c : Call) : Keeps ns (c.left ns) := by
  cases c with
  | transform dest io =>
    simp only [Call.left, C93_transform]
    exact settle_inv (Keeps.refl hwf) fun ns' h => transform_wf hwf h
  | filter keep =>
    simp only [Call.left]
    by_cases hp : ∃ r ∈ runesOf ns.normalized, keep r = .panic
    · rw [(C93_filter ns keep).2 hp]; exact Keeps.refl hwf
    · rw [(C93_filter ns keep).1 (fun r => match keep r with | .ok b => b | .panic => false) (by
        intro r hr
        cases hk : keep r with
        | ok b => rfl
        | panic => exact absurd ⟨r, hr, hk⟩ hp)]
      exact settle_inv (Keeps.refl hwf) fun ns' h => transform_wf hwf h
  | map f =>
    simp only [Call.left]
    by_cases hp : ∃ r ∈ runesOf ns.normalized, f r = .panic
    · rw [(C93_map ns f).2 hp]; exact Keeps.refl hwf
    · rw [(C93_map ns f).1 (fun r => match f r with | .ok b => b | .panic => 0) (by
        intro r hr
        cases hk : f r with
        | ok b => rfl
        | panic => exact absurd ⟨r, hr, hk⟩ hp)]
      exact settle_inv (Keeps.refl hwf) fun ns' h => transform_wf hwf h
  | trim l r =>
    simp only [Call.left, C93_trim]
    exact settle_inv (Keeps.refl hwf) fun ns' h => trim_wf hwf h
  | prepend s =>
    simp only [Call.left, C93_prepend]
    exact settle_inv (Keeps.refl hwf) fun ns' h => prepend_wf hwf h
  | append s =>
    simp only [Call.left, C93_append]
    exact settle_inv (Keeps.refl hwf) fun ns' h => append_wf hwf h
  | replace p content =>
    simp only [Call.left]
    obtain ⟨h1, h2, h3⟩ := C93_replace ns p content
    cases hr : ns.replace p content with
    | ok x =>
      cases x with
      | error e => rw [h2 e hr]; exact Keeps.refl hwf
      | ok ns' => rw [h1 ns' hr]; exact replace_wf hwf hr
    | panic =>
      obtain ⟨left, k1, k2⟩ := h3 hr
      rw [k1]
      rcases k2 with ⟨-, rfl⟩ | ⟨done, c, rest, off, -, k3, -⟩
      · exact Keeps.refl hwf
      · refine goFor_inv (P := fun st : NS × Int => Keeps ns st.1) done (ns, 0) (left, off) _ (Keeps.refl hwf) ?_ k3
        intro s x s' _ hs hx
        obtain ⟨k1, k2, k3⟩ := hs
        obtain ⟨j1, j2, j3⟩ := replaceStep_wf k1 (off := s.2) hx
        exact ⟨j1, by rw [j2, k2], by rw [j3, k3]⟩

/-- **C93, histories.**  Any number of calls with any arguments, each panic recovered: the string is still well-formed, of the text it
was made from. -/
theorem C93_history {s : Str} (hs : ValidUtf8 s) (calls : List Call) :
    WF (calls.foldl Call.left (NS.fromString s)) ∧ (calls.foldl Call.left (NS.fromString s)).original = s
      ∧ (calls.foldl Call.left (NS.fromString s)).originalShift = 0 := by
  have : ∀ (calls : List Call) (ns : NS), Keeps (NS.fromString s) ns → Keeps (NS.fromString s) (calls.foldl Call.left ns) := by
    intro calls
    induction calls with
    | nil => intro ns h; exact h
    | cons c calls ih =>
      intro ns h
      obtain ⟨h1, h2, h3⟩ := h
      obtain ⟨k1, k2, k3⟩ := C93_call h1 c
      exact ih _ ⟨k1, k2.trans h2, k3.trans h3⟩
  exact this calls _ (Keeps.refl (fromString_wf hs))

end Verif
