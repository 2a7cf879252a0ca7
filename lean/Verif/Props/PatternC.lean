import Verif.Model.PatternC
import Verif.Model.Notation
import Verif.Props.Closures
import Verif.Props.SplitAnyState
import Verif.Props.ReplaceAnyState

/-! Split patterns with a memory of their own (C151). -/

set_option autoImplicit false

namespace Verif

variable {σ : Type}

theorem splitC_apply (p : PatternC (NS × σ)) (b : Behavior) (w : NS × σ) : NS.splitC p b w = match p w.1.normalized w with
    | (w', .ok (.error e)) => (w', .ok (.error e))
    | (w', .ok (.ok caps)) => (w', w'.1.sliceAll (splitMatches b caps))
    | (w', .panic) => (w', .panic) := by
  unfold NS.splitC
  rw [Left.get_bind, Left.bind_apply]
  rcases p w.1.normalized w with ⟨w', (_ | _) | _⟩ <;> rfl

theorem replaceC_apply (p : PatternC (NS × σ)) (content : Str) (w : NS × σ) : NS.replaceC p content w = match p w.1.normalized w with
    | (w', .ok (.error e)) => (w', .ok (some e))
    | (w', .ok (.ok caps)) => match Left.forEach caps (0 : Int) (NS.replaceStepL content) w'.1 with
      | (left, .ok _) => ((left, w'.2), .ok none)
      | (left, .panic) => ((left, w'.2), .panic)
    | (w', .panic) => (w', .panic) := by
  unfold NS.replaceC
  rw [Left.get_bind, Left.bind_apply]
  rcases p w.1.normalized w with ⟨w', (_ | caps) | _⟩
  · rfl
  · simp only [Left.bind_apply, onString]
    rcases Left.forEach caps (0 : Int) (NS.replaceStepL content) w'.1 with ⟨s, _ | _⟩ <;> rfl
  · rfl

theorem replaceL_apply (sp : SplitPattern) (content : Str) (ns : NS) : NS.replaceL sp content ns = match sp ns.normalized with
    | .ok (.error e) => (ns, .ok (some e))
    | .ok (.ok caps) => match Left.forEach caps (0 : Int) (NS.replaceStepL content) ns with
      | (left, .ok _) => (left, .ok none)
      | (left, .panic) => (left, .panic)
    | .panic => (ns, .panic) := by
  unfold NS.replaceL
  rw [Left.get_bind]
  rcases sp ns.normalized with (_ | caps) | _
  · rfl
  · simp only [Left.bind_apply, Left.lift]
    show ((Left.forEach caps (0 : Int) (NS.replaceStepL content) >>= fun _ => pure none) : Left NS (Option Err)) ns = _
    rw [Left.bind_apply]
    rcases Left.forEach caps (0 : Int) (NS.replaceStepL content) ns with ⟨s, _ | _⟩ <;> rfl
  · rfl

/-- **C151, Split.**  The pattern is asked once, for the text as it is before the call.  If it panics or returns an error, so does `Split`.
Otherwise `Split` does with the string the pattern left behind, `ns'`, what C139 says of these captures, and changes nothing more. -/
theorem C151_split (p : PatternC (NS × σ)) (b : Behavior) (ns ns' : NS) (w w' : σ) :
    (p ns.get (ns, w) = ((ns', w'), .panic) → NS.splitC p b (ns, w) = ((ns', w'), .panic))
    ∧ (∀ e, p ns.get (ns, w) = ((ns', w'), .ok (.error e)) → NS.splitC p b (ns, w) = ((ns', w'), .ok (.error e)))
    ∧ ∀ caps, p ns.get (ns, w) = ((ns', w'), .ok (.ok caps)) → ∃ out, NS.splitC p b (ns, w) = ((ns', w'), out)
      ∧ (((∀ g ∈ splitGroups b caps, CutRange ns'.get (span g).1 (span g).2 ∧ CanCut ns' (span g).1 (span g).2)
          ∧ ∃ pieces, out = .ok (.ok pieces)
            ∧ All2 (fun (q : NS) (g : List Capture) => ns'.slice (.normalized (span g).1 (span g).2) = .ok (some q)) pieces (splitGroups b caps))
        ∨ ∃ pre g post, splitGroups b caps = pre ++ g :: post
          ∧ (∀ x ∈ pre, CutRange ns'.get (span x).1 (span x).2 ∧ CanCut ns' (span x).1 (span x).2)
          ∧ ((¬ CutRange ns'.get (span g).1 (span g).2 ∧ out = .ok (.error .badSplit))
            ∨ (CutRange ns'.get (span g).1 (span g).2 ∧ ¬ CanCut ns' (span g).1 (span g).2 ∧ out = .panic))) := by
  refine ⟨?_, ?_, ?_⟩
  · intro h
    rw [splitC_apply, show p (ns, w).1.normalized (ns, w) = _ from h]
  · intro e h
    rw [splitC_apply, show p (ns, w).1.normalized (ns, w) = _ from h]
  · intro caps h
    refine ⟨ns'.split (fun _ => .ok (.ok caps)) b, ?_, C139_split ns' (pattern := fun _ => .ok (.ok caps)) rfl b⟩
    rw [splitC_apply, show p (ns, w).1.normalized (ns, w) = _ from h]
    rfl

/-- **C151, Replace.**  Likewise: when the pattern answers with captures, the string it left behind, `ns'`, is changed as C141 says; if a match
cannot be replaced, the call panics, and the memory of the pattern is as it was left. -/
theorem C151_replace (p : PatternC (NS × σ)) (content : Str) (ns ns' : NS) (w w' : σ) :
    (p ns.get (ns, w) = ((ns', w'), .panic) → NS.replaceC p content (ns, w) = ((ns', w'), .panic))
    ∧ (∀ e, p ns.get (ns, w) = ((ns', w'), .ok (.error e)) → NS.replaceC p content (ns, w) = ((ns', w'), .ok (some e)))
    ∧ ∀ caps, p ns.get (ns, w) = ((ns', w'), .ok (.ok caps)) →
      (∀ ns'', Replacing content ns' 0 caps ns'' → NS.replaceC p content (ns, w) = ((ns'', w'), .ok none))
      ∧ ((¬ ∃ ns'', Replacing content ns' 0 caps ns'') → ∃ left, NS.replaceC p content (ns, w) = ((left, w'), .panic)) := by
  refine ⟨?_, ?_, ?_⟩
  · intro h
    rw [replaceC_apply, show p (ns, w).1.normalized (ns, w) = _ from h]
  · intro e h
    rw [replaceC_apply, show p (ns, w).1.normalized (ns, w) = _ from h]
  · intro caps h
    have key : ∀ left out, NS.replaceL (fun _ => .ok (.ok caps)) content ns' = (left, out) →
        NS.replaceC p content (ns, w) = ((left, w'), out) := by
      intro left out hl
      rw [replaceL_apply] at hl
      rw [replaceC_apply, show p (ns, w).1.normalized (ns, w) = _ from h]
      revert hl
      simp only
      rcases Left.forEach caps (0 : Int) (NS.replaceStepL content) ns' with ⟨s, _ | _⟩ <;> intro hl <;> cases hl <;> rfl
    obtain ⟨h1, _, _⟩ := C141_exact ns' (fun _ => .ok (.ok caps)) content
    obtain ⟨h2, h3⟩ := h1 caps rfl
    obtain ⟨k1, _, k3⟩ := C93_replace ns' (fun _ => .ok (.ok caps)) content
    constructor
    · intro ns'' hr
      exact key _ _ (k1 _ (h2 _ hr))
    · intro hn
      obtain ⟨left, hl, _⟩ := k3 (h3 hn)
      exact ⟨left, key _ _ hl⟩

/-- **C151, Invert.**  The inverted pattern asks the inner one once, for the same text, and leaves what it leaves; each capture is a match
exactly when it was none. -/
theorem C151_invert (p : PatternC σ) (s : Str) (w w' : σ) :
    (p s w = (w', .panic) → invertC p s w = (w', .panic))
    ∧ (∀ e, p s w = (w', .ok (.error e)) → invertC p s w = (w', .ok (.error e)))
    ∧ ∀ caps, p s w = (w', .ok (.ok caps)) → ∃ caps', invertC p s w = (w', .ok (.ok caps'))
      ∧ All2 (fun (c c' : Capture) => c'.offsets = c.offsets ∧ (c'.isMatch = true ↔ c.isMatch = false)) caps caps' := by
  refine ⟨?_, ?_, ?_⟩
  · intro h
    rw [invertC, Left.bind_apply, h]
  · intro e h
    rw [invertC, Left.bind_apply, h]
    rfl
  · intro caps h
    refine ⟨caps.map fun c => { c with isMatch := !c.isMatch }, ?_, ?_⟩
    · rw [invertC, Left.bind_apply, h]
      rfl
    · clear h
      induction caps with
      | nil => exact .nil
      | cons c caps ih =>
        refine .cons ⟨rfl, ?_⟩ ih
        show (!c.isMatch) = true ↔ _
        cases c.isMatch <;> simp

/-- **C151, patterns that touch nothing.**  They are the patterns of the other properties. -/
theorem C151_pure (sp : SplitPattern) (b : Behavior) (content : Str) (ns : NS) (w : σ) :
    NS.splitC (fun s => Left.lift (sp s)) b (ns, w) = ((ns, w), ns.split sp b)
    ∧ NS.replaceC (fun s => Left.lift (sp s)) content (ns, w)
        = (((NS.replaceL sp content ns).1, w), (NS.replaceL sp content ns).2)
    ∧ ∀ s, invertC (fun s => Left.lift (sp s)) s w = (w, invert sp s) := by
  refine ⟨?_, ?_, ?_⟩
  · rw [splitC_apply]
    simp only [Left.lift, NS.split]
    rcases sp ns.normalized with (_ | _) | _ <;> rfl
  · rw [replaceC_apply, replaceL_apply]
    simp only [Left.lift]
    rcases sp ns.normalized with (_ | caps) | _
    · rfl
    · simp only
      rcases Left.forEach caps (0 : Int) (NS.replaceStepL content) ns with ⟨s, _ | _⟩ <;> rfl
    · rfl
  · intro s
    rw [invertC, Left.bind_apply]
    simp only [Left.lift, invert]
    rcases sp s with (_ | _) | _ <;> rfl

/-- A pattern that counts its calls, puts a dash before the text, and gives the whole text it was asked about as one match. -/
def dashing : PatternC (NS × Nat) := fun s w =>
  match w.1.prepend b!"-" with
  | .ok ns => ((ns, w.2 + 1), .ok (.ok [⟨⟨0, s.length⟩, true⟩]))
  | .panic => (w, .panic)

/-- The captures of the text before the call are used on the text after it: the last rune is in no piece, and stays when the match is replaced. -/
theorem C151_example :
    (NS.splitC dashing .isolated (NS.fromString b!"ab", 7)).1.2 = 8
    ∧ (NS.splitC dashing .isolated (NS.fromString b!"ab", 7)).1.1.get = b!"-ab"
    ∧ (NS.splitC dashing .isolated (NS.fromString b!"ab", 7)).2.bind (fun r => match r with
        | .ok ps => .ok (ps.map NS.get)
        | .error _ => .panic) = .ok [b!"-a"]
    ∧ (NS.replaceC dashing b!"x" (NS.fromString b!"ab", 7)).1.1.get = b!"xb"
    ∧ (NS.splitC (invertC dashing) .removed (NS.fromString b!"ab", 7)).2.bind (fun r => match r with
        | .ok ps => .ok (ps.map NS.get)
        | .error _ => .panic) = .ok [b!"-a"] := by decide +kernel

end Verif
