import Verif.Model.Closures
import Verif.Props.Recover
import Verif.Props.FilterAnyState

/-! Functions with a memory of their own (C143). -/

set_option autoImplicit false

namespace Verif

variable {σ β : Type}

/-! ## Specification -/

/-- The function is asked once for each rune, in order, and gives these answers; `w'` is what it leaves. -/
inductive Asked (f : Rune → Left σ β) : List Rune → σ → List β → σ → Prop
  | nil (w : σ) : Asked f [] w [] w
  | cons {r : Rune} {rs : List Rune} {w w' w'' : σ} {b : β} {bs : List β} :
      f r w = (w', .ok b) → Asked f rs w' bs w'' → Asked f (r :: rs) w (b :: bs) w''

/-- It is asked once for each rune, in order, until it panics, and leaves `w'`. -/
inductive Stopped (f : Rune → Left σ β) : List Rune → σ → σ → Prop
  | here {r : Rune} {rs : List Rune} {w w' : σ} : f r w = (w', .panic) → Stopped f (r :: rs) w w'
  | later {r : Rune} {rs : List Rune} {w w' w'' : σ} {b : β} : f r w = (w', .ok b) → Stopped f rs w' w'' → Stopped f (r :: rs) w w''

/-- The numbers of the runes with the answer yes. -/
def yesAt (bs : List Bool) : List Nat := (bs.zipIdx.filter (·.1)).map (·.2)

/-- The runes with the answer yes. -/
def yesOf (rs : List Rune) (bs : List Bool) : List Rune := ((rs.zip bs).filter (·.2)).map (·.1)

/-- The captures of a text from byte `p` on, given the answer for each rune: a rune with the answer yes is a match, the longest runs of
others are the captures between. -/
inductive CutBy : Nat → List (Rune × Bool) → List Capture → Prop
  | nil (p : Nat) : CutBy p [] []
  | hit {p : Nat} {r : Rune} {l : List (Rune × Bool)} {caps : List Capture} : CutBy (p + (encodeRune r).length) l caps →
      CutBy p ((r, true) :: l) (⟨⟨p, (p + (encodeRune r).length : Nat)⟩, true⟩ :: caps)
  | miss {p : Nat} {run l : List (Rune × Bool)} {caps : List Capture} : run ≠ [] → (∀ x ∈ run, x.2 = false) → (∀ x ∈ l.head?, x.2 = true) →
      CutBy (p + (encodeRunes (run.map (·.1))).length) l caps →
      CutBy p (run ++ l) (⟨⟨p, (p + (encodeRunes (run.map (·.1))).length : Nat)⟩, false⟩ :: caps)

/-! ## Proofs -/

theorem asked_or_stopped (f : Rune → Left σ β) : ∀ (rs : List Rune) (w : σ), (∃ bs w', Asked f rs w bs w') ∨ ∃ w', Stopped f rs w w' := by
  intro rs
  induction rs with
  | nil => intro w; exact .inl ⟨[], w, .nil w⟩
  | cons r rs ih =>
    intro w
    cases h : f r w with
    | mk w' x =>
      cases x with
      | panic => exact .inr ⟨w', .here h⟩
      | ok b =>
        rcases ih w' with ⟨bs, w'', ha⟩ | ⟨w'', hs⟩
        · exact .inl ⟨b :: bs, w'', .cons h ha⟩
        · exact .inr ⟨w'', .later h hs⟩

theorem Asked.length {f : Rune → Left σ β} {rs : List Rune} {w w' : σ} {bs : List β} (h : Asked f rs w bs w') : bs.length = rs.length := by
  induction h with
  | nil => rfl
  | cons _ _ ih => simp [ih]

theorem forEach_asked {γ ι : Type} (f : Rune → Left σ β) (g : γ → ι → β → γ) (rune : ι → Rune) : ∀ (l : List ι) (w : σ) (bs : List β) (w' : σ) (c : γ),
    Asked f (l.map rune) w bs w' →
    Left.forEach l c (fun c x => do let b ← f (rune x); pure (g c x b)) w = (w', .ok ((l.zip bs).foldl (fun c x => g c x.1 x.2) c)) := by
  intro l
  induction l with
  | nil =>
    intro w bs w' c h
    cases h
    rfl
  | cons x l ih =>
    intro w bs w' c h
    cases h with
    | cons h1 h2 =>
      simp only [Left.forEach, Left.seq, Left.bind_apply, h1, Left.pure_apply]
      exact ih _ _ _ _ h2

theorem forEach_stopped {γ ι : Type} (f : Rune → Left σ β) (g : γ → ι → β → γ) (rune : ι → Rune) : ∀ (l : List ι) (w w' : σ) (c : γ),
    Stopped f (l.map rune) w w' → Left.forEach l c (fun c x => do let b ← f (rune x); pure (g c x b)) w = (w', .panic) := by
  intro l
  induction l with
  | nil => intro w w' c h; cases h
  | cons x l ih =>
    intro w w' c h
    cases h with
    | here h1 => simp only [Left.forEach, Left.seq, Left.bind_apply, h1]
    | later h1 h2 =>
      simp only [Left.forEach, Left.seq, Left.bind_apply, h1, Left.pure_apply]
      exact ih _ _ _ h2

/-- What `Filter` emits for the answers still to come. -/
def answerGo : Rune → Nat → List (Rune × Bool) → List RuneChange
  | lr, n, [] => [⟨lr, -(n : Int)⟩]
  | lr, n, (r, b) :: l => if b then ⟨lr, -(n : Int)⟩ :: answerGo r 0 l else answerGo lr (n + 1) l

theorem answer_some : ∀ (l : List (Rune × Bool)) (n k : Nat) (tr : List RuneChange) (lr : Rune),
    let st := l.foldl (fun st x => filterStep (fun _ => x.2) st x.1) ⟨n, k, tr, some lr⟩
    ∃ lr', st.lastRune = some lr' ∧ st.removedStart = k ∧ st.transforms ++ [⟨lr', -(st.removed : Int)⟩] = tr ++ answerGo lr n l := by
  intro l
  induction l with
  | nil => intro n k tr lr; exact ⟨lr, rfl, rfl, rfl⟩
  | cons x l ih =>
    intro n k tr lr
    obtain ⟨r, b⟩ := x
    simp only [List.foldl_cons]
    cases b with
    | true =>
      obtain ⟨lr', h1, h2, h3⟩ := ih 0 k (tr ++ [⟨lr, -(n : Int)⟩]) r
      exact ⟨lr', h1, h2, by rw [show filterStep (fun _ => true) ⟨n, k, tr, some lr⟩ r = ⟨0, k, tr ++ [⟨lr, -(n : Int)⟩], some r⟩ from rfl, h3]; simp [answerGo]⟩
    | false =>
      obtain ⟨lr', h1, h2, h3⟩ := ih (n + 1) k tr lr
      exact ⟨lr', h1, h2, by rw [show filterStep (fun _ => false) ⟨n, k, tr, some lr⟩ r = ⟨n + 1, k, tr, some lr⟩ from rfl, h3]; simp [answerGo]⟩

theorem answerGo_numbered : ∀ (l : List (Rune × Bool)) (lr : Rune) (n i : Nat),
    Numbered i (answerGo lr n l) (i :: (((l.map (·.2)).zipIdx (i + n + 1)).filter (·.1)).map (·.2))
      ∧ consumed (answerGo lr n l) = n + 1 + l.length ∧ (answerGo lr n l).map (·.rune) = lr :: (l.filter (·.2)).map (·.1) := by
  intro l
  induction l with
  | nil =>
    intro lr n i
    refine ⟨.cons (by simp only; omega) (.nil _), ?_, rfl⟩
    simp only [answerGo, consumed_cons, takes, consumed]
    rw [if_neg (by omega)]
    simp; omega
  | cons x l ih =>
    intro lr n i
    obtain ⟨r, b⟩ := x
    have htk : takes ⟨lr, -(n : Int)⟩ = n + 1 := by
      simp only [takes]
      rw [if_neg (by omega)]
      omega
    cases b with
    | true =>
      obtain ⟨h1, h2, h3⟩ := ih r 0 (i + n + 1)
      simp only [answerGo, if_true, List.map_cons, List.zipIdx_cons, List.filter_cons, h3]
      refine ⟨.cons (by simp only; omega) ?_, ?_, trivial⟩
      · rw [htk]; exact h1
      · rw [consumed_cons, h2, htk]; simp; omega
    | false =>
      obtain ⟨h1, h2, h3⟩ := ih lr (n + 1) i
      simp only [answerGo, Bool.false_eq_true, if_false, List.map_cons, List.zipIdx_cons, List.filter_cons, h3]
      refine ⟨?_, ?_, trivial⟩
      · have : i + n + 1 + 1 = i + (n + 1) + 1 := by omega
        rw [this]; exact h1
      · rw [h2]; simp; omega

theorem answer_none : ∀ (l : List (Rune × Bool)) (n : Nat),
    let st := l.foldl (fun st x => filterStep (fun _ => x.2) st x.1) ⟨n, 0, [], none⟩
    (st.lastRune = none ∧ st.transforms = [] ∧ st.removedStart = 0 ∧ l.filter (·.2) = []
      ∧ (((l.map (·.2)).zipIdx n).filter (·.1)).map (·.2) = [])
    ∨ ∃ lr dest, st.lastRune = some lr ∧ st.transforms ++ [⟨lr, -(st.removed : Int)⟩] = dest
      ∧ Numbered st.removedStart dest ((((l.map (·.2)).zipIdx n).filter (·.1)).map (·.2))
      ∧ dest.map (·.rune) = (l.filter (·.2)).map (·.1) ∧ st.removedStart + consumed dest = n + l.length
      ∧ st.removedStart < n + l.length := by
  intro l
  induction l with
  | nil => intro n; exact .inl ⟨rfl, rfl, rfl, rfl, rfl⟩
  | cons x l ih =>
    intro n
    obtain ⟨r, b⟩ := x
    simp only [List.foldl_cons]
    cases b with
    | true =>
      right
      obtain ⟨lr', h1, h2, h3⟩ := answer_some l 0 n [] r
      obtain ⟨g1, g2, g3⟩ := answerGo_numbered l r 0 n
      rw [show filterStep (fun _ => true) ⟨n, 0, [], none⟩ r = ⟨0, n, [], some r⟩ from rfl]
      refine ⟨lr', _, h1, h3, ?_, ?_, ?_, ?_⟩
      · rw [h2]
        simpa [List.zipIdx_cons] using g1
      · simpa using g3
      · rw [h2, List.nil_append, g2]; simp; omega
      · rw [h2]; simp
    | false =>
      rw [show filterStep (fun _ => false) ⟨n, 0, [], none⟩ r = ⟨n + 1, 0, [], none⟩ from rfl]
      rcases ih (n + 1) with h | ⟨lr, dest, h1, h2, h3, h4, h5, h6⟩
      · left; simpa [List.zipIdx_cons] using h
      · right
        refine ⟨lr, dest, h1, h2, ?_, ?_, ?_, ?_⟩
        · simpa [List.zipIdx_cons] using h3
        · simpa using h4
        · rw [h5]; simp; omega
        · rw [List.length_cons]; omega

/-- The outcome of a call on the string, with the rest as the function left it. -/
def settleWith (s : σ) (ns : NS) (x : GoM NS) : (NS × σ) × GoM Unit := (((settle ns x).1, s), (settle ns x).2)

theorem onString_transform (dest : List RuneChange) (io : Int) (ns : NS) (s : σ) :
    onString (NS.transformL dest io) (ns, s) = settleWith s ns (ns.transform dest io) := by
  simp only [onString, C93_transform, settleWith]

/-- **C143, Filter.** With any function that leaves the string alone: it is asked once for each rune, in order; the runes with the answer
yes are kept, as exactly as C140 says. If it panics, the string is as before. -/
theorem C143_filter (ns : NS) (s : σ) (keep : Rune → Left (NS × σ) Bool) :
    (∀ bs s', Asked keep (runesOf ns.normalized) (ns, s) bs (ns, s') →
      ∃ call, NS.filterC keep (ns, s) = settleWith s' ns call ∧ KeepsOrPanics ns call (yesAt bs) (yesOf (runesOf ns.normalized) bs))
    ∧ (∀ w, Stopped keep (runesOf ns.normalized) (ns, s) w → NS.filterC keep (ns, s) = (w, .panic)) := by
  have hrun : ∀ x : List Rune, x.map id = x := List.map_id
  constructor
  · intro bs s' h
    have hlen := h.length
    have hf := forEach_asked keep (fun (st : FilterState) r b => filterStep (fun _ => b) st r) id (runesOf ns.normalized) (ns, s) bs (ns, s')
      ⟨0, 0, [], none⟩ (by rw [hrun]; exact h)
    have hnone := answer_none ((runesOf ns.normalized).zip bs) 0
    have hm2 : ((runesOf ns.normalized).zip bs).map (·.2) = bs := List.map_snd_zip (by omega)
    have hzl : ((runesOf ns.normalized).zip bs).length = (runesOf ns.normalized).length := by rw [List.length_zip]; omega
    have hle := runesOf_length_le ns.normalized
    rw [hm2, hzl] at hnone
    unfold NS.filterC
    rw [Left.get_bind, Left.bind_apply]
    simp only [id] at hf
    rw [hf]
    simp only at hnone ⊢
    generalize ((runesOf ns.normalized).zip bs).foldl (fun st x => filterStep (fun _ => x.2) st x.1) ⟨0, 0, [], none⟩ = st at hnone ⊢
    rcases hnone with ⟨h1, h2, h3, h4, h5⟩ | ⟨lr, dest, h1, h2, h3, h4, h5, h6⟩
    · rw [h1, h2, h3]
      refine ⟨_, onString_transform _ _ _ _, ?_⟩
      have e1 : yesAt bs = [] := h5
      rw [e1]
      have := keeps_any ns [] 0 [] (.nil 0) (Nat.zero_le _) (fun h => absurd rfl h)
      simpa [yesOf, h4] using this
    · rw [h1]
      refine ⟨_, onString_transform _ _ _ _, ?_⟩
      rw [h2]
      have := keeps_any ns dest st.removedStart _ h3 (by omega) (fun _ => by omega)
      rw [h4] at this
      exact this
  · intro w h
    have hf := forEach_stopped keep (fun (st : FilterState) r b => filterStep (fun _ => b) st r) id (runesOf ns.normalized) (ns, s) w
      ⟨0, 0, [], none⟩ (by rw [hrun]; exact h)
    unfold NS.filterC
    rw [Left.get_bind, Left.bind_apply]
    simp only [id] at hf
    rw [hf]

/-- **C143, Map.** -/
theorem C143_map (ns : NS) (s : σ) (f : Rune → Left (NS × σ) Rune) :
    (∀ out s', Asked f (runesOf ns.normalized) (ns, s) out (ns, s') →
      ∃ call, NS.mapC f (ns, s) = settleWith s' ns call ∧ KeepsOrPanics ns call (List.range (runesOf ns.normalized).length) out)
    ∧ (∀ w, Stopped f (runesOf ns.normalized) (ns, s) w → NS.mapC f (ns, s) = (w, .panic)) := by
  have hrun : ∀ x : List Rune, x.map id = x := List.map_id
  constructor
  · intro out s' h
    have hlen := h.length
    have hf := forEach_asked f (fun (acc : List RuneChange) _ b => acc ++ [⟨b, 0⟩]) id (runesOf ns.normalized) (ns, s) out (ns, s')
      [] (by rw [hrun]; exact h)
    have hfold : ∀ (l : List (Rune × Rune)) (acc : List RuneChange),
        l.foldl (fun acc x => acc ++ [⟨x.2, 0⟩]) acc = acc ++ (l.map (·.2)).map fun r => ⟨r, 0⟩ := by
      intro l
      induction l with
      | nil => intro acc; simp
      | cons x l ih => intro acc; simp [ih]
    rw [hfold, List.nil_append, List.map_snd_zip (by omega)] at hf
    unfold NS.mapC
    rw [Left.get_bind, Left.bind_apply]
    simp only [id] at hf
    rw [hf]
    refine ⟨_, onString_transform _ _ _ _, ?_⟩
    have hc : ∀ rc ∈ out.map (fun r => (⟨r, 0⟩ : RuneChange)), takes rc = 1 := by
      intro rc hrc
      obtain ⟨r, -, rfl⟩ := List.mem_map.1 hrc
      rfl
    have hk := keeps_any ns (out.map fun r => ⟨r, 0⟩) 0 (List.range (runesOf ns.normalized).length) (by
      have := numbered_steps (out.map fun r => (⟨r, 0⟩ : RuneChange)) 0
        (by intro rc hrc; obtain ⟨r, -, rfl⟩ := List.mem_map.1 hrc; exact Int.le_refl _)
        (fun j rc _ hj => hc rc (List.mem_of_getElem? hj))
      rwa [List.length_map, ← List.range_eq_range', hlen] at this) (Nat.zero_le _) (by
        intro _
        rw [consumed_eachOne _ hc]; simp [hlen])
    rw [List.map_map] at hk
    simpa [Function.comp_def] using hk
  · intro w h
    have hf := forEach_stopped f (fun (acc : List RuneChange) _ b => acc ++ [⟨b, 0⟩]) id (runesOf ns.normalized) (ns, s) w
      [] (by rw [hrun]; exact h)
    unfold NS.mapC
    rw [Left.get_bind, Left.bind_apply]
    simp only [id] at hf
    rw [hf]

/-- The captures still to be emitted at the end. -/
def finishFunc (st : FuncState) : List Capture :=
  if st.lastSeen > st.lastOffset then st.splits ++ [⟨⟨st.lastOffset, st.lastSeen⟩, false⟩] else st.splits

theorem finish_open (o n : Nat) (acc : List Capture) (h : 0 < n) :
    finishFunc ⟨o, o + n, acc⟩ = acc ++ [⟨⟨o, (o + n : Nat)⟩, false⟩] := by
  simp only [finishFunc]
  rw [if_pos (by omega)]

theorem cutBy_loop : ∀ (rs : List Rune) (bs : List Bool) (run : List (Rune × Bool)) (o : Nat) (acc : List Capture), bs.length = rs.length →
    (∀ x ∈ run, x.2 = false) →
    ∃ caps, CutBy o (run ++ rs.zip bs) caps
      ∧ finishFunc (((rangeSpec (o + (encodeRunes (run.map (·.1))).length) rs).zip bs).foldl (fun st x => funcStep (fun _ => x.2) st x.1)
          ⟨o, o + (encodeRunes (run.map (·.1))).length, acc⟩) = acc ++ caps := by
  intro rs
  induction rs with
  | nil =>
    intro bs run o acc _ hrun
    cases run with
    | nil => exact ⟨[], .nil o, by simp [rangeSpec, finishFunc, encodeRunes]⟩
    | cons x run =>
      refine ⟨[⟨⟨o, (o + (encodeRunes ((x :: run).map (·.1))).length : Nat)⟩, false⟩], ?_, ?_⟩
      · exact .miss (by simp) hrun (by simp) (.nil _)
      · have hpos := encodeRune_length_pos x.1
        have : 0 < (encodeRunes ((x :: run).map (·.1))).length := by simp [encodeRunes]; omega
        exact finish_open o _ acc this
  | cons r rs ih =>
    intro bs run o acc hl hrun
    cases bs with
    | nil => simp at hl
    | cons b bs =>
      simp only [List.length_cons, Nat.add_right_cancel_iff] at hl
      cases b with
      | false =>
        obtain ⟨caps, h1, h2⟩ := ih bs (run ++ [(r, false)]) o acc hl (by
          intro x hx
          rcases List.mem_append.1 hx with h | h
          · exact hrun x h
          · simp at h; rw [h])
        refine ⟨caps, by simpa using h1, ?_⟩
        have he : (encodeRunes ((run ++ [(r, false)]).map (·.1))).length = (encodeRunes (run.map (·.1))).length + (encodeRune r).length := by
          simp [encodeRunes]
        rw [he] at h2
        simp only [rangeSpec, List.zip_cons_cons, List.foldl_cons]
        rw [← h2]
        simp only [funcStep, runeLen, Nat.add_assoc, Bool.not_false, if_true]
      | true =>
        obtain ⟨caps, h1, h2⟩ := ih bs [] (o + (encodeRunes (run.map (·.1))).length + (encodeRune r).length)
          ((if o < o + (encodeRunes (run.map (·.1))).length then acc ++ [⟨⟨o, (o + (encodeRunes (run.map (·.1))).length : Nat)⟩, false⟩] else acc)
            ++ [⟨⟨(o + (encodeRunes (run.map (·.1))).length : Nat), (o + (encodeRunes (run.map (·.1))).length + (encodeRune r).length : Nat)⟩, true⟩]) hl (by simp)
        have hnil : (encodeRunes (([] : List (Rune × Bool)).map (·.1))).length = 0 := rfl
        simp only [hnil, Nat.add_zero, List.nil_append] at h1 h2
        simp only [rangeSpec, List.zip_cons_cons, List.foldl_cons]
        cases run with
        | nil =>
          refine ⟨⟨⟨o, (o + (encodeRune r).length : Nat)⟩, true⟩ :: caps, .hit (by simpa [encodeRunes] using h1), ?_⟩
          simp [encodeRunes, runeLen, funcStep] at h2 ⊢
          exact h2
        | cons x run =>
          have hpos := encodeRune_length_pos x.1
          have hp : 0 < (encodeRunes ((x :: run).map (·.1))).length := by simp [encodeRunes]; omega
          refine ⟨⟨⟨o, (o + (encodeRunes ((x :: run).map (·.1))).length : Nat)⟩, false⟩
            :: ⟨⟨(o + (encodeRunes ((x :: run).map (·.1))).length : Nat), (o + (encodeRunes ((x :: run).map (·.1))).length + (encodeRune r).length : Nat)⟩, true⟩ :: caps,
            .miss (by simp) hrun (by simp) (.hit h1), ?_⟩
          have h3 : o < o + (encodeRunes ((x :: run).map (·.1))).length := by omega
          rw [if_pos h3] at h2
          refine Eq.trans (Eq.trans ?_ h2) (by simp)
          have hs : funcStep (fun _ => true) ⟨o, o + (encodeRunes ((x :: run).map (·.1))).length, acc⟩
              (o + (encodeRunes ((x :: run).map (·.1))).length, r)
              = ⟨o + (encodeRunes ((x :: run).map (·.1))).length + (encodeRune r).length,
                o + (encodeRunes ((x :: run).map (·.1))).length + (encodeRune r).length,
                acc ++ [⟨⟨o, (o + (encodeRunes ((x :: run).map (·.1))).length : Nat)⟩, false⟩]
                  ++ [⟨⟨(o + (encodeRunes ((x :: run).map (·.1))).length : Nat),
                    (o + (encodeRunes ((x :: run).map (·.1))).length + (encodeRune r).length : Nat)⟩, true⟩]⟩ := by
            simp only [funcStep, Bool.not_true, Bool.false_eq_true, if_false]
            rw [if_pos h3]
          rw [hs]
          rfl

/-- **C143, FromFunc.** On a text that is not empty: asked once for each rune, in order; the captures are those of the answers. -/
theorem C143_find {text : Str} (hv : ValidUtf8 text) (hne : text ≠ []) (w : σ) (f : Rune → Left σ Bool) :
    (∀ bs w', Asked f (runesOf text) w bs w' →
      ∃ caps, funcFindMatchesC f text w = (w', .ok caps) ∧ CutBy 0 ((runesOf text).zip bs) caps)
    ∧ (∀ w', Stopped f (runesOf text) w w' → funcFindMatchesC f text w = (w', .panic)) := by
  obtain ⟨rs, hr, rfl⟩ := hv
  have hl : ¬ (encodeRunes rs).length = 0 := by
    intro h
    exact hne (List.eq_nil_of_length_eq_zero h)
  have hru := runesOf_encodeRunes rs hr
  have hrg := rangeStr_encodeRunes rs hr
  have hmap : (rangeStr (encodeRunes rs)).map (·.2) = rs := by rw [hrg, rangeSpec_map_snd]
  constructor
  · intro bs w' h
    have hlen := h.length
    rw [hru] at h hlen ⊢
    have hf := forEach_asked f (fun (st : FuncState) (ir : Nat × Rune) b => funcStep (fun _ => b) st ir) (·.2) (rangeStr (encodeRunes rs)) w bs w'
      ⟨0, 0, []⟩ (by rw [hmap]; exact h)
    obtain ⟨caps, h1, h2⟩ := cutBy_loop rs bs [] 0 [] hlen (by simp)
    refine ⟨caps, ?_, by simpa using h1⟩
    unfold funcFindMatchesC
    rw [if_neg hl, Left.bind_apply, hf]
    simp only [encodeRunes, List.map_nil, List.flatMap_nil, List.length_nil, Nat.add_zero, List.nil_append, finishFunc] at h2
    rw [hrg]
    simp only
    rw [← h2]
    split <;> rfl
  · intro w' h
    rw [hru] at h
    have hf := forEach_stopped f (fun (st : FuncState) (ir : Nat × Rune) b => funcStep (fun _ => b) st ir) (·.2) (rangeStr (encodeRunes rs)) w w'
      ⟨0, 0, []⟩ (by rw [hmap]; exact h)
    unfold funcFindMatchesC
    rw [if_neg hl, Left.bind_apply, hf]

/-- **C143, FromFunc on nothing**: it is not asked. -/
theorem C143_find_empty (w : σ) (f : Rune → Left σ Bool) : funcFindMatchesC f [] w = (w, .ok [⟨⟨0, 0⟩, false⟩]) := rfl

/-! ## Concrete -/

/-- A counter: `Filter` with a function that says yes every second time; `FromFunc` with the same; `Map` that numbers the runes; and a
function that empties the string it is asked about. -/
theorem C143_example :
    NS.filterC (fun _ w => ((w.1, w.2 + 1), .ok (w.2 % 2 == 0))) (NS.fromString b!"aaaé", 0)
      = ((⟨b!"aaaé", b!"aa", [⟨0, 1⟩, ⟨2, 3⟩], 0⟩, 4), .ok ())
    ∧ funcFindMatchesC (fun _ (n : Nat) => (n + 1, .ok (n % 2 == 1))) b!"aéa" 0 = (3, .ok [⟨⟨0, 1⟩, false⟩, ⟨⟨1, 3⟩, true⟩, ⟨⟨3, 4⟩, false⟩])
    ∧ NS.mapC (fun _ w => ((w.1, w.2 + 1), .ok w.2)) (NS.fromString b!"aé", (65 : Int))
      = ((⟨b!"aé", b!"AB", [⟨0, 1⟩, ⟨1, 3⟩], 0⟩, 67), .ok ())
    ∧ NS.filterC (fun _ w => ((NS.fromString [], w.2), .ok true)) (NS.fromString b!"a", ()) = ((NS.fromString [], ()), .panic) := by
  decide +kernel

end Verif
