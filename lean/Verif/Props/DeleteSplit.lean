import Verif.Props.SamePlace
import Verif.Props.Bert
import Verif.Props.Unicode
import Verif.Model.Notation

/-!
C122: deleting runes before or after pre-tokenizing.
-/

set_option autoImplicit false

namespace Verif

section
variable {α : Type}

/-! ## Words of a text from which something is deleted -/

/-- The words, without the deleted elements; words of which nothing is left are no words. -/
def leftOf (keep : α → Bool) (ws : List (List α)) : List (List α) := (ws.map fun w => w.filter keep).filter fun w => !w.isEmpty

theorem leftOf_append (keep : α → Bool) (a b : List (List α)) : leftOf keep (a ++ b) = leftOf keep a ++ leftOf keep b := by
  simp [leftOf]

/-- A word on its own, if there is one. -/
def oneWord (u : List α) : List (List α) := if u.isEmpty then [] else [u]

theorem leftOf_oneWord (keep : α → Bool) (u : List α) : leftOf keep (oneWord u) = oneWord (u.filter keep) := by
  unfold oneWord leftOf
  cases u with
  | nil => simp
  | cons a u =>
    cases h : ((a :: u).filter keep).isEmpty <;> simp [h] at * <;> simp [h]

theorem wordsBy_word {p : α → Bool} : ∀ {u : List α}, (∀ a ∈ u, p a = false) → ∀ {l : List α}, (∀ d, l.head? = some d → p d = true) →
    wordsBy p (u ++ l) = oneWord u ++ wordsBy p l
  | [], _, l, _ => rfl
  | [a], hu, l, hl => by
    have ha := hu a (by simp)
    rw [List.singleton_append, wordsBy_cons, ha]
    cases l with
    | nil => rfl
    | cons d l => simp [hl d rfl, oneWord]
  | a :: b :: u, hu, l, hl => by
    have ih := wordsBy_word (u := b :: u) (fun x hx => hu x (by simp [hx])) hl
    rw [List.cons_append, wordsBy_cons, hu a (by simp), ih]
    simp [hu b (by simp), oneWord]

theorem isolBy_word {p : α → Bool} : ∀ {u : List α}, (∀ a ∈ u, p a = false) → ∀ {l : List α}, (∀ d, l.head? = some d → p d = true) →
    isolBy p (u ++ l) = oneWord u ++ isolBy p l
  | [], _, l, _ => rfl
  | [a], hu, l, hl => by
    have ha := hu a (by simp)
    rw [List.singleton_append, isolBy_cons, ha]
    cases l with
    | nil => rfl
    | cons d l => simp [hl d rfl, oneWord]
  | a :: b :: u, hu, l, hl => by
    have ih := isolBy_word (u := b :: u) (fun x hx => hu x (by simp [hx])) hl
    rw [List.cons_append, isolBy_cons, hu a (by simp), ih]
    simp [hu b (by simp), oneWord]

/-- A text is a run of elements that are no delimiters, and then nothing or a delimiter. -/
theorem run_and_rest (p : α → Bool) : ∀ l : List α, ∃ u r, l = u ++ r ∧ (∀ a ∈ u, p a = false) ∧ (r = [] ∨ ∃ d t, r = d :: t ∧ p d = true)
  | [] => ⟨[], [], rfl, by simp, .inl rfl⟩
  | a :: l => by
    cases h : p a with
    | true => exact ⟨[], a :: l, rfl, by simp, .inr ⟨a, l, rfl, h⟩⟩
    | false =>
      obtain ⟨u, r, h1, h2, h3⟩ := run_and_rest p l
      refine ⟨a :: u, r, by rw [h1]; rfl, ?_, h3⟩
      intro x hx
      rcases List.mem_cons.1 hx with rfl | hx
      · exact h
      · exact h2 x hx

/-- The words of what is left of a text are what is left of its words. -/
theorem wordsBy_filter {p keep : α → Bool} {l : List α} (h : ∀ a ∈ l, p a = true → keep a = true) :
    wordsBy p (l.filter keep) = leftOf keep (wordsBy p l) := by
  suffices H : ∀ (n : Nat) (l : List α), l.length ≤ n → (∀ a ∈ l, p a = true → keep a = true) →
      wordsBy p (l.filter keep) = leftOf keep (wordsBy p l) from H _ l (Nat.le_refl _) h
  clear h
  intro n
  induction n with
  | zero =>
    intro l hl _
    have : l = [] := by simpa using hl
    subst this
    rfl
  | succ n ih =>
    intro l hl h
    obtain ⟨u, r, rfl, h2, h3⟩ := run_and_rest p l
    have h2' : ∀ a ∈ u.filter keep, p a = false := fun a ha => h2 a (List.mem_filter.1 ha).1
    rcases h3 with rfl | ⟨d, t, rfl, hd⟩
    · rw [List.filter_append, wordsBy_word h2 (l := []) (by simp), leftOf_append, leftOf_oneWord]
      exact wordsBy_word h2' (l := []) (by simp)
    · have hk := h d (by simp) hd
      rw [List.filter_append, List.filter_cons_of_pos hk, wordsBy_word h2 (by simp [hd]), wordsBy_word h2' (by simp [hd]), leftOf_append,
        leftOf_oneWord, wordsBy_delim hd, wordsBy_delim hd, ih t (by simp at hl; omega) fun a ha => h a (by simp [ha])]

/-- The same for delimiters on their own. -/
theorem isolBy_filter {p keep : α → Bool} {l : List α} (h : ∀ a ∈ l, p a = true → keep a = true) :
    isolBy p (l.filter keep) = leftOf keep (isolBy p l) := by
  suffices H : ∀ (n : Nat) (l : List α), l.length ≤ n → (∀ a ∈ l, p a = true → keep a = true) →
      isolBy p (l.filter keep) = leftOf keep (isolBy p l) from H _ l (Nat.le_refl _) h
  clear h
  intro n
  induction n with
  | zero =>
    intro l hl _
    have : l = [] := by simpa using hl
    subst this
    rfl
  | succ n ih =>
    intro l hl h
    obtain ⟨u, r, rfl, h2, h3⟩ := run_and_rest p l
    have h2' : ∀ a ∈ u.filter keep, p a = false := fun a ha => h2 a (List.mem_filter.1 ha).1
    rcases h3 with rfl | ⟨d, t, rfl, hd⟩
    · rw [List.filter_append, isolBy_word h2 (l := []) (by simp), leftOf_append, leftOf_oneWord]
      exact isolBy_word h2' (l := []) (by simp)
    · have hk := h d (by simp) hd
      have e : ∀ t, isolBy p (d :: t) = [d] :: isolBy p t := fun t => by simp [isolBy, hd]
      rw [List.filter_append, List.filter_cons_of_pos hk, isolBy_word h2 (by simp [hd]), isolBy_word h2' (by simp [hd]), leftOf_append,
        leftOf_oneWord, e, e, ih t (by simp at hl; omega) fun a ha => h a (by simp [ha])]
      simp [leftOf, hk]

end

/-! ## Strings -/

theorem cuts_removed (p : Rune → Bool) : Cuts (fromFunc p) .removed (wordsBy fun c => p c.1) := by
  have e : (fun cs : List Ch => if cs = [] then [] else groupsOf (segs p) .removed cs) = wordsBy fun c => p c.1 := by
    funext cs
    split
    · next h => subst h; rfl
    · rw [← charSegs_words p cs]
      simp [groupsOf, grp, Function.comp_def]
  rw [← e]
  exact (fromFunc_cuts p).cuts .removed

theorem cuts_isolated (p : Rune → Bool) : Cuts (fromFunc p) .isolated (isolBy fun c => p c.1) := by
  have e : (fun cs : List Ch => if cs = [] then [] else groupsOf (segs p) .isolated cs) = isolBy fun c => p c.1 := by
    funext cs
    split
    · next h => subst h; rfl
    · rw [← charSegs_isol p cs]
      simp [groupsOf, grp, Function.comp_def]
  rw [← e]
  exact (fromFunc_cuts p).cuts .isolated

/-- `Normalize` with a function that deletes the runes in `drop`. -/
def deleteNormalize (drop : Rune → Bool) : NormalizeFunc := fun ns => do
  let ns ← ns.filter fun r => !drop r
  pure (ns, none)

/-- Cutting what is left is cutting, and leaving of the pieces what is left. -/
def CutsLeft (drop : Rune → Bool) (cut : List Ch → List (List Ch)) (cs : List Ch) : Prop :=
  cut (cs.filter fun c => !drop c.1) = leftOf (fun c => !drop c.1) (cut cs)

/-- No delimiter is deleted, and the deletions keep their contract (C06): in front of the text, and of every piece of which something is
left, only ASCII is deleted. -/
def DropsWell (drop : Rune → Bool) (cut : List Ch → List (List Ch)) (ns : NS) : Prop :=
  WF ns ∧ ∃ cs, Repr ns cs ∧ CutsLeft drop cut cs ∧ GoodLead drop cs ∧ ∀ w ∈ cut cs, GoodLead drop w

theorem GoodLead.moved {drop : Rune → Bool} {w : List Ch} (h : GoodLead drop w) (k : Int) : GoodLead drop (moveLeft k w) := by
  rcases h with h | h
  · left
    intro c hc
    obtain ⟨d, hd, rfl⟩ := List.mem_map.1 hc
    exact h d hd
  · right
    unfold moveLeft
    rw [List.takeWhile_map]
    intro c hc
    obtain ⟨d, hd, rfl⟩ := List.mem_map.1 hc
    exact h d hd

theorem filter_moveLeft (drop : Rune → Bool) (k : Int) (w : List Ch) :
    (moveLeft k w).filter (fun c => !drop c.1) = moveLeft k (w.filter fun c => !drop c.1) := by
  unfold moveLeft
  rw [List.filter_map]
  rfl

theorem CutsLeft.moved {drop : Rune → Bool} {pattern : SplitPattern} {b : Behavior} {cut : List Ch → List (List Ch)} (hc : Cuts pattern b cut)
    {w : List Ch} (h : CutsLeft drop cut w) (k : Int) : CutsLeft drop cut (moveLeft k w) := by
  unfold CutsLeft at h ⊢
  rw [filter_moveLeft, hc.moved, hc.moved, h]
  unfold leftOf
  rw [List.map_map, List.filter_map, List.map_map, List.filter_map]
  have e1 : ((fun w => List.filter (fun c : Ch => !drop c.1) w) ∘ moveLeft k) = moveLeft k ∘ fun w => w.filter fun c => !drop c.1 := by
    funext w
    exact filter_moveLeft drop k w
  have e2 : ((fun w : List Ch => !w.isEmpty) ∘ fun w => List.filter (fun c : Ch => !drop c.1) w)
      = (fun w : List Ch => !w.isEmpty) ∘ moveLeft k ∘ fun w => w.filter fun c => !drop c.1 := by
    funext w
    simp [moveLeft]
  rw [e1, e2]

/-- **C122, strings.**  The pieces of what is left, and what is left of the pieces. -/
theorem C122_split {drop : Rune → Bool} {pattern : SplitPattern} {b : Behavior} {cut : List Ch → List (List Ch)} (hc : Cuts pattern b cut)
    {ns : NS} (h : DropsWell drop cut ns) :
    ∃ m ps qs rs, deleteNormalize drop ns = .ok (m, none) ∧ m.split pattern b = .ok (.ok ps) ∧ ns.split pattern b = .ok (.ok qs)
      ∧ PTS.normalizeLoop (deleteNormalize drop) ((splitsFromNormalizedStrings qs).filter fun it => !it.ns.isEmpty) = .ok (rs, none)
      ∧ Alike ((splitsFromNormalizedStrings ps).filter fun it => !it.ns.isEmpty) rs := by
  obtain ⟨hwf, cs, hr, hl, hg, hw⟩ := h
  obtain ⟨m, m1, m2, m3, m4⟩ := filter_good hr (keep := fun r => !drop r) (fun _ => rfl) hg
  have mwf : WF m := Op.run_wf (op := .filter fun r => !drop r) hwf m1
  obtain ⟨ps, p1, p2⟩ := hc.pieces mwf m2
  obtain ⟨qs, q1, q2⟩ := hc.pieces hwf hr
  have hp := hc.parts cs
  suffices H : ∀ W : List (List Ch), (∀ w ∈ W, GoodLead drop w) → (∀ w ∈ W, w ≠ [] ∧ ∃ u v, cs = u ++ w ++ v) →
      ∃ rs, PTS.normalizeLoop (deleteNormalize drop) (splitsFromNormalizedStrings (W.map (pieceOf ns))) = .ok (rs, none)
        ∧ Alike (splitsFromNormalizedStrings ((leftOf (fun c => !drop c.1) W).map (pieceOf m))) rs by
    obtain ⟨rs, r1, r2⟩ := H _ hw hp
    refine ⟨m, ps, qs, rs, by simp [deleteNormalize, m1], p1, q1, ?_, ?_⟩
    · rw [filter_splits, q2]; exact r1
    · rw [filter_splits, p2, show cut _ = _ from hl]; exact r2
  intro W
  induction W with
  | nil => intro _ _; exact ⟨[], rfl, .nil⟩
  | cons w W ih =>
    intro h1 h2
    obtain ⟨rs, r1, r2⟩ := ih (fun x hx => h1 x (by simp [hx])) (fun x hx => h2 x (by simp [hx]))
    obtain ⟨w0, u, v, e⟩ := h2 w (by simp)
    obtain ⟨a1, a2, a3⟩ := pieceOf_chars hwf (by rw [← e]; exact hr) w0
    obtain ⟨n, n1, n2, n3, n4⟩ := filter_good a2 (keep := fun r => !drop r) (fun _ => rfl) ((h1 w (by simp)).moved _)
    have nwf : WF n := Op.run_wf (op := .filter fun r => !drop r) a1 n1
    rw [filter_moveLeft] at n2
    refine ⟨⟨n, none⟩ :: rs, ?_, ?_⟩
    · have : deleteNormalize drop (pieceOf ns w) = .ok (n, none) := by simp [deleteNormalize, n1]
      unfold splitsFromNormalizedStrings at r1 ⊢
      simp only [List.map_cons, PTS.normalizeLoop, this, GoM.bind_ok]
      rw [r1]
      rfl
    · by_cases he : w.filter (fun c => !drop c.1) = []
      · have e1 : leftOf (fun c => !drop c.1) (w :: W) = leftOf (fun c => !drop c.1) W := by simp [leftOf, he]
        rw [e1]
        refine .right ⟨rfl, ?_, nwf, _, n2⟩ r2
        have := n2.text_eq
        rw [he] at this
        simp only [NS.isEmpty, this]
        rfl
      · have e1 : leftOf (fun c => !drop c.1) (w :: W) = w.filter (fun c => !drop c.1) :: leftOf (fun c => !drop c.1) W := by
          simp only [leftOf, List.map_cons]
          rw [List.filter_cons_of_pos (by simpa using he)]
        rw [e1]
        refine .cons (.free ?_) r2
        have m2' : Repr m (u.filter (fun c => !drop c.1) ++ w.filter (fun c => !drop c.1) ++ v.filter fun c => !drop c.1) := by
          rw [← List.filter_append, ← List.filter_append, ← e]; exact m2
        obtain ⟨b1, b2, b3⟩ := pieceOf_chars mwf m2' he
        refine ⟨b1, nwf, _, _, b2, n2, ?_⟩
        have a4 := congrArg (List.filter fun c => !drop c.1) a3
        rw [filter_moveLeft, filter_moveLeft, filter_moveLeft] at a4
        rw [b3, n4, a4, m4]

/-! ## `PreTokenizedString`s -/

/-- To delete and pre-tokenize, and to pre-tokenize and delete: alike, but for splits of which nothing is left. -/
def DeletesLike (drop : Rune → Bool) (T : PreTokenizer) (P : PTS) : Prop :=
  ∃ a b q c, P.normalize (deleteNormalize drop) = .ok (a, none) ∧ T a = .ok (b, none)
    ∧ T P = .ok (q, none) ∧ q.normalize (deleteNormalize drop) = .ok (c, none) ∧ Alike b.splits c.splits

/-- **C122, PreTokenizedStrings.** -/
theorem C122_pts {drop : Rune → Bool} {pattern : SplitPattern} {b : Behavior} {cut : List Ch → List (List Ch)} (hc : Cuts pattern b cut)
    {P : PTS} (h : AllFree (DropsWell drop cut) P) : DeletesLike drop (fun P => P.split (splitByPattern pattern b)) P := by
  suffices H : ∀ (ps : List Piece) (i : Nat), (∀ sp ∈ ps, sp.tokens = none → DropsWell drop cut sp.ns) →
      ∃ as bs qs cs o1 o2, PTS.normalizeLoop (deleteNormalize drop) ps = .ok (as, none)
        ∧ PTS.splitLoop (splitByPattern pattern b) i as = .ok (o1, .ok bs)
        ∧ PTS.splitLoop (splitByPattern pattern b) i ps = .ok (o2, .ok qs)
        ∧ PTS.normalizeLoop (deleteNormalize drop) qs = .ok (cs, none) ∧ Alike bs cs by
    obtain ⟨as, bs, qs, cs, o1, o2, h1, h2, h3, h4, h5⟩ := H P.splits 0 h
    exact ⟨⟨P.original, as⟩, ⟨P.original, bs⟩, ⟨P.original, qs⟩, ⟨P.original, cs⟩, by simp [PTS.normalize, h1], by simp [PTS.split, h2],
      by simp [PTS.split, h3], by simp [PTS.normalize, h4], h5⟩
  intro ps
  induction ps with
  | nil => intro i _; exact ⟨[], [], [], [], [], [], rfl, rfl, rfl, rfl, .nil⟩
  | cons sp ps ih =>
    intro i h
    obtain ⟨as, bs, qs, cs, o1, o2, h1, h2, h3, h4, h5⟩ := ih (i + 1) fun x hx => h x (by simp [hx])
    cases ht : sp.tokens with
    | some ts =>
      refine ⟨sp :: as, sp :: bs, sp :: qs, sp :: cs, sp :: o1, sp :: o2, ?_, ?_, ?_, ?_, .cons (.same _ (by simp [ht])) h5⟩
      · simp [PTS.normalizeLoop, ht, h1]
      · simp [PTS.splitLoop, ht, h2]
      · simp [PTS.splitLoop, ht, h3]
      · simp [PTS.normalizeLoop, ht, h4]
    | none =>
      obtain ⟨m, xs, ys, rs, m1, m2, m3, m4, m5⟩ := C122_split hc (h sp (by simp) ht)
      refine ⟨⟨m, none⟩ :: as, (splitsFromNormalizedStrings xs).filter (fun it => !it.ns.isEmpty) ++ bs,
        (splitsFromNormalizedStrings ys).filter (fun it => !it.ns.isEmpty) ++ qs, rs ++ cs, ⟨m, none⟩ :: o1, ⟨sp.ns, none⟩ :: o2,
        ?_, ?_, ?_, normalizeLoop_append m4 h4, m5.append h5⟩
      · simp [PTS.normalizeLoop, ht, m1, h1]
      · simp [PTS.splitLoop, splitByPattern, m2, h2]
      · simp [PTS.splitLoop, splitByPattern, ht, m3, h3]

theorem PieceSame.trans {s t r : Piece} (h : PieceSame s t) (h' : PieceSame t r) : PieceSame s r := by
  cases h with
  | same => exact h'
  | free h =>
    cases h' with
    | same => exact .free h
    | free h' => exact .free (h.trans h')
  | placed h ht =>
    cases h' with
    | same => exact .placed h ht
    | placed h' ht' => exact .placed (h.trans h') ht

theorem Alike.after {ss ts rs : List Piece} (h : All2 PieceSame ss ts) (h' : Alike ts rs) : Alike ss rs := by
  induction h' generalizing ss with
  | nil => cases h; exact .nil
  | cons h1 _ ih =>
    cases h with
    | cons h2 h3 => exact .cons (h2.trans h1) (ih h3)
  | left h1 _ ih =>
    cases h with
    | @cons s _ _ _ h2 h3 =>
      refine .left ?_ (ih h3)
      obtain ⟨k1, k2, k3⟩ := h1
      cases h2 with
      | same => exact ⟨k1, k2, k3⟩
      | free h2 => exact ⟨rfl, by rw [h2.isEmpty]; exact k2, h2.left⟩
      | placed => cases k1
  | right h1 _ ih => exact .right h1 (ih h)

/-- What a split gives: pieces with a text. -/
theorem split_free {pattern : SplitPattern} {b : Behavior} {R : NS → Prop} {P : PTS}
    (h : AllFree (fun ns => ∃ qs, ns.split pattern b = .ok (.ok qs) ∧ ∀ x ∈ qs.filter (fun z => !z.isEmpty), R x) P) :
    ∃ q, P.split (splitByPattern pattern b) = .ok (q, none) ∧ AllFree (fun ns => R ns ∧ ns.isEmpty = false) q := by
  suffices H : ∀ (ps : List Piece) (i : Nat), (∀ sp ∈ ps, sp.tokens = none →
        ∃ qs, sp.ns.split pattern b = .ok (.ok qs) ∧ ∀ x ∈ qs.filter (fun z => !z.isEmpty), R x) →
      ∃ qs o, PTS.splitLoop (splitByPattern pattern b) i ps = .ok (o, .ok qs) ∧ ∀ sp ∈ qs, sp.tokens = none → R sp.ns ∧ sp.ns.isEmpty = false by
    obtain ⟨qs, o, h1, h2⟩ := H P.splits 0 h
    exact ⟨⟨P.original, qs⟩, by simp [PTS.split, h1], h2⟩
  intro ps
  induction ps with
  | nil => intro i _; exact ⟨[], [], rfl, by simp⟩
  | cons sp ps ih =>
    intro i h
    obtain ⟨qs, o, h1, h2⟩ := ih (i + 1) fun x hx => h x (by simp [hx])
    cases ht : sp.tokens with
    | some ts =>
      refine ⟨sp :: qs, sp :: o, by simp [PTS.splitLoop, ht, h1], ?_⟩
      intro x hx hn
      rcases List.mem_cons.1 hx with rfl | hx
      · rw [ht] at hn; cases hn
      · exact h2 x hx hn
    | none =>
      obtain ⟨xs, x1, x2⟩ := h sp (by simp) ht
      refine ⟨(splitsFromNormalizedStrings xs).filter (fun it => !it.ns.isEmpty) ++ qs, ⟨sp.ns, none⟩ :: o,
        by simp [PTS.splitLoop, splitByPattern, ht, x1, h1], ?_⟩
      intro x hx hn
      rcases List.mem_append.1 hx with hx | hx
      · rw [filter_splits] at hx
        obtain ⟨z, hz, rfl⟩ := List.mem_map.1 hx
        exact ⟨x2 z hz, by have := (List.mem_filter.1 hz).2; simpa using this⟩
      · exact h2 x hx hn

/-- The deletions keep their contract for the text, the pieces, and the pieces of the pieces. -/
def DropsWell2 (drop : Rune → Bool) (cut cut' : List Ch → List (List Ch)) (ns : NS) : Prop :=
  WF ns ∧ ∃ cs, Repr ns cs ∧ CutsLeft drop cut cs ∧ GoodLead drop cs ∧ ∀ w ∈ cut cs, CutsLeft drop cut' w ∧ GoodLead drop w ∧ ∀ v ∈ cut' w, GoodLead drop v

/-- **C122, one split after another.** -/
theorem C122_then {drop : Rune → Bool} {pattern pattern' : SplitPattern} {b b' : Behavior} {cut cut' : List Ch → List (List Ch)}
    {seg : List Rune → List (Bool × List Rune)} (hc : Cuts pattern b cut) (hc' : Cuts pattern' b' cut') (hs : CutsSegs pattern' seg) {P : PTS} (h : AllFree (DropsWell2 drop cut cut') P) :
    DeletesLike drop (thenPre (fun P => P.split (splitByPattern pattern b)) (fun P => P.split (splitByPattern pattern' b'))) P := by
  obtain ⟨a, b1, q1, c1, h1, h2, h3, h4, h5⟩ := C122_pts hc (P := P) (fun sp hsp ht => by
    obtain ⟨hwf, cs, k1, k0, k2, k3⟩ := h sp hsp ht
    exact ⟨hwf, cs, k1, k0, k2, fun w hw => (k3 w hw).2.1⟩)
  obtain ⟨q, e1, e2⟩ := split_free (pattern := pattern) (b := b) (P := P) (R := DropsWell drop cut') (fun sp hsp ht => by
    obtain ⟨hwf, cs, k1, k0, k2, k3⟩ := h sp hsp ht
    obtain ⟨qs, f1, f2⟩ := hc.pieces hwf k1
    refine ⟨qs, f1, ?_⟩
    rw [f2]
    intro x hx
    obtain ⟨w, hw, rfl⟩ := List.mem_map.1 hx
    obtain ⟨w0, u, v, e⟩ := hc.parts cs w hw
    obtain ⟨a1, a2, -⟩ := pieceOf_chars hwf (by rw [← e]; exact k1) w0
    refine ⟨a1, _, a2, (k3 w hw).1.moved hc' _, (k3 w hw).2.1.moved _, ?_⟩
    rw [hc'.moved]
    intro v hv
    obtain ⟨v', hv', rfl⟩ := List.mem_map.1 hv
    exact ((k3 w hw).2.2 v' hv').moved _)
  have : q = q1 := by
    have h3 : P.split (splitByPattern pattern b) = .ok (q1, none) := h3
    rw [e1] at h3; simpa using h3
  subst this
  obtain ⟨c1', d2, q2, c2, g1, g2, g3, g4, g5⟩ := C122_pts hc' (P := q) (fun sp hsp ht => (e2 sp hsp ht).1)
  have : c1' = c1 := by rw [h4] at g1; simpa using g1.symm
  subst this
  obtain ⟨b2, d2', r1, r2, r3⟩ := C121_pts hs b' b1 c1' h5
  have : d2' = d2 := by
    have g2 : c1'.split (splitByPattern pattern' b') = .ok (d2, none) := g2
    have r2 : c1'.split (splitByPattern pattern' b') = .ok (d2', none) := r2
    rw [r2] at g2; simpa using g2
  subst this
  simp only at h2 h3 r1 g3
  exact ⟨a, b2, q2, c2, h1, by simp [thenPre, h2, r1], by simp [thenPre, h3, g3], g4, .after r3 g5⟩

theorem cutsLeft_removed {drop p : Rune → Bool} {cs : List Ch} (h : ∀ c ∈ cs, p c.1 = true → drop c.1 = false) :
    CutsLeft drop (wordsBy fun c => p c.1) cs := wordsBy_filter fun c hc hp => by simp [h c hc hp]

theorem cutsLeft_isolated {drop p : Rune → Bool} {cs : List Ch} (h : ∀ c ∈ cs, p c.1 = true → drop c.1 = false) :
    CutsLeft drop (isolBy fun c => p c.1) cs := isolBy_filter fun c hc hp => by simp [h c hc hp]

/-- The words of a text keep their contract: no delimiter is deleted, and at the front only ASCII, or all. -/
def DropsIn (drop p : Rune → Bool) (ns : NS) : Prop := WF ns ∧ ∃ cs, Repr ns cs ∧ (∀ c ∈ cs, p c.1 = true → drop c.1 = false)
  ∧ GoodLead drop cs ∧ ∀ w ∈ wordsBy (fun c => p c.1) cs, GoodLead drop w

/-- The same for words that are cut again at the runes in `q`. -/
def DropsIn2 (drop p q : Rune → Bool) (ns : NS) : Prop := WF ns ∧ ∃ cs, Repr ns cs
  ∧ (∀ c ∈ cs, p c.1 = true ∨ q c.1 = true → drop c.1 = false) ∧ GoodLead drop cs
  ∧ ∀ w ∈ wordsBy (fun c => p c.1) cs, GoodLead drop w ∧ ∀ v ∈ isolBy (fun c => q c.1) w, GoodLead drop v

theorem DropsIn.well {drop p : Rune → Bool} {ns : NS} (h : DropsIn drop p ns) : DropsWell drop (wordsBy fun c => p c.1) ns := by
  obtain ⟨hwf, cs, h1, h2, h3⟩ := h
  exact ⟨hwf, cs, h1, cutsLeft_removed h2, h3⟩

theorem DropsIn2.well {drop p q : Rune → Bool} {ns : NS} (h : DropsIn2 drop p q ns) :
    DropsWell2 drop (wordsBy fun c => p c.1) (isolBy fun c => q c.1) ns := by
  obtain ⟨hwf, cs, h1, h2, h3, h4⟩ := h
  refine ⟨hwf, cs, h1, cutsLeft_removed fun c hc hp => h2 c hc (.inl hp), h3, fun w hw => ⟨cutsLeft_isolated fun c hc hp => ?_, h4 w hw⟩⟩
  obtain ⟨-, u, v, e⟩ := (cuts_removed p).parts cs w hw
  exact h2 c (by rw [e]; simp [hc]) (.inr hp)

/-- **C122, white space split.** -/
theorem C122_whiteSpaceSplit {drop : Rune → Bool} {P : PTS} (h : AllFree (DropsIn drop isWhiteSpace) P) : DeletesLike drop whiteSpaceSplit P :=
  C122_pts (cuts_removed _) fun sp hsp ht => (h sp hsp ht).well

/-- **C122, rune delimiter.** -/
theorem C122_runeDelimiter {drop : Rune → Bool} {d : Rune} {P : PTS} (h : AllFree (DropsIn drop fun r => r == d) P) :
    DeletesLike drop (runeDelimiter d) P := C122_pts (cuts_removed fun r => r == d) fun sp hsp ht => (h sp hsp ht).well

/-- **C122, BERT.** -/
theorem C122_bert {u : Uni} {drop : Rune → Bool} {P : PTS} (h : AllFree (DropsIn2 drop isWhiteSpace u.isPunct) P) :
    DeletesLike drop (bertPreTokenize u) P :=
  C122_then (cuts_removed _) (cuts_isolated _) (fromFunc_cuts _) fun sp hsp ht => (h sp hsp ht).well

/-- Texts of which only ASCII is deleted, and no delimiters. -/
def DropsAscii (drop p : Rune → Bool) (ns : NS) : Prop := WF ns ∧ ∃ cs, Repr ns cs
  ∧ ∀ c ∈ cs, drop c.1 = true → c.1 < 0x80 ∧ p c.1 = false

theorem goodLead_ascii {drop : Rune → Bool} {cs : List Ch} (h : ∀ c ∈ cs, drop c.1 = true → c.1 < 0x80) : GoodLead drop cs := by
  right
  intro c hc
  exact h c ((List.takeWhile_prefix _).subset hc) (mem_takeWhile_imp (p := fun c : Ch => drop c.1) hc)

theorem DropsAscii.words {drop p : Rune → Bool} {ns : NS} (h : DropsAscii drop p ns) : DropsIn drop p ns := by
  obtain ⟨hwf, cs, h1, h2⟩ := h
  refine ⟨hwf, cs, h1, fun c hc hp => ?_, goodLead_ascii fun c hc hd => (h2 c hc hd).1, fun w hw => goodLead_ascii fun c hcw hd => ?_⟩
  · cases hd : drop c.1 with
    | false => rfl
    | true => rw [(h2 c hc hd).2] at hp; cases hp
  · obtain ⟨-, u, v, e⟩ := (cuts_removed p).parts cs w hw
    exact (h2 c (by rw [e]; simp [hcw]) hd).1

theorem DropsAscii.words2 {drop p q : Rune → Bool} {ns : NS} (h : DropsAscii drop (fun r => p r || q r) ns) : DropsIn2 drop p q ns := by
  obtain ⟨hwf, cs, h1, h2⟩ := h
  refine ⟨hwf, cs, h1, fun c hc hp => ?_, goodLead_ascii fun c hc hd => (h2 c hc hd).1, fun w hw => ?_⟩
  · cases hd : drop c.1 with
    | false => rfl
    | true =>
      have := (h2 c hc hd).2
      simp only [Bool.or_eq_false_iff] at this
      rcases hp with hp | hp
      · rw [this.1] at hp; cases hp
      · rw [this.2] at hp; cases hp
  · obtain ⟨-, u, v, e⟩ := (cuts_removed p).parts cs w hw
    refine ⟨goodLead_ascii fun c hcw hd => (h2 c (by rw [e]; simp [hcw]) hd).1, fun x hx => goodLead_ascii fun c hcx hd => ?_⟩
    obtain ⟨-, u', v', e'⟩ := (cuts_isolated q).parts w x hx
    exact (h2 c (by rw [e, e']; simp [hcx]) hd).1

/-! ## Encodings -/

/-- No split without tokens is without text. -/
def NoEmpty (P : PTS) : Prop := ∀ sp ∈ P.splits, sp.tokens = none → sp.ns.isEmpty = false

theorem Alike.all2 {ss ts : List Piece} (h : Alike ss ts) (h1 : ∀ sp ∈ ss, sp.tokens = none → sp.ns.isEmpty = false)
    (h2 : ∀ sp ∈ ts, sp.tokens = none → sp.ns.isEmpty = false) : All2 PieceSame ss ts := by
  induction h with
  | nil => exact .nil
  | cons h _ ih => exact .cons h (ih (fun x hx => h1 x (by simp [hx])) (fun x hx => h2 x (by simp [hx])))
  | @left s _ _ h _ _ =>
    have := h1 s (by simp) h.1
    rw [h.2.1] at this; cases this
  | @right t _ _ h _ _ =>
    have := h2 t (by simp) h.1
    rw [h.2.1] at this; cases this

/-- **C122, encodings.**  If something is left of every split: the same encoding, whatever the model. -/
theorem C122_encoding {drop : Rune → Bool} {T : PreTokenizer} {P : PTS} (h : DeletesLike drop T P) {tok : NS → GoM (Except Err (List Token))}
    (ht : ByText tok) (wi ti : Int) : ∃ a b q c, P.normalize (deleteNormalize drop) = .ok (a, none) ∧ T a = .ok (b, none)
      ∧ T P = .ok (q, none) ∧ q.normalize (deleteNormalize drop) = .ok (c, none)
      ∧ (NoEmpty b → NoEmpty c → b.getNormalizedByteSplits = c.getNormalizedByteSplits ∧ encodeWith tok wi ti b = encodeWith tok wi ti c) := by
  obtain ⟨a, b, q, c, h1, h2, h3, h4, h5⟩ := h
  refine ⟨a, b, q, c, h1, h2, h3, h4, fun n1 n2 => ?_⟩
  have hs := h5.all2 n1 n2
  refine ⟨C121_normalizedByteSplits hs, ?_⟩
  unfold encodeWith
  rcases C121_tokenize ht hs with ⟨e1, e2⟩ | ⟨a, b, e, e1, e2, e3⟩
  · rw [e1, e2]
  · rw [e1, e2]
    cases e with
    | some e => rfl
    | none => simp only [GoM.bind_ok]; exact C121_intoEncoding e3 wi ti

theorem intoEncoding_all {P : PTS} (h : P.allSplitsHaveTokens = true) (wi ti : Int) : P.intoEncoding wi ti = (do
    let seq ← PTS.encodeSplits wi ti 0 P.splits
    pure (.ok (Encoding.fromEncodableTokens seq))) := by
  unfold PTS.intoEncoding
  split
  · next hl =>
    have : P.splits = [] := by simpa using hl
    rw [this]
    rfl
  · simp [h]

/-- **C122, encodings with a word number.**  With a given word number, and a model that gives no tokens to a split with no text, the
splits of which nothing is left make no difference. -/
theorem C122_alike {tok : NS → GoM (Except Err (List Token))} (ht : ByText tok) (h0 : ∀ x : NS, x.get = [] → tok x = .ok (.ok []))
    {wi : Int} (hwi : 0 ≤ wi) (ti : Int) {P Q : PTS} (h : Alike P.splits Q.splits) : encodeWith tok wi ti P = encodeWith tok wi ti Q := by
  suffices H : ∀ ss ts : List Piece, Alike ss ts →
      (PTS.tokenizeLoop tok ss = .panic ∧ PTS.tokenizeLoop tok ts = .panic)
      ∨ (∃ as bs e, PTS.tokenizeLoop tok ss = .ok (as, some e) ∧ PTS.tokenizeLoop tok ts = .ok (bs, some e))
      ∨ ∃ as bs, PTS.tokenizeLoop tok ss = .ok (as, none) ∧ PTS.tokenizeLoop tok ts = .ok (bs, none)
        ∧ (as.all fun sp => sp.tokens.isSome) = true ∧ (bs.all fun sp => sp.tokens.isSome) = true
        ∧ ∀ i j : Nat, PTS.encodeSplits wi ti i as = PTS.encodeSplits wi ti j bs by
    rcases H _ _ h with ⟨h1, h2⟩ | ⟨as, bs, e, h1, h2⟩ | ⟨as, bs, h1, h2, h3, h4, h5⟩
    · simp [encodeWith, PTS.tokenize, h1, h2]
    · simp [encodeWith, PTS.tokenize, h1, h2]
    · simp only [encodeWith, PTS.tokenize, h1, h2, GoM.bind_ok, GoM.pure_eq]
      rw [intoEncoding_all (P := ⟨P.original, as⟩) h3, intoEncoding_all (P := ⟨Q.original, bs⟩) h4, h5 0 0]
  clear h
  have hw : ¬ wi < 0 := by omega
  have key : ∀ {s t : Piece} {ss ts : List Piece}, s.tokens = t.tokens → s.tokens ≠ none →
      (∀ ks, s.tokens = some ks → PTS.encodeTokens s.ns wi ti ks = PTS.encodeTokens t.ns wi ti ks) →
      ((PTS.tokenizeLoop tok ss = .panic ∧ PTS.tokenizeLoop tok ts = .panic)
      ∨ (∃ as bs e, PTS.tokenizeLoop tok ss = .ok (as, some e) ∧ PTS.tokenizeLoop tok ts = .ok (bs, some e))
      ∨ ∃ as bs, PTS.tokenizeLoop tok ss = .ok (as, none) ∧ PTS.tokenizeLoop tok ts = .ok (bs, none)
        ∧ (as.all fun sp => sp.tokens.isSome) = true ∧ (bs.all fun sp => sp.tokens.isSome) = true
        ∧ ∀ i j : Nat, PTS.encodeSplits wi ti i as = PTS.encodeSplits wi ti j bs) →
      (PTS.tokenizeLoop tok (s :: ss) = .panic ∧ PTS.tokenizeLoop tok (t :: ts) = .panic)
      ∨ (∃ as bs e, PTS.tokenizeLoop tok (s :: ss) = .ok (as, some e) ∧ PTS.tokenizeLoop tok (t :: ts) = .ok (bs, some e))
      ∨ ∃ as bs, PTS.tokenizeLoop tok (s :: ss) = .ok (as, none) ∧ PTS.tokenizeLoop tok (t :: ts) = .ok (bs, none)
        ∧ (as.all fun sp => sp.tokens.isSome) = true ∧ (bs.all fun sp => sp.tokens.isSome) = true
        ∧ ∀ i j : Nat, PTS.encodeSplits wi ti i as = PTS.encodeSplits wi ti j bs := by
    intro s t ss ts h1 h2 h3 ih
    cases hs : s.tokens with
    | none => exact absurd hs h2
    | some ks =>
      have hts : t.tokens = some ks := by rw [← h1, hs]
      rcases ih with ⟨i1, i2⟩ | ⟨as, bs, e, i1, i2⟩ | ⟨as, bs, i1, i2, i3, i4, i5⟩
      · exact .inl ⟨by simp [PTS.tokenizeLoop, hs, i1], by simp [PTS.tokenizeLoop, hts, i2]⟩
      · exact .inr (.inl ⟨s :: as, t :: bs, e, by simp [PTS.tokenizeLoop, hs, i1], by simp [PTS.tokenizeLoop, hts, i2]⟩)
      · refine .inr (.inr ⟨s :: as, t :: bs, by simp [PTS.tokenizeLoop, hs, i1], by simp [PTS.tokenizeLoop, hts, i2],
          by rw [List.all_cons, i3, hs]; rfl, by rw [List.all_cons, i4, hts]; rfl, fun i j => ?_⟩)
        simp only [PTS.encodeSplits, if_neg hw, hs, hts, Option.getD_some, h3 ks hs, i5 (i + 1) (j + 1)]
  intro ss ts h
  induction h with
  | nil => exact .inr (.inr ⟨[], [], rfl, rfl, rfl, rfl, fun _ _ => rfl⟩)
  | @cons s t ss ts h _ ih =>
    cases h with
    | same _ h => exact key rfl h (fun _ _ => rfl) ih
    | placed h hp =>
      refine key rfl (by simp) (fun ks hk => ?_) ih
      simp only [Option.some.injEq] at hk
      subst hk
      exact encodeTokens_same h wi ti hp
    | @free x y h =>
      have e := ht.text x y h.place.1
      cases ex : tok x with
      | panic => exact .inl ⟨by simp [PTS.tokenizeLoop, ex], by simp [PTS.tokenizeLoop, ← e, ex]⟩
      | ok r =>
        cases r with
        | error er => exact .inr (.inl ⟨_, _, er, by simp [PTS.tokenizeLoop, ex]; rfl, by simp [PTS.tokenizeLoop, ← e, ex]; rfl⟩)
        | ok ks =>
          have := key (s := ⟨x, some ks⟩) (t := ⟨y, some ks⟩) rfl (by simp) (fun ks' hk => by
            simp only [Option.some.injEq] at hk
            subst hk
            exact encodeTokens_same h wi ti (ht.placed x h.left ks ex)) ih
          have e1 : PTS.tokenizeLoop tok (⟨x, none⟩ :: ss) = PTS.tokenizeLoop tok (⟨x, some ks⟩ :: ss) := by simp [PTS.tokenizeLoop, ex]
          have e2 : PTS.tokenizeLoop tok (⟨y, none⟩ :: ts) = PTS.tokenizeLoop tok (⟨y, some ks⟩ :: ts) := by simp [PTS.tokenizeLoop, ← e, ex]
          rw [e1, e2]
          exact this
  | @left s ss ts h _ ih =>
    have hx : tok s.ns = .ok (.ok []) := h0 _ (by have := h.2.1; simpa [NS.isEmpty, NS.get] using this)
    rcases ih with ⟨i1, i2⟩ | ⟨as, bs, e, i1, i2⟩ | ⟨as, bs, i1, i2, i3, i4, i5⟩
    · exact .inl ⟨by simp [PTS.tokenizeLoop, h.1, hx, i1], i2⟩
    · exact .inr (.inl ⟨⟨s.ns, some []⟩ :: as, bs, e, by simp [PTS.tokenizeLoop, h.1, hx, i1], i2⟩)
    · refine .inr (.inr ⟨⟨s.ns, some []⟩ :: as, bs, by simp [PTS.tokenizeLoop, h.1, hx, i1], i2, by rw [List.all_cons, i3]; rfl, i4, fun i j => ?_⟩)
      rw [← i5 (i + 1) j]
      simp only [PTS.encodeSplits, Option.getD_some, PTS.encodeTokens, GoM.bind_ok]
      cases PTS.encodeSplits wi ti (i + 1) as <;> rfl
  | @right t ss ts h _ ih =>
    have hx : tok t.ns = .ok (.ok []) := h0 _ (by have := h.2.1; simpa [NS.isEmpty, NS.get] using this)
    rcases ih with ⟨i1, i2⟩ | ⟨as, bs, e, i1, i2⟩ | ⟨as, bs, i1, i2, i3, i4, i5⟩
    · exact .inl ⟨i1, by simp [PTS.tokenizeLoop, h.1, hx, i2]⟩
    · exact .inr (.inl ⟨as, ⟨t.ns, some []⟩ :: bs, e, i1, by simp [PTS.tokenizeLoop, h.1, hx, i2]⟩)
    · refine .inr (.inr ⟨as, ⟨t.ns, some []⟩ :: bs, i1, by simp [PTS.tokenizeLoop, h.1, hx, i2], i3, by rw [List.all_cons, i4]; rfl, fun i j => ?_⟩)
      rw [i5 i (j + 1)]
      simp only [PTS.encodeSplits, Option.getD_some, PTS.encodeTokens, GoM.bind_ok]
      cases PTS.encodeSplits wi ti (j + 1) bs <;> rfl

/-! ## The BERT normalizer -/

open Unicode (uni inTable disjoint disjoint_spec tableMn tableP tableC C94_clean_space)

/-- Marks are neither white space nor punctuation. -/
theorem marks_apart (r : Rune) (h : isWhiteSpace r = true ∨ uni.isPunct r = true) : uni.isMn r = false := by
  rcases h with h | h
  · have : ∀ x ∈ ([9, 10, 11, 12, 13, 0x20, 0x85, 0xA0, 0x1680, 0x2000, 0x2001, 0x2002, 0x2003, 0x2004, 0x2005, 0x2006, 0x2007, 0x2008,
      0x2009, 0x200A, 0x2028, 0x2029, 0x202F, 0x205F, 0x3000] : List Rune), uni.isMn x = false := by decide +kernel
    refine this r ?_
    simp only [isWhiteSpace, Bool.or_eq_true, Bool.and_eq_true, decide_eq_true_eq, beq_iff_eq] at h
    simp only [List.mem_cons, List.not_mem_nil, or_false]
    omega
  · have hd : disjoint tableP tableMn = true := by decide +kernel
    exact disjoint_spec hd r h

/-- What text cleaning deletes is no punctuation. -/
theorem dropped_apart (r : Rune) (h : uni.isPunct r = true) : bertDropped uni r = false := by
  have hd : disjoint tableP tableC = true := by decide +kernel
  have h0 : uni.isOther r = false := disjoint_spec hd r h
  have h1 : (r == 0) = false := by
    cases e : r == 0 with
    | false => rfl
    | true => rw [show r = 0 from by simpa using e] at h; revert h; decide +kernel
  have h2 : (r == 0xFFFD) = false := by
    cases e : r == 0xFFFD with
    | false => rfl
    | true => rw [show r = 0xFFFD from by simpa using e] at h; revert h; decide +kernel
  simp only [bertDropped, h0, h1, h2, Bool.false_and, Bool.or_self]

/-- **C122, accents.**  Texts in which every mark stands in a word, or on its own, behind something that is no mark: to strip the accents
before the BERT pre-tokenizer runs or after it. -/
theorem C122_accents {P : PTS} (h : AllFree (fun ns => WF ns ∧ ∃ cs, Repr ns cs ∧ GoodLead uni.isMn cs
      ∧ ∀ w ∈ wordsBy (fun c => isWhiteSpace c.1) cs, GoodLead uni.isMn w ∧ ∀ v ∈ isolBy (fun c => uni.isPunct c.1) w, GoodLead uni.isMn v) P) :
    DeletesLike uni.isMn (bertPreTokenize uni) P :=
  C122_bert fun sp hsp ht => by
    obtain ⟨hwf, cs, h1, h2⟩ := h sp hsp ht
    exact ⟨hwf, cs, h1, fun c _ hp => marks_apart c.1 hp, h2⟩

/-- `Normalize` with the text cleaning of the BERT normalizer. -/
def cleanNormalize (u : Uni) : NormalizeFunc := fun ns => do
  let ns ← cleanText u ns
  pure (ns, none)

example (ns : NS) : bertNormalize uni ⟨true, false, false, false⟩ ns = cleanNormalize uni ns := by
  simp only [bertNormalize, cleanNormalize]
  cases cleanText uni ns <;> rfl

example (ns : NS) : bertNormalize uni ⟨false, false, true, false⟩ ns = deleteNormalize uni.isMn ns := by
  cases h : ns.filter (fun r => !uni.isMn r) <;> simp [bertNormalize, deleteNormalize, stripAccents, h]

theorem cleanKeep_dropped (u : Uni) : cleanKeep u = fun r => !bertDropped u r := by
  funext r
  simp only [cleanKeep, bertDropped, isControlCharacter, runeError]
  congr 2
  by_cases h1 : r = 9 <;> by_cases h2 : r = 10 <;> by_cases h3 : r = 13 <;> simp_all

/-- **C122, text cleaning.**  Texts of whose control characters only ASCII ones other than vertical tab and form feed are there: to clean
the text before the BERT pre-tokenizer runs is to delete the control characters afterwards. -/
theorem C122_clean {P : PTS} (h : AllFree (fun ns => WF ns ∧ ∃ cs, Repr ns cs
      ∧ ∀ c ∈ cs, bertDropped uni c.1 = true → c.1 < 0x80 ∧ c.1 ≠ 0x0B ∧ c.1 ≠ 0x0C) P) :
    ∃ a b q c, P.normalize (cleanNormalize uni) = .ok (a, none) ∧ bertPreTokenize uni a = .ok (b, none)
      ∧ bertPreTokenize uni P = .ok (q, none) ∧ q.normalize (deleteNormalize (bertDropped uni)) = .ok (c, none) ∧ Alike b.splits c.splits := by
  have hA : AllFree (DropsIn2 (bertDropped uni) isWhiteSpace uni.isPunct) P := by
    intro sp hsp ht
    obtain ⟨hwf, cs, h1, h2⟩ := h sp hsp ht
    refine DropsAscii.words2 ⟨hwf, cs, h1, fun c hc hd => ⟨(h2 c hc hd).1, ?_⟩⟩
    have k := h2 c hc hd
    rw [Bool.or_eq_false_iff]
    constructor
    · cases e : isWhiteSpace c.1 with
      | false => rfl
      | true => have := (C94_clean_space c.1 e).1 hd; omega
    · cases e : uni.isPunct c.1 with
      | false => rfl
      | true => rw [dropped_apart _ e] at hd; cases hd
  obtain ⟨a, b, q, c, h1, h2, h3, h4, h5⟩ := C122_bert hA
  obtain ⟨a', n1, n2, n3⟩ := normalize_then (g := deleteNormalize (bertDropped uni)) (g' := mapNormalize cleanMap) (gg := cleanNormalize uni) (P := P) (by
    intro sp hsp ht
    obtain ⟨hwf, cs, k1, k2, k3, -⟩ := hA sp hsp ht
    obtain ⟨m, m1, m2, m3, m4⟩ := filter_good k1 (keep := fun r => !bertDropped uni r) (fun _ => rfl) k3
    refine ⟨m, by simp [deleteNormalize, m1], ⟨Op.run_wf (op := .filter fun r => !bertDropped uni r) hwf m1, _, m2⟩, ?_⟩
    simp only [cleanNormalize, cleanText, cleanKeep_dropped, m1, GoM.bind_ok, mapNormalize])
  have : a' = a := by rw [h1] at n1; simpa using n1.symm
  subst this
  have hw : ∀ r, bertIsWhitespace r = isWhiteSpace r := by
    intro r
    unfold bertIsWhitespace
    split
    · next h => rcases h with rfl | rfl | rfl <;> rfl
    · rfl
  obtain ⟨a2, c2, u1, u2, u3⟩ := C119_bert uni (g := mapNormalize cleanMap) (p := a') fun sp hsp ht => keeps_map
    (fun r _ hp => by simp [cleanMap, hw, hp]) (fun r _ hp => by
      simp only [cleanMap, hw, hp, if_true]; decide +kernel) (n2 sp hsp ht)
  have : c2 = b := by rw [h2] at u3; simpa using u3.symm
  subst this
  exact ⟨a2, c2, q, c, n3 _ u1, u2, h3, h4, h5⟩

/-! ## Cases -/

/-- "cafe\u0301, a\u0301 b" as words without accents, either way. -/
example : (do
        let (a, _) ← (PTS.fromString b!"cafe\u0301, a\u0301 b").normalize (deleteNormalize uni.isMn)
        let (b, _) ← bertPreTokenize uni a
        encodeWith (fun ns => .ok (.ok [⟨7, ns.get, ⟨0, ns.len⟩⟩])) (-1) 0 b)
      = .ok (.ok ⟨[7, 7, 7, 7], [0, 0, 0, 0], [b!"cafe", b!",", b!"a", b!"b"], [0, 1, 2, 3], [⟨0, 4⟩, ⟨6, 7⟩, ⟨8, 9⟩, ⟨12, 13⟩],
        [0, 0, 0, 0], [1, 1, 1, 1]⟩)
    ∧ (do
        let (q, _) ← bertPreTokenize uni (PTS.fromString b!"cafe\u0301, a\u0301 b")
        let (c, _) ← q.normalize (deleteNormalize uni.isMn)
        encodeWith (fun ns => .ok (.ok [⟨7, ns.get, ⟨0, ns.len⟩⟩])) (-1) 0 c)
      = .ok (.ok ⟨[7, 7, 7, 7], [0, 0, 0, 0], [b!"cafe", b!",", b!"a", b!"b"], [0, 1, 2, 3], [⟨0, 4⟩, ⟨6, 7⟩, ⟨8, 9⟩, ⟨12, 13⟩],
        [0, 0, 0, 0], [1, 1, 1, 1]⟩) := by decide +kernel

/-- The vertical tab is white space for the pre-tokenizer and a control character for the normalizer: the order matters. -/
theorem C122_counterexample_clean : ∃ P : PTS, WholePTS P
    ∧ (do
        let (a, _) ← P.normalize (cleanNormalize uni)
        let (b, _) ← bertPreTokenize uni a
        pure b.getNormalizedByteSplits) = .ok [⟨b!"ab", ⟨0, 2⟩, none⟩]
    ∧ (do
        let (q, _) ← bertPreTokenize uni P
        let (c, _) ← q.normalize (cleanNormalize uni)
        pure c.getNormalizedByteSplits) = .ok [⟨b!"a", ⟨0, 1⟩, none⟩, ⟨b!"b", ⟨1, 2⟩, none⟩] := by
  refine ⟨PTS.fromString b!"a\u000bb", ?_, by decide +kernel, by decide +kernel⟩
  intro sp hsp _
  have : sp = ⟨NS.fromString b!"a\u000bb", none⟩ := by simpa [PTS.fromString, PTS.fromNormalizedString] using hsp
  subst this
  exact wholeNS_of_history (ops := []) (by decide +kernel) (by simp) rfl

/-- A word of which nothing is left: the words behind it get other numbers. -/
theorem C122_counterexample_number : ∃ P : PTS, AllFree (DropsIn2 (bertDropped uni) isWhiteSpace uni.isPunct) P
    ∧ (do
        let (a, _) ← P.normalize (cleanNormalize uni)
        let (b, _) ← bertPreTokenize uni a
        encodeWith (fun ns => .ok (.ok (if ns.get = [] then [] else [⟨7, ns.get, ⟨0, ns.len⟩⟩]))) (-1) 0 b)
      = .ok (.ok ⟨[7, 7], [0, 0], [b!"a", b!"b"], [0, 1], [⟨0, 1⟩, ⟨4, 5⟩], [0, 0], [1, 1]⟩)
    ∧ (do
        let (q, _) ← bertPreTokenize uni P
        let (c, _) ← q.normalize (cleanNormalize uni)
        encodeWith (fun ns => .ok (.ok (if ns.get = [] then [] else [⟨7, ns.get, ⟨0, ns.len⟩⟩]))) (-1) 0 c)
      = .ok (.ok ⟨[7, 7], [0, 0], [b!"a", b!"b"], [0, 2], [⟨0, 1⟩, ⟨4, 5⟩], [0, 0], [1, 1]⟩) := by
  refine ⟨PTS.fromString b!"a \u0001 b", ?_, by decide +kernel, by decide +kernel⟩
  intro sp hsp _
  have : sp = ⟨NS.fromString b!"a \u0001 b", none⟩ := by simpa [PTS.fromString, PTS.fromNormalizedString] using hsp
  subst this
  have hs : ValidUtf8 b!"a \u0001 b" := by decide +kernel
  exact DropsAscii.words2 ⟨C02_history_wf hs (ops := []) rfl, _, fromString_repr hs, by decide +kernel⟩

/-- A word that begins with a mark: stripped as a word, it loses its place (C06). -/
theorem C122_counterexample_lead : ∃ P : PTS, WholePTS P
    ∧ (do
        let (a, _) ← P.normalize (deleteNormalize uni.isMn)
        let (b, _) ← bertPreTokenize uni a
        encodeWith (fun ns => .ok (.ok [⟨7, ns.get, ⟨0, ns.len⟩⟩])) 0 0 b)
      ≠ (do
        let (q, _) ← bertPreTokenize uni P
        let (c, _) ← q.normalize (deleteNormalize uni.isMn)
        encodeWith (fun ns => .ok (.ok [⟨7, ns.get, ⟨0, ns.len⟩⟩])) 0 0 c) := by
  refine ⟨PTS.fromString b!"a \u0301bc", ?_, by decide +kernel⟩
  intro sp hsp _
  have : sp = ⟨NS.fromString b!"a \u0301bc", none⟩ := by simpa [PTS.fromString, PTS.fromNormalizedString] using hsp
  subst this
  exact wholeNS_of_history (ops := []) (by decide +kernel) (by simp) rfl

end Verif
