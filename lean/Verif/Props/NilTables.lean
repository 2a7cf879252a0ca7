import Verif.Model.NilTables
import Verif.Props.Concurrent

/-! C113: models whose vocabulary or merge map is nil. -/

set_option autoImplicit false

namespace Verif.Conc

open Prog

theorem through_bind {α β : Type} (source : Nat → F64) (p : Prog α) (f : α → Prog β) : ∀ (s : Tables) (n : Nat),
    (p.bind f).through source s n = (p.through source s n).bind fun r => (f r.1).through source r.2.1 r.2.2 := by
  induction p with
  | ret a => intro s n; rfl
  | fail => intro s n; rfl
  | getID t k ih => intro s n; simp only [Prog.bind, Prog.through]; cases s.vocab with | none => rfl | some v => exact ih _ s n
  | size k ih => intro s n; simp only [Prog.bind, Prog.through]; cases s.vocab with | none => rfl | some v => exact ih _ s n
  | getString i k ih => intro s n; simp only [Prog.bind, Prog.through]; cases s.vocab with | none => rfl | some v => exact ih _ s n
  | getMerge a b k ih =>
    intro s n
    simp only [Prog.bind, Prog.through]
    rcases s.merges with _ | _ | m
    · rfl
    · exact ih _ s n
    · exact ih _ s n
  | draw k ih => intro s n; exact ih _ s (n + 1)
  | setID t i k ih =>
    intro s n
    simp only [Prog.bind, Prog.through]
    cases s.vocab with
    | none => rfl
    | some v =>
      dsimp only
      cases v.termToID with
      | none => rfl
      | some m => exact ih _ n
  | setTerm i t k ih => intro s n; simp only [Prog.bind, Prog.through]; cases s.vocab with | none => rfl | some v => exact ih _ n
  | setMerge a b v k ih =>
    intro s n
    simp only [Prog.bind, Prog.through]
    rcases s.merges with _ | _ | m
    · rfl
    · rfl
    · exact ih _ n

/-- Both pointers lead to maps. -/
def Shared.tables (s : Shared) : Tables := ⟨some s.vocab, some (some s.merges)⟩

/-- **C113, present.** Through pointers to maps every program does what it does on the maps. -/
theorem C113_present {α : Type} (source : Nat → F64) (p : Prog α) : ∀ (s : Shared) (n : Nat),
    p.through source s.tables n = (p.alone source s n).bind fun r => .ok (r.1, r.2.1.tables, r.2.2) := by
  induction p with
  | ret a => intro s n; rfl
  | fail => intro s n; rfl
  | getID t k ih => intro s n; exact ih _ s n
  | size k ih => intro s n; exact ih _ s n
  | getString i k ih => intro s n; exact ih _ s n
  | getMerge a b k ih => intro s n; exact ih _ s n
  | draw k ih => intro s n; exact ih _ s (n + 1)
  | setID t i k ih =>
    intro s n
    simp only [Prog.through, Prog.alone, Shared.tables]
    cases s.vocab.termToID with
    | none => rfl
    | some m => exact ih { s with vocab := { s.vocab with termToID := some (m.set t i) } } n
  | setTerm i t k ih => intro s n; exact ih { s with vocab := { s.vocab with idToTerm := s.vocab.idToTerm.set i t } } n
  | setMerge a b v k ih => intro s n; exact ih { s with merges := s.merges.set a b v } n

/-- **C113, only panics.** A nil pointer never gives another result: a call panics or gives what it gives with any maps in place of nil. -/
theorem C113_only_panics {α : Type} (source : Nat → F64) (p : Prog α) : ∀ {t t' : Tables} {n n' : Nat} {a : α},
    p.through source t n = .ok (a, t', n') → ∀ (v : Vocab) (m : MergeMap),
    ∃ t'', p.through source ⟨some (t.vocab.getD v), some ((t.merges.getD (some m)))⟩ n = .ok (a, t'', n') := by
  induction p with
  | ret a =>
    intro t t' n n' a' h v m
    injection h with h
    injection h with h1 h2
    injection h2 with h2 h3
    subst h1 h3
    exact ⟨_, rfl⟩
  | fail => intro t t' n n' a' h; cases h
  | getID x k ih =>
    intro t t' n n' a' h v m
    obtain ⟨_ | vo, me⟩ := t
    · cases h
    · exact ih _ h v m
  | size k ih =>
    intro t t' n n' a' h v m
    obtain ⟨_ | vo, me⟩ := t
    · cases h
    · exact ih _ h v m
  | getString x k ih =>
    intro t t' n n' a' h v m
    obtain ⟨_ | vo, me⟩ := t
    · cases h
    · exact ih _ h v m
  | getMerge x y k ih =>
    intro t t' n n' a' h v m
    obtain ⟨vo, _ | _ | me⟩ := t
    · cases h
    · exact ih _ h v m
    · exact ih _ h v m
  | draw k ih => intro t t' n n' a' h v m; exact ih _ h v m
  | setID x i k ih =>
    intro t t' n n' a' h v m
    obtain ⟨_ | ⟨_ | tm, im⟩, me⟩ := t
    · cases h
    · cases h
    · exact ih (t := ⟨some ⟨some (tm.set x i), im⟩, me⟩) h v m
  | setTerm i x k ih =>
    intro t t' n n' a' h v m
    obtain ⟨_ | ⟨tm, im⟩, me⟩ := t
    · cases h
    · exact ih (t := ⟨some ⟨tm, im.set i x⟩, me⟩) h v m
  | setMerge x y z k ih =>
    intro t t' n n' a' h v m
    obtain ⟨vo, _ | _ | me⟩ := t
    · cases h
    · cases h
    · exact ih (t := ⟨vo, some (some (me.set x y z))⟩) h v m

/-- Programs that only read do the same with a nil map as with an empty one. -/
theorem through_nil_map {α : Type} (source : Nat → F64) (p : Prog α) (hp : p.Reads) : ∀ (v : Option Vocab) (n : Nat),
    p.through source ⟨v, some none⟩ n = (p.through source ⟨v, some (some [])⟩ n).bind fun r => .ok (r.1, ⟨v, some none⟩, r.2.2) := by
  induction p with
  | ret a => intro v n; rfl
  | fail => intro v n; rfl
  | getID t k ih => intro v n; cases v with | none => rfl | some v => exact ih _ (hp _) _ n
  | size k ih => intro v n; cases v with | none => rfl | some v => exact ih _ (hp _) _ n
  | getString i k ih => intro v n; cases v with | none => rfl | some v => exact ih _ (hp _) _ n
  | getMerge a b k ih => intro v n; exact ih _ (hp _) _ n
  | draw k ih => intro v n; exact ih _ (hp _) _ (n + 1)
  | setID t i k ih => cases hp
  | setTerm i t k ih => cases hp
  | setMerge a b v k ih => cases hp

/-! ## A nil vocabulary -/

/-- **C113, BPE without a vocabulary.** The empty text has no tokens, every other text panics. -/
theorem C113_bpe_vocab (source : Nat → F64) (o : BpeOpts) (x : Str) (merges : Option (Option MergeMap)) :
    (bpeTokenize o x).result source ⟨none, merges⟩ = if x = [] then .ok (.ok (some [])) else .panic := by
  by_cases hx : x = []
  · subst hx
    rfl
  · rw [if_neg hx]
    have hl : x.length ≠ 0 := fun h => hx (List.length_eq_zero_iff.1 h)
    have hs : ∀ u, (mergeSymbols o x u).through source ⟨none, merges⟩ 0 = .panic := by
      intro u
      unfold mergeSymbols
      obtain ⟨r, rs, hr⟩ := List.exists_cons_of_ne_nil (fun h => hx (runesOf_eq_nil.1 h))
      show ((symbols o u _ _ _ _).bind _).through source _ 0 = _
      rw [through_bind, hr, show BPE.indexed (r :: rs) = (0, r) :: rs.mapIdx fun i r => (i + 1, r) by simp [BPE.indexed, List.mapIdx_cons], symbols.eq_def]
      rfl
    have hm : (mergeWord o x).through source ⟨none, merges⟩ 0 = .panic := by
      unfold mergeWord
      split
      · rfl
      · exact hs 0
    unfold Prog.result bpeTokenize
    rw [if_neg hl]
    show GoM.bind (((mergeWord o x).bind _).through source _ 0) _ = _
    rw [through_bind, hm]
    rfl

/-- **C113, WordPiece without a vocabulary.** Only the empty text does not panic, if the limit allows it. -/
theorem C113_wordPiece_vocab (source : Nat → F64) (o : WpOpts) (x : Str) (merges : Option (Option MergeMap)) :
    (wpTokenize o x).result source ⟨none, merges⟩ = if x = [] ∧ 0 ≤ o.maxInputCharsPerWord then .ok (.ok []) else .panic := by
  unfold Prog.result wpTokenize
  by_cases hx : x = []
  · subst hx
    have e : runesOf [] = [] := by decide +kernel
    by_cases hm : 0 ≤ o.maxInputCharsPerWord
    · rw [if_pos (show ([] : Str) = [] ∧ _ from ⟨rfl, hm⟩), if_neg (by rw [e]; simpa using hm)]
      rfl
    · rw [if_neg (show ¬(([] : Str) = [] ∧ _) from fun h => hm h.2), if_pos (by rw [e]; simpa using hm)]
      rfl
  · rw [if_neg (show ¬(x = [] ∧ _) from fun h => hx h.1)]
    split
    · rfl
    · obtain ⟨b, bs, rfl⟩ := List.exists_cons_of_ne_nil hx
      show GoM.bind (((tokenLoop o (b :: bs) _ _).bind _).through source _ 0) _ = _
      have hf : (findToken o (b :: bs) 0 (b :: bs).length (b :: bs).length).through source ⟨none, merges⟩ 0 = .panic := by
        rw [List.length_cons, findToken, if_pos (by omega)]
        rfl
      have ht : (tokenLoop o (b :: bs) (b :: bs).length 0).through source ⟨none, merges⟩ 0 = .panic := by
        rw [tokenLoop.eq_def]
        dsimp only
        rw [if_pos (by simp)]
        show ((findToken o (b :: bs) 0 _ _).bind _).through source _ 0 = _
        rw [through_bind, hf]
        rfl
      rw [through_bind, ht]
      rfl

/-- **C113, the vocabulary.** `AddTerm` panics on a nil pointer, and on a vocabulary with a nil map unless the term is there (it never is). -/
theorem C113_addTerm (source : Nat → F64) (t : Str) (merges : Option (Option MergeMap)) :
    (addTerm t).result source ⟨none, merges⟩ = .panic
    ∧ ∀ im, (addTerm t).result source ⟨some ⟨none, im⟩, merges⟩ = .panic := ⟨rfl, fun _ => rfl⟩

/-- **C113, the merge map.** `Set` panics on a nil pointer and on a pointer to a nil map. -/
theorem C113_set (source : Nat → F64) (a b : Int) (x : MergeValue) (v : Option Vocab) :
    (setPair a b x).result source ⟨v, none⟩ = .panic ∧ (setPair a b x).result source ⟨v, some none⟩ = .panic := ⟨rfl, rfl⟩

/-! ## A nil merge map -/

/-- No access to the merge map. -/
def Prog.MergeFree {α : Type} : Prog α → Prop
  | ret _ => True
  | fail => True
  | getID _ k => ∀ x, (k x).MergeFree
  | size k => ∀ x, (k x).MergeFree
  | getString _ k => ∀ x, (k x).MergeFree
  | getMerge _ _ _ => False
  | draw k => ∀ x, (k x).MergeFree
  | setID _ _ k => k.MergeFree
  | setTerm _ _ k => k.MergeFree
  | setMerge _ _ _ _ => False

theorem mergeFree_bind {α β : Type} {p : Prog α} {f : α → Prog β} (hp : p.MergeFree) (hf : ∀ a, (f a).MergeFree) : (p >>= f).MergeFree := by
  show (p.bind f).MergeFree
  induction p with
  | ret a => exact hf a
  | fail => trivial
  | getID t k ih => intro x; exact ih x (hp x)
  | size k ih => intro x; exact ih x (hp x)
  | getString i k ih => intro x; exact ih x (hp x)
  | getMerge a b k ih => cases hp
  | draw k ih => intro x; exact ih x (hp x)
  | setID t i k ih => exact ih hp
  | setTerm i t k ih => exact ih hp
  | setMerge a b v k ih => cases hp

theorem through_mergeFree {α : Type} (source : Nat → F64) (p : Prog α) (hp : p.MergeFree) (hr : p.Reads) :
    ∀ (v : Vocab) (x : Option (Option MergeMap)) (m : MergeMap) (n : Nat),
    p.through source ⟨some v, x⟩ n = (p.alone source ⟨v, m⟩ n).bind fun r => .ok (r.1, ⟨some v, x⟩, r.2.2) := by
  induction p with
  | ret a => intro v x m n; rfl
  | fail => intro v x m n; rfl
  | getID t k ih => intro v x m n; exact ih _ (hp _) (hr _) _ _ _ n
  | size k ih => intro v x m n; exact ih _ (hp _) (hr _) _ _ _ n
  | getString i k ih => intro v x m n; exact ih _ (hp _) (hr _) _ _ _ n
  | getMerge a b k ih => cases hp
  | draw k ih => intro v x m n; exact ih _ (hp _) (hr _) _ _ _ (n + 1)
  | setID t i k ih => cases hr
  | setTerm i t k ih => cases hr
  | setMerge a b v k ih => cases hr

theorem mergeFree_lookID (t : Str) : (lookID t).MergeFree := fun _ => trivial
theorem mergeFree_lookString (i : Int) : (lookString i).MergeFree := fun _ => trivial

theorem mergeFree_symbols (o : BpeOpts) (u : Int) (l : Nat) : ∀ (rs : List (Nat × Rune)) (w : Word) (unk : Option (Int × Int)),
    (symbols o u l rs w unk).MergeFree := by
  intro rs
  induction rs with
  | nil => intro w unk; trivial
  | cons ir rs ih =>
    intro w unk
    rw [symbols.eq_def]
    refine mergeFree_bind (mergeFree_lookID _) fun x => ?_
    cases x with
    | some id => cases unk <;> exact ih _ _
    | none =>
      dsimp only
      split
      · cases unk with
        | none => exact ih _ _
        | some p =>
          dsimp only
          split <;> exact ih _ _
      · exact ih _ _

theorem mergeFree_wordToTokens : ∀ (w : Word) (n : Int), (wordToTokens w n).MergeFree := by
  intro w
  induction w with
  | nil => intro n; trivial
  | cons x w ih =>
    intro n
    rw [wordToTokens]
    refine mergeFree_bind (mergeFree_lookString _) fun v => ?_
    cases v with
    | none => trivial
    | some v =>
      refine mergeFree_bind (ih _) fun r => ?_
      cases r <;> trivial

/-- `MergeAll` without a map: nothing to do for at most one symbol, a panic otherwise. -/
theorem mergeAll_nil (source : Nat → F64) (d : F64) (w : Word) (v : Vocab) (n : Nat) :
    (mergeAll d w).through source ⟨some v, none⟩ n
      = if w.length ≤ 1 then .ok (some (w.filter fun s => s.length != 0), ⟨some v, none⟩, n) else .panic := by
  have loop : ∀ fuel, (mergeLoop d fuel (w, [], [])) = ret (some (w, [], [])) := by
    intro fuel
    rw [mergeLoop.eq_def]
    rfl
  match w with
  | [] =>
    unfold mergeAll
    show ((initQueue [] 0 []).bind _).through source _ n = _
    rfl
  | [a] =>
    rw [if_pos (by simp)]
    unfold mergeAll
    show ((mergeLoop d _ ([a], [], [])).bind _).through source _ n = _
    rw [loop]
    rfl
  | a :: b :: w =>
    rw [if_neg (by simp)]
    rfl

theorem word_mergeAll_empty (hasDropout : Bool) (rnd : Nat → Bool) (w : Word) :
    w.mergeAll [] hasDropout rnd = .ok (some (w.filter fun s => s.length != 0)) := by
  have q : ∀ (w : Word) (i : Nat), Word.initQueue [] w i [] = [] := by
    intro w
    induction w with
    | nil => intro i; rfl
    | cons a w ih =>
      intro i
      cases w with
      | nil => rfl
      | cons b w => exact ih (i + 1)
  unfold Word.mergeAll Word.mergeAllFuel
  rw [q]
  dsimp only
  rw [Word.mergeLoop.eq_def]
  rfl

theorem mergeWord_nil (source : Nat → F64) (o : BpeOpts) (v : Vocab) (x : Str) :
    (mergeWord o x).through source ⟨some v, none⟩ 0 =
      match (o.model ⟨v, []⟩).initialWord x with
      | .error e => .ok (.error e, ⟨some v, none⟩, 0)
      | .ok w => if w.length ≤ 1 then .ok (.ok (some (w.filter fun s => s.length != 0)), ⟨some v, none⟩, 0) else .panic := by
  have key : ∀ u : Int, (mergeSymbols o x u).through source ⟨some v, none⟩ 0
      = if (BPE.finish ((BPE.indexed (runesOf x)).foldl ((o.model ⟨v, []⟩).symbolStep u ((runesOf x).length - 1)) ([], none))).length ≤ 1
        then .ok (.ok (some ((BPE.finish ((BPE.indexed (runesOf x)).foldl ((o.model ⟨v, []⟩).symbolStep u ((runesOf x).length - 1)) ([], none))).filter
          fun s => s.length != 0)), ⟨some v, none⟩, 0) else .panic := by
    intro u
    generalize hf : (BPE.indexed (runesOf x)).foldl ((o.model ⟨v, []⟩).symbolStep u ((runesOf x).length - 1)) ([], none) = st
    obtain ⟨word, unk⟩ := st
    unfold mergeSymbols
    show ((symbols o u _ _ _ _).bind _).through source _ 0 = _
    rw [through_bind, through_mergeFree source _ (mergeFree_symbols o u _ _ _ _) (reads_symbols o u _ _ _ _) v none [],
      quiet_symbols ⟨v, []⟩ o u _ _ _ _ source 0, hf]
    show ((mergeAll o.dropout _).bind _).through source _ 0 = _
    rw [through_bind, mergeAll_nil]
    cases unk with
    | none =>
      simp only [BPE.finish]
      by_cases h : word.length ≤ 1 <;> simp only [h, if_true, if_false] <;> rfl
    | some p =>
      obtain ⟨a, b⟩ := p
      simp only [BPE.finish]
      by_cases h : (word.add a b).length ≤ 1 <;> simp only [h, if_true, if_false] <;> rfl
  have fin : ∀ st : Word × Option (Int × Int), (match st.2 with
      | some (uid, ulen) => st.1.add uid ulen
      | none => st.1) = BPE.finish st := by
    rintro ⟨w, _ | ⟨a, b⟩⟩ <;> rfl
  unfold mergeWord BPE.initialWord
  by_cases hu : o.unknownToken.length ≠ 0
  · rw [if_pos hu, if_pos ((hasUnk_eq o ⟨v, []⟩).2 hu)]
    show ((lookID _).bind _).through source _ 0 = _
    rw [through_bind]
    show (match v.getID o.unknownToken with
      | none => (pure (.error .unkOutOfVocab) : Prog (Except Err (Option Word)))
      | some id => mergeSymbols o x id).through source _ 0 = _
    rw [show (o.model ⟨v, []⟩).vocab = v from rfl, show (o.model ⟨v, []⟩).unknownToken = o.unknownToken from rfl]
    cases v.getID o.unknownToken with
    | none => rfl
    | some u => dsimp only; rw [key u, ← fin]; rfl
  · rw [if_neg hu, if_neg (fun h => hu ((hasUnk_eq o ⟨v, []⟩).1 h)), key 0, ← fin]
    rfl

/-- **C113, BPE without a merge map.** `Tokenize` gives what it gives with an empty map, if that is an error about the unknown token or at
most one token, and panics if that is more than one token. -/
theorem C113_bpe_merges (source : Nat → F64) (o : BpeOpts) (v : Vocab) (x : Str) :
    ((o.model ⟨v, []⟩).tokenizeF o.dropout source x = .ok (.error .unkOutOfVocab) →
      (bpeTokenize o x).result source ⟨some v, none⟩ = .ok (.error .unkOutOfVocab))
    ∧ ∀ ts, (o.model ⟨v, []⟩).tokenizeF o.dropout source x = .ok (.ok (some ts)) →
      (bpeTokenize o x).result source ⟨some v, none⟩ = if ts.length ≤ 1 then .ok (.ok (some ts)) else .panic := by
  have hF : (o.model ⟨v, []⟩).tokenizeF o.dropout source x
      = (o.model ⟨v, []⟩).tokenize (fun j => F64.lt (source j) o.dropout) x := rfl
  rw [hF]
  by_cases hx : x = []
  · subst hx
    constructor
    · intro h; cases h
    · intro ts h
      have : ts = [] := by
        simp only [BPE.tokenize, BPE.tokenizeWith, List.length_nil, if_true, GoM.bind_ok, GoM.pure_eq] at h
        injection h with h
        injection h with h
        injection h with h
        exact h.symm
      subst this
      rfl
  · have hl : x.length ≠ 0 := fun h => hx (List.length_eq_zero_iff.1 h)
    have hi := BPE.initialWord_eq (o.model ⟨v, []⟩) x
    have hw := mergeWord_nil source o v x
    have hres : (bpeTokenize o x).result source ⟨some v, none⟩
        = GoM.bind (GoM.bind ((mergeWord o x).through source ⟨some v, none⟩ 0) fun r => (match r.1 with
            | .error e => pure (.error e)
            | .ok none => pure (.ok none)
            | .ok (some word) => do
              match ← wordToTokens word 0 with
              | .error e => pure (.error e)
              | .ok ts => pure (.ok (some ts)) : Prog (Except Err (Option (List Token)))).through source r.2.1 r.2.2) fun r => .ok r.1 := by
      unfold Prog.result bpeTokenize
      rw [if_neg hl]
      show GoM.bind (((mergeWord o x).bind _).through source _ 0) _ = _
      rw [through_bind]
      rfl
    rw [hres, hw]
    rcases BPE.tokenize_eq (o.model ⟨v, []⟩) (fun j => F64.lt (source j) o.dropout) x hx with ⟨hu, ht⟩ | ⟨u, ss, w', hu, hss, hpos, hma, -, ht⟩
    · rw [hu] at hi
      simp only at hi
      rw [ht, hi]
      exact ⟨fun _ => rfl, fun ts h => by injection h with h; cases h⟩
    · rw [hu] at hi
      simp only at hi
      rw [← hss] at hi
      rw [ht, hi]
      constructor
      · intro h
        injection h with h
        cases hq : BPE.wordToTokens v w' 0 with
        | error e =>
          exfalso
          rw [show (o.model ⟨v, []⟩).vocab = v from rfl, hq] at h
          injection h with h
          have : ∀ (w : Word) (n : Int), BPE.wordToTokens v w n ≠ .error .unkOutOfVocab := by
            intro w
            induction w with
            | nil => intro n h; cases h
            | cons s w ih =>
              intro n h
              rw [BPE.wordToTokens] at h
              split at h
              · cases h
              · split at h
                · rename_i e' he
                  injection h with h
                  exact ih _ (he.trans (congrArg _ h))
                · cases h
          exact this w' 0 (hq.trans (congrArg _ h))
        | ok ts => rw [show (o.model ⟨v, []⟩).vocab = v from rfl, hq] at h; cases h
      · intro ts h
        injection h with h
        rw [show (o.model ⟨v, []⟩).vocab = v from rfl] at h
        have hma' : built ss = w' := by
          rw [show (o.model ⟨v, []⟩).merges = [] from rfl, word_mergeAll_empty] at hma
          injection hma with hma
          injection hma with hma
          rw [← hma]
          symm
          refine List.filter_eq_self.2 fun s hs => ?_
          have : (s.id, s.length) ∈ visible (built ss) := List.mem_map_of_mem hs
          rw [built_visible hpos] at this
          have := hpos _ this
          simp only at this
          simp
          omega
        rw [hma']
        cases hq : BPE.wordToTokens v w' 0 with
        | error e => rw [hq] at h; cases h
        | ok ts' =>
          rw [hq] at h
          injection h with h
          injection h with h
          subst h
          have hlen : ts'.length = w'.length := by
            have := congrArg List.length (BPE.wordToTokens_visible hq)
            simpa [visible] using this
          have hfil : (w'.filter fun s => s.length != 0) = w' := by
            rw [← hma']
            refine List.filter_eq_self.2 fun s hs => ?_
            have : (s.id, s.length) ∈ visible (built ss) := List.mem_map_of_mem hs
            rw [built_visible hpos] at this
            have := hpos _ this
            simp only at this
            simp
            omega
          dsimp only
          rw [hlen, hfil]
          split
          · have := quiet_wordToTokens ⟨v, []⟩ w' 0 source 0
            rw [hq] at this
            simp only [GoM.bind]
            show GoM.bind (((wordToTokens w' 0).bind _).through source _ 0) _ = _
            rw [through_bind, through_mergeFree source _ (mergeFree_wordToTokens w' 0) (reads_wordToTokens w' 0) v none [], this]
            rfl
          · rfl

/-- **C113, a nil map.** A merge map that is a nil map is an empty one for `Tokenize`. -/
theorem C113_nil_map (source : Nat → F64) (o : BpeOpts) (v : Vocab) (x : Str) :
    (bpeTokenize o x).result source ⟨some v, some none⟩ = (o.model ⟨v, []⟩).tokenizeF o.dropout source x := by
  unfold Prog.result
  rw [through_nil_map source _ (reads_bpe o x)]
  have := C113_present source (bpeTokenize o x) ⟨v, []⟩ 0
  rw [show (⟨v, []⟩ : Shared).tables = ⟨some v, some (some [])⟩ from rfl] at this
  rw [this]
  obtain ⟨n, hn⟩ := alone_bpe ⟨v, []⟩ source o 0 x
  rw [hn]
  simp only [Nat.zero_add]
  cases (o.model ⟨v, []⟩).tokenizeF o.dropout source x <;> rfl

/-- **C113, WordPiece.** It has no merge map; with a vocabulary it is the model's `Tokenize`. -/
theorem C113_wordPiece (source : Nat → F64) (o : WpOpts) (v : Vocab) (x : Str) :
    (wpTokenize o x).result source ⟨some v, some (some [])⟩ = .ok ((o.model ⟨v, []⟩).tokenize x) := by
  unfold Prog.result
  have := C113_present source (wpTokenize o x) ⟨v, []⟩ 0
  rw [show (⟨v, []⟩ : Shared).tables = ⟨some v, some (some [])⟩ from rfl] at this
  rw [this, quiet_wordPiece ⟨v, []⟩ o x source 0]
  rfl

/-- Without a merge map "a" is a token and "ab" panics; without a vocabulary "a" panics. -/
example : ∃ (o : BpeOpts) (v : Vocab) (f : Nat → F64),
    (bpeTokenize o b!"a").result f ⟨some v, none⟩ = .ok (.ok (some [⟨0, b!"a", ⟨0, 1⟩⟩]))
    ∧ (bpeTokenize o b!"ab").result f ⟨some v, none⟩ = .panic ∧ (bpeTokenize o b!"a").result f ⟨none, some none⟩ = .panic
    ∧ (bpeTokenize o b!"ab").result f ⟨some v, some none⟩ = .ok (.ok (some [⟨0, b!"a", ⟨0, 1⟩⟩, ⟨1, b!"b", ⟨1, 2⟩⟩])) :=
  ⟨⟨⟨0⟩, .fin 0, [], [], [], false⟩, Vocab.fromJSON (some [(b!"a", 0), (b!"b", 1)]) [(b!"a", 0), (b!"b", 1)], fun _ => .fin 0, rfl, rfl, rfl, rfl⟩

end Verif.Conc
