import Verif.Model.Concurrent
import Verif.Model.Notation
import Verif.Props.Bpe
import Verif.Props.DropoutValue

/-!
C99: goroutines that tokenize with models that share a vocabulary and a merge map.
-/

set_option autoImplicit false

namespace Verif.Conc

open Prog

/-! ## A program that runs alone -/

/-- What a program gives when nothing runs between its accesses: the result, the maps, and the number of draws made by then. -/
def Prog.alone {α : Type} (source : Nat → F64) : Prog α → Shared → Nat → GoM (α × Shared × Nat)
  | ret a, s, n => .ok (a, s, n)
  | fail, _, _ => .panic
  | getID t k, s, n => (k (s.vocab.getID t)).alone source s n
  | size k, s, n => (k s.vocab.size).alone source s n
  | getString i k, s, n => (k (s.vocab.getString i)).alone source s n
  | getMerge a b k, s, n => (k (s.merges.get a b)).alone source s n
  | draw k, s, n => (k (source n)).alone source s (n + 1)
  | setID t i k, s, n =>
    match s.vocab.termToID with
    | none => .panic
    | some m => k.alone source { s with vocab := { s.vocab with termToID := some (m.set t i) } } n
  | setTerm i t k, s, n => k.alone source { s with vocab := { s.vocab with idToTerm := s.vocab.idToTerm.set i t } } n
  | setMerge a b v k, s, n => k.alone source { s with merges := s.merges.set a b v } n

theorem alone_bind {α β : Type} (source : Nat → F64) (p : Prog α) (f : α → Prog β) : ∀ (s : Shared) (n : Nat),
    (p.bind f).alone source s n = (p.alone source s n).bind fun r => (f r.1).alone source r.2.1 r.2.2 := by
  induction p with
  | ret a => intro s n; rfl
  | fail => intro s n; rfl
  | getID t k ih => intro s n; exact ih _ s n
  | size k ih => intro s n; exact ih _ s n
  | getString i k ih => intro s n; exact ih _ s n
  | getMerge a b k ih => intro s n; exact ih _ s n
  | draw k ih => intro s n; exact ih _ s (n + 1)
  | setID t i k ih =>
    intro s n
    simp only [Prog.bind, Prog.alone]
    cases s.vocab.termToID with
    | none => rfl
    | some m => exact ih _ n
  | setTerm i t k ih => intro s n; exact ih _ n
  | setMerge a b v k ih => intro s n; exact ih _ n

@[simp] theorem bind_eq {α β : Type} (p : Prog α) (f : α → Prog β) : p >>= f = p.bind f := rfl
@[simp] theorem pure_eq {α : Type} (a : α) : (pure a : Prog α) = ret a := rfl
@[simp] theorem ret_bind {α β : Type} (a : α) (f : α → Prog β) : (ret a).bind f = f a := rfl
@[simp] theorem fail_bind {α β : Type} (f : α → Prog β) : (fail : Prog α).bind f = fail := rfl

/-- A program that changes nothing and draws nothing gives `g`. -/
def Quiet {α : Type} (p : Prog α) (s : Shared) (g : GoM α) : Prop :=
  ∀ source n, p.alone source s n = g.bind fun a => .ok (a, s, n)

theorem quiet_ret {α : Type} (a : α) (s : Shared) : Quiet (ret a) s (.ok a) := fun _ _ => rfl

theorem quiet_lift {α : Type} (g : GoM α) (s : Shared) : Quiet (Prog.lift g) s g := by
  intro _ _; cases g <;> rfl

theorem quiet_bind {α β : Type} {p : Prog α} {f : α → Prog β} {s : Shared} {g : GoM α} {h : α → GoM β}
    (hp : Quiet p s g) (hf : ∀ a, Quiet (f a) s (h a)) : Quiet (p >>= f) s (g >>= h) := by
  intro source n
  show (p.bind f).alone source s n = _
  rw [alone_bind, hp source n]
  cases g with
  | panic => rfl
  | ok a => exact hf a source n

theorem quiet_lookID (t : Str) (s : Shared) : Quiet (lookID t) s (.ok (s.vocab.getID t)) := fun _ _ => rfl
theorem quiet_lookString (i : Int) (s : Shared) : Quiet (lookString i) s (.ok (s.vocab.getString i)) := fun _ _ => rfl
theorem quiet_lookMerge (a b : Int) (s : Shared) : Quiet (lookMerge a b) s (.ok (s.merges.get a b)) := fun _ _ => rfl

theorem quiet_look {α : Type} {p : Prog α} {s : Shared} {a : α} (hp : Quiet p s (.ok a)) {β : Type} {f : α → Prog β} {g : GoM β}
    (hf : Quiet (f a) s g) : Quiet (p >>= f) s g :=
  fun source n => by
    show (p.bind f).alone source s n = _
    rw [alone_bind, hp source n]
    exact hf source n

/-! ## Alone, the programs are the methods -/

theorem quiet_initQueue (s : Shared) : ∀ (w : Word) (i : Nat) (q : WMHeap),
    Quiet (initQueue w i q) s (.ok (Word.initQueue s.merges w i q)) := by
  intro w
  induction w with
  | nil => intro i q; exact quiet_ret _ s
  | cons a w ih =>
    intro i q
    cases w with
    | nil => exact quiet_ret _ s
    | cons b w =>
      rw [initQueue, Word.initQueue]
      refine quiet_look (quiet_lookMerge _ _ s) ?_
      cases s.merges.get a.id b.id with
      | none => exact ih _ _
      | some m => exact ih _ _

theorem quiet_pushPrev (s : Shared) (w : Word) (q : WMHeap) (c : WordSymbol) : Quiet (pushPrev w q c) s (Word.pushPrev s.merges w q c) := by
  unfold pushPrev Word.pushPrev
  split
  · refine quiet_bind (quiet_lift _ s) fun x => quiet_look (quiet_lookMerge _ _ s) ?_
    cases s.merges.get x.id c.id <;> exact quiet_ret _ s
  · exact quiet_ret _ s

theorem quiet_pushNext (s : Shared) (w : Word) (q : WMHeap) (c : WordSymbol) (pos : Int) :
    Quiet (pushNext w q c pos) s (Word.pushNext s.merges w q c pos) := by
  unfold pushNext Word.pushNext
  split
  · refine quiet_bind (quiet_lift _ s) fun x => quiet_look (quiet_lookMerge _ _ s) ?_
    cases s.merges.get c.id x.id <;> exact quiet_ret _ s
  · exact quiet_ret _ s

theorem quiet_process (s : Shared) (w : Word) (q : WMHeap) (top : WordMerge) :
    Quiet (process w q top) s (Word.process s.merges w q top) := by
  unfold process Word.process
  refine quiet_bind (quiet_lift _ s) fun cur => ?_
  split
  · exact quiet_ret _ s
  · refine quiet_bind (quiet_lift _ s) fun right => quiet_look (quiet_lookMerge _ _ s) ?_
    cases s.merges.get cur.id right.id with
    | none => exact quiet_ret _ s
    | some m =>
      dsimp only
      split
      · exact quiet_ret _ s
      · refine quiet_bind (quiet_lift _ s) fun right' => quiet_bind (quiet_lift _ s) fun w' => quiet_bind (quiet_lift _ s) fun c' => ?_
        exact quiet_bind (quiet_pushPrev s _ _ _) fun q' => quiet_bind (quiet_pushNext s _ _ _ _) fun q'' => quiet_ret _ s

/-- The state of the model's loop. -/
def mstate (st : LoopState) (draws : Nat) : Word.MState := ⟨st.1, st.2.1, st.2.2, draws⟩

def unstate (st : Word.MState) : LoopState := (st.word, st.queue, st.skip)

theorem alone_mergeStep (s : Shared) (source : Nat → F64) (d : F64) (n0 k : Nat) (st : LoopState) :
    (mergeStep d st).alone source s (n0 + k)
      = (Word.mergeStep s.merges (F64.lt (.fin 0) d) (fun j => F64.lt (source (n0 + j)) d) (mstate st k)).bind
          fun st' => .ok (unstate st', s, n0 + st'.draws) := by
  obtain ⟨w, q, skip⟩ := st
  have key : ∀ (top : WordMerge) (queue : WMHeap) (n draws : Nat), n = n0 + draws →
      (do let (w, queue) ← process w (skip.foldl (fun q s => WMHeap.push q s) queue) top
          pure (w, queue, []) : Prog LoopState).alone source s n
        = (do let (w, queue) ← Word.process s.merges w (skip.foldl (fun q s => WMHeap.push q s) queue) top
              pure (⟨w, queue, [], draws⟩ : Word.MState) : GoM Word.MState).bind fun st' => .ok (unstate st', s, n0 + st'.draws) := by
    intro top queue n draws hn
    subst hn
    have := quiet_bind (quiet_process s w (skip.foldl (fun q s => WMHeap.push q s) queue) top)
      (f := fun x => (pure (x.1, x.2, []) : Prog LoopState)) (h := fun x => .ok (x.1, x.2, [])) (fun a => quiet_ret _ s) source (n0 + draws)
    refine this.trans ?_
    cases Word.process s.merges w (skip.foldl (fun q s => WMHeap.push q s) queue) top <;> rfl
  unfold mergeStep Word.mergeStep
  simp only [mstate]
  by_cases hd : F64.lt (.fin 0) d = true
  · simp only [hd, if_true, Prog.alone, true_and]
    by_cases hx : F64.lt (source (n0 + k)) d = true
    · simp only [hx, if_true]
      rfl
    · simp only [hx, if_false, Bool.false_eq_true]
      exact key _ _ _ _ rfl
  · simp only [hd, if_false, Bool.false_eq_true, false_and]
    exact key _ _ _ _ rfl

theorem alone_mergeLoop (s : Shared) (source : Nat → F64) (d : F64) (n0 : Nat) : ∀ (fuel k : Nat) (st : LoopState),
    ∃ n, (mergeLoop d fuel st).alone source s (n0 + k)
      = (Word.mergeLoop s.merges (F64.lt (.fin 0) d) (fun j => F64.lt (source (n0 + j)) d) fuel (mstate st k)).bind
          fun r => .ok (r.map unstate, s, n) := by
  intro fuel
  induction fuel with
  | zero =>
    intro k st
    refine ⟨n0 + k, ?_⟩
    rw [mergeLoop, Word.mergeLoop]
    by_cases hq : st.2.1.length = 0
    · rw [if_pos hq, if_pos (show (mstate st k).queue.length = 0 from hq)]; rfl
    · rw [if_neg hq, if_neg (show ¬ (mstate st k).queue.length = 0 from hq)]; rfl
  | succ fuel ih =>
    intro k st
    rw [mergeLoop, Word.mergeLoop]
    by_cases hq : st.2.1.length = 0
    · rw [if_pos hq, if_pos (show (mstate st k).queue.length = 0 from hq)]
      exact ⟨n0 + k, rfl⟩
    · rw [if_neg hq, if_neg (show ¬ (mstate st k).queue.length = 0 from hq)]
      have hs := alone_mergeStep s source d n0 k st
      cases hm : Word.mergeStep s.merges (F64.lt (.fin 0) d) (fun j => F64.lt (source (n0 + j)) d) (mstate st k) with
      | panic =>
        refine ⟨0, ?_⟩
        rw [hm] at hs
        show ((mergeStep d st).bind _).alone source s _ = _
        rw [alone_bind, hs]
        rfl
      | ok st' =>
        rw [hm] at hs
        obtain ⟨n, hn⟩ := ih st'.draws (unstate st')
        refine ⟨n, ?_⟩
        show ((mergeStep d st).bind _).alone source s _ = _
        rw [alone_bind, hs]
        exact hn

theorem alone_mergeAll (s : Shared) (source : Nat → F64) (d : F64) (n0 : Nat) (w : Word) :
    ∃ n, (mergeAll d w).alone source s n0 = (w.mergeAllF s.merges d fun j => source (n0 + j)).bind fun r => .ok (r, s, n) := by
  obtain ⟨n, hn⟩ := alone_mergeLoop s source d n0 (Word.mergeFuel w.length) 0 (w, Word.initQueue s.merges w 0 [], [])
  refine ⟨n, ?_⟩
  unfold mergeAll Word.mergeAllF Word.mergeAll Word.mergeAllFuel
  show ((initQueue w 0 []).bind _).alone source s _ = _
  rw [alone_bind, quiet_initQueue s w 0 [] source n0]
  show ((mergeLoop d _ _).bind _).alone source s _ = _
  rw [alone_bind]
  rw [Nat.add_zero] at hn
  rw [show (mergeLoop d (Word.mergeFuel w.length) (w, Word.initQueue s.merges w 0 [], [])).alone source s n0 = _ from hn]
  simp only [mstate]
  cases Word.mergeLoop s.merges (F64.lt (.fin 0) d) (fun j => F64.lt (source (n0 + j)) d) (Word.mergeFuel w.length)
    ⟨w, Word.initQueue s.merges w 0 [], [], 0⟩ with
  | panic => rfl
  | ok r => cases r <;> rfl

theorem lookupKey_eq (o : BpeOpts) (s : Shared) (i l : Nat) (r : Rune) : lookupKey o i l r = (o.model s).lookupKey i l r := by
  simp [lookupKey, BPE.lookupKey, BPE.hasContinuingSubwordPrefix, BPE.hasEndOfWordSuffix, BpeOpts.model]

theorem hasUnk_eq (o : BpeOpts) (s : Shared) : (o.model s).hasUnknownToken = true ↔ o.unknownToken.length ≠ 0 := by
  simp [BPE.hasUnknownToken, BpeOpts.model]

theorem quiet_symbols (s : Shared) (o : BpeOpts) (u : Int) (l : Nat) : ∀ (rs : List (Nat × Rune)) (w : Word) (unk : Option (Int × Int)),
    Quiet (symbols o u l rs w unk) s (.ok (rs.foldl ((o.model s).symbolStep u l) (w, unk))) := by
  intro rs
  induction rs with
  | nil => intro w unk; exact quiet_ret _ s
  | cons ir rs ih =>
    intro w unk
    obtain ⟨i, r⟩ := ir
    rw [symbols.eq_def, List.foldl_cons]
    refine quiet_look (quiet_lookID _ s) ?_
    rw [lookupKey_eq o s]
    simp only [BPE.symbolStep]
    rw [show (o.model s).vocab = s.vocab from rfl]
    cases s.vocab.getID ((o.model s).lookupKey i l r) with
    | some id => cases unk <;> exact ih _ _
    | none =>
      dsimp only
      by_cases hu : o.unknownToken.length ≠ 0
      · rw [if_pos hu, if_pos ((hasUnk_eq o s).2 hu)]
        cases unk with
        | none => exact ih _ _
        | some p =>
          dsimp only
          rw [show (o.model s).unknownFusionEnabled = o.unknownFusionEnabled from rfl]
          split
          · exact ih _ _
          · exact ih _ _
      · rw [if_neg hu, if_neg (fun h => hu ((hasUnk_eq o s).1 h))]
        exact ih _ _

theorem alone_mergeWord (s : Shared) (source : Nat → F64) (o : BpeOpts) (n0 : Nat) (w : Str) :
    ∃ n, (mergeWord o w).alone source s n0
      = ((o.model s).mergeWord (fun j => F64.lt (source (n0 + j)) o.dropout) w).bind fun r => .ok (r, s, n) := by
  have key : ∀ (u : Int), ∃ n, (mergeSymbols o w u).alone source s n0
      = (do let r ← (let runes := runesOf w
                     let (word, unk) := (BPE.indexed runes).foldl ((o.model s).symbolStep u (runes.length - 1)) ([], none)
                     match unk with
                     | some (uid, ulen) => word.add uid ulen
                     | none => word : Word).mergeAll s.merges (F64.lt (.fin 0) o.dropout) fun j => F64.lt (source (n0 + j)) o.dropout
            pure (.ok r) : GoM (Except Err (Option Word))).bind fun r => .ok (r, s, n) := by
    intro u
    generalize hf : (BPE.indexed (runesOf w)).foldl ((o.model s).symbolStep u ((runesOf w).length - 1)) ([], none) = st
    obtain ⟨word, unk⟩ := st
    obtain ⟨n, hn⟩ := alone_mergeAll s source o.dropout n0 (match (generalizing := false) unk with
      | some (uid, ulen) => word.add uid ulen
      | none => word)
    refine ⟨n, ?_⟩
    unfold mergeSymbols
    show ((symbols o u _ _ _ _).bind _).alone source s n0 = _
    rw [alone_bind, quiet_symbols s o u _ _ _ _ source n0, hf]
    show ((mergeAll o.dropout _).bind _).alone source s n0 = _
    rw [alone_bind]
    refine (congrArg (fun g => GoM.bind g _) hn).trans ?_
    simp only [hf]
    unfold Word.mergeAllF
    generalize Word.mergeAll s.merges (F64.lt (.fin 0) o.dropout) (fun j => F64.lt (source (n0 + j)) o.dropout) _ = g
    cases g <;> rfl
  unfold mergeWord BPE.mergeWord BPE.initialWord
  by_cases hu : o.unknownToken.length ≠ 0
  · rw [if_pos hu, if_pos ((hasUnk_eq o s).2 hu)]
    rw [show (o.model s).vocab = s.vocab from rfl, show (o.model s).unknownToken = o.unknownToken from rfl]
    show ∃ n, ((lookID _).bind _).alone source s n0 = _
    rw [alone_bind, quiet_lookID _ s source n0]
    cases hg : s.vocab.getID o.unknownToken with
    | none => exact ⟨n0, rfl⟩
    | some u => exact key u
  · rw [if_neg hu, if_neg (fun h => hu ((hasUnk_eq o s).1 h))]
    exact key 0

theorem quiet_wordToTokens (s : Shared) : ∀ (w : Word) (n : Int), Quiet (wordToTokens w n) s (.ok (BPE.wordToTokens s.vocab w n)) := by
  intro w
  induction w with
  | nil => intro n; exact quiet_ret _ s
  | cons x w ih =>
    intro n
    rw [wordToTokens, BPE.wordToTokens]
    refine quiet_look (quiet_lookString _ s) ?_
    cases s.vocab.getString x.id with
    | none => exact quiet_ret _ s
    | some v =>
      refine quiet_look (ih _) ?_
      cases BPE.wordToTokens s.vocab w (n + x.length) <;> exact quiet_ret _ s

/-- `Tokenize` of a BPE model, alone, is the model's `Tokenize`, with the draws from there on. -/
theorem alone_bpe (s : Shared) (source : Nat → F64) (o : BpeOpts) (n0 : Nat) (w : Str) :
    ∃ n, (bpeTokenize o w).alone source s n0
      = ((o.model s).tokenizeF o.dropout (fun j => source (n0 + j)) w).bind fun r => .ok (r, s, n) := by
  have hF : (o.model s).tokenizeF o.dropout (fun j => source (n0 + j)) w
      = (o.model s).tokenize (fun j => F64.lt (source (n0 + j)) o.dropout) w := rfl
  rw [hF]
  unfold bpeTokenize BPE.tokenize BPE.tokenizeWith
  by_cases hw : w.length = 0
  · rw [if_pos hw, if_pos hw]
    exact ⟨n0, rfl⟩
  · rw [if_neg hw, if_neg hw]
    obtain ⟨n, hn⟩ := alone_mergeWord s source o n0 w
    refine ⟨n, ?_⟩
    show ((mergeWord o w).bind _).alone source s n0 = _
    rw [alone_bind, hn]
    have ht : ∀ w' : Word, (do
        match ← wordToTokens w' 0 with
        | .error e => pure (.error e)
        | .ok ts => pure (.ok (some ts)) : Prog (Except Err (Option (List Token)))).alone source s n
          = .ok ((BPE.wordToTokens s.vocab w' 0).map some, s, n) := by
      intro w'
      have := quiet_look (quiet_wordToTokens s w' 0) (f := fun r => (match r with
        | .error e => pure (.error e)
        | .ok ts => pure (.ok (some ts)) : Prog (Except Err (Option (List Token)))))
        (g := .ok ((BPE.wordToTokens s.vocab w' 0).map some))
        (by cases BPE.wordToTokens s.vocab w' 0 <;> exact quiet_ret _ s) source n
      exact this
    unfold BPE.tokenizeWithCache BPE.tokenizeWord
    simp only [goCache, WordCache.get]
    cases hm : (o.model s).mergeWord (fun j => F64.lt (source (n0 + j)) o.dropout) w with
    | panic => split <;> rfl
    | ok r =>
      cases r with
      | error e => split <;> rfl
      | ok r =>
        cases r with
        | none => split <;> rfl
        | some w' =>
          refine (ht w').trans ?_
          rw [show (o.model s).vocab = s.vocab from rfl]
          split <;> simp only [GoM.pure_eq, GoM.bind_ok] <;> cases BPE.wordToTokens s.vocab w' 0 <;> rfl

theorem quiet_findToken (s : Shared) (o : WpOpts) (x : Str) (start : Nat) : ∀ (fuel : Nat) (stop : Int),
    Quiet (findToken o x start fuel stop) s (.ok ((o.model s).findToken x start fuel stop)) := by
  intro fuel
  induction fuel with
  | zero => intro stop; exact quiet_ret _ s
  | succ fuel ih =>
    intro stop
    rw [findToken, WordPiece.findToken]
    split
    · refine quiet_look (quiet_lookID _ s) ?_
      rw [show (o.model s).subStr x start stop.toNat = (if start > 0 then o.continuingSubwordPrefix ++ (x.drop start).take (stop.toNat - start)
        else (x.drop start).take (stop.toNat - start)) from rfl]
      rw [show (o.model s).vocab = s.vocab from rfl]
      generalize (if start > 0 then o.continuingSubwordPrefix ++ (x.drop start).take (stop.toNat - start)
        else (x.drop start).take (stop.toNat - start)) = sub
      cases hg : s.vocab.getID sub with
      | some id => simp only [hg]; exact quiet_ret _ s
      | none =>
        simp only [hg]
        cases sub.getLast? with
        | some b => exact ih _
        | none => exact ih _
    · exact quiet_ret _ s

theorem quiet_tokenLoop (s : Shared) (o : WpOpts) (x : Str) : ∀ (fuel start : Nat),
    Quiet (tokenLoop o x fuel start) s (.ok ((o.model s).tokenLoop x fuel start)) := by
  intro fuel
  induction fuel with
  | zero =>
    intro start
    rw [tokenLoop, WordPiece.tokenLoop]
    split <;> exact quiet_ret _ s
  | succ fuel ih =>
    intro start
    rw [tokenLoop, WordPiece.tokenLoop]
    split
    · refine quiet_look (quiet_findToken s o x start _ _) ?_
      cases (o.model s).findToken x start x.length x.length with
      | none => exact quiet_ret _ s
      | some t =>
        refine quiet_look (ih _) ?_
        dsimp only
        cases (o.model s).tokenLoop x fuel t.offsets.stop.toNat <;> exact quiet_ret _ s
    · exact quiet_ret _ s

theorem quiet_unknown (s : Shared) (o : WpOpts) (x : Str) : Quiet (unknown o x) s (.ok ((o.model s).unknown x)) := by
  unfold unknown WordPiece.unknown
  refine quiet_look (quiet_lookID _ s) ?_
  rw [show (o.model s).vocab = s.vocab from rfl, show (o.model s).unknownToken = o.unknownToken from rfl]
  cases s.vocab.getID o.unknownToken <;> exact quiet_ret _ s

/-- `Tokenize` of a WordPiece model, alone, is the model's `Tokenize`. -/
theorem quiet_wordPiece (s : Shared) (o : WpOpts) (x : Str) : Quiet (wpTokenize o x) s (.ok ((o.model s).tokenize x)) := by
  unfold wpTokenize WordPiece.tokenize
  rw [show (o.model s).maxInputCharsPerWord = o.maxInputCharsPerWord from rfl]
  split
  · exact quiet_unknown s o x
  · refine quiet_look (quiet_tokenLoop s o x _ _) ?_
    cases (o.model s).tokenLoop x x.length 0 with
    | none => exact quiet_unknown s o x
    | some ts => exact quiet_ret _ s

/-- `AddTerm`, alone, is the model's `AddTerm`. -/
theorem alone_addTerm (s : Shared) (source : Nat → F64) (n : Nat) (t : Str) :
    (addTerm t).alone source s n = (s.vocab.addTerm t).bind fun v => .ok ((), { s with vocab := v }, n) := by
  unfold addTerm Vocab.addTerm
  show ((lookID t).bind _).alone source s n = _
  rw [alone_bind, quiet_lookID _ s source n]
  obtain ⟨⟨m, im⟩, mm⟩ := s
  cases hg : Vocab.getID ⟨m, im⟩ t with
  | some id => rfl
  | none => cases m <;> rfl

/-! ## Programs that only read -/

/-- No map is written, whatever the accesses give. -/
def Prog.Reads {α : Type} : Prog α → Prop
  | ret _ => True
  | fail => True
  | getID _ k => ∀ x, (k x).Reads
  | size k => ∀ x, (k x).Reads
  | getString _ k => ∀ x, (k x).Reads
  | getMerge _ _ k => ∀ x, (k x).Reads
  | draw k => ∀ x, (k x).Reads
  | setID _ _ _ => False
  | setTerm _ _ _ => False
  | setMerge _ _ _ _ => False

theorem reads_bind {α β : Type} {p : Prog α} {f : α → Prog β} (hp : p.Reads) (hf : ∀ a, (f a).Reads) : (p >>= f).Reads := by
  show (p.bind f).Reads
  induction p with
  | ret a => exact hf a
  | fail => trivial
  | getID t k ih => intro x; exact ih x (hp x)
  | size k ih => intro x; exact ih x (hp x)
  | getString i k ih => intro x; exact ih x (hp x)
  | getMerge a b k ih => intro x; exact ih x (hp x)
  | draw k ih => intro x; exact ih x (hp x)
  | setID t i k ih => cases hp
  | setTerm i t k ih => cases hp
  | setMerge a b v k ih => cases hp

theorem reads_lift {α : Type} (g : GoM α) : (Prog.lift g).Reads := by cases g <;> trivial
theorem reads_lookID (t : Str) : (lookID t).Reads := fun _ => trivial
theorem reads_lookString (i : Int) : (lookString i).Reads := fun _ => trivial
theorem reads_lookMerge (a b : Int) : (lookMerge a b).Reads := fun _ => trivial

theorem reads_initQueue : ∀ (w : Word) (i : Nat) (q : WMHeap), (initQueue w i q).Reads := by
  intro w
  induction w with
  | nil => intro i q; trivial
  | cons a w ih =>
    intro i q
    cases w with
    | nil => trivial
    | cons b w =>
      rw [initQueue]
      refine reads_bind (reads_lookMerge _ _) fun x => ?_
      cases x <;> exact ih _ _

theorem reads_pushPrev (w : Word) (q : WMHeap) (c : WordSymbol) : (pushPrev w q c).Reads := by
  unfold pushPrev
  split
  · exact reads_bind (reads_lift _) fun x => reads_bind (reads_lookMerge _ _) fun m => by cases m <;> trivial
  · trivial

theorem reads_pushNext (w : Word) (q : WMHeap) (c : WordSymbol) (pos : Int) : (pushNext w q c pos).Reads := by
  unfold pushNext
  split
  · exact reads_bind (reads_lift _) fun x => reads_bind (reads_lookMerge _ _) fun m => by cases m <;> trivial
  · trivial

theorem reads_process (w : Word) (q : WMHeap) (top : WordMerge) : (process w q top).Reads := by
  unfold process
  refine reads_bind (reads_lift _) fun cur => ?_
  split
  · trivial
  · refine reads_bind (reads_lift _) fun right => reads_bind (reads_lookMerge _ _) fun m => ?_
    cases m with
    | none => trivial
    | some m =>
      dsimp only
      split
      · trivial
      · refine reads_bind (reads_lift _) fun _ => reads_bind (reads_lift _) fun _ => reads_bind (reads_lift _) fun _ => ?_
        exact reads_bind (reads_pushPrev _ _ _) fun _ => reads_bind (reads_pushNext _ _ _ _) fun _ => trivial

theorem reads_mergeStep (d : F64) (st : LoopState) : (mergeStep d st).Reads := by
  unfold mergeStep
  have key : ∀ (q : WMHeap) (top : WordMerge), (do
      let (w, queue) ← process st.1 q top
      pure (w, queue, []) : Prog LoopState).Reads := fun q top => reads_bind (reads_process _ _ _) fun _ => trivial
  dsimp only
  split
  · intro x
    dsimp only
    split
    · trivial
    · exact key _ _
  · exact key _ _

theorem reads_mergeLoop (d : F64) : ∀ (fuel : Nat) (st : LoopState), (mergeLoop d fuel st).Reads := by
  intro fuel
  induction fuel with
  | zero => intro st; rw [mergeLoop]; split <;> trivial
  | succ fuel ih =>
    intro st
    rw [mergeLoop]
    split
    · trivial
    · exact reads_bind (reads_mergeStep d st) fun st' => ih st'

theorem reads_mergeAll (d : F64) (w : Word) : (mergeAll d w).Reads := by
  unfold mergeAll
  refine reads_bind (reads_initQueue _ _ _) fun q => reads_bind (reads_mergeLoop _ _ _) fun r => ?_
  cases r <;> trivial

theorem reads_symbols (o : BpeOpts) (u : Int) (l : Nat) : ∀ (rs : List (Nat × Rune)) (w : Word) (unk : Option (Int × Int)),
    (symbols o u l rs w unk).Reads := by
  intro rs
  induction rs with
  | nil => intro w unk; trivial
  | cons ir rs ih =>
    intro w unk
    rw [symbols.eq_def]
    refine reads_bind (reads_lookID _) fun x => ?_
    cases x with
    | some id => cases unk <;> exact ih _ _
    | none =>
      dsimp only
      split
      · cases unk with
        | none => exact ih _ _
        | some p =>
          dsimp only
          split <;> exact ih _ _
      · exact ih _ _

theorem reads_mergeSymbols (o : BpeOpts) (w : Str) (u : Int) : (mergeSymbols o w u).Reads := by
  unfold mergeSymbols
  exact reads_bind (reads_symbols _ _ _ _ _ _) fun x => reads_bind (reads_mergeAll _ _) fun _ => trivial

theorem reads_mergeWord (o : BpeOpts) (w : Str) : (mergeWord o w).Reads := by
  unfold mergeWord
  split
  · refine reads_bind (reads_lookID _) fun x => ?_
    cases x with
    | none => trivial
    | some u => exact reads_mergeSymbols o w u
  · exact reads_mergeSymbols o w 0

theorem reads_wordToTokens : ∀ (w : Word) (n : Int), (wordToTokens w n).Reads := by
  intro w
  induction w with
  | nil => intro n; trivial
  | cons x w ih =>
    intro n
    rw [wordToTokens]
    refine reads_bind (reads_lookString _) fun v => ?_
    cases v with
    | none => trivial
    | some v => exact reads_bind (ih _) fun r => by cases r <;> trivial

theorem reads_bpe (o : BpeOpts) (w : Str) : (bpeTokenize o w).Reads := by
  unfold bpeTokenize
  split
  · trivial
  · refine reads_bind (reads_mergeWord o w) fun r => ?_
    cases r with
    | error e => trivial
    | ok r =>
      cases r with
      | none => trivial
      | some w' => exact reads_bind (reads_wordToTokens _ _) fun r => by cases r <;> trivial

theorem reads_findToken (o : WpOpts) (x : Str) (start : Nat) : ∀ (fuel : Nat) (stop : Int), (findToken o x start fuel stop).Reads := by
  intro fuel
  induction fuel with
  | zero => intro stop; trivial
  | succ fuel ih =>
    intro stop
    rw [findToken]
    split
    · refine reads_bind (reads_lookID _) fun r => ?_
      cases r with
      | some id => trivial
      | none => dsimp only; split <;> exact ih _
    · trivial

theorem reads_tokenLoop (o : WpOpts) (x : Str) : ∀ (fuel start : Nat), (tokenLoop o x fuel start).Reads := by
  intro fuel
  induction fuel with
  | zero => intro start; rw [tokenLoop]; split <;> trivial
  | succ fuel ih =>
    intro start
    rw [tokenLoop]
    split
    · refine reads_bind (reads_findToken _ _ _ _ _) fun t => ?_
      cases t with
      | none => trivial
      | some t => exact reads_bind (ih _) fun r => by cases r <;> trivial
    · trivial

theorem reads_unknown (o : WpOpts) (x : Str) : (unknown o x).Reads := by
  unfold unknown
  exact reads_bind (reads_lookID _) fun r => by cases r <;> trivial

theorem reads_wordPiece (o : WpOpts) (x : Str) : (wpTokenize o x).Reads := by
  unfold wpTokenize
  split
  · exact reads_unknown o x
  · refine reads_bind (reads_tokenLoop _ _ _ _) fun r => ?_
    cases r with
    | none => exact reads_unknown o x
    | some ts => trivial

/-- A call of `Tokenize`. -/
def Call.Tokenizes : Call → Prop
  | .bpe _ _ => True
  | .wordPiece _ _ => True
  | _ => False

theorem reads_call {c : Call} (h : c.Tokenizes) : c.prog.Reads := by
  cases c with
  | bpe o w => exact reads_bind (reads_bpe o w) fun _ => trivial
  | wordPiece o w => exact reads_bind (reads_wordPiece o w) fun _ => trivial
  | addTerm t => cases h
  | setPair a b v => cases h

theorem reads_calls : ∀ {cs : List Call}, (∀ c ∈ cs, c.Tokenizes) → (calls cs).Reads := by
  intro cs
  induction cs with
  | nil => intro _; trivial
  | cons c cs ih =>
    intro h
    exact reads_bind (reads_call (h c (by simp))) fun _ => reads_bind (ih fun c' hc => h c' (by simp [hc])) fun _ => trivial

/-! ## One access -/

theorem reads_step {α : Type} {p p' : Prog α} {s s' : Shared} {x : F64} {drew : Bool} (hp : p.Reads)
    (h : p.step s x = some (p', s', drew)) :
    s' = s ∧ p'.Reads ∧ ∀ (f : Nat → F64) (n : Nat), (drew = true → f n = x) →
      p.alone f s n = p'.alone f s (if drew then n + 1 else n) := by
  cases p with
  | ret a => cases h
  | fail => cases h
  | getID t k => cases h; exact ⟨rfl, hp _, fun _ _ _ => rfl⟩
  | size k => cases h; exact ⟨rfl, hp _, fun _ _ _ => rfl⟩
  | getString i k => cases h; exact ⟨rfl, hp _, fun _ _ _ => rfl⟩
  | getMerge a b k => cases h; exact ⟨rfl, hp _, fun _ _ _ => rfl⟩
  | draw k => cases h; exact ⟨rfl, hp _, fun f n e => by rw [Prog.alone, e rfl]; rfl⟩
  | setID t i k => cases hp
  | setTerm i t k => cases hp
  | setMerge a b v k => cases hp

theorem reads_access {α : Type} {p : Prog α} (hp : p.Reads) {l : Loc} {w : Bool} (h : p.access = some (l, w)) : w = false := by
  cases p <;> first | (cases h; done) | (cases h; rfl) | cases hp

/-! ## Draws of a goroutine -/

/-- The numbers that goroutine `i` drew, in order. -/
def ownDraws (source : Nat → F64) (i : Nat) (log : List Nat) : List F64 :=
  (log.zipIdx.filter fun e => e.1 == i).map fun e => source e.2

theorem ownDraws_append (source : Nat → F64) (i j : Nat) (log : List Nat) :
    ownDraws source i (log ++ [j]) = ownDraws source i log ++ (if j = i then [source log.length] else []) := by
  unfold ownDraws
  rw [List.zipIdx_append, List.filter_append, List.map_append]
  congr 1
  by_cases h : j = i
  · simp [h]
  · simp [h]

/-- A sequence that begins with these numbers. -/
def Begins (f : Nat → F64) (ds : List F64) : Prop := ∀ n (h : n < ds.length), f n = ds[n]

/-- A goroutine that only reads is as far as it would be alone with its own draws. -/
def Follows (s : Shared) (p0 p : Prog (List Res)) (ds : List F64) : Prop :=
  p.Reads ∧ ∀ f, Begins f ds → p0.alone f s 0 = p.alone f s ds.length

theorem follows_run (s : Shared) (source : Nat → F64) (p0s : List (Prog (List Res))) : ∀ (schedule : List Nat) (c : Config),
    c.shared = s → c.threads.length = p0s.length →
    (∀ i p0, p0s[i]? = some p0 → ∃ p, c.threads[i]? = some p ∧ Follows s p0 p (ownDraws source i c.log)) →
    (c.run source schedule).shared = s ∧ (c.run source schedule).threads.length = p0s.length
      ∧ ∀ i p0, p0s[i]? = some p0 → ∃ p, (c.run source schedule).threads[i]? = some p
          ∧ Follows s p0 p (ownDraws source i (c.run source schedule).log) := by
  intro schedule
  induction schedule with
  | nil => intro c h1 h2 h3; exact ⟨h1, h2, h3⟩
  | cons j schedule ih =>
    intro c h1 h2 h3
    rw [Config.run]
    cases hs : c.step source j with
    | none => exact ih c h1 h2 h3
    | some c' =>
      rw [Option.getD_some]
      unfold Config.step at hs
      split at hs
      · cases hs
      · rename_i pj hj
        split at hs
        · cases hs
        · rename_i p' s' drew hp
          cases hs
          have hlt : j < c.threads.length := by
            rcases List.getElem?_eq_some_iff.1 hj with ⟨h, -⟩; exact h
          obtain ⟨q0, hq0⟩ : ∃ q0, p0s[j]? = some q0 := ⟨p0s[j]'(h2 ▸ hlt), List.getElem?_eq_getElem _⟩
          obtain ⟨q, hq, hqr, hqf⟩ := h3 j q0 hq0
          rw [hj] at hq
          cases hq
          rw [h1] at hp
          obtain ⟨e1, e2, e3⟩ := reads_step hqr hp
          refine ih _ e1 (by simp [h2]) ?_
          intro i p0 hi
          by_cases hij : i = j
          · subst hij
            rw [hq0] at hi
            cases hi
            refine ⟨p', by simp [hlt], e2, ?_⟩
            intro f hf
            cases drew with
            | false =>
              simp only [Bool.false_eq_true, if_false] at hf ⊢
              exact (hqf f hf).trans (e3 f _ (by simp))
            | true =>
              simp only [if_true, ownDraws_append] at hf ⊢
              have hb : Begins f (ownDraws source i c.log) := by
                intro n hn
                have := hf n (by simp; omega)
                rw [this, List.getElem_append_left hn]
              have hx : f (ownDraws source i c.log).length = source c.log.length := by
                have := hf (ownDraws source i c.log).length (by simp)
                rw [this]; simp
              refine (hqf f hb).trans ?_
              rw [e3 f _ (fun _ => hx)]
              simp
          · obtain ⟨p, hp1, hp2⟩ := h3 i p0 hi
            refine ⟨p, by rw [List.getElem?_set_ne (fun e => hij e.symm)]; exact hp1, ?_⟩
            cases drew with
            | false => exact hp2
            | true =>
              simp only [if_true, ownDraws_append]
              rw [if_neg (fun e => hij e.symm), List.append_nil]
              exact hp2

/-! ## What the calls of a goroutine return -/

/-- Only the draws made matter. -/
theorem alone_local {α : Type} (p : Prog α) : ∀ {f : Nat → F64} {s s' : Shared} {n n' : Nat} {a : α}, p.alone f s n = .ok (a, s', n') →
    n ≤ n' ∧ ∀ g : Nat → F64, (∀ j, n ≤ j → j < n' → g j = f j) → p.alone g s n = .ok (a, s', n') := by
  induction p with
  | ret a => intro f s s' n n' b h; cases h; exact ⟨Nat.le_refl _, fun _ _ => rfl⟩
  | fail => intro f s s' n n' b h; cases h
  | getID t k ih => intro f s s' n n' b h; exact ih _ h
  | size k ih => intro f s s' n n' b h; exact ih _ h
  | getString i k ih => intro f s s' n n' b h; exact ih _ h
  | getMerge a b k ih => intro f s s' n n' b h; exact ih _ h
  | draw k ih =>
    intro f s s' n n' b h
    obtain ⟨h1, h2⟩ := ih _ h
    refine ⟨by omega, fun g hg => ?_⟩
    rw [Prog.alone, hg n (Nat.le_refl _) h1]
    exact h2 g fun j hj hj' => hg j (by omega) hj'
  | setID t i k ih =>
    intro f s s' n n' b h
    rw [Prog.alone] at h
    cases hm : s.vocab.termToID with
    | none => rw [hm] at h; cases h
    | some m =>
      rw [hm] at h
      obtain ⟨h1, h2⟩ := ih h
      refine ⟨h1, fun g hg => ?_⟩
      rw [Prog.alone, hm]
      exact h2 g hg
  | setTerm i t k ih => intro f s s' n n' b h; exact ih h
  | setMerge a b v k ih => intro f s s' n n' b h; exact ih h

/-- What calls of `Tokenize`, one after the other and with nobody else there, return with these draws: each uses up its own. -/
inductive Outcomes (s : Shared) : List Call → List Res → List F64 → Prop
  | nil : Outcomes s [] [] []
  | bpe {o : BpeOpts} {w : Str} {r : Except Err (Option (List Token))} {cs : List Call} {rs : List Res} {ds ds' : List F64} :
      (∀ f, Begins f ds → (o.model s).tokenizeF o.dropout f w = .ok r) → Outcomes s cs rs ds' →
      Outcomes s (.bpe o w :: cs) (.bpe r :: rs) (ds ++ ds')
  | wordPiece {o : WpOpts} {w : Str} {cs : List Call} {rs : List Res} {ds : List F64} :
      Outcomes s cs rs ds → Outcomes s (.wordPiece o w :: cs) (.wordPiece ((o.model s).tokenize w) :: rs) ds

/-- `f n0, …, f (n - 1)`. -/
def between (f : Nat → F64) (n0 n : Nat) : List F64 := (List.range (n - n0)).map fun j => f (n0 + j)

theorem between_append (f : Nat → F64) {a b c : Nat} (h1 : a ≤ b) (h2 : b ≤ c) : between f a b ++ between f b c = between f a c := by
  apply List.ext_getElem
  · simp [between]; omega
  · intro i h h'
    simp only [between, List.length_map, List.length_range, List.length_append] at h h'
    by_cases hi : i < b - a
    · rw [List.getElem_append_left (by simpa [between] using hi)]
      simp [between]
    · rw [List.getElem_append_right (by simp [between]; omega)]
      simp only [between, List.getElem_map, List.getElem_range, List.length_map, List.length_range]
      congr 1; omega

theorem outcomes_alone (s : Shared) (f : Nat → F64) : ∀ (cs : List Call), (∀ c ∈ cs, c.Tokenizes) → ∀ (n0 : Nat),
    ∃ rs n, (calls cs).alone f s n0 = .ok (rs, s, n) ∧ n0 ≤ n ∧ Outcomes s cs rs (between f n0 n) := by
  intro cs
  induction cs with
  | nil => intro _ n0; exact ⟨[], n0, rfl, Nat.le_refl _, by simp [between]; exact Outcomes.nil⟩
  | cons c cs ih =>
    intro h n0
    have hcs := ih fun c' hc => h c' (by simp [hc])
    cases c with
    | bpe o w =>
      obtain ⟨n1, h1⟩ := alone_bpe s f o n0 w
      obtain ⟨r, hr⟩ : ∃ r, (o.model s).tokenizeF o.dropout (fun j => f (n0 + j)) w = .ok r := by
        rcases BPE.C44_outcomes (o.model s) (fun j => F64.lt (f (n0 + j)) o.dropout) w with ⟨ts, h⟩ | ⟨-, -, h⟩ | ⟨id, -, h⟩
        · exact ⟨_, h⟩
        · exact ⟨_, h⟩
        · exact ⟨_, h⟩
      rw [hr] at h1
      replace h1 : (bpeTokenize o w).alone f s n0 = .ok (r, s, n1) := h1
      obtain ⟨l1, l2⟩ := alone_local _ h1
      obtain ⟨rs, n, k1, k2, k3⟩ := hcs n1
      refine ⟨.bpe r :: rs, n, ?_, by omega, ?_⟩
      · show (((bpeTokenize o w).bind _).bind _).alone f s n0 = _
        rw [alone_bind, alone_bind, h1]
        show ((calls cs).bind _).alone f s n1 = _
        rw [alone_bind, k1]
        rfl
      · rw [← between_append f l1 k2]
        refine Outcomes.bpe ?_ k3
        intro g hg
        have hb : ∀ j, n0 ≤ j → j < n1 → (fun j => g (j - n0)) j = f j := by
          intro j hj hj'
          have := hg (j - n0) (by simp [between]; omega)
          simp only [this, between, List.getElem_map, List.getElem_range]
          congr 1; omega
        have e := l2 _ hb
        obtain ⟨n2, h2⟩ := alone_bpe s (fun j => g (j - n0)) o n0 w
        rw [e] at h2
        have hg' : (fun j => (fun j => g (j - n0)) (n0 + j)) = g := by
          funext j; show g (n0 + j - n0) = g j; congr 1; omega
        rw [hg'] at h2
        cases ht : (o.model s).tokenizeF o.dropout g w with
        | panic => rw [ht] at h2; cases h2
        | ok r' =>
          rw [ht] at h2
          replace h2 : GoM.ok (r, s, n1) = GoM.ok (r', s, n2) := h2
          injection h2 with h2
          injection h2 with h2 _
          rw [h2]
    | wordPiece o w =>
      obtain ⟨rs, n, k1, k2, k3⟩ := hcs n0
      refine ⟨.wordPiece ((o.model s).tokenize w) :: rs, n, ?_, k2, Outcomes.wordPiece k3⟩
      show (((wpTokenize o w).bind _).bind _).alone f s n0 = _
      rw [alone_bind, alone_bind, quiet_wordPiece s o w f n0]
      show ((calls cs).bind _).alone f s n0 = _
      rw [alone_bind, k1]
      rfl
    | addTerm t => cases h (.addTerm t) (by simp)
    | setPair a b v => cases h (.setPair a b v) (by simp)

theorem begins_exists (ds : List F64) : ∃ f, Begins f ds := by
  refine ⟨fun n => ds.getD n .nan, fun n h => ?_⟩
  simp [List.getD_eq_getElem?_getD, List.getElem?_eq_getElem h]

theorem begins_between {f : Nat → F64} {ds : List F64} (h : Begins f ds) : between f 0 ds.length = ds := by
  apply List.ext_getElem
  · simp [between]
  · intro i h1 h2
    simp only [between, List.getElem_map, List.getElem_range, Nat.zero_add]
    exact h i h2

/-- **C99.** Goroutines that call `Tokenize` on models sharing a vocabulary and a merge map, in any order of their accesses: the
maps stay as they are, no access races with another, no goroutine panics, and one that has ended has returned what its calls return
when nobody else is there, with the numbers it drew. -/
theorem C99_tokenize (s : Shared) (source : Nat → F64) (gs : List (List Call)) (hg : ∀ g ∈ gs, ∀ c ∈ g, c.Tokenizes)
    (schedule : List Nat) :
    let c := (Config.start s gs).run source schedule
    c.shared = s ∧ ¬ c.Race ∧ c.threads.length = gs.length
      ∧ ∀ i g, gs[i]? = some g → ∃ p, c.threads[i]? = some p ∧ p ≠ fail
          ∧ ∀ rs, p = ret rs → Outcomes s g rs (ownDraws source i c.log) := by
  intro c
  have h := follows_run s source (gs.map calls) schedule (Config.start s gs) rfl rfl (by
    intro i p0 hi
    refine ⟨p0, hi, ?_, fun f _ => rfl⟩
    rw [List.getElem?_map, Option.map_eq_some_iff] at hi
    obtain ⟨g, hgi, rfl⟩ := hi
    exact reads_calls (hg g (List.mem_of_getElem? hgi)))
  obtain ⟨h1, h2, h3⟩ := h
  have hth : ∀ (i : Nat) (p : Prog (List Res)), c.threads[i]? = some p → p.Reads := by
    intro i p hp
    obtain ⟨hlt, -⟩ := List.getElem?_eq_some_iff.1 hp
    obtain ⟨p', e1, e2⟩ := h3 i ((gs.map calls)[i]'(h2 ▸ hlt)) (List.getElem?_eq_getElem _)
    rw [show ((Config.start s gs).run source schedule).threads[i]? = some p from hp] at e1
    cases e1
    exact e2.1
  refine ⟨h1, ?_, by rw [← List.length_map (f := calls)]; exact h2, ?_⟩
  · rintro ⟨i, j, p, q, l, wp, wq, -, hp, hq, ap, aq, hw⟩
    have a1 := reads_access (hth i p hp) ap
    have a2 := reads_access (hth j q hq) aq
    rw [a1, a2] at hw
    simp at hw
  · intro i g hi
    obtain ⟨p, hp, hpr, hpf⟩ := h3 i (calls g) (by rw [List.getElem?_map, hi]; rfl)
    have hgt := hg g (List.mem_of_getElem? hi)
    have hrun : ∀ f, Begins f (ownDraws source i c.log) → ∃ rs n, p.alone f s (ownDraws source i c.log).length = .ok (rs, s, n)
        ∧ Outcomes s g rs (between f 0 n) := by
      intro f hf
      obtain ⟨rs, n, k1, -, k3⟩ := outcomes_alone s f g hgt 0
      exact ⟨rs, n, (hpf f hf).symm.trans k1, k3⟩
    obtain ⟨f, hf⟩ := begins_exists (ownDraws source i c.log)
    obtain ⟨rs, n, k1, k3⟩ := hrun f hf
    refine ⟨p, hp, ?_, ?_⟩
    · intro hfail
      subst hfail
      cases k1
    · intro rs' hrs
      subst hrs
      replace k1 : GoM.ok (rs', s, (ownDraws source i c.log).length) = GoM.ok (rs, s, n) := k1
      injection k1 with k1
      injection k1 with e1 e2
      injection e2 with _ e3
      rw [← e1, ← e3, begins_between hf] at k3
      exact k3

/-! ## Goroutines end -/

theorem run_append (source : Nat → F64) : ∀ (a b : List Nat) (c : Config), c.run source (a ++ b) = (c.run source a).run source b := by
  intro a
  induction a with
  | nil => intro b c; rfl
  | cons i a ih => intro b c; exact ih b _

theorem step_other {source : Nat → F64} {c c' : Config} {i j : Nat} (hij : j ≠ i) (h : c.step source j = some c') :
    c'.threads[i]? = c.threads[i]? := by
  unfold Config.step at h
  split at h
  · cases h
  · split at h
    · cases h
    · cases h
      exact List.getElem?_set_ne hij

theorem run_other (source : Nat → F64) {i : Nat} : ∀ (a : List Nat) (c : Config), i ∉ a →
    (c.run source a).threads[i]? = c.threads[i]? := by
  intro a
  induction a with
  | nil => intro c _; rfl
  | cons j a ih =>
    intro c h
    rw [Config.run, ih _ (fun hm => h (by simp [hm]))]
    cases hs : c.step source j with
    | none => rfl
    | some c' => exact step_other (fun e => h (by simp [e])) hs

/-- The program has returned or panicked. -/
def Prog.Ended {α : Type} (p : Prog α) : Prop := p = fail ∨ ∃ a, p = ret a

/-- Goroutine `i`, which is at `p`, ends under every schedule that lets it run again and again. -/
def Ends (source : Nat → F64) (i : Nat) (p : Prog (List Res)) : Prop :=
  ∀ (c : Config) (sched : Nat → Nat), c.threads[i]? = some p → (∀ t, ∃ t', t ≤ t' ∧ sched t' = i) →
    ∃ t p', (c.run source ((List.range t).map sched)).threads[i]? = some p' ∧ p'.Ended

theorem least_turn {sched : Nat → Nat} {i : Nat} : ∀ (t : Nat), sched t = i →
    ∃ t, sched t = i ∧ i ∉ (List.range t).map sched := by
  intro t
  induction t using Nat.strongRecOn with
  | ind t ih =>
    intro h
    by_cases hm : i ∈ (List.range t).map sched
    · obtain ⟨k, hk, hki⟩ := List.mem_map.1 hm
      exact ih k (List.mem_range.1 hk) hki
    · exact ⟨t, h, hm⟩

theorem ends_step {source : Nat → F64} {i : Nat} {p : Prog (List Res)}
    (h : ∀ s x, ∃ q s' d, p.step s x = some (q, s', d) ∧ Ends source i q) : Ends source i p := by
  intro c sched hc hfair
  obtain ⟨t0, -, h0⟩ := hfair 0
  obtain ⟨t, ht, hnot⟩ := least_turn t0 h0
  have h1 : (c.run source ((List.range t).map sched)).threads[i]? = some p := (run_other source _ c hnot).trans hc
  generalize hc1 : c.run source ((List.range t).map sched) = c1 at h1
  obtain ⟨q, s', d, hq, hend⟩ := h c1.shared (source c1.log.length)
  have hlt : i < c1.threads.length := by
    rcases List.getElem?_eq_some_iff.1 h1 with ⟨h, -⟩; exact h
  have h2 : c1.step source i = some ⟨s', c1.threads.set i q, if d then c1.log ++ [i] else c1.log⟩ := by
    unfold Config.step
    rw [h1]
    dsimp only
    rw [hq]
  obtain ⟨t2, p', e1, e2⟩ := hend ⟨s', c1.threads.set i q, if d then c1.log ++ [i] else c1.log⟩ (fun k => sched (t + 1 + k)) (by simp [hlt])
    (fun k => by
      obtain ⟨t', hle, ht'⟩ := hfair (t + 1 + k)
      refine ⟨t' - (t + 1), by omega, ?_⟩
      show sched (t + 1 + (t' - (t + 1))) = i
      rw [show t + 1 + (t' - (t + 1)) = t' by omega, ht'])
  refine ⟨t + 1 + t2, p', ?_, e2⟩
  rw [List.range_add, List.map_append, List.map_map, run_append, List.range_succ, List.map_append, run_append, hc1]
  have h3 : c1.run source ([t].map sched) = ⟨s', c1.threads.set i q, if d then c1.log ++ [i] else c1.log⟩ := by
    show ((c1.step source (sched t)).getD c1) = _
    rw [ht, h2]; rfl
  rw [h3]
  exact e1

/-- **C99.** Whatever the other goroutines do, one that gets its turn again and again ends. -/
theorem C99_ends (source : Nat → F64) (i : Nat) (p : Prog (List Res)) : Ends source i p := by
  have hf : Ends source i fail := fun c sched hc _ => ⟨0, fail, hc, Or.inl rfl⟩
  induction p with
  | ret a => intro c sched hc _; exact ⟨0, ret a, hc, Or.inr ⟨a, rfl⟩⟩
  | fail => exact hf
  | getID t k ih => exact ends_step fun s x => ⟨_, _, _, rfl, ih _⟩
  | size k ih => exact ends_step fun s x => ⟨_, _, _, rfl, ih _⟩
  | getString i k ih => exact ends_step fun s x => ⟨_, _, _, rfl, ih _⟩
  | getMerge a b k ih => exact ends_step fun s x => ⟨_, _, _, rfl, ih _⟩
  | draw k ih => exact ends_step fun s x => ⟨_, _, _, rfl, ih _⟩
  | setID t j k ih =>
    refine ends_step fun s x => ?_
    rw [Prog.step]
    cases s.vocab.termToID with
    | none => exact ⟨_, _, _, rfl, hf⟩
    | some m => exact ⟨_, _, _, rfl, ih⟩
  | setTerm i t k ih => exact ends_step fun s x => ⟨_, _, _, rfl, ih⟩
  | setMerge a b v k ih => exact ends_step fun s x => ⟨_, _, _, rfl, ih⟩

/-! ## One goroutine -/

/-- One goroutine that gets turn after turn: it makes the accesses it makes alone, in the same order, and draws the same numbers. -/
theorem run_single (source : Nat → F64) (p : Prog (List Res)) : ∀ (s : Shared) (log : List Nat),
    ∃ n, match p.alone source s log.length with
      | .ok (rs, s', m) => Config.run source ⟨s, [p], log⟩ (List.replicate n 0) = ⟨s', [ret rs], log ++ List.replicate (m - log.length) 0⟩
          ∧ log.length ≤ m
      | .panic => ((Config.run source ⟨s, [p], log⟩ (List.replicate n 0)).threads) = [fail] := by
  have quiet : ∀ (p q : Prog (List Res)) (s s' : Shared) (log : List Nat),
      p.step s (source log.length) = some (q, s', false) → p.alone source s log.length = q.alone source s' log.length →
      (∃ n, match q.alone source s' log.length with
        | .ok (rs, s'', m) => Config.run source ⟨s', [q], log⟩ (List.replicate n 0) = ⟨s'', [ret rs], log ++ List.replicate (m - log.length) 0⟩
            ∧ log.length ≤ m
        | .panic => ((Config.run source ⟨s', [q], log⟩ (List.replicate n 0)).threads) = [fail]) →
      ∃ n, match p.alone source s log.length with
        | .ok (rs, s'', m) => Config.run source ⟨s, [p], log⟩ (List.replicate n 0) = ⟨s'', [ret rs], log ++ List.replicate (m - log.length) 0⟩
            ∧ log.length ≤ m
        | .panic => ((Config.run source ⟨s, [p], log⟩ (List.replicate n 0)).threads) = [fail] := by
    intro p q s s' log h1 h2 ⟨n, h3⟩
    refine ⟨n + 1, ?_⟩
    have e : Config.run source ⟨s, [p], log⟩ (List.replicate (n + 1) 0) = Config.run source ⟨s', [q], log⟩ (List.replicate n 0) := by
      rw [List.replicate_succ, Config.run, Config.step]
      simp [h1]
    rw [h2, e]
    exact h3
  induction p with
  | ret a => intro s log; exact ⟨0, by simp [Prog.alone, Config.run]⟩
  | fail => intro s log; exact ⟨0, by simp [Prog.alone, Config.run]⟩
  | getID t k ih => intro s log; exact quiet _ _ s s log rfl rfl (ih _ s log)
  | size k ih => intro s log; exact quiet _ _ s s log rfl rfl (ih _ s log)
  | getString i k ih => intro s log; exact quiet _ _ s s log rfl rfl (ih _ s log)
  | getMerge a b k ih => intro s log; exact quiet _ _ s s log rfl rfl (ih _ s log)
  | draw k ih =>
    intro s log
    obtain ⟨n, h⟩ := ih (source log.length) s (log ++ [0])
    refine ⟨n + 1, ?_⟩
    have e : Config.run source ⟨s, [draw k], log⟩ (List.replicate (n + 1) 0)
        = Config.run source ⟨s, [k (source log.length)], log ++ [0]⟩ (List.replicate n 0) := by
      rw [List.replicate_succ, Config.run, Config.step]
      simp [Prog.step]
    rw [e, Prog.alone]
    simp only [List.length_append, List.length_cons, List.length_nil, Nat.zero_add] at h
    cases hk : (k (source log.length)).alone source s (log.length + 1) with
    | panic => rw [hk] at h; exact h
    | ok x =>
      obtain ⟨rs, s', m⟩ := x
      rw [hk] at h
      obtain ⟨h1, h2⟩ := h
      refine ⟨h1.trans ?_, by omega⟩
      rw [show m - log.length = (m - (log.length + 1)) + 1 by omega, List.replicate_succ]
      simp
  | setID t i k ih =>
    intro s log
    cases hm : s.vocab.termToID with
    | none =>
      refine ⟨1, ?_⟩
      simp [Prog.alone, hm, Config.run, Config.step, Prog.step]
    | some m =>
      exact quiet _ _ s _ log (by rw [Prog.step, hm]) (by rw [Prog.alone, hm]) (ih { s with vocab := { s.vocab with termToID := some (m.set t i) } } log)
  | setTerm i t k ih =>
    intro s log
    exact quiet _ _ s _ log rfl rfl (ih { s with vocab := { s.vocab with idToTerm := s.vocab.idToTerm.set i t } } log)
  | setMerge a b v k ih => intro s log; exact quiet _ _ s _ log rfl rfl (ih { s with merges := s.merges.set a b v } log)

/-- **C99.** A single goroutine, also one that writes: after some turns it has returned what its calls return alone, left the maps they
leave and made the draws they make; or it has panicked as they do. -/
theorem C99_single (source : Nat → F64) (s : Shared) (cs : List Call) :
    (∀ rs s' m, (calls cs).alone source s 0 = .ok (rs, s', m) →
      ∃ n, (Config.start s [cs]).run source (List.replicate n 0) = ⟨s', [ret rs], List.replicate m 0⟩)
    ∧ ((calls cs).alone source s 0 = .panic → ∃ n, ((Config.start s [cs]).run source (List.replicate n 0)).threads = [fail]) := by
  obtain ⟨n, h⟩ := run_single source (calls cs) s []
  constructor
  · intro rs s' m e
    rw [List.length_nil, e] at h
    exact ⟨n, by simpa [Config.start] using h.1⟩
  · intro e
    rw [List.length_nil, e] at h
    exact ⟨n, h⟩

/-! ## Without dropout, and with writers -/

/-- **C99.** Without dropout a goroutine returns what the calls return alone, in one way only. -/
theorem C99_same {s : Shared} : ∀ {cs : List Call} {rs : List Res} {ds : List F64}, Outcomes s cs rs ds →
    (∀ c ∈ cs, ∀ o w, c = .bpe o w → F64.lt (.fin 0) o.dropout = false) → ∀ f : Nat → F64,
    All2 (fun c r => match c with
      | .bpe o w => ∃ r', (o.model s).tokenizeF o.dropout f w = .ok r' ∧ r = Res.bpe r'
      | .wordPiece o w => r = .wordPiece ((o.model s).tokenize w)
      | _ => False) cs rs := by
  intro cs rs ds h
  induction h with
  | nil => intro _ f; exact All2.nil
  | @bpe o w r cs rs ds ds' h1 _ ih =>
    intro hd f
    refine All2.cons ?_ (ih (fun c hc => hd c (by simp [hc])) f)
    obtain ⟨g, hg⟩ := begins_exists ds
    have hn := hd (.bpe o w) (by simp) o w rfl
    have e1 := (C96_none (o.model s) hn f (fun _ => .nan) w [] []).2
    have e2 := (C96_none (o.model s) hn g (fun _ => .nan) w [] []).2
    exact ⟨r, (e1.trans e2.symm).trans (h1 g hg), rfl⟩
  | @wordPiece o w cs rs ds _ ih =>
    intro hd f
    exact All2.cons rfl (ih (fun c hc => hd c (by simp [hc])) f)

/-- Not so when a goroutine adds a term while another tokenizes. -/
theorem C99_counterexample_race : ∃ (s : Shared) (gs : List (List Call)) (schedule : List Nat),
    gs = [[.wordPiece ⟨b!"[UNK]", b!"##", 100⟩ b!"a"], [.addTerm b!"b"]]
      ∧ ((Config.start s gs).run (fun _ => .nan) schedule).Race :=
  ⟨⟨Vocab.new, []⟩, _, [1, 1], rfl, 0, 1, _, _, .termToID, false, true, by decide, rfl, rfl, rfl, rfl, Or.inr rfl⟩

/-- Two goroutines that add different terms at the same time can give them the same id. -/
theorem C99_counterexample_ids :
    ((Config.start ⟨Vocab.new, []⟩ [[.addTerm b!"a"], [.addTerm b!"b"]]).run (fun _ => .nan) [0, 1, 0, 1, 0, 0, 1, 1]).shared.vocab
      = ⟨some [(b!"a", 0), (b!"b", 0)], [(0, b!"b")]⟩ := by decide +kernel

/-- A vocabulary and a merge map to share. -/
def exShared : Shared := ⟨⟨some [(b!"a", 0), (b!"b", 1), (b!"ab", 2), (b!"##b", 3), (b!"?", 4)], [(0, b!"a"), (1, b!"b"), (2, b!"ab"), (3, b!"##b"), (4, b!"?")]⟩,
  [((0, 1), ⟨0, 2⟩)]⟩

/-- Two goroutines: BPE with dropout one half, then WordPiece; and WordPiece. -/
def exCalls : List (List Call) :=
  [[.bpe ⟨⟨0⟩, .fin (1 / 2), [], [], [], false⟩ b!"ab", .wordPiece ⟨b!"?", b!"##", 100⟩ b!"b"], [.wordPiece ⟨b!"?", b!"##", 100⟩ b!"abb"]]

/-- What a goroutine has returned. -/
def returned (c : Config) (i : Nat) : Option (List Res) :=
  match c.threads[i]? with
  | some (ret rs) => some rs
  | _ => none

deriving instance DecidableEq for Err, Res

-- the draws decide, the order of the accesses does not
example : returned ((Config.start exShared exCalls).run (fun _ => .fin (3 / 4)) [0, 1, 1, 0, 0, 1, 0, 0, 1, 0, 0, 1, 0, 0, 0]) 0
      = some [.bpe (.ok (some [⟨2, b!"ab", ⟨0, 2⟩⟩])), .wordPiece (.ok [⟨1, b!"b", ⟨0, 1⟩⟩])]
    ∧ returned ((Config.start exShared exCalls).run (fun _ => .fin (3 / 4)) [0, 1, 1, 0, 0, 1, 0, 0, 1, 0, 0, 1, 0, 0, 0]) 1
      = some [.wordPiece (.ok [⟨2, b!"ab", ⟨0, 2⟩⟩, ⟨3, b!"##b", ⟨2, 3⟩⟩])] := by decide +kernel

example : returned ((Config.start exShared exCalls).run (fun _ => .fin (1 / 4)) [1, 0, 0, 0, 0, 1, 0, 0, 1, 0, 0, 0]) 0
      = some [.bpe (.ok (some [⟨0, b!"a", ⟨0, 1⟩⟩, ⟨1, b!"b", ⟨1, 2⟩⟩])), .wordPiece (.ok [⟨1, b!"b", ⟨0, 1⟩⟩])] := by decide +kernel

end Verif.Conc
