import Verif.Model.PreTokenizedString

/-!
# What is left when a call panics

A Go program can recover from a panic and go on with the values it holds.  `GoM` forgets in what state they are.  Here the
methods that change their receiver are written once more, statement by statement, with the receiver as a state that
outlives a panic.  The functions given to `Filter` and `Map` may panic, those given to `Split`, `Normalize` and
`Tokenize` may also change the string they get, whether they panic or not.
-/

set_option autoImplicit false

namespace Verif

/-- Code with a state: the state it leaves, in any case, and what it returns, unless it panics. -/
def Left (σ α : Type) : Type := σ → σ × GoM α

namespace Left

variable {σ α β : Type}

def ret (a : α) : Left σ α := fun s => (s, .ok a)

def seq (x : Left σ α) (f : α → Left σ β) : Left σ β := fun s =>
  match x s with
  | (s', .ok a) => f a s'
  | (s', .panic) => (s', .panic)

instance : Monad (Left σ) where
  pure := ret
  bind := seq

/-- The receiver. -/
def get : Left σ σ := fun s => (s, .ok s)

/-- An assignment to fields of the receiver. -/
def set (s' : σ) : Left σ Unit := fun _ => (s', .ok ())

/-- Code that only reads. -/
def lift (x : GoM α) : Left σ α := fun s => (s, x)

/-- `for _, x := range l` with loop variables `b`. -/
def forEach {γ : Type} : List γ → β → (β → γ → Left σ β) → Left σ β
  | [], b, _ => ret b
  | x :: xs, b, f => seq (f b x) fun b' => forEach xs b' f

end Left

namespace NS

open Left

/-- `TransformRange` (normalizedstring.go:152-229).  The alignments are assigned in line 222, the text in
line 224. -/
def transformRangeL (r : Rng) (dest : List RuneChange) (initialOffset : Int) : Left NS Unit := do
  let ns ← Left.get
  match ns.coerceRangeToNormalized r with
  | none => pure ()
  | some (a, b) => do
    let replaced ← lift (goSlice ns.normalized a b)
    let initial ← lift (goSlice replaced 0 initialOffset)
    let tail ← lift (goSlice replaced initialOffset replaced.length)
    let st ← lift (goFor dest
      ({ offset := (initial.length : Int) + a, repl := runesOf tail, aligns := [], out := [] } : TState)
      (transformStep ns.alignments))
    let alPre ← lift (goSlice ns.alignments 0 a)
    let alPost ← lift (goSlice ns.alignments b ns.alignments.length)
    Left.set { ns with alignments := alPre ++ st.aligns ++ alPost }
    let ns ← Left.get
    let sPre ← lift (goSlice ns.normalized 0 a)
    let sPost ← lift (goSlice ns.normalized b ns.normalized.length)
    Left.set { ns with normalized := sPre ++ st.out ++ sPost }

/-- `Transform` (normalizedstring.go:235-237). -/
def transformL (dest : List RuneChange) (initialOffset : Int) : Left NS Unit := do
  let ns ← Left.get
  transformRangeL (.normalized 0 ns.len) dest initialOffset

/-- Loop body of `Filter` (normalizedstring.go:682-700) with a function that may panic. -/
def filterStepL (keep : Rune → GoM Bool) (st : FilterState) (r : Rune) : GoM FilterState := do
  let k ← keep r
  pure (filterStep (fun _ => k) st r)

/-- `Filter` (normalizedstring.go:674-709). -/
def filterL (keep : Rune → GoM Bool) : Left NS Unit := do
  let ns ← Left.get
  let st ← lift (goFor (runesOf ns.normalized) ⟨0, 0, [], none⟩ (filterStepL keep))
  match st.lastRune with
  | some lr => transformL (st.transforms ++ [⟨lr, -(st.removed : Int)⟩]) st.removedStart
  | none => transformL st.transforms st.removedStart

/-- `Map` (normalizedstring.go:712-721). -/
def mapL (f : Rune → GoM Rune) : Left NS Unit := do
  let ns ← Left.get
  let changes ← lift (goFor (runesOf ns.normalized) ([] : List RuneChange) fun acc r => do
    let r' ← f r
    pure (acc ++ [⟨r', 0⟩]))
  transformL changes 0

/-- `TrimLeftRight` (normalizedstring.go:784-816). -/
def trimLeftRightR (left right : Bool) : Left NS Unit := do
  let ns ← Left.get
  let runes := runesOf ns.normalized
  let leading := if left then countLeadingSpaces runes else 0
  let trailing := if right ∧ leading < runes.length then countTrailingSpaces runes else 0
  if leading = 0 ∧ trailing = 0 then pure ()
  else transformL (trimChanges runes leading trailing) leading

/-- `Prepend` (normalizedstring.go:432-452). -/
def prependL (s : Str) : Left NS Unit := do
  let ns ← Left.get
  if ns.normalized.length = 0 then pure ()
  else do
    let firstRune ← lift (goIndex (runesOf ns.normalized) 0)
    transformRangeL (.normalized 0 (encodeRune firstRune).length) (prependChanges s ++ [⟨firstRune, 1⟩]) 0

/-- `Append` (normalizedstring.go:457-476). -/
def appendL (s : Str) : Left NS Unit := do
  let ns ← Left.get
  if ns.normalized.length = 0 then pure ()
  else do
    let runes := runesOf ns.normalized
    let lastRune ← lift (goIndex runes ((runes.length : Int) - 1))
    transformRangeL (.normalized ((runes.length : Int) - 1) ns.len)
      (⟨lastRune, 0⟩ :: (runesOf s).map fun r => ⟨r, 1⟩) 0

/-- Loop body of `Replace` (normalizedstring.go:607-633); the loop variable is `offset`. -/
def replaceStepL (content : Str) (offset : Int) (c : Capture) : Left NS Int :=
  if !c.isMatch then pure offset
  else do
    let ns ← Left.get
    let rStart := if c.offsets.start + offset < 0 then 0 else c.offsets.start + offset
    let rEnd := if c.offsets.stop + offset < 0 then 0 else c.offsets.stop + offset
    let changes : List RuneChange := (runesOf content).map fun r => ⟨r, 1⟩
    let seg ← lift (goSlice ns.normalized rStart rEnd)
    transformRangeL (.normalized rStart rEnd) changes (runesOf seg).length
    pure (offset + ((content.length : Int) - (c.offsets.stop - c.offsets.start)))

/-- `Replace` (normalizedstring.go:597-636). -/
def replaceL (pattern : SplitPattern) (content : Str) : Left NS (Option Err) := do
  let ns ← Left.get
  match ← lift (pattern ns.normalized) with
  | .error e => pure (some e)
  | .ok captures => do
    let _ ← forEach captures (0 : Int) (replaceStepL content)
    pure none

end NS

namespace PTS

/-- A function given to `Split`. -/
abbrev SplitFuncL := Nat → Left NS (Except Err (List Piece))

/-- A function given to `Normalize`. -/
abbrev NormalizeFuncL := Left NS (Option Err)

/-- A function given to `Tokenize`. -/
abbrev TokenizeFuncL := Left NS (Except Err (List Token))

/-- Loop of `Split` (pretokenizedstring.go:67-84): the splits as the calls of `splitFunc` left them, and the outcome. -/
def splitLoopL (f : SplitFuncL) : Nat → List Piece → List Piece × GoM (Except Err (List Piece))
  | _, [] => ([], .ok (.ok []))
  | index, p :: ps =>
    match p.tokens with
    | some _ =>
      match splitLoopL f (index + 1) ps with
      | (old, .ok (.ok new)) => (p :: old, .ok (.ok (p :: new)))
      | (old, x) => (p :: old, x)
    | none =>
      match f index p.ns with
      | (ns', .panic) => ({ p with ns := ns' } :: ps, .panic)
      | (ns', .ok (.error e)) => ({ p with ns := ns' } :: ps, .ok (.error e))
      | (ns', .ok (.ok items)) =>
        match splitLoopL f (index + 1) ps with
        | (old, .ok (.ok new)) =>
          ({ p with ns := ns' } :: old, .ok (.ok (items.filter (fun it => !it.ns.isEmpty) ++ new)))
        | (old, x) => ({ p with ns := ns' } :: old, x)

/-- `Split` (pretokenizedstring.go:63-88). -/
def splitL (f : SplitFuncL) : Left PTS (Option Err) := fun p =>
  match splitLoopL f 0 p.splits with
  | (old, .panic) => ({ p with splits := old }, .panic)
  | (old, .ok (.error e)) => ({ p with splits := old }, .ok (some e))
  | (_, .ok (.ok new)) => ({ p with splits := new }, .ok none)

/-- Loop of `Normalize` (pretokenizedstring.go:95-103). -/
def normalizeLoopL (f : NormalizeFuncL) : List Piece → List Piece × GoM (Option Err)
  | [] => ([], .ok none)
  | p :: ps =>
    match p.tokens with
    | some _ =>
      match normalizeLoopL f ps with
      | (ps', x) => (p :: ps', x)
    | none =>
      match f p.ns with
      | (ns', .panic) => ({ p with ns := ns' } :: ps, .panic)
      | (ns', .ok (some e)) => ({ p with ns := ns' } :: ps, .ok (some e))
      | (ns', .ok none) =>
        match normalizeLoopL f ps with
        | (ps', x) => ({ p with ns := ns' } :: ps', x)

/-- `Normalize` (pretokenizedstring.go:92-105). -/
def normalizeL (f : NormalizeFuncL) : Left PTS (Option Err) := fun p =>
  match normalizeLoopL f p.splits with
  | (ps, x) => ({ p with splits := ps }, x)

/-- Loop of `Tokenize` (pretokenizedstring.go:112-121). -/
def tokenizeLoopL (f : TokenizeFuncL) : List Piece → List Piece × GoM (Option Err)
  | [] => ([], .ok none)
  | p :: ps =>
    match p.tokens with
    | some _ =>
      match tokenizeLoopL f ps with
      | (ps', x) => (p :: ps', x)
    | none =>
      match f p.ns with
      | (ns', .panic) => ({ p with ns := ns' } :: ps, .panic)
      | (ns', .ok (.error e)) => ({ p with ns := ns' } :: ps, .ok (some e))
      | (ns', .ok (.ok ts)) =>
        match tokenizeLoopL f ps with
        | (ps', x) => (⟨ns', some ts⟩ :: ps', x)

/-- `Tokenize` (pretokenizedstring.go:109-123). -/
def tokenizeL (f : TokenizeFuncL) : Left PTS (Option Err) := fun p =>
  match tokenizeLoopL f p.splits with
  | (ps, x) => ({ p with splits := ps }, x)

end PTS

end Verif
