import Verif.Model.Pointers

/-!
# Slices of splits in memory

`Model/Pointers.lean` has the pointers from splits to strings; the splits themselves and their tokens are values there.  In Go the
splits lie in arrays: `Splits` returns the slice of the object, not a copy, `Split` makes a new array, and `Tokenize` writes into
the array the object has at that moment.  `Tokens` is a pointer to a slice of tokens.  This file has pretokenizedstring.go over an
explicit memory of arrays of splits and of tokens, with callbacks that may use all of it, also the object they are called for.

A slice of splits always starts at the beginning of its array, and nothing in the package appends to a slice that is in use, so that
its capacity is left out; `newSplits` is seen by no one before it is assigned, so that its array is made then.
-/
set_option autoImplicit false

namespace Verif.SplitMemory

/-- `pretokenizedstring.Split` (split.go:18-26): two pointers. -/
structure Cell where
  addr : Nat
  tokens : Option Nat
deriving DecidableEq, Repr

/-- A slice of splits. -/
structure Slc where
  arr : Nat
  len : Nat
deriving DecidableEq, Repr

/-- `PreTokenizedString` (pretokenizedstring.go:22-25). -/
structure Obj where
  original : Str
  splits : Slc
deriving DecidableEq, Repr

/-- The strings, the slices of tokens, the arrays of splits and the `PreTokenizedString`s allocated so far. -/
structure World where
  strs : Store
  toks : List (List Token)
  arrs : List (List Cell)
  objs : List Obj
deriving DecidableEq, Repr

/-- `s[i]`. -/
def readAt (W : World) (s : Slc) (i : Nat) : GoM Cell :=
  goIndex ((W.arrs[s.arr]?.getD []).take s.len) i

/-- `s[i].Tokens = p`. -/
def writeTokens (W : World) (s : Slc) (i : Nat) (p : Nat) : GoM World := do
  let c ← readAt W s i
  pure { W with arrs := W.arrs.modify s.arr fun a => a.set i { c with tokens := some p } }

/-- `*p`. -/
def getObj (W : World) (k : Nat) : GoM Obj := goIndex W.objs k

/-- `SplitFunc` (pretokenizedstring.go:55-58). -/
abbrev SplitFn := Nat → Nat → World → GoM (World × Except Err (List Cell))

/-- The function passed to `Normalize`. -/
abbrev NormalizeFn := Nat → World → GoM (World × Option Err)

/-- The function passed to `Tokenize`. -/
abbrev TokenizeFn := Nat → World → GoM (World × Except Err (List Token))

/-- `FromNormalizedString` (pretokenizedstring.go:31-41). -/
def fromNormalizedString (W : World) (a : Nat) : GoM World := do
  let ns ← W.strs.load a
  pure { W with arrs := W.arrs ++ [[⟨a, none⟩]], objs := W.objs ++ [⟨ns.getOriginal, ⟨W.arrs.length, 1⟩⟩] }

/-- `FromString` (pretokenizedstring.go:27-29). -/
def fromString (W : World) (s : Str) : GoM World :=
  fromNormalizedString { W with strs := W.strs ++ [NS.fromString s] } W.strs.length

/-- The loop over the items (pretokenizedstring.go:78-83). -/
def appendItems (σ : Store) : List Cell → List Cell → GoM (List Cell)
  | newSplits, [] => .ok newSplits
  | newSplits, item :: items => do
    let ns ← σ.load item.addr
    if ns.isEmpty then appendItems σ newSplits items else appendItems σ (newSplits ++ [item]) items

/-- Loop of `Split` (pretokenizedstring.go:67-84): `n` elements of the slice are left, from `index` on; each is read when its turn
comes. -/
def splitLoop (F : SplitFn) (s : Slc) : Nat → Nat → List Cell → World → GoM (World × Except Err (List Cell))
  | 0, _, newSplits, W => .ok (W, .ok newSplits)
  | n + 1, index, newSplits, W => do
    let c ← readAt W s index
    match c.tokens with
    | some _ => splitLoop F s n (index + 1) (newSplits ++ [c]) W
    | none => do
      let (W, items) ← F index c.addr W
      match items with
      | .error e => pure (W, .error e)
      | .ok items =>
        let newSplits ← appendItems W.strs newSplits items
        splitLoop F s n (index + 1) newSplits W

/-- `Split` (pretokenizedstring.go:63-88) of the object `k`. -/
def split (k : Nat) (F : SplitFn) (W : World) : GoM (World × Option Err) := do
  let p ← getObj W k
  let (W, r) ← splitLoop F p.splits p.splits.len 0 [] W
  match r with
  | .error e => pure (W, some e)
  | .ok newSplits =>
    let p ← getObj W k
    pure ({ W with arrs := W.arrs ++ [newSplits]
                   objs := W.objs.set k { p with splits := ⟨W.arrs.length, newSplits.length⟩ } }, none)

/-- Loop of `Normalize` (pretokenizedstring.go:95-103). -/
def normalizeLoop (N : NormalizeFn) (s : Slc) : Nat → Nat → World → GoM (World × Option Err)
  | 0, _, W => .ok (W, none)
  | n + 1, index, W => do
    let c ← readAt W s index
    match c.tokens with
    | some _ => normalizeLoop N s n (index + 1) W
    | none => do
      let (W, e) ← N c.addr W
      match e with
      | some e => pure (W, some e)
      | none => normalizeLoop N s n (index + 1) W

/-- `Normalize` (pretokenizedstring.go:92-105). -/
def normalize (k : Nat) (N : NormalizeFn) (W : World) : GoM (World × Option Err) := do
  let p ← getObj W k
  normalizeLoop N p.splits p.splits.len 0 W

/-- Loop of `Tokenize` (pretokenizedstring.go:112-121): the elements are those of the slice at the start, the write goes to
`p.splits` as it is then.  `tokens` is a new variable each time. -/
def tokenizeLoop (k : Nat) (T : TokenizeFn) (s : Slc) : Nat → Nat → World → GoM (World × Option Err)
  | 0, _, W => .ok (W, none)
  | n + 1, index, W => do
    let c ← readAt W s index
    match c.tokens with
    | some _ => tokenizeLoop k T s n (index + 1) W
    | none => do
      let (W, r) ← T c.addr W
      match r with
      | .error e => pure (W, some e)
      | .ok tokens =>
        let p ← getObj W k
        let W ← writeTokens { W with toks := W.toks ++ [tokens] } p.splits index W.toks.length
        tokenizeLoop k T s n (index + 1) W

/-- `Tokenize` (pretokenizedstring.go:109-123). -/
def tokenize (k : Nat) (T : TokenizeFn) (W : World) : GoM (World × Option Err) := do
  let p ← getObj W k
  tokenizeLoop k T p.splits p.splits.len 0 W

/-- `Splits` (pretokenizedstring.go:158-160): the slice of the object itself. -/
def splits (k : Nat) (W : World) : GoM Slc := do
  let p ← getObj W k
  pure p.splits

/-- `*c.Tokens`. -/
def derefTokens (W : World) (c : Cell) : GoM (List Token) :=
  match c.tokens with
  | some p => goIndex W.toks p
  | none => .panic

/-- Outer loop of `IntoEncoding` (pretokenizedstring.go:182-212). -/
def encodeSplits (W : World) (s : Slc) (wordIndex typeID : Int) : Nat → Nat → GoM (List EncodableToken)
  | 0, _ => .ok []
  | n + 1, splitIndex => do
    let c ← readAt W s splitIndex
    let ns ← W.strs.load c.addr
    let actual := if wordIndex < 0 then (splitIndex : Int) else wordIndex
    let tokens ← derefTokens W c
    let here ← PTS.encodeTokens ns actual typeID tokens
    let rest ← encodeSplits W s wordIndex typeID n (splitIndex + 1)
    pure (here ++ rest)

/-- `allSplitsHaveTokens` (pretokenizedstring.go:217-224). -/
def allSplitsHaveTokens (W : World) (s : Slc) : Nat → Nat → GoM Bool
  | 0, _ => .ok true
  | n + 1, i => do
    let c ← readAt W s i
    match c.tokens with
    | none => pure false
    | some _ => allSplitsHaveTokens W s n (i + 1)

/-- `IntoEncoding` (pretokenizedstring.go:172-215). -/
def intoEncoding (k : Nat) (wordIndex typeID : Int) (W : World) : GoM (Except Err Encoding) := do
  let p ← getObj W k
  if p.splits.len = 0 then pure (.ok Encoding.default)
  else if !(← allSplitsHaveTokens W p.splits p.splits.len 0) then pure (.error .notTokenized)
  else do
    let seq ← encodeSplits W p.splits wordIndex typeID p.splits.len 0
    pure (.ok (Encoding.fromEncodableTokens seq))

/-- The tokens of a split, for a caller who looks at them. -/
def tokensOf (W : World) (c : Cell) : GoM (Option (List Token)) :=
  match c.tokens with
  | some p => do
    let ts ← goIndex W.toks p
    pure (some ts)
  | none => pure none

/-- Loop of `GetOriginalByteSplits` (pretokenizedstring.go:128-134); the pointers are followed at once. -/
def originalByteSplits (W : World) (s : Slc) : Nat → Nat → GoM (List ByteSplit)
  | 0, _ => .ok []
  | n + 1, i => do
    let c ← readAt W s i
    let ns ← W.strs.load c.addr
    let rest ← originalByteSplits W s n (i + 1)
    let ts ← tokensOf W c
    pure (⟨ns.get, ns.originalOffsets, ts⟩ :: rest)

/-- `GetOriginalByteSplits` (pretokenizedstring.go:126-136). -/
def getOriginalByteSplits (k : Nat) (W : World) : GoM (List ByteSplit) := do
  let p ← getObj W k
  originalByteSplits W p.splits p.splits.len 0

/-- Loop of `GetNormalizedByteSplits` (pretokenizedstring.go:142-154); the pointers are followed at once. -/
def normalizedByteSplits (W : World) (s : Slc) : Nat → Nat → Int → GoM (List ByteSplit)
  | 0, _, _ => .ok []
  | n + 1, i, offset => do
    let c ← readAt W s i
    let ns ← W.strs.load c.addr
    let rest ← normalizedByteSplits W s n (i + 1) (offset + ns.len)
    let ts ← tokensOf W c
    pure (⟨ns.get, ⟨offset, offset + ns.len⟩, ts⟩ :: rest)

/-- `GetNormalizedByteSplits` (pretokenizedstring.go:139-156). -/
def getNormalizedByteSplits (k : Nat) (W : World) : GoM (List ByteSplit) := do
  let p ← getObj W k
  normalizedByteSplits W p.splits p.splits.len 0 0

/-! ## Callbacks that keep to the string they are given -/

/-- The tokens of items made by a callback, each in a new variable. -/
def allocTokens (W : World) : List Ref → World × List Cell
  | [] => (W, [])
  | r :: rs =>
    match r.tokens with
    | none =>
      let (W, cs) := allocTokens W rs
      (W, ⟨r.addr, none⟩ :: cs)
    | some ts =>
      let (W', cs) := allocTokens { W with toks := W.toks ++ [ts] } rs
      (W', ⟨r.addr, some W.toks.length⟩ :: cs)

/-- A `SplitFunc` that uses strings only. -/
def onStrings (F : RefSplitFunc) : SplitFn := fun index a W => do
  let (σ, r) ← F index a W.strs
  match r with
  | .error e => pure ({ W with strs := σ }, .error e)
  | .ok items =>
    let (W, cs) := allocTokens { W with strs := σ } items
    pure (W, .ok cs)

/-- A normalization function that uses strings only. -/
def normalizeOnStrings (N : RefNormalizeFunc) : NormalizeFn := fun a W => do
  let (σ, e) ← N a W.strs
  pure ({ W with strs := σ }, e)

/-- A tokenization function that reads the string it is given. -/
def tokenizeOnStrings (t : NS → GoM (Except Err (List Token))) : TokenizeFn := fun a W => do
  let ns ← W.strs.load a
  let r ← t ns
  pure (W, r)

/-! ## Reading -/

/-- A split: its string and, through the pointer, its tokens. -/
def look (W : World) (c : Cell) : Ref := ⟨c.addr, c.tokens.bind fun p => W.toks[p]?⟩

/-- The elements of a slice. -/
def cells (W : World) (s : Slc) : List Cell := (W.arrs[s.arr]?.getD []).take s.len

/-- What a slice shows. -/
def shows (W : World) (s : Slc) : List Ref := (cells W s).map (look W)

/-- An object with the splits it has. -/
def state (W : World) (p : Obj) : RefPTS := ⟨p.original, shows W p.splits⟩

end Verif.SplitMemory
