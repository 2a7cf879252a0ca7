import Verif.Model.Word

namespace Verif

/-- `models.Token` (models/models.go:16-20). -/
structure Token where
  id : Int
  value : Str
  offsets : ByteOffsets
deriving DecidableEq, Repr

/-- `bpemodel.WordCache` (models/bpemodel/wordcache.go:10-12): it has a capacity and no
content. -/
structure WordCache where
  capacity : Int
deriving DecidableEq, Repr

namespace WordCache

/-- `Set` (wordcache.go:32-34): does nothing. -/
def set (c : WordCache) (_key : Str) (_values : Word) : WordCache := c

/-- `Get` (wordcache.go:36-39): never finds anything (`nil`). -/
def get (_c : WordCache) (_key : Str) : Option Word := none

/-- `GetValues` (wordcache.go:41-47). -/
def getValues (c : WordCache) (keys : List Str) : List (Option Word) := keys.map c.get

end WordCache

/-- The two cache operations that `Tokenize` uses, for an arbitrary kind of cache. -/
structure CacheOps (σ : Type) where
  get : σ → Str → Option Word
  set : σ → Str → Word → σ

/-- The cache of the code. -/
def goCache : CacheOps WordCache := ⟨WordCache.get, WordCache.set⟩

/-- `bpemodel.BPEModel` (models/bpemodel/bpemodel.go:19-45).  `dropout` is reduced
to `hasDropout = (dropout > 0)`; its value only matters through the random
draws, which are an oracle. -/
structure BPE where
  vocab : Vocab
  merges : MergeMap
  cache : WordCache
  hasDropout : Bool
  unknownToken : Str
  continuingSubwordPrefix : Str
  endOfWordSuffix : Str
  unknownFusionEnabled : Bool
deriving DecidableEq, Repr

namespace BPE

/-- `hasUnknownToken` (bpemodel.go:219-221). -/
def hasUnknownToken (m : BPE) : Bool := m.unknownToken.length != 0
/-- `hasContinuingSubwordPrefix` (bpemodel.go:211-213). -/
def hasContinuingSubwordPrefix (m : BPE) : Bool := m.continuingSubwordPrefix.length != 0
/-- `hasEndOfWordSuffix` (bpemodel.go:215-217). -/
def hasEndOfWordSuffix (m : BPE) : Bool := m.endOfWordSuffix.length != 0

/-- The string looked up for the rune at index `i` (bpemodel.go:139-147): the prefix is
added when `i == 0`, the suffix when `i == lastRuneIndex`. -/
def lookupKey (m : BPE) (i lastRuneIndex : Nat) (r : Rune) : Str :=
  let s := encodeRune r
  let s := if i = 0 ∧ m.hasContinuingSubwordPrefix then m.continuingSubwordPrefix ++ s else s
  if i = lastRuneIndex ∧ m.hasEndOfWordSuffix then s ++ m.endOfWordSuffix else s

/-- Loop body of `mergeWord` (bpemodel.go:138-174); `unk` is the pending unknown
symbol `(ID, Length)`. -/
def symbolStep (m : BPE) (unkTokenID : Int) (lastRuneIndex : Nat)
    (st : Word × Option (Int × Int)) (ir : Nat × Rune) : Word × Option (Int × Int) :=
  let (word, unk) := st
  let byteLen : Int := (encodeRune ir.2).length
  match m.vocab.getID (m.lookupKey ir.1 lastRuneIndex ir.2) with
  | some id =>
    match unk with
    | some (uid, ulen) => ((word.add uid ulen).add id byteLen, none)
    | none => (word.add id byteLen, none)
  | none =>
    if m.hasUnknownToken then
      match unk with
      | some (uid, ulen) =>
        if m.unknownFusionEnabled then (word, some (uid, ulen + byteLen))
        else (word.add uid ulen, some (unkTokenID, byteLen))
      | none => (word, some (unkTokenID, byteLen))
    else (word, unk)

/-- The runes with their indices, `for i, r := range runes` (bpemodel.go:138). -/
def indexed (rs : List Rune) : List (Nat × Rune) := rs.mapIdx fun i r => (i, r)

/-- The symbols `mergeWord` builds before merging (bpemodel.go:120-178). -/
def initialWord (m : BPE) (w : Str) : Except Err Word :=
  let go (unkTokenID : Int) : Word :=
    let runes := runesOf w
    let (word, unk) := (indexed runes).foldl (m.symbolStep unkTokenID (runes.length - 1)) ([], none)
    match unk with
    | some (uid, ulen) => word.add uid ulen
    | none => word
  if m.hasUnknownToken then
    match m.vocab.getID m.unknownToken with
    | none => .error .unkOutOfVocab
    | some id => .ok (go id)
  else .ok (go 0)

/-- `mergeWord` (bpemodel.go:120-183).  `ok none` would be non-termination of
`MergeAll` within the model's fuel. -/
def mergeWord (m : BPE) (rnd : Nat → Bool) (w : Str) : GoM (Except Err (Option Word)) :=
  match m.initialWord w with
  | .error e => .ok (.error e)
  | .ok word => do
    let r ← word.mergeAll m.merges m.hasDropout rnd
    pure (.ok r)

/-- `wordToTokens` (bpemodel.go:185-205). -/
def wordToTokens (vocab : Vocab) : Word → Int → Except Err (List Token)
  | [], _ => .ok []
  | s :: rest, offsetStart =>
    match vocab.getString s.id with
    | none => .error (.idNotFound s.id)
    | some value =>
      match wordToTokens vocab rest (offsetStart + s.length) with
      | .error e => .error e
      | .ok ts => .ok (⟨s.id, value, ⟨offsetStart, offsetStart + s.length⟩⟩ :: ts)

/-- The part of `Tokenize` after the cache (bpemodel.go:94-98, 107-115): also gives the word,
for the cache.  The inner `none` is as in `mergeWord`. -/
def tokenizeWord (m : BPE) (rnd : Nat → Bool) (sequence : Str) :
    GoM (Except Err (Option (Word × List Token))) := do
  match ← m.mergeWord rnd sequence with
  | .error e => pure (.error e)
  | .ok none => pure (.ok none)
  | .ok (some word) =>
    match wordToTokens m.vocab word 0 with
    | .error e => pure (.error e)
    | .ok ts => pure (.ok (some (word, ts)))

/-- `tokenizeWithCache` (bpemodel.go:101-118), with the cache as state. -/
def tokenizeWithCache {σ : Type} (ops : CacheOps σ) (m : BPE) (rnd : Nat → Bool) (c : σ) (sequence : Str) :
    GoM (Except Err (Option (List Token)) × σ) :=
  match ops.get c sequence with
  | some hit => .ok ((wordToTokens m.vocab hit 0).map some, c)
  | none => do
    match ← m.tokenizeWord rnd sequence with
    | .error e => pure (.error e, c)
    | .ok none => pure (.ok none, c)
    | .ok (some (word, ts)) => pure (.ok (some ts), ops.set c sequence word)

/-- `Tokenize` (bpemodel.go:85-99), with the cache as state. -/
def tokenizeWith {σ : Type} (ops : CacheOps σ) (m : BPE) (rnd : Nat → Bool) (c : σ) (sequence : Str) :
    GoM (Except Err (Option (List Token)) × σ) :=
  if sequence.length = 0 then .ok (.ok (some []), c)
  else if !m.hasDropout then m.tokenizeWithCache ops rnd c sequence
  else do
    match ← m.tokenizeWord rnd sequence with
    | .error e => pure (.error e, c)
    | .ok none => pure (.ok none, c)
    | .ok (some (_, ts)) => pure (.ok (some ts), c)

/-- `Tokenize` with the cache of the code: its result. -/
def tokenize (m : BPE) (rnd : Nat → Bool) (sequence : Str) : GoM (Except Err (Option (List Token))) := do
  let (r, _) ← m.tokenizeWith goCache rnd m.cache sequence
  pure r

end BPE
end Verif
