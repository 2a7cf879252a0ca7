import Verif.Model.PreTokenizers

/-! The functions of `pretokenizedstring` and the pre-tokenizers once more, with the pointers of
the Go code: a `Split` holds the address of a `NormalizedString` in a store, and every function
reads and writes the store.  `Props/Pointers.lean` compares this with the model by values. -/

set_option autoImplicit false

namespace Verif

/-- The `NormalizedString` values in memory; a pointer is an index. -/
abbrev Store := List NS

namespace Store

/-- Reading through a pointer; a pointer to nothing panics. -/
def load (σ : Store) (a : Nat) : GoM NS :=
  match σ[a]? with
  | some ns => .ok ns
  | none => .panic

/-- What a method with receiver `*NormalizedString` does to the value. -/
def write (σ : Store) (a : Nat) (ns : NS) : Store := σ.set a ns

/-- `New` (normalizedstring.go:50-63) for each value, in order: the store and the new pointers. -/
def allocAll (σ : Store) (nss : List NS) : Store × List Nat :=
  (σ ++ nss, (List.range nss.length).map fun i => σ.length + i)

end Store

/-- `pretokenizedstring.Split` (split.go:18-26) with its pointer. -/
structure Ref where
  addr : Nat
  tokens : Option (List Token)
deriving DecidableEq, Repr

/-- `PreTokenizedString` (pretokenizedstring.go:22-25) with pointers in its splits. -/
structure RefPTS where
  original : Str
  splits : List Ref
deriving DecidableEq, Repr

/-- `SplitFunc` (pretokenizedstring.go:55-58): the string it is given is a pointer. -/
abbrev RefSplitFunc := Nat → Nat → Store → GoM (Store × Except Err (List Ref))

/-- A normalization function (normalizers.go:11-13): the string it is given is a pointer. -/
abbrev RefNormalizeFunc := Nat → Store → GoM (Store × Option Err)

/-- A call on a `PreTokenizedString`: the store and the state afterwards, and the error. -/
abbrev RefCall := Store → RefPTS → GoM (Store × RefPTS × Option Err)

namespace RefPTS

/-- `FromNormalizedString` (pretokenizedstring.go:31-41): the pointer is kept. -/
def fromNormalizedString (σ : Store) (a : Nat) : GoM RefPTS := do
  let ns ← σ.load a
  pure ⟨ns.getOriginal, [⟨a, none⟩]⟩

/-- `FromString` (pretokenizedstring.go:27-29). -/
def fromString (σ : Store) (s : Str) : Store × RefPTS :=
  (σ ++ [NS.fromString s], ⟨s, [⟨σ.length, none⟩]⟩)

/-- The loop over the items (pretokenizedstring.go:78-83). -/
def keepItems (σ : Store) : List Ref → GoM (List Ref)
  | [] => .ok []
  | r :: rs => do
    let ns ← σ.load r.addr
    let rest ← keepItems σ rs
    if ns.isEmpty then pure rest else pure (r :: rest)

/-- Loop of `Split` (pretokenizedstring.go:67-84). -/
def splitLoop (F : RefSplitFunc) : Nat → List Ref → Store → GoM (Store × Except Err (List Ref))
  | _, [], σ => .ok (σ, .ok [])
  | index, r :: rs, σ =>
    match r.tokens with
    | some _ => do
      let (σ, new) ← splitLoop F (index + 1) rs σ
      match new with
      | .error e => pure (σ, .error e)
      | .ok new => pure (σ, .ok (r :: new))
    | none => do
      let (σ, items) ← F index r.addr σ
      match items with
      | .error e => pure (σ, .error e)
      | .ok items =>
        let items ← keepItems σ items
        let (σ, new) ← splitLoop F (index + 1) rs σ
        match new with
        | .error e => pure (σ, .error e)
        | .ok new => pure (σ, .ok (items ++ new))

/-- `Split` (pretokenizedstring.go:63-88). -/
def split (F : RefSplitFunc) : RefCall := fun σ p => do
  let (σ, new) ← splitLoop F 0 p.splits σ
  match new with
  | .error e => pure (σ, p, some e)
  | .ok new => pure (σ, { p with splits := new }, none)

/-- Loop of `Normalize` (pretokenizedstring.go:95-103). -/
def normalizeLoop (N : RefNormalizeFunc) : List Ref → Store → GoM (Store × Option Err)
  | [], σ => .ok (σ, none)
  | r :: rs, σ =>
    match r.tokens with
    | some _ => normalizeLoop N rs σ
    | none => do
      let (σ, e) ← N r.addr σ
      match e with
      | some e => pure (σ, some e)
      | none => normalizeLoop N rs σ

/-- `Normalize` (pretokenizedstring.go:92-105). -/
def normalize (N : RefNormalizeFunc) : RefCall := fun σ p => do
  let (σ, e) ← normalizeLoop N p.splits σ
  pure (σ, p, e)

/-- Loop of `Tokenize` (pretokenizedstring.go:112-121): reads through the pointers, writes
`p.splits[i].Tokens`. -/
def tokenizeLoop (tokenize : NS → GoM (Except Err (List Token))) (σ : Store) :
    List Ref → GoM (List Ref × Option Err)
  | [] => .ok ([], none)
  | r :: rs =>
    match r.tokens with
    | some _ => do
      let (rs', e) ← tokenizeLoop tokenize σ rs
      pure (r :: rs', e)
    | none => do
      let ns ← σ.load r.addr
      match ← tokenize ns with
      | .error e => pure (r :: rs, some e)
      | .ok ts =>
        let (rs', e) ← tokenizeLoop tokenize σ rs
        pure ({ r with tokens := some ts } :: rs', e)

/-- `Tokenize` (pretokenizedstring.go:109-123). -/
def tokenize (tokenize : NS → GoM (Except Err (List Token))) : RefCall := fun σ p => do
  let (splits, e) ← tokenizeLoop tokenize σ p.splits
  pure (σ, { p with splits := splits }, e)

/-- Outer loop of `IntoEncoding` (pretokenizedstring.go:182-212). -/
def encodeSplits (σ : Store) (wordIndex typeID : Int) : Nat → List Ref → GoM (List EncodableToken)
  | _, [] => .ok []
  | splitIndex, r :: rs => do
    let ns ← σ.load r.addr
    let actual := if wordIndex < 0 then (splitIndex : Int) else wordIndex
    let here ← PTS.encodeTokens ns actual typeID (r.tokens.getD [])
    let rest ← encodeSplits σ wordIndex typeID (splitIndex + 1) rs
    pure (here ++ rest)

/-- `IntoEncoding` (pretokenizedstring.go:172-215). -/
def intoEncoding (p : RefPTS) (σ : Store) (wordIndex typeID : Int) : GoM (Except Err Encoding) :=
  if p.splits.length = 0 then .ok (.ok Encoding.default)
  else if !(p.splits.all fun r => r.tokens.isSome) then .ok (.error .notTokenized)
  else do
    let seq ← encodeSplits σ wordIndex typeID 0 p.splits
    pure (.ok (Encoding.fromEncodableTokens seq))

/-- Loop of `GetOriginalByteSplits` (pretokenizedstring.go:128-134). -/
def originalByteSplitsLoop (σ : Store) : List Ref → GoM (List ByteSplit)
  | [] => .ok []
  | r :: rs => do
    let ns ← σ.load r.addr
    let rest ← originalByteSplitsLoop σ rs
    pure (⟨ns.get, ns.originalOffsets, r.tokens⟩ :: rest)

/-- `GetOriginalByteSplits` (pretokenizedstring.go:126-136). -/
def getOriginalByteSplits (p : RefPTS) (σ : Store) : GoM (List ByteSplit) := originalByteSplitsLoop σ p.splits

/-- Loop of `GetNormalizedByteSplits` (pretokenizedstring.go:142-154). -/
def normalizedByteSplitsLoop (σ : Store) : List Ref → Int → GoM (List ByteSplit)
  | [], _ => .ok []
  | r :: rs, offset => do
    let ns ← σ.load r.addr
    let rest ← normalizedByteSplitsLoop σ rs (offset + ns.len)
    pure (⟨ns.get, ⟨offset, offset + ns.len⟩, r.tokens⟩ :: rest)

/-- `GetNormalizedByteSplits` (pretokenizedstring.go:139-156). -/
def getNormalizedByteSplits (p : RefPTS) (σ : Store) : GoM (List ByteSplit) := normalizedByteSplitsLoop σ p.splits 0

/-- One call after the other, up to the first error. -/
def andThen (c d : RefCall) : RefCall := fun σ p => do
  let (σ, p, e) ← c σ p
  match e with
  | some e => pure (σ, p, some e)
  | none => d σ p

end RefPTS

/-- `SplitsFromNormalizedStrings` (split.go:48-54). -/
def refsFromNormalizedStrings (as : List Nat) : List Ref := as.map fun a => ⟨a, none⟩

/-- A normalizer: methods of the receiver `ns` write to the value `ns` points to and to nothing
else. -/
def normalizeCell (f : NormalizeFunc) : RefNormalizeFunc := fun a σ => do
  let ns ← σ.load a
  let (ns, e) ← f ns
  pure (σ.write a ns, e)

/-- `ns.Split(pattern, behaviour)` wrapped in `SplitsFromNormalizedStrings`; each part comes from
`Slice`, which ends in `New` (normalizedstring.go:670). -/
def refSplitByPattern (pattern : SplitPattern) (b : Behavior) : RefSplitFunc := fun _ a σ => do
  let ns ← σ.load a
  match ← ns.split pattern b with
  | .error e => pure (σ, .error e)
  | .ok nss =>
    let (σ, as) := σ.allocAll nss
    pure (σ, .ok (refsFromNormalizedStrings as))

/-- `WhiteSpaceSplitPreTokenizer.PreTokenize` (whitespacesplitpretokenizer.go:27-40). -/
def refWhiteSpaceSplit : RefCall := RefPTS.split (refSplitByPattern (fromFunc isWhiteSpace) .removed)

/-- `BertPreTokenizer.PreTokenize` (bertpretokenizer.go:33-62). -/
def refBertPreTokenize (u : Uni) : RefCall :=
  RefPTS.andThen (RefPTS.split (refSplitByPattern (fromFunc isWhiteSpace) .removed))
    (RefPTS.split (refSplitByPattern (fromFunc u.isPunct) .isolated))

/-- `RuneDelimiterPreTokenizer.PreTokenize` (runedelimiterpretokenizer.go:29-40). -/
def refRuneDelimiter (delimiter : Rune) : RefCall := RefPTS.split (refSplitByPattern (fromRune delimiter) .removed)

/-- `WhiteSpacePreTokenizer.PreTokenize` (whitespacepretokenizer.go:39-50). -/
def refWhiteSpacePreTokenize (findAll2 : List Rune → Except Err (List (Nat × Nat))) : RefCall :=
  RefPTS.split (refSplitByPattern (invert (fromRegexp2 findAll2)) .removed)

/-- The `SplitFunc` of `MetaSpacePreTokenizer.PreTokenize` (metaspacepretokenizer.go:60-73). -/
def refMetaSpaceSplitFunc (replacement : Rune) (prefixSpaceEnabled : Bool) : RefSplitFunc := fun i a σ => do
  let strReplacement := encodeRune replacement
  let ns ← σ.load a
  let σ ←
    if prefixSpaceEnabled ∧ !strReplacement.isPrefixOf ns.get then do
      let ns ← ns.prepend strReplacement
      pure (σ.write a ns)
    else pure σ
  let ns ← σ.load a
  match ← ns.replace (fromRune 32) strReplacement with
  | .error e => pure (σ, .error e)
  | .ok ns => refSplitByPattern (fromRune replacement) .mergedWithNext i a (σ.write a ns)

/-- `MetaSpacePreTokenizer.PreTokenize` (metaspacepretokenizer.go:57-75). -/
def refMetaSpace (replacement : Rune) (prefixSpaceEnabled : Bool) : RefCall :=
  RefPTS.split (refMetaSpaceSplitFunc replacement prefixSpaceEnabled)

/-- The `SplitFunc` of `ByteLevelPreTokenizer.PreTokenize` (bytelevelpretokenizer.go:72-81). -/
def refByteLevelSplitFunc (findAll2 : List Rune → Except Err (List (Nat × Nat)))
    (prefixSpaceEnabled : Bool) : RefSplitFunc := fun i a σ => do
  let ns ← σ.load a
  let σ ←
    if prefixSpaceEnabled ∧ !startsWithWhitespace ns.get then do
      let ns ← ns.prepend [32]
      pure (σ.write a ns)
    else pure σ
  refSplitByPattern (fromRegexp2 findAll2) .isolated i a σ

/-- `ByteLevelPreTokenizer.PreTokenize` (bytelevelpretokenizer.go:67-110). -/
def refByteLevel (findAll2 : List Rune → Except Err (List (Nat × Nat))) (prefixSpaceEnabled : Bool) : RefCall :=
  RefPTS.andThen (RefPTS.split (refByteLevelSplitFunc findAll2 prefixSpaceEnabled))
    (RefPTS.normalize (normalizeCell byteLevelNormalize))

end Verif
