import Verif.Model.Normalizers

namespace Verif

/-- The outcome of a `PreTokenize` call (pretokenizers/pretokenizers.go:15-17). -/
abbrev PreTokenizer := PTS → GoM (PTS × Option Err)

/-- The `SplitFunc` shared by most pre-tokenizers: `ns.Split(pattern, behaviour)`
wrapped in `SplitsFromNormalizedStrings` (e.g. whitespacesplitpretokenizer.go:32-38). -/
def splitByPattern (pattern : SplitPattern) (b : Behavior) : SplitFunc := fun _ ns => do
  match ← ns.split pattern b with
  | .error e => pure (ns, .error e)
  | .ok nss => pure (ns, .ok (splitsFromNormalizedStrings nss))

/-- `WhiteSpaceSplitPreTokenizer.PreTokenize`
(pretokenizers/whitespacesplitpretokenizer/whitespacesplitpretokenizer.go:27-40). -/
def whiteSpaceSplit : PreTokenizer := fun pts =>
  pts.split (splitByPattern (fromFunc isWhiteSpace) .removed)

/-- `BertPreTokenizer.PreTokenize` (pretokenizers/bertpretokenizer/bertpretokenizer.go:33-62). -/
def bertPreTokenize (u : Uni) : PreTokenizer := fun pts => do
  let (pts, e) ← pts.split (splitByPattern (fromFunc isWhiteSpace) .removed)
  match e with
  | some e => pure (pts, some e)
  | none => pts.split (splitByPattern (fromFunc u.isPunct) .isolated)

/-- `RuneDelimiterPreTokenizer.PreTokenize`
(pretokenizers/runedelimiterpretokenizer/runedelimiterpretokenizer.go:29-40). -/
def runeDelimiter (delimiter : Rune) : PreTokenizer := fun pts =>
  pts.split (splitByPattern (fromRune delimiter) .removed)

/-- `WhiteSpacePreTokenizer.PreTokenize`
(pretokenizers/whitespacepretokenizer/whitespacepretokenizer.go:39-50). -/
def whiteSpacePreTokenize (findAll2 : List Rune → Except Err (List (Nat × Nat))) : PreTokenizer :=
  fun pts => pts.split (splitByPattern (invert (fromRegexp2 findAll2)) .removed)

/-- The `SplitFunc` of `MetaSpacePreTokenizer.PreTokenize`
(pretokenizers/metaspacepretokenizer/metaspacepretokenizer.go:60-73). -/
def metaSpaceSplitFunc (replacement : Rune) (prefixSpaceEnabled : Bool) : SplitFunc := fun _ ns => do
  let strReplacement := encodeRune replacement
  let ns ←
    if prefixSpaceEnabled ∧ !strReplacement.isPrefixOf ns.get then ns.prepend strReplacement
    else pure ns
  match ← ns.replace (fromRune 32) strReplacement with
  | .error e => pure (ns, .error e)
  | .ok ns =>
    match ← ns.split (fromRune replacement) .mergedWithNext with
    | .error e => pure (ns, .error e)
    | .ok nss => pure (ns, .ok (splitsFromNormalizedStrings nss))

/-- `MetaSpacePreTokenizer.PreTokenize` (metaspacepretokenizer.go:57-75). -/
def metaSpace (replacement : Rune) (prefixSpaceEnabled : Bool) : PreTokenizer := fun pts =>
  pts.split (metaSpaceSplitFunc replacement prefixSpaceEnabled)

/-- The test in the `init` loop (pretokenizers/bytelevelpretokenizer/bytelevelpretokenizer.go:121). -/
def keepsByte (i : Nat) : Bool :=
  (33 ≤ i && i ≤ 126) || (0xA1 ≤ i && i ≤ 0xAC) || (0xAE ≤ i && i ≤ 0xFF)

/-- Loop of `init` (bytelevelpretokenizer.go:120-127): the table entries from index
`i` on, `k` of them, with counter `n`. -/
def byteTableLoop : Nat → Nat → Nat → List Rune
  | 0, _, _ => []
  | k + 1, i, n =>
    if keepsByte i then (i : Int) :: byteTableLoop k (i + 1) n
    else ((0x100 + n : Nat) : Int) :: byteTableLoop k (i + 1) (n + 1)

/-- `byteToRune` (bytelevelpretokenizer.go:116-128). -/
def byteTable : List Rune := byteTableLoop 256 0 0

/-- `byteToRune[b]`. -/
def byteToRune (b : UInt8) : Rune := byteTable.getD b.toNat 0

/-- `startsWithWhitespace` (bytelevelpretokenizer.go:112-114). -/
def startsWithWhitespace (s : Str) : Bool :=
  match runesOf s with
  | [] => false
  | r :: _ => isWhiteSpace r

/-- The changes for the bytes of one rune (bytelevelpretokenizer.go:96-105). -/
def byteChanges (bytes : Str) : List RuneChange :=
  bytes.mapIdx fun byteIndex byteVal => ⟨byteToRune byteVal, if byteIndex > 0 then 1 else 0⟩

/-- Loop of the byte-level `Normalize` (bytelevelpretokenizer.go:91-106). -/
def byteLevelLoop (s : Str) : List Rune → Int → GoM (List RuneChange)
  | [], _ => .ok []
  | r :: rs, i => do
    let size : Int := (encodeRune r).length
    let bytes ← goSlice s i (i + size)
    let rest ← byteLevelLoop s rs (i + size)
    pure (byteChanges bytes ++ rest)

/-- The normalization function of `PreTokenize` (bytelevelpretokenizer.go:87-109). -/
def byteLevelNormalize : NormalizeFunc := fun ns => do
  let changes ← byteLevelLoop ns.get (runesOf ns.get) 0
  let ns ← ns.transform changes 0
  pure (ns, none)

/-- The `SplitFunc` of `PreTokenize` (bytelevelpretokenizer.go:72-81). -/
def byteLevelSplitFunc (findAll2 : List Rune → Except Err (List (Nat × Nat)))
    (prefixSpaceEnabled : Bool) : SplitFunc := fun _ ns => do
  let ns ←
    if prefixSpaceEnabled ∧ !startsWithWhitespace ns.get then ns.prepend [32] else pure ns
  match ← ns.split (fromRegexp2 findAll2) .isolated with
  | .error e => pure (ns, .error e)
  | .ok nss => pure (ns, .ok (splitsFromNormalizedStrings nss))

/-- `ByteLevelPreTokenizer.PreTokenize` (bytelevelpretokenizer.go:67-110). -/
def byteLevel (findAll2 : List Rune → Except Err (List (Nat × Nat)))
    (prefixSpaceEnabled : Bool) : PreTokenizer := fun pts => do
  let (pts, e) ← pts.split (byteLevelSplitFunc findAll2 prefixSpaceEnabled)
  match e with
  | some e => pure (pts, some e)
  | none => pts.normalize byteLevelNormalize

end Verif
