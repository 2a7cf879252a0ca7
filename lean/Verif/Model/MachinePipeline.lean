import Verif.Model.MachineRest
import Verif.Model.PreTokenizers

/-!
The normalizers and pre-tokenizers with the integers of a machine (see `Model/Machine.lean`), and the functions that
a caller gives to `Tokenize`: the definitions of `Model/Normalizers.lean` and `Model/PreTokenizers.lean` on top of
`Model/Machine.lean` and `Model/MachineRest.lean`.  `Props/MachinePipeline.lean` shows when this makes no difference.
-/

set_option autoImplicit false

namespace Verif
namespace Machine

variable (m : Machine)

/-! ## Normalizers -/

/-- `cleanText` (normalizers/bertnormalizer/bertnormalizer.go:67-77). -/
def cleanText (u : Uni) (ns : NS) : GoM NS := do
  let ns ← m.filter ns (cleanKeep u)
  m.map ns cleanMap

/-- `handleChineseChars` (bertnormalizer.go:128-143). -/
def handleChineseChars (ns : NS) : GoM NS :=
  m.transform ns ((runesOf ns.normalized).flatMap chineseChange) 0

/-- `BertNormalizer.Normalize` (bertnormalizer.go:49-63). -/
def bertNormalize (u : Uni) (c : BertCfg) : NormalizeFunc := fun ns => do
  let ns ← if c.textCleaning then m.cleanText u ns else pure ns
  let ns ← if c.chineseCharsHandling then m.handleChineseChars ns else pure ns
  let ns ← if c.accentsStripping then m.filter ns (fun r => !u.isMn r) else pure ns
  let ns ← if c.lowerCaseEnabled then m.map ns u.toLower else pure ns
  pure (ns, none)

/-! ## Pre-tokenizers -/

/-- The `SplitFunc` shared by most pre-tokenizers (e.g. whitespacesplitpretokenizer.go:32-38). -/
def splitByPattern (pattern : SplitPattern) (b : Behavior) : SplitFunc := fun _ ns => do
  match ← m.split ns pattern b with
  | .error e => pure (ns, .error e)
  | .ok nss => pure (ns, .ok (splitsFromNormalizedStrings nss))

/-- `WhiteSpaceSplitPreTokenizer.PreTokenize` (whitespacesplitpretokenizer.go:27-40). -/
def whiteSpaceSplit : PreTokenizer := fun pts =>
  pts.split (m.splitByPattern (m.fromFunc isWhiteSpace) .removed)

/-- `BertPreTokenizer.PreTokenize` (bertpretokenizer.go:33-62). -/
def bertPreTokenize (u : Uni) : PreTokenizer := fun pts => do
  let (pts, e) ← pts.split (m.splitByPattern (m.fromFunc isWhiteSpace) .removed)
  match e with
  | some e => pure (pts, some e)
  | none => pts.split (m.splitByPattern (m.fromFunc u.isPunct) .isolated)

/-- `RuneDelimiterPreTokenizer.PreTokenize` (runedelimiterpretokenizer.go:29-40). -/
def runeDelimiter (delimiter : Rune) : PreTokenizer := fun pts =>
  pts.split (m.splitByPattern (m.fromFunc fun other => other == delimiter) .removed)

/-- `WhiteSpacePreTokenizer.PreTokenize` (whitespacepretokenizer.go:39-50). -/
def whiteSpacePreTokenize (findAll2 : List Rune → Except Err (List (Nat × Nat))) : PreTokenizer :=
  fun pts => pts.split (m.splitByPattern (m.invert (m.fromRegexp2 findAll2)) .removed)

/-- The `SplitFunc` of `MetaSpacePreTokenizer.PreTokenize` (metaspacepretokenizer.go:60-73). -/
def metaSpaceSplitFunc (replacement : Rune) (prefixSpaceEnabled : Bool) : SplitFunc := fun _ ns => do
  let strReplacement := encodeRune replacement
  let ns ←
    if prefixSpaceEnabled ∧ !strReplacement.isPrefixOf ns.get then m.prepend ns strReplacement
    else pure ns
  match ← m.replace ns (m.fromFunc fun other => other == 32) strReplacement with
  | .error e => pure (ns, .error e)
  | .ok ns =>
    match ← m.split ns (m.fromFunc fun other => other == replacement) .mergedWithNext with
    | .error e => pure (ns, .error e)
    | .ok nss => pure (ns, .ok (splitsFromNormalizedStrings nss))

/-- `MetaSpacePreTokenizer.PreTokenize` (metaspacepretokenizer.go:57-75). -/
def metaSpace (replacement : Rune) (prefixSpaceEnabled : Bool) : PreTokenizer := fun pts =>
  pts.split (m.metaSpaceSplitFunc replacement prefixSpaceEnabled)

/-- Loop of the byte-level `Normalize` (bytelevelpretokenizer.go:91-106); `out` is what was appended so far. -/
def byteLevelLoop (s : Str) : List Rune → Int → List RuneChange → GoM (List RuneChange)
  | [], _, out => .ok out
  | r :: rs, i, out => do
    let size : Int := (encodeRune r).length
    let bytes ← goSlice s i (m.wrap (i + size))
    byteLevelLoop s rs (m.wrap (i + size)) (out ++ byteChanges bytes)

/-- The normalization function of `PreTokenize` (bytelevelpretokenizer.go:87-109). -/
def byteLevelNormalize : NormalizeFunc := fun ns => do
  let changes ← m.byteLevelLoop ns.get (runesOf ns.get) 0 []
  let ns ← m.transform ns changes 0
  pure (ns, none)

/-- The `SplitFunc` of `PreTokenize` (bytelevelpretokenizer.go:72-81). -/
def byteLevelSplitFunc (findAll2 : List Rune → Except Err (List (Nat × Nat)))
    (prefixSpaceEnabled : Bool) : SplitFunc := fun _ ns => do
  let ns ←
    if prefixSpaceEnabled ∧ !startsWithWhitespace ns.get then m.prepend ns [32] else pure ns
  match ← m.split ns (m.fromRegexp2 findAll2) .isolated with
  | .error e => pure (ns, .error e)
  | .ok nss => pure (ns, .ok (splitsFromNormalizedStrings nss))

/-- `ByteLevelPreTokenizer.PreTokenize` (bytelevelpretokenizer.go:67-110). -/
def byteLevel (findAll2 : List Rune → Except Err (List (Nat × Nat)))
    (prefixSpaceEnabled : Bool) : PreTokenizer := fun pts => do
  let (pts, e) ← pts.split (m.byteLevelSplitFunc findAll2 prefixSpaceEnabled)
  match e with
  | some e => pure (pts, some e)
  | none => pts.normalize m.byteLevelNormalize

/-! ## The functions given to `Tokenize` -/

/-- Run a BPE model on the text of a split, with enough fuel for its loops (`Props/MergeAll.lean`, `C38_bound`). -/
def bpeNS (b : BPE) (rnd : NS → Nat → Bool) (ns : NS) : GoM (Except Err (List Token)) := do
  match ← m.bpeTokenize (Word.mergeFuel ns.get.length) b (rnd ns) ns.get with
  | .error e => pure (.error e)
  | .ok none => .panic
  | .ok (some ts) => pure (.ok ts)

/-- Run a WordPiece model on the text of a split. -/
def pieceNS (wp : WordPiece) (ns : NS) : GoM (Except Err (List Token)) := do
  match ← m.pieceTokenize wp ns.get with
  | none => .panic
  | some r => pure r

/-- `PreTokenizedString.FromString` (pretokenizedstring.go:27-29). -/
def ptsFromString (s : Str) : PTS := PTS.fromNormalizedString (m.fromString s)

end Machine
end Verif
