import Verif.Model.NormalizedString
import Verif.Model.Bpe
import Verif.Model.Encoding

namespace Verif

/-- `pretokenizedstring.Split` (pretokenizedstring/split.go:18-26); `tokens = none` is
the nil pointer.  (Named `Piece` here.)  The `NormalizedString` pointer is
modelled by value; `Props/Pointers.lean` proves that this is exact as long as no two splits
share it. -/
structure Piece where
  ns : NS
  tokens : Option (List Token)
deriving DecidableEq, Repr

/-- `PreTokenizedString` (pretokenizedstring/pretokenizedstring.go:22-25). -/
structure PTS where
  original : Str
  splits : List Piece
deriving DecidableEq, Repr

/-- `OriginalByteSplit` and `NormalizedByteSplit` (pretokenizedstring/split.go:28-44). -/
structure ByteSplit where
  string : Str
  offsets : ByteOffsets
  tokens : Option (List Token)
deriving DecidableEq, Repr

/-- `SplitFunc` (pretokenizedstring.go:55-58): it may modify the string it is given,
so the (possibly modified) string is part of the outcome. -/
abbrev SplitFunc := Nat → NS → GoM (NS × Except Err (List Piece))

/-- A normalization function (normalizers/normalizers.go:11-13): the modified string
and the returned error, if any. -/
abbrev NormalizeFunc := NS → GoM (NS × Option Err)

/-- `SplitsFromNormalizedStrings` (pretokenizedstring/split.go:48-54). -/
def splitsFromNormalizedStrings (nss : List NS) : List Piece := nss.map fun ns => ⟨ns, none⟩

namespace PTS

/-- `FromNormalizedString` (pretokenizedstring.go:31-41). -/
def fromNormalizedString (ns : NS) : PTS := ⟨ns.getOriginal, [⟨ns, none⟩]⟩

/-- `FromString` (pretokenizedstring.go:27-29). -/
def fromString (s : Str) : PTS := fromNormalizedString (NS.fromString s)

/-- Loop of `Split` (pretokenizedstring.go:67-84), from index `index` on.  Returns
the old splits as modified by `splitFunc`, and the new splits or the error. -/
def splitLoop (splitFunc : SplitFunc) : Nat → List Piece → GoM (List Piece × Except Err (List Piece))
  | _, [] => .ok ([], .ok [])
  | index, p :: ps =>
    match p.tokens with
    | some _ => do
      let (old, new) ← splitLoop splitFunc (index + 1) ps
      match new with
      | .error e => pure (p :: old, .error e)
      | .ok new => pure (p :: old, .ok (p :: new))
    | none => do
      let (ns', r) ← splitFunc index p.ns
      match r with
      | .error e => pure ({ p with ns := ns' } :: ps, .error e)
      | .ok items =>
        let (old, new) ← splitLoop splitFunc (index + 1) ps
        match new with
        | .error e => pure ({ p with ns := ns' } :: old, .error e)
        | .ok new => pure ({ p with ns := ns' } :: old, .ok (items.filter (fun it => !it.ns.isEmpty) ++ new))

/-- `Split` (pretokenizedstring.go:63-88): the resulting state and the error. -/
def split (p : PTS) (splitFunc : SplitFunc) : GoM (PTS × Option Err) := do
  let (old, new) ← splitLoop splitFunc 0 p.splits
  match new with
  | .error e => pure ({ p with splits := old }, some e)
  | .ok new => pure ({ p with splits := new }, none)

/-- Loop of `Normalize` (pretokenizedstring.go:95-103). -/
def normalizeLoop (normalize : NormalizeFunc) : List Piece → GoM (List Piece × Option Err)
  | [] => .ok ([], none)
  | p :: ps =>
    match p.tokens with
    | some _ => do
      let (ps', e) ← normalizeLoop normalize ps
      pure (p :: ps', e)
    | none => do
      let (ns', e) ← normalize p.ns
      match e with
      | some e => pure ({ p with ns := ns' } :: ps, some e)
      | none =>
        let (ps', e) ← normalizeLoop normalize ps
        pure ({ p with ns := ns' } :: ps', e)

/-- `Normalize` (pretokenizedstring.go:92-105). -/
def normalize (p : PTS) (normalize : NormalizeFunc) : GoM (PTS × Option Err) := do
  let (splits, e) ← normalizeLoop normalize p.splits
  pure ({ p with splits := splits }, e)

/-- Loop of `Tokenize` (pretokenizedstring.go:112-121).  The tokenization function is
assumed not to modify the string. -/
def tokenizeLoop (tokenize : NS → GoM (Except Err (List Token))) :
    List Piece → GoM (List Piece × Option Err)
  | [] => .ok ([], none)
  | p :: ps =>
    match p.tokens with
    | some _ => do
      let (ps', e) ← tokenizeLoop tokenize ps
      pure (p :: ps', e)
    | none => do
      match ← tokenize p.ns with
      | .error e => pure (p :: ps, some e)
      | .ok ts =>
        let (ps', e) ← tokenizeLoop tokenize ps
        pure ({ p with tokens := some ts } :: ps', e)

/-- `Tokenize` (pretokenizedstring.go:109-123). -/
def tokenize (p : PTS) (tokenize : NS → GoM (Except Err (List Token))) : GoM (PTS × Option Err) := do
  let (splits, e) ← tokenizeLoop tokenize p.splits
  pure ({ p with splits := splits }, e)

/-- The function a caller gives to `Tokenize` to run a BPE model on the text of each split.  The
draws of the random source may differ from split to split.  (`ok none`, no result within the
model's fuel, never happens: `BPE.C44_outcomes`.) -/
def _root_.Verif.BPE.tokenizeNS (m : BPE) (rnd : NS → Nat → Bool) (ns : NS) : GoM (Except Err (List Token)) := do
  match ← m.tokenize (rnd ns) ns.get with
  | .error e => pure (.error e)
  | .ok none => .panic
  | .ok (some ts) => pure (.ok ts)

/-- `GetOriginalByteSplits` (pretokenizedstring.go:126-136). -/
def getOriginalByteSplits (p : PTS) : List ByteSplit :=
  p.splits.map fun sp => ⟨sp.ns.get, sp.ns.originalOffsets, sp.tokens⟩

/-- Loop of `GetNormalizedByteSplits` (pretokenizedstring.go:142-154). -/
def normalizedByteSplitsLoop : List Piece → Int → List ByteSplit
  | [], _ => []
  | sp :: sps, offset =>
    ⟨sp.ns.get, ⟨offset, offset + sp.ns.len⟩, sp.tokens⟩
      :: normalizedByteSplitsLoop sps (offset + sp.ns.len)

/-- `GetNormalizedByteSplits` (pretokenizedstring.go:139-156). -/
def getNormalizedByteSplits (p : PTS) : List ByteSplit := normalizedByteSplitsLoop p.splits 0

/-- `allSplitsHaveTokens` (pretokenizedstring.go:217-224). -/
def allSplitsHaveTokens (p : PTS) : Bool := p.splits.all fun sp => sp.tokens.isSome

/-- The offsets computed for one token (pretokenizedstring.go:191-202). -/
def tokenOffsets (ns : NS) (t : Token) : GoM ByteOffsets := do
  match ← ns.coerceRangeToOriginal (.normalized t.offsets.start t.offsets.stop) with
  | some (a, b) => pure ⟨ns.originalOffsets.start + a, ns.originalOffsets.start + b⟩
  | none => pure t.offsets

/-- Inner loop of `IntoEncoding` (pretokenizedstring.go:190-211). -/
def encodeTokens (ns : NS) (wordIndex typeID : Int) : List Token → GoM (List EncodableToken)
  | [] => .ok []
  | t :: ts => do
    let o ← tokenOffsets ns t
    let rest ← encodeTokens ns wordIndex typeID ts
    pure (⟨t.id, t.value, o, wordIndex, typeID⟩ :: rest)

/-- Outer loop of `IntoEncoding` (pretokenizedstring.go:182-212). -/
def encodeSplits (wordIndex typeID : Int) : Nat → List Piece → GoM (List EncodableToken)
  | _, [] => .ok []
  | splitIndex, sp :: sps => do
    let actual := if wordIndex < 0 then (splitIndex : Int) else wordIndex
    let here ← encodeTokens sp.ns actual typeID (sp.tokens.getD [])
    let rest ← encodeSplits wordIndex typeID (splitIndex + 1) sps
    pure (here ++ rest)

/-- `IntoEncoding` (pretokenizedstring.go:172-215). -/
def intoEncoding (p : PTS) (wordIndex typeID : Int) : GoM (Except Err Encoding) :=
  if p.splits.length = 0 then .ok (.ok Encoding.default)
  else if !p.allSplitsHaveTokens then .ok (.error .notTokenized)
  else do
    let seq ← encodeSplits wordIndex typeID 0 p.splits
    pure (.ok (Encoding.fromEncodableTokens seq))

end PTS
end Verif
