import Verif.Model.PreTokenizedString

namespace Verif

/-- The parts of Go's `unicode` package that are not spelled out in the model:
`unicode.Other`, `unicode.Mn`, `unicode.Punct`, `unicode.ToLower`. -/
structure Uni where
  isOther : Rune → Bool
  isMn : Rune → Bool
  isPunct : Rune → Bool
  toLower : Rune → Rune

/-- `BertNormalizer` (normalizers/bertnormalizer/bertnormalizer.go:15-26). -/
structure BertCfg where
  textCleaning : Bool
  chineseCharsHandling : Bool
  accentsStripping : Bool
  lowerCaseEnabled : Bool
deriving DecidableEq, Repr

/-- `isControlCharacter` (bertnormalizer.go:80-89). -/
def isControlCharacter (u : Uni) (r : Rune) : Bool :=
  if r = 9 ∨ r = 10 ∨ r = 13 then false else u.isOther r

/-- `isWhitespace` (bertnormalizer.go:92-98). -/
def bertIsWhitespace (r : Rune) : Bool :=
  if r = 9 ∨ r = 10 ∨ r = 13 then true else isWhiteSpace r

/-- `chineseCharacters` (bertnormalizer.go:111-124). -/
def isChinese (r : Rune) : Bool :=
  (0x3400 ≤ r && r ≤ 0x4dbf) || (0x4e00 ≤ r && r ≤ 0x9fff) || (0xf900 ≤ r && r ≤ 0xfaff)
    || (0x20000 ≤ r && r ≤ 0x2a6df) || (0x2a700 ≤ r && r ≤ 0x2b73f)
    || (0x2b740 ≤ r && r ≤ 0x2b81f) || (0x2b920 ≤ r && r ≤ 0x2ceaf)
    || (0x2f800 ≤ r && r ≤ 0x2fa1f)

/-- The predicate passed to `Filter` by `cleanText` (bertnormalizer.go:68-70). -/
def cleanKeep (u : Uni) (r : Rune) : Bool :=
  !(r == 0 || r == runeError || isControlCharacter u r)

/-- The function passed to `Map` by `cleanText` (bertnormalizer.go:71-76). -/
def cleanMap (r : Rune) : Rune := if bertIsWhitespace r then 32 else r

/-- `cleanText` (bertnormalizer.go:67-77). -/
def cleanText (u : Uni) (ns : NS) : GoM NS := do
  let ns ← ns.filter (cleanKeep u)
  ns.map cleanMap

/-- The changes built by `handleChineseChars` for one rune (bertnormalizer.go:131-140). -/
def chineseChange (r : Rune) : List RuneChange :=
  if isChinese r then [⟨32, 0⟩, ⟨r, 1⟩, ⟨32, 1⟩] else [⟨r, 0⟩]

/-- `handleChineseChars` (bertnormalizer.go:128-143). -/
def handleChineseChars (ns : NS) : GoM NS :=
  ns.transform ((runesOf ns.normalized).flatMap chineseChange) 0

/-- `stripAccents` (bertnormalizer.go:147-152). -/
def stripAccents (u : Uni) (ns : NS) : GoM NS := ns.filter fun r => !u.isMn r

/-- `BertNormalizer.Normalize` (bertnormalizer.go:49-63). -/
def bertNormalize (u : Uni) (c : BertCfg) (ns : NS) : GoM (NS × Option Err) := do
  let ns ← if c.textCleaning then cleanText u ns else pure ns
  let ns ← if c.chineseCharsHandling then handleChineseChars ns else pure ns
  let ns ← if c.accentsStripping then stripAccents u ns else pure ns
  let ns ← if c.lowerCaseEnabled then ns.toLower u.toLower else pure ns
  pure (ns, none)

/-- `LowerCaseNormalizer.Normalize` (normalizers/lowercasenormalizer/lowercasenormalizer.go:24-27). -/
def lowerCaseNormalize (u : Uni) (ns : NS) : GoM (NS × Option Err) := do
  let ns ← ns.toLower u.toLower
  pure (ns, none)

/-- `StripNormalizer.Normalize` (normalizers/stripnormalizer/stripnormalizer.go:25-28). -/
def stripNormalize (left right : Bool) (ns : NS) : GoM (NS × Option Err) := do
  let ns ← ns.trimLeftRight left right
  pure (ns, none)

/-- `SequenceNormalizer.Normalize` (normalizers/sequencenormalizer/sequencenormalizer.go:29-37). -/
def sequenceNormalize : List NormalizeFunc → NormalizeFunc
  | [], ns => .ok (ns, none)
  | n :: rest, ns => do
    let (ns', e) ← n ns
    match e with
    | some e => pure (ns', some e)
    | none => sequenceNormalize rest ns'

end Verif
