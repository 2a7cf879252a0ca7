import Verif.Model.Bpe
import Verif.Model.WordPiece
import Verif.Model.Normalizers
import Verif.Model.PreTokenizers
import Verif.Model.Notation

/-! The constructors with default settings, and the three short forms of `TrimLeftRight`. -/

set_option autoImplicit false

namespace Verif

/-- `bpemodel.NewDefault` (models/bpemodel/bpemodel.go:72-83); `NewMergeMap` (mergemap.go:31-35) is empty,
`NewDefaultCache` (wordcache.go:24-26) has the capacity of line 8. -/
def BPE.newDefault : BPE :=
  { vocab := Vocab.new, merges := [], cache := ⟨10000⟩, hasDropout := false, unknownToken := [],
    continuingSubwordPrefix := [], endOfWordSuffix := [], unknownFusionEnabled := false }

/-- `wordpiecemodel.NewDefault` (models/wordpiecemodel/wordpiecemodel.go:46-53). -/
def WordPiece.newDefault : WordPiece :=
  { vocab := Vocab.new, unknownToken := b!"[UNK]", continuingSubwordPrefix := b!"##", maxInputCharsPerWord := 100 }

/-- `DefaultBertNormalizer` (normalizers/bertnormalizer/bertnormalizer.go:44-46). -/
def BertCfg.default : BertCfg :=
  { textCleaning := true, chineseCharsHandling := true, accentsStripping := true, lowerCaseEnabled := true }

/-- `MetaSpacePreTokenizer` as `NewDefault` makes it
(pretokenizers/metaspacepretokenizer/metaspacepretokenizer.go:33, 47-49). -/
def metaSpaceDefault : PreTokenizer := metaSpace 0x2581 true

namespace NS

/-- `Trim` (normalizedstring/normalizedstring.go:768-770). -/
def trim (ns : NS) : GoM NS := ns.trimLeftRight true true

/-- `TrimLeft` (normalizedstring.go:773-775). -/
def trimLeft (ns : NS) : GoM NS := ns.trimLeftRight true false

/-- `TrimRight` (normalizedstring.go:778-780). -/
def trimRight (ns : NS) : GoM NS := ns.trimLeftRight false true

end NS
end Verif
