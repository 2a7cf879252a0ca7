import Verif.Model.Go
import Verif.Model.Utf8
import Verif.Model.StrUtils
import Verif.Model.SplitPattern
import Verif.Model.NormalizedString
import Verif.Model.Vocabulary
import Verif.Model.MergeMap
import Verif.Model.Heap
import Verif.Model.Word
import Verif.Model.Bpe
import Verif.Model.WordPiece
import Verif.Model.Encoding
import Verif.Model.PreTokenizedString
import Verif.Model.Normalizers
import Verif.Model.PreTokenizers
import Verif.Tests.NormalizedString
import Verif.Model.Regexp
import Verif.Tests.Others
import Verif.Tests.Regexp
import Verif.Tests.Rest
import Verif.Props.FromString
import Verif.Props.History
import Verif.Props.Ranges
import Verif.Props.Transform
import Verif.Props.Convert
import Verif.Props.StrUtils
import Verif.Props.Slice
import Verif.Props.Replace
import Verif.Props.Split
import Verif.Props.Patterns
import Verif.Props.PreTokenized
import Verif.Props.PreTokenizers
import Verif.Props.Provenance
import Verif.Props.MetaSpace
import Verif.Props.ByteLevel
import Verif.Props.Whole
import Verif.Props.Bert
import Verif.Props.Vocab
import Verif.Props.MergeFile
import Verif.Props.WordPiece
import Verif.Props.Heap
import Verif.Props.MergeAll
import Verif.Props.Canonical
import Verif.Props.Bpe
import Verif.Props.BpeValues
import Verif.Props.Pointers
import Verif.Props.Machine
import Verif.Props.Misread
import Verif.Props.Tokenize
import Verif.Props.WhiteSpace
import Verif.Spec.Gpt
import Verif.Props.ByteLevelPre
import Verif.Props.Gpt
import Verif.Props.Dropout
import Verif.Spec.Pipeline
import Verif.Props.Pipeline
import Verif.Props.Offsets
import Verif.Spec.ByteRows
import Verif.Props.GptPipeline
import Verif.Spec.Pieces
import Verif.Lemmas.CharPieces
import Verif.Props.AnyState
import Verif.Spec.CharRows
import Verif.Props.CharPipeline
import Verif.Props.BertPipeline
import Verif.Props.Exact
import Verif.Props.WordPieceExact
import Verif.Props.WordPieceBytes
import Verif.Props.WordPieceKnown
import Verif.Model.Defaults
import Verif.Props.Defaults
import Verif.Model.Literal
import Verif.Props.Literal
import Verif.Props.Tables
import Verif.Props.ConvertExact
import Verif.Props.Unique
import Verif.Spec.Steps
import Verif.Props.Steps
import Verif.Props.Laws
import Verif.Spec.Meta
import Verif.Props.MetaPipeline
import Verif.Spec.Bytes
import Verif.Lemmas.Bytes
import Verif.Props.Bytes
import Verif.Props.BytesRegexp
import Verif.Model.Memory
import Verif.Spec.Memory
import Verif.Lemmas.Memory
import Verif.Props.Memory
import Verif.Model.MachineRest
import Verif.Props.MachineRest
import Verif.Spec.Work
import Verif.Props.Work
import Verif.Model.Json
import Verif.Spec.Json
import Verif.Lemmas.Json
import Verif.Props.Json
import Verif.Spec.Reference
import Verif.Props.Reference
import Verif.Props.GptFiles
import Verif.Spec.BertReference
import Verif.Props.BertFiles
import Verif.Model.WordMemory
import Verif.Spec.WordMemory
import Verif.Lemmas.WordMemory
import Verif.Props.WordMemory
import Verif.Spec.Join
import Verif.Props.Join
import Verif.Props.JoinChars
import Verif.Props.JoinMeta
import Verif.Model.MachinePipeline
import Verif.Props.MachinePipeline
import Verif.Model.LiteralEngine
import Verif.Props.LiteralEngine
import Verif.Model.PatternMemory
import Verif.Props.PatternMemory
import Verif.Model.Recover
import Verif.Props.Recover
import Verif.Props.RecoverSplits
import Verif.Model.UnicodeTables
import Verif.Model.Unicode
import Verif.Props.Unicode
import Verif.Model.SplitMemory
import Verif.Spec.SplitMemory
import Verif.Lemmas.SplitMemory
import Verif.Props.SplitMemory
import Verif.Model.Dropout
import Verif.Props.DropoutValue
import Verif.Model.FileIO
import Verif.Props.FileIO
import Verif.Props.BertDecode
import Verif.Model.Concurrent
import Verif.Props.Concurrent
import Verif.Props.Rename
import Verif.Props.Commute
import Verif.Props.BertAgain
import Verif.Props.MetaFiles
import Verif.Props.MergeCut
import Verif.Props.WordPieceParts
import Verif.Props.NormalizerOrder
import Verif.Props.AnyPipeline
import Verif.Props.Adjoint
import Verif.Props.TermTokens
import Verif.Props.AnyRange
import Verif.Props.NilTables
import Verif.Props.OriginalAlign
import Verif.Props.MoreTerms
import Verif.Props.UsedRules
import Verif.Props.Counts
import Verif.Props.MapSplit
import Verif.Props.SameWords
import Verif.Props.ChineseWords
import Verif.Props.SamePlace
import Verif.Props.DeleteSplit
import Verif.Props.BertSplit
import Verif.Props.AnyBytes
import Verif.Props.ByteLevelBytes
import Verif.Props.NormalizeBytes
import Verif.Props.JoinBytes
import Verif.Model.EncodingMemory
import Verif.Props.EncodingMemory
import Verif.Props.AppendBytes
import Verif.Props.ReplaceBytes
import Verif.Props.SplitBytes
import Verif.Props.MetaBytes
import Verif.Props.BertBytes
import Verif.Props.EncodeBytes
import Verif.Props.OffsetBytes
import Verif.Props.OffsetOrder
import Verif.Props.HistoryBytes
import Verif.Props.RangesAnyState
import Verif.Props.TransformAnyState
import Verif.Props.SplitAnyState
import Verif.Props.FilterAnyState
import Verif.Props.ReplaceAnyState
import Verif.Props.MapAnyState
import Verif.Model.Closures
import Verif.Props.Closures
import Verif.Props.NormalizersAnyState
import Verif.Props.OriginalAlignAnyState
import Verif.Props.ByteLevelAnyState
import Verif.Model.ClosuresPTS
import Verif.Props.ClosuresPTS
import Verif.Props.ModelMemory
import Verif.Props.ClosureBytes
import Verif.Props.PrependAnyState
import Verif.Props.PatternC
import Verif.Props.ReplaceShort
import Verif.Props.MetaAnyState
import Verif.Props.ReplaceGone
import Verif.Props.AppendTwice
import Verif.Props.PrependAppend
import Verif.Props.ReplaceSwap
import Verif.Props.TrimAgain
