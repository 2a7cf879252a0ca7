{"id": "C01", "title": "FromString starts as an exact, fully aligned copy", "statement": "For every valid UTF-8 string s, normalizedstring.FromString(s) has Get() == GetOriginal() == s, OriginalOffsets() == (0, len(s)), and for every two rune boundaries a < b of s, GetOriginalRange(NewNormalizedRange(a,b)) and GetRange(NewOriginalRange(a,b)) both succeed and return s[a:b]. In every state, Len() of a range is the number of bytes it selects in the text it is relative to.", "quantifier": "all valid UTF-8 strings, all pairs of rune boundaries", "why_tests_cant": "Strings are unbounded and mix 1-4 byte runes; a test fixes a handful of strings and ranges.", "anchors": ["normalizedstring/normalizedstring.go:FromString", "normalizedstring/normalizedstring.go:alignmentsFromString", "normalizedstring/normalizedstring.go:GetOriginalRange", "normalizedstring/normalizedstring.go:GetRange"]}
{"id": "C02", "title": "One ordered, in-bounds alignment per normalized byte, after any history", "statement": "Start from FromString of any valid UTF-8 string and apply any sequence of Transform, Filter, Map, ToLower, ToUpper, Trim*, Prepend, Append, Replace and Slice calls (any arguments), and of TransformRange calls that replace runes within their range (for example when the text of the range behind the initial offset is valid UTF-8). If no call panics then, in the final state, there is exactly one alignment per normalized byte, consecutive alignments are equal or ordered and disjoint, and every alignment lies inside [0, OriginalLen()]; hence every in-range non-empty NormalizedRange converts to an OriginalRange lying inside the original string.", "quantifier": "all valid UTF-8 inputs, all finite operation histories with arbitrary arguments", "why_tests_cant": "The invariant must survive every order of operations; tests exercise single operations on short strings.", "anchors": ["normalizedstring/normalizedstring.go:TransformRange", "normalizedstring/normalizedstring.go:Slice", "normalizedstring/normalizedstring.go:Replace", "normalizedstring/normalizedstring.go:CoerceRangeToOriginal"]}
{"id": "C03", "title": "Provenance: slices always point back at the root text", "statement": "After any history of operations starting from FromString(root), including slices of slices, GetOriginal() equals root[OriginalOffsets().Start : OriginalOffsets().End]; operations other than Slice never change GetOriginal() or OriginalOffsets().", "quantifier": "all root strings, all finite operation histories", "why_tests_cant": "originalShift accumulates through nested slices; only an induction covers every nesting.", "anchors": ["normalizedstring/normalizedstring.go:Slice", "normalizedstring/normalizedstring.go:OriginalOffsets", "normalizedstring/normalizedstring.go:GetOriginal"]}
{"id": "C04", "title": "TransformRange does exactly what its rune-change list says", "statement": "On a valid UTF-8 state, for a range on rune boundaries, an initialOffset on a rune boundary of the range and a change list that does not consume more runes than the range holds, TransformRange does not panic; the new normalized text is prefix + the listed runes + suffix; a rune with Change <= 0 inherits the alignment of the rune it replaces, a rune with Change = 1 inherits the alignment of the last consumed (or preceding) rune, -N drops the N following runes, and text and alignments outside the range are unchanged.", "quantifier": "all valid states, ranges, change lists and initial offsets", "why_tests_cant": "Change lists are unbounded sequences over an infinite alphabet; alignment errors only show for particular interleavings of byte widths.", "anchors": ["normalizedstring/normalizedstring.go:TransformRange", "normalizedstring/normalizedstring.go:Transform", "normalizedstring/normalizedstring.go:RuneChange"]}
{"id": "C05", "title": "Map replaces rune by rune and keeps every alignment", "statement": "On every valid state and for every mapping function, Map (hence ToLower/ToUpper) does not panic, the new text is the rune-wise image of the old one (invalid results become U+FFFD), the number of runes is unchanged and each rune keeps the alignment of the rune it came from.", "quantifier": "all valid states and all functions from runes to runes", "why_tests_cant": "The byte width of each rune can change arbitrarily (e.g. 1 to 3 bytes), shifting all later offsets.", "anchors": ["normalizedstring/normalizedstring.go:Map", "normalizedstring/normalizedstring.go:ToLower", "normalizedstring/normalizedstring.go:ToUpper"]}
{"id": "C06", "title": "Filter keeps exactly the kept runes with their alignments", "statement": "On every valid state and for every predicate, Filter does not panic, the new text consists of exactly the runes satisfying the predicate, in order, each keeping its own alignment.", "quantifier": "all valid states and all predicates", "why_tests_cant": "Holds or fails depending on the byte widths of removed leading runes; unit tests only remove ASCII there.", "anchors": ["normalizedstring/normalizedstring.go:Filter"]}
{"id": "C07", "title": "Trim removes exactly the outer white space and keeps alignments", "statement": "On every valid state TrimLeftRight(left,right) does not panic; the new text is the old one without its maximal leading (if left) and trailing (if right) run of Unicode White_Space runes and every remaining rune keeps its alignment.", "quantifier": "all valid states, both flags", "why_tests_cant": "White space may be multi-byte (U+3000, U+00A0); tests only use ASCII spaces.", "anchors": ["normalizedstring/normalizedstring.go:TrimLeftRight", "normalizedstring/normalizedstring.go:countLeadingSpaces", "normalizedstring/normalizedstring.go:countTrailingSpaces"]}
{"id": "C08", "title": "Prepend adds text in front and keeps existing alignments", "statement": "On every valid non-empty state and for every valid s, Prepend(s) yields text s + old text, the added runes are aligned to the first rune and all existing runes keep their alignment; on an empty normalized string it does nothing.", "quantifier": "all valid states and strings s", "why_tests_cant": "Includes the empty prefix and multi-byte first runes.", "anchors": ["normalizedstring/normalizedstring.go:Prepend"]}
{"id": "C09", "title": "Append adds text at the end and keeps existing alignments", "statement": "On every valid non-empty state and for every valid s, Append(s) yields text old text + s, the added runes are aligned to the last rune and all existing runes keep their alignment; on an empty normalized string it does nothing.", "quantifier": "all valid states and strings s", "why_tests_cant": "The code mixes rune and byte indices, which agree on every ASCII test.", "anchors": ["normalizedstring/normalizedstring.go:Append"]}
{"id": "C10", "title": "Replace substitutes every match and nothing else", "statement": "For every pattern whose captures tile the text and every valid UTF-8 content, Replace does not panic; the new text is the concatenation, over captures, of content for matches and of the unchanged slice for the rest, and bytes of unmatched slices keep their alignment.", "quantifier": "all states with one alignment per byte, all tilings, all contents", "why_tests_cant": "The running offset must be right after any number of size-changing replacements.", "anchors": ["normalizedstring/normalizedstring.go:Replace"]}
{"id": "C11", "title": "Split loses nothing in the non-removing behaviours", "statement": "For every valid state and every pattern whose captures tile the text on rune boundaries, Split with Isolated, MergedWithPrevious, MergedWithNext or Contiguous succeeds and the Get() of the pieces, concatenated in order, is the Get() of the whole; with Removed it is the concatenation of the non-matching captures, one piece per non-matching capture.", "quantifier": "all valid states, all tilings, all five behaviours", "why_tests_cant": "Capture lists are arbitrary sequences; merge rules interact with neighbours.", "anchors": ["normalizedstring/normalizedstring.go:Split", "normalizedstring/normalizedstring.go:SplitDelimiterBehavior"]}
{"id": "C12", "title": "Split groups delimiters as documented", "statement": "MergedWithPrevious attaches each delimiter that follows a non-delimiter to that piece (and leaves other delimiters alone), MergedWithNext is its mirror image, Contiguous merges maximal runs of captures of the same kind, Isolated gives one piece per capture.", "quantifier": "all capture sequences", "why_tests_cant": "Documented with one example string only.", "anchors": ["normalizedstring/normalizedstring.go:Split"]}
{"id": "C13", "title": "Slice returns the sub-text with consistent alignments", "statement": "For every reachable state and every non-empty NormalizedRange on rune boundaries, Slice succeeds; Get() of the slice is the sub-text, its original is the original text covered by the range, and any range of the slice converts to the same absolute original offsets as the corresponding range of the parent.", "quantifier": "all reachable states and ranges", "why_tests_cant": "Needs re-basing of all alignments for every shift.", "anchors": ["normalizedstring/normalizedstring.go:Slice"]}
{"id": "C14", "title": "Out-of-range conversions report failure instead of crashing", "statement": "CoerceRangeToOriginal, CoerceRangeToNormalized, GetRange, GetOriginalRange and Slice return false, and do not panic, when the range targets something out of range.", "quantifier": "all states and all ranges", "why_tests_cant": "Needs every (start,end) pair in both referentials, including empty ranges past the end.", "anchors": ["normalizedstring/normalizedstring.go:CoerceRangeToOriginal", "normalizedstring/normalizedstring.go:CoerceRangeToNormalized", "normalizedstring/normalizedstring.go:GetRange", "normalizedstring/normalizedstring.go:GetOriginalRange", "normalizedstring/normalizedstring.go:Slice"]}
{"id": "C15", "title": "Original-to-normalized conversion selects exactly the aligned bytes", "statement": "On every reachable state, for a non-empty OriginalRange (a,b), a successful CoerceRangeToNormalized with non-empty result (s,e) contains exactly the normalized bytes between the first wide-aligned byte starting at or after a and the last byte whose alignment ends by b; all bytes of [s,e) have alignments inside [a,b], and every byte with a non-empty alignment inside [a,b] is in [s,e).", "quantifier": "all reachable states and original ranges", "why_tests_cant": "Depends on every arrangement of gaps, expansions and zero-width alignments.", "anchors": ["normalizedstring/normalizedstring.go:CoerceRangeToNormalized"]}
{"id": "C16", "title": "Normalized -> original -> normalized never loses bytes", "statement": "On every reachable state, converting an in-range non-empty NormalizedRange whose first byte has a non-empty alignment to the original and back gives a range that contains the initial one, and converting that again to the original gives the same OriginalRange.", "quantifier": "all reachable states and in-range ranges", "why_tests_cant": "A round-trip law over all alignments.", "anchors": ["normalizedstring/normalizedstring.go:CoerceRangeToNormalized", "normalizedstring/normalizedstring.go:CoerceRangeToOriginal"]}
{"id": "C17", "title": "OriginalAlignments is the exact inverse of the alignments", "statement": "On every reachable state with non-empty text OriginalAlignments() does not panic, has one entry per original byte, and the entry of original byte o is (number of normalized bytes aligned entirely before or at o, number of normalized bytes whose alignment starts at or before o), i.e. the contiguous block of normalized bytes aligned to the group containing o, or an empty range at the removal point. On alignments of any origin, also those given to New, it panics exactly when there are none or some alignment begins before the end of a different one just before it.", "quantifier": "all reachable states, all original bytes; for the panics all values", "why_tests_cant": "Needs every arrangement of groups, gaps and insertions.", "anchors": ["normalizedstring/normalizedstring.go:OriginalAlignments"]}
{"id": "C18", "title": "IsRuneBoundary is exactly the set of rune boundaries", "statement": "For every valid UTF-8 string s and every int i, strutils.IsRuneBoundary(s,i) is true iff 0 <= i <= len(s) and s[:i] is itself a whole number of encoded runes.", "quantifier": "all valid UTF-8 strings and all integers", "why_tests_cant": "Bit trick on signed bytes; must hold for every code point.", "anchors": ["strutils/strutils.go:IsRuneBoundary"]}
{"id": "C19", "title": "Byte offsets convert to rune offsets", "statement": "For every valid UTF-8 string and every pair of rune boundaries a < b, BytesToRuneOffsetConverter.Convert((a,b)) is (number of runes before a, number of runes before b); on the empty string every pair converts to (0,0).", "quantifier": "all valid strings and boundary pairs", "why_tests_cant": "Byte index and rune index coincide on ASCII tests.", "anchors": ["strutils/strutils.go:NewBytesToRuneOffsetConverter", "strutils/strutils.go:Convert"]}
{"id": "C20", "title": "Function and rune patterns tile the text and classify correctly", "statement": "For every valid UTF-8 s and predicate f, FromFunc(f).FindMatches(s) never fails, its captures are contiguous, ordered, non-empty (unless s is empty) and cover [0,len(s)) on rune boundaries; a match capture is exactly one rune satisfying f and a non-match capture contains no rune satisfying f, and two non-match captures are never adjacent.", "quantifier": "all valid strings and predicates", "why_tests_cant": "Coverage is a MUST of the SplitPattern interface for every string.", "anchors": ["splitpattern/func.go:FindMatches", "splitpattern/rune.go:FindMatches", "splitpattern/splitpattern.go:SplitPattern"]}
{"id": "C21", "title": "Regexp patterns tile the text", "statement": "For every non-empty string s and every engine that reports in-bounds, ordered, non-overlapping matches, FromRegexp(..).FindMatches(s) and (for valid UTF-8) FromRegexp2(..).FindMatches(s) return contiguous ordered captures covering [0,len(s)), whose match captures are exactly the engine's matches, converted from rune to byte positions for regexp2; an engine error is returned as the error. On the empty text there is one empty non-matching capture.", "quantifier": "all strings, all engines with ordered matches", "why_tests_cant": "Quantifies over all regular expressions.", "anchors": ["splitpattern/regexp.go:FindMatches", "splitpattern/regexp2.go:FindMatches"]}
{"id": "C22", "title": "String patterns tile the text", "statement": "For every valid UTF-8 pattern string and every valid UTF-8 s, FromString(p).FindMatches(s) covers [0,len(s)) with contiguous ordered captures; every match capture spells p; the empty pattern yields one non-matching capture covering all of s.", "quantifier": "all valid pattern strings and texts", "why_tests_cant": "Rune count and byte count agree on ASCII tests.", "anchors": ["splitpattern/string.go:FromString", "splitpattern/string.go:FindMatches"]}
{"id": "C23", "title": "Invert only flips the match flag", "statement": "For every pattern, Invert(p).FindMatches(s) has the same offsets in the same order with every IsMatch negated and fails with the same error; inverting twice gives back the original captures.", "quantifier": "all patterns and strings", "why_tests_cant": "Quantifies over all implementations of the interface.", "anchors": ["splitpattern/invertedpattern.go:FindMatches"]}
{"id": "C24", "title": "PreTokenizedString.Split replaces untokenized splits in order, drops empties, keeps tokenized ones, and is all-or-nothing", "statement": "For every splits list and SplitFunc: on success the new list is the old one where each split with tokens is unchanged and each split without tokens is replaced, in order, by the non-empty results of SplitFunc(index, ns); if SplitFunc fails on some split the call returns that error and the list of splits is not replaced.", "quantifier": "all split lists and split functions", "why_tests_cant": "Arbitrary callback and arbitrary failure point.", "anchors": ["pretokenizedstring/pretokenizedstring.go:Split"]}
{"id": "C25", "title": "Normalized byte splits are contiguous", "statement": "GetNormalizedByteSplits() offsets start at 0, each starts where the previous ends, each has the length of its String, and the last ends at the total length.", "quantifier": "all split lists", "why_tests_cant": "Running sum over lists of any length.", "anchors": ["pretokenizedstring/pretokenizedstring.go:GetNormalizedByteSplits"]}
{"id": "C26", "title": "Original byte splits locate their text in the input", "statement": "After FromString(input) of valid UTF-8 and any sequence of built-in pre-tokenizers, for every entry of GetOriginalByteSplits(), input[Offsets.Start:Offsets.End] is in bounds and equals the original text of the split.", "quantifier": "all inputs and all sequences of pre-tokenizers", "why_tests_cant": "Composition of unbounded steps.", "anchors": ["pretokenizedstring/pretokenizedstring.go:GetOriginalByteSplits", "normalizedstring/normalizedstring.go:Slice"]}
{"id": "C27", "title": "IntoEncoding yields parallel arrays in token order", "statement": "IntoEncoding fails iff there is at least one split and some split has no tokens; on success IDs, TypeIDs, Tokens, Words, Offsets, SpecialTokensMask and AttentionMask have equal length = total number of tokens, in split-then-token order, masks are all 0 and all 1, Words is wordIndex when >= 0 and the split index otherwise, TypeIDs is typeID.", "quantifier": "all split lists, word indices, type ids", "why_tests_cant": "Lists of any length.", "anchors": ["pretokenizedstring/pretokenizedstring.go:IntoEncoding", "encodings/encodings.go:EncodingFromEncodableTokens"]}
{"id": "C28", "title": "Encoding offsets stay inside the split and never crash for well-placed tokens", "statement": "If every split is a reachable NormalizedString and every token's offsets are an in-range non-empty range of its split's normalized text, IntoEncoding does not panic and every encoding offset lies inside OriginalOffsets() of its split and denotes the original text covered by the token.", "quantifier": "all reachable split lists and token lists", "why_tests_cant": "Every combination of shifts, alignments and token ranges.", "anchors": ["pretokenizedstring/pretokenizedstring.go:IntoEncoding", "normalizedstring/normalizedstring.go:CoerceRangeToOriginal"]}
{"id": "C29", "title": "White-space-split pre-tokenizer yields exactly the maximal non-space runs", "statement": "For every valid UTF-8 input, WhiteSpaceSplitPreTokenizer on FromString(input) succeeds and GetOriginalByteSplits() lists exactly the maximal runs of non-White_Space runes, in order, each with String == input[Start:End].", "quantifier": "all valid inputs", "why_tests_cant": "All inputs, all white space code points.", "anchors": ["pretokenizers/whitespacesplitpretokenizer/whitespacesplitpretokenizer.go:PreTokenize"]}
{"id": "C30", "title": "BERT pre-tokenizer drops spaces and isolates punctuation", "statement": "For every valid UTF-8 input, BertPreTokenizer on FromString(input) succeeds; the pieces are the maximal runs of runes that are neither white space nor punctuation and the single punctuation runes, in order, each with String == input[Start:End].", "quantifier": "all valid inputs, any punctuation predicate", "why_tests_cant": "Two nested splits; all inputs.", "anchors": ["pretokenizers/bertpretokenizer/bertpretokenizer.go:PreTokenize"]}
{"id": "C31", "title": "Rune-delimiter pre-tokenizer splits on exactly that rune", "statement": "For every valid UTF-8 input and delimiter, the pieces are the maximal non-empty runs of runes different from the delimiter, in order, each with String == input[Start:End].", "quantifier": "all valid inputs and delimiters", "why_tests_cant": "All inputs.", "anchors": ["pretokenizers/runedelimiterpretokenizer/runedelimiterpretokenizer.go:PreTokenize"]}
{"id": "C32", "title": "Meta-space pre-tokenizer is lossless", "statement": "For every valid UTF-8 input and valid replacement rune, MetaSpacePreTokenizer succeeds, the pieces concatenate to the (optionally prefixed) input with every ' ' replaced by the replacement, and every piece except possibly the first starts with the replacement and contains it nowhere else.", "quantifier": "all valid inputs and replacements", "why_tests_cant": "Needs Prepend, Replace and Split together on every input.", "anchors": ["pretokenizers/metaspacepretokenizer/metaspacepretokenizer.go:PreTokenize"]}
{"id": "C33", "title": "Byte-level mapping is reversible and space-free", "statement": "The 256-entry byte-to-rune table is injective, never maps a byte to white space or a control character, is the table of GPT-2 (bytes 0x21-0x7E, 0xA1-0xAC and 0xAE-0xFF map to themselves, the other 68 to U+0100 and following in order), and the byte-level Normalize step on a valid state turns each rune into one table rune per byte of its encoding, all aligned to the rune's original range; decoding through the inverse table gives back the text.", "quantifier": "all 256 bytes; all valid states", "why_tests_cant": "All inputs; alignment of multi-byte expansions.", "anchors": ["pretokenizers/bytelevelpretokenizer/bytelevelpretokenizer.go:PreTokenize", "pretokenizers/bytelevelpretokenizer/bytelevelpretokenizer.go:byteToRune"]}
{"id": "C34", "title": "BERT normalizer text semantics", "statement": "For every valid state BertNormalizer.Normalize does not panic and the text is: control/NUL/U+FFFD runes removed and white space mapped to ' ' (if textCleaning), each Chinese rune surrounded by spaces (if enabled), non-spacing marks removed (if enabled), then lower-cased (if enabled).", "quantifier": "all valid states and the 16 flag combinations", "why_tests_cant": "All inputs; e.g. inputs starting with a byte-order mark.", "anchors": ["normalizers/bertnormalizer/bertnormalizer.go:Normalize", "normalizers/bertnormalizer/bertnormalizer.go:cleanText"]}
{"id": "C35", "title": "SequenceNormalizer runs in order and stops at the first error", "statement": "Normalize of a sequence equals running the normalizers one after the other on the same string; if one fails its error is returned, the effects of the earlier ones remain and the later ones are not run; sequencing is associative.", "quantifier": "all lists of normalizers", "why_tests_cant": "Arbitrary callbacks and failure points.", "anchors": ["normalizers/sequencenormalizer/sequencenormalizer.go:Normalize"]}
{"id": "C36", "title": "WordPiece tokens tile the word or it is one unknown token", "statement": "For every vocabulary and sequence, a successful WordPiece Tokenize returns either one unknown token over [0,len) or tokens whose offsets are contiguous from 0 to len(sequence), each non-empty, with Value = text (first) or prefix+text (later) and ID = vocabulary id of Value; it fails iff the unknown token is needed and missing; it always terminates.", "quantifier": "all vocabularies, sequences, prefixes, limits", "why_tests_cant": "Arbitrary vocabularies and byte strings.", "anchors": ["models/wordpiecemodel/wordpiecemodel.go:Tokenize"]}
{"id": "C37", "title": "WordPiece is greedy longest-match-first", "statement": "For every vocabulary and valid UTF-8 word within the length limit, each token is the longest run of whole runes at its position that is in the vocabulary, and the word is unknown only if at some greedy position no run of whole runes is in the vocabulary.", "quantifier": "all vocabularies and words", "why_tests_cant": "Depends on the byte widths of all runes; tests are ASCII.", "anchors": ["models/wordpiecemodel/wordpiecemodel.go:Tokenize"]}
{"id": "C38", "title": "BPE merging terminates without crashing", "statement": "For every merge table, every word built by Add with positive lengths and every sequence of dropout decisions, MergeAll terminates without panicking.", "quantifier": "all merge tables, words and random outcomes", "why_tests_cant": "Queue grows during the loop; the measure argument covers all tables.", "anchors": ["models/bpemodel/word.go:MergeAll", "models/bpemodel/word.go:Add"]}
{"id": "C39", "title": "BPE merging preserves the text length and only applies table merges", "statement": "For every merge table, word and dropout outcome, the symbols after MergeAll arise from the initial ones by a sequence of merges of adjacent pairs present in the table; the sum of Lengths is unchanged and all Lengths stay positive.", "quantifier": "all merge tables, words and random outcomes", "why_tests_cant": "Arbitrary schedules of the dropout.", "anchors": ["models/bpemodel/word.go:MergeAll", "models/bpemodel/word.go:MergeWith"]}
{"id": "C40", "title": "Without dropout BPE merging is the canonical greedy BPE", "statement": "Without dropout, MergeAll performs exactly the sequence of merges that repeatedly picks, among all adjacent mergeable pairs, the one of lowest rank and then leftmost, until none is left.", "quantifier": "all words, all merge tables whose merged ids identify the merged text (or rank)", "why_tests_cant": "Priority queue with stale entries; all interleavings of ranks.", "anchors": ["models/bpemodel/word.go:MergeAll", "models/bpemodel/wordmerge.go:WordMergeHeap"]}
{"id": "C41", "title": "No mergeable pair is left without dropout", "statement": "Without dropout, after MergeAll no adjacent pair of symbols is in the merge table.", "quantifier": "all merge tables and words", "why_tests_cant": "Completeness of the queue under all updates.", "anchors": ["models/bpemodel/word.go:MergeAll"]}
{"id": "C42", "title": "Full dropout performs no merges", "statement": "If every dropout draw skips (dropout 1.0), MergeAll leaves the word as it was.", "quantifier": "all merge tables and words", "why_tests_cant": "All words and tables.", "anchors": ["models/bpemodel/word.go:MergeAll"]}
{"id": "C43", "title": "The merge queue is a correct priority queue", "statement": "For any sequence of pushes and pops on WordMergeHeap via container/heap, the multiset of elements is preserved and each pop returns a least element by (Rank, Pos).", "quantifier": "all operation sequences", "why_tests_cant": "Heap shape invariants at every size.", "anchors": ["models/bpemodel/wordmerge.go:Less", "models/bpemodel/wordmerge.go:Push", "models/bpemodel/wordmerge.go:Pop"]}
{"id": "C44", "title": "BPE token offsets tile the sequence", "statement": "For every BPE model and valid UTF-8 sequence, if an unknown token is configured (and in the vocabulary) or every affixed character is in the vocabulary, a successful Tokenize returns tokens with contiguous non-empty offsets from 0 to len(sequence), with IDs and Values agreeing with the vocabulary.", "quantifier": "all models, sequences and dropout outcomes", "why_tests_cant": "All vocabularies, merge tables, inputs.", "anchors": ["models/bpemodel/bpemodel.go:Tokenize", "models/bpemodel/bpemodel.go:mergeWord", "models/bpemodel/bpemodel.go:wordToTokens"]}
{"id": "C45", "title": "BPE token values spell the covered text", "statement": "With no unknown token, no affixes, every character in the vocabulary and a merge table where each merged id spells the concatenation of its parts, every token's Value equals sequence[Offsets.Start:Offsets.End].", "quantifier": "all such models, valid sequences, dropout outcomes", "why_tests_cant": "Induction over all merges.", "anchors": ["models/bpemodel/bpemodel.go:Tokenize"]}
{"id": "C46", "title": "Unknown characters: one unknown token each, or fused", "statement": "With an unknown token configured, before merging each maximal run of out-of-vocabulary characters becomes one unknown symbol covering the run if fusion is enabled, and one unknown symbol per character otherwise.", "quantifier": "all vocabularies and sequences", "why_tests_cant": "All run structures.", "anchors": ["models/bpemodel/bpemodel.go:mergeWord"]}
{"id": "C47", "title": "The continuing-subword prefix is looked up for continuing subwords", "statement": "With a continuing-subword prefix configured, characters after the first are looked up with the prefix and the first one without it.", "quantifier": "all models and sequences", "why_tests_cant": "No unit test sets a prefix.", "anchors": ["models/bpemodel/bpemodel.go:mergeWord"]}
{"id": "C48", "title": "Tokenization does not depend on history", "statement": "Without dropout, the result of BPE Tokenize(s) is a function of the model and s only: any earlier calls (cache hits or misses) do not change it. The cache finds nothing, with Get and with GetValues, whatever was Set before.", "quantifier": "all histories of Tokenize calls", "why_tests_cant": "Any history of cache operations.", "anchors": ["models/bpemodel/bpemodel.go:tokenizeWithCache", "models/bpemodel/wordcache.go"]}
{"id": "C49", "title": "A vocabulary built by AddTerm is a dense bijection", "statement": "After any sequence of AddTerm calls on a new vocabulary: Size() is the number of distinct terms, GetID and GetString are inverse to each other, the IDs are exactly 0..Size()-1 in order of first insertion, and re-adding never changes anything.", "quantifier": "all sequences of AddTerm calls", "why_tests_cant": "All histories.", "anchors": ["vocabulary/vocabulary.go:AddTerm", "vocabulary/vocabulary.go:GetID", "vocabulary/vocabulary.go:GetString"]}
{"id": "C50", "title": "A vocabulary loaded from JSON answers both directions consistently", "statement": "For every JSON object with distinct ids, FromJSONFile gives GetID(t)=i iff GetString(i)=t iff the object maps t to i, independently of map iteration order; further AddTerm calls keep GetID and GetString inverse to each other.", "quantifier": "all JSON objects, all iteration orders, all later AddTerm calls", "why_tests_cant": "Go map iteration order is random; ids may be sparse.", "anchors": ["vocabulary/vocabulary.go:FromJSONFile", "vocabulary/vocabulary.go:AddTerm"]}
{"id": "C51", "title": "Merges files are read with ranks in line order", "statement": "On success MergeMapFromFile maps each pair to (rank, id) where rank is the number of preceding merge lines (not counting #version lines) of its last occurrence and id is the vocabulary id of left + right without prefix; every malformed or out-of-vocabulary line makes it fail naming that line, and a line of 64 KiB or more makes it fail; it does not crash.", "quantifier": "all file contents, vocabularies, prefix lengths", "why_tests_cant": "All files.", "anchors": ["models/bpemodel/mergemap.go:MergeMapFromFile"]}
{"id": "C52", "title": "Pre-tokenization with offsets composes: slices of slices keep absolute positions", "statement": "Splitting a piece again (any number of times) yields pieces whose OriginalOffsets lie inside the parent's OriginalOffsets, in order.", "quantifier": "all split trees", "why_tests_cant": "Unbounded nesting.", "anchors": ["normalizedstring/normalizedstring.go:Slice", "normalizedstring/normalizedstring.go:Split"]}
{"id": "C53", "title": "Text and alignments stay made of whole runes", "statement": "After any history of operations on a valid string that does not use Append, and uses Replace only with valid content and patterns whose captures tile the text on rune boundaries, the text is valid UTF-8 and all bytes of one rune share one alignment; a history with Append or with other uses of Replace may break this.", "quantifier": "all histories, all other arguments", "why_tests_cant": "Unbounded histories.", "anchors": ["normalizedstring/normalizedstring.go:TransformRange", "normalizedstring/normalizedstring.go:Slice", "normalizedstring/normalizedstring.go:Prepend", "normalizedstring/normalizedstring.go:Replace"]}
{"id": "C54", "title": "Filter and TrimLeftRight never produce a wrong text", "statement": "Whenever Filter(keep) returns, the text consists of exactly the runes satisfying keep, in order; whenever TrimLeftRight returns, the text is the old one without the requested outer white space.", "quantifier": "all valid states, all predicates, both flags", "why_tests_cant": "All states and predicates, also those where alignments are wrong.", "anchors": ["normalizedstring/normalizedstring.go:Filter", "normalizedstring/normalizedstring.go:TrimLeftRight"]}
{"id": "C55", "title": "The lower-case and strip normalizers do what their names say", "statement": "On every valid state LowerCaseNormalizer returns no error, maps every rune to its lower-case form and keeps alignments; StripNormalizer, when it returns, returns no error and leaves the text without the requested outer white space.", "quantifier": "all valid states, all flags, all case tables", "why_tests_cant": "All states and tables.", "anchors": ["normalizers/lowercasenormalizer/lowercasenormalizer.go:Normalize", "normalizers/stripnormalizer/stripnormalizer.go:Normalize"]}
{"id": "C56", "title": "BPE tokens cover whole characters", "statement": "For every BPE model and valid UTF-8 sequence whose characters all get a symbol, the text at the offsets of every token is a non-empty valid UTF-8 string.", "quantifier": "all models, sequences and dropout outcomes", "why_tests_cant": "All models and sequences; a wrong byte length would only show with multi-byte characters in particular merge orders.", "anchors": ["models/bpemodel/bpemodel.go:Tokenize", "models/bpemodel/word.go:MergeAll"]}
{"id": "C57", "title": "BPE tokenization is canonical BPE on the characters", "statement": "Without dropout and on a merge table whose merged ids identify the merged text, the ids and lengths of the tokens of Tokenize are what repeatedly merging the lowest-ranked, then leftmost, adjacent pair gives on the initial symbols, until no pair is left.", "quantifier": "all such models, all sequences", "why_tests_cant": "Unbounded sequences and tables.", "anchors": ["models/bpemodel/bpemodel.go:Tokenize", "models/bpemodel/word.go:MergeAll"]}
{"id": "C58", "title": "Tokenize gives tokens to exactly the splits that have none", "statement": "PreTokenizedString.Tokenize on success leaves every split with tokens: those it had, else those the function returned for its string, in place; when the function fails on a split it returns that error, the splits before have their tokens and that split and the later ones are as they were. It never changes texts and panics only if the function does.", "quantifier": "all split lists, all tokenization functions", "why_tests_cant": "All lists and functions, including failure at any position.", "anchors": ["pretokenizedstring/pretokenizedstring.go:Tokenize"]}
{"id": "C59", "title": "Normalize changes exactly the splits that have no tokens", "statement": "PreTokenizedString.Normalize on success replaces the string of every split without tokens by its normalized form and leaves tokenized splits alone; when the function fails on a split it returns that error, the splits before are normalized and the later ones are as they were.", "quantifier": "all split lists, all normalization functions", "why_tests_cant": "All lists and functions, including failure at any position.", "anchors": ["pretokenizedstring/pretokenizedstring.go:Normalize"]}
{"id": "C60", "title": "The byte-level pre-tokenizer makes the GPT-2 pieces and loses nothing", "statement": "On every valid UTF-8 input the ByteLevelPreTokenizer with the default expression succeeds. Its splits are the GPT-2 pieces (contractions; runs of letters, numbers or other characters, with one space before; white space) of the input, with a space in front if that is enabled and the input does not start with white space, each written with one table rune per byte. Reading the splits back through the table gives that text; the offsets tile the input and select the bytes of each piece. With any engine whose matches are non-empty, in order and in bounds the splits are the matches and the gaps between them; an engine error is returned.", "quantifier": "all valid UTF-8 inputs, both settings, all sane character tables, all engines, all valid states", "why_tests_cant": "All texts and tables; prepending a space, cutting, slicing and byte mapping each shift offsets.", "anchors": ["pretokenizers/bytelevelpretokenizer/bytelevelpretokenizer.go:PreTokenize", "splitpattern/regexp2.go:FindMatches"]}
{"id": "C61", "title": "The white-space pre-tokenizer cuts the text into words and symbol runs", "statement": "On every valid UTF-8 input the default WhiteSpacePreTokenizer succeeds; its byte splits are exactly the maximal runs of word characters and the maximal runs of characters that are neither word characters nor white space, in order, each with String equal to input[Start:End]. With any other expression whose matches are in order and in bounds the splits are exactly the non-empty matches; an engine error is returned and nothing is split.", "quantifier": "all valid UTF-8 inputs, all character tables, all engines", "why_tests_cant": "All texts and tables; the captures go through an inverted rune-index pattern, a byte-offset conversion and a slice for each split.", "anchors": ["pretokenizers/whitespacepretokenizer/whitespacepretokenizer.go:PreTokenize", "splitpattern/regexp2.go:FindMatches", "splitpattern/invertedpattern.go:FindMatches"]}
{"id": "C62", "title": "Dropout only postpones merges, and only skipping draws leave a mergeable pair", "statement": "For every word, merge table and sequence of dropout draws: the adjacent pairs of the table left after MergeAll are at most as many as the skipping draws in a row that end the loop; so if of any K draws in a row one does not skip, fewer than K such pairs are left. With draws that never skip the result is that without dropout.", "quantifier": "all words of symbols of positive length, all merge tables, all draw sequences", "why_tests_cant": "All tables and all random outcomes; the skipped entries are put back into the queue at the next draw that does not skip.", "anchors": ["models/bpemodel/word.go:MergeAll"]}
{"id": "C63", "title": "The offsets of an encoding do not depend on how the text was split", "statement": "For every reachable NormalizedString, split by any successful calls of PreTokenizedString.Split with patterns whose captures tile the text, and any tokens on non-empty parts of the splits: IntoEncoding succeeds and gives the ids, tokens, offsets and masks of the same tokens, moved by the position of their split, on the unsplit string. If the tokens of each split are in order, all the offsets are in order. Tokens of WordPiece and BPE are, and each offset then selects the original text of its token.", "quantifier": "all histories of NormalizedString calls, all sequences of splits, all tokens, all WordPiece vocabularies with the unknown token, all BPE models that cover the text", "why_tests_cant": "All histories, patterns and tokens; the offsets go through the shifts and alignments of nested slices.", "anchors": ["pretokenizedstring/pretokenizedstring.go:IntoEncoding", "pretokenizedstring/pretokenizedstring.go:Split", "normalizedstring/normalizedstring.go:Slice", "models/wordpiecemodel/wordpiecemodel.go:Tokenize", "models/bpemodel/bpemodel.go:Tokenize"]}
{"id": "C64", "title": "Pre-tokenizer, model and encoding together: every kept character is in exactly one token", "statement": "For every valid input, each of the pre-tokenizers BERT, white space, white-space split and rune delimiter followed by WordPiece (vocabulary of valid terms with the unknown token) or BPE (every kept character gets a symbol) and IntoEncoding succeeds. The rows are the tokens of the words in order, with the word numbers; the offsets are increasing and without overlap, select non-empty text, and what they select, put together, is the input without the dropped characters. A WordPiece token is the unknown token over a whole word or the text at its offsets, after the prefix unless it begins a word. With BPE, if vocabulary and merges spell, the tokens put together are the kept text.", "quantifier": "all valid UTF-8 inputs, all vocabularies and merge tables, all dropout outcomes", "why_tests_cant": "All inputs and models; four stages with their own offset bookkeeping must agree.", "anchors": ["pretokenizers/bertpretokenizer/bertpretokenizer.go:PreTokenize", "pretokenizers/whitespacepretokenizer/whitespacepretokenizer.go:PreTokenize", "pretokenizers/whitespacesplitpretokenizer/whitespacesplitpretokenizer.go:PreTokenize", "pretokenizedstring/pretokenizedstring.go:Tokenize", "pretokenizedstring/pretokenizedstring.go:IntoEncoding", "models/wordpiecemodel/wordpiecemodel.go:Tokenize", "models/bpemodel/bpemodel.go:Tokenize"]}
{"id": "C65", "title": "The GPT-2 pipeline: byte-level pieces, BPE and encoding lose nothing", "statement": "For every valid input, ByteLevelPreTokenizer with the default expression, BPE (terms known for all ids, and an unknown token or all 256 table runes known) and IntoEncoding succeed. Every GPT-2 piece of the input with the added space is tokenized by itself and gives one row per token, numbered by its piece. The bytes of a piece are cut into one non-empty part per token; the offsets of the token select exactly the characters of the input that its part touches (a token holding only the added space has those of the first character). If vocabulary and merges spell, reading the tokens of the encoding through the inverse byte table gives back the input, after the added space. The same offsets hold from any valid state and for any engine with non-empty matches in order.", "quantifier": "all valid UTF-8 inputs, both settings, all sane character tables, all BPE models, all dropout outcomes, all valid states and engines", "why_tests_cant": "All inputs and models; tokens may end inside a character, and four stages with their own offset bookkeeping must agree.", "anchors": ["pretokenizers/bytelevelpretokenizer/bytelevelpretokenizer.go:PreTokenize", "normalizedstring/normalizedstring.go:Transform", "pretokenizedstring/pretokenizedstring.go:IntoEncoding", "models/bpemodel/bpemodel.go:Tokenize"]}
{"id": "C66", "title": "Pre-tokenizing normalized text gives the words of that text, with provenance", "statement": "For every well-formed NormalizedString with valid text, whatever its history, the pre-tokenizers BERT, white space, white-space split and rune delimiter succeed and cut it into the same words as they cut a fresh input with the same text. Each split holds the characters of its word with their alignments, moved to its own original part: its original is the input text from the first to the last alignment of the word.", "quantifier": "all well-formed NormalizedStrings, all character tables and delimiters", "why_tests_cant": "All states, including those where many characters come from one or one from none; each split goes through range conversions in both directions.", "anchors": ["pretokenizers/bertpretokenizer/bertpretokenizer.go:PreTokenize", "pretokenizers/whitespacepretokenizer/whitespacepretokenizer.go:PreTokenize", "pretokenizers/whitespacesplitpretokenizer/whitespacesplitpretokenizer.go:PreTokenize", "pretokenizers/runedelimiterpretokenizer/runedelimiterpretokenizer.go:PreTokenize", "normalizedstring/normalizedstring.go:Slice"]}
{"id": "C67", "title": "Encoding normalized text: every row has the offsets of its characters", "statement": "For every well-formed NormalizedString with valid text, any of these pre-tokenizers followed by WordPiece (vocabulary of valid terms with the unknown token) or BPE (every kept character gets a symbol) and IntoEncoding succeeds. The characters of each word are cut into one non-empty group per token; the offsets of the row run from the start of the alignment of the first character of the group to the end of that of the last, moved by the shift of the string. The offsets are in order.", "quantifier": "all well-formed NormalizedStrings, all vocabularies and merge tables, all dropout outcomes", "why_tests_cant": "All states and models; the token offsets go through the alignments of slices of slices.", "anchors": ["pretokenizedstring/pretokenizedstring.go:IntoEncoding", "pretokenizedstring/pretokenizedstring.go:Tokenize", "models/wordpiecemodel/wordpiecemodel.go:Tokenize", "models/bpemodel/bpemodel.go:Tokenize"]}
{"id": "C68", "title": "The BERT pipeline: normalizer, pre-tokenizer, WordPiece and encoding agree", "statement": "For every valid input and every setting of BertNormalizer such that no multi-byte character is dropped at the very front (or everything is dropped), BertNormalizer, BertPreTokenizer, WordPiece (vocabulary of valid terms with the unknown token) and IntoEncoding succeed. The words are those of the normalized text. The offsets are in order and do not overlap. Each selects a part of the input whose normalized text, without white space, is exactly what the token stands for: the token is the unknown token or this text, after the prefix unless it begins a word. Together the tokens stand for all the visible characters of the normalized text.", "quantifier": "all valid UTF-8 inputs, all sixteen settings, all character tables that keep the space, all vocabularies with the unknown token", "why_tests_cant": "All inputs and settings; characters are dropped, doubled into space-character-space and replaced before four further stages with their own offset bookkeeping.", "anchors": ["normalizers/bertnormalizer/bertnormalizer.go:Normalize", "pretokenizers/bertpretokenizer/bertpretokenizer.go:PreTokenize", "models/wordpiecemodel/wordpiecemodel.go:Tokenize", "pretokenizedstring/pretokenizedstring.go:IntoEncoding"]}
{"id": "C69", "title": "The range (0,0) of an empty text expands to everything it stands for", "statement": "As the comments in CoerceRangeToOriginal and CoerceRangeToNormalized say: if the normalized text is empty, CoerceRangeToOriginal(NormalizedRange(0,0)) is the whole original range (0, OriginalLen); if the original is empty, CoerceRangeToNormalized(OriginalRange(0,0)) is (0, Len).", "quantifier": "all reachable states with an empty text", "why_tests_cant": "The branch looks covered by its comment; no test has an empty text with a non-empty original.", "anchors": ["normalizedstring/normalizedstring.go:CoerceRangeToOriginal", "normalizedstring/normalizedstring.go:CoerceRangeToNormalized"]}
{"id": "C70", "title": "Cutting pre-tokenizers commute and repeat without effect", "statement": "Calling any of WhiteSpaceSplit, RuneDelimiter, BERT and WhiteSpace pre-tokenizers one after the other on the same PreTokenizedString succeeds. A character stays if every step keeps it, two neighbours are separated if some step separates them, and nothing else is cut. So the splits, with texts and alignments, depend only on which steps are used: not on their order, nor on how often each is used.", "quantifier": "all well-formed NormalizedStrings and all valid inputs, all finite sequences of steps, all character tables and delimiters", "why_tests_cant": "All sequences of steps; each later step works on slices made by the earlier ones.", "anchors": ["pretokenizers/bertpretokenizer/bertpretokenizer.go:PreTokenize", "pretokenizers/whitespacepretokenizer/whitespacepretokenizer.go:PreTokenize", "pretokenizers/whitespacesplitpretokenizer/whitespacesplitpretokenizer.go:PreTokenize", "pretokenizers/runedelimiterpretokenizer/runedelimiterpretokenizer.go:PreTokenize", "pretokenizedstring/pretokenizedstring.go:Split"]}
{"id": "C71", "title": "Normalizing what is already normal changes nothing", "statement": "Map with a function that changes no rune of the text, Filter that keeps every rune, TrimLeftRight on text without outer white space, and BertNormalizer on text that each enabled step leaves alone all succeed and leave text, alignments, original and shift as they are. So Filter and TrimLeftRight, repeated with the same arguments, have no further effect, even when the first call misplaced alignments. Map after Map is one Map with the composed function; Filter after Filter keeps the runes that both keep. Trim is TrimLeft and TrimRight in either order, if the white space in front is ASCII.", "quantifier": "all valid states (text and alignments made of whole runes), all functions and settings", "why_tests_cant": "All states and functions; the identity goes through the whole Transform machinery.", "anchors": ["normalizedstring/normalizedstring.go:Map", "normalizedstring/normalizedstring.go:Filter", "normalizedstring/normalizedstring.go:TrimLeftRight", "normalizers/bertnormalizer/bertnormalizer.go:Normalize"]}
{"id": "C72", "title": "The meta-space pipeline keeps track of the input", "statement": "MetaSpacePreTokenizer on any well-formed state (not only a fresh one) replaces every space where it stands, keeping its alignment, gives an added replacement in front the alignment of the first character, and cuts in front of every replacement; original and shift stay. Followed by Tokenize with WordPiece or BPE and IntoEncoding on any input, nothing fails or panics, there is one row per token, and the input at the offsets of a token is the run of characters the token stands for. With a BPE model whose vocabulary and merges spell, the tokens one after the other are the changed text, and if the replacement rune is not in the input, dropping the added one and turning the others into spaces gives back the input. Replace with a rune predicate and any content gives every rune of the content the alignment of the rune it replaces.", "quantifier": "all valid inputs and well-formed states, all valid replacement runes, both settings of the prefix, all models that meet the stated conditions, all dropout outcomes, all word indices and type ids", "why_tests_cant": "Quantifies over inputs, vocabularies and merge tables; offsets after Prepend and Replace depend on alignments that no single call shows.", "anchors": ["pretokenizers/metaspacepretokenizer/metaspacepretokenizer.go:PreTokenize", "normalizedstring/normalizedstring.go:Replace", "normalizedstring/normalizedstring.go:Prepend", "pretokenizedstring/pretokenizedstring.go:IntoEncoding"]}
{"id": "C73", "title": "The values of BPE tokens are the affixed characters they cover", "statement": "Whenever Tokenize of a BPE model succeeds, with any prefix, suffix and unknown token, with or without fusion and dropout: the characters of the sequence, where an unknown character or with fusion a maximal run of unknown characters counts as one, fall into one non-empty group per token, in order. The offsets of the token are those of its group. Its value is what the group shows: each known character with the affixes it was looked up with, the unknown token for each unknown one. If every character is known, the value is the sequence at the offsets, after the prefix for the token at the start and before the suffix for the token at the end, and all values together are prefix, sequence, suffix. Conditions: the sequence is valid UTF-8, no unknown character is silently dropped, ids stand for their terms, and each merge gives the term that is its two parts together.", "quantifier": "all valid sequences, all models that meet the conditions, all dropout outcomes", "why_tests_cant": "Quantifies over vocabularies, merge tables, affixes and sequences; the value comes from an id that many merges produced.", "anchors": ["models/bpemodel/bpemodel.go:Tokenize", "models/bpemodel/bpemodel.go:wordToTokens", "models/bpemodel/word.go:MergeAll"]}
{"id": "C74", "title": "Splits own their strings; calls on one PreTokenizedString do not disturb others", "statement": "Split, Normalize and Tokenize, all six pre-tokenizers, and any sequence of them work through pointers to NormalizedStrings. If no two splits share a string, which holds after FromString and FromNormalizedString, this stays so, every call has the outcome it would have if each split held its own copy, and only strings of this PreTokenizedString change; so another one that shares no string with it keeps its splits. The pre-tokenizers that only cut leave the string given to FromNormalizedString unchanged. Callbacks may change the string they are given and no other, and may return it or new strings, none twice.", "quantifier": "all memory states, all PreTokenizedStrings, all callbacks that meet the condition, all sequences of calls", "why_tests_cant": "Aliasing shows only when two holders of a string are compared after a call; tests look at one.", "anchors": ["pretokenizedstring/pretokenizedstring.go:Split", "pretokenizedstring/pretokenizedstring.go:Normalize", "pretokenizedstring/pretokenizedstring.go:Tokenize", "pretokenizedstring/pretokenizedstring.go:FromNormalizedString", "normalizedstring/normalizedstring.go:Slice"]}
{"id": "C75", "title": "The width of int does not matter", "statement": "Start from FromString of a valid text and make any sequence of Transform, Filter, Map, Trim*, Prepend, Append, Replace and Slice calls, with any int values (also the smallest and largest) as range bounds, initialOffset and Change. As long as the texts are shorter than an eighth of the largest int, and the captures of Replace tile the text, no sum, difference, negation or make in these functions overflows in a way that shows: every call returns or panics as it would with unbounded integers, on 64 and on 32 bits. So do CoerceRangeToNormalized, CoerceRangeToOriginal, GetRange, GetOriginalRange, OriginalOffsets and OriginalAlignments in every state on the way. With Go before 1.17, where strings.Builder writes a negative rune as one byte, this holds as long as no negative rune is passed.", "quantifier": "all machines with a signed int of any width, all histories within the sizes, all int arguments", "why_tests_cant": "The extreme integers and all texts; an overflow shows only on inputs no test holds.", "anchors": ["normalizedstring/normalizedstring.go:TransformRange", "normalizedstring/normalizedstring.go:Slice", "normalizedstring/normalizedstring.go:CoerceRangeToNormalized", "normalizedstring/normalizedstring.go:CoerceRangeToOriginal", "normalizedstring/normalizedstring.go:Replace", "normalizedstring/range.go:Len"]}
{"id": "C76", "title": "Bytes that are not UTF-8", "statement": "Read any byte string from left to right: the encoding of a character where one starts, else one bad byte, seen as U+FFFD. Split by a rune predicate that U+FFFD does not satisfy, removing or isolating the matches, and the white-space-split, rune-delimiter and BERT pre-tokenizers cut a text only at the characters that satisfy the predicate: if they report no error, the texts of the pieces are the pieces of that reading, bad bytes kept as they are, even for a PreTokenizedString that is otherwise inconsistent. A text that ends in a bad byte is never cut. Map on FromString of any bytes never panics. Map and Filter, when they return, give the encodings of the runes read. BPE gives the tokens and offsets of the text with U+FFFD for every bad byte.", "quantifier": "all byte strings, all states, all predicates and functions on runes", "why_tests_cant": "All byte strings, valid or not; tests use text.", "anchors": ["splitpattern/func.go:FindMatches", "normalizedstring/normalizedstring.go:Split", "normalizedstring/normalizedstring.go:Map", "normalizedstring/normalizedstring.go:Filter", "pretokenizers/bertpretokenizer/bertpretokenizer.go:PreTokenize", "models/bpemodel/bpemodel.go:mergeWord"]}
{"id": "C77", "title": "Strings that share alignments in memory do not disturb one another", "statement": "A program may hold many NormalizedStrings at once, made by FromString, by New on slices of alignments (also several strings on the same slice, or on overlapping windows of one array), by Slice and by Split, and call TransformRange, Transform, Filter, Map, Trim*, Prepend, Append, Replace, Slice, Split and OriginalAlignments on them in any order. No call writes to an array that existed before it, so every other string and every slice the program holds is as before; and every string has the value, and every call the outcome including panics, as if each string owned a copy of its alignments. Spare capacity of the slices makes no difference, whatever append chooses. When all strings come from FromString on valid UTF-8, the alignments always fill their slices, and CoerceRangeToOriginal and GetOriginalRange answer or panic as on lists for every range. Otherwise CoerceRangeToOriginal answers for the alignments up to the capacity: past the end of the text it may return stale alignments where it should panic.", "quantifier": "all programs of such calls with all arguments, all growth policies of append, all spare capacities; New is given at least as many alignments as the normalized text has bytes", "why_tests_cant": "Aliasing shows only in programs that hold several strings on one array, and depends on capacities the runtime chooses.", "anchors": ["normalizedstring/normalizedstring.go:New", "normalizedstring/normalizedstring.go:FromString", "normalizedstring/normalizedstring.go:TransformRange", "normalizedstring/normalizedstring.go:Slice", "normalizedstring/normalizedstring.go:CoerceRangeToOriginal", "normalizedstring/normalizedstring.go:OriginalAlignments"]}
{"id": "C78", "title": "Regular expressions on bytes that are not UTF-8", "statement": "A regexp2 split pattern reports the matches of the engine in order, each at its place in the text with U+FFFD for every bad byte. So when Split succeeds, the pieces are the bytes at the places of the groups of captures; and, for matches in the order of their ends and every behaviour but MergedWithNext, no match ends beyond the last byte of the real text, bad bytes before it counted as three. Consequently the default byte-level pre-tokenizer reports no error only when every text it cuts is valid UTF-8, or starts with a bad byte and gets a space put before it; the default white space pre-tokenizer only when every text it cuts is valid UTF-8 or ends in white space. Prepend, when it returns, gives the added text, the first rune read and the bytes after as many bytes as this rune takes: nothing is lost unless the text starts with a bad byte.", "quantifier": "all byte strings, all states, all engines; for the two pre-tokenizers all Unicode tables that agree with the library on white space", "why_tests_cant": "Bad bytes are rare in tests, and the outcome depends on where the last match ends.", "anchors": ["splitpattern/regexp2.go:FindMatches", "pretokenizers/bytelevelpretokenizer/bytelevelpretokenizer.go:PreTokenize", "pretokenizers/whitespacepretokenizer/whitespacepretokenizer.go:PreTokenize", "normalizedstring/normalizedstring.go:Prepend"]}
{"id": "C79", "title": "The width of int does not matter in the other packages", "statement": "Split patterns, Split with its five behaviours, the conversion to rune offsets, GetOriginalByteSplits, GetNormalizedByteSplits, IntoEncoding, MergeMapFromFile, Word.Add and MergeAll with its priority queue, BPE and WordPiece tokenization give the same results, errors and panics with the wrapping integers of a machine as with unbounded integers, when the texts involved are shorter than an eighth of the largest int. For Split the captures may hold any int; for IntoEncoding the token offsets must be at most half of the largest int; for MergeAll the symbol lengths must be positive and add up to less than half of it, and six times the number of symbols must fit as well. The checked slice accesses of these loops, written out with indices, never panic in WordPiece and MergeAll.", "quantifier": "all machines with a signed int of any width, all texts within the sizes, all models, tables, patterns and draws", "why_tests_cant": "An overflow shows only on inputs no test holds.", "anchors": ["splitpattern/func.go:FindMatches", "normalizedstring/normalizedstring.go:Split", "strutils/strutils.go:Convert", "pretokenizedstring/pretokenizedstring.go:IntoEncoding", "models/bpemodel/word.go:MergeAll", "models/bpemodel/wordmerge.go:Pop", "models/bpemodel/bpemodel.go:Tokenize", "models/wordpiecemodel/wordpiecemodel.go:Tokenize"]}
{"id": "C80", "title": "How much work tokenizing a word takes", "statement": "WordPiece Tokenize looks up at most n(n+1)/2 + 1 strings in the vocabulary for a text of n bytes, and at most 8M^2 + 2M + 1 for any text, M being the maximum of input characters per word; a text with more characters costs one lookup. There are vocabularies and words of every length that need n(n+1)/2. The main loop of Word.MergeAll on n symbols with positive lengths ends within 3(n-1) iterations without dropout, whatever the merges (cyclic ones included), and within 3(n-1)(3(n-1)+1) + (n-1) with dropout whatever is drawn; so the result depends on no later draw. Push onto a queue of n entries takes at most log2(n+1) + 1 rounds, Pop at most log2(n-1) + 1.", "quantifier": "all vocabularies, texts, merges, words with positive lengths, draws and queues", "why_tests_cant": "A bound on the work for all inputs, adversarial ones included, cannot be sampled.", "anchors": ["models/wordpiecemodel/wordpiecemodel.go:Tokenize", "models/bpemodel/word.go:MergeAll", "models/bpemodel/wordmerge.go:Push", "models/bpemodel/wordmerge.go:Pop"]}
{"id": "C81", "title": "A vocabulary file is read as JSON says", "statement": "FromJSONFile on a file with any bytes returns a vocabulary exactly when the bytes are one JSON value by the grammar of RFC 8259 (arrays and objects at most 10000 deep) that is null, or an object whose values are all null or integers written without fraction and exponent that fit in an int. Otherwise it returns an error: of syntax exactly when the bytes are no JSON value. GetID of a term is then the integer after the last key equal to the term, null counting as 0, and Size is the number of different keys. In keys, escapes and surrogate pairs stand for their characters, and bytes that are not UTF-8 and surrogates without partner for U+FFFD; so every term is valid UTF-8, and other terms can not be loaded. GetString inverts GetID if no two terms have the same id, whatever the order of iteration; else it gives one of the terms. The content null gives an empty vocabulary whose AddTerm panics. Written out with escapes where JSON needs them, any list of different valid terms with ids loads as this list.", "quantifier": "all byte strings as contents, all widths of int, all iteration orders of the map", "why_tests_cant": "All byte strings; a test holds a few files.", "anchors": ["vocabulary/vocabulary.go:FromJSONFile", "vocabulary/vocabulary.go:GetID", "vocabulary/vocabulary.go:GetString", "vocabulary/vocabulary.go:Size", "vocabulary/vocabulary.go:AddTerm"]}
{"id": "C82", "title": "From the two files to the tokens of the reference algorithm", "statement": "Write terms with their ids to a vocabulary file and merge rules, one per line after a version line, to a merges file; load both with FromJSONFile and MergeMapFromFile. Loading succeeds, and Tokenize of a BPE model on them, without prefix and dropout, succeeds on every valid text whose characters (the last one with the suffix) are terms. Its token values are what the textbook algorithm makes of the characters: as long as some rule applies to two neighbours, take the first such rule in the file (of a rule on several lines the last one counts) and merge its leftmost occurrence. No rule applies to the result. Each token's id is the one written for its value, and without a suffix the tokens tile the text. If no rule stands before the rule that makes one of its parts, in particular if the rules come from training, the values are also those of the GPT-2 reference implementation, which merges all occurrences of a pair at once; otherwise the two may differ.", "quantifier": "all entries (valid UTF-8, not empty, ids that fit in an int, all different), all lists of rules, also with repetitions, whose parts and products are entries and that fit in a line, all iteration orders of maps, all texts, suffixes and capacities, unknown tokens that are empty or entries", "why_tests_cant": "Two algorithms compared on all rule tables and texts, through two file formats.", "anchors": ["vocabulary/vocabulary.go:FromJSONFile", "models/bpemodel/mergemap.go:MergeMapFromFile", "models/bpemodel/bpemodel.go:Tokenize", "models/bpemodel/word.go:MergeAll"]}
{"id": "C83", "title": "The GPT-2 tokenizer from its two files to the encoding", "statement": "Write a vocabulary that has the characters of all 256 bytes, and merge rules, to files and load them. Then every valid text is encoded by the default byte-level pre-tokenizer, Tokenize with BPE on the loaded tables, and IntoEncoding, without error or panic. The text, with a space in front if asked for, is cut into the GPT-2 pieces; the tokens are, piece by piece, what the textbook BPE algorithm makes of the characters of the bytes of the piece (that of the reference implementation, if the rules come from training). Each id is the one written in the vocabulary file for the token; the word numbers count the pieces, or are the given word index; and the input at a token's offsets is the run of whole characters that the bytes of the token touch, the added space aside.", "quantifier": "all vocabularies and rules as in C82 with the byte characters, all valid texts, both settings of the added space, unknown tokens that are empty or entries, all word indices and type ids, all sane Unicode tables", "why_tests_cant": "The whole path from files to offsets, for all files and texts.", "anchors": ["pretokenizers/bytelevelpretokenizer/bytelevelpretokenizer.go:PreTokenize", "vocabulary/vocabulary.go:FromJSONFile", "models/bpemodel/mergemap.go:MergeMapFromFile", "models/bpemodel/bpemodel.go:Tokenize", "pretokenizedstring/pretokenizedstring.go:IntoEncoding"]}
{"id": "C84", "title": "The BERT tokenizer from its vocabulary file to the encoding", "statement": "Write a vocabulary with the unknown token to a file and load it. Then every valid text from whose front no multi-byte rune is dropped is encoded by BertNormalizer, BertPreTokenizer, Tokenize with WordPiece and IntoEncoding, without error or panic. The tokens are those of the reference implementation: the normalized text is cut at white space, each punctuation mark is a word, and each word is cut from left to right into the longest pieces that are terms (with the prefix except for the first one), or is the unknown token if it is too long or cannot be cut. Where a word has a rune of three bytes after its first, only every boundary that the search looks at counts (C37). Each id is the one written in the file for the token; the word numbers count the words, or are the given word index; the offsets are increasing and disjoint, and the input at them normalizes to the characters that the token stands for.", "quantifier": "all vocabularies (valid UTF-8 terms, each once, ids that fit in an int), all iteration orders of maps, all texts, settings, prefixes and limits, all Unicode tables that keep the space when lower-casing", "why_tests_cant": "The whole path from the file to offsets, compared with a second algorithm, for all files and texts.", "anchors": ["vocabulary/vocabulary.go:FromJSONFile", "models/wordpiecemodel/wordpiecemodel.go:Tokenize", "pretokenizers/bertpretokenizer/bertpretokenizer.go:PreTokenize", "normalizers/bertnormalizer/bertnormalizer.go:Normalize", "pretokenizedstring/pretokenizedstring.go:IntoEncoding"]}
{"id": "C85", "title": "Words are slices of pointers and behave as lists of symbols", "statement": "A Word is a slice of pointers to symbols. A program may hold many words at once, made by NewWord, NewWordWithCapacity and by the BPE model (mergeWord), and call Add and MergeAll on them and turn them into tokens (wordToTokens) in any order. Each word has, after every call, the symbols that it would have as a list of its own; the calls return the same tokens and panic or run on in the same cases. So no call on one word shows in another, nor in any symbol or array that was in memory before the program, whatever capacity append chooses and although MergeAll moves pointers in place and leaves stale ones behind the end. The symbols of a word are never at two positions; for a Word written by hand with one symbol at two positions MergeAll does something else, and after copying the slice itself (c := *w) an Add to one shows in the other.", "quantifier": "all memories, growth policies of append, programs, vocabularies, merges, texts and draws", "why_tests_cant": "Aliasing shows only for some capacities and interleavings of calls.", "anchors": ["models/bpemodel/word.go:Add", "models/bpemodel/word.go:MergeAll", "models/bpemodel/word.go:removeSymbol", "models/bpemodel/word.go:NewWordWithCapacity", "models/bpemodel/bpemodel.go:mergeWord", "models/bpemodel/bpemodel.go:wordToTokens"]}
{"id": "C86", "title": "The ids of the GPT-2 tokenizer give back the text", "statement": "Load a vocabulary with the characters of all 256 bytes, and merge rules, from files as in C83. Encode any valid text with the byte-level pre-tokenizer, BPE and IntoEncoding. Reading, for each id in order, the term that the vocabulary file has for it, and turning each of its characters back into the byte that it stands for, gives the text, with a space in front if one was added. So two texts have the same ids exactly when they are equal after adding the space; without the option only when they are equal, and with it only when they are equal or one is the other with one space in front of its first character, which is not white space.", "quantifier": "all vocabularies and rules as in C83, all pairs of valid texts, both settings of the added space, all unknown tokens that are empty or entries, word indices, type ids and sane Unicode tables", "why_tests_cant": "Injectivity is about all pairs of texts.", "anchors": ["pretokenizers/bytelevelpretokenizer/bytelevelpretokenizer.go:PreTokenize", "models/bpemodel/bpemodel.go:Tokenize", "pretokenizedstring/pretokenizedstring.go:IntoEncoding", "vocabulary/vocabulary.go:GetID"]}
{"id": "C87", "title": "The encoding of two texts after each other", "statement": "When no word goes over the boundary, the encoding of the two texts after each other is that of the first followed by that of the second: ids, type ids, tokens and masks are appended, the offsets of the second are moved by the bytes of the first, and its word numbers (unless the word index is given) by the number of words of the first. This holds for the GPT-2 pipeline if the first text ends with something other than white space and the second starts with white space; for WhiteSpaceSplit, the rune delimiter, the default white-space pre-tokenizer and the BERT pre-tokenizer with WordPiece or BPE without dropout if the two runes at the boundary are not part of one word; for BERT with its normalizer if this holds of the normalized texts; and for the meta-space pre-tokenizer if the second text begins with a space or the replacement and is itself encoded without the added prefix. Elsewhere it is different: after white space in GPT-2, inside a word in BERT, with the added prefix in meta-space.", "quantifier": "all pairs of valid texts that meet at such a boundary (for BERT with the normalizer: from whose fronts no multi-byte rune is dropped), all models with valid vocabularies that have the unknown token, word indices and type ids, all Unicode tables (for GPT-2: sane ones in which the lower case of white space is white space)", "why_tests_cant": "A relation between three runs of a pipeline, for all pairs of texts.", "anchors": ["pretokenizers/bytelevelpretokenizer/bytelevelpretokenizer.go:PreTokenize", "pretokenizers/bertpretokenizer/bertpretokenizer.go:PreTokenize", "pretokenizers/whitespacepretokenizer/whitespacepretokenizer.go:PreTokenize", "pretokenizers/metaspacepretokenizer/metaspacepretokenizer.go:PreTokenize", "models/wordpiecemodel/wordpiecemodel.go:Tokenize", "models/bpemodel/bpemodel.go:Tokenize", "pretokenizedstring/pretokenizedstring.go:IntoEncoding"]}
{"id": "C88", "title": "A word of known characters is not unknown", "statement": "For every vocabulary of valid terms and every valid word within the length limit whose characters are all in the vocabulary (the first as it is, the others after the continuing-subword prefix), WordPiece Tokenize gives tokens that are terms and tile the word, and not the unknown token.", "quantifier": "all vocabularies and words", "why_tests_cant": "Depends on the byte widths of the characters of the word; tests are ASCII.", "anchors": ["models/wordpiecemodel/wordpiecemodel.go:Tokenize"]}
{"id": "C89", "title": "What the default constructors give", "statement": "MetaSpacePreTokenizer from NewDefault cuts every non-empty valid text without U+2581 at its spaces, one word per gap between spaces, each with U+2581 in front. BertNormalizer from DefaultBertNormalizer cleans the text, then puts Chinese characters between spaces, then drops marks, then lower-cases (when it does not panic). BPEModel from NewDefault gives no tokens and no error for every text and WordPieceModel from NewDefault an error for every non-empty one: their vocabularies are empty and cannot be changed.", "quantifier": "all texts", "why_tests_cant": "All texts; the defaults are constants that no test pins down together.", "anchors": ["pretokenizers/metaspacepretokenizer/metaspacepretokenizer.go:NewDefault", "normalizers/bertnormalizer/bertnormalizer.go:DefaultBertNormalizer", "models/bpemodel/bpemodel.go:NewDefault", "models/wordpiecemodel/wordpiecemodel.go:NewDefault", "pretokenizers/metaspacepretokenizer/metaspacepretokenizer.go:PreTokenize"]}
{"id": "C90", "title": "Whole tokenizers do not depend on the width of integers", "statement": "On 32-bit and 64-bit machines, for texts well below the largest int, BertNormalizer, the six pre-tokenizers, the BPE and WordPiece models run by Tokenize, and IntoEncoding give what they would with unbounded integers, on any splits that the library makes of a text. In particular a GPT-2 tokenizer loaded from its vocabulary and merges files and a BERT tokenizer loaded from its vocabulary file encode every valid text as the reference implementations do, with all integer arithmetic wrapping.", "quantifier": "all machines, all texts up to a fixed part of the largest int, all settings, all consistent states of the splits", "why_tests_cant": "Overflow shows only for texts of hundreds of megabytes, and on machines that the tests do not run on.", "anchors": ["pretokenizers/bytelevelpretokenizer/bytelevelpretokenizer.go:PreTokenize", "pretokenizers/metaspacepretokenizer/metaspacepretokenizer.go:PreTokenize", "pretokenizers/bertpretokenizer/bertpretokenizer.go:PreTokenize", "normalizers/bertnormalizer/bertnormalizer.go:Normalize", "pretokenizedstring/pretokenizedstring.go:IntoEncoding"]}
{"id": "C91", "title": "String patterns on any bytes", "statement": "For every non-empty pattern string p and every non-empty byte string s, also one that is not valid UTF-8, FromString(p).FindMatches(s) succeeds and covers [0,len(s)) with contiguous ordered captures. Every match, read rune by rune as range does, is p. Nothing inside another capture is read as p. If p does not contain U+FFFD, every match has the bytes of p and the result is the one of searching for these bytes; U+FFFD in p also matches a byte that starts no encoding.", "quantifier": "all pattern strings, all byte strings", "why_tests_cant": "Tests use valid texts.", "anchors": ["splitpattern/string.go:FromString", "splitpattern/string.go:FindMatches", "splitpattern/regexp.go:FindMatches"]}
{"id": "C92", "title": "Inverted patterns and slices that are kept", "statement": "Invert(p).FindMatches returns the slice that p returned, with the flags negated in place, and changes nothing else. If p returns a new slice at every call, as all patterns of the package do, then in any history of calls of plain, inverted and repeatedly inverted patterns every result is p's with the flags negated as often as it was inverted, and stays so whatever is called later. If p returns a slice that it keeps, n calls leave that slice, and so all earlier results, negated iff n is odd.", "quantifier": "all patterns, all histories of calls, all texts", "why_tests_cant": "Tests call an inverted pattern once, over patterns that make new slices.", "anchors": ["splitpattern/invertedpattern.go:Invert", "splitpattern/invertedpattern.go:FindMatches"]}
{"id": "C93", "title": "Recovered panics and ignored errors", "statement": "When Transform, TransformRange, Filter, Map, Trim, Prepend or Append panics, also because the function given to Filter or Map does, the string is as before the call; after a panic in Replace it is as the replacements before the failing one left it. When the function given to Split, Normalize or Tokenize of PreTokenizedString panics or returns an error on a split, no split is lost, added or moved: earlier ones are as the function left them (with their tokens for Tokenize), the failing one has the string it left and no tokens, later ones are untouched. After any history of such calls, each panic recovered and each error ignored, every string has one alignment per byte, in order and inside the original, and every split's offsets still cut its original out of the input.", "quantifier": "all valid states, all functions that may panic, fail or change their string, all histories", "why_tests_cant": "Tests stop at the first panic or error and never look at what is left.", "anchors": ["normalizedstring/normalizedstring.go:TransformRange", "normalizedstring/normalizedstring.go:Replace", "normalizedstring/normalizedstring.go:Filter", "pretokenizedstring/pretokenizedstring.go:Split", "pretokenizedstring/pretokenizedstring.go:Normalize", "pretokenizedstring/pretokenizedstring.go:Tokenize"]}
{"id": "C94", "title": "With the tables of Unicode", "statement": "With the character tables of Unicode 14: every condition on tables that other properties assume (C60, C65, C68, C83, C84, C86, C87, C90) holds; LowerCaseNormalizer maps characters to characters, and applying it twice gives the same text and alignments as applying it once; BertPreTokenizer and the byte-level pre-tokenizer cut the lower-cased text at the same characters as the text; the letters and numbers of the byte-level pieces are those of categories L and N; the word characters of WhiteSpacePreTokenizer are those of categories L, Mn, Nd and Pc and the joiners U+200C and U+200D; the ASCII characters that are no letter, digit or space and at which BertPreTokenizer does not cut are $ + < = > ^ ` | ~; the white space that text cleaning deletes instead of replacing it by a space is U+000B, U+000C and U+0085.", "quantifier": "all runes, all valid texts", "why_tests_cant": "Tests use a few characters of a few scripts; there are over a hundred thousand.", "anchors": ["normalizers/lowercasenormalizer/lowercasenormalizer.go:Normalize", "normalizers/bertnormalizer/bertnormalizer.go:isControlCharacter", "pretokenizers/bertpretokenizer/bertpretokenizer.go:PreTokenize", "pretokenizers/bytelevelpretokenizer/bytelevelpretokenizer.go:PreTokenize", "normalizedstring/normalizedstring.go:ToLower"]}
{"id": "C95", "title": "Slices of splits and pointers to tokens", "statement": "Take any program that makes PreTokenizedStrings with FromString and FromNormalizedString, calls Split, Normalize and Tokenize on them in any order, with functions that use strings only, reads them with IntoEncoding, GetOriginalByteSplits and GetNormalizedByteSplits, and keeps slices returned by Splits. It behaves as if each PreTokenizedString had its own list of splits, each with its own tokens: the strings, the errors and other results, the panics and the splits of every object are the same, and no two splits share the slice that their Tokens points to. A slice kept from Splits shows the splits of the object as they are, with tokens that Tokenize sets later, until a call of Split on that object succeeds; from then on it shows what it showed before that call, whatever is called on this or another object. With any function that leaves the splits of the object alone, whatever else it does, Tokenize keeps the splits and the tokens that were there, and if it returns no error every split has tokens.", "quantifier": "all programs on any number of objects, all functions passed to them, any memory at the start", "why_tests_cant": "Tests look at one object through its last state; which slices share memory shows only in later writes.", "anchors": ["pretokenizedstring/pretokenizedstring.go:Split", "pretokenizedstring/pretokenizedstring.go:Tokenize", "pretokenizedstring/pretokenizedstring.go:Normalize", "pretokenizedstring/pretokenizedstring.go:Splits", "pretokenizedstring/pretokenizedstring.go:FromNormalizedString", "pretokenizedstring/split.go:Split"]}
{"id": "C96", "title": "What the dropout value means", "statement": "If the dropout value is not above 0 (0, negative, not a number), what is drawn has no influence on MergeAll and Tokenize. If it is 1 or more, MergeAll leaves every word as it was and Tokenize gives what it gives without any merge rules. In between, let n be the number of adjacent pairs of the word that have a rule: MergeAll leaves the word as it was exactly if the first n draws are all below the value, and otherwise makes at least one merge; so with independent uniform draws nothing is merged with probability dropout^n.", "quantifier": "all words, merge maps, texts, models, all float64 values, all sequences of draws from [0,1)", "why_tests_cant": "Draws are random: a test sees a few sequences, and the boundary cases (a draw equal to the value, value 1, not a number) practically never.", "anchors": ["models/bpemodel/word.go:MergeAll", "models/bpemodel/bpemodel.go:hasDropout", "models/bpemodel/bpemodel.go:Tokenize"]}
{"id": "C97", "title": "Files are read in pieces, and reading can fail", "statement": "FromJSONFile and MergeMapFromFile give the same result however the operating system cuts the file into reads. If opening or reading the file fails, neither returns a vocabulary or a merge map: FromJSONFile returns that error; MergeMapFromFile returns the error of opening, or the first fault in the lines read so far, the last of which may be cut short, and otherwise the error of reading. If everything could be read, the result is that of the content (C51, C81); an error of closing is returned along with the map.", "quantifier": "all files, all sizes of reads, errors of open, read (after any byte) and close", "why_tests_cant": "Tests read small files that come in one piece, on disks that do not fail.", "anchors": ["vocabulary/vocabulary.go:FromJSONFile", "models/bpemodel/mergemap.go:MergeMapFromFile"]}
{"id": "C98", "title": "The ids of the BERT tokenizer give back the words", "statement": "Write a vocabulary with distinct terms and distinct ids to a file, load it, make a WordPiece model with it whose continuing prefix begins with a punctuation mark and has two characters or more (## has), and take a text through BertNormalizer, BertPreTokenizer, Tokenize and IntoEncoding. Look each id up among the terms written, and glue a term with the prefix, without it, to the term before: if the unknown token is not among the tokens, the result is the list of words of the normalized text; if it is and does not begin with the prefix, the result is that list with unknown words replaced by the unknown token. So two texts of known words get the same ids exactly if they have the same words, and texts with the same words always get the same ids, tokens and word numbers.", "quantifier": "all vocabularies, valid texts not starting with a dropped character of several bytes, normalizer settings, models with such a prefix", "why_tests_cant": "Tests compare a few ids; that nothing of any text is lost or confused is a statement about pairs of texts.", "anchors": ["models/wordpiecemodel/wordpiecemodel.go:Tokenize", "pretokenizers/bertpretokenizer/bertpretokenizer.go:PreTokenize", "normalizers/bertnormalizer/bertnormalizer.go:Normalize", "vocabulary/vocabulary.go:FromJSONFile"]}
{"id": "C99", "title": "Goroutines may share a vocabulary and a merge map for tokenizing", "statement": "Let any number of goroutines call Tokenize on BPE and WordPiece models that share one vocabulary and one merge map, and let their accesses to these maps and their draws of random numbers come in any order. Then the maps stay as they are, no two accesses race, no goroutine panics, and a goroutine that ends has what its calls return alone, with the numbers that it drew; without dropout this is one result only. A goroutine that gets its turn again and again ends, whatever the others do. AddTerm is not safe: it races with Tokenize, and two goroutines that add different terms can give them the same id.", "quantifier": "all numbers of goroutines, lists of calls, models, vocabularies, merge maps, all interleavings, all random numbers", "why_tests_cant": "Tests run in one goroutine; there are too many interleavings to try, and a race may show in none of those tried.", "anchors": ["models/bpemodel/bpemodel.go:Tokenize", "models/bpemodel/word.go:MergeAll", "models/wordpiecemodel/wordpiecemodel.go:Tokenize", "vocabulary/vocabulary.go:AddTerm", "vocabulary/vocabulary.go:GetID", "models/bpemodel/mergemap.go:Get"]}
{"id": "C100", "title": "Ids and ranks are only names", "statement": "Take a model and rename its ids by a map that keeps different ids different, in the vocabulary and in the merge map, and change the ranks of the merges so that their order stays. Then Tokenize gives the same tokens with the new ids, with and without dropout. So two vocabularies with the same terms in any numbering and one merges file give models that make the same values and offsets. For WordPiece this holds for every map of ids.", "quantifier": "all models, sequences, renamings of ids and order-preserving changes of ranks, all random numbers; all merges files", "why_tests_cant": "A test has one numbering of its vocabulary. Nothing in the code says that ids are not compared by size or used as positions.", "anchors": ["models/bpemodel/bpemodel.go:Tokenize", "models/bpemodel/word.go:MergeAll", "models/bpemodel/wordmerge.go:Less", "models/bpemodel/mergemap.go:MergeMapFromFile", "models/wordpiecemodel/wordpiecemodel.go:Tokenize"]}
{"id": "C101", "title": "Tokenize looks only at the entries for its own characters", "statement": "Tokenize of a BPE model looks at nothing but the ids of the characters of the sequence (with prefix and suffix) and of the unknown token, at the merges of pairs of ids that can arise from these, and at their strings. So AddTerm of a term that is not looked up changes nothing if its new id is not one that arises, nor does a merge of a pair that cannot arise, nor other ranks in the same order. For WordPiece only the parts of the sequence and the unknown token matter. If the ids have a gap, as in a JSON file, AddTerm can take an id in use, and then an unrelated term appears in the tokens.", "quantifier": "all models, sequences, terms, merges, random numbers", "why_tests_cant": "Whether an entry far away in a large vocabulary has an influence cannot be found by trying some entries.", "anchors": ["models/bpemodel/bpemodel.go:Tokenize", "models/bpemodel/word.go:MergeAll", "models/wordpiecemodel/wordpiecemodel.go:Tokenize", "vocabulary/vocabulary.go:AddTerm", "models/bpemodel/mergemap.go:Set"]}
{"id": "C102", "title": "Calls that change different parts of a NormalizedString commute", "statement": "Map commutes with the other calls: Map then Filter is Filter by the condition on the mapped rune, then Map; Map after Prepend or Append is Prepend or Append of the mapped string to the mapped text; a slice, or the pieces of a split with FromFunc (isolated or removed), of the mapped text are the mapped slice or pieces of the text. Prepend twice is Prepend of both strings joined, so is Append twice; Prepend and Append can be made in either order. All this holds for text, alignments, original and shift. Where Filter and Append are wrong (C06, C09: runes longer than one byte in front) this can fail.", "quantifier": "all states that calls can reach, all functions on runes, conditions and strings", "why_tests_cant": "The alignments after two calls depend on both texts, byte by byte; each order goes through different code, and tests compare at best a few texts.", "anchors": ["normalizedstring/normalizedstring.go:Map", "normalizedstring/normalizedstring.go:Filter", "normalizedstring/normalizedstring.go:Prepend", "normalizedstring/normalizedstring.go:Append", "normalizedstring/normalizedstring.go:Slice", "normalizedstring/normalizedstring.go:Split"]}
{"id": "C103", "title": "Encoding again what the BERT tokenizer has normalized or read back", "statement": "The BERT tokenizer gives a text and its normalized text the same words, hence the same ids, tokens and word numbers, in every configuration, although the normalizer puts further spaces around Chinese characters each time. If no word is unknown, the ids looked up in the vocabulary, glued at the marks of continuing pieces and joined by spaces are a text with the same ids again. Lower-casing must change neither the class of a rune nor its own result; the tables of Unicode are such.", "quantifier": "all vocabulary files, configurations, marks, texts, also with the tables of Unicode", "why_tests_cant": "Normalizing twice is not normalizing once, so the claim is about how four steps work together with the two splits; a single rune with odd case or accent tables breaks it.", "anchors": ["normalizers/bertnormalizer/bertnormalizer.go:Normalize", "pretokenizers/bertpretokenizer/bertpretokenizer.go:PreTokenize", "models/wordpiecemodel/wordpiecemodel.go:Tokenize", "vocabulary/vocabulary.go:FromJSONFile", "pretokenizedstring/pretokenizedstring.go:IntoEncoding"]}
{"id": "C104", "title": "The meta-space tokenizer from its two files to the encoding and back", "statement": "Write a vocabulary and merge rules to files and load them. Then every valid text whose characters, with the replacement for spaces, are terms is encoded by MetaSpacePreTokenizer, Tokenize with BPE on the loaded tables, and IntoEncoding, without error or panic. The text, with the replacement in front if asked for, is cut in front of every replacement; the tokens are, piece by piece, what the textbook BPE algorithm makes of the characters. The ids are those of the file, the words are numbered, and the input at the offsets of a token, with spaces replaced, is the token. The terms of the ids one after the other are the text with replacements; if the replacement does not occur in the input, undoing it gives the input. So two such inputs have the same ids only if they are equal; inputs with the replacement exactly if they agree after replacing.", "quantifier": "all vocabularies and rules as in C82, all replacements, valid texts, both settings of the prefix, unknown tokens that are empty or entries, all word indices and type ids", "why_tests_cant": "The whole path from files to ids and back, for all files and texts.", "anchors": ["pretokenizers/metaspacepretokenizer/metaspacepretokenizer.go:PreTokenize", "vocabulary/vocabulary.go:FromJSONFile", "models/bpemodel/mergemap.go:MergeMapFromFile", "models/bpemodel/bpemodel.go:Tokenize", "pretokenizedstring/pretokenizedstring.go:IntoEncoding"]}
{"id": "C105", "title": "A merges file cut short", "statement": "Load a vocabulary, a merges file, and the same merges file without its last rules (none of which is also among the first ones). Then for every text of known characters each token that Tokenize returns with the whole file is made of one or more neighbouring tokens returned with the short file, in order and without a rest, and has their place. So a longer merges file never gives more tokens, and never moves a boundary to a new place. If a rule comes twice, the later line counts and this is false.", "quantifier": "all vocabularies and rules as in C82, all places to cut the file, all texts of known characters, suffixes, unknown tokens", "why_tests_cant": "Tests compare a few files; the claim is about every file and every prefix of it.", "anchors": ["models/bpemodel/mergemap.go:MergeMapFromFile", "models/bpemodel/bpemodel.go:Tokenize", "models/bpemodel/word.go:MergeAll"]}
{"id": "C106", "title": "Parts of a tokenized text", "statement": "With a vocabulary and rules from files, tokenize a text of known characters. Pick neighbouring tokens of the result: the text that they cover gives these tokens again, at offsets from 0 on; so a token is the only token of its own text. A text in two parts has the tokens of the first part followed by those of the second exactly if some token ends where the first part ends (or it is empty).", "quantifier": "all vocabularies and rules as in C82, all texts of known characters, all runs of tokens, all places to cut", "why_tests_cant": "Merges are chosen in the whole word by rank and then from the left; that the choice inside a part does not depend on what is outside needs an argument about the whole run.", "anchors": ["models/bpemodel/bpemodel.go:Tokenize", "models/bpemodel/word.go:MergeAll", "models/bpemodel/wordmerge.go:Less"]}
{"id": "C107", "title": "Parts of a word that WordPiece has cut", "statement": "If WordPiece cuts a word into tokens, then the text of the word up to the end of any of them, taken as a word, has exactly the tokens up to there, whatever characters it has (also those of three bytes, C37). The tokens after the end of a token depend only on the text after it: two words that go on in the same way from the ends of two tokens have the same tokens there, at moved offsets. A further term in the vocabulary, however, can make a word unknown that was not.", "quantifier": "all vocabularies, prefixes and limits, all words (bytes of any kind; if the cut is not between characters, the front must be within the limit)", "why_tests_cant": "The search steps back from the end of the word by amounts that depend on the bytes, so that a shorter word is searched along another path; the claim is that it meets the old one at every token.", "anchors": ["models/wordpiecemodel/wordpiecemodel.go:Tokenize"]}
{"id": "C108", "title": "The order of the normalizers in a sequence", "statement": "In a SequenceNormalizer, LowerCaseNormalizer and StripNormalizer can change places, and LowerCaseNormalizer before BertNormalizer, or after it, gives what BertNormalizer with lower-casing switched on gives: the same text, and the same place in the original for every byte, with all other settings free. Lower-casing must change neither the class of a rune nor its own result and must send ASCII to ASCII; the tables of Unicode are such. Leading characters that are removed must be ASCII (or nothing else may be there): with other leading white space the places depend on the order.", "quantifier": "all strings in any state reached by the API, all settings, also with the tables of Unicode", "why_tests_cant": "The steps look at classes of runes that lower-casing could change, and lower-casing changes the number of bytes; tests try a few texts.", "anchors": ["normalizers/sequencenormalizer/sequencenormalizer.go:Normalize", "normalizers/lowercasenormalizer/lowercasenormalizer.go:Normalize", "normalizers/stripnormalizer/stripnormalizer.go:Normalize", "normalizers/bertnormalizer/bertnormalizer.go:Normalize"]}
{"id": "C109", "title": "Any sequence of steps up to the encoding", "statement": "Take a PreTokenizedString of valid text through any sequence of Split, Normalize and Tokenize, also ones that stop with an error, where the functions given change a string by calls of the library and split it with patterns that keep their contract, and tokens may be anything. Then every split tells the part of the input that it comes from, and the splits start in the order of the input. Once every split has tokens in order on non-empty parts of its text, IntoEncoding succeeds, the offsets lie within the input, and over all splits the starts never go back. If no call puts a rune at the front of a split that does not stand for any (Prepend(\"\"), Transform with an insertion first, Replace of an empty match), the ends of splits and offsets never go back either. All pre-tokenizers and normalizers of the library are such, in any order and number; after them Tokenize with WordPiece or BPE, whose tables are complete, and IntoEncoding succeed, and every offset selects the original text of its token.", "quantifier": "all valid texts, all sequences of such steps, all functions, word indices and type ids; for the library also all settings and engines with ordered matches", "why_tests_cant": "The claim is about every composition of steps, also ones that nobody has tried.", "anchors": ["pretokenizedstring/pretokenizedstring.go:Split", "pretokenizedstring/pretokenizedstring.go:Normalize", "pretokenizedstring/pretokenizedstring.go:Tokenize", "pretokenizedstring/pretokenizedstring.go:IntoEncoding", "normalizedstring/normalizedstring.go:Split", "normalizedstring/normalizedstring.go:TransformRange"]}
{"id": "C110", "title": "Converting ranges there and back is an adjunction", "statement": "CoerceRangeToOriginal and CoerceRangeToNormalized keep inclusion of ranges. Two neighbouring ranges of the normalized text stand together for the range from the start of what the first stands for to the end of what the second stands for, in order; neighbouring ranges of the original stand for ranges of the normalized text that do not overlap. Each conversion is the best answer to the other: a non-empty range of the normalized text whose first byte stands for something stands for a range inside (a,b) exactly if it lies in the range that (a,b) stands for. So what (a,b) stands for, converted back, is the part of (a,b) that is needed, and converting this part gives the same range again.", "quantifier": "all strings reachable by any calls from valid text, all pairs of ranges", "why_tests_cant": "Tests convert single ranges; the claim relates the results for all pairs of ranges, also around inserted and removed text.", "anchors": ["normalizedstring/normalizedstring.go:CoerceRangeToNormalized", "normalizedstring/normalizedstring.go:CoerceRangeToOriginal"]}
{"id": "C111", "title": "Which terms are ever tokens", "statement": "With BPE from a vocabulary file and a merges file, a term is a token of some text of known characters exactly if it is a text of known characters and Tokenize of the term itself gives the one token with the id of the term and the offsets of the whole. Such a term is a single character or the product of a rule; every known single character is such a term. Further rules at the end of the file, none of which is among the first ones, keep every such term. A product of a rule need not be such a term. With WordPiece every non-empty term within the limit of characters is the only token of its own text.", "quantifier": "all vocabularies and merges files that can be written, all texts of known characters, all random choices, cache sizes and unknown tokens; all WordPiece models", "why_tests_cant": "The claim excludes a token from all texts by looking at one; no set of tests can show that a term never comes up.", "anchors": ["models/bpemodel/bpemodel.go:Tokenize", "models/bpemodel/word.go:MergeAll", "models/bpemodel/mergemap.go:MergeMapFromFile", "models/wordpiecemodel/wordpiecemodel.go:Tokenize"]}
{"id": "C112", "title": "Ranges of other types and unknown behaviours", "statement": "Range is an interface, so any type with the three methods can be given, also a pointer to one of the two types of the package. On a range of another type whose Len is End minus Start, CoerceRangeToNormalized, GetRange and TransformRange act as on the OriginalRange with the same ends and CoerceRangeToOriginal and GetOriginalRange as on the NormalizedRange with the same ends; Slice panics. So a pointer to a NormalizedRange selects and changes another part than the range itself. If Len is zero the ends are given back; if Len is not zero and the ends are equal, (0,0) of an empty text expands to everything it stands for and CoerceRangeToOriginal panics otherwise. With nil every function panics. Split with a number that is none of the five behaviours asks the pattern first, returns its error, and panics otherwise.", "quantifier": "all strings, all ranges and lengths, all patterns, all 256 values of SplitDelimiterBehavior", "why_tests_cant": "The type system of the tests keeps to the two types; pointers compile as well.", "anchors": ["normalizedstring/range.go:Range", "normalizedstring/normalizedstring.go:CoerceRangeToNormalized", "normalizedstring/normalizedstring.go:CoerceRangeToOriginal", "normalizedstring/normalizedstring.go:rangeIsValid", "normalizedstring/normalizedstring.go:Split"]}
{"id": "C113", "title": "Models without tables", "statement": "A nil pointer for a vocabulary or merge map never changes a result: a call panics or gives what it gives with any tables in place of nil. BPE with a nil vocabulary gives no tokens for the empty text and panics for every other; WordPiece panics too, except for the empty text within the limit. BPE with a nil merge map gives what it gives with an empty one if that is at most one token or the error about the unknown token, and panics if that is more than one token. A merge map that points to a nil map is an empty one for Tokenize; Set panics on it, as AddTerm does on a vocabulary without maps.", "quantifier": "all options, texts, vocabularies and random draws", "why_tests_cant": "Tests build their models with the constructors for tables; the claim says for which texts a missing one is noticed.", "anchors": ["models/bpemodel/bpemodel.go:New", "models/bpemodel/bpemodel.go:Tokenize", "models/bpemodel/mergemap.go:Get", "models/bpemodel/mergemap.go:Set", "models/wordpiecemodel/wordpiecemodel.go:Tokenize", "vocabulary/vocabulary.go:GetID", "vocabulary/vocabulary.go:AddTerm"]}
{"id": "C114", "title": "OriginalAlignments says as much as the alignments", "statement": "On every reachable string with a text the alignments of the bytes can be computed from OriginalAlignments by the rule that computes those from them: byte i of the text stands for the part of the original between the number of entries that end by i and the number of entries that begin by i. The last entry ends with the text, so two strings with an original and the same OriginalAlignments have the same alignments. Both conversions can be read off the entries: CoerceRangeToOriginal of (c,d) gives the numbers of entries that end by c and that begin before d; CoerceRangeToNormalized of (a,b) ends where the entry of b begins, begins where the entry of a begins or the entry before it ends, whichever is later (at most at its end), and fails exactly if the entry of b begins at 0; beyond the original the length of the text stands for the entry. A byte that stands for an empty part stands for (0,0).", "quantifier": "all strings reachable by any calls from valid text, all ranges", "why_tests_cant": "It relates three functions on all states; tests compare single values of each.", "anchors": ["normalizedstring/normalizedstring.go:OriginalAlignments", "normalizedstring/normalizedstring.go:CoerceRangeToNormalized", "normalizedstring/normalizedstring.go:CoerceRangeToOriginal", "normalizedstring/normalizedstring.go:TransformRange"]}
{"id": "C115", "title": "WordPiece with further terms", "statement": "Let one WordPiece model have the terms of another with the same ids, and further ones. If the tokens of a word with more terms are all terms of the smaller vocabulary, and not the unknown token over the whole word, the smaller one gives the same tokens. A word that is not unknown with the smaller vocabulary has the same tokens with the larger one, or the first different token is one of the further terms, begins where the old token begins and is longer; what is behind it is cut anew or the whole word becomes unknown. A word that is unknown with the smaller and not with the larger one has a further term among its tokens. AddTerm of a new term gives such a vocabulary, with this term as the only further one.", "quantifier": "all pairs of vocabularies one of which extends the other, all prefixes, limits and unknown tokens, all byte strings", "why_tests_cant": "The effect of a new term on all words is not visible from some; that it can make a known word unknown is easily missed.", "anchors": ["models/wordpiecemodel/wordpiecemodel.go:Tokenize", "vocabulary/vocabulary.go:AddTerm", "vocabulary/vocabulary.go:GetID"]}
{"id": "C116", "title": "Rules that a text does not need", "statement": "With BPE from a vocabulary file and a merges file: for each text of known characters there are as many lines of the merges file as the text has characters more than tokens, each with a product that is part of one of the tokens, such that every merges file with these rules and any of the others, in the order of the whole file, gives the same tokens with the same offsets. So dropping all rules whose product is in none of the tokens changes nothing; dropping those whose product is no token can.", "quantifier": "all vocabularies and merges files that can be written, all texts of known characters, all sets of dropped rules, all random choices, cache sizes and unknown tokens", "why_tests_cant": "The claim is about all sub-files; a test can only try some.", "anchors": ["models/bpemodel/bpemodel.go:Tokenize", "models/bpemodel/word.go:MergeAll", "models/bpemodel/mergemap.go:MergeMapFromFile"]}
{"id": "C117", "title": "How many tokens there are", "statement": "BPE never gives more tokens than the text has characters, whatever is dropped out; it gives at least one unless the text is empty or unknown characters are left out; if every merge is dropped and unknown characters are not fused, it gives exactly one per character. Dropout can give fewer tokens than no dropout. WordPiece gives at least one token to a word that is not empty, not more than it has bytes, not more than it has characters if the terms are UTF-8, and more than one only if the word is not too long. An Encoding of splits without tokens has as many rows as the tokenization function gives tokens, so at most one per character of the splits and, with WordPiece, at least one per split. The Encoding of the BERT tokenizer has no more rows than the input has characters, that of the GPT-2 tokenizer no more than the input has bytes and one more only if a space is added.", "quantifier": "all models, texts, random choices; all PreTokenizedStrings whose splits have no tokens; all valid inputs of the two tokenizers", "why_tests_cant": "Upper bounds for all inputs, on which the size of buffers may rely, cannot be found by trying inputs.", "anchors": ["models/bpemodel/bpemodel.go:Tokenize", "models/wordpiecemodel/wordpiecemodel.go:Tokenize", "pretokenizedstring/pretokenizedstring.go:IntoEncoding", "encodings/encodings.go:Len"]}
{"id": "C118", "title": "Normalizing before or after pre-tokenizing", "statement": "If a function on runes does not change which runes are delimiters, a PreTokenizedString may be normalized with it (Normalize with a function that calls Map, e.g. the lower-case normalizer) before or after the pre-tokenizer runs: the splits are the same in text, alignments, original, offsets and tokens, and so are the tokens of any model and the Encoding. This holds for the white-space-split, BERT, rune-delimiter, white-space and meta-space pre-tokenizers and for splits by the GPT-2 expression with every SplitDelimiterBehavior; with the tables of Unicode it holds for lower-casing. More generally, the pieces of a mapped string, with every behaviour, are the mapped pieces of the string split where the images of the runes are delimiters. A function that makes delimiters of other runes can give other splits.", "quantifier": "all PreTokenizedStrings whose strings without tokens are made of whole characters, all functions on runes that respect the delimiters, all behaviours", "why_tests_cant": "The two orders run through different slices and alignments; that they agree for all texts and functions is not visible from examples.", "anchors": ["pretokenizedstring/pretokenizedstring.go:Normalize", "pretokenizedstring/pretokenizedstring.go:Split", "normalizedstring/normalizedstring.go:Split", "normalizedstring/normalizedstring.go:Map", "normalizers/lowercasenormalizer/lowercasenormalizer.go:Normalize", "pretokenizers/bertpretokenizer/bertpretokenizer.go:PreTokenize", "pretokenizers/metaspacepretokenizer/metaspacepretokenizer.go:PreTokenize"]}
{"id": "C119", "title": "How words are separated does not matter", "statement": "A normalizer that changes only the delimiters around and between the words of a text has no effect on a pre-tokenizer that removes these delimiters: the splits that come out (text, alignments, original, offsets, tokens) are exactly those of the text as it was, and so is whatever is computed from them. Such are, for the white-space-split and the BERT pre-tokenizer: stripping white space at either end, putting white space in front, putting white space at the end, and replacing white-space runes by a string of white space that is not empty; the same holds for the rune-delimiter pre-tokenizer and its delimiter, and for Map with a function that changes delimiters into delimiters only. For Strip the white space in front must be ASCII (or the text nothing else), and for Append all characters but the last must be ASCII, because of the byte and rune positions these methods confuse (C07, C09); a text with U+3000 in front is cut differently after Strip.", "quantifier": "all PreTokenizedStrings, with or without tokens on some splits, whose strings are made of whole characters; all delimiters and contents; all conditions on runes", "why_tests_cant": "Every text and every combination of delimiters would have to be tried; the alignments of the words go through Transform and Slice in different ways.", "anchors": ["normalizers/stripnormalizer/stripnormalizer.go:Normalize", "normalizedstring/normalizedstring.go:TrimLeftRight", "normalizedstring/normalizedstring.go:Prepend", "normalizedstring/normalizedstring.go:Append", "normalizedstring/normalizedstring.go:Replace", "pretokenizers/bertpretokenizer/bertpretokenizer.go:PreTokenize", "pretokenizers/whitespacesplitpretokenizer/whitespacesplitpretokenizer.go:PreTokenize", "pretokenizers/runedelimiterpretokenizer/runedelimiterpretokenizer.go:PreTokenize"]}
{"id": "C120", "title": "Chinese characters are words of their own", "statement": "To put white space around the Chinese characters (BertNormalizer with chineseCharsHandling) and then run the white-space-split pre-tokenizer gives exactly the splits (text, alignments, original, offsets, tokens) of the white-space-split pre-tokenizer on the text as it was, split once more at the Chinese characters with SplitDelimiterIsolated. With the BERT pre-tokenizer: the words, then the Chinese characters on their own, then the punctuation on its own; if the normalizer also lower-cases, these splits in lower case. The white space that was put in leaves no trace. The same holds for any function pattern whose delimiters are put around any other runes.", "quantifier": "all PreTokenizedStrings, with or without tokens on some splits, whose strings without tokens are made of whole characters; all pairs of disjoint conditions on runes", "why_tests_cant": "Positions of inserted runes share the alignment of the character; that slicing them away restores every alignment must hold for every text and every mixture of scripts.", "anchors": ["normalizers/bertnormalizer/bertnormalizer.go:handleChineseChars", "normalizers/bertnormalizer/bertnormalizer.go:Normalize", "pretokenizers/bertpretokenizer/bertpretokenizer.go:PreTokenize", "pretokenizers/whitespacesplitpretokenizer/whitespacesplitpretokenizer.go:PreTokenize", "normalizedstring/normalizedstring.go:Split", "normalizedstring/normalizedstring.go:Transform"]}
{"id": "C121", "title": "What pre-tokenizers, models and encodings see of a split", "statement": "Take two PreTokenizedStrings whose splits have, one by one, the same text with every character aligned to the same bytes of the input, but cut out of different originals (or with some further splits with no text). Any split by a pattern, with any behaviour (so the white-space-split, BERT, rune-delimiter and white-space pre-tokenizers and the expression of GPT-2), gives again such splits, and none without text that was not there before. Tokenize with a model that looks at the text only (WordPiece; BPE with an unknown token) gives the same tokens or the same error, IntoEncoding gives the same encoding, and GetNormalizedByteSplits gives the same splits. So how a split came about matters only through its text and its alignments.", "quantifier": "all pairs of PreTokenizedStrings so related; all patterns and behaviours; all models that place their tokens in the text; all word numbers and type ids", "why_tests_cant": "The same split can be reached by slicing, by deleting, or by both in any order; tests cannot go through the pairs of histories that lead to the same text.", "anchors": ["pretokenizedstring/pretokenizedstring.go:Split", "pretokenizedstring/pretokenizedstring.go:Tokenize", "pretokenizedstring/pretokenizedstring.go:IntoEncoding", "pretokenizedstring/pretokenizedstring.go:GetNormalizedByteSplits", "normalizedstring/normalizedstring.go:Split", "normalizedstring/normalizedstring.go:CoerceRangeToOriginal"]}
{"id": "C122", "title": "Deleting runes before or after pre-tokenizing", "statement": "Delete runes (Filter: stripping accents, removing control characters) from a text and then run the white-space-split, rune-delimiter or BERT pre-tokenizer, or run the pre-tokenizer first and delete the runes from each split: the splits have the same texts with every character aligned to the same bytes of the input, except that the second order keeps splits of which nothing is left, as empty splits. So a model that looks at the texts gives the same encoding if something is left of every split; and in any case if a word number is given to IntoEncoding and the model gives no tokens for an empty text. Required: no deleted rune is a delimiter, and neither the text nor a split of which something is left begins with a deleted rune outside ASCII. To clean a text as BertNormalizer does (textCleaning) before BertPreTokenizer is to delete its control characters afterwards, if those in the text are ASCII and neither vertical tab nor form feed; the two do not agree on a vertical tab, which the cleaning deletes (joining the words around it) and the pre-tokenizer cuts at.", "quantifier": "all PreTokenizedStrings whose strings without tokens are made of whole characters; all sets of runes to delete; all models that place their tokens in the text", "why_tests_cant": "A deletion inside a word, at its edge, of a whole word, or of everything take different paths through the alignments; only a proof covers every mixture of them with the cuts.", "anchors": ["normalizedstring/normalizedstring.go:Filter", "normalizedstring/normalizedstring.go:Split", "normalizers/bertnormalizer/bertnormalizer.go:cleanText", "normalizers/bertnormalizer/bertnormalizer.go:stripAccents", "pretokenizers/bertpretokenizer/bertpretokenizer.go:PreTokenize", "pretokenizers/whitespacesplitpretokenizer/whitespacesplitpretokenizer.go:PreTokenize", "pretokenizedstring/pretokenizedstring.go:Normalize"]}
{"id": "C123", "title": "The BERT normalizer before or after pre-tokenizing", "statement": "Normalize a text with the default BertNormalizer and then run BertPreTokenizer, or cut the text first at white space, around Chinese characters and around punctuation, and then normalize each piece with the BertNormalizer without Chinese character handling: the splits have the same texts with every character aligned to the same bytes of the input, GetNormalizedByteSplits gives the same, and a model that looks at the texts gives the same encoding. Required: every rune that the normalizer deletes (control characters and marks) stands behind one that it keeps, in the same piece, and none of them is white space (vertical tab, form feed and U+0085 are both). Without that the two differ: a mark behind a Chinese character, or a vertical tab between two words.", "quantifier": "all PreTokenizedStrings whose strings without tokens are made of whole characters and satisfy the condition; all valid texts that satisfy it; all models that place their tokens in the text; the tables of Unicode 14", "why_tests_cant": "The normalizer makes five passes over the text, with insertions and deletions in them; whether word by word they do the same to texts and offsets depends on every mixture of deleted, inserted and mapped characters around the cuts.", "anchors": ["normalizers/bertnormalizer/bertnormalizer.go:Normalize", "normalizers/bertnormalizer/bertnormalizer.go:cleanText", "normalizers/bertnormalizer/bertnormalizer.go:handleChineseChars", "normalizers/bertnormalizer/bertnormalizer.go:stripAccents", "pretokenizers/bertpretokenizer/bertpretokenizer.go:PreTokenize", "pretokenizedstring/pretokenizedstring.go:Normalize", "pretokenizedstring/pretokenizedstring.go:Split"]}
{"id": "C124", "title": "Which byte strings the splitting pre-tokenizers take, refuse, or panic on", "statement": "Take any bytes, valid UTF-8 or not. Cutting FromString(s) at the runes that satisfy a predicate (not true of U+FFFD), dropping or isolating them, and so the white-space-split and rune-delimiter pre-tokenizers: there is an error exactly when a stray continuation byte stands right after a delimiter or the last byte is bad (starts no UTF-8 encoding). Otherwise there is a panic exactly when the only bad byte is the last but one and an ASCII byte follows it (\"\\xffa\"). Otherwise it succeeds. The BERT pre-tokenizer cuts twice: if no bad byte stands right before an ASCII byte it does not panic, and reports an error exactly when one of the two cuts has a reason to; otherwise it can panic where white-space-split does not (\"\\xff!bc\"). On valid UTF-8 none of this happens.", "quantifier": "all byte strings; all predicates on runes false of U+FFFD; all delimiters except U+FFFD; all punctuation tables without U+FFFD", "why_tests_cant": "Whether a cut fails depends on the drift between bytes and alignments, three for each bad byte, at the end of every piece; only a statement about all byte strings says that the panic is confined to one shape.", "anchors": ["normalizedstring/normalizedstring.go:FromString", "normalizedstring/normalizedstring.go:Split", "normalizedstring/normalizedstring.go:Slice", "normalizedstring/normalizedstring.go:GetOriginalRange", "strutils/strutils.go:IsRuneBoundary", "splitpattern/func.go:FindMatches", "pretokenizers/whitespacesplitpretokenizer/whitespacesplitpretokenizer.go:PreTokenize", "pretokenizers/runedelimiterpretokenizer/runedelimiterpretokenizer.go:PreTokenize", "pretokenizers/bertpretokenizer/bertpretokenizer.go:PreTokenize"]}
{"id": "C125", "title": "Regular expressions cut without loss on any bytes, and the byte-level transformation needs UTF-8", "statement": "Whatever the string state, its bytes (valid UTF-8 or not) and the matches the engine reports: if Split with a regular expression (either engine) and the Isolated behaviour succeeds, the texts of the pieces joined are the text. The byte-level transformation of a split panics whenever its text is not valid UTF-8, and on FromString(s) exactly then. So, for every expression and engine, if the byte-level pre-tokenizer returns without an error, every text it had to cut is valid UTF-8, except that with AddPrefixSpace the text may start with a bad byte (which the prepended space overwrites).", "quantifier": "all states, all byte strings, all match lists; all pre-tokenized strings", "why_tests_cant": "The engine is a parameter: no test can range over all reported matches, nor over all byte strings.", "anchors": ["splitpattern/regexp.go:FindMatches", "splitpattern/regexp2.go:FindMatches", "normalizedstring/normalizedstring.go:Split", "pretokenizers/bytelevelpretokenizer/bytelevelpretokenizer.go:PreTokenize", "pretokenizedstring/pretokenizedstring.go:Split", "pretokenizedstring/pretokenizedstring.go:Normalize"]}
{"id": "C126", "title": "What the normalizers do with bytes that are not UTF-8", "statement": "Read any byte string as runes, U+FFFD for each bad byte. On FromString of it, and after any of these calls: Map and the lower-case normalizer return and the text is the image of the runes read. Filter skips the runes dropped in front by one byte each, so it panics exactly when a position it then reads is past the alignments; it returns the kept runes whenever what is dropped in front consists of ASCII and bad bytes, or nothing is kept. TrimLeftRight and the strip normalizer return whenever the white space in front is ASCII, or all is white space, and the runes are those read without the outer white space. So the BERT normalizer returns, with the text its four steps specify, whenever what it drops in front is ASCII or bad bytes; with text cleaning every bad byte vanishes. A bad byte in front does no harm where U+FFFD written out in its place makes it panic.", "quantifier": "all byte strings; all rune predicates and mappings; all Unicode tables; all flags", "why_tests_cant": "Only a statement about all byte strings shows that bad bytes alone never make a normalizer panic.", "anchors": ["normalizedstring/normalizedstring.go:FromString", "normalizedstring/normalizedstring.go:TransformRange", "normalizedstring/normalizedstring.go:Filter", "normalizedstring/normalizedstring.go:Map", "normalizedstring/normalizedstring.go:TrimLeftRight", "normalizers/bertnormalizer/bertnormalizer.go:Normalize", "normalizers/lowercasenormalizer/lowercasenormalizer.go:Normalize", "normalizers/stripnormalizer/stripnormalizer.go:Normalize"]}
{"id": "C127", "title": "Splitting loses no byte and Replace changes no other, on any bytes", "statement": "For every state and every byte string: if Split returns for a rune, a rune predicate, a non-empty string, either regexp pattern, or the inversion of one, with a behaviour other than Removed, then the pieces joined are the text, byte for byte, provided the rune or predicate does not take U+FFFD. (With U+FFFD as delimiter the pieces can overlap.) If Replace returns for a rune other than U+FFFD and valid UTF-8 content, the text is the old one with the content in the place of each occurrence of the rune, all other bytes, bad ones included, as they were. So when the meta-space pre-tokenizer with any mark but U+FFFD returns without error, its splits joined are the texts given, each prefixed as configured and with the mark for every space; tokenized splits are untouched.", "quantifier": "all normalized strings in any state; all byte strings; all patterns named; all behaviours but Removed; all marks but U+FFFD", "why_tests_cant": "Bad bytes are read as a rune three bytes long, so whether bytes are lost or doubled depends on where they stand; tests use valid text.", "anchors": ["splitpattern/func.go:FindMatches", "splitpattern/rune.go:FindMatches", "splitpattern/string.go:FindMatches", "splitpattern/regexp.go:FindMatches", "splitpattern/regexp2.go:FindMatches", "splitpattern/invertedpattern.go:FindMatches", "normalizedstring/normalizedstring.go:Split", "normalizedstring/normalizedstring.go:Replace", "normalizedstring/normalizedstring.go:Prepend", "pretokenizers/metaspacepretokenizer/metaspacepretokenizer.go:PreTokenize"]}
{"id": "C128", "title": "Encodings in memory: when the constructors panic, what they allocate and what they share", "statement": "NewEncodingWithCapacity(c) panics exactly when c is negative or c elements of two machine words are more than one allocation can hold; otherwise it makes an empty encoding of seven new, distinct arrays with capacity c and an empty Overflowing, and changes nothing else. NewDefaultEncoding never panics. EncodingFromEncodableTokens never panics for tokens that are in memory; whatever capacities append would choose, none of its appends allocates, all seven slices end full, they hold the rows of the tokens in order, and everything allocated before is as it was; so a later append to one of the integer slices takes a new array. NewEncoding allocates the struct alone and keeps the slices it is given. IsEmpty is Len() == 0, and both depend on IDs only.", "quantifier": "all memories; all capacities; all token lists; all growth rules of append; all word sizes and allocation limits", "why_tests_cant": "Sharing and reallocation do not show in the values a test compares.", "anchors": ["encodings/encodings.go:NewEncoding", "encodings/encodings.go:NewDefaultEncoding", "encodings/encodings.go:NewEncodingWithCapacity", "encodings/encodings.go:EncodingFromEncodableTokens", "encodings/encodings.go:IsEmpty", "encodings/encodings.go:Len"]}
{"id": "C129", "title": "Prepend and Append on any bytes and any state, exactly", "statement": "Take any NormalizedString with a text, of whatever bytes, and at least as many alignments as bytes (as after FromString of any bytes). Prepend panics exactly when the text is shorter than the UTF-8 encoding of the first rune read, which takes a bad first byte; otherwise it puts the new text and that rune in the place of as many bytes as the rune takes, and the alignments are those stated. Append cuts the text at the byte whose number is the number of runes before the last; the last rune and the new text follow. It panics exactly when the new text is not empty and there is no alignment at the last byte of the rune read there. After FromString of any bytes, Append returns whenever everything before the last rune is ASCII or bad bytes, and then only a bad last byte is changed, into U+FFFD. Bad bytes in the new text become U+FFFD.", "quantifier": "all byte strings; all states with as many alignments as bytes; all new texts", "why_tests_cant": "Which of the two calls panics depends on where a bad byte or a long character stands.", "anchors": ["normalizedstring/normalizedstring.go:Prepend", "normalizedstring/normalizedstring.go:Append", "normalizedstring/normalizedstring.go:TransformRange"]}
{"id": "C130", "title": "Replace of a rune on any bytes: it never panics, and the alignments of what it leaves", "statement": "Take any NormalizedString, of whatever bytes, with at least as many alignments as bytes (as after FromString of any bytes), any rune but U+FFFD, and any valid content. Replace of the rune by the content neither panics nor returns an error. The content stands for every such rune, all its bytes aligned as the first byte of the rune was; every other byte, bad ones included, keeps its value and its alignment.", "quantifier": "all byte strings; all states with at least as many alignments as bytes; all runes but U+FFFD; all valid contents", "why_tests_cant": "The alignments are in no way tied to the text when bytes are bad, so each replacement shifts two lists of different lengths.", "anchors": ["normalizedstring/normalizedstring.go:Replace", "normalizedstring/normalizedstring.go:TransformRange", "splitpattern/rune.go:FindMatches"]}
{"id": "C131", "title": "Any bytes cut with any of the five behaviours, and the meta-space pre-tokenizer on any bytes", "statement": "Cut FromString of any bytes at the runes that satisfy a predicate (not true of U+FFFD), with any of the five behaviours. Split returns an error exactly when the last byte is bad (starts no UTF-8 encoding) or, except with MergedWithNext, a stray continuation byte stands right after a delimiter. Otherwise it panics exactly when the only bad byte is the last but one and ASCII follows it. Otherwise it succeeds. So the meta-space pre-tokenizer, with any mark but U+FFFD, reports an error exactly when the last byte is bad, panics exactly when the only bad byte is the last but one and ASCII follows, and otherwise succeeds; if it is to put the mark in front, this needs that the text does not start with a bad byte. If it does and there are fewer than three bytes, it panics.", "quantifier": "all byte strings; all predicates; all behaviours; all marks", "why_tests_cant": "Whether a piece is refused depends on the bytes around the cut, whether it panics on alignments that run past the text.", "anchors": ["normalizedstring/normalizedstring.go:Split", "normalizedstring/normalizedstring.go:Slice", "pretokenizers/metaspacepretokenizer/metaspacepretokenizer.go:PreTokenize", "splitpattern/func.go:FindMatches"]}
{"id": "C132", "title": "The BERT tokenizer with text cleaning on any bytes", "statement": "Take any bytes, valid UTF-8 or not, such that no bad byte and no multi-byte rune is dropped at the very front (or everything is dropped). BertNormalizer with text cleaning, BertPreTokenizer, WordPiece (vocabulary of valid terms with the unknown token) and IntoEncoding succeed. The words are those of the normalized text, in which no bad byte is left. The offsets are increasing and disjoint. The bytes at the offsets of a token, read as Go reads them, normalize to exactly what the token stands for, white space left out: the token is the unknown token or this text, after the prefix unless it begins a word. Together the tokens stand for all visible characters of the normalized text.", "quantifier": "all byte strings with the stated front; all settings of the normalizer with text cleaning; all Unicode tables that keep the space; all WordPiece models with the unknown token", "why_tests_cant": "A bad byte has more alignments than bytes, so the arrays get out of step with the text, and stay so through every step.", "anchors": ["normalizers/bertnormalizer/bertnormalizer.go:Normalize", "pretokenizers/bertpretokenizer/bertpretokenizer.go:PreTokenize", "pretokenizedstring/pretokenizedstring.go:IntoEncoding", "normalizedstring/normalizedstring.go:TransformRange"]}
{"id": "C133", "title": "IntoEncoding on any bytes", "statement": "IntoEncoding panics exactly when every split has tokens and some token stands on a non-empty part that is not within the alignments of its split. Otherwise the offsets of a token on a non-empty part go from the start of the alignment of its first byte to the end of that of its last, moved by the shift of the split; a token on an empty part keeps its own offsets, moved by the shift, and one that ends before it begins keeps its own. After any run of the library's pre-tokenizers and normalizers on any bytes, every byte of every split has an alignment, so Tokenize with WordPiece (unknown token in the vocabulary) and IntoEncoding always succeed. With BPE (every character gets a symbol, the terms are known) Tokenize succeeds, and IntoEncoding panics exactly when some split has fewer alignments than its text takes with U+FFFD for every bad byte: after a Split by a pattern, exactly when the text of some split is not valid UTF-8; on a text that was never cut, never.", "quantifier": "all byte strings; all runs of pre-tokenizers and normalizers of the library, with errors; all WordPiece models with the unknown token; all BPE models that know their terms; all dropout outcomes", "why_tests_cant": "The panic needs a bad byte that survives a cut and a model that counts it as three bytes; no test has such an input.", "anchors": ["pretokenizedstring/pretokenizedstring.go:IntoEncoding", "models/bpemodel/bpemodel.go:Tokenize", "models/wordpiecemodel/wordpiecemodel.go:Tokenize", "normalizedstring/normalizedstring.go:Slice"]}
{"id": "C134", "title": "Offsets of encodings on any bytes", "statement": "For any bytes s and any successive Splits by patterns (any patterns, any behaviours) that succeed: every split is a run of bytes of s, and these bytes keep the alignments that FromString(s) gave them. So the offsets of a row of an encoding depend only on where the bytes of its token stand in s, not on the cuts: they are the start of the alignment of the first byte and the end of that of the last. These alignments are known exactly: byte k has that of the character or bad byte that would stand there if each bad byte were the three bytes of U+FFFD. Offsets start in the input, before they end, and end at most two bytes beyond it; tokens with only valid UTF-8 before and in them get their own place whatever follows; a token after a bad byte is always said to begin too early. With WordPiece (unknown token in the vocabulary) the encoding is always made.", "quantifier": "all byte strings; all sequences of successful splits by any patterns with any behaviour; all tokens; all WordPiece models with the unknown token", "why_tests_cant": "Tests use valid UTF-8, where alignments are the bytes themselves; where they are not, only a statement about every cut shows that the cuts have no part in it.", "anchors": ["pretokenizedstring/pretokenizedstring.go:IntoEncoding", "normalizedstring/normalizedstring.go:Slice", "normalizedstring/normalizedstring.go:Split", "normalizedstring/normalizedstring.go:FromString", "normalizedstring/normalizedstring.go:CoerceRangeToOriginal"]}
{"id": "C135", "title": "Splits and rows follow the input on any bytes", "statement": "Call a pattern orderly if no capture begins before an earlier one ends. Function and rune patterns that do not take U+FFFD for a delimiter, both kinds of regular expressions with engines that report matches from left to right, and their inversions are orderly on any bytes. After any successful Splits by orderly patterns, with any behaviours and on any bytes, the splits are runs of bytes of the input that follow one another without overlapping. If then every split has tokens in order on non-empty parts of its text and the encoding is made, the starts of the offsets never go back, through all the splits; their ends may. With WordPiece (unknown token in the vocabulary) the encoding is always made. The white-space, white-space-split, rune-delimiter and BERT pre-tokenizers only cut in this way.", "quantifier": "all byte strings; all sequences of successful splits by orderly patterns; all behaviours; all tokens in order; all WordPiece models with the unknown token", "why_tests_cant": "On bytes that are not UTF-8 offsets are wrong, and tests cannot show which relation between them still holds for every input.", "anchors": ["pretokenizedstring/pretokenizedstring.go:Split", "pretokenizedstring/pretokenizedstring.go:IntoEncoding", "normalizedstring/normalizedstring.go:Split", "splitpattern/func.go:FindMatches", "splitpattern/regexp.go:FindMatches", "splitpattern/regexp2.go:FindMatches"]}
{"id": "C136", "title": "Any calls on any bytes", "statement": "Take a NormalizedString made from any bytes and call any of its methods on it any number of times, with any arguments (also TransformRange on ranges and with changes that do not fit), going on with slices or with parts that Split gives, as long as no call panics. Then the original is always the part of the input that OriginalOffsets names; no non-empty range within the text makes CoerceRangeToOriginal or GetRange panic; and what CoerceRangeToOriginal gives lies in the input, except that its end may be two bytes beyond. Every split after any run of the library's normalizers, pre-tokenizers and models on any bytes is got by such calls, so the offsets of every row of the encoding, for tokens of any kind on non-empty parts, have the same bounds.", "quantifier": "all byte strings; all sequences of calls with all arguments; all runs of the library's steps; all tokens on non-empty parts", "why_tests_cant": "No test suite goes through all sequences of calls on inputs that are not UTF-8.", "anchors": ["normalizedstring/normalizedstring.go:OriginalOffsets", "normalizedstring/normalizedstring.go:CoerceRangeToOriginal", "normalizedstring/normalizedstring.go:GetRange", "normalizedstring/normalizedstring.go:TransformRange", "normalizedstring/normalizedstring.go:Slice", "normalizedstring/normalizedstring.go:Split", "pretokenizedstring/pretokenizedstring.go:IntoEncoding"]}
{"id": "C137", "title": "The functions on ranges in any state, exactly", "statement": "Whatever the fields of a NormalizedString are (made by New with any values, or after any calls on any bytes), CoerceRangeToNormalized of an original range (a,b) with a < b reports failure exactly when not even the first alignment ends by b; else the result ends after the last of the alignments at the front that end by b, and begins at the first of these that is not empty and begins no earlier than a. CoerceRangeToOriginal panics exactly for a non-empty normalized range that is not within the alignments. GetRange panics exactly when a normalized range is not within the text, when an empty original range is not within the text, or when the result of the conversion ends beyond the text. GetOriginalRange panics exactly when an original or empty range is not within the original, or when a non-empty normalized range is not within the alignments or the ends of its alignments do not name a part of the original. Slice panics exactly when both ends are rune boundaries of the text the range is on and one of these steps panics.", "quantifier": "all values of the fields of a NormalizedString; all ranges of both types", "why_tests_cant": "The panics depend on fields that do not fit together, which no ordinary input has.", "anchors": ["normalizedstring/normalizedstring.go:CoerceRangeToNormalized", "normalizedstring/normalizedstring.go:CoerceRangeToOriginal", "normalizedstring/normalizedstring.go:GetRange", "normalizedstring/normalizedstring.go:GetOriginalRange", "normalizedstring/normalizedstring.go:Slice"]}
{"id": "C138", "title": "TransformRange in any state, exactly", "statement": "Whatever the fields of a NormalizedString are, TransformRange on the normalized range (a,b) with any changes and initial offset returns exactly when (a,b) is within the text, the offset is within the range, the alignments reach to b, the changes consume no more runes than the text behind the offset reads as, and for each change there is an alignment at the byte it stands at: the place behind the offset moved by the UTF-8 lengths of the runes consumed before, a bad byte counting as the three bytes of U+FFFD; a rune put in takes the one before that byte, or (0,0) at the front. Then the bytes from a to b are replaced by the runes of the changes, each with its alignment for every byte of its encoding, and everything else stays. Otherwise it panics. On an original range it acts on the range that CoerceRangeToNormalized gives and does nothing if that reports failure.", "quantifier": "all values of the fields of a NormalizedString; all ranges; all lists of changes; all initial offsets", "why_tests_cant": "Which combinations of changes, offsets and alignments panic is a question about all of them; on ordinary inputs few of the conditions can fail.", "anchors": ["normalizedstring/normalizedstring.go:TransformRange", "normalizedstring/normalizedstring.go:Transform"]}
{"id": "C139", "title": "Slice and Split in any state, exactly", "statement": "Whatever the fields of a NormalizedString are, Slice on the normalized range (a,b) reports failure exactly when a > b or an end is neither an end of the text nor a byte that is not a UTF-8 continuation byte. It panics exactly when the ends are such places but the alignments do not reach to b, or the alignments of the first and last byte do not name a part of the original (for an empty range: a is beyond the original). Otherwise the result has the bytes from a to b, the part of the original from the start of the first alignment to the end of the last (the empty part at a for an empty range), the offset moved by that start, and the alignments moved back by it. Split, for every pattern and whatever captures it returns, slices the groups of the captures in order; the first group that cannot be sliced decides whether Split returns the error or panics, and if there is none the pieces are those slices.", "quantifier": "all values of the fields of a NormalizedString; all ranges; all patterns and captures; all behaviours", "why_tests_cant": "A test has to build the state, and ordinary constructors on valid text never reach the states in which the panics happen; a pattern written by a caller may return any captures.", "anchors": ["normalizedstring/normalizedstring.go:Slice", "normalizedstring/normalizedstring.go:Split", "strutils/strutils.go:IsRuneBoundary"]}
{"id": "C140", "title": "Map, Filter and Trim in any state, exactly", "statement": "Whatever the fields of a NormalizedString are: Map, Filter and TrimLeft, TrimRight and Trim (when there is white space to trim) leave exactly the runes they should, in order, a bad byte read as U+FFFD, each with one alignment for every byte of its encoding, and behind them the alignments there were beyond the text. If k0 is the number of the first rune kept, the alignment of rune number k is the one at byte number k0 moved by the lengths of the encodings of k-k0 runes read from byte number k0 on. They panic exactly when there are fewer alignments than bytes, or when fewer runes are read from byte number k0 on than from rune number k0 on, or when there is no alignment at one of these bytes.", "quantifier": "all values of the fields of a NormalizedString; all functions given to Map and Filter; both flags of TrimLeftRight", "why_tests_cant": "The places of the alignments depend on the bytes of all runes before; on ASCII text without bad bytes every formula gives the same.", "anchors": ["normalizedstring/normalizedstring.go:Map", "normalizedstring/normalizedstring.go:Filter", "normalizedstring/normalizedstring.go:TrimLeftRight"]}
{"id": "C141", "title": "Replace in any state, exactly", "statement": "Whatever the fields of a NormalizedString are, whatever captures the pattern gives and whatever the content is, Replace does the matches one after the other: a match stands at its offsets moved by what the matches before it added (the length of the content less that of the match, for each), and not before the front. If this place is within the text and the alignments reach to its end, its bytes are replaced by the content with U+FFFD for bad bytes, and every byte of it gets the alignment before the byte which is as many bytes behind the start of the place as the place has runes, or (0,0) when the place is empty and at the front; otherwise Replace panics. Captures that are no matches change nothing. An error of the pattern is returned and nothing is changed.", "quantifier": "all values of the fields of a NormalizedString; all patterns and captures; all contents", "why_tests_cant": "Captures that overlap, go backwards or lie outside, and contents that are not UTF-8, are not tried by tests; then the places drift (C141_example).", "anchors": ["normalizedstring/normalizedstring.go:Replace"]}
{"id": "C142", "title": "Map after Map or Filter, in any state", "statement": "Whatever the fields of a NormalizedString are: Map(f) followed by Map(g) does exactly what one Map with g after f does (a value of f that is no rune counting as U+FFFD), in text, alignments, original and shift, and also in when it panics. Map(g) after Filter leaves the runes Filter keeps, each mapped, with the alignments Filter gives them, and panics only when Filter does. After any Map that returns, the text is valid UTF-8, there is an alignment for every byte of it, every further Map returns, and Map with the identity changes nothing.", "quantifier": "all values of the fields of a NormalizedString; all functions given to Map and Filter", "why_tests_cant": "Two calls on every state; a state with too few or too many alignments, or bad bytes, is not reached by tests.", "anchors": ["normalizedstring/normalizedstring.go:Map", "normalizedstring/normalizedstring.go:Filter"]}
{"id": "C143", "title": "Functions with a memory of their own", "statement": "The function given to Filter, Map or splitpattern.FromFunc may answer differently every time, change anything else, or panic. It is asked exactly once for each rune of the text, in order, until it panics (and never on an empty text). If it does not panic and leaves the string alone, Filter keeps exactly the runes with the answer yes, Map puts the answers in place of the runes, with alignments and panics as C140 says, and whatever the function changed elsewhere stays changed. FindMatches of FromFunc, on valid UTF-8, makes each rune with the answer yes a match and the longest runs of the others the captures between them. If it panics, nothing is changed but what the function changed itself. A nil function is one that panics when asked.", "quantifier": "all functions, whatever they remember and change; all values of the fields of a NormalizedString; all texts", "why_tests_cant": "Functions in tests are pure; how often and in which order a function is asked does not show with them.", "anchors": ["normalizedstring/normalizedstring.go:Filter", "normalizedstring/normalizedstring.go:Map", "splitpattern/func.go:FindMatches"]}
{"id": "C144", "title": "The BERT normalizer in any state", "statement": "On a NormalizedString with any contents in its four fields: the Chinese step puts a space on both sides of every Chinese character, the space in front taking the alignment of the character's first byte, the character and the space behind that of its last byte, every other rune that of its first byte; the original and its shift stay; it panics exactly when there are fewer alignments than bytes or one it needs is missing. Text cleaning is one Filter with kept white space made a space, and panics exactly when that Filter does. BertNormalizer.Normalize does the enabled steps in the order cleaning, Chinese characters, accents, lower case, and never returns an error.", "quantifier": "all values of the four fields of a NormalizedString; all configurations; all unicode tables", "why_tests_cant": "States in which alignments and text disagree arise only after unusual histories; which byte's alignment is taken shows only when the bytes of one character have different ones.", "anchors": ["normalizers/bertnormalizer/bertnormalizer.go:Normalize", "normalizers/bertnormalizer/bertnormalizer.go:cleanText", "normalizers/bertnormalizer/bertnormalizer.go:handleChineseChars"]}
{"id": "C145", "title": "OriginalAlignments in any state, exactly", "statement": "On a NormalizedString with any contents in its fields and at least one alignment, take the longest groups of equal alignments. OriginalAlignments panics exactly when a group begins before the end of the group in front of it. Otherwise it returns (0, 0) for the bytes before the first group, for the bytes of a group the range of text bytes of that group, for the bytes between two groups the place between them, and for bytes of the original still left the end of the alignments. If no alignment ends before it begins and the first begins at 0 or later, the result has one entry per byte of the original, or as many as the end of the last alignment if that is more. On a string made by FromString it panics exactly when the string is empty or is not valid UTF-8 up to possibly its last byte.", "quantifier": "all values of the four fields of a NormalizedString; all byte strings", "why_tests_cant": "Overlapping and empty alignments and bytes that are not UTF-8 do not occur in the tests; the result is a function of the grouping of the whole list.", "anchors": ["normalizedstring/normalizedstring.go:OriginalAlignments", "normalizedstring/normalizedstring.go:alignmentsFromString"]}
{"id": "C146", "title": "The byte-level transformation in any state", "statement": "The transformation that ByteLevelPreTokenizer applies to a split, on a NormalizedString with any contents in its four fields: it panics exactly when the text is not valid UTF-8 or has more bytes than there are alignments. Otherwise every byte of the text becomes its rune, the first byte of a character with the alignment of its own place and the others with the alignment of the last byte of the character; alignments beyond the text, the original and its shift stay.", "quantifier": "all values of the four fields of a NormalizedString", "why_tests_cant": "Which byte's alignment is taken shows only when the bytes of one character have different ones, and panics only when text and alignments disagree; neither happens in the tests.", "anchors": ["pretokenizers/bytelevelpretokenizer/bytelevelpretokenizer.go:PreTokenize"]}
{"id": "C147", "title": "Functions with a memory, given to Split, Normalize and Tokenize of a PreTokenizedString", "statement": "The function given to PreTokenizedString.Split, Normalize or Tokenize may remember things, change anything else except the other splits, or panic. It is called exactly once for each split without tokens, in order (Split also tells it the number of the split), until a call returns an error or panics. If all calls answer, Split puts the non-empty answers in place of each split, Normalize leaves each string as its call left it, Tokenize gives each split its answer, and splits that had tokens stay. If one call fails, its error is returned or its panic goes on; the splits before it are as their calls left them (with their tokens, for Tokenize; not replaced, for Split), its own string is as the call left it, the splits after it are untouched. A memory that changes no answer, as a correct cache, does not show in the result of Tokenize.", "quantifier": "all PreTokenizedStrings in any state; all functions, whatever they remember and change besides the string they are given", "why_tests_cant": "Functions in tests have no memory and do not fail half way; the number and order of the calls does not show with them.", "anchors": ["pretokenizedstring/pretokenizedstring.go:Split", "pretokenizedstring/pretokenizedstring.go:Normalize", "pretokenizedstring/pretokenizedstring.go:Tokenize"]}
{"id": "C148", "title": "One BPE model for all splits: cache and random numbers go on from split to split", "statement": "A caller gives PreTokenizedString.Tokenize a function that runs one BPE model on each split, so that the cache of the model and the source of random numbers carry over from split to split. With dropout and any source: if the vocabulary knows the term of every id it hands out or merges to and the unknown token, Tokenize succeeds, strings and splits with tokens stay, and every other split gets the tokens of a call of the model for some draws, so they tile its text. Without dropout, with any cache that returns only what was stored, after any calls: Tokenize gives the splits, or the error, that it gives with a function that remembers nothing.", "quantifier": "all PreTokenizedStrings; all models; all sources of random numbers; all lawful caches after any history", "why_tests_cant": "Dropout is random and its draws depend on all splits before; the cache of the code never hits, so tests cannot see what a working one would do.", "anchors": ["pretokenizedstring/pretokenizedstring.go:Tokenize", "models/bpemodel/bpemodel.go:Tokenize", "models/bpemodel/bpemodel.go:tokenizeWithCache"]}
{"id": "C149", "title": "FromFunc and FromRune on any bytes, with any function", "statement": "FindMatches of a pattern made by FromFunc asks its function about the runes of the text in order, about U+FFFD where a byte is not UTF-8, once each, until it panics. The captures follow from the answers: every yes is a match that claims as many bytes as the encoding of the rune asked about, so three for a byte that is not UTF-8; between two matches are the bytes from where the first ends to where the second begins, if there are any. For a function without memory the captures tile the text from start to end exactly if the last thing read is UTF-8 and every byte that is not UTF-8 and matches has at least two bytes after it before the next match. If Split with Isolated succeeds, in any state, the pieces joined are the text under just this condition on the matching bytes; otherwise bytes come twice.", "quantifier": "all byte strings; all functions, with and without memory, also those that say yes to U+FFFD", "why_tests_cant": "The wrong lengths show only on text that is not UTF-8, and depend on the distance between matches.", "anchors": ["splitpattern/func.go:FindMatches", "splitpattern/rune.go:FromRune", "normalizedstring/normalizedstring.go:Split"]}
{"id": "C150", "title": "Prepend and Append in any state, exactly", "statement": "In any state of a NormalizedString, also with fewer alignments than bytes: Prepend and Append leave an empty text as it is. Prepend panics exactly when the text or the alignments are shorter than the UTF-8 encoding of the rune read first; otherwise the new text and that rune take the place of as many bytes, the first new rune aligned as the first byte was, the others and the old first rune as the last of these bytes. Append panics when there are fewer alignments than bytes, and otherwise behaves as in C129. To prepend one text and then another, UTF-8 one, is to prepend both at once exactly if the first and the last byte of the first rune are aligned alike.", "quantifier": "all NormalizedStrings, whatever the text and the alignments; all texts to add", "why_tests_cant": "States with missing alignments come only from texts that are not UTF-8 after several calls; tests start from fresh strings.", "anchors": ["normalizedstring/normalizedstring.go:Prepend", "normalizedstring/normalizedstring.go:Append"]}
{"id": "C151", "title": "Split patterns with a memory of their own", "statement": "Split and Replace with a SplitPattern of the caller's own, whose FindMatches may answer differently each time, change other things, change the string that is being split, or panic: FindMatches is called once, with the text as it is before the call. If it panics or returns an error, so does the method, and the string is as FindMatches left it. Otherwise the method does with the string that FindMatches left what C139 and C141 say of the captures, and touches nothing else. An inverted pattern calls the inner one once with the same text and turns round which captures are matches. Patterns that touch nothing behave as in the other properties.", "quantifier": "all patterns with any state, all NormalizedStrings in any state, all behaviours, all contents", "why_tests_cant": "The tests use only the patterns of the package, none of which has a memory.", "anchors": ["normalizedstring/normalizedstring.go:Split", "normalizedstring/normalizedstring.go:Replace", "splitpattern/invertedpattern.go:FindMatches", "splitpattern/splitpattern.go:SplitPattern"]}
{"id": "C152", "title": "Replace where bytes have no alignments", "statement": "Take any NormalizedString, of whatever bytes and with any number of alignments. Replace of a rune other than U+FFFD by valid content returns exactly when each such rune ends within the bytes that have alignments, and then does what C130 says: the content stands for every such rune, aligned as its first byte was, everything else is as it was, and bytes without alignment stay without. Otherwise it panics. For every pattern and content: what Replace does when it returns, it also does with further alignments at the end, which stay there.", "quantifier": "all NormalizedStrings in any state; all runes but U+FFFD; all valid contents; for the last claim all patterns and contents", "why_tests_cant": "States with missing alignments come only from texts that are not UTF-8 after several calls; tests start from fresh strings.", "anchors": ["normalizedstring/normalizedstring.go:Replace", "normalizedstring/normalizedstring.go:TransformRange", "splitpattern/rune.go:FromRune"]}
{"id": "C153", "title": "The meta-space pre-tokenizer in any state", "statement": "MetaSpacePreTokenizer on a split of whatever bytes and with any number of alignments, for every valid mark: the mark is put in front as by Prepend (C150), if that is asked for and the text does not begin with it; if Prepend panics, so does the call. Then it panics if a space has no alignment; otherwise every space becomes the mark, aligned as the space was. That string is cut before each mark. The first part that cannot be cut decides: a part that does not begin and end at runes gives an error, one without usable alignments a panic; else the parts are returned. After an error and after success the split's string is left with the marks.", "quantifier": "all NormalizedStrings in any state; all valid marks; with and without the mark in front", "why_tests_cant": "It composes three operations, each with its own conditions on bytes and alignments; tests use fresh valid strings.", "anchors": ["pretokenizers/metaspacepretokenizer/metaspacepretokenizer.go:PreTokenize", "normalizedstring/normalizedstring.go:Replace", "normalizedstring/normalizedstring.go:Prepend", "normalizedstring/normalizedstring.go:Split"]}
{"id": "C154", "title": "What is read after Replace, on any bytes", "statement": "On a NormalizedString of any bytes in any state, when Replace of a rune other than U+FFFD by one or more valid runes returns: the runes read from the text are those read before, with the runes of the content in place of each such rune; no byte that was not UTF-8 becomes part of a rune. So if the content does not contain the rune, the text does not any more, and replacing it once more, by whatever valid content, changes nothing, text and alignments. With empty content this is false: the bytes on both sides of a removed rune may be read together, even as the same rune again.", "quantifier": "all NormalizedStrings in any state; all runes but U+FFFD; all contents of at least one valid rune", "why_tests_cant": "New runes could come up from bytes on both sides of a replaced one; this takes bytes that are not UTF-8, of which tests have none.", "anchors": ["normalizedstring/normalizedstring.go:Replace", "splitpattern/rune.go:FromRune", "splitpattern/func.go:FindMatches"]}
{"id": "C155", "title": "When to append twice is to append once", "statement": "Take a NormalizedString whose text consists of valid runes, all but the last of one byte, with at least as many alignments as bytes. To append a non-empty valid text and then another non-empty one gives the same text and alignments as to append both at once exactly if the last rune of the first text, and all runes of the text appended first but its last one, have one byte each. In all other cases the second Append loses bytes or panics.", "quantifier": "all such NormalizedStrings, whatever their alignments; all non-empty valid first texts; all non-empty second texts", "why_tests_cant": "Append takes a number of runes for a position in bytes; ASCII tests and single calls do not show it.", "anchors": ["normalizedstring/normalizedstring.go:Append", "normalizedstring/normalizedstring.go:TransformRange"]}
{"id": "C156", "title": "When Prepend and Append may change places", "statement": "Take a NormalizedString whose text consists of at least two valid runes, all but the last of one byte, with at least as many alignments as bytes. To prepend a non-empty valid text and then append a non-empty one gives the same text and alignments as to append first and then prepend exactly if all runes of the prepended text have one byte each.", "quantifier": "all such NormalizedStrings, whatever their alignments; all non-empty valid texts to prepend; all non-empty texts to append", "why_tests_cant": "Append takes a number of runes for a position in bytes, so what stands in front decides what it cuts; tests call one of the two, on ASCII.", "anchors": ["normalizedstring/normalizedstring.go:Prepend", "normalizedstring/normalizedstring.go:Append"]}
{"id": "C157", "title": "When two calls of Replace may change places", "statement": "On a NormalizedString with at least as many alignments as bytes, holding any bytes: let two different runes, neither of them U+FFFD, each be replaced (Replace with a rune pattern) by one or more valid runes. If neither rune is among those put in place of the other, both orders of the two calls return without error, with the same text and alignments, which are those of replacing both runes at once. And to replace a valid rune other than U+FFFD by itself, in any state, leaves the text as it was if the call returns, and everything as it was if the rune has one byte.", "quantifier": "all NormalizedStrings with at least as many alignments as bytes, whatever the alignments and the bytes; all such pairs of runes and contents", "why_tests_cant": "Replace moves the ranges found in the old text by an offset counted while the text changes; tests replace once, in valid text.", "anchors": ["normalizedstring/normalizedstring.go:Replace", "splitpattern/rune.go:FromRune"]}
{"id": "C158", "title": "Trimming again changes nothing, in any state", "statement": "On a NormalizedString in any state, holding any bytes: if TrimLeftRight returns, the text has no white space left at the ends that were to be trimmed, and the same call again returns with text and alignments unchanged. Trimming first the left end and then the right one leaves the runes that trimming both at once leaves, if the calls return; and two calls of Filter that return leave the text of the runes that both functions keep.", "quantifier": "all NormalizedStrings, with any bytes and any alignments; all four combinations of left and right", "why_tests_cant": "TrimLeftRight rewrites the text rune by rune, with bad bytes becoming U+FFFD; tests trim once, valid text.", "anchors": ["normalizedstring/normalizedstring.go:TrimLeftRight"]}
