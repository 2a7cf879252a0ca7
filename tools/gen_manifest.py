"""Writes MANIFEST.json from the table below."""
import json, os
claims = []
def c(prop, status, theorems, note=""):
    d = {"property": prop, "status": status, "theorems": ["Verif." + t for t in theorems]}
    if note:
        d["note"] = note
    claims.append(d)

c("C01", "proved", ["C01_fromString", "C01_rangeLen"], "C01_invalid_utf8 shows the UTF-8 hypothesis is needed.")
c("C02", "proved", ["C02_history_wf", "C02_conversion_in_bounds", "C02_transformRange", "C02_ranges", "staysInside_of_valid", "C02_range_counterexample"],
  "C02_range_counterexample shows that the condition on TransformRange is needed.")
c("C03", "proved", ["C03_provenance", "C03_only_slice_moves", "C03_transformRange"])
c("C04", "proved", ["C04_transformRange", "C04_boundaries"])
c("C05", "proved", ["C05_map", "C05_toUpper", "C05_toLower"])
c("C06", "partial", ["C06_filter_partial", "C06_exact", "C06_actual", "C06_panics", "C06_no_panic", "seenRunes_spec", "C06_counterexample_panic", "C06_counterexample_align"],
  "The property is false of the code: Filter passes a rune count as a byte offset. Proved when the runes dropped before the first kept one are ASCII; C06_exact: on states whose characters have different alignments (selfChars_distinct: every fresh input) it holds exactly then, or when nothing is kept. C06_actual gives the outcome of Filter on every valid state, also where it is wrong, and C06_panics says when it panics. Counterexamples prove the general claim false.")
c("C07", "partial", ["C07_trim_partial", "C07_exact", "C07_actual", "C07_counterexample_align", "C07_counterexample_panic", "trimLeftRightL_eq", "isWhiteSpace_iff"],
  "The property is false of the code (same defect as Filter). Proved when the trimmed leading white space is ASCII; C07_exact: on states whose characters have different alignments it holds exactly then (or without left trimming, or with white space only). C07_actual gives the outcome on every valid state.")
c("C08", "partial", ["C08_prepend_partial", "C08_exact", "C08_text", "C08_prepend_empty", "C08_counterexample_empty"],
  "False only for Prepend(\"\"), which overwrites the first rune's alignment; proved for every other argument.")
c("C09", "partial", ["C09_append_partial", "C09_exact", "C09_actual", "C09_text", "C09_append_empty", "C09_counterexample_corrupt", "C09_counterexample_loss"],
  "The property is false of the code: Append uses a rune index as a byte index. Proved when all characters before the last are ASCII; C09_exact: on every valid non-empty state the text is kept exactly then. C09_actual gives the outcome in all cases.")
c("C10", "proved", ["C10_replace", "C10_text"])
c("C11", "partial", ["C11_split_partial", "C11_exact", "C11_outcomes", "C11_counterexample"],
  "False only for empty captures past the end of the original: Split then panics. Proved when every group of captures that becomes a piece can be sliced (non-empty, or empty within the original); C11_exact: in every other case Split panics. C11_outcomes: the outcome for any captures, on rune boundaries or not.")
c("C12", "proved", ["C12_split_groups", "C12_contiguous_maximal", "C12_prev_shape", "C12_next_mirror", "reverseInPlace_eq"])
c("C13", "proved", ["C13_slice", "C13_outcomes", "C13_consistent", "C13_slice_original"])
c("C14", "partial", ["C14_no_panic_partial", "C14_exact", "C14_counterexample"],
  "The property is false of the code: three kinds of range panic. Proved: exactly when CoerceRangeToOriginal panics, that reversed ranges fail, and that GetRange on non-empty original ranges and Slice on non-empty ranges never panic. C14_exact: for all ranges, exactly when each conversion panics.")
c("C15", "proved", ["C15_original_to_normalized", "C15_all", "C15_first"])
c("C16", "proved", ["C16_round_trip", "C16_all"])
c("C17", "proved", ["C17_originalAlignments", "C17_empty_panics", "C17_panics"])
c("C18", "proved", ["C18_isRuneBoundary", "C18_codec", "C18_string"])
c("C19", "partial", ["C19_convert_partial", "C19_actual", "C19_counterexample", "C19_exact", "C19_empty", "C19_panics"],
  "The property is false of the code: the converter maps to byte indices. Proved for ASCII text before the end of the range, and C19_actual gives the exact result for all valid text.")
c("C20", "proved", ["C20_func", "C20_rune"])
c("C21", "proved", ["C21_regexp", "C21_regexp2", "C21_empty"])
c("C22", "partial", ["C22_string_partial", "C22_exact", "C22_empty_text", "C22_empty_pattern", "C22_empty_ascii", "C22_counterexample"],
  "False only for the empty pattern on non-ASCII text, where the code uses the rune count as the end of the capture.")
c("C23", "proved", ["C23_invert", "C23_tiles"])
c("C24", "proved", ["C24_split_ok", "C24_split_error", "C24_split_error_unchanged"])
c("C25", "proved", ["C25_normalized_splits"])
c("C26", "proved", ["C26_original_splits"])
c("C27", "proved", ["C27_intoEncoding", "C27_len"])
c("C28", "proved", ["C28_encoding_offsets"])
c("C29", "proved", ["C29_whiteSpaceSplit", "isWhiteSpace_iff", "TokenizedBy.unique"],
  "TokenizedBy.unique: the stated words determine the splits.")
c("C30", "proved", ["C30_bert", "TokenizedBy.unique"])
c("C31", "proved", ["C31_runeDelimiter", "TokenizedBy.unique"])
c("C32", "proved", ["C32_metaSpace"])
c("C33", "proved", ["C33_table", "C33_normalize", "C33_decode", "C33_gpt2_table"],
  "C33_counterexample_invalid: on text that is not valid UTF-8 the normalization panics; the property is about valid states.")
c("C34", "partial", ["C34_bert_partial", "C34_actual", "C34_text", "C34_counterexample", "C34_chinese"],
  "False of the code only in that a multi-byte rune removed at the front can panic. C34_text: the text is right whenever there is no panic, for all states and flags. C34_bert_partial: no panic, and exact alignments, when no multi-byte rune is removed before the first kept one. C34_actual gives the outcome, panics included, for all states and flags.")
c("C35", "proved", ["C35_sequence"])
c("C36", "proved", ["C36_tiles", "C36_terminates"])
c("C37", "partial", ["C37_greedy_partial", "C37_greedy_unique", "C37_exact", "C37_exact_unique", "C37_tried", "C37_bytes", "C37_bytes_unique", "C37_bytes_tried", "C37_whole_runes", "C37_counterexample"],
  "False for three-byte runes after the first: the code steps back by the width of the last byte taken as a rune and skips their boundary. Proved for all other valid words and vocabularies of valid terms; C37_exact describes the result on all valid words: the longest match among the boundaries that are tried, and C37_tried says which these are. C37_bytes is the same for every byte string and every vocabulary, valid UTF-8 or not. For all valid words every token still covers whole runes.")
c("C38", "proved", ["C38_terminates", "C38_bound", "Word.mergeAllL_eq"])
c("C39", "proved", ["C39_table_merges"])
c("C40", "proved", ["C40_canonical", "C40_canonical_rank", "C40_unique", "C40_file", "C40_counterexample"],
  "For tables whose merged ids identify the merged text (C40_file: any table read from a merges file without prefix on a one-to-one vocabulary) or the rank. C40_counterexample: for other tables a stale queue entry can be taken for another pair with the same merged id.")
c("C41", "proved", ["C41_no_pair_left"])
c("C42", "proved", ["C42_full_dropout"])
c("C43", "proved", ["C43_priority_queue", "C43_sorts", "WMHeap.pushL_eq", "WMHeap.popL_eq"])
c("C44", "proved", ["BPE.C44_tiles", "BPE.C44_outcomes", "BPE.C44_success", "BPE.C44_dropped", "BPE.C44_invalid"],
  "C44_dropped and C44_invalid show that the conditions are needed.")
c("C45", "proved", ["BPE.C45_values", "BPE.C45_file"])
c("C46", "proved", ["BPE.C46_unknown", "BPE.C46_no_unknown", "BPE.Fused.unique"])
c("C47", "partial", ["BPE.C47_lookup_partial", "BPE.C47_actual", "BPE.C47_wrong", "BPE.C47_counterexample"],
  "False of the code: it adds the prefix to the first character and to no other, so with any prefix every lookup is wrong (C47_wrong). Proved without a prefix, including the end-of-word suffix.")
c("C48", "proved", ["BPE.C48_any_cache", "BPE.C48_history", "BPE.C48_getValues"],
  "C48_any_cache is for every cache that only returns what was stored for the key; the code's cache stores nothing.")
c("C49", "proved", ["C49_dense", "C49_readd", "distinct_spec"])
c("C50", "partial", ["C50_load", "C50_grow_partial", "C50_exact", "C50_counterexample", "C50_null_panics", "C50_duplicate_ids"],
  "Loading is proved for all objects and orders. Later AddTerm calls can reuse an id when ids are sparse (counterexample); proved when all ids are below the size; C50_exact: it holds exactly when no loaded id is one of the new ids.")
c("C51", "partial", ["C51_read_partial", "C51_outcomes", "C51_counterexample", "scanLines_spec", "content_lines", "C51_version", "C51_too_long", "C51_carriage_return"],
  "Everything holds except that a right term shorter than the prefix length crashes; C51_outcomes says exactly when.")
c("C52", "proved", ["C52_split_tree", "slice_slice"])
c("C53", "proved", ["C53_whole_runes", "C53_append_corrupts", "C53_replace_corrupts"])
c("C54", "proved", ["C54_filter_text", "C54_trim_text"])
c("C55", "proved", ["C55_lower_strip"])
c("C56", "proved", ["BPE.C56_whole_characters"])
c("C57", "proved", ["BPE.C57_canonical", "BPE.C57_empty"])
c("C58", "proved", ["C58_tokenize_ok", "C58_tokenize_error", "C58_no_panic"])
c("C59", "proved", ["C59_normalize_ok", "C59_normalize_error"])
c("C60", "proved", ["C60_byteLevel", "C60_default", "C60_lossless", "C60_offsets", "C60_state", "C60_engine", "C60_empty", "C60_engine_error", "splittingRegexp_first", "GptPiece.unique", "GptPieces.unique"],
  "The expression is run by a model of the part of regexp2 it uses; character classes are parameters of which SaneTables is assumed (letters, numbers and white space disjoint, \\s is unicode.IsSpace). GptPieces.unique: the stated pieces determine the splits.")
c("C61", "proved", ["C61_whiteSpace", "C61_engine", "C61_engine_error", "KindRuns.unique"],
  "The expression is run by a model of the part of regexp2 it uses; character classes are parameters. KindRuns.unique: the stated runs determine the splits.")
c("C62", "proved", ["C62_trailing_skips", "C62_bounded_skips", "C62_no_skip", "pairsLeft_zero"],
  "The random source is an arbitrary sequence of draws.")
c("C63", "proved", ["C63_unsplit", "C63_order", "C63_wordPiece", "C63_bpe", "C63_history", "SplitHistory.tree"])
c("C64", "proved", ["C64_wordPiece", "C64_bpe", "C64_bpe_values", "bert_words", "whiteSpace_words", "whiteSpaceSplit_words", "runeDelimiter_words"],
  "C64_wordPiece and C64_bpe are for any pre-tokenizer satisfying CutsWords; the four *_words theorems say that the four pre-tokenizers do, and which words they make.")
c("C65", "proved", ["C65_gpt", "C65_offsets", "C65_lossless", "C65_state"],
  "The expression is run by a model of the part of regexp2 it uses; character classes are parameters of which SaneTables is assumed.")

c("C66", "proved", ["C66_bert", "C66_whiteSpace", "C66_whiteSpaceSplit", "C66_runeDelimiter", "C66_byteSplits"],
  "Well-formed is WF (bounds, order, one alignment per byte) with Repr (the bytes of a character share an alignment); C02_history_wf shows that states reached from FromString are.")
c("C67", "proved", ["C67_wordPiece", "C67_bpe", "C67_order"],
  "For any pre-tokenizer satisfying CutsChars, which C66 proves of the four.")
c("C68", "proved", ["C68_bert", "C68_rows"],
  "The condition on the front of the text excludes the panic of C34_counterexample; lower-casing must keep the space.")
c("C69", "partial", ["C69_counterexample", "C69_exact"],
  "False of the code: the test for empty ranges comes first, so the branch that expands is never reached. C69_exact: the result is the expanded one only when there is nothing to expand to.")
c("C70", "proved", ["C70_sequence", "C70_order", "C70_text", "LocalWords.unique"],
  "The sequence of calls is the caller's; the library has no composite pre-tokenizer. LocalWords.unique: the stated words determine the splits.")
c("C71", "proved", ["C71_map_id", "C71_map_map", "C71_filter_all", "C71_filter_twice", "C71_filter_filter", "C71_filter_filter_text", "C71_trim_trimmed", "C71_trim_twice", "C71_trim_sides", "C71_bert"],
  "The alignments of Filter after Filter are claimed where C06 holds.")
c("C72", "proved", ["C72_metaSpace", "C72_wordPiece", "C72_bpe", "C72_lossless", "C10_chars"],
  "The runes of an unknown word have no token of their own: with WordPiece the unknown token stands for the whole word.")
c("C73", "proved", ["BPE.C73_values", "BPE.C73_affixes", "BPE.C73_concat"],
  "Spec/Cells.lean says what each character shows and what a group of cells covers; C73_prefix_length shows that the condition on the merges is needed when merges are read with a prefix length.")
c("C74", "proved", ["C74_split", "C74_normalize", "C74_tokenize", "C74_andThen", "C74_program", "C74_preTokenizers", "C74_start", "C74_read", "C74_others", "C74_caller", "C74_caller_cut"],
  "Model/Pointers.lean has these functions once more with a store of strings. C74_shared and C74_twice show that the conditions are needed; C74_metaSpace_changes_argument that the meta-space pre-tokenizer changes the string its caller holds.")
c("C75", "proved", ["C75_history", "C75_queries", "C75_transformRange", "writesRunes_go"],
  "Model/Machine.lean has these functions once more with wrapping integers and make. C75_wraps shows that captures must tile, C75_negative_rune what a negative rune does before Go 1.17.")
c("C76", "proved", ["reads_chunks", "Reads.unique", "C76_split", "C76_whiteSpaceSplit", "C76_runeDelimiter", "C76_bert", "C76_bad_end", "C76_transform", "C76_map", "C76_filter", "C76_map_total", "C76_bpe", "C76_bpe_tokenize"],
  "Spec/Bytes.lean says how bytes are read. C76_wrong_offsets shows that the original offsets of pieces after a bad byte are wrong, C76_refused which texts are refused.")
c("C77", "proved", ["Memory.C77_values", "Memory.C77_frame", "Memory.C77_capacity", "Memory.C77_coerce_exact", "Memory.C77_past_the_end", "Memory.C77_bad_bytes"],
  "Model/Memory.lean has the functions that touch alignments once more over an explicit memory of arrays. C77_past_the_end and C77_bad_bytes are the two ways a range past the end is answered with stale alignments.")
c("C78", "proved", ["C78_regexp2", "C78_pieces", "C78_regexp2_end", "C78_regexp2_isolated", "C78_regexp2_inverted", "C78_mergedWithNext", "C78_byteLevel_split", "C78_prepend", "C78_byteLevel", "C78_whiteSpace"],
  "C78_byteLevel_lost, C78_byteLevel_refused and C78_whiteSpace_wrong are concrete bad texts, with the wrong or missing pieces.")
c("C79", "proved", ["C79_patterns", "C79_split", "C79_offsets", "C79_merges", "C79_mergeAll", "C79_bpe", "C79_wordPiece"],
  "C79_wraps_word and C79_wraps_encoding show that the bounds on symbol lengths and token offsets are needed.")
c("C80", "proved", ["C80_wordPiece", "C80_wordPiece_attained", "C80_merge", "C80_draws", "C80_queue"],
  "Vocabulary lookups are counted by a copy of the loops that is proved to return the same tokens; iterations are counted by the fuel of the loops.")
c("C81", "proved", ["C81_loads", "C81_ids", "C81_strings", "C81_errors", "C81_null", "C81_valid", "C81_roundtrip"],
  "encoding/json is modelled by recursive descent and shown to accept exactly the grammar (Json.parse_iff); only the kind of an error is kept.")
c("C82", "proved", ["C82_files", "C82_tokens", "C82_done", "C82_gpt", "C82_trained", "C82_order_counterexample"],
  "Spec/Reference.lean has both algorithms on texts, without ids, ranks and queues. C82_order_counterexample is a rule table with a rule before the one that makes its part, on which they differ.")
c("C83", "proved", ["C83_gpt2", "C83_reference", "C82_trained"],
  "The splitting expression is run by the regular expression engine of the model; the Unicode tables are a parameter with the conditions of C65.")
c("C84", "proved", ["C84_word", "C84_bert", "TokenizedBy.cutWords", "C37_tried"],
  "Spec/BertReference.lean has the reference algorithms as functions. Texts from whose front a multi-byte rune is dropped can make the normalizer panic (C34).")
c("C85", "proved", ["WordMemory.C85_values", "WordMemory.C85_counterexample", "WordMemory.C85_copied"],
  "Model/WordMemory.lean has word.go over a memory of symbols and arrays of pointers; each *Word is a slice variable of its own. The two last theorems show what the exceptions named in the property do.")
c("C86", "proved", ["C86_ids", "C86_same"],
  "Spec/Join.lean has the reading of ids from the list that was written to the file.")
c("C87", "proved", ["C87_gpt", "ByteModel.of_files", "C87_wordPiece", "C87_bpe", "C87_whiteSpace", "C87_runeDelimiter", "C87_bert", "C87_meta_wordPiece", "C87_meta_bpe", "C87_after_space", "C87_inside", "C87_meta_prefix"],
  "joinEncodings in Spec/Join.lean. C87_wordPiece and C87_bpe are for every pre-tokenizer that cuts words by what is kept and between which neighbours there is a cut; the four of the package do (C66, localWords). C87_gpt is for byte-level models without dropout, such as those from files (ByteModel.of_files).")
c("C88", "partial", ["C88_known_partial", "C88_exact", "C88_counterexample"],
  "False for words with a three-byte character after the first (C88_counterexample): the search does not look at the boundary in front of it or not at the one behind it. Proved for all other words. C88_exact: if no two neighbouring characters are a term, exactly the words with a later three-byte character are unknown.")
c("C89", "proved", ["C89_metaSpace", "C89_bert", "C89_bpe", "C89_wordPiece"],
  "When BertNormalizer panics is C34_actual. The default prefix, unknown token and cache capacity of the two models show in no result.")

c("C90", "proved", ["C90_bertNormalize", "C90_preTokenizers", "C90_encode", "C90_gpt2", "C90_bert", "C90_bound_needed"],
  "MetaSpace is covered on texts of whole runes (Replace needs captures that tile the text). The engine of regexp2 is any engine that reports its matches from left to right, at most one per position. C90_bound_needed: without the bound on the length the results differ.")
c("C91", "proved", ["C91_any_bytes", "C91_bytes", "C91_valid", "C91_spells", "C91_replacement"],
  "The engine of package regexp on a literal is modelled as reading runes with the decoder of the model. Versions of Go that look for a literal prefix by its bytes also for U+FFFD differ for patterns containing U+FFFD on texts that are not valid.")
c("C92", "proved", ["PatternMemory.C92_call", "PatternMemory.C92_alloc", "PatternMemory.C92_invert", "PatternMemory.C92_history", "PatternMemory.C92_kept", "PatternMemory.C92_kept_example"],
  "C23 is about patterns as functions; this says for which patterns that is right.")
c("C93", "proved", ["C93_transformRange", "C93_transform", "C93_filter", "C93_map", "C93_trim", "C93_prepend", "C93_append", "C93_replace", "C93_replace_example", "C93_call", "C93_history", "PTS.C93_split_agrees", "PTS.C93_normalize_agrees", "PTS.C93_tokenize_agrees", "PTS.C93_split", "PTS.C93_normalize", "PTS.C93_tokenize", "PTS.C93_step", "PTS.C93_splits_history", "PTS.C93_sound_calls", "PTS.C93_sound_split"],
  "TransformRange in these histories is used through the named operations and Replace with any pattern. Functions given to the three methods must leave well-formed parts of the input; C93_sound_calls and C93_sound_split say that those made of the library's own operations do.")
c("C94", "proved", ["Unicode.C94_sane", "Unicode.C94_bert_sane", "Unicode.C94_sort4", "Unicode.C94_word", "Unicode.C94_toLower_twice", "Unicode.C94_lowerCase", "Unicode.C94_classes", "Unicode.C94_byteLevel", "Unicode.C94_bert_lower", "Unicode.C94_gpt_lower", "Unicode.C94_ascii_punct", "Unicode.C94_clean_space"],
  "Model/UnicodeTables.lean is written by tools/gen_unicode.py from Python's unicodedata; the Go release fixes its own version of the tables. Statements about all runes come from checks of ranges against ranges, done by the kernel.")
c("C95", "proved", ["SplitMemory.C95_values", "SplitMemory.C95_tokenize", "SplitMemory.C95_counterexample"],
  "C95_counterexample: a function passed to Tokenize that calls Split on the same object makes Tokenize panic, or gives the tokens of a text to its first part and none to the others, without an error.")
c("C96", "proved", ["C96_none", "C96_full", "C96_unchanged", "C96_probability"],
  "A float64 is not a number, an infinity or a rational: only < is used. C96_probability counts the draws on a grid of 1/M (Go: M = 2^53) that merge nothing: j^n of M^n for the value j/M.")
c("C97", "proved", ["C97_merges", "C97_merges_whole", "C97_vocabulary"],
  "bufio.Scanner is modelled with its growing buffer, ioutil.ReadFile with a buffer of any sizes. A panic of MergeMapFromFile on a short right term (C51_counterexample) can also come from the bytes before an error.")
c("C98", "proved", ["C98_words", "C98_same"],
  "spellWords is the reader; the words are those of Spec/BertReference.lean. Examples show that a prefix of one punctuation mark or of letters can be confused with a word.")
c("C99", "proved", ["Conc.C99_tokenize", "Conc.C99_same", "Conc.C99_ends", "Conc.C99_single", "Conc.alone_bpe", "Conc.quiet_wordPiece", "Conc.alone_addTerm", "Conc.C99_counterexample_race", "Conc.C99_counterexample_ids"],
  "Calls are programs of single accesses (Model/Concurrent.lean); alone_bpe, quiet_wordPiece and alone_addTerm show that alone they are the methods of the other files. C99_ends holds for all programs, also those that write; C99_single: one goroutine does what its calls do alone.")
c("C100", "proved", ["Rename.C100_bpe", "Rename.C100_files", "Rename.C100_wordPiece"],
  "Direct simulation of heap, MergeAll and Tokenize; the ids concerned can be any set closed under the merges, so that C101 is the case of the identity.")
c("C101", "proved", ["Rename.C101_bpe", "Rename.C101_addTerm", "Rename.C101_setMerge", "Rename.C101_ranks", "Rename.C101_wordPiece", "Rename.C101_wordPiece_addTerm", "Rename.C101_counterexample_id"],
  "C101_counterexample_id: the condition on the new id is needed.")
c("C102", "proved", ["C102_map_filter", "C102_prepend_prepend", "C102_append_append", "C102_prepend_append", "C102_map_prepend", "C102_map_append", "C102_map_slice", "C102_map_split", "C102_counterexample"],
  "For Filter and Append under the conditions of C06 and C09 (the runes in front are one byte long); C102_counterexample: without them the order of Prepend and Append matters.")
c("C103", "proved", ["C103_words", "C103_joined", "C103_normalized", "C103_decode", "C103_unicode"],
  "StableCase: what is asked of the case table; C103_unicode proves it of the tables of Unicode. For texts with a good start (no rune of several bytes is dropped from the front, C06).")
c("C104", "proved", ["C104_meta", "C104_same", "CutBefore.eq"],
  "cutFront is the cutting as a function; CutBefore.eq: it is the only way to cut as in C72. The model has no suffix for ends of words and no dropout.")
c("C105", "proved", ["C105_files", "C105_rules", "C105_counterexample"],
  "Glued and SamePlace say how a token is made of others; the places are stated for models without suffix. C105_counterexample: a rule that comes twice.")
c("C106", "proved", ["C106_tokens", "C106_cut", "C106_rules"],
  "For models without suffix and prefix; with a suffix the end of a part is not the end of a word.")
c("C107", "proved", ["C107_front", "C107_valid", "C107_rest", "C107_counterexample"],
  "C107_front is for any bytes, with the limit as a condition; C107_valid for valid words and terms, without it.")
c("C108", "proved", ["C108_lower_strip", "C108_lower_bert", "C108_unicode", "C108_counterexample"],
  "The conditions on leading characters are those of C07 and C34; C108_counterexample shows that they are needed.")
c("C109", "proved", ["C109_splits", "C109_encoding", "C109_library", "C109_wordPiece", "C109_bpe", "C109_counterexample"],
  "Steps says what a sequence of steps is; C109_library: the steps of the library are such, LibRun; C109_wordPiece, C109_bpe: then Tokenize with one of the two models. C109_counterexample: the ends need the condition.")

c("C110", "proved", ["C110_to_original", "C110_to_normalized", "C110_adjoint", "C110_back", "C110_counterexample"],
  "C110_counterexample: the condition on the first byte is needed.")
c("C111", "proved", ["C111_bpe", "C111_longer", "C111_counterexample", "C111_wordPiece"],
  "EverToken and OwnToken are the two sides; for models without suffix, prefix and dropout. C111_counterexample: a product that is no token of any text.")
c("C112", "proved", ["C112_own", "C112_other", "C112_pointer", "C112_pointer_counterexample", "C112_length", "C112_nil", "C112_behaviour"],
  "Model/AnyRange.lean has the functions on interface values; C112_own: on the two types they are those of the other properties. Methods of a Range that give different values at different calls are left out.")
c("C113", "proved", ["Conc.C113_present", "Conc.C113_only_panics", "Conc.C113_bpe_vocab", "Conc.C113_wordPiece_vocab", "Conc.C113_bpe_merges", "Conc.C113_nil_map", "Conc.C113_wordPiece", "Conc.C113_addTerm", "Conc.C113_set"],
  "The programs of C99 with pointers; C113_present and C113_wordPiece: with tables they are those of the other properties.")
c("C114", "proved", ["C114_front", "C114_alignments", "C114_last", "C114_injective", "C114_to_normalized", "C114_to_original"],
  "endsBy and beginsBefore are entries of OriginalAlignments, or the length of the text beyond the original.")
c("C115", "proved", ["C115_unused", "C115_first", "C115_unknown", "C115_addTerm", "C115_counterexample"],
  "MoreTerms says what a larger vocabulary is. C115_counterexample: a known word becomes unknown.")
c("C116", "proved", ["C116_rules", "C116_products", "C116_files", "C116_counterexample"],
  "For models without suffix, prefix and dropout; C116_rules and C116_products are about the reference algorithm of C82.")
c("C117", "proved", ["BPE.C117_bpe", "BPE.C117_full_dropout", "BPE.C117_dropout_fewer", "WordPiece.C117_wordPiece", "WordPiece.C117_wordPiece_chars", "WordPiece.C117_wordPiece_counterexample", "C117_rows", "C117_encoding_bpe", "C117_encoding_wordPiece", "C117_bert", "C117_gpt2"],
  "The BERT bound is for inputs that do not lose a multi-byte rune at the very front, as C68. C117_wordPiece_counterexample: terms that are not UTF-8 can cut a character.")
c("C118", "proved", ["C118_split", "C118_func", "C118_pts", "C118_whiteSpaceSplit", "C118_bert", "C118_runeDelimiter", "C118_whiteSpace", "C118_metaSpace", "C118_gpt2", "C118_encoding", "C118_lower", "C118_counterexample"],
  "Swaps says what is the same; wholeNS_of_history says which histories of calls (C53) give such strings. C118_counterexample: a function that makes a space of another rune.")
c("C119", "proved", ["split_words", "C119_pts", "C119_result", "keeps_strip", "keeps_map", "keeps_prepend", "keeps_append", "keeps_replace", "C119_whiteSpaceSplit", "C119_runeDelimiter", "C119_bert", "C119_strip", "C119_prepend", "C119_append", "C119_replace", "C119_text", "C119_counterexample", "C119_counterexample_join"],
  "wordsBy says what the words are, Unseen what is the same. TrimsWell and AppendsWell are the conditions of C07 and C09; C119_counterexample shows that they are needed, C119_counterexample_join that the content must not be empty.")
c("C120", "proved", ["wordsBy_spacedBy", "split_isol", "C120_pts", "C120_whiteSpaceSplit", "C120_bert", "C120_normalizer", "C120_counterexample"],
  "isolBy and wordsBy say what the pieces are; DoneBy says what is the same. C120_normalizer uses the tables of Unicode. C120_counterexample: runes that are not delimiters put around the characters cut nothing.")
c("C121", "proved", ["Repr.unique", "SameChars.place", "SameChars.trans", "C121_split", "C121_pts", "C121_preTokenizers", "C121_intoEncoding", "C121_normalizedByteSplits", "C121_tokenize", "C121_encoding", "ByText.wordPiece", "ByText.bpe", "C121_counterexample", "C121_counterexample_original"],
  "SamePlaces says it in terms of texts and alignments, SameChars for strings made of whole characters; Alike skips splits without text. C121_counterexample: a token with an empty range gets offsets that depend on where the split begins, so ByText asks for non-empty ranges. C121_counterexample_original: GetOriginalByteSplits does show the difference.")
c("C122", "proved", ["wordsBy_filter", "isolBy_filter", "C122_split", "C122_pts", "C122_then", "C122_whiteSpaceSplit", "C122_runeDelimiter", "C122_bert", "C122_encoding", "C122_alike", "C122_accents", "C122_clean", "C122_counterexample_clean", "C122_counterexample_number", "C122_counterexample_lead"],
  "DeletesLike says what is the same. The conditions are part of the statement and none can be left out: C122_counterexample_clean (a deleted delimiter), C122_counterexample_number (a word of which nothing is left shifts the word numbers), C122_counterexample_lead (a word that begins with an accent, the flaw of C06).")
c("C123", "proved", ["tame_words", "Carries.pts", "DeletesLike.then", "bertPieces_text", "bertPieces_delete", "C123_bert", "C123_encoding", "C123_counterexample_mark", "C123_counterexample_space"],
  "TameText is the condition, a decidable one on the runes of the text; the counterexamples show that neither part of it can be left out. Models: ByText.wordPiece and ByText.bpe (C121).")
c("C124", "proved", ["split_fates", "refused_iff", "panics_only", "over_fromString", "C124_split", "C124_whiteSpaceSplit", "C124_runeDelimiter", "C124_bert", "C124_bert_panics", "C124_valid"],
  "Exact in both directions for a single cut. For the BERT pre-tokenizer exact when no bad byte stands right before an ASCII byte; C124_bert_panics shows what can happen otherwise.")
c("C125", "proved", ["follow_captures", "C125_join", "C125_regexp", "C125_regexp2", "C125_byteLevelNormalize", "C125_byteLevelNormalize_iff", "C125_byteLevel"],
  "Generalizes C78_byteLevel, which is about the expression of the default constructor, to every expression and engine.")
c("C126", "proved", ["roomy_fromString", "roomy_transform", "C126_map", "C126_chinese", "C126_filter", "C126_filter_ok", "C126_trim_text", "C126_trim_ok", "C126_bert", "C126_no_bad", "C126_lowerCase", "C126_strip"],
  "Roomy: as many alignments as the runes read take in UTF-8; it holds for FromString of any bytes (roomy_fromString) and after every transformation of the whole text that returns (roomy_transform). C126_filter is exact.")
c("C127", "proved", ["gapless_func", "gapless_rune", "gapless_regexp", "gapless_regexp2", "gapless_string", "gapless_invert", "C127_join", "C127_replace", "metaPrefixed_good", "C127_metaSpace"],
  "Gapless: the captures adjoin from 0 to the end of the text or beyond. All three are conditional on the call returning without error; when it does is C124 and C125. metaPrefixed spells out the prefixed text, including a bad first byte, which is overwritten by U+FFFD.")
c("C128", "proved", ["EncodingMemory.C128_capacity", "EncodingMemory.C128_default", "EncodingMemory.C128_tokens", "EncodingMemory.C128_no_panic", "EncodingMemory.C128_append_after", "EncodingMemory.C128_newEncoding", "EncodingMemory.C128_len", "EncodingMemory.push_room", "EncodingMemory.push_full"],
  "Model/EncodingMemory.lean. Running out of memory below the allocation limit, a fatal error in Go, is outside the model.")
c("C129", "proved", ["C129_prepend", "C129_append", "C129_append_ok", "chunks_take_head"],
  "Exact outcomes, alignments included, of the code as it is (Append takes a rune index for a byte index, C09).")
c("C130", "proved", ["C130_replace"],
  "Exact outcome, alignments included. C127_replace states the text alone, when the call returns.")
c("C131", "proved", ["C131_split", "C131_metaSpace", "C131_metaSpace_short", "split_tail", "cutAtStray_iff"],
  "Exact outcomes. C124 has the two behaviours Removed and Isolated; C127_metaSpace states the texts of the pieces.")
c("C132", "proved", ["C132_bert", "C132_rows", "bertNormalize_read", "transform_more", "split_more"],
  "Extends C68 from valid UTF-8 to any bytes. Examples in Props/BertBytes.lean show that with a bad byte in front the pre-tokenizer can panic or the offsets be wrong.")
c("C133", "proved", ["C133_panics", "C133_offsets", "C133_fits", "C133_wordPiece", "C133_bpe", "C133_bpe_cut", "C133_bpe_whole", "C133_example"],
  "A finding: BPE with an unknown token on text that is not valid UTF-8, once cut, ends in a panic of IntoEncoding.")
c("C134", "proved", ["C134_places", "C134_token", "C134_marks", "C134_bounds", "C134_front", "C134_start", "C134_same", "C134_rows", "C134_wordPiece", "C134_counterexample"],
  "C134_start and C134_counterexample say what goes wrong after a bad byte.")
c("C135", "proved", ["orderly_func", "orderly_rune", "orderly_invert", "orderly_regexp", "orderly_regexp2", "C135_splits", "C135_rows", "C135_wordPiece", "C135_library", "C135_counterexample"],
  "C135_counterexample: the ends may go back.")
c("C136", "proved", ["C136_originals", "C136_ranges", "C136_library", "C136_rows", "C136_counterexample"],
  "C136_counterexample: the end can be two bytes beyond the input, and GetOriginalRange panics there.")
c("C137", "proved", ["C137_to_normalized", "C137_panics", "C137_slice", "C137_example"],
  "C137_example: after a bad byte GetRange and Slice panic on the original range of the whole text.")
c("C138", "proved", ["C138_exact", "C138_original", "C138_example"],
  "C138_example: the same changes on a bad byte and a letter work with alignments to spare and panic without.")
c("C139", "proved", ["C139_slice", "C139_split", "C139_example", "isRuneBoundary_any"],
  "C139_example: one bad byte makes Slice succeed, report failure or panic depending on where it stands.")
c("C140", "proved", ["C140_map", "C140_filter", "C140_trim", "C140_example"],
  "KeepsOrPanics is the specification: what the call returns if the runes can be kept, and panic otherwise. Prepend and Append are C129.")
c("C141", "proved", ["C141_exact", "C141_single", "C141_example"],
  "Replacing is the specification. C141_example: content that is not UTF-8 is longer in the text than Replace counts, so the second match replaces bytes of the first replacement.")
c("C142", "proved", ["C142_map", "C142_filter", "C142_heals", "C142_example", "C142_filter_twice"],
  "Rests on C140. Filter twice is not Filter once (C142_filter_twice), because of C06.")
c("C143", "proved", ["C143_filter", "C143_map", "C143_find", "C143_find_empty", "asked_or_stopped", "C143_example"],
  "C143_example: counters, and a function that empties the string while Filter goes through it, after which Filter panics.")
c("C144", "proved", ["C144_chinese", "C144_clean", "C144_bert", "C144_example"],
  "C144_chinese: the result, or a panic when no result is possible. The accents and lower-case steps are one Filter and one Map, C140. C144_example: a character whose bytes have different alignments, and one with too few.")
c("C145", "proved", ["C145_exact", "groups_exist", "C145_length", "C145_fromString", "C145_example"],
  "groups_exist: every list of alignments has such groups. C145_example: a bad byte at the end (too many entries), elsewhere (a panic), and alignments that run backwards.")
c("C146", "proved", ["C146_bytes", "C146_example"],
  "The second part of C146_bytes says that the alignments named in the first exist. The splitting before it: C129 (Prepend), C139 (Split).")
c("C147", "proved", ["C147_split", "C147_normalize", "C147_tokenize", "turns_or_fails", "C147_cache", "C147_example"],
  "turns_or_fails: one of the two cases of each theorem always applies. Functions that change other splits of the same PreTokenizedString are not covered.")
c("C148", "proved", ["C148_source", "C148_tiles", "C148_cache", "C148_example"],
  "C148_example: with dropout two equal splits get different tokens.")
c("C149", "proved", ["C149_find", "C149_pure", "C149_tiles", "C149_join", "C149_example", "C149_lost"],
  "ByteCuts says what the captures are. C149_example: on bytes FF FF 61 a function that says yes to U+FFFD gives the captures 0-3 and 1-4.")
c("C150", "proved", ["C150_empty", "C150_prepend", "C150_append", "C150_twice", "C150_example", "C129_append"],
  "C129 without its condition on the number of alignments.")
c("C151", "proved", ["C151_split", "C151_replace", "C151_invert", "C151_pure", "C151_example"],
  "Model/PatternC.lean. C151_example: a pattern that counts its calls and puts a dash before the text; its captures are of the text before, the last rune is in no piece. That Invert changes the slice of the inner pattern is C92.")
c("C152", "proved", ["C152_replace", "C152_more", "C152_example", "C130_replace"],
  "C130 without its condition on the number of alignments. EndsWithin says which runes must have alignments.")
c("C153", "proved", ["C153_metaSpace", "C153_example", "C150_prepend", "C152_replace", "C139_slice"],
  "C131 and C72 without their conditions on the state. Marked says when the mark is put in front; CutRange and CanCut are those of C139.")
c("C154", "proved", ["C154_runes", "C154_gone", "C154_counterexample"],
  "C154_counterexample is the case of empty content, which the statement names.")
c("C155", "proved", ["C155_twice", "C155_loses", "C155_example", "C129_append"],
  "The counterpart of C150_twice for Append. C155_example: a panic, and a letter lost.")
c("C156", "proved", ["C156_swap", "C156_example", "prepend_oneByte"],
  "C156_example: with an accented letter in front, Append loses a letter of the text.")
c("C157", "proved", ["C157_swap", "C157_example", "C157_self", "C157_self_example"],
  "C157_example also shows that the conditions are needed: with one rune among those put in place of the other, or with empty content on bytes that are not UTF-8, the order matters.")
c("C158", "proved", ["C158_again", "C158_sides", "C158_filters", "C158_example", "C158_sides_example"],
  "C71_trim_twice is the same for valid text with the alignments of whole runes.")

out = os.path.join(os.path.dirname(__file__), "..", "MANIFEST.json")
with open(out, "w") as f:
    f.write('{"claims":[\n' + ",\n".join(json.dumps(x, ensure_ascii=False) for x in claims) + "\n]}\n")
