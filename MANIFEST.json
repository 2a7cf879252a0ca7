{"claims":[
{"property": "C01", "status": "proved", "theorems": ["Verif.C01_fromString", "Verif.C01_rangeLen"], "note": "C01_invalid_utf8 shows the UTF-8 hypothesis is needed."},
{"property": "C02", "status": "proved", "theorems": ["Verif.C02_history_wf", "Verif.C02_conversion_in_bounds", "Verif.C02_transformRange", "Verif.C02_ranges", "Verif.staysInside_of_valid", "Verif.C02_range_counterexample"], "note": "C02_range_counterexample shows that the condition on TransformRange is needed."},
{"property": "C03", "status": "proved", "theorems": ["Verif.C03_provenance", "Verif.C03_only_slice_moves", "Verif.C03_transformRange"]},
{"property": "C04", "status": "proved", "theorems": ["Verif.C04_transformRange", "Verif.C04_boundaries"]},
{"property": "C05", "status": "proved", "theorems": ["Verif.C05_map", "Verif.C05_toUpper", "Verif.C05_toLower"]},
{"property": "C06", "status": "partial", "theorems": ["Verif.C06_filter_partial", "Verif.C06_exact", "Verif.C06_actual", "Verif.C06_panics", "Verif.C06_no_panic", "Verif.seenRunes_spec", "Verif.C06_counterexample_panic", "Verif.C06_counterexample_align"], "note": "The property is false of the code: Filter passes a rune count as a byte offset. Proved when the runes dropped before the first kept one are ASCII; C06_exact: on states whose characters have different alignments (selfChars_distinct: every fresh input) it holds exactly then, or when nothing is kept. C06_actual gives the outcome of Filter on every valid state, also where it is wrong, and C06_panics says when it panics. Counterexamples prove the general claim false."},
{"property": "C07", "status": "partial", "theorems": ["Verif.C07_trim_partial", "Verif.C07_exact", "Verif.C07_actual", "Verif.C07_counterexample_align", "Verif.C07_counterexample_panic", "Verif.trimLeftRightL_eq", "Verif.isWhiteSpace_iff"], "note": "The property is false of the code (same defect as Filter). Proved when the trimmed leading white space is ASCII; C07_exact: on states whose characters have different alignments it holds exactly then (or without left trimming, or with white space only). C07_actual gives the outcome on every valid state."},
{"property": "C08", "status": "partial", "theorems": ["Verif.C08_prepend_partial", "Verif.C08_exact", "Verif.C08_text", "Verif.C08_prepend_empty", "Verif.C08_counterexample_empty"], "note": "False only for Prepend(\"\"), which overwrites the first rune's alignment; proved for every other argument."},
{"property": "C09", "status": "partial", "theorems": ["Verif.C09_append_partial", "Verif.C09_exact", "Verif.C09_actual", "Verif.C09_text", "Verif.C09_append_empty", "Verif.C09_counterexample_corrupt", "Verif.C09_counterexample_loss"], "note": "The property is false of the code: Append uses a rune index as a byte index. Proved when all characters before the last are ASCII; C09_exact: on every valid non-empty state the text is kept exactly then. C09_actual gives the outcome in all cases."},
{"property": "C10", "status": "proved", "theorems": ["Verif.C10_replace", "Verif.C10_text"]},
{"property": "C11", "status": "partial", "theorems": ["Verif.C11_split_partial", "Verif.C11_exact", "Verif.C11_outcomes", "Verif.C11_counterexample"], "note": "False only for empty captures past the end of the original: Split then panics. Proved when every group of captures that becomes a piece can be sliced (non-empty, or empty within the original); C11_exact: in every other case Split panics. C11_outcomes: the outcome for any captures, on rune boundaries or not."},
{"property": "C12", "status": "proved", "theorems": ["Verif.C12_split_groups", "Verif.C12_contiguous_maximal", "Verif.C12_prev_shape", "Verif.C12_next_mirror", "Verif.reverseInPlace_eq"]},
{"property": "C13", "status": "proved", "theorems": ["Verif.C13_slice", "Verif.C13_outcomes", "Verif.C13_consistent", "Verif.C13_slice_original"]},
{"property": "C14", "status": "partial", "theorems": ["Verif.C14_no_panic_partial", "Verif.C14_exact", "Verif.C14_counterexample"], "note": "The property is false of the code: three kinds of range panic. Proved: exactly when CoerceRangeToOriginal panics, that reversed ranges fail, and that GetRange on non-empty original ranges and Slice on non-empty ranges never panic. C14_exact: for all ranges, exactly when each conversion panics."},
{"property": "C15", "status": "proved", "theorems": ["Verif.C15_original_to_normalized", "Verif.C15_all", "Verif.C15_first"]},
{"property": "C16", "status": "proved", "theorems": ["Verif.C16_round_trip", "Verif.C16_all"]},
{"property": "C17", "status": "proved", "theorems": ["Verif.C17_originalAlignments", "Verif.C17_empty_panics", "Verif.C17_panics"]},
{"property": "C18", "status": "proved", "theorems": ["Verif.C18_isRuneBoundary", "Verif.C18_codec", "Verif.C18_string"]},
{"property": "C19", "status": "partial", "theorems": ["Verif.C19_convert_partial", "Verif.C19_actual", "Verif.C19_counterexample", "Verif.C19_exact", "Verif.C19_empty", "Verif.C19_panics"], "note": "The property is false of the code: the converter maps to byte indices. Proved for ASCII text before the end of the range, and C19_actual gives the exact result for all valid text."},
{"property": "C20", "status": "proved", "theorems": ["Verif.C20_func", "Verif.C20_rune"]},
{"property": "C21", "status": "proved", "theorems": ["Verif.C21_regexp", "Verif.C21_regexp2", "Verif.C21_empty"]},
{"property": "C22", "status": "partial", "theorems": ["Verif.C22_string_partial", "Verif.C22_exact", "Verif.C22_empty_text", "Verif.C22_empty_pattern", "Verif.C22_empty_ascii", "Verif.C22_counterexample"], "note": "False only for the empty pattern on non-ASCII text, where the code uses the rune count as the end of the capture."},
{"property": "C23", "status": "proved", "theorems": ["Verif.C23_invert", "Verif.C23_tiles"]},
{"property": "C24", "status": "proved", "theorems": ["Verif.C24_split_ok", "Verif.C24_split_error", "Verif.C24_split_error_unchanged"]},
{"property": "C25", "status": "proved", "theorems": ["Verif.C25_normalized_splits"]},
{"property": "C26", "status": "proved", "theorems": ["Verif.C26_original_splits"]},
{"property": "C27", "status": "proved", "theorems": ["Verif.C27_intoEncoding", "Verif.C27_len"]},
{"property": "C28", "status": "proved", "theorems": ["Verif.C28_encoding_offsets"]},
{"property": "C29", "status": "proved", "theorems": ["Verif.C29_whiteSpaceSplit", "Verif.isWhiteSpace_iff", "Verif.TokenizedBy.unique"], "note": "TokenizedBy.unique: the stated words determine the splits."},
{"property": "C30", "status": "proved", "theorems": ["Verif.C30_bert", "Verif.TokenizedBy.unique"]},
{"property": "C31", "status": "proved", "theorems": ["Verif.C31_runeDelimiter", "Verif.TokenizedBy.unique"]},
{"property": "C32", "status": "proved", "theorems": ["Verif.C32_metaSpace"]},
{"property": "C33", "status": "proved", "theorems": ["Verif.C33_table", "Verif.C33_normalize", "Verif.C33_decode", "Verif.C33_gpt2_table"], "note": "C33_counterexample_invalid: on text that is not valid UTF-8 the normalization panics; the property is about valid states."},
{"property": "C34", "status": "partial", "theorems": ["Verif.C34_bert_partial", "Verif.C34_actual", "Verif.C34_text", "Verif.C34_counterexample", "Verif.C34_chinese"], "note": "False of the code only in that a multi-byte rune removed at the front can panic. C34_text: the text is right whenever there is no panic, for all states and flags. C34_bert_partial: no panic, and exact alignments, when no multi-byte rune is removed before the first kept one. C34_actual gives the outcome, panics included, for all states and flags."},
{"property": "C35", "status": "proved", "theorems": ["Verif.C35_sequence"]},
{"property": "C36", "status": "proved", "theorems": ["Verif.C36_tiles", "Verif.C36_terminates"]},
{"property": "C37", "status": "partial", "theorems": ["Verif.C37_greedy_partial", "Verif.C37_greedy_unique", "Verif.C37_exact", "Verif.C37_exact_unique", "Verif.C37_tried", "Verif.C37_bytes", "Verif.C37_bytes_unique", "Verif.C37_bytes_tried", "Verif.C37_whole_runes", "Verif.C37_counterexample"], "note": "False for three-byte runes after the first: the code steps back by the width of the last byte taken as a rune and skips their boundary. Proved for all other valid words and vocabularies of valid terms; C37_exact describes the result on all valid words: the longest match among the boundaries that are tried, and C37_tried says which these are. C37_bytes is the same for every byte string and every vocabulary, valid UTF-8 or not. For all valid words every token still covers whole runes."},
{"property": "C38", "status": "proved", "theorems": ["Verif.C38_terminates", "Verif.C38_bound", "Verif.Word.mergeAllL_eq"]},
{"property": "C39", "status": "proved", "theorems": ["Verif.C39_table_merges"]},
{"property": "C40", "status": "proved", "theorems": ["Verif.C40_canonical", "Verif.C40_canonical_rank", "Verif.C40_unique", "Verif.C40_file", "Verif.C40_counterexample"], "note": "For tables whose merged ids identify the merged text (C40_file: any table read from a merges file without prefix on a one-to-one vocabulary) or the rank. C40_counterexample: for other tables a stale queue entry can be taken for another pair with the same merged id."},
{"property": "C41", "status": "proved", "theorems": ["Verif.C41_no_pair_left"]},
{"property": "C42", "status": "proved", "theorems": ["Verif.C42_full_dropout"]},
{"property": "C43", "status": "proved", "theorems": ["Verif.C43_priority_queue", "Verif.C43_sorts", "Verif.WMHeap.pushL_eq", "Verif.WMHeap.popL_eq"]},
{"property": "C44", "status": "proved", "theorems": ["Verif.BPE.C44_tiles", "Verif.BPE.C44_outcomes", "Verif.BPE.C44_success", "Verif.BPE.C44_dropped", "Verif.BPE.C44_invalid"], "note": "C44_dropped and C44_invalid show that the conditions are needed."},
{"property": "C45", "status": "proved", "theorems": ["Verif.BPE.C45_values", "Verif.BPE.C45_file"]},
{"property": "C46", "status": "proved", "theorems": ["Verif.BPE.C46_unknown", "Verif.BPE.C46_no_unknown", "Verif.BPE.Fused.unique"]},
{"property": "C47", "status": "partial", "theorems": ["Verif.BPE.C47_lookup_partial", "Verif.BPE.C47_actual", "Verif.BPE.C47_wrong", "Verif.BPE.C47_counterexample"], "note": "False of the code: it adds the prefix to the first character and to no other, so with any prefix every lookup is wrong (C47_wrong). Proved without a prefix, including the end-of-word suffix."},
{"property": "C48", "status": "proved", "theorems": ["Verif.BPE.C48_any_cache", "Verif.BPE.C48_history", "Verif.BPE.C48_getValues"], "note": "C48_any_cache is for every cache that only returns what was stored for the key; the code's cache stores nothing."},
{"property": "C49", "status": "proved", "theorems": ["Verif.C49_dense", "Verif.C49_readd", "Verif.distinct_spec"]},
{"property": "C50", "status": "partial", "theorems": ["Verif.C50_load", "Verif.C50_grow_partial", "Verif.C50_exact", "Verif.C50_counterexample", "Verif.C50_null_panics", "Verif.C50_duplicate_ids"], "note": "Loading is proved for all objects and orders. Later AddTerm calls can reuse an id when ids are sparse (counterexample); proved when all ids are below the size; C50_exact: it holds exactly when no loaded id is one of the new ids."},
{"property": "C51", "status": "partial", "theorems": ["Verif.C51_read_partial", "Verif.C51_outcomes", "Verif.C51_counterexample", "Verif.scanLines_spec", "Verif.content_lines", "Verif.C51_version", "Verif.C51_too_long", "Verif.C51_carriage_return"], "note": "Everything holds except that a right term shorter than the prefix length crashes; C51_outcomes says exactly when."},
{"property": "C52", "status": "proved", "theorems": ["Verif.C52_split_tree", "Verif.slice_slice"]},
{"property": "C53", "status": "proved", "theorems": ["Verif.C53_whole_runes", "Verif.C53_append_corrupts", "Verif.C53_replace_corrupts"]},
{"property": "C54", "status": "proved", "theorems": ["Verif.C54_filter_text", "Verif.C54_trim_text"]},
{"property": "C55", "status": "proved", "theorems": ["Verif.C55_lower_strip"]},
{"property": "C56", "status": "proved", "theorems": ["Verif.BPE.C56_whole_characters"]},
{"property": "C57", "status": "proved", "theorems": ["Verif.BPE.C57_canonical", "Verif.BPE.C57_empty"]},
{"property": "C58", "status": "proved", "theorems": ["Verif.C58_tokenize_ok", "Verif.C58_tokenize_error", "Verif.C58_no_panic"]},
{"property": "C59", "status": "proved", "theorems": ["Verif.C59_normalize_ok", "Verif.C59_normalize_error"]},
{"property": "C60", "status": "proved", "theorems": ["Verif.C60_byteLevel", "Verif.C60_default", "Verif.C60_lossless", "Verif.C60_offsets", "Verif.C60_state", "Verif.C60_engine", "Verif.C60_empty", "Verif.C60_engine_error", "Verif.splittingRegexp_first", "Verif.GptPiece.unique", "Verif.GptPieces.unique"], "note": "The expression is run by a model of the part of regexp2 it uses; character classes are parameters of which SaneTables is assumed (letters, numbers and white space disjoint, \\s is unicode.IsSpace). GptPieces.unique: the stated pieces determine the splits."},
{"property": "C61", "status": "proved", "theorems": ["Verif.C61_whiteSpace", "Verif.C61_engine", "Verif.C61_engine_error", "Verif.KindRuns.unique"], "note": "The expression is run by a model of the part of regexp2 it uses; character classes are parameters. KindRuns.unique: the stated runs determine the splits."},
{"property": "C62", "status": "proved", "theorems": ["Verif.C62_trailing_skips", "Verif.C62_bounded_skips", "Verif.C62_no_skip", "Verif.pairsLeft_zero"], "note": "The random source is an arbitrary sequence of draws."},
{"property": "C63", "status": "proved", "theorems": ["Verif.C63_unsplit", "Verif.C63_order", "Verif.C63_wordPiece", "Verif.C63_bpe", "Verif.C63_history", "Verif.SplitHistory.tree"]},
{"property": "C64", "status": "proved", "theorems": ["Verif.C64_wordPiece", "Verif.C64_bpe", "Verif.C64_bpe_values", "Verif.bert_words", "Verif.whiteSpace_words", "Verif.whiteSpaceSplit_words", "Verif.runeDelimiter_words"], "note": "C64_wordPiece and C64_bpe are for any pre-tokenizer satisfying CutsWords; the four *_words theorems say that the four pre-tokenizers do, and which words they make."},
{"property": "C65", "status": "proved", "theorems": ["Verif.C65_gpt", "Verif.C65_offsets", "Verif.C65_lossless", "Verif.C65_state"], "note": "The expression is run by a model of the part of regexp2 it uses; character classes are parameters of which SaneTables is assumed."},
{"property": "C66", "status": "proved", "theorems": ["Verif.C66_bert", "Verif.C66_whiteSpace", "Verif.C66_whiteSpaceSplit", "Verif.C66_runeDelimiter", "Verif.C66_byteSplits"], "note": "Well-formed is WF (bounds, order, one alignment per byte) with Repr (the bytes of a character share an alignment); C02_history_wf shows that states reached from FromString are."},
{"property": "C67", "status": "proved", "theorems": ["Verif.C67_wordPiece", "Verif.C67_bpe", "Verif.C67_order"], "note": "For any pre-tokenizer satisfying CutsChars, which C66 proves of the four."},
{"property": "C68", "status": "proved", "theorems": ["Verif.C68_bert", "Verif.C68_rows"], "note": "The condition on the front of the text excludes the panic of C34_counterexample; lower-casing must keep the space."},
{"property": "C69", "status": "partial", "theorems": ["Verif.C69_counterexample", "Verif.C69_exact"], "note": "False of the code: the test for empty ranges comes first, so the branch that expands is never reached. C69_exact: the result is the expanded one only when there is nothing to expand to."},
{"property": "C70", "status": "proved", "theorems": ["Verif.C70_sequence", "Verif.C70_order", "Verif.C70_text", "Verif.LocalWords.unique"], "note": "The sequence of calls is the caller's; the library has no composite pre-tokenizer. LocalWords.unique: the stated words determine the splits."},
{"property": "C71", "status": "proved", "theorems": ["Verif.C71_map_id", "Verif.C71_map_map", "Verif.C71_filter_all", "Verif.C71_filter_twice", "Verif.C71_filter_filter", "Verif.C71_filter_filter_text", "Verif.C71_trim_trimmed", "Verif.C71_trim_twice", "Verif.C71_trim_sides", "Verif.C71_bert"], "note": "The alignments of Filter after Filter are claimed where C06 holds."},
{"property": "C72", "status": "proved", "theorems": ["Verif.C72_metaSpace", "Verif.C72_wordPiece", "Verif.C72_bpe", "Verif.C72_lossless", "Verif.C10_chars"], "note": "The runes of an unknown word have no token of their own: with WordPiece the unknown token stands for the whole word."},
{"property": "C73", "status": "proved", "theorems": ["Verif.BPE.C73_values", "Verif.BPE.C73_affixes", "Verif.BPE.C73_concat"], "note": "Spec/Cells.lean says what each character shows and what a group of cells covers; C73_prefix_length shows that the condition on the merges is needed when merges are read with a prefix length."},
{"property": "C74", "status": "proved", "theorems": ["Verif.C74_split", "Verif.C74_normalize", "Verif.C74_tokenize", "Verif.C74_andThen", "Verif.C74_program", "Verif.C74_preTokenizers", "Verif.C74_start", "Verif.C74_read", "Verif.C74_others", "Verif.C74_caller", "Verif.C74_caller_cut"], "note": "Model/Pointers.lean has these functions once more with a store of strings. C74_shared and C74_twice show that the conditions are needed; C74_metaSpace_changes_argument that the meta-space pre-tokenizer changes the string its caller holds."},
{"property": "C75", "status": "proved", "theorems": ["Verif.C75_history", "Verif.C75_queries", "Verif.C75_transformRange", "Verif.writesRunes_go"], "note": "Model/Machine.lean has these functions once more with wrapping integers and make. C75_wraps shows that captures must tile, C75_negative_rune what a negative rune does before Go 1.17."},
{"property": "C76", "status": "proved", "theorems": ["Verif.reads_chunks", "Verif.Reads.unique", "Verif.C76_split", "Verif.C76_whiteSpaceSplit", "Verif.C76_runeDelimiter", "Verif.C76_bert", "Verif.C76_bad_end", "Verif.C76_transform", "Verif.C76_map", "Verif.C76_filter", "Verif.C76_map_total", "Verif.C76_bpe", "Verif.C76_bpe_tokenize"], "note": "Spec/Bytes.lean says how bytes are read. C76_wrong_offsets shows that the original offsets of pieces after a bad byte are wrong, C76_refused which texts are refused."},
{"property": "C77", "status": "proved", "theorems": ["Verif.Memory.C77_values", "Verif.Memory.C77_frame", "Verif.Memory.C77_capacity", "Verif.Memory.C77_coerce_exact", "Verif.Memory.C77_past_the_end", "Verif.Memory.C77_bad_bytes"], "note": "Model/Memory.lean has the functions that touch alignments once more over an explicit memory of arrays. C77_past_the_end and C77_bad_bytes are the two ways a range past the end is answered with stale alignments."},
{"property": "C78", "status": "proved", "theorems": ["Verif.C78_regexp2", "Verif.C78_pieces", "Verif.C78_regexp2_end", "Verif.C78_regexp2_isolated", "Verif.C78_regexp2_inverted", "Verif.C78_mergedWithNext", "Verif.C78_byteLevel_split", "Verif.C78_prepend", "Verif.C78_byteLevel", "Verif.C78_whiteSpace"], "note": "C78_byteLevel_lost, C78_byteLevel_refused and C78_whiteSpace_wrong are concrete bad texts, with the wrong or missing pieces."},
{"property": "C79", "status": "proved", "theorems": ["Verif.C79_patterns", "Verif.C79_split", "Verif.C79_offsets", "Verif.C79_merges", "Verif.C79_mergeAll", "Verif.C79_bpe", "Verif.C79_wordPiece"], "note": "C79_wraps_word and C79_wraps_encoding show that the bounds on symbol lengths and token offsets are needed."},
{"property": "C80", "status": "proved", "theorems": ["Verif.C80_wordPiece", "Verif.C80_wordPiece_attained", "Verif.C80_merge", "Verif.C80_draws", "Verif.C80_queue"], "note": "Vocabulary lookups are counted by a copy of the loops that is proved to return the same tokens; iterations are counted by the fuel of the loops."},
{"property": "C81", "status": "proved", "theorems": ["Verif.C81_loads", "Verif.C81_ids", "Verif.C81_strings", "Verif.C81_errors", "Verif.C81_null", "Verif.C81_valid", "Verif.C81_roundtrip"], "note": "encoding/json is modelled by recursive descent and shown to accept exactly the grammar (Json.parse_iff); only the kind of an error is kept."},
{"property": "C82", "status": "proved", "theorems": ["Verif.C82_files", "Verif.C82_tokens", "Verif.C82_done", "Verif.C82_gpt", "Verif.C82_trained", "Verif.C82_order_counterexample"], "note": "Spec/Reference.lean has both algorithms on texts, without ids, ranks and queues. C82_order_counterexample is a rule table with a rule before the one that makes its part, on which they differ."},
{"property": "C83", "status": "proved", "theorems": ["Verif.C83_gpt2", "Verif.C83_reference", "Verif.C82_trained"], "note": "The splitting expression is run by the regular expression engine of the model; the Unicode tables are a parameter with the conditions of C65."},
{"property": "C84", "status": "proved", "theorems": ["Verif.C84_word", "Verif.C84_bert", "Verif.TokenizedBy.cutWords", "Verif.C37_tried"], "note": "Spec/BertReference.lean has the reference algorithms as functions. Texts from whose front a multi-byte rune is dropped can make the normalizer panic (C34)."},
{"property": "C85", "status": "proved", "theorems": ["Verif.WordMemory.C85_values", "Verif.WordMemory.C85_counterexample", "Verif.WordMemory.C85_copied"], "note": "Model/WordMemory.lean has word.go over a memory of symbols and arrays of pointers; each *Word is a slice variable of its own. The two last theorems show what the exceptions named in the property do."},
{"property": "C86", "status": "proved", "theorems": ["Verif.C86_ids", "Verif.C86_same"], "note": "Spec/Join.lean has the reading of ids from the list that was written to the file."},
{"property": "C87", "status": "proved", "theorems": ["Verif.C87_gpt", "Verif.ByteModel.of_files", "Verif.C87_wordPiece", "Verif.C87_bpe", "Verif.C87_whiteSpace", "Verif.C87_runeDelimiter", "Verif.C87_bert", "Verif.C87_meta_wordPiece", "Verif.C87_meta_bpe", "Verif.C87_after_space", "Verif.C87_inside", "Verif.C87_meta_prefix"], "note": "joinEncodings in Spec/Join.lean. C87_wordPiece and C87_bpe are for every pre-tokenizer that cuts words by what is kept and between which neighbours there is a cut; the four of the package do (C66, localWords). C87_gpt is for byte-level models without dropout, such as those from files (ByteModel.of_files)."},
{"property": "C88", "status": "partial", "theorems": ["Verif.C88_known_partial", "Verif.C88_exact", "Verif.C88_counterexample"], "note": "False for words with a three-byte character after the first (C88_counterexample): the search does not look at the boundary in front of it or not at the one behind it. Proved for all other words. C88_exact: if no two neighbouring characters are a term, exactly the words with a later three-byte character are unknown."},
{"property": "C89", "status": "proved", "theorems": ["Verif.C89_metaSpace", "Verif.C89_bert", "Verif.C89_bpe", "Verif.C89_wordPiece"], "note": "When BertNormalizer panics is C34_actual. The default prefix, unknown token and cache capacity of the two models show in no result."},
{"property": "C90", "status": "proved", "theorems": ["Verif.C90_bertNormalize", "Verif.C90_preTokenizers", "Verif.C90_encode", "Verif.C90_gpt2", "Verif.C90_bert", "Verif.C90_bound_needed"], "note": "MetaSpace is covered on texts of whole runes (Replace needs captures that tile the text). The engine of regexp2 is any engine that reports its matches from left to right, at most one per position. C90_bound_needed: without the bound on the length the results differ."},
{"property": "C91", "status": "proved", "theorems": ["Verif.C91_any_bytes", "Verif.C91_bytes", "Verif.C91_valid", "Verif.C91_spells", "Verif.C91_replacement"], "note": "The engine of package regexp on a literal is modelled as reading runes with the decoder of the model. Versions of Go that look for a literal prefix by its bytes also for U+FFFD differ for patterns containing U+FFFD on texts that are not valid."},
{"property": "C92", "status": "proved", "theorems": ["Verif.PatternMemory.C92_call", "Verif.PatternMemory.C92_alloc", "Verif.PatternMemory.C92_invert", "Verif.PatternMemory.C92_history", "Verif.PatternMemory.C92_kept", "Verif.PatternMemory.C92_kept_example"], "note": "C23 is about patterns as functions; this says for which patterns that is right."},
{"property": "C93", "status": "proved", "theorems": ["Verif.C93_transformRange", "Verif.C93_transform", "Verif.C93_filter", "Verif.C93_map", "Verif.C93_trim", "Verif.C93_prepend", "Verif.C93_append", "Verif.C93_replace", "Verif.C93_replace_example", "Verif.C93_call", "Verif.C93_history", "Verif.PTS.C93_split_agrees", "Verif.PTS.C93_normalize_agrees", "Verif.PTS.C93_tokenize_agrees", "Verif.PTS.C93_split", "Verif.PTS.C93_normalize", "Verif.PTS.C93_tokenize", "Verif.PTS.C93_step", "Verif.PTS.C93_splits_history", "Verif.PTS.C93_sound_calls", "Verif.PTS.C93_sound_split"], "note": "TransformRange in these histories is used through the named operations and Replace with any pattern. Functions given to the three methods must leave well-formed parts of the input; C93_sound_calls and C93_sound_split say that those made of the library's own operations do."},
{"property": "C94", "status": "proved", "theorems": ["Verif.Unicode.C94_sane", "Verif.Unicode.C94_bert_sane", "Verif.Unicode.C94_sort4", "Verif.Unicode.C94_word", "Verif.Unicode.C94_toLower_twice", "Verif.Unicode.C94_lowerCase", "Verif.Unicode.C94_classes", "Verif.Unicode.C94_byteLevel", "Verif.Unicode.C94_bert_lower", "Verif.Unicode.C94_gpt_lower", "Verif.Unicode.C94_ascii_punct", "Verif.Unicode.C94_clean_space"], "note": "Model/UnicodeTables.lean is written by tools/gen_unicode.py from Python's unicodedata; the Go release fixes its own version of the tables. Statements about all runes come from checks of ranges against ranges, done by the kernel."},
{"property": "C95", "status": "proved", "theorems": ["Verif.SplitMemory.C95_values", "Verif.SplitMemory.C95_tokenize", "Verif.SplitMemory.C95_counterexample"], "note": "C95_counterexample: a function passed to Tokenize that calls Split on the same object makes Tokenize panic, or gives the tokens of a text to its first part and none to the others, without an error."},
{"property": "C96", "status": "proved", "theorems": ["Verif.C96_none", "Verif.C96_full", "Verif.C96_unchanged", "Verif.C96_probability"], "note": "A float64 is not a number, an infinity or a rational: only < is used. C96_probability counts the draws on a grid of 1/M (Go: M = 2^53) that merge nothing: j^n of M^n for the value j/M."},
{"property": "C97", "status": "proved", "theorems": ["Verif.C97_merges", "Verif.C97_merges_whole", "Verif.C97_vocabulary"], "note": "bufio.Scanner is modelled with its growing buffer, ioutil.ReadFile with a buffer of any sizes. A panic of MergeMapFromFile on a short right term (C51_counterexample) can also come from the bytes before an error."},
{"property": "C98", "status": "proved", "theorems": ["Verif.C98_words", "Verif.C98_same"], "note": "spellWords is the reader; the words are those of Spec/BertReference.lean. Examples show that a prefix of one punctuation mark or of letters can be confused with a word."},
{"property": "C99", "status": "proved", "theorems": ["Verif.Conc.C99_tokenize", "Verif.Conc.C99_same", "Verif.Conc.C99_ends", "Verif.Conc.C99_single", "Verif.Conc.alone_bpe", "Verif.Conc.quiet_wordPiece", "Verif.Conc.alone_addTerm", "Verif.Conc.C99_counterexample_race", "Verif.Conc.C99_counterexample_ids"], "note": "Calls are programs of single accesses (Model/Concurrent.lean); alone_bpe, quiet_wordPiece and alone_addTerm show that alone they are the methods of the other files. C99_ends holds for all programs, also those that write; C99_single: one goroutine does what its calls do alone."},
{"property": "C100", "status": "proved", "theorems": ["Verif.Rename.C100_bpe", "Verif.Rename.C100_files", "Verif.Rename.C100_wordPiece"], "note": "Direct simulation of heap, MergeAll and Tokenize; the ids concerned can be any set closed under the merges, so that C101 is the case of the identity."},
{"property": "C101", "status": "proved", "theorems": ["Verif.Rename.C101_bpe", "Verif.Rename.C101_addTerm", "Verif.Rename.C101_setMerge", "Verif.Rename.C101_ranks", "Verif.Rename.C101_wordPiece", "Verif.Rename.C101_wordPiece_addTerm", "Verif.Rename.C101_counterexample_id"], "note": "C101_counterexample_id: the condition on the new id is needed."},
{"property": "C102", "status": "proved", "theorems": ["Verif.C102_map_filter", "Verif.C102_prepend_prepend", "Verif.C102_append_append", "Verif.C102_prepend_append", "Verif.C102_map_prepend", "Verif.C102_map_append", "Verif.C102_map_slice", "Verif.C102_map_split", "Verif.C102_counterexample"], "note": "For Filter and Append under the conditions of C06 and C09 (the runes in front are one byte long); C102_counterexample: without them the order of Prepend and Append matters."},
{"property": "C103", "status": "proved", "theorems": ["Verif.C103_words", "Verif.C103_joined", "Verif.C103_normalized", "Verif.C103_decode", "Verif.C103_unicode"], "note": "StableCase: what is asked of the case table; C103_unicode proves it of the tables of Unicode. For texts with a good start (no rune of several bytes is dropped from the front, C06)."},
{"property": "C104", "status": "proved", "theorems": ["Verif.C104_meta", "Verif.C104_same", "Verif.CutBefore.eq"], "note": "cutFront is the cutting as a function; CutBefore.eq: it is the only way to cut as in C72. The model has no suffix for ends of words and no dropout."},
{"property": "C105", "status": "proved", "theorems": ["Verif.C105_files", "Verif.C105_rules", "Verif.C105_counterexample"], "note": "Glued and SamePlace say how a token is made of others; the places are stated for models without suffix. C105_counterexample: a rule that comes twice."},
{"property": "C106", "status": "proved", "theorems": ["Verif.C106_tokens", "Verif.C106_cut", "Verif.C106_rules"], "note": "For models without suffix and prefix; with a suffix the end of a part is not the end of a word."},
{"property": "C107", "status": "proved", "theorems": ["Verif.C107_front", "Verif.C107_valid", "Verif.C107_rest", "Verif.C107_counterexample"], "note": "C107_front is for any bytes, with the limit as a condition; C107_valid for valid words and terms, without it."},
{"property": "C108", "status": "proved", "theorems": ["Verif.C108_lower_strip", "Verif.C108_lower_bert", "Verif.C108_unicode", "Verif.C108_counterexample"], "note": "The conditions on leading characters are those of C07 and C34; C108_counterexample shows that they are needed."},
{"property": "C109", "status": "proved", "theorems": ["Verif.C109_splits", "Verif.C109_encoding", "Verif.C109_library", "Verif.C109_wordPiece", "Verif.C109_bpe", "Verif.C109_counterexample"], "note": "Steps says what a sequence of steps is; C109_library: the steps of the library are such, LibRun; C109_wordPiece, C109_bpe: then Tokenize with one of the two models. C109_counterexample: the ends need the condition."},
{"property": "C110", "status": "proved", "theorems": ["Verif.C110_to_original", "Verif.C110_to_normalized", "Verif.C110_adjoint", "Verif.C110_back", "Verif.C110_counterexample"], "note": "C110_counterexample: the condition on the first byte is needed."},
{"property": "C111", "status": "proved", "theorems": ["Verif.C111_bpe", "Verif.C111_longer", "Verif.C111_counterexample", "Verif.C111_wordPiece"], "note": "EverToken and OwnToken are the two sides; for models without suffix, prefix and dropout. C111_counterexample: a product that is no token of any text."},
{"property": "C112", "status": "proved", "theorems": ["Verif.C112_own", "Verif.C112_other", "Verif.C112_pointer", "Verif.C112_pointer_counterexample", "Verif.C112_length", "Verif.C112_nil", "Verif.C112_behaviour"], "note": "Model/AnyRange.lean has the functions on interface values; C112_own: on the two types they are those of the other properties. Methods of a Range that give different values at different calls are left out."},
{"property": "C113", "status": "proved", "theorems": ["Verif.Conc.C113_present", "Verif.Conc.C113_only_panics", "Verif.Conc.C113_bpe_vocab", "Verif.Conc.C113_wordPiece_vocab", "Verif.Conc.C113_bpe_merges", "Verif.Conc.C113_nil_map", "Verif.Conc.C113_wordPiece", "Verif.Conc.C113_addTerm", "Verif.Conc.C113_set"], "note": "The programs of C99 with pointers; C113_present and C113_wordPiece: with tables they are those of the other properties."},
{"property": "C114", "status": "proved", "theorems": ["Verif.C114_front", "Verif.C114_alignments", "Verif.C114_last", "Verif.C114_injective", "Verif.C114_to_normalized", "Verif.C114_to_original"], "note": "endsBy and beginsBefore are entries of OriginalAlignments, or the length of the text beyond the original."},
{"property": "C115", "status": "proved", "theorems": ["Verif.C115_unused", "Verif.C115_first", "Verif.C115_unknown", "Verif.C115_addTerm", "Verif.C115_counterexample"], "note": "MoreTerms says what a larger vocabulary is. C115_counterexample: a known word becomes unknown."},
{"property": "C116", "status": "proved", "theorems": ["Verif.C116_rules", "Verif.C116_products", "Verif.C116_files", "Verif.C116_counterexample"], "note": "For models without suffix, prefix and dropout; C116_rules and C116_products are about the reference algorithm of C82."},
{"property": "C117", "status": "proved", "theorems": ["Verif.BPE.C117_bpe", "Verif.BPE.C117_full_dropout", "Verif.BPE.C117_dropout_fewer", "Verif.WordPiece.C117_wordPiece", "Verif.WordPiece.C117_wordPiece_chars", "Verif.WordPiece.C117_wordPiece_counterexample", "Verif.C117_rows", "Verif.C117_encoding_bpe", "Verif.C117_encoding_wordPiece", "Verif.C117_bert", "Verif.C117_gpt2"], "note": "The BERT bound is for inputs that do not lose a multi-byte rune at the very front, as C68. C117_wordPiece_counterexample: terms that are not UTF-8 can cut a character."},
{"property": "C118", "status": "proved", "theorems": ["Verif.C118_split", "Verif.C118_func", "Verif.C118_pts", "Verif.C118_whiteSpaceSplit", "Verif.C118_bert", "Verif.C118_runeDelimiter", "Verif.C118_whiteSpace", "Verif.C118_metaSpace", "Verif.C118_gpt2", "Verif.C118_encoding", "Verif.C118_lower", "Verif.C118_counterexample"], "note": "Swaps says what is the same; wholeNS_of_history says which histories of calls (C53) give such strings. C118_counterexample: a function that makes a space of another rune."},
{"property": "C119", "status": "proved", "theorems": ["Verif.split_words", "Verif.C119_pts", "Verif.C119_result", "Verif.keeps_strip", "Verif.keeps_map", "Verif.keeps_prepend", "Verif.keeps_append", "Verif.keeps_replace", "Verif.C119_whiteSpaceSplit", "Verif.C119_runeDelimiter", "Verif.C119_bert", "Verif.C119_strip", "Verif.C119_prepend", "Verif.C119_append", "Verif.C119_replace", "Verif.C119_text", "Verif.C119_counterexample", "Verif.C119_counterexample_join"], "note": "wordsBy says what the words are, Unseen what is the same. TrimsWell and AppendsWell are the conditions of C07 and C09; C119_counterexample shows that they are needed, C119_counterexample_join that the content must not be empty."},
{"property": "C120", "status": "proved", "theorems": ["Verif.wordsBy_spacedBy", "Verif.split_isol", "Verif.C120_pts", "Verif.C120_whiteSpaceSplit", "Verif.C120_bert", "Verif.C120_normalizer", "Verif.C120_counterexample"], "note": "isolBy and wordsBy say what the pieces are; DoneBy says what is the same. C120_normalizer uses the tables of Unicode. C120_counterexample: runes that are not delimiters put around the characters cut nothing."},
{"property": "C121", "status": "proved", "theorems": ["Verif.Repr.unique", "Verif.SameChars.place", "Verif.SameChars.trans", "Verif.C121_split", "Verif.C121_pts", "Verif.C121_preTokenizers", "Verif.C121_intoEncoding", "Verif.C121_normalizedByteSplits", "Verif.C121_tokenize", "Verif.C121_encoding", "Verif.ByText.wordPiece", "Verif.ByText.bpe", "Verif.C121_counterexample", "Verif.C121_counterexample_original"], "note": "SamePlaces says it in terms of texts and alignments, SameChars for strings made of whole characters; Alike skips splits without text. C121_counterexample: a token with an empty range gets offsets that depend on where the split begins, so ByText asks for non-empty ranges. C121_counterexample_original: GetOriginalByteSplits does show the difference."},
{"property": "C122", "status": "proved", "theorems": ["Verif.wordsBy_filter", "Verif.isolBy_filter", "Verif.C122_split", "Verif.C122_pts", "Verif.C122_then", "Verif.C122_whiteSpaceSplit", "Verif.C122_runeDelimiter", "Verif.C122_bert", "Verif.C122_encoding", "Verif.C122_alike", "Verif.C122_accents", "Verif.C122_clean", "Verif.C122_counterexample_clean", "Verif.C122_counterexample_number", "Verif.C122_counterexample_lead"], "note": "DeletesLike says what is the same. The conditions are part of the statement and none can be left out: C122_counterexample_clean (a deleted delimiter), C122_counterexample_number (a word of which nothing is left shifts the word numbers), C122_counterexample_lead (a word that begins with an accent, the flaw of C06)."},
{"property": "C123", "status": "proved", "theorems": ["Verif.tame_words", "Verif.Carries.pts", "Verif.DeletesLike.then", "Verif.bertPieces_text", "Verif.bertPieces_delete", "Verif.C123_bert", "Verif.C123_encoding", "Verif.C123_counterexample_mark", "Verif.C123_counterexample_space"], "note": "TameText is the condition, a decidable one on the runes of the text; the counterexamples show that neither part of it can be left out. Models: ByText.wordPiece and ByText.bpe (C121)."},
{"property": "C124", "status": "proved", "theorems": ["Verif.split_fates", "Verif.refused_iff", "Verif.panics_only", "Verif.over_fromString", "Verif.C124_split", "Verif.C124_whiteSpaceSplit", "Verif.C124_runeDelimiter", "Verif.C124_bert", "Verif.C124_bert_panics", "Verif.C124_valid"], "note": "Exact in both directions for a single cut. For the BERT pre-tokenizer exact when no bad byte stands right before an ASCII byte; C124_bert_panics shows what can happen otherwise."},
{"property": "C125", "status": "proved", "theorems": ["Verif.follow_captures", "Verif.C125_join", "Verif.C125_regexp", "Verif.C125_regexp2", "Verif.C125_byteLevelNormalize", "Verif.C125_byteLevelNormalize_iff", "Verif.C125_byteLevel"], "note": "Generalizes C78_byteLevel, which is about the expression of the default constructor, to every expression and engine."},
{"property": "C126", "status": "proved", "theorems": ["Verif.roomy_fromString", "Verif.roomy_transform", "Verif.C126_map", "Verif.C126_chinese", "Verif.C126_filter", "Verif.C126_filter_ok", "Verif.C126_trim_text", "Verif.C126_trim_ok", "Verif.C126_bert", "Verif.C126_no_bad", "Verif.C126_lowerCase", "Verif.C126_strip"], "note": "Roomy: as many alignments as the runes read take in UTF-8; it holds for FromString of any bytes (roomy_fromString) and after every transformation of the whole text that returns (roomy_transform). C126_filter is exact."},
{"property": "C127", "status": "proved", "theorems": ["Verif.gapless_func", "Verif.gapless_rune", "Verif.gapless_regexp", "Verif.gapless_regexp2", "Verif.gapless_string", "Verif.gapless_invert", "Verif.C127_join", "Verif.C127_replace", "Verif.metaPrefixed_good", "Verif.C127_metaSpace"], "note": "Gapless: the captures adjoin from 0 to the end of the text or beyond. All three are conditional on the call returning without error; when it does is C124 and C125. metaPrefixed spells out the prefixed text, including a bad first byte, which is overwritten by U+FFFD."},
{"property": "C128", "status": "proved", "theorems": ["Verif.EncodingMemory.C128_capacity", "Verif.EncodingMemory.C128_default", "Verif.EncodingMemory.C128_tokens", "Verif.EncodingMemory.C128_no_panic", "Verif.EncodingMemory.C128_append_after", "Verif.EncodingMemory.C128_newEncoding", "Verif.EncodingMemory.C128_len", "Verif.EncodingMemory.push_room", "Verif.EncodingMemory.push_full"], "note": "Model/EncodingMemory.lean. Running out of memory below the allocation limit, a fatal error in Go, is outside the model."},
{"property": "C129", "status": "proved", "theorems": ["Verif.C129_prepend", "Verif.C129_append", "Verif.C129_append_ok", "Verif.chunks_take_head"], "note": "Exact outcomes, alignments included, of the code as it is (Append takes a rune index for a byte index, C09)."},
{"property": "C130", "status": "proved", "theorems": ["Verif.C130_replace"], "note": "Exact outcome, alignments included. C127_replace states the text alone, when the call returns."},
{"property": "C131", "status": "proved", "theorems": ["Verif.C131_split", "Verif.C131_metaSpace", "Verif.C131_metaSpace_short", "Verif.split_tail", "Verif.cutAtStray_iff"], "note": "Exact outcomes. C124 has the two behaviours Removed and Isolated; C127_metaSpace states the texts of the pieces."},
{"property": "C132", "status": "proved", "theorems": ["Verif.C132_bert", "Verif.C132_rows", "Verif.bertNormalize_read", "Verif.transform_more", "Verif.split_more"], "note": "Extends C68 from valid UTF-8 to any bytes. Examples in Props/BertBytes.lean show that with a bad byte in front the pre-tokenizer can panic or the offsets be wrong."},
{"property": "C133", "status": "proved", "theorems": ["Verif.C133_panics", "Verif.C133_offsets", "Verif.C133_fits", "Verif.C133_wordPiece", "Verif.C133_bpe", "Verif.C133_bpe_cut", "Verif.C133_bpe_whole", "Verif.C133_example"], "note": "A finding: BPE with an unknown token on text that is not valid UTF-8, once cut, ends in a panic of IntoEncoding."},
{"property": "C134", "status": "proved", "theorems": ["Verif.C134_places", "Verif.C134_token", "Verif.C134_marks", "Verif.C134_bounds", "Verif.C134_front", "Verif.C134_start", "Verif.C134_same", "Verif.C134_rows", "Verif.C134_wordPiece", "Verif.C134_counterexample"], "note": "C134_start and C134_counterexample say what goes wrong after a bad byte."},
{"property": "C135", "status": "proved", "theorems": ["Verif.orderly_func", "Verif.orderly_rune", "Verif.orderly_invert", "Verif.orderly_regexp", "Verif.orderly_regexp2", "Verif.C135_splits", "Verif.C135_rows", "Verif.C135_wordPiece", "Verif.C135_library", "Verif.C135_counterexample"], "note": "C135_counterexample: the ends may go back."},
{"property": "C136", "status": "proved", "theorems": ["Verif.C136_originals", "Verif.C136_ranges", "Verif.C136_library", "Verif.C136_rows", "Verif.C136_counterexample"], "note": "C136_counterexample: the end can be two bytes beyond the input, and GetOriginalRange panics there."},
{"property": "C137", "status": "proved", "theorems": ["Verif.C137_to_normalized", "Verif.C137_panics", "Verif.C137_slice", "Verif.C137_example"], "note": "C137_example: after a bad byte GetRange and Slice panic on the original range of the whole text."},
{"property": "C138", "status": "proved", "theorems": ["Verif.C138_exact", "Verif.C138_original", "Verif.C138_example"], "note": "C138_example: the same changes on a bad byte and a letter work with alignments to spare and panic without."},
{"property": "C139", "status": "proved", "theorems": ["Verif.C139_slice", "Verif.C139_split", "Verif.C139_example", "Verif.isRuneBoundary_any"], "note": "C139_example: one bad byte makes Slice succeed, report failure or panic depending on where it stands."},
{"property": "C140", "status": "proved", "theorems": ["Verif.C140_map", "Verif.C140_filter", "Verif.C140_trim", "Verif.C140_example"], "note": "KeepsOrPanics is the specification: what the call returns if the runes can be kept, and panic otherwise. Prepend and Append are C129."},
{"property": "C141", "status": "proved", "theorems": ["Verif.C141_exact", "Verif.C141_single", "Verif.C141_example"], "note": "Replacing is the specification. C141_example: content that is not UTF-8 is longer in the text than Replace counts, so the second match replaces bytes of the first replacement."},
{"property": "C142", "status": "proved", "theorems": ["Verif.C142_map", "Verif.C142_filter", "Verif.C142_heals", "Verif.C142_example", "Verif.C142_filter_twice"], "note": "Rests on C140. Filter twice is not Filter once (C142_filter_twice), because of C06."},
{"property": "C143", "status": "proved", "theorems": ["Verif.C143_filter", "Verif.C143_map", "Verif.C143_find", "Verif.C143_find_empty", "Verif.asked_or_stopped", "Verif.C143_example"], "note": "C143_example: counters, and a function that empties the string while Filter goes through it, after which Filter panics."},
{"property": "C144", "status": "proved", "theorems": ["Verif.C144_chinese", "Verif.C144_clean", "Verif.C144_bert", "Verif.C144_example"], "note": "C144_chinese: the result, or a panic when no result is possible. The accents and lower-case steps are one Filter and one Map, C140. C144_example: a character whose bytes have different alignments, and one with too few."},
{"property": "C145", "status": "proved", "theorems": ["Verif.C145_exact", "Verif.groups_exist", "Verif.C145_length", "Verif.C145_fromString", "Verif.C145_example"], "note": "groups_exist: every list of alignments has such groups. C145_example: a bad byte at the end (too many entries), elsewhere (a panic), and alignments that run backwards."},
{"property": "C146", "status": "proved", "theorems": ["Verif.C146_bytes", "Verif.C146_example"], "note": "The second part of C146_bytes says that the alignments named in the first exist. The splitting before it: C129 (Prepend), C139 (Split)."},
{"property": "C147", "status": "proved", "theorems": ["Verif.C147_split", "Verif.C147_normalize", "Verif.C147_tokenize", "Verif.turns_or_fails", "Verif.C147_cache", "Verif.C147_example"], "note": "turns_or_fails: one of the two cases of each theorem always applies. Functions that change other splits of the same PreTokenizedString are not covered."},
{"property": "C148", "status": "proved", "theorems": ["Verif.C148_source", "Verif.C148_tiles", "Verif.C148_cache", "Verif.C148_example"], "note": "C148_example: with dropout two equal splits get different tokens."},
{"property": "C149", "status": "proved", "theorems": ["Verif.C149_find", "Verif.C149_pure", "Verif.C149_tiles", "Verif.C149_join", "Verif.C149_example", "Verif.C149_lost"], "note": "ByteCuts says what the captures are. C149_example: on bytes FF FF 61 a function that says yes to U+FFFD gives the captures 0-3 and 1-4."},
{"property": "C150", "status": "proved", "theorems": ["Verif.C150_empty", "Verif.C150_prepend", "Verif.C150_append", "Verif.C150_twice", "Verif.C150_example", "Verif.C129_append"], "note": "C129 without its condition on the number of alignments."},
{"property": "C151", "status": "proved", "theorems": ["Verif.C151_split", "Verif.C151_replace", "Verif.C151_invert", "Verif.C151_pure", "Verif.C151_example"], "note": "Model/PatternC.lean. C151_example: a pattern that counts its calls and puts a dash before the text; its captures are of the text before, the last rune is in no piece. That Invert changes the slice of the inner pattern is C92."},
{"property": "C152", "status": "proved", "theorems": ["Verif.C152_replace", "Verif.C152_more", "Verif.C152_example", "Verif.C130_replace"], "note": "C130 without its condition on the number of alignments. EndsWithin says which runes must have alignments."},
{"property": "C153", "status": "proved", "theorems": ["Verif.C153_metaSpace", "Verif.C153_example", "Verif.C150_prepend", "Verif.C152_replace", "Verif.C139_slice"], "note": "C131 and C72 without their conditions on the state. Marked says when the mark is put in front; CutRange and CanCut are those of C139."},
{"property": "C154", "status": "proved", "theorems": ["Verif.C154_runes", "Verif.C154_gone", "Verif.C154_counterexample"], "note": "C154_counterexample is the case of empty content, which the statement names."},
{"property": "C155", "status": "proved", "theorems": ["Verif.C155_twice", "Verif.C155_loses", "Verif.C155_example", "Verif.C129_append"], "note": "The counterpart of C150_twice for Append. C155_example: a panic, and a letter lost."},
{"property": "C156", "status": "proved", "theorems": ["Verif.C156_swap", "Verif.C156_example", "Verif.prepend_oneByte"], "note": "C156_example: with an accented letter in front, Append loses a letter of the text."},
{"property": "C157", "status": "proved", "theorems": ["Verif.C157_swap", "Verif.C157_example", "Verif.C157_self", "Verif.C157_self_example"], "note": "C157_example also shows that the conditions are needed: with one rune among those put in place of the other, or with empty content on bytes that are not UTF-8, the order matters."},
{"property": "C158", "status": "proved", "theorems": ["Verif.C158_again", "Verif.C158_sides", "Verif.C158_filters", "Verif.C158_example", "Verif.C158_sides_example"], "note": "C71_trim_twice is the same for valid text with the alignments of whole runes."}
]}
