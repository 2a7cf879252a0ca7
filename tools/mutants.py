"""The wrong programs tried by seed.py."""
MUTANTS = []
def m(name, file, df, old, new, breaks, claim, edit=None, **kw):
    MUTANTS.append(dict(name=name, file="Model/" + file + ".lean", **{"def": df}, old=old, new=new,
                        breaks=breaks, claim=claim, edit=edit or f"`{old}` -> `{new}`", **kw))

NSF = "NormalizedString"
m("ns-01", NSF, "alignmentsFromString", "⟨(runeIndex : Int), ((runeIndex + bytesLen : Nat) : Int)⟩", "⟨(runeIndex : Int), ((runeIndex + 1 : Nat) : Int)⟩",
  ["C01"], "GetOriginalRange of a range ending in a multi-byte rune returns the whole rune")
m("ns-02", NSF, "NS.originalOffsets", "⟨ns.originalShift, ns.originalShift + ns.originalLen⟩", "⟨ns.originalShift, ns.originalShift + ns.len⟩",
  ["C03", "C26"], "OriginalOffsets ends where the original text ends, also after the normalized length has changed")
m("ns-03", NSF, "NS.coerceLoop", "if al.stop > rStop then (start, stop)", "if al.stop ≥ rStop then (start, stop)",
  ["C15"], "the last byte whose alignment ends exactly at the end of the range is part of the result")
m("ns-04", NSF, "NS.coerceLoop", "if start = -1 ∧ al.start ≥ rStart then", "if start = -1 ∧ al.start > rStart then",
  ["C15"], "a byte aligned exactly from the start of the range is part of the result")
m("ns-05", NSF, "NS.coerceLoop", "(if al.start ≠ al.stop then i else start)", "i",
  ["C15"], "the result starts at the first byte with a non-empty alignment")
m("ns-06", NSF, "NS.coerceRangeToOriginal", "pure (some (first.start, last.stop))", "pure (some (first.start, first.stop))",
  ["C16", "C01"], "the end of the original range is the end of the last byte's alignment")
m("ns-07", NSF, "NS.coerceRangeToOriginal", "else if s > e then .ok none\n    else if ns.normalized", "else if s > e then .ok (some (e, s))\n    else if ns.normalized",
  ["C14"], "a reversed range is reported as failure")
m("ns-08", NSF, "transformStep", "(if idx < 1 then pure ⟨0, 0⟩ else goIndex als (idx - 1))", "(if idx < 1 then pure ⟨0, 0⟩ else goIndex als idx)",
  ["C04"], "an inserted rune inherits the alignment of the preceding rune")
m("ns-09", NSF, "transformStep", "offset := st.offset + replacedRuneSize + totalBytesToRemove", "offset := st.offset + replacedRuneSize",
  ["C04"], "after a removal the following runes keep their own alignment")
m("ns-10", NSF, "transformStep", "let newBytesCount := (encodeRune rc.rune).length", "let newBytesCount := replacedRuneSize",
  ["C02", "C05"], "there is one alignment per normalized byte, also when the new rune has another width")
m("ns-11", NSF, "transformStep", "if rc.change ≤ -1 then do\n      let removed", "if rc.change ≤ -2 then do\n      let removed",
  ["C04", "C06"], "Change = -1 drops exactly one following rune")
m("ns-12", NSF, "NS.transformNormalized", "normalized := sPre ++ st.out ++ sPost", "normalized := sPre ++ st.out",
  ["C04"], "the text after the range is unchanged")
m("ns-13", NSF, "NS.transformNormalized", "offset := (initial.length : Int) + a", "offset := (initial.length : Int)",
  ["C04"], "a replaced rune keeps the alignment at its own place when the range does not start at 0")
m("ns-14", NSF, "NS.origAlignLoop", "let out := out ++ List.replicate (al.start - last.stop).toNat ⟨offset, offset⟩\n      origAlignLoop", "origAlignLoop",
  ["C17"], "original bytes between two alignments get an empty entry")
m("ns-15", NSF, "NS.origAlignLoop", "origAlignLoop rest al offset 1 out", "origAlignLoop rest al offset 0 out",
  ["C17"], "the first byte of each group counts")
m("ns-16", NSF, "NS.originalAlignments", "let out0 := List.replicate first.start.toNat (⟨0, 0⟩ : Align)", "let out0 : List Align := []",
  ["C17"], "original bytes before the first alignment get an empty entry")
m("ns-17", NSF, "NS.prependChanges", "if i > 0 then 1 else 0", "1",
  ["C08"], "the prepended runes are aligned to the first rune", edit="every prepended rune has Change 1")
m("ns-18", NSF, "NS.append", "⟨lastRune, 0⟩ :: (runesOf s).map fun r => ⟨r, 1⟩", "((runesOf s).map fun r => ⟨r, 1⟩) ++ [⟨lastRune, 0⟩]",
  ["C09"], "the appended text comes after the old text")
m("ns-19", NSF, "NS.rangeIsValid", "isRuneBoundary s r.start && isRuneBoundary s r.stop", "isRuneBoundary s r.start || isRuneBoundary s r.stop",
  ["C14", "C13", "C53"], "Slice reports failure for a range that cuts a rune")
m("ns-20", NSF, "NS.slice", "alignments := als.map fun al => ⟨al.start - oa, al.stop - oa⟩", "alignments := als",
  ["C13", "C02"], "the alignments of a slice are relative to its own original")
m("ns-21", NSF, "NS.slice", "originalShift := ns.originalShift + oa", "originalShift := oa",
  ["C03", "C52", "C26"], "a slice of a slice keeps absolute original offsets")
m("ns-22", NSF, "mergePrevStep", "if c.isMatch ∧ !st.2 ∧ st.1.length > 0 then (setLastStop st.1 c.offsets.stop, c.isMatch)", "if c.isMatch ∧ st.1.length > 0 then (setLastStop st.1 c.offsets.stop, c.isMatch)",
  ["C12"], "a delimiter after a delimiter is left alone by MergedWithPrevious")
m("ns-23", NSF, "mergeNextStep", "(setLastStart st.1 c.offsets.start, c.isMatch)", "(setLastStop st.1 c.offsets.stop, c.isMatch)",
  ["C11", "C12", "C32"], "MergedWithNext extends the following piece to the front")
m("ns-24", NSF, "contiguousStep", "if c.isMatch = st.2 ∧ st.1.length > 0", "if c.isMatch ∧ st.2 ∧ st.1.length > 0",
  ["C12"], "Contiguous also merges adjacent non-matching captures")
m("ns-25", NSF, "splitMatches", "| .removed => captures.map fun c => ⟨c.offsets, c.isMatch⟩", "| .removed => captures.map fun c => ⟨c.offsets, !c.isMatch⟩",
  ["C11", "C29"], "Removed drops the delimiters, not the text")
m("ns-26", NSF, "splitMatches", "(captures.reverse.foldl mergeNextStep ([], false)).1.reverse", "(captures.reverse.foldl mergeNextStep ([], false)).1",
  ["C11", "C12"], "MergedWithNext gives the pieces in text order")
m("ns-27", NSF, "NS.replaceStep", "offset + ((content.length : Int) - (c.offsets.stop - c.offsets.start))", "offset + ((runesOf content).length : Int) - (c.offsets.stop - c.offsets.start)",
  ["C10"], "after a replacement by multi-byte content the later matches are still found at the right place")
m("ns-28", NSF, "NS.replaceStep", "pure (ns', offset + ((content.length : Int) - (c.offsets.stop - c.offsets.start)))", "pure (ns', offset)",
  ["C10", "C32"], "after a replacement of another length the later matches are still replaced at the right place")
m("ns-29", NSF, "filterStep", "{ removed := 0, removedStart := st.removed, transforms := st.transforms, lastRune := some r }", "{ removed := st.removed, removedStart := st.removed, transforms := st.transforms, lastRune := some r }",
  ["C06", "C54"], "runes dropped before the first kept one are not dropped twice")
m("ns-30", NSF, "NS.filterChanges", "| some lr => (st.transforms ++ [⟨lr, -(st.removed : Int)⟩], st.removedStart)", "| some _ => (st.transforms, st.removedStart)",
  ["C06", "C54"], "the last kept rune is kept")
m("ns-31", NSF, "isWhiteSpace", "|| r == 0x205F || r == 0x3000", "|| r == 0x205F",
  ["C29", "C07"], "U+3000 is white space")
m("ns-32", NSF, "NS.trimLeftRight", "if right ∧ leading < runes.length then countTrailingSpaces runes else 0", "if right then countTrailingSpaces runes else 0",
  ["C07", "C54"], "trimming a text of white space only gives the empty text (the trailing count does not overlap the leading one)")
m("ns-33", NSF, "NS.trimLeftRight", "if leading = 0 ∧ trailing = 0 then .ok ns", "if leading = 0 ∨ trailing = 0 then .ok ns",
  ["C07", "C54"], "white space on one side only is trimmed")
m("ns-34", NSF, "NS.map", "⟨mapFunc r, 0⟩) 0", "⟨mapFunc r, 1⟩) 0",
  ["C05"], "each mapped rune keeps the alignment of the rune it came from")
m("ns-35", NSF, "NS.coerceRangeToNormalized", "else if s > e then none\n    else if ns.original", "else if s > e then some (e, s)\n    else if ns.original",
  ["C14"], "a reversed original range is reported as failure")
m("ns-36", NSF, "NS.toLower", "def toLower (uniToLower : Rune → Rune) (ns : NS) : GoM NS := ns.map uniToLower", "def toLower (uniToLower : Rune → Rune) (ns : NS) : GoM NS := ns.map fun r => if r < 128 then uniToLower r else r",
  ["C05", "C55", "C34"], "ToLower maps every rune, not only ASCII", edit="only ASCII is lower-cased")

SU = "StrUtils"
m("su-01", SU, "isRuneBoundary", "≥ -0x40", "> -0x40", ["C18"], "the byte 0xC0 counts as a boundary byte", edit=">= -0x40 -> > -0x40")
m("su-02", SU, "isRuneBoundary", "if index = 0 ∨ index = (s.length : Int) then true", "if index = 0 then true", ["C18"], "the end of the string is a boundary")
m("su-03", SU, "convertOffsets", "pure (m + 1)", "pure m", ["C19"], "the end offset past the last byte is one past the last rune")

SP = "SplitPattern"
m("sp-01", SP, "funcStep", "if st.lastOffset < i then st.splits ++ [⟨⟨st.lastOffset, i⟩, false⟩] else st.splits", "st.splits ++ [⟨⟨st.lastOffset, i⟩, false⟩]",
  ["C20"], "there is no empty capture between adjacent matches")
m("sp-02", SP, "funcStep", "{ lastOffset := lastSeen, lastSeen := lastSeen,", "{ lastOffset := i + 1, lastSeen := lastSeen,",
  ["C20"], "after a multi-byte match the next capture starts behind it")
m("sp-03", SP, "funcFindMatches", "if st.lastSeen > st.lastOffset then", "if st.lastSeen > st.lastOffset + 1 then",
  ["C20", "C29"], "a one-byte tail after the last match is captured")
m("sp-04", SP, "regexpStep", "(m.2, splits ++ [⟨⟨m.1, m.2⟩, true⟩])", "(m.1, splits ++ [⟨⟨m.1, m.2⟩, true⟩])",
  ["C21"], "the text between matches starts at the end of the previous match")
m("sp-05", SP, "capturesOfMatches", "if st.1 ≠ (s.length : Int) then st.2 ++ [⟨⟨st.1, s.length⟩, false⟩] else st.2", "st.2",
  ["C21", "C22"], "the text after the last match is captured")
m("sp-06", SP, "regexp2Bytes", "(startByte, (startByte + (encodeRunes ((runes.drop m.1).take m.2)).length : Nat))", "(startByte, (startByte + m.2 : Nat))",
  ["C21"], "rune lengths are converted to byte lengths")
m("sp-07", SP, "litAux", "litAux pat bs (i + 1) (pat.length - 1)", "litAux pat bs (i + 1) 0",
  ["C22"], "matches of a self-overlapping pattern do not overlap")
m("sp-08", SP, "invert", "{ c with isMatch := !c.isMatch }", "{ c with isMatch := true }",
  ["C23"], "inverting twice gives back the captures")
m("sp-09", SP, "fromRune", "fun other => other == r", "fun other => other != r",
  ["C20", "C31"], "FromRune matches exactly the rune")
m("sp-10", SP, "fromRegexp", "if s.length = 0 then .ok (.ok emptyCaptures)\n  else .ok (.ok (capturesOfMatches", "if s.length = 0 then .ok (.ok [])\n  else .ok (.ok (capturesOfMatches",
  ["C21"], "on the empty text there is one empty capture")

PT = "PreTokenizedString"
m("pt-01", PT, "PTS.splitLoop", "items.filter (fun it => !it.ns.isEmpty) ++ new", "items ++ new",
  ["C24", "C29"], "empty pieces are dropped")
m("pt-02", PT, "PTS.splitLoop", "| .ok new => pure (p :: old, .ok (p :: new))", "| .ok new => pure (p :: old, .ok new)",
  ["C24"], "splits that already have tokens are kept")
m("pt-03", PT, "PTS.splitLoop", "let (old, new) ← splitLoop splitFunc (index + 1) ps\n        match new", "let (old, new) ← splitLoop splitFunc index ps\n        match new",
  ["C24"], "SplitFunc gets the index of the split")
m("pt-04", PT, "PTS.split", "| .error e => pure ({ p with splits := old }, some e)", "| .error e => pure ({ p with splits := [] }, some e)",
  ["C24"], "on error the list of splits is not replaced")
m("pt-05", PT, "PTS.normalizedByteSplitsLoop", ":: normalizedByteSplitsLoop sps (offset + sp.ns.len)", ":: normalizedByteSplitsLoop sps (offset + sp.ns.originalLen)",
  ["C25"], "normalized offsets advance by the normalized length")
m("pt-06", PT, "PTS.tokenOffsets", "pure ⟨ns.originalOffsets.start + a, ns.originalOffsets.start + b⟩", "pure ⟨a, b⟩",
  ["C28"], "encoding offsets are absolute, not relative to the split")
m("pt-07", PT, "PTS.encodeSplits", "if wordIndex < 0 then (splitIndex : Int) else wordIndex", "if wordIndex ≤ 0 then (splitIndex : Int) else wordIndex",
  ["C27"], "word index 0 is used when given")
m("pt-08", PT, "PTS.allSplitsHaveTokens", "p.splits.all fun sp => sp.tokens.isSome", "p.splits.any fun sp => sp.tokens.isSome",
  ["C27"], "a single split without tokens makes IntoEncoding fail")
m("pt-09", PT, "PTS.tokenizeLoop", "match ← tokenize p.ns with\n      | .error e => pure (p :: ps, some e)", "match ← tokenize p.ns with\n      | .error _ => pure (p :: ps, none)",
  ["C58"], "an error of the tokenization function is returned")
m("pt-10", PT, "PTS.normalizeLoop", "| some e => pure ({ p with ns := ns' } :: ps, some e)\n      | none =>", "| some _ => pure ({ p with ns := ns' } :: ps, none)\n      | none =>",
  ["C59"], "an error of the normalization function is returned")
m("pt-11", PT, "PTS.tokenizeLoop", "match p.tokens with\n    | some _ => do\n      let (ps', e) ← tokenizeLoop tokenize ps\n      pure (p :: ps', e)", "match p.tokens with\n    | some _ => do\n      let (ps', e) ← tokenizeLoop tokenize ps\n      pure ({ p with tokens := none } :: ps', e)",
  ["C58"], "splits that already have tokens keep them")
m("en-01", "Encoding", "Encoding.appendToken", "attentionMask := e.attentionMask ++ [1]", "attentionMask := e.attentionMask ++ [0]",
  ["C27"], "the attention mask is all 1")
m("en-02", "Encoding", "Encoding.appendToken", "typeIDs := e.typeIDs ++ [t.typeID]\n    words := e.words ++ [t.wordIndex]", "typeIDs := e.typeIDs ++ [t.wordIndex]\n    words := e.words ++ [t.typeID]",
  ["C27"], "Words has the word index and TypeIDs the type id", edit="word index and type id swapped")

NZ = "Normalizers"
m("nz-01", NZ, "isControlCharacter", "if r = 9 ∨ r = 10 ∨ r = 13 then false else u.isOther r", "u.isOther r", ["C34"], "tab, newline and carriage return are not removed but become spaces")
m("nz-02", NZ, "chineseChange", "[⟨32, 0⟩, ⟨r, 1⟩, ⟨32, 1⟩]", "[⟨32, 0⟩, ⟨r, 1⟩]", ["C34"], "a Chinese rune gets a space on both sides")
m("nz-03", NZ, "isChinese", "(0x4e00 ≤ r && r ≤ 0x9fff)", "(0x4e00 ≤ r && r < 0x9fff)", ["C34"], "U+9FFF is in the table of Chinese runes", tightened=["C34_chinese"])
m("nz-04", NZ, "bertNormalize", "if c.accentsStripping then stripAccents u ns else pure ns\n  let ns ← if c.lowerCaseEnabled then ns.toLower u.toLower else pure ns", "if c.lowerCaseEnabled then ns.toLower u.toLower else pure ns\n  let ns ← if c.accentsStripping then stripAccents u ns else pure ns",
  ["C34"], "accents are stripped before lower-casing", edit="the two last steps swapped")
m("nz-05", NZ, "sequenceNormalize", "| some e => pure (ns', some e)\n    | none => sequenceNormalize rest ns'", "| some _ => sequenceNormalize rest ns'\n    | none => sequenceNormalize rest ns'",
  ["C35"], "the sequence stops at the first error")
m("nz-06", NZ, "stripNormalize", "ns.trimLeftRight left right", "ns.trimLeftRight right left", ["C55"], "left strips the left side")
m("nz-07", NZ, "cleanMap", "if bertIsWhitespace r then 32 else r", "if bertIsWhitespace r then r else r", ["C34"], "white space becomes ' '")

PZ = "PreTokenizers"
m("pz-01", PZ, "bertPreTokenize", "(fromFunc u.isPunct) .isolated", "(fromFunc u.isPunct) .contiguous", ["C30"], "each punctuation rune is its own piece")
m("pz-02", PZ, "bertPreTokenize", "let (pts, e) ← pts.split (splitByPattern (fromFunc isWhiteSpace) .removed)\n  match e with\n  | some e => pure (pts, some e)\n  | none => pts.split (splitByPattern (fromFunc u.isPunct)", "let (pts, e) ← pts.split (splitByPattern (fromFunc isWhiteSpace) .isolated)\n  match e with\n  | some e => pure (pts, some e)\n  | none => pts.split (splitByPattern (fromFunc u.isPunct)",
  ["C30"], "white space is dropped", edit="first split Isolated instead of Removed")
m("pz-03", PZ, "metaSpaceSplitFunc", "ns.replace (fromRune 32) strReplacement", "ns.replace (fromRune 9) strReplacement", ["C32"], "every ' ' is replaced")
m("pz-04", PZ, "metaSpaceSplitFunc", ".mergedWithNext", ".mergedWithPrevious", ["C32"], "pieces start with the replacement")
m("pz-05", PZ, "metaSpaceSplitFunc", "if prefixSpaceEnabled ∧ !strReplacement.isPrefixOf ns.get then", "if prefixSpaceEnabled then", ["C32"], "no second replacement is put in front of a text that starts with it")
m("pz-06", PZ, "keepsByte", "(0xAE ≤ i && i ≤ 0xFF)", "(0xAD ≤ i && i ≤ 0xFF)", ["C33"], "the soft hyphen 0xAD is not kept as is", tightened=["C33_gpt2_table"])
m("pz-07", PZ, "byteTableLoop", "((0x100 + n : Nat) : Int) :: byteTableLoop k (i + 1) (n + 1)", "((0x100 + n : Nat) : Int) :: byteTableLoop k (i + 1) n", ["C33"], "the table is injective")
m("pz-08", PZ, "byteChanges", "if byteIndex > 0 then 1 else 0", "0", ["C33"], "all bytes of a rune are aligned to that rune", edit="every byte has Change 0")
m("pz-09", PZ, "runeDelimiter", "(fromRune delimiter) .removed", "(fromRune delimiter) .isolated", ["C31"], "the delimiter is dropped")
m("pz-10", PZ, "byteLevelSplitFunc", "if prefixSpaceEnabled ∧ !startsWithWhitespace ns.get then", "if prefixSpaceEnabled then", ["C60"], "no space is put in front of a text that starts with white space")
m("pz-11", PZ, "byteLevel", "| none => pts.normalize byteLevelNormalize", "| none => pure (pts, none)", ["C60"], "the pieces are mapped through the byte table")
m("pz-12", PZ, "whiteSpacePreTokenize", "(invert (fromRegexp2 findAll2)) .removed", "(fromRegexp2 findAll2) .removed", ["C61"], "the matches are the pieces, the rest is dropped")

WP = "WordPiece"
m("wp-01", WP, "WordPiece.subStr", "if start > 0 then m.continuingSubwordPrefix ++ t else t", "m.continuingSubwordPrefix ++ t", ["C36", "C37"], "the first token is looked up without prefix")
m("wp-02", WP, "WordPiece.findToken", "some ⟨id, sub, ⟨start, stop⟩⟩", "some ⟨id, sub, ⟨start, start + sub.length⟩⟩", ["C36"], "the offsets do not include the prefix")
m("wp-03", WP, "WordPiece.tokenize", "> m.maxInputCharsPerWord then", "≥ m.maxInputCharsPerWord then", ["C37", "C36"], "a word of exactly the limit is tokenized")
m("wp-04", WP, "WordPiece.unknown", "⟨0, sequence.length⟩", "⟨0, 0⟩", ["C36"], "the unknown token covers the word")
m("wp-05", WP, "WordPiece.tokenLoop", "| some ts => some (t :: ts)", "| some ts => some (ts ++ [t])", ["C36"], "tokens come in text order")
m("wp-06", WP, "WordPiece.tokenize", "| none => m.unknown sequence\n    | some ts => .ok ts", "| none => .ok []\n    | some ts => .ok ts", ["C36", "C37"], "a word that cannot be tokenized is one unknown token")

HP = "Heap"
m("hp-01", HP, "WordMerge.less", "else decide (a.pos < b.pos)", "else decide (a.pos > b.pos)", ["C43", "C40"], "among equal ranks the leftmost comes first")
m("hp-02", HP, "WMHeap.down", "if j2 < n ∧ h.less j2 j1 then j2 else j1", "j1", ["C43"], "the smaller child is moved up")
m("hp-03", HP, "WMHeap.up", "if i = j ∨ !(h.less j i) then h", "if i = j ∨ h.less j i then h", ["C43"], "a smaller element is moved up")
m("hp-04", HP, "WMHeap.pop", "let h := down n h 0 n", "let h := h", ["C43"], "the heap order is restored after a pop")
m("hp-05", HP, "WMHeap.pop", "(h.at' n, h.take n)", "(h.at' n, h)", ["C43", "C38"], "the popped element is gone")

W = "Word"
m("wd-01", W, "WordSymbol.mergeWith", "length := s.length + other.length", "length := s.length", ["C39"], "the sum of lengths is unchanged")
m("wd-02", W, "WordSymbol.mergeWith", "next := other.next", "next := s.next", ["C38", "C39"], "the merged symbol is followed by what followed the right one")
m("wd-03", W, "Word.process", "let right := { right with length := 0 }", "let right := { right with length := right.length }", ["C39"], "the right symbol of a merge disappears")
m("wd-04", W, "Word.process", "if m.id ≠ top.value.id then pure (w, queue)\n      else", "if m.id = m.id + 1 then pure (w, queue)\n      else", ["C39", "C40"], "a stale queue entry is not applied to another pair", edit="the stale-entry check of line 126 dropped")
m("wd-05", W, "Word.relink", "{ nn with prev := pos }", "nn", ["C40", "C41"], "the symbol after a merge points back to the merged one", edit="Prev of the next symbol not updated")
m("wd-06", W, "Word.process", "let queue ← pushPrev merges w queue current\n", "", ["C41"], "new pairs with the previous symbol are considered")
m("wd-07", W, "Word.process", "let queue ← pushNext merges w queue current top.pos\n", "let queue ← pure queue\n", ["C41"], "new pairs with the next symbol are considered")
m("wd-08", W, "Word.mergeStep", "let queue := st.skip.foldl (fun q s => WMHeap.push q s) queue", "let queue := queue", ["C62"], "entries skipped by dropout are tried again after the next merge")
m("wd-09", W, "Word.initQueue", "initQueue merges (b :: rest) (index + 1) q", "initQueue merges rest (index + 2) q", ["C41", "C40"], "every adjacent pair enters the queue")
m("wd-10", W, "Word.mergeStep", "if hasDropout ∧ rnd st.draws then", "if rnd st.draws then", ["C40", "C41"], "without dropout no draw is made")
m("wd-11", W, "Word.mergeAllFuel", "st.word.filter fun s => s.length != 0", "st.word", ["C39"], "merged-away symbols are removed")
m("wd-12", W, "Word.add", "⟨symbolID, byteLen, prev, -1⟩", "⟨symbolID, byteLen, -1, -1⟩", ["C41", "C40"], "an added symbol points back to the previous one")
m("wd-13", W, "Word.mergeStep", "skip := st.skip ++ [top], draws", "skip := st.skip, draws", ["C62"], "an entry skipped by dropout is kept for later")

MM = "MergeMap"
m("mm-01", MM, "mergeMapLoop", "mergeMapLoop vocab prefixLength rest (lineCount + 1) rank m\n", "mergeMapLoop vocab prefixLength rest (lineCount + 1) (rank + 1) m\n", ["C51"], "#version lines do not count for the rank")
m("mm-02", MM, "mergeMapLoop", "mergeMapLoop vocab prefixLength rest (lineCount + 1) rank m\n", "mergeMapLoop vocab prefixLength rest lineCount rank m\n", ["C51"], "#version lines count for the line number in errors")
m("mm-03", MM, "parseMergeLine", "vocab.getID (t0 ++ rest)", "vocab.getID (t0 ++ t1)", ["C51"], "the merged term is left + right without the prefix")
m("mm-04", MM, "parseMergeLine", "((leftID, rightID), ⟨rank, mergedID⟩)", "((rightID, leftID), ⟨rank, mergedID⟩)", ["C51", "C40", "C45"], "the key is (left, right)")
m("mm-05", MM, "scanLinesAux.dropCR", "| 13 :: t => t.reverse", "| 13 :: t => (13 :: t).reverse", ["C51"], "a carriage return at the end of a line is dropped", tightened=["C51_carriage_return"])
m("mm-06", MM, "mergeMapFromFile", "(scanLines content) 1 0 []", "(scanLines content) 0 0 []", ["C51"], "lines are numbered from 1")
m("mm-07", MM, "splitSpace", "if b = 32 then [] :: splitSpace bs", "if b = 9 then [] :: splitSpace bs", ["C51"], "terms are separated by a space")
m("mm-08", MM, "scanLinesAux", "else ([dropCR cur], false)", "else ([], false)", ["C51"], "a last line without newline counts")

V = "Vocabulary"
m("vo-01", V, "Vocab.addTerm", "v.idToTerm.set v.size term", "v.idToTerm.set (v.size + 1) term", ["C49"], "GetString inverts GetID")
m("vo-02", V, "Vocab.addTerm", "| some _ => .ok v\n  | none =>", "| some i => .ok ⟨v.termToID, v.idToTerm.set (i + 1) term⟩\n  | none =>", ["C49"], "re-adding a term changes nothing", edit="re-adding a term writes idToTerm")
m("vo-03", V, "Vocab.buildIdToTerm", "fun m e => m.set e.2 e.1", "fun m e => if e.2 = 0 then m else m.set e.2 e.1", ["C50"], "id 0 is loaded", edit="entries with id 0 are skipped")
m("vo-04", V, "Vocab.size", "(v.termToID.getD []).length", "v.idToTerm.length + 1", ["C49"], "Size is the number of terms")

B = "Bpe"
m("bp-01", B, "BPE.lookupKey", "if i = lastRuneIndex ∧ m.hasEndOfWordSuffix then s ++ m.endOfWordSuffix else s", "if m.hasEndOfWordSuffix then s ++ m.endOfWordSuffix else s", ["C47"], "only the last character is looked up with the suffix")
m("bp-02", B, "BPE.symbolStep", "(word, some (uid, ulen + byteLen))", "(word, some (uid, ulen))", ["C46", "C44"], "a fused unknown symbol covers the whole run")
m("bp-03", B, "BPE.symbolStep", "| some (uid, ulen) => ((word.add uid ulen).add id byteLen, none)\n    | none => (word.add id byteLen, none)", "| some _ => (word.add id byteLen, none)\n    | none => (word.add id byteLen, none)", ["C46", "C44"], "a pending unknown symbol is added before the next known one")
m("bp-04", B, "BPE.initialWord", "match unk with\n    | some (uid, ulen) => word.add uid ulen\n    | none => word", "match unk with\n    | some _ => word\n    | none => word", ["C46", "C44"], "an unknown run at the end of the word gets a symbol")
m("bp-05", B, "BPE.wordToTokens", "match wordToTokens vocab rest (offsetStart + s.length) with", "match wordToTokens vocab rest (offsetStart + 1) with", ["C44"], "offsets are contiguous also for longer symbols")
m("bp-06", B, "BPE.symbolStep", "if m.unknownFusionEnabled then (word, some (uid, ulen + byteLen))", "if !m.unknownFusionEnabled then (word, some (uid, ulen + byteLen))", ["C46"], "runs are fused exactly when fusion is enabled")
m("bp-07", B, "BPE.tokenizeWithCache", "pure (.ok (some ts), ops.set c sequence word)", "pure (.ok (some ts), ops.set c [] word)", ["C48"], "the cache stores the word under its own key")
m("bp-08", B, "BPE.tokenizeWithCache", "match ops.get c sequence with", "match ops.get c (sequence.take 1) with", ["C48"], "the cache is asked for the whole sequence")
m("bp-09", B, "BPE.symbolStep", "let byteLen : Int := (encodeRune ir.2).length", "let byteLen : Int := 1", ["C44"], "a symbol is as long as its rune in bytes")
m("bp-10", B, "BPE.initialWord", "| none => .error .unkOutOfVocab\n    | some id => .ok (go id)", "| none => .ok (go 0)\n    | some id => .ok (go id)", ["C44"], "an unknown token missing from the vocabulary is an error")

m("mm-09", MM, "scanLinesAux", "if cur.length ≥ maxScanTokenSize then ([], true)\n      else", "if cur.length ≥ maxScanTokenSize then ([], false)\n      else", ["C51"], "a line that is too long is an error")
m("mm-10", MM, "mergeMapFromFile", "if scanTooLong content then .ok (.error .tokenTooLong) else .ok (.ok m)", ".ok (.ok m)", ["C51"], "the error of the scanner is returned")

RX = "Regexp"
m("rx-01", RX, "Re.scan", "(i, k) :: scan re rs (i + 1) (k - 1)", "(i, k) :: scan re rs (i + 1) k", ["C60", "C61"], "the search goes on where the last match ended")
m("rx-02", RX, "Re.matches'", "| alt a b, rs => matches' a rs ++ matches' b rs", "| alt a b, rs => matches' b rs ++ matches' a rs", ["C60"], "the first alternative that matches is taken")
m("rx-03", RX, "Re.matches'", "| opt a, rs => matches' a rs ++ [0]", "| opt a, rs => 0 :: matches' a rs", ["C60"], "a space in front of a word belongs to the word", edit="`?` is lazy")
m("rx-04", RX, "Re.matches'", "(List.range (rs.takeWhile p).length).reverse.map (· + 1)", "(List.range (rs.takeWhile p).length).map (· + 1)", ["C60", "C61"], "pieces are longest runs", edit="`+` is lazy")
m("rx-05", RX, "Re.matches'", "| notAhead _, [] => [0]", "| notAhead _, [] => []", ["C60"], "white space at the end of the text is one piece")
m("rx-06", RX, "splittingRegexp", "alt (lit u.lower [39, 108, 108])", "alt (lit u.lower [39, 108])", ["C60"], "'ll is one piece")
m("rx-07", RX, "spacedRun", "seq (opt (lit u.lower [32])) (plus p)", "seq (opt (chr u.space)) (plus p)", ["C60"], "only U+0020 is joined to the word that follows")
m("rx-08", RX, "RxUni.other", "!(u.space r || u.letter r || u.number r)", "!(u.space r || u.letter r)", ["C60"], "digits and punctuation are separate pieces")
m("rx-09", RX, "RxUni.symbol", "!(u.word r || u.space r)", "!(u.word r)", ["C61"], "white space is dropped")
m("rx-10", RX, "splittingRegexp", "alt (seq (plus u.space) (notAhead fun r => !u.space r)) (plus u.space)", "alt (plus u.space) (seq (plus u.space) (notAhead fun r => !u.space r))", ["C60"], "of a run of white space in front of a word all but the last are one piece")
m("rx-11", RX, "Re.lit", "| [c] => chr fun r => lower r == c", "| [c] => chr fun r => r == c", ["C60"], "contractions are found in upper case too")
m("rx-12", RX, "byteLevelDefault", "byteLevel (splittingRegexp u).findAll true", "byteLevel (splittingRegexp u).findAll false", ["C60"], "the default puts a space in front", tightened=["C60_default"])
m("rx-13", RX, "splittingRegexp", "alt (spacedRun u u.letter) <| alt (spacedRun u u.number) <|", "alt (spacedRun u fun r => u.letter r || u.number r) <|", ["C60"], "letters and digits are separate pieces")

m("pt-12", PT, "PTS.encodeTokens", "pure (⟨t.id, t.value, o, wordIndex, typeID⟩ :: rest)", "pure (⟨t.id, t.value, t.offsets, wordIndex, typeID⟩ :: rest)", ["C63", "C64"], "offsets of the encoding are in the original text")
m("pt-13", PT, "PTS.encodeTokens", "pure (⟨t.id, t.value, o, wordIndex, typeID⟩ :: rest)", "pure (⟨t.id, t.value, o, typeID, wordIndex⟩ :: rest)", ["C28"], "word index and type id keep their places")
m("pt-14", PT, "PTS.encodeSplits", "let rest ← encodeSplits wordIndex typeID (splitIndex + 1) sps", "let rest ← encodeSplits wordIndex typeID splitIndex sps", ["C28"], "the word index counts the splits")
m("pt-15", PT, "PTS.intoEncoding", "else if !p.allSplitsHaveTokens then .ok (.error .notTokenized)\n  else do", "else do", ["C28"], "a split without tokens is an error")
m("pt-16", PT, "PTS.getOriginalByteSplits", "⟨sp.ns.get, sp.ns.originalOffsets, sp.tokens⟩", "⟨sp.ns.getOriginal, sp.ns.originalOffsets, sp.tokens⟩", ["C26"], "the string of a split is its normalized text", tightened=["C26_original_splits"])
m("pt-17", PT, "PTS.getOriginalByteSplits", "⟨sp.ns.get, sp.ns.originalOffsets, sp.tokens⟩", "⟨sp.ns.get, ⟨0, sp.ns.originalLen⟩, sp.tokens⟩", ["C26"], "the offsets of a split are those in the whole input")
m("pt-18", PT, "PTS.tokenOffsets", "pure ⟨ns.originalOffsets.start + a, ns.originalOffsets.start + b⟩", "pure ⟨ns.originalOffsets.start + a, ns.originalOffsets.stop⟩", ["C63", "C64"], "a token ends where its text ends")
m("pt-19", PT, "PTS.normalizedByteSplitsLoop", "⟨sp.ns.get, ⟨offset, offset + sp.ns.len⟩, sp.tokens⟩", "⟨sp.ns.get, ⟨offset, offset + sp.ns.originalLen⟩, sp.tokens⟩", ["C25"], "the normalized offsets have the length of the normalized text")

m("pz-13", PZ, "byteLevelLoop", "let rest ← byteLevelLoop s rs (i + size)", "let rest ← byteLevelLoop s rs (i + 1)", ["C33", "C60"], "the index moves on by the width of the rune")
m("pz-14", PZ, "byteLevelSplitFunc", "ns.split (fromRegexp2 findAll2) .isolated", "ns.split (fromRegexp2 findAll2) .removed", ["C33", "C60"], "the matches are kept")
m("pz-15", PZ, "byteLevelSplitFunc", "ns.prepend [32]", "ns.append [32]", ["C60", "C65"], "the space goes in front")
m("pz-16", PZ, "metaSpaceSplitFunc", "ns.split (fromRune replacement) .mergedWithNext", "ns.split (fromRune 32) .mergedWithNext", ["C32", "C72"], "the text is cut at the replacement")
m("pz-17", PZ, "whiteSpaceSplit", "pts.split (splitByPattern (fromFunc isWhiteSpace) .removed)", "pts.split (splitByPattern (fromFunc isWhiteSpace) .isolated)", ["C29"], "white space is dropped", edit="whiteSpaceSplit: `.removed` -> `.isolated`",
  context="def whiteSpaceSplit : PreTokenizer := fun pts =>\n  ")
m("pz-18", PZ, "splitByPattern", "  | .error e => pure (ns, .error e)\n  | .ok nss => pure (ns, .ok (splitsFromNormalizedStrings nss))\n\n/-- `WhiteSpaceSplitPreTokenizer", "  | .error _ => pure (ns, .ok [])\n  | .ok nss => pure (ns, .ok (splitsFromNormalizedStrings nss))\n\n/-- `WhiteSpaceSplitPreTokenizer", ["C61", "C24"], "an error of the pattern is reported", edit="the error of Split is swallowed")
m("pz-19", PZ, "metaSpaceSplitFunc", "if prefixSpaceEnabled ∧ !strReplacement.isPrefixOf ns.get then ns.prepend strReplacement\n    else pure ns\n  match ← ns.replace (fromRune 32) strReplacement with", "pure ns\n  match ← ns.replace (fromRune 32) strReplacement with", ["C32", "C72"], "the replacement is put in front", edit="the prefix is never added")
m("pz-20", PZ, "byteToRune", "byteTable.getD b.toNat 0", "(b.toNat : Int)", ["C33"], "bytes are mapped through the table")

m("nz-08", NZ, "cleanKeep", "!(r == 0 || r == runeError || isControlCharacter u r)", "!(r == runeError || isControlCharacter u r)", ["C34"], "U+0000 is removed")
m("nz-09", NZ, "cleanKeep", "!(r == 0 || r == runeError || isControlCharacter u r)", "!(r == 0 || isControlCharacter u r)", ["C34"], "U+FFFD is removed")
m("nz-10", NZ, "cleanText", "let ns ← ns.filter (cleanKeep u)\n  ns.map cleanMap", "let ns ← ns.map cleanMap\n  ns.filter (cleanKeep u)", ["C34"], "a control character that is white space is removed before white space is mapped", edit="Map before Filter")
m("nz-11", NZ, "stripAccents", "ns.filter fun r => !u.isMn r", "ns.filter fun r => u.isMn r", ["C34"], "accents are removed")
m("nz-12", NZ, "chineseChange", "[⟨32, 0⟩, ⟨r, 1⟩, ⟨32, 1⟩]", "[⟨32, 1⟩, ⟨r, 0⟩, ⟨32, 1⟩]", ["C34", "C68"], "the space in front of a Chinese rune is aligned to that rune")
m("nz-13", NZ, "bertNormalize", "if c.chineseCharsHandling then handleChineseChars ns else pure ns", "if c.textCleaning then handleChineseChars ns else pure ns", ["C34"], "each step has its own switch")
m("nz-14", NZ, "lowerCaseNormalize", "let ns ← ns.toLower u.toLower\n  pure (ns, none)\n\n/-- `StripNormalizer", "let _ ← ns.toLower u.toLower\n  pure (ns, none)\n\n/-- `StripNormalizer", ["C55"], "the text is lower-cased", edit="the result of ToLower is dropped")

m("en-03", "Encoding", "Encoding.fromEncodableTokens", "ts.foldl appendToken default", "ts.reverse.foldl appendToken default", ["C28"], "the tokens keep their order")
m("en-04", "Encoding", "Encoding.appendToken", "specialTokensMask := e.specialTokensMask ++ [0]", "specialTokensMask := e.specialTokensMask", ["C28"], "all lists have one entry per token")

m("ns-37", NSF, "NS.getOriginalRange", "let t ← goSlice ns.original a b", "let t ← goSlice ns.normalized a b", ["C01", "C16"], "GetOriginalRange returns original text")
m("ns-38", NSF, "NS.slice", "original := original.getD []", "original := normalized.getD []", ["C13"], "the original of a slice is a part of the original")
m("ns-39", NSF, "NS.sliceAll", "| none => pure (.error .badSplit)", "| none => pure (.ok [])", ["C11"], "a split that is not on rune boundaries is an error", tightened=["C11_outcomes"])
m("ns-40", NSF, "NS.sliceAll", "| .ok rest => pure (.ok (piece :: rest))", "| .ok rest => pure (.ok (rest ++ [piece]))", ["C11"], "the pieces are in order")
m("ns-41", NSF, "NS.append", "let changes : List RuneChange := ⟨lastRune, 0⟩ :: (runesOf s).map fun r => ⟨r, 1⟩", "let changes : List RuneChange := ⟨lastRune, 0⟩ :: (runesOf s).map fun r => ⟨r, 0⟩", ["C09"], "appended runes are insertions")
m("ns-42", NSF, "NS.prepend", "(prependChanges s ++ [⟨firstRune, 1⟩]) 0", "(prependChanges s ++ [⟨firstRune, 0⟩]) 0", ["C08"], "prepending never fails")
m("ns-43", NSF, "NS.replaceStep", "let removedRunes := (runesOf seg).length", "let removedRunes := 0", ["C10"], "an insertion takes the alignment of the byte before it in the replaced part", edit="the initial offset is 0")
m("ns-44", NSF, "NS.trimChanges", "(runes.drop leading).take (runes.length - trailing - leading)", "(runes.drop leading).take (runes.length - trailing)", ["C07"], "trailing spaces are removed when there are leading ones too")
m("ns-45", NSF, "countTrailingSpaces", "countLeadingSpaces runes.reverse", "countLeadingSpaces runes", ["C07"], "trailing spaces are counted from the end")
m("ns-46", NSF, "NS.rangeIsValid", "isRuneBoundary s r.start && isRuneBoundary s r.stop", "isRuneBoundary s r.stop && isRuneBoundary s r.stop", ["C13"], "both ends of the range are checked", tightened=["C13_outcomes"])

PO = "Pointers"
m("po-01", PO, "RefPTS.keepItems", "if ns.isEmpty then pure rest else pure (r :: rest)", "if ns.isEmpty then pure (r :: rest) else pure rest", ["C74"], "empty pieces are dropped, the others kept")
m("po-02", PO, "RefPTS.splitLoop", "let items ← keepItems σ items", "let items ← keepItems σ (items.take 1)", ["C74"], "all pieces are kept", edit="only the first piece is kept")
m("po-03", PO, "RefPTS.splitLoop", "let (σ, new) ← splitLoop F (index + 1) rs σ\n        match new with", "let (_, new) ← splitLoop F (index + 1) rs σ\n        match new with", ["C74"], "what is written for a later split is kept", edit="the store of the remaining splits is dropped")
m("po-04", PO, "RefPTS.normalizeLoop", "| some _ => normalizeLoop N rs σ\n    | none => do\n      let (σ, e) ← N r.addr σ", "| some _ => do\n      let (σ, _) ← N r.addr σ\n      normalizeLoop N rs σ\n    | none => do\n      let (σ, e) ← N r.addr σ", ["C74"], "splits with tokens are not normalized", edit="splits with tokens are normalized too")
m("po-05", PO, "RefPTS.normalizeLoop", "| some e => pure (σ, some e)\n      | none => normalizeLoop N rs σ", "| some _ => normalizeLoop N rs σ\n      | none => normalizeLoop N rs σ", ["C74"], "an error stops Normalize", edit="errors are ignored")
m("po-06", PO, "normalizeCell", "pure (σ.write a ns, e)", "pure (σ ++ [ns], e)", ["C74"], "the normalizer writes to the value it was given", edit="the result goes to a new value")
m("po-07", PO, "refMetaSpaceSplitFunc", "| .ok ns => refSplitByPattern (fromRune replacement) .mergedWithNext i a (σ.write a ns)", "| .ok ns => refSplitByPattern (fromRune replacement) .mergedWithNext i i (σ.write a ns)", ["C74"], "the value split is the one given", edit="splits the value at the index instead of the pointer")
m("po-08", PO, "refByteLevelSplitFunc", "let ns ← ns.prepend [32]\n      pure (σ.write a ns)", "let _ ← ns.prepend [32]\n      pure σ", ["C74"], "the added space is in the value that is split", edit="the prepended text is not written")
m("po-09", PO, "Store.allocAll", "(List.range nss.length).map fun i => σ.length + i", "(List.range nss.length).map fun _ => σ.length", ["C74"], "every piece is a new value", edit="all pieces share the first new value")
m("po-10", PO, "RefPTS.encodeSplits", "if wordIndex < 0 then (splitIndex : Int) else wordIndex", "if wordIndex < 0 then (r.addr : Int) else wordIndex", ["C74"], "words are numbered by split")
m("po-11", PO, "RefPTS.tokenizeLoop", "| .error e => pure (r :: rs, some e)", "| .error e => pure ([], some e)", ["C74"], "after an error the splits are still there")
m("po-12", PO, "RefPTS.fromNormalizedString", "pure ⟨ns.getOriginal, [⟨a, none⟩]⟩", "pure ⟨ns.get, [⟨a, none⟩]⟩", ["C74"], "the original is that of the string")
m("po-13", PO, "refByteLevel", "(RefPTS.normalize (normalizeCell byteLevelNormalize))", "(RefPTS.normalize (normalizeCell fun ns => .ok (ns, none)))", ["C74"], "bytes are mapped through the table", edit="no normalization")
m("ns-47", NSF, "NS.filterChanges", "| some lr => (st.transforms ++ [⟨lr, -(st.removed : Int)⟩], st.removedStart)", "| some lr => (st.transforms ++ [⟨lr, 0⟩], st.removedStart)", ["C06"], "the changes account for all runes of the text (a claim no caller can see)")

MC = "Machine"
m("mc-01", MC, "Machine.coerceRangeToNormalized", "else if s > e then none", "else if m.rngLen s e < 0 then none", ["C75"], "a range from the smallest to the largest int is not empty", edit="reversed ranges are told by the sign of Len, which wraps")
m("mc-02", MC, "Machine.coerceRangeToOriginal", "else if s > e then .ok none", "else if m.rngLen s e < 0 then .ok none", ["C75"], "a huge range panics or is cut as with unbounded integers", edit="reversed ranges are told by the sign of Len, which wraps")
m("mc-03", MC, "Machine.slice", "⟨m.wrap (al.start - oa), m.wrap (al.stop - oa)⟩", "⟨m.wrap (al.start - oa), al.stop⟩", ["C75"], "alignments of a slice are relative to its original")
m("mc-04", MC, "Machine.replaceStep", "let rEnd := m.wrap (c.offsets.stop + offset)", "let rEnd := m.wrap (rStart + (c.offsets.stop + offset))", ["C75"], "the end of a capture moves with the offset")
m("mc-05", MC, "Machine.countTrailingLoop", ".ok (m.wrap (lastIndex - i))", ".ok (m.wrap (runes.length - i))", ["C75"], "the spaces after the last other rune are counted", edit="off by one")
m("mc-06", MC, "Machine.trimLoop", "if i = lastIndex then m.wrap (-trailing) else 0", "if i = lastIndex then m.wrap trailing else 0", ["C75"], "the last rune kept carries minus the trailing spaces", edit="sign dropped")
m("mc-07", MC, "Machine.filterStep", "{ removed := 0, removedStart := st.removed, transforms", "{ removed := 0, removedStart := 0, transforms", ["C75"], "runes dropped in front are skipped", edit="leading removals forgotten")
m("mc-08", MC, "Machine.make", "if n < 0 then .panic", "if n ≤ 0 then .panic", ["C75"], "make of an empty slice does not panic")
m("mc-09", MC, "Machine.writeRuneOld", "if r < 0x80 then", "if r ≤ 0x80 then", ["C75"], "U+0080 takes two bytes")
m("mc-11", MC, "Machine.origAlignLoop", "        ⟨offset, m.wrap (offset + length)⟩\n      let offset", "        ⟨offset, m.wrap (offset - length)⟩\n      let offset", ["C75"], "an original byte is aligned to the bytes made from it")

BY = "SplitPattern"
m("by-01", BY, "funcStep", "let lastSeen := i + (encodeRune r).length", "let lastSeen := i + (if r = 0xFFFD then 1 else (encodeRune r).length)", ["C22", "C76"], "U+FFFD in the text takes three bytes", edit="U+FFFD counts as one byte")
m("by-02", BY, "funcStep", "if st.lastOffset < i then st.splits", "if st.lastOffset + 1 < i then st.splits", ["C22", "C76"], "a piece of one byte is a piece")
m("by-03", BY, "funcFindMatches", "if st.lastSeen > st.lastOffset then", "if st.lastSeen > st.lastOffset + 1 then", ["C22", "C76"], "a last piece of one byte is a piece")
m("by-04", "Utf8", "decodeRune", "            && (n0 != 0xE0 || 0xA0 ≤ b1.toNat) && (n0 != 0xED || b1.toNat ≤ 0x9F) then", "            && (n0 != 0xE0 || 0xA0 ≤ b1.toNat) then", ["C76"], "encoded surrogates are bad bytes", edit="surrogates are decoded")
m("by-05", "Utf8", "decodeRune", "if isCont b1 then ((((n0 - 0xC0) * 64 + (b1.toNat - 0x80) : Nat) : Int), 2)\n        else (runeError, 1)", "if isCont b1 then ((((n0 - 0xC0) * 64 + (b1.toNat - 0x80) : Nat) : Int), 2)\n        else (runeError, 2)", ["C76"], "a bad byte is read alone", edit="a bad lead byte takes the next byte with it")
m("by-06", "Utf8", "decodeRune", "else if n0 < 0xC2 then (runeError, 1)", "else if n0 < 0xC0 then (runeError, 1)", ["C76"], "overlong encodings are bad bytes")
m("by-07", "Bpe", "BPE.initialWord", "let runes := runesOf w", "let runes := (runesOf w).filter (· != 0xFFFD)", ["C76", "C44"], "bad bytes are seen as U+FFFD and take part", edit="U+FFFD is skipped")
m("by-08", "PreTokenizers", "bertPreTokenize", "(fromFunc u.isPunct) .isolated)", "(fromFunc u.isPunct) .contiguous)", ["C30", "C76"], "every punctuation mark is a piece of its own")

MM = "Memory"
m("me-01", MM, "Memory.transformNormalizedM", "let (m, al) ← Slc.make st.mem 0 ((ns.alignments.len : Int) - (b - a) + st.aligns.len)\n  let pre ← ns.alignments.reslice 0 a\n  let (m, al) := al.append rt m (pre.val m)\n  let (m, al) := al.append rt m (st.aligns.val m)\n  let post ← if b ≤ ns.alignments.len then ns.alignments.reslice b ns.alignments.len else .panic", "let pre ← ns.alignments.reslice 0 a\n  let post ← if b ≤ ns.alignments.len then ns.alignments.reslice b ns.alignments.len else .panic\n  let (m, al) := pre.append rt st.mem (st.aligns.val st.mem)", ["C77"], "the alignments of other strings on the same array stay", edit="append(ns.alignments[:start], ...) in place instead of a new slice")
m("me-02", MM, "Memory.sliceM", "let (m, al) ← Slc.make m (nb - na) (nb - na)\n        let src ← ns.alignments.reslice na nb\n        let m ← shiftLoop src al oa src.len 0 m", "let al ← ns.alignments.reslice na nb\n        let m ← shiftLoop al al oa al.len 0 m", ["C77"], "Slice leaves the string it cuts as it was", edit="the alignments are shifted in place")
m("me-03", MM, "Memory.transformNormalizedM", "(m, { ns with alignments := al,", "(m, { ns with alignments := (if dest = [] then ns.alignments else al),", ["C77", "C05"], "removing everything removes the alignments", edit="alignments kept when there are no changes")
m("me-04", MM, "Memory.transformNormalizedM", "((ns.alignments.len : Int) - (b - a) + st.aligns.len)", "((ns.alignments.len : Int) + st.aligns.len)", ["C77"], "alignments fill their slice", edit="the capacity forgets the removed part")
m("me-05", MM, "Memory.sliceM", "Slc.make m (nb - na) (nb - na)", "Slc.make m (nb - na) (nb - na + 1)", ["C77"], "alignments of a slice fill their array", edit="one spare element")
m("me-06", MM, "Memory.shiftLoop", "⟨al.start - nShift, al.stop - nShift⟩", "⟨al.start - nShift, al.stop⟩", ["C77"], "both ends are moved")
m("me-07", MM, "Memory.transformStepM", "als.get st.mem idx", "st.aligns.get st.mem idx", ["C77"], "alignments are read from the string, not from the new slice")
m("me-08", MM, "Memory.fromStringM", "pure (m, ⟨s, s, al, 0⟩)", "pure (m, ⟨s, s, ⟨0, 0, al.len, al.len⟩, 0⟩)", ["C77"], "each string gets an array of its own", edit="one static array for all strings")
m("me-09", MM, "Memory.originalAlignmentsM", "(l.foldl (fun st x => st.2.append rt st.1 [x]) (m, out))", "(l.foldl (fun st x => st.2.append rt st.1 [x]) (m, { ns.alignments with len := 0 }))", ["C77"], "OriginalAlignments does not write to the string", edit="the result is built in the string's own slice")
m("me-10", MM, "Memory.alignmentsFromStringM", "Slc.make m 0 s.length", "Slc.make m 0 (2 * s.length)", ["C77"], "alignments fill their slice", edit="too much capacity")
m("me-11", MM, "Memory.replaceStepM", "pure (m', ns', offset +", "pure (m, ns', offset +", ["C77"], "memory written by one replacement is seen by the next", edit="lost memory")

m("br-01", BY, "regexp2Bytes", "let startByte := (encodeRunes (runes.take m.1)).length", "let startByte := m.1", ["C23", "C78"], "positions are bytes", edit="rune index used as byte position")
m("br-02", BY, "capturesOfMatches", "if st.1 ≠ (s.length : Int) then st.2 ++ [⟨⟨st.1, s.length⟩, false⟩] else st.2", "if st.1 < (s.length : Int) then st.2 ++ [⟨⟨st.1, s.length⟩, false⟩] else if st.1 > (s.length : Int) then st.2.dropLast else st.2", ["C78"], "every match is reported", edit="a match that ends beyond the text is dropped")
m("br-03", BY, "fromRegexp2", "capturesOfMatches s (ms.map (regexp2Bytes (runesOf s)))", "capturesOfMatches s ((ms.map (regexp2Bytes (runesOf s))).map fun m => (m.1, min m.2 s.length))", ["C78"], "matches are at their place in the re-encoded text", edit="ends clamped to the text")
m("br-04", "NormalizedString", "NS.prepend", "ns.transformRange (.normalized 0 firstRuneBytesLen)", "ns.transformRange (.normalized 0 (decodeRune ns.normalized).2)", ["C78"], "the bytes replaced are as many as the first rune takes (fixes the program)", edit="width of the first rune as read")
m("br-05", "Encoding", "Encoding.isEmpty", "e.ids.length == 0", "e.ids.length == 1", ["C27"], "an encoding is empty when it has no ids")

MR = "MachineRest"
m("mr-01", MR, "Machine.mergeWith", "length := m.wrap (s.length + other.length)", "length := m.wrap (s.length + 1)", ["C79"], "a merged symbol is as long as its parts")
m("mr-02", MR, "Machine.mergeWith", "length := m.wrap (s.length + other.length)", "length := s.length + other.length + 0 * m.wrap 0", ["C79"], "three symbols can vanish (fixes the program)", edit="no wrap")
m("mr-03", MR, "Machine.heapDown", "let j2 := m.wrap (j1 + 1)", "let j2 := m.wrap (j1 - 1)", ["C79"], "the right child follows the left", edit="wrong child")
m("mr-04", MR, "Machine.heapPopLast", "let h ← goSlice h 0 lastIndex", "let h ← goSlice h 1 h.length", ["C79"], "Pop removes the last element", edit="removes the first")
m("mr-05", MR, "Machine.removeLoop", "let w ← m.removeSymbol w i\n          removeLoop fuel w i", "let w ← m.removeSymbol w i\n          removeLoop fuel w (m.wrap (i + 1))", ["C79"], "neighbouring dead symbols are both removed", edit="the index advances after a removal")
m("mr-06", MR, "Machine.wordToTokensLoop", "wordToTokensLoop vocab rest (m.wrap (i + 1)) offsetEnd tokens", "wordToTokensLoop vocab rest i offsetEnd tokens", ["C79"], "every token has its place", edit="index not advanced")
m("mr-07", MR, "Machine.convertOffsets", "pure (m.wrap (x + 1))", "pure x", ["C79"], "the end offset is after the last rune")
m("mr-08", MR, "Machine.encodeSplits", "encodeSplits wordIndex typeID sps (m.wrap (splitIndex + 1)) sequence", "encodeSplits wordIndex typeID sps (if sp.tokens = some [] then splitIndex else m.wrap (splitIndex + 1)) sequence", ["C79"], "splits without tokens are counted", edit="empty splits are not counted")
m("mr-09", MR, "Machine.mergeMapLoop", "mergeMapLoop vocab prefixLength rest (lineCount + 1) rank mm\n    else", "mergeMapLoop vocab prefixLength rest (lineCount + 1) (m.wrap (rank + 1)) mm\n    else", ["C79"], "a version line takes no rank", edit="version lines counted")
m("mr-10", MR, "Machine.pieceInner", "(m.wrap (stop - WordPiece.byteStringLen b))", "(m.wrap (stop - 1))", ["C79"], "the end moves by the width of the last byte as a rune", edit="one byte at a time")
m("mr-11", MR, "Machine.reverseLoop", "m.wrap (m.wrap ((l.length : Int) - 1) - i)", "m.wrap ((l.length : Int) - i)", ["C79"], "the reversal swaps opposite elements", edit="off by one")
m("mr-12", MR, "Machine.mergePrevStep", "if c.isMatch ∧ !st.2 ∧ st.1.length > 0 then do\n    let splits ← m.setLast st.1 fun o => { o with stop", "if c.isMatch ∧ !st.2 ∧ st.1.length > 0 then do\n    let splits ← m.setLast st.1 fun o => { o with start", ["C79"], "the end of the previous piece moves")
m("mr-13", MR, "Machine.tokenOffsets", "m.wrap (nsOffsets.start + b)", "m.wrap (nsOffsets.stop + b)", ["C79"], "both offsets are shifted by the start of the split")
m("mr-14", MR, "Machine.symbolStep", "m.wrap (ulen + byteLen)", "m.wrap (ulen + 1)", ["C79"], "fused unknown symbols cover all bytes")
m("mr-15", MR, "Machine.invertLoop", "{ old with isMatch := !c.isMatch }", "{ old with isMatch := c.isMatch }", ["C79"], "matches and gaps are exchanged")

WK = "../Spec/Work"
m("wk-01", "Word", "Word.process", "let queue ← pushNext merges w queue current top.pos\n", "let queue ← pushNext merges w queue current top.pos\n        let queue ← pushNext merges w queue current top.pos\n", ["C80"], "3(n-1) iterations suffice (the result is the same)", edit="the pair with the next symbol is queued twice")
m("wk-02", WK, "WordPiece.tokenizeCount", "then (m.unknown sequence, 1)", "then (m.unknown sequence, (m.tokenLoopCount sequence sequence.length 0).2 + 1)", ["C80"], "a word with too many characters costs one lookup", edit="the length is checked after the search")
m("wk-03", WK, "WordPiece.findTokenCount", "| some id => (some ⟨id, sub, ⟨start, stop⟩⟩, 1)", "| some id => (some ⟨id, sub, ⟨start, stop⟩⟩, 2)", ["C80"], "n(n+1)/2 + 1 lookups suffice", edit="a token found is looked up again for its id")
m("wk-04", "Literal", "WMHeap.upL", "upL fuel h i\n", "upL fuel h (if i = 0 then 1 else i)\n", ["C80"], "Push ends", edit="the loop does not reach the root")
m("wk-05", "Word", "Word.mergeStep", "st.skip.foldl (fun q s => WMHeap.push q s) queue", "(st.skip ++ [top]).foldl (fun q s => WMHeap.push q s) queue", ["C80", "C38"], "the loop ends", edit="a processed entry is queued again")
J = "Json"
m("js-01", J, "Json.decodePair", "(hi - 0xD800) * 0x400 + (lo - 0xDC00) + 0x10000", "(hi - 0xD800) * 0x400 + (lo - 0xDC00)", ["C81"], "surrogate pairs stand for their characters", edit="0x10000 is not added")
m("js-02", J, "Json.storeMembers", "storeMembers m ms (st.1.set k (storeInt m v).1, st.2 && (storeInt m v).2)", "storeMembers m ms (match v with | .null => st.1 | _ => st.1.set k (storeInt m v).1, st.2 && (storeInt m v).2)", ["C81"], "null counts as 0", edit="an entry with null is skipped")
m("js-03", J, "Json.storeMembers", "storeMembers m ms (st.1.set k (storeInt m v).1, st.2 && (storeInt m v).2)", "storeMembers m ms (if (st.1.get? k).isSome then st.1 else st.1.set k (storeInt m v).1, st.2 && (storeInt m v).2)", ["C81"], "the last of two equal keys counts", edit="the first of two equal keys counts")
m("js-04", J, "Json.unquote", "| none => encodeRune runeError ++ unquote fuel t\n              | none", "| none => encodeRune runeError ++ unquote fuel t'\n              | none", ["C81"], "a surrogate without partner stands for U+FFFD and what follows is kept", edit="the escape after a lone surrogate is dropped")
m("js-05", J, "Json.scanString", "else if b < 0x20 then none", "else if b < 0x1F then none", ["C81"], "control characters are refused", edit="U+001F is accepted")
m("js-06", J, "Json.scanInt", "if b = 0x30 then some ([b], s)\n    else if", "if", ["C81"], "leading zeros are refused", edit="leading zeros are accepted")
m("js-07", J, "Json.storeInt", "-(m.half : Int) ≤ i ∧ i < (m.half : Int)", "-(m.half : Int) ≤ i ∧ i ≤ (m.half : Int)", ["C81"], "ids fit in an int", edit="the largest int plus one is accepted")
m("js-08", J, "Json.storeInt", "-(m.half : Int) ≤ i ∧ i < (m.half : Int)", "-(m.half : Int) < i ∧ i < (m.half : Int)", ["C81"], "ids that fit in an int are accepted", edit="the smallest int is refused")
m("js-09", J, "Json.escape", "else if c = 0x74 then some 0x09", "else if c = 0x74 then some 0x09\n  else if c = 0x27 then some 0x27", ["C81"], "only the escapes of JSON are accepted", edit="an escaped single quote is accepted")
m("js-10", J, "Json.parse", "if skipSpace r = [] then some v else none", "some v", ["C81"], "nothing but white space follows the value", edit="no check of the rest")
m("js-11", J, "Json.parseMembers", "let (ms, s) ← parseMembers fuel depth s\n          pure ((key, v) :: ms, s)", "match skipSpace s with\n          | 0x7D :: s => pure ([(key, v)], s)\n          | s =>\n          let (ms, s) ← parseMembers fuel depth s\n          pure ((key, v) :: ms, s)", ["C81"], "trailing commas are refused", edit="a trailing comma is accepted")
m("js-12", J, "Json.parse", "+ 1) 10000 (", "+ 1) 9999 (", ["C81"], "10000 nested arrays are accepted", edit="one level less")
m("js-13", J, "Json.isSpace", "b == 0x20 || b == 0x09", "b == 0x20 || b == 0x0B || b == 0x09", ["C81"], "white space is blank, tab, line feed and carriage return", edit="a vertical tab is white space")
m("js-14", J, "Json.unquote", "else encodeRune (decodeRune (b :: s)).1 ++ unquote", "else (b :: s).take (decodeRune (b :: s)).2 ++ unquote", ["C81"], "bytes that are not UTF-8 stand for U+FFFD", edit="bytes are copied as they are")
m("js-15", J, "Json.unmarshal", "| some .null => .ok none", "| some .null => .ok (some [])", ["C81"], "AddTerm panics after null", edit="null makes an empty map")
m("js-16", J, "Json.unmarshal", "if r.2 then .ok (some r.1) else .error .type", ".ok (some r.1)", ["C81"], "values other than integers are refused", edit="type errors are ignored")
m("js-17", J, "Json.parseNat", "(b.toNat - 0x30)) else none", "(b.toNat - 0x30)) else some n", ["C81"], "numbers with a fraction are refused", edit="the fraction is dropped")
m("js-18", J, "Json.hexVal", "b.toNat - 0x41 + 10", "b.toNat - 0x41 + 9", ["C81"], "escapes stand for their characters", edit="wrong value of upper case digits")
m("js-19", J, "Json.isSurrogate", "n < 0xE000", "n ≤ 0xE000", ["C81"], "escapes stand for their characters", edit="U+E000 is taken for a surrogate")
m("js-20", J, "Vocab.fromJSONFile", "(order (decoded.getD []))", "(order (decoded.getD [])).dropLast", ["C81"], "GetString inverts GetID", edit="one entry is not inverted")
m("js-21", J, "Json.scanExp", "if b = 0x65 ∨ b = 0x45 then", "if b = 0x65 then", ["C81"], "exponents with E are JSON", edit="only e starts an exponent")
m("js-22", J, "Json.parseInt", "-(n : Int)", "(n : Int)", ["C81"], "GetID is the integer in the file", edit="the sign is dropped")
m("rf-01", "MergeMap", "mergeMapLoop", "rest (lineCount + 1) (rank + 1) (MergeMap.set", "rest (lineCount + 1) rank (MergeMap.set", ["C82"], "rules apply in the order of the file", edit="all rules have rank 0")
m("rf-02", "MergeMap", "mergeMapLoop", "mergeMapLoop vocab prefixLength rest (lineCount + 1) rank m\n", "mergeMapLoop vocab prefixLength rest (lineCount + 1) (rank - 1) m\n", ["C51"], "a version line takes no rank", edit="ranks start at -1")
m("rf-03", "MergeMap", "mergeMapFromFile", "(scanLines content) 1 0 []", "(scanLines content).reverse 1 0 []", ["C82"], "rules apply in the order of the file", edit="the file is read backwards")
m("rf-04", "Bpe", "BPE.lookupKey", "if i = lastRuneIndex ∧ m.hasEndOfWordSuffix", "if i = lastRuneIndex ∧ 0 < i ∧ m.hasEndOfWordSuffix", ["C82"], "the suffix is on the last character", edit="no suffix on a word of one character")
m("rf-05", "MergeMap", "mergeMapLoop", "(MergeMap.set m k.1 k.2 v)", "(if v.id = k.1 then m else MergeMap.set m k.1 k.2 v)", ["C51"], "every rule of the file is in the table", edit="a rule whose product has the id of its left part is skipped")
WME = "WordMemory"
m("wm-01", WME, "add", "store m p { s with next := w.len }", "store m p { s with next := prev }", ["C85"], "Add links the last symbol to the new one", edit="the last symbol points to itself")
m("wm-02", WME, "removeSymbol", "let b ← w.reslice (index + 1) w.len", "let b ← w.reslice (index + 1) w.cap", ["C85"], "MergeAll leaves the symbols of the list", edit="removeSymbol copies up to the capacity")
m("wm-03", WME, "removeSymbol", "let b ← w.reslice (index + 1) w.len", "let b ← w.reslice index w.len", ["C85"], "MergeAll removes merged symbols", edit="removeSymbol keeps the symbol")
m("wm-04", WME, "mergeWith", "store m s { x with next := o.next }", "store m other { x with next := o.next }", ["C85"], "MergeAll in memory is MergeAll on lists", edit="MergeWith writes Next to the right symbol")
m("wm-05", WME, "process", "let m ← store m n { x with length := 0 }", "let m ← store m p { x with length := 0 }", ["C85"], "MergeAll in memory is MergeAll on lists", edit="the left symbol is tagged as removed")
m("wm-06", WME, "append", "if n ≤ w.cap then", "if n ≤ w.cap + 1 then", ["C85"], "no call on one word shows in another", edit="append writes in place beyond the capacity")
m("wm-07", WME, "newWord", "⟨m.arrs.length, 0, 0, cap.toNat⟩", "⟨m.arrs.length - 1, 0, 0, cap.toNat⟩", ["C85"], "no call on one word shows in another", edit="a new word uses the last array")
m("wm-08", WME, "relink", "store m n { nn with prev := pos }", "store m right { nn with prev := pos }", ["C85"], "MergeAll in memory is MergeAll on lists", edit="prev is written to the removed symbol")
m("wm-10", WME, "symbolStep", "          let (m, w) ← add grow m w uid ulen\n          pure (m, w, some (unkTokenID, byteLen))", "          let (m, w) ← add grow m w unkTokenID ulen\n          pure (m, w, some (uid, ulen))", ["C85"], "mergeWord in memory is mergeWord on lists", edit="the pending unknown symbol is kept, a new one added")
m("wm-11", WME, "append", "[ptrs m w ++ xs ++ List.replicate (c - n) none]", "[xs ++ ptrs m w ++ List.replicate (c - n) none]", ["C85"], "Add puts the new symbol last", edit="a moved slice has the new elements in front")
m("wm-12", WME, "mergeAll", "| some st => removeLoop grow w.len st.mem w 0", "| some st => removeLoop grow w.len st.mem w 1", ["C85"], "all merged symbols are removed", edit="the removal loop starts at 1")
m("df-01", "Defaults", "metaSpaceDefault", "metaSpace 0x2581 true", "metaSpace 0x2581 false", ["C89"], "each word has U+2581 in front", edit="no prefix space by default")
m("df-02", "Defaults", "metaSpaceDefault", "metaSpace 0x2581 true", "metaSpace 0x2582 true", ["C89"], "each word has U+2581 in front", edit="another default character")
m("df-03", "Defaults", "BertCfg.default", "accentsStripping := true", "accentsStripping := false", ["C89"], "marks are dropped by default", edit="accents stay by default")
m("df-04", "Defaults", "NS.trim", "ns.trimLeftRight true true", "ns.trimLeftRight true false", ["C71"], "Trim is TrimLeft and TrimRight", edit="Trim trims the left side only")
m("df-05", "Defaults", "NS.trimRight", "ns.trimLeftRight false true", "ns.trimLeftRight true true", ["C71"], "TrimRight leaves the left side", edit="TrimRight trims both sides")
m("df-06", "Defaults", "BPE.newDefault", "unknownToken := [],\n", "unknownToken := b!\"<unk>\",\n", ["C89"], "the default BPE model gives no error", edit="an unknown token by default")
m("wb-01", "WordPiece", "findToken", "stop - byteStringLen b", "stop - 1", ["C37", "C88"], "the positions looked at are two bytes apart after a high byte", edit="one byte back at a time")
m("wb-02", "WordPiece", "tokenize", "> m.maxInputCharsPerWord", "≥ m.maxInputCharsPerWord", ["C37", "C88"], "a word of exactly the maximal length is cut", edit="wrong boundary of the length limit")
m("wb-03", "WordPiece", "subStr", "if start > 0", "if start > 1", ["C37", "C88"], "later characters are looked up after the prefix", edit="no prefix at position 1")

MP = "MachinePipeline"
m("mp-01", MP, "byteLevelLoop", "byteLevelLoop s rs (m.wrap (i + size))", "byteLevelLoop s rs (m.wrap (i + 1))", ["C90"], "the byte-level normalization reads the bytes of each rune", edit="the offset grows by one per rune")
m("mp-02", MP, "byteLevelLoop", "(out ++ byteChanges bytes)", "(byteChanges bytes ++ out)", ["C90"], "the changes are in the order of the bytes", edit="changes are put in front")
m("mp-03", MP, "runeDelimiter", "other == delimiter) .removed", "other == delimiter) .isolated", ["C90"], "delimiters are removed", edit="delimiters stay as splits")
m("mp-04", MP, "whiteSpacePreTokenize", "m.invert (m.fromRegexp2 findAll2)", "m.fromRegexp2 findAll2", ["C90"], "the text between matches is removed", edit="the pattern is not inverted")
m("mp-05", MP, "metaSpaceSplitFunc", "!strReplacement.isPrefixOf ns.get", "strReplacement.isPrefixOf ns.get", ["C90"], "the prefix is added where it is missing", edit="the prefix test is negated")
m("mp-06", MP, "bertNormalize", "if c.accentsStripping then m.filter ns (fun r => !u.isMn r)", "if c.lowerCaseEnabled then m.filter ns (fun r => !u.isMn r)", ["C90"], "marks are dropped when that is enabled", edit="the wrong flag is tested")
m("mp-07", MP, "bertPreTokenize", "(m.fromFunc u.isPunct) .isolated", "(m.fromFunc u.isPunct) .removed", ["C90"], "punctuation stays as words", edit="punctuation is removed")

LE = "LiteralEngine"
m("le-01", LE, "litRunesAux", "litRunesAux ps n l (ps.length - 1)", "litRunesAux ps n l 0", ["C91"], "matches do not overlap", edit="the search goes on inside the match")
m("le-02", LE, "litRunesAux", "(stopAt n ((p :: l).drop ps.length) : Int)", "((p.1 + ps.length : Nat) : Int)", ["C91"], "a match ends after the last byte of the pattern", edit="runes are counted instead of bytes")
m("le-03", LE, "stopAt", "| [] => n", "| [] => n - 1", ["C91"], "a match at the end of the text ends there", edit="one byte too few")
m("le-04", LE, "fromStringAny", "if ps = [] then", "if ps = [] ∨ s.length < ps.length then", ["C91"], "captures cover the bytes of the text", edit="short texts are treated as for the empty pattern")
m("le-05", LE, "litRunesFindAll", "litRunesAux ps s.length (rangeStr s) 0", "litRunesAux ps s.length (rangeStr s) 1", ["C91"], "a match at the start is found", edit="the first rune is skipped")
PM = "PatternMemory"
m("pm-01", PM, "flipAt", "!c.isMatch", "c.isMatch", ["C92"], "flags are negated", edit="the flag is kept")
m("pm-02", PM, "invert", "List.range r.len", "List.range (r.len - 1)", ["C92"], "all flags are negated", edit="the last capture is left out")
m("pm-03", PM, "flipAt", "a.set (r.off + i)", "a.set i", ["C92"], "only elements of the slice change", edit="the offset of the slice is forgotten")
m("pm-04", PM, "invert", ".ok (σ'', .ok r)", ".ok (σ', .ok r)", ["C92"], "the negated slice is returned", edit="the change is lost")
m("pm-05", PM, "alloc", ".ok (σ ++ [cs], .ok ⟨σ.length, 0, cs.length⟩)", ".ok ([cs], .ok ⟨0, 0, cs.length⟩)", ["C92"], "earlier results stay", edit="one array is used for all calls")

RC = "Recover"
m("rc-01", RC, "NS.transformRangeL", "    let alPre ← lift (goSlice ns.alignments 0 a)\n    let alPost ← lift (goSlice ns.alignments b ns.alignments.length)\n    Left.set { ns with alignments := alPre ++ st.aligns ++ alPost }", "    let alPre ← lift (goSlice ns.alignments 0 a)\n    Left.set { ns with alignments := alPre ++ st.aligns }\n    let alPost ← lift (goSlice ns.alignments b ns.alignments.length)\n    Left.set { ns with alignments := alPre ++ st.aligns ++ alPost }", ["C93"], "a panic leaves the string as it was", edit="alignments are assigned before the last slice expression")
m("rc-02", RC, "NS.transformRangeL", "    let replaced ← lift (goSlice ns.normalized a b)\n", "    let replaced ← lift (goSlice ns.normalized a b)\n    Left.set { ns with normalized := ns.normalized.take a.toNat }\n", ["C93"], "a panic leaves the string as it was", edit="the text is cut before the changes are applied")
m("rc-03", RC, "NS.replaceStepL", "pure (offset + ((content.length", "pure (0 * offset + ((content.length", ["C93"], "Replace is Replace by values", edit="the offset is not accumulated")
m("rc-04", RC, "PTS.splitLoopL", "| (ns', .panic) => ({ p with ns := ns' } :: ps, .panic)\n      | (ns', .ok (.error e)) => ({ p with ns := ns' } :: ps, .ok (.error e))\n      | (ns', .ok (.ok items))", "| (ns', .panic) => ({ p with ns := ns' } :: [], .panic)\n      | (ns', .ok (.error e)) => ({ p with ns := ns' } :: ps, .ok (.error e))\n      | (ns', .ok (.ok items))", ["C93"], "no split is lost", edit="a panic loses the splits after it")
m("rc-05", RC, "PTS.tokenizeLoopL", "| (ns', .ok (.error e)) => ({ p with ns := ns' } :: ps, .ok (some e))", "| (ns', .ok (.error e)) => (⟨ns', some []⟩ :: ps, .ok (some e))", ["C93"], "the failing split has no tokens", edit="tokens are assigned before the error is checked")
m("rc-06", RC, "PTS.splitL", "| (old, .ok (.error e)) => ({ p with splits := old }, .ok (some e))", "| (_, .ok (.error e)) => ({ p with splits := [] }, .ok (some e))", ["C93"], "no split is lost", edit="an error empties the splits")
m("rc-07", RC, "PTS.normalizeLoopL", "      | (ns', .ok none) =>\n        match normalizeLoopL f ps with\n        | (ps', x) => ({ p with ns := ns' } :: ps', x)", "      | (ns', .ok none) =>\n        match normalizeLoopL f ps with\n        | (ps', x) => ((if x = .ok none then { p with ns := ns' } else p) :: ps', x)", ["C93"], "earlier splits are as the function left them", edit="a later failure undoes earlier changes")
m("rc-08", RC, "NS.mapL", "pure (acc ++ [⟨r', 0⟩])", "pure (⟨r', 0⟩ :: acc)", ["C93"], "Map is Map by values", edit="changes in reverse order")
m("rc-09", RC, "NS.filterL", "(st.transforms ++ [⟨lr, -(st.removed : Int)⟩])", "(st.transforms ++ [⟨lr, 0⟩])", ["C93"], "Filter is Filter by values", edit="trailing dropped runes stay")

UT = "Unicode"
m("ut-01", UT, "applies", "Nat.ble n e.2.1 && Nat.beq", "Nat.ble n (e.2.1 + 1) && Nat.beq", ["C94"], "lower case of lower case is itself", edit="ranges are one rune too long")
m("ut-02", UT, "applies", "(n - e.1) % e.2.2.1", "(n - e.1) % 1", ["C94"], "lower case of lower case is itself", edit="the step is ignored")
m("ut-03", UT, "lowerNat", "e.2.2.2 + (n - e.1)", "e.2.2.2 - (n - e.1)", ["C94"], "letters stay letters", edit="the distance is subtracted")
m("ut-04", UT, "rx", "isSpace := isWhiteSpace", "isSpace := fun r => isWhiteSpace r || r == 0x200B", ["C94"], "white space is unicode.IsSpace", edit="the zero width space is white space")
m("ut-05", UT, "uni", "isPunct := inTable tableP", "isPunct := fun r => inTable tableP r || r == 0x24", ["C94"], "BertPreTokenizer does not cut at $", edit="$ is punctuation")
m("ut-06", UT, "rx", "isNumber := inTable tableN", "isNumber := inTable tableNd", ["C94"], "numbers are category N", edit="only decimal digits")
m("ut-07", UT, "uni", "isOther := inTable tableC", "isOther := fun r => inTable tableC r && r != 0x85", ["C94"], "U+0085 is deleted by text cleaning", edit="U+0085 is no control character")
m("ut-08", "UnicodeTables", "tableLower", "(304, 304, 1, 105)", "(304, 304, 1, 775)", ["C94"], "letters stay letters", edit="the lower case of U+0130 is the dot above")
m("ut-09", UT, "toLower", "(lowerNat tableLower r.toNat : Int) else r", "(lowerNat tableLower (r.toNat % 0x10000) : Int) else r", ["C94"], "lower case keeps the class", edit="only 16 bits are looked at")

SL = "SplitMemory"
m("sl-01", SL, "tokenizeLoop", "writeTokens { W with toks := W.toks ++ [tokens] } p.splits index W.toks.length", "writeTokens { W with toks := if index = 0 then W.toks ++ [tokens] else W.toks.set (W.toks.length - 1) tokens } p.splits index (if index = 0 then W.toks.length else W.toks.length - 1)", ["C95"], "every split has its own tokens", edit="one variable holds the tokens of all splits")
m("sl-02", SL, "tokenizeLoop", "let W ← writeTokens { W with toks := W.toks ++ [tokens] } p.splits index W.toks.length", "let W : World := { W with toks := W.toks ++ [tokens] }", ["C95"], "splits get tokens", edit="the tokens are set on the copy in the range variable")
m("sl-03", SL, "split", "pure ({ W with arrs := W.arrs ++ [newSplits]\n                   objs := W.objs.set k { p with splits := ⟨W.arrs.length, newSplits.length⟩ } }, none)", "pure ({ W with arrs := W.arrs.set p.splits.arr newSplits\n                   objs := W.objs.set k { p with splits := ⟨p.splits.arr, newSplits.length⟩ } }, none)", ["C95"], "slices kept before a Split stay as they are", edit="the array is used again for the new splits")
m("sl-04", SL, "fromNormalizedString", "objs := W.objs ++ [⟨ns.getOriginal, ⟨W.arrs.length, 1⟩⟩]", "objs := W.objs ++ [⟨ns.getOriginal, ⟨W.arrs.length - 1, 1⟩⟩]", ["C95"], "objects have splits of their own", edit="the array of the object before is used")
m("sl-05", SL, "normalizeLoop", "| some _ => normalizeLoop N s n (index + 1) W", "| some _ => .ok (W, none)", ["C95"], "splits without tokens are normalized", edit="a tokenized split ends the loop")
m("sl-06", SL, "splitLoop", "| some _ => splitLoop F s n (index + 1) (newSplits ++ [c]) W", "| some _ => splitLoop F s n (index + 1) (newSplits ++ [{ c with tokens := none }]) W", ["C95"], "tokenized splits stay", edit="tokens are lost")
m("sl-07", SL, "split", "| .error e => pure (W, some e)\n  | .ok newSplits =>", "| .error e => pure ({ W with objs := W.objs.set k { p with splits := ⟨p.splits.arr, 0⟩ } }, some e)\n  | .ok newSplits =>", ["C95"], "a failing Split leaves the splits", edit="an error empties the splits")
m("sl-08", SL, "appendItems", "if ns.isEmpty then appendItems σ newSplits items else", "if ns.isEmpty then .ok newSplits else", ["C95"], "only empty items are left out", edit="an empty item ends the loop")
m("sl-09", SL, "splits", "pure p.splits", "pure { p.splits with len := p.splits.len - 1 }", ["C95"], "Splits returns all splits", edit="the last split is missing")
m("sl-10", SL, "tokenizeLoop", "| .error e => pure (W, some e)\n      | .ok tokens =>", "| .error _ => tokenizeLoop k T s n (index + 1) W\n      | .ok tokens =>", ["C95"], "errors are returned", edit="an error is ignored")
m("sl-11", SL, "writeTokens", "a.set i { c with", "a.set 0 { c with", ["C95"], "tokens go to the split they were made for", edit="always the first split")
m("sl-12", SL, "encodeSplits", "if wordIndex < 0 then (splitIndex : Int)", "if wordIndex < 0 then (n : Int)", ["C95"], "words are numbered by split", edit="numbered from the end")
m("sl-13", SL, "allSplitsHaveTokens", "| none => pure false", "| none => allSplitsHaveTokens W s n (i + 1)", ["C95"], "splits without tokens are refused", edit="splits without tokens are passed over")
m("sl-14", SL, "normalizedByteSplits", "n (i + 1) (offset + ns.len)", "n (i + 1) (offset + ns.originalLen)", ["C95"], "offsets of the normalized text", edit="the original length is added")

# properties that few of the wrong programs above were aimed at
m("ax-01", NSF, "transformStep", "(if idx < 1 then pure ⟨0, 0⟩ else goIndex als (idx - 1))", "(if idx < 1 then goIndex als 0 else goIndex als (idx - 1))",
  ["C04"], "a rune inserted at the very front has the empty alignment")
m("ax-02", NSF, "NS.transformNormalized", "let alPost ← goSlice ns.alignments b ns.alignments.length", "let alPost ← goSlice ns.alignments a ns.alignments.length",
  ["C02"], "TransformRange keeps one alignment per byte also when it is called on part of the text")
m("ax-03", NSF, "NS.transformRange", "| none => .ok ns\n  | some (a, b) => ns.transformNormalized", "| none => ns.transformNormalized 0 ns.len dest initialOffset\n  | some (a, b) => ns.transformNormalized",
  ["C02", "C04"], "a range that is not found leaves the text as it is")
m("ax-04", NSF, "NS.transformNormalized", "normalized := sPre ++ st.out ++ sPost }", "normalized := sPre ++ st.out ++ sPost\n    original := if ns.originalShift = 0 then ns.original else sPre ++ st.out ++ sPost }",
  ["C03"], "the original of a piece never changes", edit="the original of a piece with a shift is replaced by the new text")
m("ax-05", NSF, "NS.coerceRangeToNormalized", "else if stop ≠ -1 then some (stop, stop)", "else if stop ≠ -1 then none",
  ["C15"], "a range whose characters were all removed is the empty range at their place")
m("ax-06", NSF, "NS.prepend", "if ns.normalized.length = 0 then .ok ns\n  else do\n    let firstRune", "if ns.normalized.length = 0 then .ok (fromString s)\n  else do\n    let firstRune",
  ["C08"], "Prepend does nothing on an empty text")
m("ax-07", NSF, "NS.append", "if ns.normalized.length = 0 then .ok ns\n  else do\n    let runes", "if ns.normalized.length = 0 then .ok { ns with normalized := s }\n  else do\n    let runes",
  ["C09", "C02"], "Append does nothing on an empty text")
m("ax-08", NSF, "NS.originalAlignments", "pure (out ++ List.replicate gap.toNat ⟨offset, offset⟩)", "pure (out ++ List.replicate gap.toNat ⟨0, 0⟩)",
  ["C17"], "the original bytes after the last alignment get an empty entry at the end of the text")
m("ax-09", NSF, "NS.origAlignLoop", "else if al.start < last.stop then .panic", "else if al.start < last.start then .panic",
  ["C17"], "OriginalAlignments panics on overlapping alignments")
m("ax-10", "StrUtils", "isRuneBoundary", "else if index < 0 ∨ index > (s.length : Int) then false", "else if index < 0 then false\n  else if index > (s.length : Int) then true",
  ["C18", "C11"], "an index past the end is no boundary")
m("ax-11", "StrUtils", "convertOffsets", "if offsets.stop = (mapping.length : Int) then do", "if offsets.stop ≥ (mapping.length : Int) then do",
  ["C19"], "the end of the text is converted through the byte before it; a position past the end panics")
m("ax-12", "StrUtils", "newBytesToRuneOffsetConverter", "List.replicate (encodeRune r).length (runeIndex : Int)", "[(runeIndex : Int)]",
  ["C19"], "the converter has one entry per byte")
m("ax-13", "SplitPattern", "fromStringPattern", "((runesOf s).length : Nat)⟩, false⟩]", "((runesOf s).length : Nat)⟩, true⟩]",
  ["C22"], "the empty pattern matches nothing")
m("ax-14", "SplitPattern", "invert", "| .ok (.error e) => .ok (.error e)\n  | .ok (.ok cs)", "| .ok (.error _) => .ok (.ok emptyCaptures)\n  | .ok (.ok cs)",
  ["C23"], "an inverted pattern passes on the error of the pattern")
m("ax-15", "Bpe", "BPE.lookupKey", "if i = 0 ∧ m.hasContinuingSubwordPrefix", "if 0 < i ∧ m.hasContinuingSubwordPrefix",
  ["C47", "C73"], "the prefix of the code is put in front of the first character of the word")
m("ax-16", "Bpe", "BPE.wordToTokens", "| none => .error (.idNotFound s.id)", "| none => wordToTokens vocab rest (offsetStart + s.length)",
  ["C44"], "an id without a term is an error")
m("ax-17", "Bpe", "BPE.tokenizeWith", "if sequence.length = 0 then .ok (.ok (some []), c)\n  else if", "if sequence.length = 1 then .ok (.ok (some []), c)\n  else if",
  ["C57", "C43"], "every character of a word of one character is covered")
m("ax-18", "Bpe", "BPE.symbolStep", "else (word.add uid ulen, some (unkTokenID, byteLen))", "else (word.add uid ulen, none)",
  ["C73", "C56"], "each unknown character gets its own unknown token when they are not fused")
m("ax-19", "Vocabulary", "Vocab.addTerm", "| none => .panic\n    | some m", "| none => .ok ⟨some [(term, 0)], v.idToTerm.set 0 term⟩\n    | some m",
  ["C50"], "AddTerm on a vocabulary read from null panics")
m("ax-20", "MergeMap", "mergeMapLoop", "if versionPrefix.isPrefixOf line then", "if versionPrefix == line then",
  ["C51"], "a line that begins with #version is skipped, whatever follows")
m("ax-21", "MergeMap", "mergeMapLoop", "(rank + 1) (MergeMap.set m k.1 k.2 v)", "(rank + 1) (if (MergeMap.get m k.1 k.2).isSome then m else MergeMap.set m k.1 k.2 v)",
  ["C82", "C51"], "of a repeated rule the last line counts")
m("ax-22", "Word", "Word.mergeStep", "if hasDropout ∧ rnd st.draws then", "if hasDropout ∧ rnd st.draws ∧ st.skip.length < 2 then",
  ["C42", "C62"], "a draw that skips postpones the merge, however many came before")
m("ax-23", "Word", "Word.mergeStep", "let draws := if hasDropout then st.draws + 1 else st.draws", "let draws := st.draws",
  ["C62"], "every candidate gets its own draw")
m("ax-24", "Bpe", "BPE.mergeWord", "word.mergeAll m.merges m.hasDropout rnd", "word.mergeAll m.merges true rnd",
  ["C57"], "without dropout no merge is skipped")
m("ax-25", "Bpe", "BPE.symbolStep", "| some (uid, ulen) => ((word.add uid ulen).add id byteLen, none)", "| some (uid, ulen) => ((word.add id byteLen).add uid ulen, none)",
  ["C56", "C73"], "an unknown character keeps its place in front of the next known one")
m("ax-26", "PreTokenizedString", "PTS.splitLoop", "items.filter (fun it => !it.ns.isEmpty) ++ new", "items.filter (fun it => it.ns.len > 1) ++ new",
  ["C66", "C70", "C64"], "words of one byte are kept")
m("ax-27", "PreTokenizedString", "PTS.splitLoop", "items.filter (fun it => !it.ns.isEmpty) ++ new", "new ++ items.filter (fun it => !it.ns.isEmpty)",
  ["C67", "C66"], "the words are in the order of the text")
m("ax-28", "PreTokenizedString", "PTS.tokenOffsets", "| none => pure t.offsets", "| none => pure ⟨ns.originalOffsets.start + t.offsets.start, ns.originalOffsets.start + t.offsets.stop⟩",
  ["C26"], "a token with reversed offsets keeps them as they are")
m("ax-29", NSF, "NS.coerceRangeToOriginal", "if e - s = 0 then .ok (some (s, e))\n    else if s > e then .ok none\n    else if ns.normalized", "if e - s = 0 then .ok (some (0, ns.originalLen))\n    else if s > e then .ok none\n    else if ns.normalized",
  ["C69"], "an empty range of a non-empty text is given back as it is")
m("ax-30", "PreTokenizers", "byteLevelSplitFunc", "!startsWithWhitespace ns.get then ns.prepend [32]", "!startsWithWhitespace ns.get then ns.prepend [32, 32]",
  ["C83", "C86", "C34"], "one space is put in front")
m("ax-31", "PreTokenizers", "byteTableLoop", "((0x100 + n : Nat) : Int) :: byteTableLoop k (i + 1) (n + 1)", "((0x100 + n : Nat) : Int) :: byteTableLoop k (i + 1) (if n = 33 then n else n + 1)",
  ["C33", "C86"], "the table has a character of its own for each byte")
m("ax-32", "WordPiece", "WordPiece.findToken", "| some b => findToken m sequence start fuel (stop - byteStringLen b)", "| some _ => findToken m sequence start fuel (stop - 1)",
  ["C37", "C88"], "a character of two bytes is dropped as a whole from the end of a candidate")
m("ax-33", "WordPiece", "WordPiece.tokenLoop", "match tokenLoop m sequence fuel t.offsets.stop.toNat with", "match tokenLoop m sequence fuel (start + t.value.length) with",
  ["C84", "C36", "C37"], "the next token begins where the last ended, also when it has the prefix")
m("ax-34", "PreTokenizedString", "PTS.encodeSplits", "let rest ← encodeSplits wordIndex typeID (splitIndex + 1) sps", "let rest ← encodeSplits wordIndex typeID (splitIndex + (if sp.tokens.getD [] = [] then 0 else 1)) sps",
  ["C87", "C65"], "a split without tokens counts as a word")
m("ax-35", NSF, "mergePrevStep", "st.1.length > 0 then (setLastStop st.1 c.offsets.stop, c.isMatch)\n  else (st.1 ++ [⟨c.offsets, false⟩], c.isMatch)\n\n/-- Loop body of the MergedWithNext", "st.1.length > 0 then (setLastStop st.1 c.offsets.stop, false)\n  else (st.1 ++ [⟨c.offsets, false⟩], c.isMatch)\n\n/-- Loop body of the MergedWithNext",
  ["C12"], "of two delimiters in a row only the first is merged with the text before")
m("ax-36", NSF, "NS.trimChanges", "if i + 1 = kept.length then -(trailing : Int) else 0", "if i + 2 = kept.length then -(trailing : Int) else 0",
  ["C07", "C71"], "the white space at the end is taken off after the last kept rune")
m("ax-37", "PreTokenizedString", "PTS.tokenizeLoop", "| .error e => pure (p :: ps, some e)", "| .error e => pure ({ p with tokens := some [] } :: ps, some e)",
  ["C58"], "a split whose tokenization failed has no tokens")
m("ax-38", "PreTokenizedString", "PTS.normalizeLoop", "| some e => pure ({ p with ns := ns' } :: ps, some e)", "| some e => pure (p :: ps, some e)",
  ["C59"], "the split whose normalization failed holds what the failing normalizer left")
m("ax-39", "PreTokenizers", "metaSpaceSplitFunc", "!strReplacement.isPrefixOf ns.get then ns.prepend strReplacement", "!([32] : Str).isPrefixOf ns.get then ns.prepend strReplacement",
  ["C32", "C72"], "the replacement is not put in front of a text that begins with it")
m("ax-40", NSF, "NS.replaceStep", "let rStart := if c.offsets.start + offset < 0 then 0 else c.offsets.start + offset", "let rStart := c.offsets.start",
  ["C10", "C53"], "later matches are replaced at their moved place")

# the dropout value
DRF = "Dropout"
m("dv-01", DRF, "Word.mergeAllF", "w.mergeAll merges (F64.lt (.fin 0) dropout) fun k => F64.lt (draws k) dropout", "w.mergeAll merges (F64.lt (.fin 0) dropout) fun k => !F64.lt dropout (draws k)",
  ["C96"], "a draw equal to the value does not skip")
m("dv-02", DRF, "Word.mergeAllF", "w.mergeAll merges (F64.lt (.fin 0) dropout) fun k => F64.lt (draws k) dropout", "w.mergeAll merges (F64.lt (.fin 0) dropout) fun k => F64.lt dropout (draws k)",
  ["C96"], "the higher the value the more is skipped")
m("dv-03", DRF, "BPE.tokenizeF", ".tokenize (fun k => F64.lt (draws k) dropout) sequence", ".tokenize (fun k => F64.lt (draws (k + 1)) (draws 0)) sequence",
  ["C96"], "draws are compared with the value")
m("dv-04", DRF, "Word.mergeAllF", "w.mergeAll merges (F64.lt (.fin 0) dropout) fun k => F64.lt (draws k) dropout", "w.mergeAll merges (!F64.lt dropout (.fin 0)) fun k => F64.lt (draws k) dropout",
  ["C96"], "the value 0 (or not a number) means no dropout")
m("dv-05", DRF, "BPE.tokenizeF", "hasDropout := F64.lt (.fin 0) dropout", "hasDropout := F64.lt (.fin 0) dropout && F64.lt dropout (.fin 1)",
  ["C96"], "with the value 1 nothing is merged")
m("dv-06", "Word", "mergeStep", "skip := st.skip ++ [top], draws := st.draws + 1", "skip := [top], draws := st.draws + 1",
  ["C62", "C96"], "skipped entries come back after a merge")

# reading files
FIO = "FileIO"
m("fi-01", FIO, "Scanner.take", "{ s with start := s.start + advance, window := s.window.drop advance }", "{ s with start := s.start + advance, window := s.window.drop (advance - 1) }",
  ["C97"], "the line feed is passed over with its line")
m("fi-02", FIO, "Scanner.shift", "{ s with start := 0 }", "{ s with start := 0, window := [] }",
  ["C97"], "a line that comes in two reads is put together")
m("fi-03", FIO, "mergeScanLoop", "| none | some .eof => pure (.ok m)", "| none | some .eof | some .tooLong => pure (.ok m)",
  ["C97", "C51"], "a line that is too long is an error")
m("fi-04", FIO, "mergeScanLoop", "| none | some .eof => pure (.ok m)\n      | some e => pure (.error (.read e))", "| _ => pure (.ok m)",
  ["C97"], "after an error of reading no map is returned")
m("fi-05", FIO, "mergeMapFromFileIO", "| some e => pure (some m, some (.read (.io e)))", "| some _ => pure (some m, none)",
  ["C97"], "the error of Close is returned")
m("fi-06", FIO, "Vocab.fromJSONFileIO", "match err with\n  | some e => pure (.error (.read e))\n  | none =>", "match err with\n  | _ =>",
  ["C97"], "after an error of reading no vocabulary is returned")
m("fi-07", FIO, "splitLine", "if atEOF then (data.length, some (scanDropCR data)) else (0, none)", "(0, none)",
  ["C97"], "a last line without line feed counts")
m("fi-08", FIO, "splitLine", "if atEOF then (data.length, some (scanDropCR data)) else (0, none)", "(data.length, some (scanDropCR data))",
  ["C97"], "the end of a read is not the end of a line")
m("fi-09", FIO, "Scanner.nextSize", "min (if size * 2 = 0 then startSize else size * 2) maxScanTokenSize", "if size * 2 = 0 then startSize else size * 2 + 1",
  ["C97"], "the buffer does not grow beyond 64 KiB")
m("fi-10", FIO, "FileIO.readLoop", "| some .eof => .ok (acc ++ bs, none)\n    | some e => .ok (acc ++ bs, some e)", "| some _ => .ok (acc ++ bs, none)",
  ["C97"], "errors of reading are reported")

# goroutines
CCF = "Concurrent"
m("cc-01", CCF, "Conc.unknown", "| none => pure (.error .unkOutOfVocab)\n  | some id => pure (.ok [⟨id,", "| none => do\n    addTerm o.unknownToken\n    pure (.error .unkOutOfVocab)\n  | some id => pure (.ok [⟨id,",
  ["C99"], "tokenizing does not write the vocabulary")
m("cc-02", CCF, "Conc.mergeStep", "draw fun x => if F64.lt x dropout then", "draw fun _ => draw fun x => if F64.lt x dropout then",
  ["C99"], "one number is drawn for one entry of the queue")
m("cc-03", CCF, "Conc.mergeAll", "initQueue w 0 []", "initQueue w 1 []",
  ["C99"], "alone the program is the method")
m("cc-04", CCF, "Conc.addTerm", "size fun id => setID term id (setTerm id term (ret ()))", "size fun id => setTerm id term (ret ())",
  ["C99"], "AddTerm writes both maps")
m("cc-05", CCF, "Conc.bpeTokenize", "if sequence.length = 0 then pure (.ok (some []))", "if sequence.length = 0 then fail",
  ["C99"], "no goroutine panics")
m("cc-06", CCF, "Conc.process", "match ← lookMerge cur.id right.id with", "match ← lookMerge right.id cur.id with",
  ["C99"], "alone the program is the method")
m("cc-07", CCF, "Conc.mergeSymbols", "let r ← mergeAll o.dropout word", "setPair 0 0 ⟨0, 0⟩\n  let r ← mergeAll o.dropout word",
  ["C99"], "tokenizing does not write the merge map")
m("cc-08", CCF, "Conc.calls", "pure (r :: rs)", "pure (rs ++ [r])",
  ["C99"], "what the calls return is kept in their order")
m("cc-09", CCF, "Conc.Config.step", "p.step c.shared (source c.log.length)", "p.step c.shared (source i)",
  ["C99"], "each draw gets the next number of the source")
m("cc-10", CCF, "Conc.Config.step", "c.threads.set i p'", "c.threads.set 0 p'",
  ["C99"], "the goroutine that has the turn goes on")
m("cc-11", CCF, "Conc.Config.Race", "i ≠ j ∧ c.threads[i]?", "i = j ∧ c.threads[i]?",
  ["C99"], "AddTerm races with Tokenize in another goroutine")
m("cc-12", CCF, "Conc.Prog.step", "| getString i k => some (k (s.vocab.getString i), s, false)", "| getString i k => some (k (s.vocab.getString i), { s with merges := [] }, false)",
  ["C99"], "reading does not change the maps")
m("cc-13", CCF, "Conc.addTerm", "| some _ => pure ()\n  | none => size fun id => setID", "| some _ => size fun id => setID term id (ret ())\n  | none => size fun id => setID",
  ["C99"], "AddTerm of a term already there does nothing")

# the words from the ids
m("bd-01", WP, "WordPiece.tokenLoop", "tokenLoop m sequence fuel t.offsets.stop.toNat", "tokenLoop m sequence fuel (start + t.value.length)",
  ["C36", "C98"], "the next token starts where the last one ended")
m("bd-02", WP, "WordPiece.subStr", "if start > 0 then m.continuingSubwordPrefix ++ t else t", "if start > 1 then m.continuingSubwordPrefix ++ t else t",
  ["C36", "C98"], "every token after the first has the prefix")
m("bd-03", WP, "WordPiece.findToken", "some ⟨id, sub, ⟨start, stop⟩⟩", "some ⟨id, (sequence.drop start).take (stop.toNat - start), ⟨start, stop⟩⟩",
  ["C36", "C98"], "the value is the term of the id")

# ids and ranks as names
m("rn-01", "Heap", "WordMerge.less", "if a.value.rank ≠ b.value.rank then decide (a.value.rank < b.value.rank)\n  else decide (a.pos < b.pos)", "if a.value.rank ≠ b.value.rank then decide (a.value.rank < b.value.rank)\n  else if a.value.id ≠ b.value.id then decide (a.value.id < b.value.id) else decide (a.pos < b.pos)",
  ["C43", "C100"], "ids are not compared by size")
m("rn-02", "Word", "process", "if m.id ≠ top.value.id then pure (w, queue)", "if m.id < top.value.id then pure (w, queue)",
  ["C39", "C100"], "ids are only compared for equality")
m("rn-03", "Heap", "WordMerge.less", "decide (a.value.rank < b.value.rank)", "decide (a.value.rank + 1 < b.value.rank)",
  ["C43", "C100", "C101"], "only the order of ranks matters")
m("rn-04", "Bpe", "wordToTokens", "match vocab.getString s.id with\n    | none => .error (.idNotFound s.id)", "match (if s.id = 0 then none else vocab.getString s.id) with\n    | none => .error (.idNotFound s.id)",
  ["C45", "C100"], "no id is special")
m("rn-05", "WordPiece", "WordPiece.findToken", "| some id => some ⟨id, sub, ⟨start, stop⟩⟩", "| some id => some ⟨id, sub, ⟨start, if id < 0 then stop - 1 else stop⟩⟩",
  ["C36", "C100"], "the size of an id does not matter")
m("rn-06", "MergeMap", "parseMergeLine", ".ok (.ok ((leftID, rightID), ⟨rank, mergedID⟩))", ".ok (.ok ((min leftID rightID, max leftID rightID), ⟨rank, mergedID⟩))",
  ["C51", "C100"], "pairs of ids are kept in their order")
m("rn-07", "Bpe", "BPE.initialWord", "| none => .error .unkOutOfVocab\n    | some id => .ok (go id)", "| none => .error .unkOutOfVocab\n    | some id => .ok (go (if m.vocab.size > 1000 then 0 else id))",
  ["C46", "C101"], "other entries of the vocabulary do not matter")

# The characters, the tables and the loops under everything; C102 to C109.
m("ag-01", "Utf8", "encodeNat", "else if c < 0x800 then\n    [", "else if c ≤ 0x800 then\n    [",
  ["C02", "C81"], "U+0800 is written with three bytes")
m("ag-02", "Utf8", "isCont", "b.toNat ≤ 0xBF", "b.toNat < 0xBF",
  ["C02", "C18"], "a rune whose last byte is 0xBF is read as one rune")
m("ag-03", "Utf8", "rangeAux", "| _ :: bs, i, k + 1 => rangeAux bs (i + 1) k", "| _ :: bs, i, k + 1 => rangeAux bs i k",
  ["C01", "C20"], "the index of a rune is its byte position")
m("ag-04", "Vocabulary", "GoMap.set", "else (k', v') :: set rest k v", "else (k, v) :: (k', v') :: rest",
  ["C49", "C51"], "a term is in the table once", edit="set puts the entry in front when the first key differs")
m("ag-05", "MergeMap", "MergeMap.set", "GoMap.set m (a, b) v", "if (GoMap.get? m (a, b)).isSome then m else GoMap.set m (a, b) v",
  ["C51"], "a rule that comes again replaces the first one")
m("ag-06", "MergeMap", "scanTooLong", "(scanLinesAux s []).2", "(scanLinesAux s []).2 && (scanLinesAux s []).1.isEmpty",
  ["C51", "C97"], "a line that is too long is an error, wherever it stands")
m("ag-07", "MergeMap", "versionPrefix", "[35, 118, 101, 114, 115, 105, 111, 110]", "[35]",
  ["C51"], "a rule whose first term begins with # is read")
m("ag-08", "MergeMap", "mergeMapLoop", "(lineCount + 1) (rank + 1) (MergeMap.set", "(lineCount + 1) (if k.1 = k.2 then rank else rank + 1) (MergeMap.set",
  ["C51", "C105"], "every rule has a rank of its own", edit="a rule of two equal terms does not count for the rank of the next")
m("ag-09", "Bpe", "hasEndOfWordSuffix", "m.endOfWordSuffix.length != 0", "m.endOfWordSuffix.length > 1",
  ["C45", "C73"], "a suffix of one byte is added too")
m("ag-10", "Bpe", "indexed", "rs.mapIdx fun i r => (i, r)", "rs.mapIdx fun i r => (if r < 128 then i else i + 1, r)",
  ["C47", "C73"], "the prefix goes to the first rune, whatever it is")
m("ag-11", "Bpe", "tokenizeWord", "| .ok ts => pure (.ok (some (word, ts)))", "| .ok ts => pure (.ok (some (word.reverse, ts)))",
  ["C48"], "the cache is given the word that the tokens come from")
m("ag-12", "Bpe", "tokenizeWithCache", ".ok ((wordToTokens m.vocab hit 0).map some, c)", ".ok ((wordToTokens m.vocab hit hit.length).map some, c)",
  ["C48"], "a word from the cache gives tokens from offset 0 on")
m("ag-13", "Heap", "WMHeap.push", "up (h.length) (h ++ [x]) (h.length)", "up (h.length / 2) (h ++ [x]) (h.length)",
  ["C43", "C40"], "a pushed entry rises as far as it must", edit="the steps of up are bounded by half the length")
m("ag-14", "Heap", "WMHeap.swap", "(h.set i (h.at' j)).set j (h.at' i)", "if i + 1 = j ∧ i > 0 then h else (h.set i (h.at' j)).set j (h.at' i)",
  ["C43", "C40"], "Swap swaps any two entries")
m("ag-15", "Word", "Word.pushPrev", "pure (queue.push ⟨m, current.prev⟩)", "pure (queue.push ⟨m, current.prev - (if current.prev = 0 then 0 else 1)⟩)",
  ["C39", "C40"], "the pair with the previous symbol is queued at the place of the previous symbol")
m("ag-16", "Word", "Word.pushNext", "if current.hasNext ∧ current.next < (w.length : Int) then do", "if current.hasNext ∧ current.next + 1 < (w.length : Int) then do",
  ["C40", "C41"], "the pair with the last symbol is queued too")
m("ag-17", "Word", "mergeFuel", "(4 * n + 1) * (4 * n + 1)", "4 * n + 1",
  ["C38"], "the bound on the turns is enough for any dropout")
m("ag-18", "Json", "hex4", "(((a * 16 + b) * 16 + c) * 16 + d, s)", "(((a * 16 + b) * 16 + d) * 16 + c, s)",
  ["C81"], "the digits of \\uXXXX are read from left to right")
m("ag-19", "Json", "scanFrac", "if (digits s).1 = [] then none else some (0x2E :: (digits s).1, (digits s).2)", "some (0x2E :: (digits s).1, (digits s).2)",
  ["C81"], "a dot without digits is a syntax error")
m("ag-20", "Json", "scanSign", "| 0x2D :: s => ([0x2D], s)\n  | s => ([], s)\n\n/-- The exponent", "| s => ([], s)\n\n/-- The exponent",
  ["C81"], "1e-1 is a number")
m("ag-21", "Json", "parseElems", "| 0x5D :: s => pure ([v], s)", "| 0x5D :: s | 0x7D :: s => pure ([v], s)",
  ["C81"], "an array is closed by a bracket")
m("ag-22", "FileIO", "fill", "rest := s.rest.drop bs.length, reads := s.reads + 1 }\n    match err with\n    | some e => { s with err := some e }", "rest := s.rest.drop bs.length, reads := s.reads + 1 }\n    match err with\n    | some e => { s with err := some e, window := [] }",
  ["C97"], "the bytes read before the end of the file are a line", edit="the window is emptied at the end of the file")
m("ag-23", "FileIO", "scanDropCR", "data.take (data.length - 1)", "data.take (data.length - 2)",
  ["C97"], "only the carriage return is dropped")
m("ag-24", "FileIO", "readFile", "f.readLoop spare (f.data.length + 1) 0 f.data []", "f.readLoop spare (f.data.length + 1) 0 (f.data.drop (spare 0 / 65536)) []",
  ["C97"], "ReadFile returns the whole file")
m("ag-25", "Normalizers", "bertNormalize", "let ns ← if c.chineseCharsHandling then handleChineseChars ns else pure ns\n  let ns ← if c.accentsStripping", "let ns ← if c.chineseCharsHandling ∧ c.textCleaning then handleChineseChars ns else pure ns\n  let ns ← if c.accentsStripping",
  ["C34", "C103", "C108"], "Chinese characters are handled without text cleaning too")
m("ag-26", "Normalizers", "handleChineseChars", "((runesOf ns.normalized).flatMap chineseChange) 0", "((runesOf ns.normalized).mapIdx (fun i r => if i = 0 then [⟨r, 0⟩] else chineseChange r)).flatten 0",
  ["C34", "C103"], "a Chinese character at the start of the text gets its spaces too")
m("ag-27", "PreTokenizers", "metaSpaceSplitFunc", "match ← ns.split (fromRune replacement) .mergedWithNext with", "match ← ns.split (fromRune replacement) .mergedWithPrevious with",
  ["C32", "C104"], "the text is cut in front of the replacement")
m("ag-28", "PreTokenizedString", "splitLoop", ".ok (items.filter (fun it => !it.ns.isEmpty) ++ new))", ".ok (new ++ items.filter (fun it => !it.ns.isEmpty)))",
  ["C24", "C109"], "the new splits stand in the place of the old one")
m("ag-29", "PreTokenizedString", "normalizeLoop", "| some e => pure ({ p with ns := ns' } :: ps, some e)", "| some e => pure (ps, some e)",
  ["C59", "C109"], "an error in Normalize loses no split")
m("ag-30", "PreTokenizedString", "tokenOffsets", "ns.originalOffsets.start + b⟩", "ns.originalOffsets.start + a + (t.offsets.stop - t.offsets.start)⟩",
  ["C28", "C109"], "the end of a token in the input is where its last byte comes from")
m("ag-31", "WordPiece", "byteStringLen", "(encodeRune (b.toNat : Int)).length", "1",
  ["C37", "C107"], "the search for a token goes back by the length of the byte as a string")
m("ag-32", "WordPiece", "WordPiece.tokenize", "match m.tokenLoop sequence sequence.length 0 with", "match m.tokenLoop sequence ((runesOf sequence).length - 1) 0 with",
  ["C36", "C107"], "a word may have as many tokens as runes", edit="one token less than runes is allowed")
m("ag-33", "SplitPattern", "fromStringPattern", "⟨⟨0, ((runesOf s).length : Nat)⟩, false⟩", "⟨⟨0, (s.length : Nat)⟩, false⟩",
  ["C22"], "the empty pattern gives one capture as long as the text has runes")
m("ag-34", "SplitPattern", "litFindAll", "litAux pat s 0 0", "litAux pat s 0 (pat.length - 1)",
  ["C22", "C91"], "an occurrence at the start of the text is found")
m("ag-35", "Regexp", "first", "(re.matches' rs).head?", "(re.matches' rs).getLast?",
  ["C60", "C61"], "the engine reports the first match it finds")
m("ag-36", "Regexp", "whiteSpaceDefault", "whiteSpacePreTokenize (wordRegexp u).findAll", "whiteSpacePreTokenize (Re.plus u.word).findAll",
  ["C61"], "runs of symbols are splits too")
m("ag-37", "PreTokenizers", "startsWithWhitespace", "| r :: _ => isWhiteSpace r", "| r :: _ => r == 32",
  ["C60", "C65"], "no space is put in front of other white space")
m("ag-38", "NormalizedString", "toUpper", "ns.map uniToUpper", "ns.map fun r => if r < 128 then r else uniToUpper r",
  ["C05"], "ToUpper maps ASCII too", edit="only runes above 127 are mapped")

EM = "EncodingMemory"
m("em-01", EM, "mk", "if 0 ≤ c ∧ c * (words * k.word : Nat) ≤ k.maxAlloc then", "if 0 < c ∧ c * (words * k.word : Nat) ≤ k.maxAlloc then",
  ["C128"], "NewDefaultEncoding never panics")
m("em-02", EM, "withCapacityObj", "let (is, words) ← mk k 1 0 is c", "let words := typeIDs",
  ["C128"], "the seven arrays are distinct", edit="Words shares the array of TypeIDs")
m("em-03", EM, "withCapacityObj", "let (is, attentionMask) ← mk k 1 0 is c", "let (is, attentionMask) ← mk k 1 0 is 0",
  ["C128"], "every array has the capacity asked for")
m("em-04", EM, "push", "if s.len + 1 ≤ s.cap then", "if s.len + 1 < s.cap then",
  ["C128"], "no append of EncodingFromEncodableTokens allocates")
m("em-05", EM, "push", "a.set (s.off + s.len) x", "a.set s.off x",
  ["C128"], "the rows are in token order")
m("em-06", EM, "appendToken", "let (is, words) := push grow 0 is o.words t.wordIndex", "let (is, words) := push grow 0 is o.words t.typeID",
  ["C128"], "Words holds the word indices")
m("em-07", EM, "appendToken", "let (is, attentionMask) := push grow 0 is o.attentionMask 1", "let (is, attentionMask) := push grow 0 is o.attentionMask 0",
  ["C128"], "the attention mask is 1 for every token")
m("em-08", EM, "fromEncodableTokens", "newEncodingWithCapacity k m ts.length", "newEncodingWithCapacity k m (ts.length - 1)",
  ["C128"], "EncodingFromEncodableTokens never panics, and no append allocates")
m("em-09", EM, "isEmpty", "pure (o.ids.len == 0)", "pure (o.tokens.len == 0)",
  ["C128"], "IsEmpty depends on IDs only")
m("em-10", EM, "len", "pure o.ids.len", "pure o.ids.cap",
  ["C128"], "Len is the length, not the capacity")
m("em-11", EM, "newEncoding", "⟨ids, typeIDs, tokens, words, offsets, specialTokensMask, attentionMask, overflowing⟩] },\n    m.objs.length)", "⟨ids, typeIDs, tokens, words, offsets, attentionMask, specialTokensMask, overflowing⟩] },\n    m.objs.length)",
  ["C128"], "NewEncoding keeps each slice in its field", edit="the two masks are swapped")
m("em-12", EM, "withCapacityObj", "let (ss, tokens) ← mk k 2 [] m.strs c", "let (ss, tokens) ← mk k 1 [] m.strs c",
  ["C128"], "the capacity at which it panics", edit="strings counted as one machine word")
m("em-13", EM, "newDefaultEncoding", "newEncodingWithCapacity k m 0", "newEncodingWithCapacity k m 1",
  ["C128"], "the default encoding has capacity 0")
m("em-14", EM, "fromEncodableTokens", "let objs ← goSet m.objs p o", "let objs ← goSet m.objs 0 o",
  ["C128"], "encodings made before are unchanged")

AR = "AnyRange"
m("ah-01", AR, "NS.rangeIsValidI", "| .other => .panic", "| .other => .ok (isRuneBoundary ns.normalized r.start && isRuneBoundary ns.normalized r.stop)", ["C112"], "Slice panics for a range of a third type")
m("ah-02", AR, "NS.coerceRangeToOriginalI", "if r.kind = .original then .ok (some (r.start, r.stop))", "if r.kind ≠ .normalized then .ok (some (r.start, r.stop))", ["C112"], "CoerceRangeToOriginal takes a range of a third type as one of the normalized text")
m("ah-03", AR, "NS.coerceRangeToNormalizedI", "if r.kind = .normalized then .ok (some (r.start, r.stop))", "if r.kind ≠ .original then .ok (some (r.start, r.stop))", ["C112"], "CoerceRangeToNormalized takes a range of a third type as one of the original text")
m("ah-04", AR, "NS.coerceRangeToNormalizedI", "else if r.len = 0 then .ok (some (r.start, r.stop))\n    else if r.start > r.stop then .ok none\n    else if ns.original.length", "else if r.start = r.stop then .ok (some (r.start, r.stop))\n    else if r.start > r.stop then .ok none\n    else if ns.original.length", ["C112"], "whether a range is empty is what its method Len says")
m("ah-05", AR, "NS.splitI", "else if b = 4 then ns.sliceAll (splitMatches .contiguous captures)\n    else .panic", "else ns.sliceAll (splitMatches .contiguous captures)", ["C112"], "Split panics for an unknown behaviour")
m("ah-06", AR, "NS.splitI", "else if b = 2 then ns.sliceAll (splitMatches .mergedWithPrevious captures)\n    else if b = 3 then ns.sliceAll (splitMatches .mergedWithNext captures)", "else if b = 3 then ns.sliceAll (splitMatches .mergedWithPrevious captures)\n    else if b = 2 then ns.sliceAll (splitMatches .mergedWithNext captures)", ["C112"], "the numbers of the behaviours are those of the constants")
m("ah-07", AR, "AnyRange.pointer", "  | .original s e => some ⟨.other, s, e, e - s⟩\n  | .normalized s e => some ⟨.other, s, e, e - s⟩", "  | .original s e => some ⟨.original, s, e, e - s⟩\n  | .normalized s e => some ⟨.normalized, s, e, e - s⟩", ["C112"], "a pointer to a range is of a third type")
m("ah-08", AR, "NS.transformRangeI", "| none => pure ns\n", "| none => .panic\n", ["C112"], "TransformRange of a range that cannot be converted leaves the string as it is")
m("ah-09", AR, "NS.sliceI", "if !valid then pure none", "if !valid then .panic", ["C112"], "Slice refuses a range that cuts through a character")

NT = "NilTables"
m("ah-10", NT, "Conc.Prog.through", "| some none => (k none).through source s n", "| some none => .panic", ["C113"], "reading an empty merge map finds nothing")
m("ah-11", NT, "Conc.Prog.through", "      match v.termToID with\n      | none => .panic\n", "      match v.termToID with\n      | none => k.through source { s with vocab := some { v with termToID := some (GoMap.set [] t i) } } n\n", ["C113"], "AddTerm on a vocabulary without map panics")
m("ah-12", NT, "Conc.Prog.through", "| getString i k, s, n =>\n    match s.vocab with\n    | none => .panic", "| getString i k, s, n =>\n    match s.vocab with\n    | none => (k none).through source s n", ["C113"], "GetString through a nil pointer panics")
m("ah-13", NT, "Conc.Prog.through", "| draw k, s, n => (k (source n)).through source s (n + 1)", "| draw k, s, n => (k (source n)).through source s n", ["C113"], "each draw takes a new number")

MC = "Machine"
m("ah-14", MC, "Machine.coerceLoop", "let stop' := if al.stop ≤ rStop then m.wrap (i + 1) else stop", "let stop' := if al.stop ≤ rStop then i else stop", ["C75"], "the loop with machine integers finds the same end")
m("ah-15", MC, "Machine.transformNormalized", "make (m.rngLen a b)", "make (m.rngLen b a)", ["C75"], "the slice for the runes is made with the length of the range")
m("ah-16", MC, "Machine.append", "let lastRuneIndex : Int := m.wrap ((runes.length : Int) - 1)", "let lastRuneIndex : Int := m.wrap ((runes.length : Int))", ["C75"], "the last rune has the index length minus one")
m("ah-17", MC, "Machine.trimLeftRight", "let n := m.wrap (m.wrap (lastIndex - leading) + 1)", "let n := m.wrap (lastIndex - leading)", ["C75"], "the loop covers the last kept rune")
m("ah-18", MC, "Machine.wrap", "Int.bmod x (2 * m.half)", "Int.bmod x m.half", ["C75", "C79"], "integers of the machine have twice half their number of values")
MR = "MachineRest"
m("ah-19", MR, "Machine.mergeNextLoop", "let c ← goIndex captures (i : Int)", "let c ← goIndex captures ((captures.length : Int) - 1 - i)", ["C79"], "MergedWithNext goes through the matches from the end")
m("ah-20", MR, "Machine.heapUp", "else if !(← WMHeap.lessL h j i) then .ok (some h)", "else if !(← WMHeap.lessL h i j) then .ok (some h)", ["C79"], "up swaps while the child is less than the parent")
m("ah-21", MR, "Machine.pushNext", "current.next < (w.length : Int)", "current.next ≤ (w.length : Int)", ["C79"], "a next position at the end of the word is not read")
m("ah-22", MR, "Machine.normalizedByteSplitsLoop", "let result ← goSet result i ⟨sp.ns.get, ⟨start, offset⟩, sp.tokens⟩", "let result ← goSet result i ⟨sp.ns.get, ⟨start, m.wrap (start + sp.ns.originalLen)⟩, sp.tokens⟩", ["C79"], "a split ends where the next begins")
m("ah-23", MR, "Machine.initLoop", "| some q => initLoop merges w n (m.wrap (index + 1)) q\n\n", "| some q => initLoop merges w n (m.wrap (index + 2)) q\n\n", ["C79"], "every pair of neighbours is looked up")
m("ah-24", MR, "Machine.pieceOuter", "pieceOuter wp sequence fuel t.offsets.stop (subTokens ++ [t])", "pieceOuter wp sequence fuel t.offsets.stop (t :: subTokens)", ["C79"], "tokens are in the order of the text")

MM = "Memory"
m("ah-25", MM, "Memory.Slc.append", "if n ≤ s.cap then", "if n < s.cap then", ["C77"], "append reuses the array when there is just room enough")
m("ah-26", MM, "Memory.Slc.reslice", "0 ≤ a ∧ a ≤ b ∧ b ≤ s.cap", "0 ≤ a ∧ a ≤ b ∧ b ≤ s.len", ["C77"], "slicing goes up to the capacity")
m("ah-27", MM, "Memory.mapM", "⟨f r, 0⟩) 0", "⟨f r, 1⟩) 0", ["C77"], "Map replaces each rune")
m("ah-28", MM, "Memory.sliceAllM", "| none => pure (m, .error .badSplit)", "| none => pure (m, .ok [])", ["C77"], "Split reports a piece that is refused")

RC = "Recover"
m("ah-29", RC, "Left.seq", "| (s', .panic) => (s', .panic)", "| (_, .panic) => (s, .panic)", ["C93"], "what was changed before a panic stays changed")
m("ah-30", RC, "NS.appendL", "(.normalized ((runes.length : Int) - 1) ns.len)", "(.normalized (ns.len - (encodeRune lastRune).length) ns.len)", ["C93"], "Append takes the index of the last rune for its byte position")
m("ah-31", RC, "NS.filterStepL", "pure (filterStep (fun _ => k) st r)", "pure (filterStep (fun _ => !k) st r)", ["C93"], "Filter keeps the runes for which the function is true")

WM = "WordMemory"
m("ah-32", WM, "removeLoop", "removeLoop grow fuel m w i\n", "removeLoop grow fuel m w (i + 1)\n", ["C85"], "after a removal the same index is looked at again")
m("ah-33", WM, "mergeStep", "skip := [], draws := draws", "skip := st.skip, draws := draws", ["C85"], "skipped entries are put back once")
m("ah-34", WM, "tokensLoop", "match ← tokensLoop vocab m rest (offsetStart + s.length) with", "match ← tokensLoop vocab m rest (offsetStart + 1) with", ["C85"], "tokens follow each other")

PR = "Pointers"
m("ah-35", PR, "RefPTS.split", "| .error e => pure (σ, p, some e)\n  | .ok new => pure (σ, { p with splits := new }, none)", "| .error e => pure (σ, { p with splits := [] }, some e)\n  | .ok new => pure (σ, { p with splits := new }, none)", ["C74"], "a failed Split leaves the splits as they were")
m("ah-36", PR, "RefPTS.originalByteSplitsLoop", "pure (⟨ns.get, ns.originalOffsets, r.tokens⟩ :: rest)", "pure (⟨ns.getOriginal, ns.originalOffsets, r.tokens⟩ :: rest)", ["C74"], "the byte splits show the normalized text")
m("ah-37", "SplitMemory", "derefTokens", "| none => .panic", "| none => .ok []", ["C95"], "a nil pointer to tokens is not followed")
m("ah-38", "FileIO", "FileIO.read", "else (rest.take (min size (f.sizes k + 1)), none)", "else (rest.take (min size (f.sizes k)), none)", ["C97"], "a read returns something as long as there is something")
m("ah-39", "FileIO", "Scanner.scan", "{ s with start := 0, window := [] }", "s", ["C97"], "at the end the scanner is emptied")
m("ah-40", "Json", "Json.getu4", "0x5C :: 0x75 :: s => hex4 s", "0x5C :: _ :: s => hex4 s", ["C81"], "only \\\\u starts a second half of a pair")
m("ah-41", "Json", "Json.skipSpace", "if isSpace b then skipSpace s else b :: s", "if isSpace b then s else b :: s", ["C81"], "any number of spaces may stand between tokens")
m("ah-42", "Concurrent", "Conc.findToken", "if start > 0 then o.continuingSubwordPrefix ++ t else t", "if start > 1 then o.continuingSubwordPrefix ++ t else t", ["C99"], "a piece that does not start the word has the prefix")
m("ah-43", "Concurrent", "Conc.mergeWord", "| none => pure (.error .unkOutOfVocab)\n    | some id => mergeSymbols o w id", "| none => mergeSymbols o w 0\n    | some id => mergeSymbols o w id", ["C99"], "an unknown token that is not in the vocabulary is an error")

# Visible only on text that is not valid UTF-8.
m("ai-01", NSF, "alignmentsFromString", "let bytesLen := (encodeRune r).length", "let bytesLen := if r = 0xFFFD then 1 else (encodeRune r).length", ["C133", "C126"], "on the whole text BPE and IntoEncoding succeed whatever the bytes", edit="one alignment for U+FFFD")
m("ai-02", NSF, "NS.coerceRangeToOriginal", "let als ← goSlice ns.alignments s e\n      let first", "let als ← goSlice ns.alignments s (min e ns.alignments.length)\n      let first", ["C133", "C14"], "a token past the alignments makes IntoEncoding panic", edit="the end is cut to the number of alignments")
m("ai-03", NSF, "NS.slice", "let als ← goSlice ns.alignments na nb", "let als ← goSlice ns.alignments na ns.alignments.length", ["C133", "C13"], "a slice has one alignment per byte", edit="the slice keeps all later alignments")
m("ai-04", NSF, "NS.slice", "normalized := normalized.getD []", "normalized := encodeRunes (runesOf (normalized.getD []))", ["C131", "C133"], "pieces are the bytes of the text, bad ones too", edit="bad bytes of a slice become U+FFFD")
m("ai-05", NSF, "NS.fromString", "⟨s, s, alignmentsFromString s, 0⟩", "⟨s, encodeRunes (runesOf s), alignmentsFromString s, 0⟩", ["C76", "C131"], "FromString keeps the bytes", edit="bad bytes become U+FFFD at once")
m("ai-06", NSF, "transformStep", "pure ((encodeRune replacedRune).length, st.repl.drop 1)", "pure ((if replacedRune = 0xFFFD then 1 else (encodeRune replacedRune).length), st.repl.drop 1)", ["C126", "C129"], "a bad byte counts three in the offset of TransformRange", edit="U+FFFD counts one byte")
m("ai-07", NSF, "transformStep", "pure ((encodeRunes removed).length, rest)", "pure ((encodeRunes (removed.filter (· != 0xFFFD))).length, rest)", ["C126", "C132"], "dropped bad bytes move the offset on", edit="dropped U+FFFD is not counted")
m("ai-08", NSF, "NS.append", "ns.transformRange (.normalized lastRuneIndex ns.len) changes 0", "ns.transformRange (.normalized (ns.len - (encodeRune lastRune).length) ns.len) changes 0", ["C129", "C09"], "Append takes the number of the last rune for its place", edit="the place of the last rune in bytes")
m("ai-09", "SplitPattern", "funcStep", "let lastSeen := i + (encodeRune r).length", "let lastSeen := i + (if r = 0xFFFD then 1 else (encodeRune r).length)", ["C131", "C76"], "a bad last byte makes Split fail", edit="U+FFFD counts one byte")
m("ai-10", "SplitPattern", "regexp2Bytes", "let startByte := (encodeRunes (runes.take m.1)).length", "let startByte := (encodeRunes ((runes.take m.1).filter (· != 0xFFFD))).length", ["C78"], "the places of regexp2 matches count bad bytes as three", edit="U+FFFD in front is not counted")
m("ai-11", "PreTokenizers", "byteLevelLoop", "let bytes ← goSlice s i (i + size)", "let bytes ← goSlice s (min i s.length) (min (i + size) s.length)", ["C125", "C33"], "the byte-level normalization panics on a bad byte", edit="the slice is cut to the text")
m("ai-12", "WordPiece", "findToken", "| some b => findToken m sequence start fuel (stop - byteStringLen b)", "| some b => findToken m sequence start fuel (stop - (if isCont b then 2 else 1))", ["C37"], "a last byte from 0x80 steps back two", edit="only continuation bytes step back two")
m("ai-13", "Bpe", "BPE.tokenize", "if sequence.length = 0 then", "if (runesOf sequence).all (· == 0xFFFD) then", ["C76", "C133"], "a text of bad bytes has tokens", edit="bad bytes alone give no token")
m("ai-14", "PreTokenizedString", "PTS.splitLoop", "items.filter (fun it => !it.ns.isEmpty) ++ new", "items.filter (fun it => !it.ns.isEmpty && it.ns.alignments.length == it.ns.normalized.length) ++ new", ["C24", "C131"], "no piece that has text is left out", edit="pieces out of step are left out")
m("ai-15", "PreTokenizers", "startsWithWhitespace", "| r :: _ => isWhiteSpace r", "| r :: _ => isWhiteSpace r || r == 0xFFFD", ["C33", "C125"], "a space is put before a bad byte", edit="U+FFFD counts as white space")
m("ai-16", "Normalizers", "handleChineseChars", "(runesOf ns.normalized).flatMap chineseChange", "((runesOf ns.normalized).filter (· != 0xFFFD)).flatMap chineseChange", ["C126", "C34"], "nothing is dropped", edit="U+FFFD is dropped")
m("aj-01", NSF, "NS.slice", "alignments := als.map fun al => ⟨al.start - oa, al.stop - oa⟩", "alignments := als.map fun al => ⟨al.start - oa, min (al.stop - oa) (original.getD []).length⟩", ["C134", "C131"], "bytes keep the alignments that FromString gave them", edit="ends are cut to the original of the slice")
m("aj-02", "PreTokenizedString", "PTS.tokenOffsets", "pure ⟨ns.originalOffsets.start + a, ns.originalOffsets.start + b⟩", "pure ⟨ns.originalOffsets.start + a, min (ns.originalOffsets.start + b) ns.originalOffsets.stop⟩", ["C134"], "offsets are those of the alignments", edit="the end is cut to the end of the split")
m("aj-03", NSF, "alignmentsFromString", "⟨(runeIndex : Int), ((runeIndex + bytesLen : Nat) : Int)⟩", "⟨(runeIndex : Int), ((min (runeIndex + bytesLen) s.length : Nat) : Int)⟩", ["C134", "C124"], "a bad last byte is said to end beyond the text", edit="ends are cut to the text")
m("aj-04", "SplitPattern", "capturesOfMatches", "if st.1 ≠ (s.length : Int) then st.2 ++", "if st.1 < (s.length : Int) then st.2 ++", ["C125", "C78"], "captures reach the end of the text or go back to it", edit="no last capture when the matches end beyond the text")
m("aj-05", "SplitPattern", "regexp2Bytes", "(startByte, (startByte + (encodeRunes ((runes.drop m.1).take m.2)).length : Nat))", "(startByte, (startByte + (encodeRunes (((runes.drop m.1).take m.2).filter (· != 0xFFFD))).length : Nat))", ["C78"], "a match is as long as its runes, bad bytes as U+FFFD", edit="U+FFFD in a match is not counted")
m("aj-06", "SplitPattern", "funcFindMatches", "st.splits ++ [⟨⟨st.lastOffset, st.lastSeen⟩, false⟩]", "st.splits ++ [⟨⟨st.lastOffset, s.length⟩, false⟩]", ["C124", "C76"], "a bad last byte makes Split fail", edit="the last capture ends with the text")
m("aj-07", NSF, "NS.rangeIsValid", "isRuneBoundary s r.start && isRuneBoundary s r.stop", "(isRuneBoundary s r.start && isRuneBoundary s r.stop) || (runesOf s).contains 0xFFFD", ["C124", "C131"], "Slice refuses to cut before a stray continuation byte", edit="no test of boundaries if there is a U+FFFD")
m("aj-08", "PreTokenizedString", "PTS.tokenOffsets", "| none => pure t.offsets", "| none => pure ⟨0, 0⟩", ["C133", "C28"], "a token that ends before it begins keeps its own offsets", edit="such a token gets (0, 0)")
m("ak-01", "Closures", "NS.filterC", "  match st.lastRune with\n  | some lr => onString (transformL (st.transforms ++ [⟨lr, -(st.removed : Int)⟩]) st.removedStart)", "  let st ← Left.forEach (runesOf w.1.normalized) (⟨0, 0, [], none⟩ : FilterState) fun st r => do\n    let k ← keep r\n    pure (filterStep (fun _ => k) st r)\n  match st.lastRune with\n  | some lr => onString (transformL (st.transforms ++ [⟨lr, -(st.removed : Int)⟩]) st.removedStart)", ["C143"], "the function is asked once for each rune", edit="asked twice, in two passes")
m("ak-02", "Closures", "NS.filterC", "pure (filterStep (fun _ => k) st r)\n  match", "pure (filterStep (fun _ => !k) st r)\n  match", ["C143"], "the runes with the answer yes are kept", edit="the others are kept")
m("ak-03", "Closures", "NS.mapC", "Left.forEach (runesOf w.1.normalized) ([] : List RuneChange) fun acc r => do", "Left.forEach (runesOf w.1.normalized).reverse ([] : List RuneChange) fun acc r => do", ["C143"], "the function is asked in the order of the text", edit="from the last rune to the first")
m("ak-04", "Closures", "funcFindMatchesC", "if s.length = 0 then pure emptyCaptures", "if s.length = 0 then do\n    let _ ← f 0\n    pure emptyCaptures", ["C143"], "on an empty text the function is not asked", edit="asked about rune 0")
m("ak-06", "Closures", "onString", "((((x w.1).1), w.2), (x w.1).2)", "((w.1, w.2), (x w.1).2)", ["C143"], "the string is changed", edit="the change of the string is dropped")
m("al-01", NSF, "NS.origAlignLoop", "let out := out ++ List.replicate (last.stop - last.start).toNat ⟨offset, offset + length⟩\n      let offset := offset + length\n      let out := out", "let out := out ++ List.replicate (last.stop - last.start).natAbs ⟨offset, offset + length⟩\n      let offset := offset + length\n      let out := out", ["C145"], "an alignment that ends before it begins has no bytes of the original", edit="it has as many as it goes back")
m("al-02", NSF, "NS.originalAlignments", "pure (out ++ List.replicate gap.toNat ⟨offset, offset⟩)", "pure ((out ++ List.replicate gap.toNat ⟨offset, offset⟩).take ns.original.length)", ["C145"], "after a bad last byte there are more entries than bytes", edit="cut to the length of the original")
m("al-03", NSF, "NS.originalAlignments", "let out0 := List.replicate first.start.toNat (⟨0, 0⟩ : Align)", "let out0 := List.replicate first.start.natAbs (⟨0, 0⟩ : Align)", ["C145"], "a first alignment that begins below 0 has nothing before it", edit="as many entries as it is below 0")
m("al-04", NZ, "handleChineseChars", "  ns.transform ((runesOf ns.normalized).flatMap chineseChange) 0", "  if ns.alignments.length < ns.normalized.length then .ok ns else ns.transform ((runesOf ns.normalized).flatMap chineseChange) 0", ["C144"], "with fewer alignments than bytes the Chinese step panics", edit="nothing happens")
m("al-05", NZ, "cleanText", "let ns ← ns.filter (cleanKeep u)\n  ns.map cleanMap", "let ns ← if (runesOf ns.normalized).all (cleanKeep u) then pure ns else ns.filter (cleanKeep u)\n  if (runesOf ns.normalized).any bertIsWhitespace then ns.map cleanMap else pure ns", ["C144", "C126"], "cleaning evens out the alignments of each rune also when it changes nothing", edit="nothing is done then")
m("am-01", "ClosuresPTS", "PTS.splitLoopC", "    | some _ =>\n      match splitLoopC f (index + 1) ps s with", "    | some _ =>\n      match splitLoopC f index ps s with", ["C147"], "the function is told the number of the split", edit="splits with tokens are not counted")
m("am-02", "ClosuresPTS", "PTS.tokenizeLoopC", "| ((ps', s), x) => ((⟨ns', some ts⟩ :: ps', s), x)", "| ((ps', s), .ok none) => ((⟨ns', some ts⟩ :: ps', s), .ok none)\n        | ((ps', s), x) => ((⟨ns', none⟩ :: ps', s), x)", ["C147"], "splits before the one that fails keep their new tokens", edit="they lose them")
m("am-03", "ClosuresPTS", "PTS.normalizeLoopC", "| ((ns', s), .ok (some e)) => (({ p with ns := ns' } :: ps, s), .ok (some e))", "| ((ns', s), .ok (some e)) => (({ p with ns := ns' } :: (normalizeLoopC f ps s).1.1, (normalizeLoopC f ps s).1.2), .ok (some e))", ["C147"], "nothing is called after an error", edit="the loop goes on after an error")
m("am-04", "ClosuresPTS", "PTS.splitC", "| ((old, s), .ok (.error e)) => (({ w.1 with splits := old }, s), .ok (some e))", "| ((_, s), .ok (.error e)) => ((w.1, s), .ok (some e))", ["C147"], "after an error the strings are as the calls left them", edit="they are as before")
m("am-05", "ClosuresPTS", "PTS.splitLoopC", "match f index (p.ns, s) with\n      | ((ns', s), .panic) => (({ p with ns := ns' } :: ps, s), .panic)", "match f index (p.ns, s) with\n      | ((_, s), .panic) => ((p :: ps, s), .panic)", ["C147"], "after a panic the string is as the call left it", edit="it is as before")
m("an-01", "Concurrent", "Prog.step", "| setTerm i t k => some (k, { s with vocab := { s.vocab with idToTerm := s.vocab.idToTerm.set i t } }, false)", "| setTerm i t k => some (k, { s with vocab := { s.vocab with idToTerm := s.vocab.idToTerm.set i t } }, true)", ["C99"], "a goroutine alone makes the draws its calls make", edit="adding a term uses up a random number")
m("an-02", "Concurrent", "Prog.step", "| setMerge a b v k => some (k, { s with merges := s.merges.set a b v }, false)", "| setMerge a b v k => some (k, { s with merges := s.merges.set b a v }, false)", ["C99"], "a goroutine alone leaves the maps its calls leave", edit="the pair is stored the wrong way round")
m("an-03", "Closures", "funcFindMatchesC", "    if st.lastSeen > st.lastOffset then pure (st.splits ++ [⟨⟨st.lastOffset, st.lastSeen⟩, false⟩])", "    if st.lastSeen > st.lastOffset then pure (st.splits ++ [⟨⟨st.lastOffset, s.length⟩, false⟩])", ["C149"], "a last bad byte is counted with three bytes", edit="the last capture ends with the text")
m("an-04", "Closures", "funcFindMatchesC", "      let b ← f ir.2\n", "      let b ← if ir.2 == 0xFFFD then pure false else f ir.2\n", ["C149", "C143"], "the function is asked about U+FFFD too", edit="U+FFFD is never a match")
m("an-05", "SplitPattern", "funcStep", "{ lastOffset := lastSeen, lastSeen := lastSeen,", "{ lastOffset := max st.lastOffset lastSeen, lastSeen := lastSeen,", ["C149"], "after a match the next bytes begin where its rune ends", edit="the next bytes begin where no match before reaches")
m("ao-01", "PatternC", "invertC", "fun s => do\n  match ← p s with", "fun s => do\n  let _ ← p s\n  match ← p s with", ["C151"], "an inverted pattern asks the inner one once", edit="asked twice, the first answer dropped")
m("ao-02", "PatternC", "NS.splitC", "Left.lift (w'.1.sliceAll (splitMatches b caps))", "Left.lift (w.1.sliceAll (splitMatches b caps))", ["C151"], "the string that the pattern left is cut", edit="the string as it was before the call is cut")
m("ao-03", "PatternC", "NS.splitC", "  | .error e => pure (.error e)\n  | .ok caps => do\n    let w' ← Left.get", "  | .error e => do\n    Left.set w\n    pure (.error e)\n  | .ok caps => do\n    let w' ← Left.get", ["C151"], "after an error the string and the rest are as the pattern left them", edit="they are put back")
m("ao-04", "PatternC", "NS.replaceC", "    let _ ← onString (Left.forEach caps (0 : Int) (replaceStepL content))\n", "    let w' ← Left.get\n    let _ ← onString (Left.set w.1)\n    let _ ← onString (Left.forEach caps (0 : Int) (replaceStepL content))\n    if caps.any (·.isMatch) then pure () else Left.set w'\n", ["C151"], "the matches are replaced in the string that the pattern left", edit="in the string as it was before")
m("ao-05", "PatternC", "invertC", "  | .error e => pure (.error e)\n  | .ok caps => pure (.ok (caps.map", "  | .error _ => pure (.ok [])\n  | .ok caps => pure (.ok (caps.map", ["C151"], "an error of the inner pattern is returned", edit="an error is taken for no captures")
m("ao-06", "Unicode", "rx", "|| r == 0x200C || r == 0x200D", "|| r == 0x200C && r == 0x200D", ["C94"], "the joiners are word characters", edit="or for and: they are not")
m("ao-07", "Unicode", "rx", "inTable tableNd r || inTable tablePc r", "inTable tableN r || inTable tablePc r", ["C94"], "of the numbers only decimal digits are word characters", edit="all of category N are")
m("ap-01", "PreTokenizers", "metaSpaceSplitFunc", "    if prefixSpaceEnabled ∧ !strReplacement.isPrefixOf ns.get then ns.prepend strReplacement", "    if prefixSpaceEnabled ∧ !strReplacement.isPrefixOf ns.get ∧ ns.alignments.length ≥ ns.normalized.length then ns.prepend strReplacement", ["C153"], "the mark is put in front also with fewer alignments than bytes", edit="only with enough alignments")
m("ap-02", NSF, "NS.replaceStep", "    let removedRunes := (runesOf seg).length\n", "    let removedRunes := if ns.alignments.length < ns.normalized.length then 0 else (runesOf seg).length\n", ["C152", "C141"], "a rune with alignments is replaced also where later bytes have none", edit="the removed runes are not counted then")
m("ap-03", "PreTokenizers", "metaSpaceSplitFunc", "match ← ns.replace (fromRune 32) strReplacement with", "match ← (if ns.alignments.length < ns.normalized.length then pure (.ok ns) else ns.replace (fromRune 32) strReplacement) with", ["C153"], "a space without alignment makes the call panic", edit="no replacement with fewer alignments than bytes")
m("ap-04", "PreTokenizers", "metaSpaceSplitFunc", "match ← ns.split (fromRune replacement) .mergedWithNext with\n    | .error e => pure (ns, .error e)", "match ← ns.split (fromRune replacement) .mergedWithNext with\n    | .error _ => pure (ns, .ok [])", ["C153"], "a text that cannot be cut at runes gives an error", edit="it gives no splits")
m("aq-01", NSF, "NS.append", "(.normalized lastRuneIndex ns.len)", "(.normalized ((ns.normalized.length : Int) - (encodeRune lastRune).length) ns.len)", ["C155", "C129"], "Append takes a number of runes for a position in bytes", edit="the position of the last rune in bytes")
m("aq-02", NSF, "NS.replaceStep", "let changes : List RuneChange := (runesOf content).map fun r => ⟨r, 1⟩", "let changes : List RuneChange := (runesOf content).map fun r => ⟨r, if r == 0xFFFD then 0 else 1⟩", ["C152", "C154"], "content with U+FFFD is put in like any other", edit="U+FFFD takes the place of a rune of the text")
m("aq-03", "SplitPattern", "fromRune", "fromFunc (fun other => other == r)", "fromFunc (fun other => other == r || other == 0xFFFD)", ["C152", "C154"], "bytes that are not UTF-8 are left alone", edit="U+FFFD matches always")
m("ar-01", NSF, "NS.append", "    let lastRuneIndex : Int := (runes.length : Int) - 1\n", "    let lastRuneIndex : Int := if runes.length < 3 then (runes.length : Int) - 1 else (runes.length : Int) - 2\n", ["C156", "C155", "C129"], "what is appended stands behind the last rune", edit="one rune too early in texts of three runes or more")
m("ar-02", NSF, "NS.prepend", "ns.transformRange (.normalized 0 firstRuneBytesLen)", "ns.transformRange (.normalized 0 1)", ["C150"], "the bytes replaced are as many as the first rune takes", edit="always one byte")
m("ar-03", NSF, "NS.prepend", "(prependChanges s ++ [⟨firstRune, 1⟩]) 0", "(prependChanges s ++ [⟨firstRune, if s.length = 1 then 0 else 1⟩]) 0", ["C156", "C150"], "the first rune is kept as one that was added", edit="not behind a text of one byte")
m("as-01", NSF, "NS.replaceStep", "let changes : List RuneChange := (runesOf content).map fun r => ⟨r, 1⟩", "let changes : List RuneChange := (runesOf content).map fun r => ⟨r, if (runesOf content).length = 1 then 0 else 1⟩", ["C157", "C152"], "the content is aligned like the first byte of the rune that it replaces", edit="content of one rune takes the place of a rune of the text")
m("as-02", "SplitPattern", "fromRune", "fromFunc (fun other => other == r)", "fromFunc (fun other => other ≥ r)", ["C157", "C31"], "only that rune is replaced", edit="and all above it")
m("at-01", NSF, "NS.trimLeftRight", "if right ∧ leading < runes.length then countTrailingSpaces runes else 0", "if right ∧ leading < runes.length then min 2 (countTrailingSpaces runes) else 0", ["C158", "C140", "C07"], "no white space is left behind", edit="two runes at most")
m("at-02", NSF, "NS.trimLeftRight", "if right ∧ leading < runes.length then countTrailingSpaces runes else 0", "if right ∧ leading = 0 then countTrailingSpaces runes else 0", ["C158", "C140", "C07"], "no white space is left behind", edit="only if there was none in front")
