# Design of the formal model of nlpodyssey/gotokenizers

Everything lives in `/verif/lean` (Lean 4.33, Lake project `verif`).

* `Verif/Model/*`  – the model: one Lean definition per Go function, each citing file and lines.
* `Verif/Spec/*`   – small specifications, independent of the model's helpers.
* `Verif/Lemmas/*` – helper lemmas.
* `Verif/Props/*`  – the property theorems (`C01_…`, `C02_…`), each with a non-vacuity example.
* `Verif/Tests/*`  – the repository's own unit tests transcribed as kernel-checked examples (tests, not proofs).

## How Go is represented

| Go | model |
|---|---|
| `string`, `[]byte` | `Str = List UInt8` (arbitrary bytes, also invalid UTF-8) |
| `rune` (int32) | `Int` |
| `int` | `Int` (no wrap-around) or `Nat` where the code can only produce non-negative values |
| `for i, r := range s`, `[]rune(s)`, `string(r)` | explicit UTF-8 decoder/encoder, `Verif/Model/Utf8.lean` (invalid byte → U+FFFD, width 1; invalid rune → EF BF BD) |
| slice/string indexing and slicing | bounds-checked, out of range is `GoM.panic` |
| run-time panic | `GoM.panic` |
| `error` results | values (`Except Err α`) |
| in-place mutation through a pointer | returns the new value |
| maps | association lists with unique keys |
| regexp engines (`regexp`, `regexp2`) | parameters; assumed properties are explicit hypotheses |
| `unicode` tables | `White_Space` concretely; `Other`, `Mn`, `Punct`, `ToLower`, `ToUpper` are parameters; `Model/Unicode.lean` fills them in with the tables of Unicode 14 (C94) |
| `math/rand` | an arbitrary oracle `Nat → Bool` (n-th draw is below the dropout) |

## Plan per property

`V` = refinement of the byte-level code by a rune-level list of `(rune, alignment)` characters (predicate `Repr`).

| id | model part | proof |
|---|---|---|
| C01 | `fromString`, `getRange`, `getOriginalRange`, UTF-8 | V for `fromString`; characterisation of both conversions |
| C02 | all `NS` operations as an operation type, runs of histories | invariant by induction over histories |
| C03 | same | invariant (root slice) by induction |
| C04 | `transformRange` | V: loop invariant relating byte offset to consumed characters |
| C05, C08 | `map`, `prepend` | from C04 |
| C06, C07, C09 | `filter`, `trimLeftRight`, `append` | false in general (code mixes rune counts and byte offsets): counterexamples + `_partial` theorems from C04 |
| C10 | `replace` | induction over the capture tiling |
| C11, C12 | `split` and its five loops | list induction over captures |
| C13, C52 | `slice` | unfolding + invariant |
| C14 | conversions | false (panics): counterexamples; partial: exact no-panic domains |
| C15, C16 | `coerceRangeTo*` | loop invariant over monotone alignments |
| C17 | `originalAlignments` | loop invariant; counting specification |
| C18 | `isRuneBoundary` | byte classes of the encoder |
| C19 | converter | false: counterexample; partial for ASCII |
| C20–C23 | split patterns | list induction; string pattern with empty string false for multi-byte text |
| C24, C25, C27, C28 | `PreTokenizedString` | list induction |
| C26, C29–C33 | pre-tokenizers | composition of the above |
| C34 | `bertNormalize` | false on leading multi-byte control characters: counterexample; partial |
| C35 | `sequenceNormalize` | list induction |
| C36, C37 | `wordPiece` | C36 loop invariant; C37 false with 3-byte runes: counterexample + partial |
| C38–C42 | `mergeAll` with fuel | linked-list invariant, termination measure, queue completeness |
| C43 | `container/heap` up/down | heap invariant |
| C44–C48 | `bpe` | built on C38–C41; C47 false: counterexample |
| C49–C51 | vocabulary, merge file | map invariants |
| C53, C54 | whole runes, text of `filter`/`trimLeftRight` | C02's induction with V; case analysis on the wrong offset |
| C55, C58, C59 | small normalizers, `tokenize`, `normalize` | composition, list induction |
| C56, C57 | `bpe` on characters | from C40, C44 |
| C60, C61 | the two default regular expressions run by `Model/Regexp.lean` | what the matcher does on each expression (first match, then the scan), independent specifications `GptPieces`, `KindRuns` shown to have one solution |
| C62 | dropout | counting invariant on skipped queue entries |
| C63 | encodings of split states | `SplitTree`: each split is a slice of the root; offsets composed |
| C64 | four pre-tokenizers × two models on fresh input | `CutsWords` for each pre-tokenizer, `RuneTiles` for each model, `OffsetsCover` for the encoding |
| C65 | GPT-2 pipeline | byte rows: groups of bytes with the character each came from |
| C66, C67 | pre-tokenizers and models on any well-formed state | pieces of states (`pieceOf`), a cut of the characters determines the splits; groups of characters per token |
| C74 | `pretokenizedstring` and the pre-tokenizers with pointers | a call on pointers does what the call on values does, as long as no two splits share a string |
| C75 | `normalizedstring` with wrapping integers | both versions equal, step by step, while the offsets stay in bounds |
| C77 | programs holding many strings, any sharing and capacities | memory of arrays that only grows (`<+:`); simulation of each call by the list model |
| C78 | any byte string, any state, any engine | matches sit at positions of the re-encoded text, which is longer; a match at the end of the text cannot be sliced |
| C79 | any width of `int`, texts below an eighth of the largest | the other packages compute the same with wrapping integers; the loops of `MergeAll`, its queue and WordPiece are written out with indices and checked accesses |
| C80 | any vocabulary, merges, word, draws | counts of lookups (`Spec/Work.lean`) and of loop iterations (fuel): potential argument of C38 sharpened, a quadratic bound with dropout, logarithmic rounds in the queue |
| C81 | any bytes as a vocabulary file | the grammar of RFC 8259 as inductive relations (`Spec/Json.lean`); the parser is sound and complete for it, which makes the grammar unambiguous; a writer for the round trip |
| C82 | any vocabulary and rules written to the two files, any text | BPE on texts (`Spec/Reference.lean`): first rule that applies, leftmost occurrence, again; and the reference implementation's variant that merges all occurrences at once. Each step of the queue algorithm (C42) is such a round; the variants agree when rules come after what they use |
| C83 | the same with the byte characters, the byte-level pre-tokenizer and IntoEncoding | C65 and C82 put together |
| C84 | any vocabulary written to a file, the BERT normalizer, pre-tokenizer and WordPiece | the reference tokenizers as functions (`Spec/BertReference.lean`), computed from the relations of C37 and C68 by their uniqueness |
| C85 | programs over many words in memory | word.go and `mergeWord` once more with pointers (`Model/WordMemory.lean`); each call keeps the words apart and does to their symbols what the call on lists does |
| C86 | files as in C83, any texts | C83 and the spelling of merges: the terms of the ids spell the bytes of the text |
| C87 | pairs of texts that meet where no word goes on | each pipeline is a function of the words and their characters; words, groups and rows of the two texts put after each other meet the specification of the whole, which has one solution (`Props/Join.lean`, `Props/JoinChars.lean`, `Props/JoinMeta.lean`) |
| C88 | words of known characters | C37_exact; false with a later 3-byte rune: counterexample + partial + exact for vocabularies of single characters |
| C89 | `Model/Defaults.lean`: the constructors with default settings | instances of C32 (cuts are unique), C34, C44 and C36 |
| C90 | `Model/MachinePipeline.lean`: normalizers, pre-tokenizers and the functions given to `Tokenize` on top of C75/C79's machine model | sizes are carried through every step (`Small root n`), so each step is one of the equalities of C75/C79; then C83 and C84 with every function on the machine |
| C91 | `Model/LiteralEngine.lean`: the engine of `regexp` on a literal, rune by rune | induction on the reading of the text (`Reads`): runes of the pattern stand at a position iff its bytes do, and inside an encoding no pattern starts |
| C92 | `Model/PatternMemory.lean`: captures in arrays, patterns return slices | the loop of `InvertedPattern` negates exactly its slice (`flip_loop`); `Makes p q`: `p` computes `q` in new arrays; histories keep all results |
| C93 | `Model/Recover.lean`: methods over a state that outlives a panic | every method equals the one by values, with the old state on a panic (`settle`); induction over the splits for what a failing function leaves; histories by the invariants of C02 and C26 |
| C94 | `Model/UnicodeTables.lean` (generated), `Model/Unicode.lean`: categories as ranges, lower case as ranges with a step | kernel checks of ranges against ranges (disjoint; domain and image on the same side; no image changed again), lifted to all runes; pieces of the lower-cased text by `TokenizedBy.unique` and `GptPieces.unique` |
| C95 | `Model/SplitMemory.lean`: arrays of splits, slices, pointers to tokens, callbacks over all of memory; `Spec/SplitMemory.lean`: programs in memory and on values | the loops against those of C74 (`Lemmas/SplitMemory.lean`); `Sim`: objects have arrays of their own, pointers lead somewhere and occur once, kept slices are the slice of an object or an array no object has |
| C96 | `Model/Dropout.lean`: the value and the draws as floating-point numbers, compared by `<` | invariant of the merge loop: nothing merged yet, and queue and skipped entries together are the adjacent pairs of the table; counting lists of draws by recursion |
| C97 | `Model/FileIO.lean`: `os.File` with short reads and errors, `ioutil.ReadFile`, `bufio.Scanner` with its buffer | `Scan` by induction on its turns: the bytes of the buffer and those not read are what no line was made of (`Scanner.left`), so the lines are those of C51 |
| C98 | the reader `spellWords`, words as in Spec/BertReference.lean | a word is one rune or has no punctuation, so its first piece never begins with the mark (`encodeRunes_prefix`); the others carry it |
| C99 | `Model/Concurrent.lean`: calls as programs of single accesses to the shared maps and draws, goroutines, schedules, races | the programs alone are the methods (`alone_bpe`, `quiet_wordPiece`); they only read (`Reads`), so that each goroutine is where it would be alone with its own draws (`follows_run`) |
| C100, C101 | `Renames f g S P`: ids renamed by `f` on the set `S`, ranks by `g`; `Key`: what is looked up for a sequence; `Arises`: the ids that merging can make | simulation of heap, `MergeAll` and `Tokenize` under the renaming; C101 is the identity with `S = Arises` |
| C102 | both orders of two calls give the same state | both states have the same `Repr` (characters with alignments); `slice_chars`/`split_chars` for the parts |
| C103 | `StableCase`: lower-casing changes no class and is done after one pass; `joinWords`; words and ids of C84, C98 | what one rune becomes (four cases), then induction over the text with the word read so far |
| C104 | `cutFront`: cut in front of every replacement; `bpe` of C82; `termFor` of C86 | uniqueness of the cut, then C72, C82 and the words one by one |
| C105 | `Coarser`: gluing neighbours; `bpe` of C82 with more rules | as long as an early rule applies, it is chosen |
| C106 | runs of tokens, `Token.moved`; `bpe` of C82 | a run of BPE that never merges over a boundary is a run on each side |
| C107 | the tokens of C36 in two parts | `Walk`: the ends that a search looks at; every search that ends at or before a token passes its end |
| C108 | a list of characters with their places | lower-casing commutes with every step of `bertSpec` and with `trimSpec`; the state is determined by the characters |
| C109 | any list of splits, each with its place in the input | relation between splits in order; every step replaces a split by splits that may stand in its place |
| C110 | any pair of ranges | inclusion of pairs of integers; an equivalence between two inclusions |
| C111 | any text that has a term as a token | one call of Tokenize on the term itself |
| C112 | any value of an interface, any number | `IRange`: a type and what the methods give; equality with calls on the two known types |
| C113 | any tables in place of nil | `through`: the accesses of a call go through pointers that may be nil |
| C114 | any reachable string, any range | counts of entries, in both directions; entries looked up at the ends of a range |
| C115 | any larger vocabulary | the first difference between two lists of tokens; `MoreTerms` compares the answers of GetID |
| C116 | any choice of lines of a merges file | equality of the tokens; `usedRules` lists what the reference algorithm applies |
| C117 | any text, any splits | numbers of tokens and rows against numbers of characters and bytes |
| C118 | any splits | normalizing rune by rune and pre-tokenizing in either order |
| C119 | any splits | normalizers that change only the delimiters do not change the words |
| C120 | any splits | white space around Chinese characters is the same as isolating them |
| C121 | any splits | text and alignments are all that pre-tokenizers, models and encodings see |
| C122 | any splits | deletions before and after pre-tokenizing give the same encodings |
| C123 | texts whose deleted runes stand inside pieces | the BERT normalizer before the pre-tokenizer, or piece by piece after it |
| C124 | any byte string | error, panic or success of the splitting pre-tokenizers, exactly |
| C125 | regexp cuts and the byte level on any bytes | no loss; success means valid UTF-8 |
| C126 | normalizers on any byte string | texts, and when Filter panics, exactly |
| C127 | pieces joined, Replace, meta space, on any bytes | whenever the call returns |
| C128 | encodings in memory: panics, allocation, sharing | exact |
| C129 | Prepend and Append on any bytes | exact |
| C130 | Replace of a rune on any bytes: returns, exact text and alignments | exact |
| C131 | Any bytes cut with all five behaviours; meta-space on any bytes | exact |
| C132 | The BERT tokenizer with text cleaning on any bytes | full |
| C133 | `IntoEncoding` on any bytes | full |
| C134 | Offsets of encodings on any bytes | full |
| C135 | Splits and rows follow the input on any bytes | full |
| C136 | Any calls on any bytes | full |
| C137 | The functions on ranges in any state, exactly | full |
| C138 | TransformRange in any state, exactly | full |
| C139 | Slice and Split in any state, exactly | full |
| C140 | Map, Filter and Trim in any state, exactly | full |
| C141 | Replace in any state, exactly | full |
| C142 | Map after Map or Filter, in any state | full |
| C143 | Functions with a memory of their own | full |
| C144 | The BERT normalizer in any state | full |
| C145 | OriginalAlignments in any state, exactly | full |
| C146 | The byte-level transformation in any state | full |
| C147 | Functions with a memory, given to Split, Normalize and Tokenize | full |
| C148 | One BPE model for all splits | full |
| C149 | FromFunc on any bytes, with any function | full |
| C150 | Prepend and Append in any state | full |
| C151 | Split patterns with a memory of their own | full |
| C152 | Replace where bytes have no alignments | full |
| C153 | The meta-space pre-tokenizer in any state | full |
| C154 | What is read after Replace, on any bytes | full |
| C155 | When to append twice is to append once | full |
| C156 | When Prepend and Append may change places | full |
| C157 | When two calls of Replace may change places | full |
| C158 | Trimming again changes nothing, in any state | full |
| C76 | any byte string, any state | reading left to right (`Reads`); captures, slices and changes follow it; wrong offsets shown by an example |
| C68 | BERT pipeline from raw input | `bertSpec` is an in-place expansion of characters (`InPlace`), so each group has a source run in the input (`group_source`) |

## Where the code does not do what the property says

Each of these is proved, as a `…_counterexample` or a similarly named theorem, about the model; the
line in brackets names the theorem.  Nothing was changed in the model to make a property true.
The `C.._exact` theorems (`Props/Exact.lean`, `Props/WordPieceExact.lean`) say exactly when each of these properties holds,
or what the code does instead.

* `NormalizedString.FromString` of text that is not valid UTF-8 makes three alignments for one bad byte, after which conversions panic [`C01_invalid_utf8`].
* `TransformRange` takes `initialOffset` in bytes of the text, but `Filter` and `TrimLeftRight` pass rune counts. Dropping a leading multi-byte rune shifts alignments or panics: `Filter` of "éab" without é, `BertNormalizer` on text with a byte order mark, trimming U+3000 or U+00A0 [`C06_…`, `C07_…`, `C34_counterexample`]. When it does not panic the text is right [`C54_…`, `C34_text`]. `C06_actual`, `C07_actual` and `C34_actual` give the outcome on every valid state: the position at which alignments are read starts behind by one byte for every extra byte dropped in front, and advances by the runes decoded from there, starting with a U+FFFD for each byte left of a cut character [`seenRunes_spec`].
* `Prepend("")` sets the alignment of the first rune to (0,0) [`C08_counterexample_empty`].
* `Append` uses a rune index as a byte index: text can be lost or become invalid UTF-8 [`C09_…`, `C53_append_corrupts`; the result in every case: `C09_actual`].
* `CoerceRangeToOriginal` panics for a normalized range past the end, `GetRange`/`GetOriginalRange`/`Slice` for empty ranges past the end of the other string [`C14_counterexample`]; `Split` with an empty capture past the end of the original panics [`C11_counterexample`]. `C13_outcomes` and `C11_outcomes` give the outcome of `Slice` and `Split` on every state for every range and tiling.
* After a bad byte the alignments name places beyond the original: `GetRange` and `Slice` panic on ranges that end there [`C137_panics`, `C139_example`], and offsets of an encoding can end two bytes behind the input [`C134_counterexample`, `C136_counterexample`].
* A pattern from `FromFunc` or `FromRune` that matches U+FFFD matches bytes that are not UTF-8 with three bytes instead of one, so captures overlap or leave the text, and cutting or replacing loses the two bytes after each [`C149_tiles`, `C149_example`, `C149_lost`].
* `Replace` moves later matches by the length of its content, but writes U+FFFD for every bad byte of it; with content that is not UTF-8 the second match hits bytes of the first replacement [`C141_example`].
* `Replace` by nothing may leave the rune in the text: the bad bytes on both sides of a removed rune are read together [`C154_counterexample`].
* The branch of both conversions that expands (0,0) on an empty text is never reached, because the test for empty ranges precedes it [`C69_exact`].
* A pointer to a range compiles as a `Range` but is taken for a range of the other text [`C112_pointer`]; with it the branch of C69 can be reached by a `Range` with a length of its own [`C112_length`].
* `OriginalAlignments` panics without alignments [`C17_empty_panics`], and on every text with a byte that is not UTF-8 before its last byte [`C145_fromString`].
* `BytesToRuneOffsetConverter` maps to byte indices [`C19_counterexample`, exact behaviour in `C19_actual`].
* `StringSplitPattern` with the empty pattern uses the rune count as the end of the text [`C22_counterexample`].
* `ByteLevelPreTokenizer` panics on invalid UTF-8 [`C33_counterexample_invalid`]; `offsetsTrimmingEnabled` is never used.
* WordPiece steps back by the width of the last byte taken as a rune and so skips the boundary before a three-byte rune [`C37_counterexample`; which boundaries it tries: `C37_tried`, on any bytes `C37_bytes`; a word of known characters can be unknown: `C88_counterexample`]. With a negative maximum length the empty word is one unknown token.
* `MergeAll` compares only the id of a stale queue entry, so with ids that do not identify their text the order is not the canonical one [`C40_counterexample`]; a second `MergeAll` on a merged word can panic [`C38_second_merge_panics`].
* BPE adds the continuing prefix to the first character instead of the others [`C47_wrong`]; without an unknown token unknown characters are dropped and later offsets shift [`C44_dropped`]; a byte of invalid UTF-8 counts as three [`C44_invalid`]. The cache stores nothing.
* With a BPE model that has an unknown token, `IntoEncoding` panics on text that is not valid UTF-8 once a pre-tokenizer has cut it [`C133_example`; exactly when: `C133_bpe_cut`; WordPiece never does: `C133_wordPiece`].
* A vocabulary read from JSON with gaps can give an id twice [`C50_counterexample`], `null` makes `AddTerm` panic [`C50_null_panics`], equal ids make `GetString` depend on the iteration order [`C50_duplicate_ids`].
* `MergeMapFromFile` panics when the right term is shorter than the prefix [`C51_counterexample`].
* The meta-space and byte-level pre-tokenizers change the `NormalizedString` that the caller passed to `FromNormalizedString` and may still hold [`C74_metaSpace_changes_argument`, `C74_shared`].
* Not against a property, but worth knowing: when a rule stands before the rule that makes one of its parts, merging one pair at a time and the reference implementation of GPT-2 differ [`C82_order_counterexample`]; the Chinese table has 0x2B920 where the block starts at 0x2B820; `stripAccents` does no decomposition, so composed letters keep their accent; the meta-space pre-tokenizer replaces only U+0020; a `TransformRange` that starts or ends inside a rune can break the order of alignments [`C02_range_counterexample`], so histories in C02 use it directly only when the runes it consumes stay inside the range (`StaysInside`).

## What the model leaves out

All 34 Go source files are modelled.  The following behaviour is not:

* machine integers do not wrap (C75 for `normalizedstring`, C79 for the other packages and C90 for whole tokenizers show that this makes no difference); memory and stack are unbounded; `nil` and empty slices are the same except for vocabulary maps;
* aliasing and capacities of slices: a Go slice sharing memory with another is a value here, and `s[a:b]` is bounded by the length, not the capacity.  For alignments C77 shows that this makes no difference, except for `CoerceRangeToOriginal` past the end of a string whose slice has spare capacity; pointers to strings are covered by C74, words of BPE (slices of pointers) by C85, captures, which `InvertedPattern` flips in place, by C92, splits and their tokens by C95;
* `strings.Builder.WriteRune` of a negative rune wrote one byte before Go 1.17; the model encodes U+FFFD as later versions do. Only a function given to `Map` or changes given to `Transform` can bring one in [`C75_negative_rune`];
* the `regexp` engine on invalid UTF-8 text other than for literals (C91); regexp2, which sees U+FFFD for each bad byte, is covered by C78; time-outs of regexp2;
* `encoding/json`, which C81 needs, is modelled by recursive descent over the input (the library runs a state machine and then decodes); of an error only the kind, syntax or type, is kept;
* outside C113 `nil` pointers for a vocabulary or merge map, and anywhere for a regular expression or pattern (a nil function is one that panics, C143); outside C112 a `Range` that is neither of the two of the package and an unknown `SplitDelimiterBehavior`; a `Word` built by hand with one symbol at two positions, except for `C85_counterexample`;
* `[]rune(s)` may have spare capacity, so that `runes[:n]` in `TransformRange` does not panic where the model does, but the `runes[n:]` after it then panics;
* `Encoding.Overflowing` (always empty in this code);
* goroutines, outside C99; the lock inside `math/rand` makes one draw one access there;
* outside C93 (recovered panics, functions that change strings) and C95 (functions that use other objects), a panic ends the program, and the callback given to `PreTokenizedString.Tokenize` only reads the split's string; the model's own error is a value.

Regular expressions: the engines are parameters (`findAll`), so C21, C60_engine and C61_engine hold for every engine.
For the two expressions in the code `Model/Regexp.lean` has a backtracking matcher for the constructs they use: classes, literals,
alternation, greedy plus and optional, negative look-ahead, and the scan for successive matches.  regexp2's `IgnoreCase` is
modelled as lower-casing the text rune before testing; `Multiline` has no effect without anchors.  The classes `\p{L}`, `\p{N}`, `\s`, `\w`
are parameters; `SaneTables` (L, N and white space disjoint, `\s` is `unicode.IsSpace`) is an explicit hypothesis of C60 and C65, and proved for the tables of Unicode 14 in C94.

Loops: the model writes most loops as recursion on lists.  `Model/Literal.lean` has those whose Go form is furthest from that (the heap, the
loops of `MergeAll`, removal of merged symbols, in-place reversal, counting and trimming of white space) once more with indices, bounds-checked
reads and writes and the order of the Go statements; `Props/Literal.lean` proves both forms equal for all inputs.

Uniqueness: `LocalWords keep cut` (`Props/Unique.lean`) describes words by which runes stay and which neighbours are separated; it determines the words. `Props/Steps.lean` uses it for sequences of pre-tokenizers (`preSequence`, the caller's calls one after the other).

Laws: `Props/Laws.lean` (C71) compares states, not texts: two states with the same characters, original and shift are equal (`Repr.ext`).

Meta-space: `Spec/Meta.lean` says what the pre-tokenizer does to characters (`metaChars`), where a token comes from (`MetaSource`) and how the input is read back (`fromMeta`); `Props/MetaPipeline.lean` proves C72 with `C10_chars`, which gives `Replace` by a rune predicate character by character.
Token values: `Spec/Cells.lean` pairs each character, or run of unknown characters, with what it shows; `Props/BpeValues.lean` proves C73 on top of the merge steps of C39.
Pointers: `Model/Pointers.lean` has `pretokenizedstring` and the pre-tokenizers once more with pointers into a store of strings; `Spec/Pointers.lean` says when a call on pointers does what a call on values does (`Faithful`), `Props/Pointers.lean` proves it (C74), so that the model by values loses nothing.

Memory: `Model/Memory.lean` has `make`, `append`, indexing and re-slicing on arrays; `Spec/Memory.lean` has programs over many strings, on the memory (`World`) and on lists (`Lists`); `Props/Memory.lean` proves that they agree (C77).

Words in memory: `Model/WordMemory.lean` has symbols and arrays of pointers; `Lemmas/WordMemory.lean` relates a word in memory to its list (`Holds`) and says what a call may touch (`Effect`); `Props/WordMemory.lean` proves C85 on programs (`Spec/WordMemory.lean`).

Constants: `Props/Tables.lean` compares the codec with the one of Lean's `String` and the tables of the code with lists written out again.

Dropout: `rand.Float64() < dropout` is one draw from an arbitrary sequence, so C38–C42 and C62 hold for every outcome.  C96 gives the value and the draws as numbers.

## Testing the theorems against wrong programs

Of the 580 wrong programs listed, 435 have a line in `seeded/LOG.jsonl`; the other 145 were listed but not tried to the end, among them all those
written for C152 to C158 (`ap` to `at`), so those theorems rest on their proofs and examples alone.

`tools/mutants.py` lists wrong programs (edits of the model), `tools/seed.py` tries them in a scratch copy: a theorem whose
proof fails is admitted there and the build goes on, so that each theorem failing by itself is found (`failed` in the log); `#print axioms`
then tells which claims rest on one of them.  A failed proof shows that the proof used the edited behaviour, not that the
statement is false of the edited program; `example`s that fail do show a difference in behaviour.  An edit after which all claims still
prove is marked as survived and leads to a tightened theorem or to a note why the edit changes nothing that is claimed.
`tools/automut.py` has rules for some 2300 further edits (moved boundaries, off-by-one numbers, negated tests, swapped fields) at every
place of the model; they are tried in random order, so far 994 of them.  `seeded/AUTO.jsonl` records for each the first theorem that
fails; `example`s are removed there, so that only theorems count.  After tightening, five of the first 928 were still not noticed.  One
(`isRuneBoundary`, `index < 1` for `index < 0`) changes nothing, since index 0 is handled before.  The others (`startsWithWhitespace`,
`lit` and `decodeRune` of nothing, `goSet` at the length) change a helper where no caller sees it; `Props/Tables.lean` now states what
each helper does there (`startsWithWhitespace_iff`, `lit_matches_all`, `decodeRune_empty`, `goSet_spec`).
Of the later ones two were not noticed when tried: a vocabulary write that draws a random number (`C99_single` added), and the joiners missing
from `\w` (`C94_word` added).
The first log (before commit fbf80a6) was discarded because of an error in the tool's list of lost theorems.

## Trusted base

Lean's kernel and the three standard axioms (`propext`, `Classical.choice`, `Quot.sound`); the reading of the Go code that the model's comments cite; the behaviour of the Go runtime and standard library as listed in the table above.

Of the theorems named in `MANIFEST.json` (`#print axioms`, checked with commit of C129) 469 use all three axioms, 112 `propext` and `Quot.sound`, 61 `propext` only, 11 none.  `decide +kernel` is evaluated by the kernel; neither `native_decide` nor `bv_decide` is used.
