# Design of the tokenizers.cpp model

## 1. What is modelled, and how

The model is a set of total, computable Lean 4 functions over lists.

* `std::string` = list of byte values (`Str`), `std::wstring` = list of code values
  (`WStr`), `icu::UnicodeString` = list of UTF-16 units (`U16`).  All are `List Nat`
  with explicit well-formedness predicates where a theorem needs them.
* C++ failures are *outcomes*: `Res α = Except Err α` with
  `Err = throws (which exception) | ub (which kind) | diverges`.  Every `operator[]`,
  iterator range, dereference of a possibly null pointer or `end()` iterator is an
  explicit bounds/null check that yields `ub` on failure.
* Loops are structural recursions, or recursion on fuel where the loop may not
  terminate; running out of fuel is the outcome `diverges`, and separate theorems show
  when that happens for *every* fuel and when it never does.
* `std::unordered_map` = association list in (arbitrary) iteration order; theorems
  quantify over the list, hence over iteration orders.
* `std::priority_queue` = an abstract structure `PQ` with the laws of a max-heap;
  theorems quantify over all of them, hence over all tie-breaking behaviours.
* ICU / libc services (regex engine, Unicode normal forms, character classes,
  `towlower`, random draws, signedness of `char`) are fields of a structure
  `Platform`; theorems quantify over it.  Where a theorem needs a fact about such a
  service the fact is an explicit hypothesis (e.g. "matches are ordered and in range").

Modules (all under `lean/Verif`):

| module | models |
|---|---|
| `Base`, `Unicode` | outcomes, strings, UTF-8/UTF-16 conversions (`src/common.cpp`, ICU `UnicodeString`) |
| `Common` | `Token`, `Split`, `Encoding`, `bytes_char` |
| `Normalizer` | `NormalizedString`, `transform`, `transform_range`, all normalizers |
| `PreTokenizer` | `find_matches`, `split`, all pre-tokenizers |
| `WordPiece`, `BPE` | `src/model.cpp` |
| `AddedVocabulary` | `src/added_vocabulary.cpp` |
| `Utils` | truncation and padding (`src/utils.cpp`) |
| `PostProcessor`, `Decoder`, `Tokenizer`, `Config`, `Jni` | the remaining sources |
| `Java` | the life of native tokenizers behind the Android binding, and the sample app (`MainActivity.kt`) |
| `Concurrent` | concurrent `encode`/`decode` calls on one tokenizer |
| `Access` | the same with `add_tokens` beside them: every access to a member that some call changes |
| `Cli` | the example programs |
| `Spec/*` | small specifications the theorems refer to |
| `Proofs/*` | lemmas about the model |
| `Props/*` | the property theorems, one file per area, with satisfiability examples |
| `Sample`, `Examples` | concrete tokenizers; the unit tests of `/repo/tests` replayed on the model |

Some specifications describe whole stages rather than single facts: `Spec/Normalized` (what each normalizer makes of a
text), `Spec/Recognized` and `Spec/AnyText` (where added tokens are recognized), `Spec/Numbering` (the ids of added
tokens), `Spec/Reference` (a BERT tokenizer), `Spec/Pipeline` (`encode` for every configuration), `Spec/Rows` (every
column of the result), `Spec/Places` (every position) and `Spec/Decoding` (`decode` for every configuration).

## 2. Plan per property

| id | model part | proof method | expected |
|---|---|---|---|
| C01, C02 | Unicode | per-code-point arithmetic, induction over strings | proved |
| C03 | Common | finite table of 256 bytes, `decide +kernel`, lifted | proved |
| C04 | PreTokenizer | induction over splits; characterisation of the throw for signed `char` | partial (code throws on non-ASCII when `char` is signed) |
| C05 | Decoder | decoder = low byte of every unit; exact set of bytes that survive | partial (false for 35 bytes) |
| C06, C07 | PreTokenizer | induction over the match list | proved |
| C08 | PreTokenizer | induction over the pre-tokenizer tree | partial (`add_prefix_space` discards them, ByteLevel rewrites the text) |
| C09 | PreTokenizer | induction over maximal runs | proved |
| C10–C14 | WordPiece | induction over the greedy loop | proved |
| C15 | BPE | linked-list invariant, lexicographic measure | proved |
| C16–C19 | BPE | invariants of the merge loop for every `PQ` | proved |
| C20 | BPE | counterexample | partial: the *worst*-ranked merge is applied first |
| C21 | BPE | invariant over histories | proved |
| C22–C24 | BPE | counterexamples and exact characterisations | partial |
| C25, C26 | BPE | induction over the loop | proved |
| C27, C28, C30 | AddedVocabulary | induction over histories | proved |
| C29 | AddedVocabulary | invariant under contiguous vocabulary ids; counterexample otherwise | partial |
| C31 | AddedVocabulary | induction over the scan | proved for tokens without strip flags, partial otherwise |
| C32, C33 | AddedVocabulary, Props/Found | partial + counterexamples; C32 end to end through C144 and C08, C14 | partial |
| C34 | Utils | closed form of the loop | proved |
| C35 | Utils | closed form, counterexample for the overlap and for termination | partial |
| C36 | Utils | case analysis + counterexample | partial |
| C37, C38 | Utils | case analysis | C37, C38 proved |
| C39 | PostProcessor | induction over the template | proved |
| C40 | PostProcessor | counterexample | partial |
| C41 | PostProcessor | case analysis | proved |
| C42, C43 | Tokenizer | composition of stage lemmas | proved |
| C44 | Tokenizer | counterexample, exact length | partial |
| C45 | Tokenizer | composition of stage lemmas for BMP text without normalizer | partial |
| C46 | Tokenizer | induction over splits | proved |
| C47 | Tokenizer | invariant over histories | proved |
| C48, C49 | Tokenizer | induction over ids | proved |
| C50 | WordPiece+Decoder | induction over words | proved |
| C51 | Decoder | counterexample, exact characterisation | partial |
| C52 | Config | case analysis | proved/partial |
| C53 | Tokenizer | counterexample, characterisation | partial |
| C54 | Normalizer | refinement of the in-place editing loop to `flatMap` | proved |
| C55 | Normalizer | preservation for `pad`/`add`, counterexamples for `erase`/`shrink` | partial |
| C56 | Normalizer | infix property; counterexample (low byte test) | partial |
| C57 | Unicode, Tokenizer | characterisation of the throw | partial |
| C58 | Decoder | relation to an inductive "leftmost replacement" spec | proved |
| C59 | Tokenizer | exact characterisation | partial |
| C60 | Config | keys without backslash; counterexample | partial |
| C61 | all | fold laws | proved |
| C62 | PreTokenizer | the pattern is a literal of four characters; congruence in the regex engine | refuted |
| C63 | Tokenizer, AnyText | composition; word relation of C108 split piece by piece; equality with the normalizer-free tokenizer on each normalized piece | partial (refuted in three ways, otherwise complete) |
| C64 | PreTokenizer | the option does not enter the function | refuted |
| C65 | Normalizer | table-length invariants; counterexamples | partial |
| C66 | Normalizer | case analysis | partial (empty text) |
| C67 | Normalizer | induction over the match list | partial |
| C68 | Config | soundness and completeness of the readers w.r.t. the relation `Spec.Describes` | proved |
| C69, C70 | Jni | modified UTF-8 against UTF-16/UTF-8, exact conditions | partial |
| C71 | Decoder, Tokenizer | structural induction on the decoder, prefix order on token lists | partial |
| C72 | Tokenizer | rows of the encoding (C43) + vocabulary membership of every model token | proved |
| C73 | Props/Total, Props/Room, Props/Returns, Proofs/Total, Proofs/Total2, Proofs/Room, Proofs/Returns | totality of each stage of encode (every table lookup in range, every loop within fuel), then an equivalence for byte-pair models | partial |
| C74 | Props/Traced | table of (bytes, original position) entries carried through each edit of the normalizer and through transform_range; then composed with pre-tokenizer and WordPiece positions | partial (refuted for stripped accents and dropped control characters) |
| C75 | Concurrent | calls as access sequences; invariant: every cache entry is the word's own result; induction on schedules | partial |
| C76 | Concurrent | reachable states without modifying accesses; witness schedules | partial, refuted |
| C77 | Props/Roundtrip | ids of the text followed through post-processing by induction over the post-processor | proved |
| C78 | Props/Roundtrip | composition of C77, the byte alphabet bijection (C04/C05), losslessness of merging (C18) and the decoder | partial (refuted as stated) |
| C79 | Props/Roundtrip2 | extraction leaves a text without added tokens whole, BERT pieces of spaced words are the words, C50, C77 | proved |
| C80 | Props/Truncation | induction on the fuel of the range loops, both directions | proved |
| C81 | Props/FixedSize | lengths through truncation, post-processor tree (structural recursion) and padding | proved |
| C82 | Props/Cli | decodability of the printed form, induction over the lists | partial (tokens: refuted) |
| C83 | Spec/Cli, Props/Cli | length argument, induction over the list | proved |
| C84 | Props/Cli | induction over the ids | proved |
| C85 | Spec/Recognized, Proofs/Recognized, Props/Recognized | inductive set of recognized occurrences; the scan computes it (soundness by invariant of the scan, completeness by reaching every word start); segments by induction over the matches | partial (exact description; intended form refuted) |
| C86 | Props/Merging, Proofs/Merging, Props/Lengthens | merging by greatest rank is locally confluent under the conditions; normal forms are unique, and tokens are determined by their pieces; a second conforming queue refutes the general claim | partial |
| C87 | Props/Merging, Props/Lengthens, Proofs/Lengthens | reversing the list reverses ranks; WorstFirst over the reverse is BestFirst over the list; uniqueness by confluence | partial |
| C88 | Spec/Ordered, Proofs/Ordered, Props/Ordered | pre-tokens are laid out in order (induction over the pre-tokenizer tree); tokens in order within a pre-token; rows of windows are infixes of the rows of the text | partial |
| C89 | Order | reordering the map commutes with every call (congruence through WordPiece, BPE, added vocabulary), histories by induction, documents by comparing the reads of permuted objects | proved |
| C90 | Props/Replace | model of Replace and of the table; condition computed by induction over the matches | proved |
| C91 | Props/Metaspace, Props/MetaspaceAny | Room invariant of the table through Prepend and Replace; C73_normalized for encode | proved for the normalizer, partial for encode |
| C92 | Props/TruncationAll | loops with fuel, window lists characterised by induction | proved |
| C93 | Props/BPEAll | word_spec, cache invariant, induction over the pre-tokens | proved |
| C94 | Props/Outcome | Describes (spec of documents) proved sound and complete for the parser model | proved |
| C95 | Props/ByteLevelAll | C04 lemmas, table invariant for the prefix | proved |
| C96 | Props/Accents | exact condition by induction over the walk of text and decomposition (grow) and over the marks (shrink) | proved |
| C97 | Clean | table invariant through cleaning, padding and accent stripping | proved |
| C98 | Java | invariant over sessions: each native object is a history of its own configuration | proved |
| C99 | Java | induction over sessions | refuted, exact count proved |
| C100 | Java | induction over clicks with C47 | exact characterisation; refuted for the empty input |
| C101 | Props/Fallback | machine over what is found for each byte = inductive specification | partial (violated in the remaining case) |
| C102 | Numbering | induction over the history with the numbering as relation; clashes by adding fresh tokens until the id of the entry is reached | proved |
| C103 | Spec/Reference, Props/Reference | composition of C85 (cuts), C64/C97 (normalization), C07 (words), C12 (WordPiece), C34/C39 (truncation, template) | proved |
| C104 | Props.Normalized, Spec.Normalized | structural induction over the normalizer with the single-component theorems of C54, C56, C65, C67; uniqueness by the same induction | proved |
| C105 | Pipeline | each component of the model refines its rule of the specification, composed along encode; rules shown functional | proved |
| C106 | Rows | row-wise refinement of truncation, post-processing and padding, composed with C105 | proved |
| C107 | Props/NoModel | invariant over histories: the added vocabulary stays empty, hence no split carries a token | refuted, exact |
| C108 | Props/AnyText.lean | induction over the matches; scan = recognized occurrences in UTF-16; uniqueness of sorted lists | proved |
| C109 | Props/Places, Proofs/Traced, Spec/Places | words with positions carried through extraction and every pre-tokenizer; the table as a list of (byte count, origin) with k spaces in front | proved |
| C110 | Decoding | specification relation, shown total, functional and met by the code | proved |
| C111 | Alike | truncation, post-processing and padding commute with forgetting offsets; words depend only on the normalized text | proved |
| C112 | Spec/Chunks, Props/Chunks | what is recognised, cut, normalized and pre-tokenized on both sides of a space does not depend on the other side; the words are put in a row and each is tokenized on its own | proved |
| C113 | Spec/Count, Props/Count | induction over the greedy cuts, over the pieces and merges of BPE; laid-out pre-tokens form a subsequence of the text | proved |
| C114 | Props/WellFormed | UTF-8 is a prefix code, so removing ASCII parts and prefixes keeps well-formedness; combined with C110 and C43 | partial (refuted for ByteLevel) |
| C115 | Props/Batches | registering specials and assigning ids commute when no token is made special late; induction over the calls | proved |
| C116 | Props/Absent: two added vocabularies whose tables differ only on tokens that are not written make the same cuts; tokens unknown to the model never enter the tables | two-run relation | proved |
| C117 | Spec/Throws, Props/Throws | the set of exceptions of every function, composed through the monad; text invariants for conversions; vocabulary invariant of the merge loop for word_to_tokens | proved (and refuted as a guarantee of success) |
| C118 | Spec/Hangs, Props/Hangs | every function but the merge loop and truncation ends structurally; merge loop by C93, truncation by C92 | proved |
| C119 | Props/Flag (Spec/Flag) | post-processing as a function on rows; filtering the rows of the text commutes with each step | proved |
| C120 | Props/Memory (Spec/Memory) | induction over words and histories; idempotence of the second call by covering of the touched ids | proved |
| C121 | Pruned | two merge loops in step, over entries named after neighbouring pieces | proved |
| C122 | Portable | lock-step of the two runs: every text that arises is over the set; normalizers by cases, extraction, pre-tokenizers, model caches | proved |
| C123 | Blanks | the words of the text do not depend on the blanks (induction over the text), then C111's lemma that equal words give equal encodings up to offsets | proved |
| C124 | Control | every text row is a token of a word; greedy cutting gives the token only for a word that contains it, BERT pieces contain no such word; merges never reach the id | proved |
| C125 | Props/Documents | induction on the two documents side by side against the schema Describes, then the order theorems of C89 | proved |
| C126 | Props/Again | the words given to the model are those of the normalized text (C108); C50 for the decoder; the pieces of the text made of the pieces are the pieces (by the shape of each piece), then al_words (same words, same encoding) | proved as restricted, refuted for unknown words |
| C127 | Warm | a computation on given containers either modifies or reads to its value; cache growth decides for the model, recognition for the added tokens | proved |
| C128 | Props/Settings | encode = plain encoding >>= post-processing; rows of every stage (C106, C119); induction over the windows | partial: refuted for templates that repeat the text |
| C129 | Access | each call as a sequence of accesses to the eight mutable members; refinement to the sequential model; commuting accesses for the race and isolation theorems | partial (refuted) |
| C130 | Failing | case analysis over C92 and the padding arithmetic, on top of the factorization of encode into text part and settings | proved |
| C131 | Apostrophe | cutting at the matches of the shortened pattern refines `ApostropheWords`, induction over the text | proved |
| C132 | Props/Foreign | a kind-independent transfer of the reading relations along the weeding relation, then equality of the parse results | proved |
| C133 | Verif/Spec/Bounds.lean, Verif/Props/Bounds.lean | invariant of the offset table (entries are ordered pairs below a bound, number of runs of equal entries) through every normalizer, transform_range and pre-tokenizer; token offsets of a word from WordTokens/BpeTokens (Tiles and sum of piece lengths); trimming narrows | proved |
| C134 | Verif/Spec/Limits.lean, Verif/Props/Limits.lean | from C128_content: both encodings hold the main part of one plain encoding; prefixes and suffixes of it are ordered by max_length | proved |
| C135 | Spec/Rounds, Props/Rounds | Potential function 2*pieces + queue entries (+ skipped entries), decreased by every round; induction over the loops of WordPiece with a log of the candidates | proved |
| C136 | Spec/Behind, Props/Behind | C112 splits the tokens of the continued text, the kept part is a prefix (suffix) of the first, and C128's layout is a function of the kept part | proved |
| C137 | Props/Distinct | decoding the ids gives the words back (C126, C78), so equal ids come from equal words | proved |
| C138 | Props/Rules | the merge loops of both models run in step: the invariant is that every piece is named after neighbouring pieces of the word, and lines about such names agree (extends C121) | proved |
| C139 | Props/Separate | recognition inside a piece lifts to the text, where it would have been cut; the groups of the pieces in a row are those of the text; then as C112 | proved |
| C140 | Renumber | the renumbered tokenizer is a function of the tokenizer; every function of the model is shown to commute with it, by induction over matches, splits, merge steps and windows | proved |
| C141 | Options | the symbols before merging depend on the options through the specified pieces only, the segmentation is unique; merge loop and cache as in C138 | proved |
| C142 | Spec/Ranks, Props/Ranks | simulation of the merge loop under an order-preserving change of ranks, with the invariant that all queued ranks are listed; the table of a padded list is the old one under a monotone map of line numbers | proved |
| C143 | Props/AddOrder | the vocabularies the two lists leave are characterised entry by entry and a simulation carries their agreement through every later call | proved |
| C144 | Props/Watched | an invariant over the tokens given so far, kept by registration, id assignment, refreshing and matching | proved |
| C145 | AddedVocabulary, History, AddAgain | the state after adding absorbs the list: ids settled, flags the last ones, specials registered, tables up to date; encode only inserts default flags for ids that have none; adding again yields a twin (C143) | proved |
| C146 | AddedVocabulary, AddAgain, Configured | the two tables differ only in that configured tokens are listed as ordinary ones too; what is looked for is the union of both lists (twins of C143) | proved |

What cannot be expressed: what the program does after a data race (undefined behaviour);
that two calls *can* race, and when, is C76.

## 3. Trusted base

* **Lean's kernel** (4.33.0).  No `native_decide`, no `bv_decide`, no axioms of our own.
  Every theorem depends on at most `propext`, `Classical.choice` and `Quot.sound`.
  `decide +kernel` is used for finite tables and concrete evaluations; it is checked by
  the kernel's own reduction.
* **The reading of the C++ code**: every definition of the model cites the file and
  lines it models.  Nothing is executed.

### Modelled

* `src/common.cpp`: `convert_to_string`, `convert_from_string`, `bytes_char`, `Token`,
  `Split`, `Encoding`, `Encoding::merge` as used.
* `src/normalizer.cpp`: `NormalizedString` (both constructors, `transform`,
  `transform_range`), Bert (clean, CJK, accents, lower case), Prepend, Replace,
  NFC/NFD/NFKC/NFKD, Strip, StripAccents, Sequence, `with_normalizer`.
* `src/pre_tokenizer.cpp`: `find_matches`, `PreTokenizedString::split` with its five
  behaviours, Bert, Split, ByteLevel, Sequence, `with_pre_tokenizer`.
* `src/model.cpp`: WordPiece and BPE (merge list, queue, cache, dropout, byte fallback,
  unknown handling, ignore_merges), `with_model`.
* `src/added_vocabulary.cpp`: the tables, tries, `add_tokens`, `add_special_tokens`,
  `refresh`, `find_matches`, `split_with_indices`, `extract_and_normalize`,
  `with_added_vocabulary`.
* `src/post_processor.cpp`, `src/decoder.cpp`, `src/utils.cpp`, `src/tokenizer.cpp`: all
  functions that affect results.
* The Android JNI file: `encode`, `decode`, the constructor's string conversion; the life of the native tokenizers and the
  sample activity (`Java.lean`).
* `examples/run/run.cpp` completely; of `examples/libtorch-bert/mobilebert-uncased.cpp` the search for the masked position
  (the tensor operations belong to LibTorch and are not modelled).

### Not modelled, or simplified

* `char`, `int`, `size_t` overflow: integers are unbounded (`Int`/`Nat`), except where a
  conversion of a negative number to `size_t` decides the outcome (`toSizeT`) and where
  the sign of `char` does.
* libc/ICU/libstdc++ services are parameters (`Platform`, `PQ`): theorems hold for every
  choice, or state what they need of it.  Character classes are per character and do not
  depend on a changing locale.
* `std::regex` compile errors and `$`/`^` contexts: a regex engine is a function from the
  subject to the list of its matches; a pattern that cannot be compiled is `none`.
* JSON text → document tree is simdjson and is not modelled; the model of the readers
  (`with_*`) starts from the document tree with *raw* strings (escapes are modelled).
  Numbers are kept as text.  simdjson's on-demand order effects are not modelled.
* The iteration order of `std::unordered_map` is the order of the association list.
* Memory: aliasing is modelled only where the code aliases (`add_tokens` being handed its
  own vector); allocation failure is not modelled.
* JNI functions follow the JNI specification (modified UTF-8); an exception that reaches the JNI border ends the process
  (the binding has no handler).  The layout, threads and garbage collector of the Java side are not modelled.
* The Python scripts, the build files and the CI configuration are not modelled.
* Threads: `Concurrent.lean` models any number of `encode`/`decode` calls on one tokenizer as
  sequences of accesses to the two containers such calls share (`added_tokens_map_r`, `BPE::cache`).
  C75 takes each access to be atomic; C76 decides when two conflicting accesses can be made at the
  same time (a data race by [container.requirements.dataraces]).  What the code does *after* a race
  (undefined behaviour) and calls from the JNI side are not modelled.  `Access.lean` does the same for calls that add
  tokens, with all eight members that calls change (C129).  There one access is one use of a whole container (a
  lookup, an insertion, a copy, a rebuilt trie), so C129_torn and C129_isolated speak of interleavings at that grain;
  a race is two threads whose next accesses are to the same container and not both reads.
* `convert_to_string` of a surrogate code point throws, as libc++ and libstdc++ ≥ 14 do.
* `icu::UnicodeString::fromUTF8` of ill-formed bytes: one U+FFFD per maximal ill-formed part, as ICU 60 and later do.

## 4. Where the code contradicts the property (each is a theorem)

| theorem | finding |
|---|---|
| `C129_add_encode`, `C129_torn` | `add_tokens` beside `encode` is always a data race, and tokens added together can be seen separately |
| `C04_fails_nonascii` | ByteLevel pre-tokenization throws `out_of_range` on every non-ASCII text when `char` is signed |
| `C05_violated` | ByteLevel decoding corrupts every byte that the alphabet moves |
| `C08_violated_*`, `C63_violated_prefix` | `add_prefix_space` restarts from the original text: added tokens and normalization are lost |
| `C17_violated` | an `ignore_merges` hit reports offsets {0,0} |
| `C20_violated` | BPE merges the worst-ranked pair first |
| `C22_violated` | BPE looks up single bytes, so non-ASCII characters are never found |
| `C23_violated` | BPE with no symbols reads out of bounds |
| `C24_never_hex` | byte fallback names are never of the form `<0xNN>` |
| `C29/C30_violated` | added-token ids collide with vocabulary ids when these have gaps |
| `C31_violated_*` | added-token extraction: supplementary characters, overlapping tokens, `rstrip` on non-ASCII |
| `C32_violated` | added tokens outside the model vocabulary are never recognized |
| `C33_violated` | `add_special_tokens` does not make tokens special |
| `C35_*` | left truncation steps by offset-1 and may not terminate |
| `C36_violated_*` | `max_length` 0 or negative is ignored; other strategies |
| `C40_violated` | Template drops the overflow windows |
| `C44_violated` | special tokens are added after truncation, exceeding `max_length` |
| `C51_violated` | Replace/ByteFallback/Fuse/Strip decoders return nothing |
| `C52_violated`, `C59_violated` | a non-special added token makes the constructor destroy the vector it iterates over |
| `C53_violated` | `encode("")` is undefined behaviour for every tokenizer with an added vocabulary |
| `C54_violated`, `C65_violated_*` | BERT cleaning and accent stripping run off the offset table |
| `C55_violated_*` | the offset table is wrong after cleaning, strip, NFD, supplementary characters |
| `C56_violated` | Strip tests the low byte of a character |
| `C57_violated`, `C69/C70_violated` | Java strings with supplementary characters (or NUL) |
| `C60_violated` | vocabulary keys with JSON escapes are stored as spelt |
| `C62_violated` | ByteLevel's pattern is cut to four characters |
| `C63_violated` | without added vocabulary the normalizer is never applied |
| `C63_violated_nothing_left` | a text of which the normalizer leaves nothing is encoded as it is |
| `C64_violated` | Split `invert` is ignored |
| `C66_violated`, `C67_violated` | Prepend on the empty text, Replace in general |
