{"id": "C01", "title": "Wide/UTF-8 conversion round trip", "statement": "For every wide string made of Unicode scalar values, convert_from_string(convert_to_string(w)) succeeds and returns w; distinct wide strings have distinct UTF-8 images.", "quantifier": "every finite sequence of Unicode scalar values", "why_tests_cant": "There are infinitely many strings and 1,112,064 code points; the existing tests try one string in each direction.", "anchors": ["src/common.cpp: convert_to_string, convert_from_string"]}
{"id": "C02", "title": "UTF-8 conversion accepts exactly well-formed data", "statement": "convert_to_string throws exactly when the wide string holds a value that is not a Unicode scalar value; convert_from_string throws exactly on byte strings that are not the UTF-8 encoding of some scalar sequence, and otherwise convert_to_string of its result is the input.", "quantifier": "every wide string and every byte string", "why_tests_cant": "Well-formedness of UTF-8 (overlong forms, surrogates, truncated tails) is a statement about all byte strings.", "anchors": ["src/common.cpp: convert_to_string, convert_from_string"]}
{"id": "C03", "title": "The byte alphabet is a bijection", "statement": "bytes_char() gives every one of the 256 byte values a character, no two bytes share a character, printable bytes (! to ~, 0xA1-0xAC, 0xAE-0xFF) are mapped to the code point with the same number and all other bytes to code points from U+0100 upward in increasing order.", "quantifier": "every byte value and every pair of byte values", "why_tests_cant": "Injectivity ranges over all pairs; no test looks at the table.", "anchors": ["src/common.cpp: bytes_char"]}
{"id": "C04", "title": "ByteLevel pre-tokenization loses no text", "statement": "After ByteLevel pre-tokenization (without added-token splits) the bytes of the text can be recovered from the concatenated split texts by undoing the byte alphabet, and the call does not fail on any text.", "quantifier": "every text, both settings of use_regex, every regex engine whose matches are ordered and in range, both char signedness conventions", "why_tests_cant": "Needs all texts including non-ASCII; the tests use ASCII only.", "anchors": ["src/pre_tokenizer.cpp: ByteLevelPreTokenizer::pre_tokenize", "src/common.cpp: bytes_char"]}
{"id": "C05", "title": "ByteLevel decoding inverts ByteLevel encoding", "statement": "For every byte string, applying the byte alphabet and then the ByteLevel decoder returns the original bytes.", "quantifier": "every byte string", "why_tests_cant": "The inverse must hold for all 256 bytes in all positions; the tests only decode ASCII letters and spaces.", "anchors": ["src/decoder.cpp: ByteLevelDecoder::decode_chain", "src/common.cpp: bytes_char"]}
{"id": "C06", "title": "Isolated splitting is lossless", "statement": "A Split pre-tokenizer with behavior Isolated produces, from each untokenized split, pieces whose texts concatenate to the text of that split and whose offsets tile the offsets of that split without gap or overlap.", "quantifier": "every text, every list of splits, every pattern and every regex engine whose matches are ordered, in range and on character boundaries", "why_tests_cant": "Ranges over all texts, patterns and match lists.", "anchors": ["src/pre_tokenizer.cpp: find_matches, split_normalized, PreTokenizedString::split, SplitPreTokenizer::pre_tokenize"]}
{"id": "C07", "title": "Removed splitting drops exactly the matches", "statement": "With behavior Removed, every piece produced is a maximal stretch between pattern matches, no piece overlaps a match, and every non-empty stretch between matches is produced, in order.", "quantifier": "every text, pattern and regex engine as in C06", "why_tests_cant": "Ranges over all texts and match lists.", "anchors": ["src/pre_tokenizer.cpp: find_matches, split_normalized", "src/common.cpp: get_split_delimiter_behavior"]}
{"id": "C08", "title": "Pre-tokenizers leave recognized added tokens alone", "statement": "A split that was recognized as an added token keeps its text, its offsets and its token through every pre-tokenizer and in order.", "quantifier": "every pre-tokenizer configuration (including nested sequences) and every list of splits", "why_tests_cant": "Quantifies over all pre-tokenizer trees and all split lists.", "anchors": ["src/pre_tokenizer.cpp: PreTokenizedString::split, SequencePreTokenizer::pre_tokenize, ByteLevelPreTokenizer::pre_tokenize"]}
{"id": "C09", "title": "BERT pre-tokenizer postcondition", "statement": "Every untokenized piece produced by the BERT pre-tokenizer is non-empty, contains no white space, and either contains no punctuation or is exactly one punctuation character; all non-space characters survive in order.", "quantifier": "every text and every assignment of the white-space and punctuation classes", "why_tests_cant": "All texts; tests try two sentences.", "anchors": ["src/pre_tokenizer.cpp: BertPreTokenizer::pre_tokenize, is_whitespace, is_bert_punc"]}
{"id": "C10", "title": "WordPiece offsets tile the word", "statement": "The tokens WordPiece returns for a word have offsets that start at 0, are contiguous and non-empty, and end at the length of the word.", "quantifier": "every vocabulary, prefix, limit and non-empty word", "why_tests_cant": "All vocabularies and all words.", "anchors": ["src/model.cpp: WordPiece::tokenize"]}
{"id": "C11", "title": "WordPiece tokens are vocabulary entries that spell the word", "statement": "If WordPiece does not answer with the unknown token then every token it returns is a vocabulary entry with its id, its value is the covered piece of the word (with the continuation prefix unless it is first; half of a code point above U+FFFF reads as U+FFFD), and the pieces concatenate to the word.", "quantifier": "every vocabulary, prefix, limit and word", "why_tests_cant": "All vocabularies and all words.", "anchors": ["src/model.cpp: WordPiece::tokenize"]}
{"id": "C12", "title": "WordPiece is greedy longest-match-first", "statement": "WordPiece returns exactly the segmentation defined by repeatedly taking the longest vocabulary entry that starts at the current position (positions are UTF-16 units; half of a code point above U+FFFF reads as U+FFFD).", "quantifier": "every vocabulary, prefix, limit and word", "why_tests_cant": "Maximality quantifies over all longer candidates at every position.", "anchors": ["src/model.cpp: WordPiece::tokenize"]}
{"id": "C13", "title": "WordPiece unknown-token contract", "statement": "WordPiece answers with the single unknown token covering the whole word exactly when the word is longer than the limit or greedy segmentation gets stuck; the id is the vocabulary id of the unknown token, and 0 when the unknown token is not in the vocabulary.", "quantifier": "every vocabulary, unknown token, limit and word", "why_tests_cant": "An if-and-only-if over all words.", "anchors": ["src/model.cpp: WordPiece::tokenize"]}
{"id": "C14", "title": "A vocabulary word stays whole under WordPiece", "statement": "A word no longer than the limit that is itself in the vocabulary is returned as that single token, so a recognized special token keeps its id.", "quantifier": "every vocabulary, prefix, limit and word", "why_tests_cant": "All vocabularies.", "anchors": ["src/model.cpp: WordPiece::tokenize", "src/added_vocabulary.cpp: extract_and_normalize"]}
{"id": "C15", "title": "BPE merging terminates without failing", "statement": "For every text with at least one symbol, BPE tokenization terminates, performs no out-of-range access and throws no exception, whatever the merge table, vocabulary, heap tie-breaking and dropout draws.", "quantifier": "every vocabulary, merge table, non-empty symbol list, priority-queue implementation and sequence of random draws", "why_tests_cant": "Termination and memory safety of the work-list algorithm depend on linked-list invariants over every execution.", "anchors": ["src/model.cpp: Word::merge_all, BPE::merge_word, BPE::word_to_tokens"]}
{"id": "C16", "title": "BPE emits only vocabulary entries", "statement": "Every token BPE returns has an id that is in the vocabulary and a value that the vocabulary maps to that id.", "quantifier": "every vocabulary, merge list, option set, text and random draws", "why_tests_cant": "All inputs and option combinations.", "anchors": ["src/model.cpp: BPE::merge_word, BPE::word_to_tokens, BPE::tokenize_with_cache"]}
{"id": "C17", "title": "BPE offsets are contiguous", "statement": "The tokens BPE returns for a word have contiguous offsets starting at 0; when no symbol is dropped and byte fallback is off they end at the byte length of the word.", "quantifier": "every vocabulary, merge list, option set, text and random draws", "why_tests_cant": "All inputs; the merge loop must conserve lengths along every execution.", "anchors": ["src/model.cpp: Word::merge_all, BPE::word_to_tokens, BPE::tokenize_with_cache"]}
{"id": "C18", "title": "BPE is lossless", "statement": "With no prefix or suffix and an injective vocabulary that contains every byte of the text, the values of the returned tokens concatenate to the text.", "quantifier": "every such vocabulary, every merge list, text, heap and random draws", "why_tests_cant": "All merge tables and texts, an invariant of every merge step.", "anchors": ["src/model.cpp: BPE::BPE, BPE::merge_word, Word::merge_all, BPE::word_to_tokens"]}
{"id": "C19", "title": "BPE merges until no merge applies", "statement": "Without dropout, no two adjacent tokens in the result form a pair listed in the merge table.", "quantifier": "every vocabulary, merge table, text and heap", "why_tests_cant": "Completeness of the work-list: every pair created by any execution must be queued.", "anchors": ["src/model.cpp: Word::merge_all"]}
{"id": "C20", "title": "BPE applies the best-ranked merge first", "statement": "Among the applicable merges the one listed earliest in the merge list is always applied first.", "quantifier": "every merge table and text", "why_tests_cant": "Order of merges over all executions; the existing test has only one possible outcome.", "anchors": ["src/model.cpp: Word::merge_all", "include/tokenizers/model.h: Merge, operator<"]}
{"id": "C21", "title": "The BPE cache is invisible", "statement": "Tokenizing a text gives the same result whatever texts were tokenized before with the same model.", "quantifier": "every history of tokenize calls", "why_tests_cant": "Quantifies over histories.", "anchors": ["src/model.cpp: BPE::tokenize_with_cache, BPE::tokenize"]}
{"id": "C22", "title": "BPE handles characters, not bytes", "statement": "A character that is an entry of the vocabulary is never reported as unknown or dropped by BPE.", "quantifier": "every vocabulary and text, including non-ASCII characters", "why_tests_cant": "All characters; tests use ASCII only.", "anchors": ["src/model.cpp: BPE::merge_word"]}
{"id": "C23", "title": "BPE copes with text it knows nothing about", "statement": "Tokenizing a text none of whose symbols is known, with no unknown token configured, or an empty text, yields no tokens and does not fail.", "quantifier": "every vocabulary without unknown token and every text", "why_tests_cant": "Memory safety for all inputs.", "anchors": ["src/model.cpp: Word::merge_all, BPE::merge_word"]}
{"id": "C24", "title": "Byte fallback finds the byte tokens", "statement": "With byte_fallback, a symbol outside the vocabulary whose bytes all have <0xNN> tokens is encoded as those byte tokens.", "quantifier": "every vocabulary with byte tokens and every byte", "why_tests_cant": "All bytes and vocabularies; no test enables byte_fallback.", "anchors": ["src/model.cpp: BPE::merge_word"]}
{"id": "C25", "title": "Dropout semantics", "statement": "With dropout 1 no merge is ever applied; with dropout 0 random draws are irrelevant; with any dropout, repeated calls on the same text give the same tokens because the generator is re-created with the default seed for every word.", "quantifier": "every vocabulary, merge table, text and draw sequence", "why_tests_cant": "Ranges over all random sequences and repetitions.", "anchors": ["src/model.cpp: Word::merge_all, BPE::tokenize"]}
{"id": "C26", "title": "Unknown symbols are fused", "statement": "With fuse_unk and an unknown token outside the merge table, two unknown tokens are never adjacent; without fuse_unk each unknown byte gives its own token.", "quantifier": "every vocabulary and text", "why_tests_cant": "All texts.", "anchors": ["src/model.cpp: BPE::merge_word"]}
{"id": "C27", "title": "add_tokens reports how many tokens it processed", "statement": "add_tokens and add_special_tokens return the number of given tokens whose content is not empty.", "quantifier": "every token list and every prior history", "why_tests_cant": "All lists and histories.", "anchors": ["src/added_vocabulary.cpp: AddedVocabulary::add_tokens, add_special_tokens"]}
{"id": "C28", "title": "Added-token ids are stable", "statement": "Once a token content has been given an id, no later add_tokens call changes it.", "quantifier": "every history of add_tokens calls", "why_tests_cant": "Quantifies over histories.", "anchors": ["src/added_vocabulary.cpp: AddedVocabulary::add_tokens"]}
{"id": "C29", "title": "Added-token ids are fresh and distinct", "statement": "Two different token contents never share an id, and a newly created id is not the id of a model token.", "quantifier": "every history of add_tokens calls and every model vocabulary", "why_tests_cant": "An invariant of all histories; depends on the vocabulary ids.", "anchors": ["src/added_vocabulary.cpp: AddedVocabulary::add_tokens"]}
{"id": "C30", "title": "Added tokens can be looked up and decoded", "statement": "After a token has been added, the id it was given maps back to its content, and the content to the id.", "quantifier": "every history of add_tokens calls", "why_tests_cant": "Histories.", "anchors": ["src/added_vocabulary.cpp: AddedVocabulary::add_tokens, id_to_token", "src/tokenizer.cpp: Tokenizer::decode"]}
{"id": "C31", "title": "Added-token extraction tiles the text", "statement": "The segments produced by added-token extraction are contiguous, in order, start at 0 and end at the end of the text, so no character is lost or duplicated.", "quantifier": "every added vocabulary and text", "why_tests_cant": "All texts and vocabularies.", "anchors": ["src/added_vocabulary.cpp: AddedVocabulary::find_matches"]}
{"id": "C32", "title": "Added tokens in the text are recognized", "statement": "Every occurrence of an added token in the text is encoded as the single token with its id, wherever it occurs.", "quantifier": "every added vocabulary, model and text", "why_tests_cant": "All texts; the test places the token after a space.", "anchors": ["src/added_vocabulary.cpp: refresh_added_tokens, find_matches, extract_and_normalize", "src/model.cpp: BPE::tokenize, WordPiece::tokenize"]}
{"id": "C33", "title": "add_special_tokens marks tokens special", "statement": "Tokens added through add_special_tokens are treated as special: decode with skip_special_tokens omits them.", "quantifier": "every token list and history", "why_tests_cant": "Histories.", "anchors": ["src/added_vocabulary.cpp: add_special_tokens, add_tokens", "src/tokenizer.cpp: Tokenizer::decode"]}
{"id": "C34", "title": "Right truncation windows", "statement": "With direction Right and stride smaller than max_length, the result is the first max_length entries of every vector, the overflow windows each hold at most max_length entries, start max_length - stride after the previous one, and together cover every entry exactly in order; it terminates.", "quantifier": "every encoding, max_length, stride", "why_tests_cant": "All lengths and strides; loop termination.", "anchors": ["src/utils.cpp: truncate, Truncation::truncate_encoding"]}
{"id": "C35", "title": "Left truncation windows", "statement": "With direction Left and stride smaller than max_length, the result is the last max_length entries, consecutive windows overlap by exactly stride entries, the windows cover every entry, and the call terminates.", "quantifier": "every encoding, max_length, stride", "why_tests_cant": "All lengths and strides; loop termination.", "anchors": ["src/utils.cpp: truncate, Truncation::truncate_encoding"]}
{"id": "C36", "title": "Truncation respects max_length", "statement": "After truncation the encoding has at most max_length entries, and it is unchanged when it already fits.", "quantifier": "every truncation configuration and encoding", "why_tests_cant": "All configurations.", "anchors": ["src/utils.cpp: Truncation::truncate_encoding, truncate"]}
{"id": "C37", "title": "Padded length", "statement": "After padding, the encoding and each of its overflow windows that is shorter has exactly the target length (fixed size or own length, rounded up to the multiple), and longer ones are unchanged.", "quantifier": "every padding configuration without a negative fixed size and every encoding", "why_tests_cant": "All configurations and lengths.", "anchors": ["src/utils.cpp: pad, Padding::pad_encoding"]}
{"id": "C38", "title": "Padding only adds marked filler", "statement": "Padding adds entries only on the configured side; the added entries carry the pad id, pad type id and pad token, attention mask 0 and special mask 1, and the original entries are unchanged.", "quantifier": "every padding configuration without a negative fixed size and every encoding", "why_tests_cant": "All configurations.", "anchors": ["src/utils.cpp: pad"]}
{"id": "C39", "title": "Template post-processing layout", "statement": "Template processing returns, in template order, the ids and tokens of each special piece (only when special tokens are requested) and the sequence, with the piece's type ids, special mask 1 and no word index for special pieces.", "quantifier": "every template, special-token table and encoding", "why_tests_cant": "All templates.", "anchors": ["src/post_processor.cpp: TemplateProcessing::process"]}
{"id": "C40", "title": "Post-processing keeps overflow windows", "statement": "Overflow windows produced by truncation are still available after post-processing.", "quantifier": "every post-processor and encoding", "why_tests_cant": "All post-processor trees.", "anchors": ["src/post_processor.cpp: TemplateProcessing::process, SequenceProcessing::process", "src/tokenizer.cpp: Tokenizer::do_post_process"]}
{"id": "C41", "title": "Offset trimming only narrows", "statement": "ByteLevel post-processing changes only offsets, every trimmed offset range lies inside the original range and stays well-ordered.", "quantifier": "every encoding with well-ordered offsets", "why_tests_cant": "All encodings.", "anchors": ["src/post_processor.cpp: ByteLevelProcessing::process_offsets, process"]}
{"id": "C42", "title": "Encoding vectors are aligned", "statement": "ids, type_ids, tokens, words, offsets, special_tokens_mask and attention_mask of an encoding returned by encode, and of each of its overflow windows, have equal length.", "quantifier": "every tokenizer whose template special tokens list as many tokens as ids, every text and flag, every history", "why_tests_cant": "All configurations and texts.", "anchors": ["src/tokenizer.cpp: into_encoding, do_post_process, Tokenizer::encode", "src/utils.cpp: truncate, pad", "src/post_processor.cpp: TemplateProcessing, ByteLevelProcessing, SequenceProcessing"]}
{"id": "C43", "title": "Masks mean what they say", "statement": "In an encoding returned by encode every attention_mask entry is 0 or 1 and is 0 exactly on padding, and special_tokens_mask is 1 exactly on template special tokens and padding.", "quantifier": "every tokenizer whose template special tokens list as many tokens as ids, every text and flag", "why_tests_cant": "All configurations.", "anchors": ["src/tokenizer.cpp: into_encoding", "src/post_processor.cpp: TemplateProcessing::process", "src/utils.cpp: pad"]}
{"id": "C44", "title": "Encode never exceeds max_length", "statement": "With truncation configured, encode returns at most max_length ids (before padding).", "quantifier": "every tokenizer with truncation, text and flag", "why_tests_cant": "All configurations.", "anchors": ["src/tokenizer.cpp: Tokenizer::do_post_process"]}
{"id": "C45", "title": "Offsets point at the text", "statement": "For each non-special token returned by encode, the text between its offsets is the text of the token.", "quantifier": "every text and tokenizer configuration", "why_tests_cant": "All texts; offsets are transformed through extraction, normalization, splitting and tokenization.", "anchors": ["src/tokenizer.cpp: into_encoding", "src/added_vocabulary.cpp: extract_and_normalize", "src/normalizer.cpp: NormalizedString, transform_range", "src/pre_tokenizer.cpp: PreTokenizedString::split"]}
{"id": "C46", "title": "Word indices identify words", "statement": "The words vector is non-decreasing over the non-special tokens and two tokens have the same word index exactly when they come from the same pre-token.", "quantifier": "every text and every tokenizer whose template mentions the sequence at most once and lists as many tokens as ids for each special token", "why_tests_cant": "All texts.", "anchors": ["src/tokenizer.cpp: into_encoding"]}
{"id": "C47", "title": "Encode does not depend on earlier calls", "statement": "The result of encode depends only on the configuration, the tokens added so far and the text, not on earlier encode or decode calls.", "quantifier": "every history of encode and decode calls", "why_tests_cant": "Histories.", "anchors": ["src/tokenizer.cpp: Tokenizer::encode, Tokenizer::decode", "src/model.cpp: BPE::tokenize_with_cache", "src/added_vocabulary.cpp: find_matches"]}
{"id": "C48", "title": "skip_special_tokens removes exactly the special tokens", "statement": "decode(ids, true) equals decode(ids', false) where ids' is ids without the ids whose token is special.", "quantifier": "every tokenizer, id list", "why_tests_cant": "All id lists.", "anchors": ["src/tokenizer.cpp: Tokenizer::decode", "src/added_vocabulary.cpp: is_special_token"]}
{"id": "C49", "title": "decode reports unknown ids", "statement": "decode throws bad_optional_access exactly when some id is known neither to the added vocabulary nor to the model; otherwise it returns.", "quantifier": "every tokenizer with added vocabulary, model and decoder, every id list", "why_tests_cant": "All id lists.", "anchors": ["src/tokenizer.cpp: Tokenizer::decode"]}
{"id": "C50", "title": "WordPiece encode/decode round trip", "statement": "Words tokenized by WordPiece without unknown tokens and decoded with the WordPiece decoder (cleanup off) give back the words separated by single spaces.", "quantifier": "every vocabulary and every list of non-empty words none of which, after the first, begins with the continuation prefix (words with code points above U+FFFF: vocabularies without U+FFFD)", "why_tests_cant": "All vocabularies and word lists.", "anchors": ["src/model.cpp: WordPiece::tokenize", "src/decoder.cpp: WordPieceDecoder::decode_chain", "src/tokenizer.cpp: Tokenizer::decode"]}
{"id": "C51", "title": "Decoders transform, they do not discard", "statement": "Every decoder listed as supported returns text for a non-empty list of tokens, and a sequence of decoders applies each in turn.", "quantifier": "every decoder tree and token list", "why_tests_cant": "All decoder trees.", "anchors": ["src/decoder.cpp: ReplaceDecoder, ByteFallbackDecoder, FuseDecoder, StripDecoder, SequenceDecoder"]}
{"id": "C52", "title": "Constructor error contract", "statement": "Tokenizer construction with neither path nor config throws invalid_argument; with a config lacking any of the eight top-level sections or with a malformed section it throws runtime_error; otherwise it succeeds.", "quantifier": "every configuration document", "why_tests_cant": "All JSON documents.", "anchors": ["src/tokenizer.cpp: Tokenizer::Tokenizer", "src/normalizer.cpp: with_normalizer", "src/pre_tokenizer.cpp: with_pre_tokenizer", "src/model.cpp: with_model", "src/post_processor.cpp: with_post_processor", "src/decoder.cpp: with_decoder", "src/utils.cpp: with_truncation, with_padding", "src/added_vocabulary.cpp: with_added_vocabulary"]}
{"id": "C53", "title": "Empty input is accepted", "statement": "encode of the empty text returns an encoding (possibly empty) for every tokenizer.", "quantifier": "every tokenizer configuration", "why_tests_cant": "All configurations; memory safety.", "anchors": ["src/tokenizer.cpp: Tokenizer::encode, into_encoding", "src/normalizer.cpp: transform_range"]}
{"id": "C54", "title": "BERT clean-text and CJK padding", "statement": "BERT cleaning removes exactly NUL, U+FFFD and control characters and turns every white-space character into a space, keeping all else; CJK handling replaces every CJK character c by space, c, space and nothing else.", "quantifier": "every text and locale classification", "why_tests_cant": "All texts; the CJK code edits the string in place through computed indices.", "anchors": ["src/normalizer.cpp: BertNormalizer::do_clean_text, do_handle_chinese_chars"]}
{"id": "C55", "title": "Normalization keeps the offset table consistent", "statement": "After any normalizer the offset table has one entry per character, the byte ranges are contiguous and cover the offsets vector.", "quantifier": "every normalizer tree and text", "why_tests_cant": "An invariant over all transformation sequences.", "anchors": ["src/normalizer.cpp: NormalizedString::transform, NormalizedString::transform_range, BertNormalizer::normalize, Strip::normalize"]}
{"id": "C56", "title": "Strip removes only white space", "statement": "The Strip normalizer returns a contiguous part of the text and removes only leading and trailing white-space characters, as configured; what remains does not start or end with white space.", "quantifier": "every text", "why_tests_cant": "All code points; tests use ASCII spaces.", "anchors": ["src/normalizer.cpp: Strip::normalize"]}
{"id": "C57", "title": "Java strings are encoded like their code points", "statement": "Encoding a Java string through the JNI binding gives the same ids as encoding the sequence of its Unicode code points.", "quantifier": "every Java (UTF-16) string", "why_tests_cant": "All strings including supplementary characters.", "anchors": ["android/tokenizers_android/src/main/cpp/tokenizers_android_jni.cpp: Java_xyz_omkar_tokenizers_Tokenizer_encode", "src/common.cpp: convert_to_string"]}
{"id": "C58", "title": "Substring replacement in decoder cleanup", "statement": "The cleanup replacement replaces exactly the leftmost non-overlapping occurrences and terminates; text without an occurrence is unchanged.", "quantifier": "every text, every non-empty pattern, every replacement", "why_tests_cant": "All texts; the loop edits the string while searching it.", "anchors": ["src/decoder.cpp: replace, cleanup_token"]}
{"id": "C59", "title": "Construction is safe for every added-token list", "statement": "Constructing a tokenizer from a well-formed configuration never runs into undefined behaviour, whatever added tokens it lists.", "quantifier": "every added-token list and model", "why_tests_cant": "The vector being iterated is the vector being extended; only some inputs trigger it.", "anchors": ["src/tokenizer.cpp: Tokenizer::Tokenizer", "src/added_vocabulary.cpp: AddedVocabulary::add_tokens"]}
{"id": "C60", "title": "Vocabulary keys are the JSON strings", "statement": "Every key of the vocabulary object of tokenizer.json is available as a token under the string it denotes.", "quantifier": "every vocabulary object", "why_tests_cant": "All keys including those with escapes.", "anchors": ["src/utils.cpp: get_map_ints_from_json"]}
{"id": "C61", "title": "Sequences compose", "statement": "A Sequence of normalizers, pre-tokenizers, post-processors or decoders behaves as the members applied one after the other; nesting and empty sequences make no difference.", "quantifier": "every component tree and input", "why_tests_cant": "All trees.", "anchors": ["src/normalizer.cpp: SequenceNormalizer", "src/pre_tokenizer.cpp: SequencePreTokenizer", "src/post_processor.cpp: SequenceProcessing", "src/decoder.cpp: SequenceDecoder"]}
{"id": "C62", "title": "ByteLevel use_regex splits by the GPT-2 pattern", "statement": "With use_regex the ByteLevel pre-tokenizer cuts the text at the matches of the GPT-2 pattern.", "quantifier": "every text and every regex engine", "why_tests_cant": "All texts; the tests compare a few ASCII sentences.", "anchors": ["src/pre_tokenizer.cpp: ByteLevelPreTokenizer::ByteLevelPreTokenizer", "include/tokenizers/pre_tokenizer.h: ByteLevelPreTokenizer"]}
{"id": "C63", "title": "The configured normalizer is applied", "statement": "encode of a text under a normalizer produces the pre-tokens and tokens of the normalized text under the same tokenizer without normalizer.", "quantifier": "every tokenizer and text", "why_tests_cant": "All configurations: the normalizer is called from the added-token extraction only.", "anchors": ["src/tokenizer.cpp: Tokenizer::encode", "src/added_vocabulary.cpp: AddedVocabulary::extract_and_normalize", "src/pre_tokenizer.cpp: ByteLevelPreTokenizer::pre_tokenize"]}
{"id": "C64", "title": "Split invert swaps matches and gaps", "statement": "A Split pre-tokenizer with invert set treats the text between the matches as the matches, and the matches as the rest.", "quantifier": "every pattern, behaviour and text", "why_tests_cant": "All texts and patterns.", "anchors": ["src/pre_tokenizer.cpp: SplitPreTokenizer::pre_tokenize"]}
{"id": "C65", "title": "Normalization is memory-safe", "statement": "No normalizer reads or writes outside its vectors, whatever the text.", "quantifier": "every normalizer and text", "why_tests_cant": "Memory safety over all texts; the offset table is edited through computed indices.", "anchors": ["src/normalizer.cpp: NormalizedString::transform, BertNormalizer::normalize, NFD::normalize, NFC::normalize, NFKC::normalize, NFKD::normalize"]}
{"id": "C66", "title": "Prepend puts the configured text in front", "statement": "The Prepend normalizer returns the configured text followed by the input.", "quantifier": "every text and prefix", "why_tests_cant": "All texts, including the empty one.", "anchors": ["src/normalizer.cpp: Prepend::normalize"]}
{"id": "C67", "title": "Replace replaces every match", "statement": "The Replace normalizer returns the text with every match of the pattern replaced by the content, everything else unchanged.", "quantifier": "every pattern, content and text", "why_tests_cant": "All texts, patterns and lengths; the loop edits the string it iterates over.", "anchors": ["src/normalizer.cpp: Replace::normalize"]}
{"id": "C68", "title": "The tokenizer built is the one the document describes", "statement": "Whenever construction from a configuration document succeeds, every component of the tokenizer is the one the document names, with the parameters written there; components of an unknown type are absent.", "quantifier": "every configuration document", "why_tests_cant": "All JSON documents.", "anchors": ["src/tokenizer.cpp: Tokenizer::Tokenizer", "src/normalizer.cpp: with_normalizer", "src/pre_tokenizer.cpp: with_pre_tokenizer", "src/model.cpp: with_model", "src/post_processor.cpp: with_post_processor", "src/decoder.cpp: with_decoder", "src/utils.cpp: with_truncation, with_padding", "src/added_vocabulary.cpp: with_added_vocabulary"]}
{"id": "C69", "title": "Java decode returns the decoded text", "statement": "Decoding through the JNI binding gives the Java string denoting the text that the C++ decode returns.", "quantifier": "every tokenizer and id list", "why_tests_cant": "All texts: the JNI string functions use modified UTF-8.", "anchors": ["android/tokenizers_android/src/main/cpp/tokenizers_android_jni.cpp: Java_xyz_omkar_tokenizers_Tokenizer_decode"]}
{"id": "C70", "title": "The Java constructor passes the configuration", "statement": "The configuration the Java constructor hands to the tokenizer is the UTF-8 form of the Java string given.", "quantifier": "every Java string", "why_tests_cant": "All strings: NUL and supplementary characters have another form in modified UTF-8.", "anchors": ["android/tokenizers_android/src/main/cpp/tokenizers_android_jni.cpp: Java_xyz_omkar_tokenizers_Tokenizer_newTokenizer"]}
{"id": "C71", "title": "Decoding a stream of ids only adds text at the end", "statement": "Decoding a list of ids and then a longer list that starts with it, the second text starts with the first; with the ByteLevel decoder the two parts may be decoded separately and joined.", "quantifier": "every tokenizer, id list, extension of it and skip flag", "why_tests_cant": "All id lists and all splits of them.", "anchors": ["src/tokenizer.cpp: Tokenizer::decode", "src/decoder.cpp: WordPieceDecoder, ByteLevelDecoder, SequenceDecoder"]}
{"id": "C72", "title": "What encode returns can be decoded", "statement": "For a tokenizer whose vocabulary holds its unknown token, and whose template ids and padding id are known: every id list returned by encode, overflow windows included, can be decoded, and at every position not marked special the id is the vocabulary id of the token.", "quantifier": "every tokenizer, text, flag and output position", "why_tests_cant": "All texts and configurations; relates two API calls.", "anchors": ["src/tokenizer.cpp: Tokenizer::encode, Tokenizer::decode", "src/model.cpp: WordPiece::tokenize, BPE::tokenize"]}
{"id": "C73", "title": "encode returns", "statement": "encode returns an encoding \u2014 no exception, no undefined behaviour, no endless loop \u2014 for every non-empty text of Unicode characters, under every configuration whose parameters are well formed; with a byte-pair model exactly when every pre-token has a byte that is known, falls back or becomes the unknown token.", "quantifier": "every platform, well-formed configuration, history of calls, text and flag", "why_tests_cant": "All texts and configurations; termination and absence of undefined behaviour.", "anchors": ["src/tokenizer.cpp: Tokenizer::encode, into_encoding", "src/model.cpp: Word::merge_all, BPE::tokenize, WordPiece::tokenize", "src/utils.cpp: truncate, pad", "src/added_vocabulary.cpp: extract"]}
{"id": "C74", "title": "Offsets survive BERT normalization", "statement": "With a BERT normalizer (text cleaning, ideograph padding, accent stripping, lower-casing), a WordPiece model and added tokens, the offsets of every token of the text delimit exactly the characters of the original text the token was made from: the text between them becomes the token (without its continuation prefix) by cleaning and lower-casing each character.", "quantifier": "every tokenizer with a BERT normalizer and WordPiece model, every added vocabulary, every text", "why_tests_cant": "The normalizer edits a table of byte ranges and a table of offsets by length arithmetic, character by character; a test checks one text, but a slip in any of the edits shows only for particular combinations of padded, cleaned and multi-byte characters and added tokens.", "anchors": ["src/normalizer.cpp:BertNormalizer", "src/normalizer.cpp: NormalizedString::transform_range", "src/added_vocabulary.cpp:extract_and_normalize", "src/tokenizer.cpp: into_encoding"]}
{"id": "C75", "title": "Concurrent calls return what they return alone", "statement": "Any number of threads call encode and decode on one tokenizer; however their accesses are interleaved, each call that returns has returned what it returns when it is made alone, and each call returns after a bounded number of its own accesses.", "quantifier": "every tokenizer, every list of concurrent calls, every schedule of their accesses to the shared containers", "why_tests_cant": "The number of interleavings grows exponentially with the number of cache and table accesses; a test exercises one schedule.", "anchors": ["src/model.cpp: BPE::tokenize_with_cache", "src/added_vocabulary.cpp: AddedVocabulary::find_matches, id_to_token", "src/tokenizer.cpp: Tokenizer::encode, decode"]}
{"id": "C76", "title": "Concurrent calls are free of data races", "statement": "Threads that call encode and decode on one tokenizer never access one of its containers at the same time when one of the accesses counts as a modification.", "quantifier": "every tokenizer, every list of concurrent calls, every schedule", "why_tests_cant": "A data race need not show in a test run; whether some schedule has one is a statement about all interleavings.", "anchors": ["include/tokenizers/model.h: BPE, cache", "src/model.cpp: BPE::tokenize_with_cache", "src/added_vocabulary.cpp: AddedVocabulary::find_matches"]}
{"id": "C77", "title": "Decoding an encoding decodes exactly the tokens of the text", "statement": "If truncation does not apply and every template names the sequence once, then decode(encode(text).ids, skip_special_tokens=true) equals decode of the ids of the tokens of the text alone: special tokens of the template and padding (registered as special) do not show, and no token of the text is lost, moved or duplicated. Without special tokens and padding encode(text).ids is exactly that list of ids.", "quantifier": "every platform, tokenizer state, text and add_special_tokens flag for which encode returns", "why_tests_cant": "Ranges over all texts, templates, paddings and vocabularies.", "anchors": ["src/tokenizer.cpp: Tokenizer::encode, Tokenizer::decode, do_post_process", "src/post_processor.cpp: TemplateProcessing", "src/utils.cpp: Padding::pad_encoding"]}
{"id": "C78", "title": "A byte-level BPE tokenizer gives the text back", "statement": "decode(encode(text)) = text for a tokenizer with a ByteLevel pre-tokenizer, a BPE model and a ByteLevel decoder whose vocabulary covers the byte alphabet.", "quantifier": "every platform, vocabulary, merge list, history of earlier calls and text", "why_tests_cant": "All texts and vocabularies; the byte alphabet, the merges, the cache and the decoder all take part.", "anchors": ["src/pre_tokenizer.cpp: ByteLevelPreTokenizer", "src/model.cpp: BPE::tokenize", "src/decoder.cpp: ByteLevelDecoder", "src/tokenizer.cpp: encode, decode"]}
{"id": "C79", "title": "A word-piece tokenizer gives spaced words back", "statement": "With BERT pre-tokenization, a WordPiece model and the WordPiece decoder (cleanup off), a text of words separated by single spaces, each free of white space and punctuation and covered by the vocabulary, no later word starting with the continuation prefix and no added or special token written in it, satisfies decode(encode(text).ids, skip_special_tokens) = text, whatever template and padding are configured.", "quantifier": "every platform, vocabulary, tokenizer configuration of this shape and list of words", "why_tests_cant": "All vocabularies, texts, templates and paddings.", "anchors": ["src/pre_tokenizer.cpp: BertPreTokenizer", "src/model.cpp: WordPiece::tokenize", "src/decoder.cpp: WordPieceDecoder", "src/tokenizer.cpp: encode, decode"]}
{"id": "C80", "title": "Truncation returns exactly for these settings", "statement": "When an encoding is longer than a positive max_length and the strategy truncates, encode returns from truncation exactly if the direction is Right and the stride differs from max_length, or the direction is Left and the stride is at most max_length - 2. In the other cases it runs for ever, or (misspelt direction) has undefined behaviour. With direction Right and a stride above max_length it returns the first max_length entries and loses the rest.", "quantifier": "all truncation settings, all encodings whose seven vectors have equal length, as long as no sum overflows an int", "why_tests_cant": "termination of a loop for every stride, max_length, direction and length; a test that hangs gives no verdict", "anchors": ["src/utils.cpp: truncate, Truncation::truncate_encoding", "src/tokenizer.cpp: do_post_process"]}
{"id": "C81", "title": "Truncation and fixed padding give one output size", "statement": "With truncation to a positive max_length (longest_first or only_first), fixed padding on a known side and room for max_length tokens plus the special tokens of the template, every encode that returns gives exactly the fixed size, rounded up to the multiple, in all seven vectors and in every overflow window, whatever the text. Without that room the size varies with the text.", "quantifier": "all texts, all tokenizers with such truncation and padding settings, both values of add_special_tokens, all platforms", "why_tests_cant": "batching relies on equal shapes for every text, of any length", "anchors": ["src/utils.cpp: Truncation::truncate_encoding, Padding::pad_encoding", "src/post_processor.cpp: TemplateProcessing::process", "src/tokenizer.cpp: do_post_process"]}
{"id": "C82", "title": "The example program's output tells the numbers", "statement": "Each list of ids, type ids, word numbers, offsets and mask values printed by the run example determines the list: no two lists are printed alike; two runs on one text with equal output got the same ids and type ids. The same holds for the printed token list.", "quantifier": "all lists, all encodings, all configurations and texts", "why_tests_cant": "injectivity over all lists of all integers", "anchors": ["examples/run/run.cpp: print_result, main"]}
{"id": "C83", "title": "The example prints token lists like Python", "statement": "For tokens of printable ASCII characters the token line of the run example equals what Python prints for the same list (the comparison script relies on it) exactly if every token is a lone single quote or has neither a single quote nor a backslash.", "quantifier": "all lists of printable ASCII strings", "why_tests_cant": "equality of two printers on every token list", "anchors": ["examples/run/run.cpp: print_result, main", "scripts/compare_outputs/run.py: print"]}
{"id": "C84", "title": "The masked position is the first mask token", "statement": "The LibTorch example shows the prediction at the first position with id 103; when no position has it the index is -1 (which a tensor reads as the last position), and only then.", "quantifier": "all encodings", "why_tests_cant": "every id sequence", "anchors": ["examples/libtorch-bert/mobilebert-uncased.cpp: main"]}
{"id": "C85", "title": "Which occurrences of added tokens are recognized", "statement": "Encoding cuts a text at the added tokens it contains: exactly the recognized occurrences become pieces carrying the token's id, everything else stays ordinary text, is normalized and is cut again at the tokens matched after normalization. Intended: every occurrence of an added token is recognized, the longest one where several apply.", "quantifier": "every text, every added vocabulary, every normalizer", "why_tests_cant": "The set of recognized positions depends on every character of the text and on all tokens together (prefixes of each other, words, blanks); tests cover a handful of texts.", "anchors": ["src/added_vocabulary.cpp: AddedVocabulary::find_matches, AddedVocabulary::extract_and_normalize", "include/tokenizers/added_vocabulary.h: AddedVocabulary"]}
{"id": "C86", "title": "BPE tokens do not depend on the standard library", "statement": "Two builds of the library against standard libraries whose priority queues order entries of equal rank differently produce the same BPE tokens, for every vocabulary, merge list and text, without dropout.", "quantifier": "all vocabularies, merge lists, texts, histories of use, and pairs of conforming priority queues", "why_tests_cant": "A test runs with one standard library; a dependence on unspecified order shows only with another, and only for some merge lists.", "anchors": ["src/model.cpp: BPE::tokenize, Word::merge_all", "include/tokenizers/model.h: Merge"]}
{"id": "C87", "title": "A reversed merge list gives the usual byte-pair encoding", "statement": "A BPE model built from a merge list in reverse order encodes every text by byte-pair encoding in the usual sense over the list itself: starting from the pieces of the text, the applicable merge listed first is applied until none applies; for trained lists that result is unique and is the answer.", "quantifier": "all vocabularies, merge lists, texts and priority queues, without dropout", "why_tests_cant": "The equality of the queue-driven algorithm with the declarative definition must hold for all texts and lists; tests compare finitely many.", "anchors": ["src/model.cpp: BPE::BPE, BPE::merge_word, Word::merge_all"]}
{"id": "C88", "title": "Offsets are in order", "statement": "In every encoding and overflowing window, the offsets of the tokens of the text lie inside the text and follow each other: for two tokens of the text, the one at the smaller position ends before the other begins.", "quantifier": "all tokenizers, texts, post-processors with one sequence, truncation and padding settings, histories", "why_tests_cant": "Order must hold for every pair of positions of every encoding; a test sees a few texts.", "anchors": ["src/tokenizer.cpp: into_encoding, Tokenizer::encode", "src/pre_tokenizer.cpp: PreTokenizedString::split", "src/model.cpp: WordPiece::tokenize, BPE::tokenize"]}
{"id": "C89", "title": "The order of the vocabulary is not visible", "statement": "A vocabulary that gives no id to two entries may be listed in any order in the configuration, and its hash map may iterate in any order: the constructor fails or succeeds alike, and after any calls every call (encode, decode, add_tokens, token_to_id, id_to_token) is answered alike. With two entries of one id this is false: id_to_token then depends on the order.", "quantifier": "every vocabulary, every permutation of it, every pair of configuration documents that differ in the order of the vocabulary, every history of calls", "why_tests_cant": "a test runs one iteration order of one standard library", "anchors": ["src/model.cpp: Model::Model, id_to_token, token_to_id", "src/utils.cpp: get_map_ints_from_json", "src/tokenizer.cpp: encode, decode, Tokenizer::Tokenizer"]}
{"id": "C90", "title": "Replace normalizer, every case", "statement": "The Replace normalizer, on any text: throws regex_error if the pattern does not compile; returns the text unchanged without a match; with a match, is undefined behaviour if the replacement is not one character; otherwise returns exactly if every match starts inside the text and, moved right by the number of matches before it, inside the table, and then overwrites exactly the characters at the starts of the matches.", "quantifier": "every pattern, replacement, text of Unicode scalar values and regex engine", "why_tests_cant": "The outcome depends on the positions of all matches of a text of any length; a test sees one text.", "anchors": ["src/normalizer.cpp: Replace::normalize", "src/normalizer.cpp: NormalizedString::transform"]}
{"id": "C91", "title": "SentencePiece-style normalization returns exactly on evenly spaced text", "statement": "With the normalizer Prepend(\u2581), Replace(space, \u2581) a non-empty text is normalized exactly if every space has at least as many characters after it as spaces before it (text up to U+FFFF); the result is \u2581 and the text with every space replaced; otherwise the behaviour is undefined. encode then returns exactly if this holds for every ordinary piece between added tokens.", "quantifier": "every text, every added vocabulary without flags, every history, every WordPiece model and byte-pair model with an unknown token", "why_tests_cant": "Short texts with few spaces work and long ones fail: only the exact condition separates them.", "anchors": ["src/normalizer.cpp: Replace::normalize", "src/normalizer.cpp: Prepend::normalize", "src/tokenizer.cpp: Tokenizer::encode"]}
{"id": "C92", "title": "Truncation with any parameters", "statement": "Truncating an encoding, for every max_length, stride, direction and strategy: nothing happens if max_length is not positive, the encoding fits, or the strategy is only_second or unknown; otherwise an unknown direction is undefined behaviour, Right returns the windows starting max_length - stride apart if stride < max_length, loops for ever if they are equal and returns the first window alone if stride is larger, Left returns the windows ending max_length - stride - 1 apart if stride < max_length - 1 and loops for ever otherwise.", "quantifier": "every encoding and every int value of the parameters", "why_tests_cant": "The four parameters and the length interact; endless loops cannot be observed by a test.", "anchors": ["src/utils.cpp: truncate", "src/utils.cpp: Truncation::truncate_encoding"]}
{"id": "C93", "title": "When byte-pair encoding answers", "statement": "A byte-pair model that was built from its parts, whatever it tokenized before, answers a pre-tokenized text exactly if every pre-token is found by ignore_merges or has a byte with an entry, a fallback or the unknown token; then nothing but the tokens changes, every pre-token gets at least one token, and equal pre-tokens get equal tokens; otherwise the behaviour is undefined.", "quantifier": "every vocabulary, merge list, option, history and pre-tokenized text", "why_tests_cant": "Unknown symbols and histories of the cache range over all texts.", "anchors": ["src/model.cpp: BPE::tokenize", "src/model.cpp: BPE::merge_word", "src/model.cpp: BPE::tokenize_with_cache"]}
{"id": "C94", "title": "The outcome of construction", "statement": "Constructing a tokenizer, for every input: neither path nor configuration throws invalid_argument; unreadable input and documents that do not describe a tokenizer throw runtime_error; a document that describes a tokenizer makes the constructor succeed exactly if its added tokens are safe to register (all are empty, or the model has a vocabulary and each one that is not empty is special or has the content of a special one; without a model: there are none), and is undefined behaviour otherwise.", "quantifier": "every JSON document", "why_tests_cant": "Documents form an infinite, nested domain.", "anchors": ["src/tokenizer.cpp: Tokenizer::Tokenizer", "src/added_vocabulary.cpp: AddedVocabulary::add_tokens"]}
{"id": "C95", "title": "ByteLevel pre-tokenization of a text, every case", "statement": "ByteLevel pre-tokenization of any text of Unicode characters: throws out_of_range for the empty text with add_prefix_space and, where char is signed, for every text that is not ASCII; in all other cases it returns, and the texts of the splits in order are the bytes of the text - with one space in front if add_prefix_space is set and it does not start with white space - written in the byte alphabet.", "quantifier": "every text, both options, every regex engine, signed and unsigned char", "why_tests_cant": "All texts and both platforms; a test runs one text on one platform.", "anchors": ["src/pre_tokenizer.cpp: ByteLevelPreTokenizer::pre_tokenize"]}
{"id": "C96", "title": "BERT accent stripping: exactly which texts are normalized", "statement": "BERT normalization with strip_accents or lowercase (with or without white-space cleaning and ideograph padding) returns, on a text without characters that cleaning drops, exactly if every non-spacing mark of the canonical decomposition lies below the number of UTF-16 units of the prepared text plus the number of places where text and decomposition differ; the result is the decomposition without its marks, lower-cased if asked; otherwise the behaviour is undefined. In particular texts with at most one accent per character are always normalized, and texts that end in a letter with two accents never are.", "quantifier": "every text (all code points), every flag combination that strips accents, every decomposition, mark and case table of the platform", "why_tests_cant": "the set of texts is infinite and whether the table index stays inside depends on the positions of all decompositions before it; a test sees a crash only by luck", "anchors": ["src/normalizer.cpp: BertNormalizer::do_strip_accents", "src/normalizer.cpp: NFD::normalize", "src/normalizer.cpp: NormalizedString::transform"]}
{"id": "C97", "title": "BERT normalization, exactly, for every text", "statement": "For every text and every setting of clean_text, handle_chinese_chars, strip_accents and lowercase, BERT normalization either returns exactly the specified text (control characters gone, white space as spaces, ideographs padded, accents stripped, lower-cased) or is undefined behaviour, and which of the two is decided by a stated condition on the byte lengths and positions of the dropped characters, ideographs and combining marks.", "quantifier": "every text (any code points, any length), every flag combination, every platform classification of characters and every decomposition", "why_tests_cant": "The condition couples the positions of all dropped characters, ideographs and marks with byte lengths; the interference of the steps only shows on particular combinations.", "anchors": ["src/normalizer.cpp: BertNormalizer::normalize", "src/normalizer.cpp: BertNormalizer::do_clean_text", "src/normalizer.cpp: BertNormalizer::do_handle_chinese_chars", "src/normalizer.cpp: BertNormalizer::do_strip_accents", "src/normalizer.cpp: NormalizedString::transform"]}
{"id": "C98", "title": "Java tokenizers do not influence each other", "statement": "In a process that creates any number of tokenizers from Java, uses them in any order and lets them go, encode and decode on an object answer exactly as in a process that creates only this tokenizer and makes only this call; creating a tokenizer is independent of what happened before too.", "quantifier": "every session: any interleaving of constructions, encode and decode calls and garbage collections on any number of objects; any configuration text", "why_tests_cant": "All interleavings of calls on all objects; a shared mutable cache or table would only show for particular ones.", "anchors": ["android/tokenizers_android/src/main/cpp/tokenizers_android_jni.cpp: Java_xyz_omkar_tokenizers_Tokenizer_encode", "android/tokenizers_android/src/main/cpp/tokenizers_android_jni.cpp: Java_xyz_omkar_tokenizers_Tokenizer_decode", "android/tokenizers_android/src/main/java/xyz/omkar/tokenizers/Tokenizer.java: Tokenizer"]}
{"id": "C99", "title": "Discarded Java tokenizers give their memory back", "statement": "When a Java Tokenizer object is no longer used, the native tokenizer it owns is released.", "quantifier": "every session of constructions and garbage collections", "why_tests_cant": "Leaks need long-running sessions to show; a test sees no difference.", "anchors": ["android/tokenizers_android/src/main/cpp/tokenizers_android_jni.cpp: Java_xyz_omkar_tokenizers_Tokenizer_newTokenizer", "android/tokenizers_android/src/main/java/xyz/omkar/tokenizers/Tokenizer.java: Tokenizer"]}
{"id": "C100", "title": "The demonstration app shows the encoding of the input", "statement": "After every click the demonstration app shows the ids a new tokenizer gives for the input, followed by their decoding, whatever was entered before.", "quantifier": "every sequence of inputs, every configuration", "why_tests_cant": "Depends on the whole history of inputs; the empty input among them.", "anchors": ["android/app/src/main/java/xyz/omkar/tokenizers/MainActivity.kt: onCreate"]}
{"id": "C101", "title": "BPE tokens come in the order of the text", "statement": "The pieces a word is cut into before merging - vocabulary entries, byte tokens for bytes without entry, unknown tokens - stand in the order of the bytes they stand for, and the tokens of the word come from them by listed merges.", "quantifier": "every vocabulary, merge list, affixes, unknown token, fusing, byte fallback, dropout and text", "why_tests_cant": "Ranges over all combinations of options and texts; the order goes wrong only when an unknown byte is followed by a byte with byte tokens.", "anchors": ["src/model.cpp: BPE::merge_word, Word::add"]}
{"id": "C102", "title": "The ids of added tokens", "statement": "After any sequence of calls on a constructed tokenizer, the id of an added token is determined by its content and by the order in which contents were first given (in the configuration and then by add_tokens and add_special_tokens): a content the model knows has the model's id, any other one the least number that is at least the number of vocabulary entries and above every id given before; empty contents get none, and encode and decode have no influence. Looking an id up in decode yields the content given last under this id, otherwise the model's token, otherwise std::bad_optional_access. Two contents never share an id, whatever is called, exactly when the ids of the vocabulary are distinct and each is below the number of entries or at most the id of a recorded token.", "quantifier": "all vocabularies, configured token lists and histories of calls", "why_tests_cant": "the numbering depends on the whole history of calls and on the vocabulary; a clash appears only after enough tokens were added", "anchors": ["src/added_vocabulary.cpp: AddedVocabulary::add_tokens", "src/added_vocabulary.cpp: AddedVocabulary::id_to_token", "src/tokenizer.cpp: Tokenizer::decode"]}
{"id": "C103", "title": "A BERT tokenizer computes the BERT ids", "statement": "Whenever encode returns on a tokenizer with BertNormalizer, BertPreTokenizer, WordPiece, a template and right truncation, the ids and tokens are those of the reference algorithm: cut the text at the added tokens matched before normalization, normalize the rest and cut it at the added tokens matched afterwards, split at white space and punctuation, cut each word greedily into the longest vocabulary entries, keep the beginning, and lay it out as the template says.", "quantifier": "all texts, vocabularies, added tokens without empty contents, flags of the normalizer, templates and truncation settings", "why_tests_cant": "An end-to-end statement over all texts and vocabularies; tests compare a handful of texts.", "anchors": ["src/tokenizer.cpp: Tokenizer::encode", "src/normalizer.cpp: BertNormalizer::normalize", "src/pre_tokenizer.cpp: BertPreTokenizer::pre_tokenize", "src/model.cpp: WordPiece::tokenize", "src/post_processor.cpp: TemplateProcessing::process", "src/added_vocabulary.cpp: AddedVocabulary::extract_and_normalize"]}
{"id": "C104", "title": "The normalized text depends only on the text", "statement": "Whenever a normalizer - any kind, any nesting of sequences - returns, the text it leaves is a function of the text it was given, and is the one the component's rule gives: BERT cleaning, ideograph spacing, accent stripping and lower-casing in that order; the prefix in front; the first character of each match replaced; the Unicode normal form; the white space (judged by the low byte) cut off at the requested ends; the combining marks U+0300..U+036F removed; sequences from left to right. What happened to the string before, and its offset table, do not matter.", "quantifier": "every normalizer of every nesting, every string with every offset table, every platform", "why_tests_cant": "the claim is about all texts, all offset tables and all compositions; a unit test runs one normalizer on one fresh text", "anchors": ["src/normalizer.cpp: BertNormalizer::normalize", "src/normalizer.cpp: Prepend::normalize", "src/normalizer.cpp: Replace::normalize", "src/normalizer.cpp: NFD::normalize", "src/normalizer.cpp: Strip::normalize", "src/normalizer.cpp: StripAccents::normalize", "src/normalizer.cpp: SequenceNormalizer::normalize"]}
{"id": "C105", "title": "encode computes the specified ids and tokens for every configuration", "statement": "Whatever the configuration - any nesting of normalizers and of pre-tokenizers, WordPiece or BPE (fresh or already used), with or without added vocabulary, truncation, post-processor and padding - whenever encode returns, the ids and tokens of the main encoding are those obtained by cutting the text at the added tokens, normalizing what lies between, pre-tokenizing, giving each word to the model, keeping the first or last max_length entries, arranging them as the post-processor's template says and padding them to the rounded size; nothing else influences them. With ByteLevel add_prefix_space, a text that does not begin with white space is instead processed as if there were neither normalizer nor added tokens.", "quantifier": "every tokenizer configuration, every text, every earlier use, every platform, every well-behaved regex engine", "why_tests_cant": "a unit test fixes one configuration and one text; the claim is about the composition of all stages for all texts", "anchors": ["src/tokenizer.cpp: Tokenizer::encode", "src/tokenizer.cpp: Tokenizer::do_tokenize", "src/tokenizer.cpp: Tokenizer::do_post_process", "src/pre_tokenizer.cpp: ByteLevelPreTokenizer::pre_tokenize", "src/pre_tokenizer.cpp: SplitPreTokenizer::pre_tokenize", "src/added_vocabulary.cpp: AddedVocabulary::extract_and_normalize"]}
{"id": "C106", "title": "Every vector and every window of an encoding is the specified one", "statement": "Whatever the configuration, whenever encode returns, all seven vectors (ids, type ids, tokens, word indices, offsets, special-tokens mask, attention mask) of the encoding and of each overflow window are determined: the tokens the model gives to the k-th word carry the word index k, type id 0, masks 0/1 and offsets relative to the start of that word; truncation cuts windows of them; a template sets type ids and inserts rows (no word, offsets (0,0), masks 1/1) and drops the overflow; ByteLevel post-processing changes nothing but offsets, by exactly the space signs at the ends of the token; padding appends to every window the same filler rows up to the size rounded from the main window.", "quantifier": "every tokenizer configuration, every text, every earlier use, every platform, every well-behaved regex engine", "why_tests_cant": "a unit test fixes one configuration and compares one encoding; the claim is about all vectors, windows and configurations at once", "anchors": ["src/tokenizer.cpp: Tokenizer::encode", "src/tokenizer.cpp: Tokenizer::do_post_process", "src/post_processor.cpp: TemplateProcessing::process", "src/post_processor.cpp: ByteLevelProcessing::process_offsets", "src/utils.cpp: Truncation::truncate_encoding", "src/utils.cpp: Padding::pad_encoding"]}
{"id": "C107", "title": "A configuration with an unsupported model type is refused", "statement": "A document whose model section is null or names a model type other than WordPiece and BPE is not turned into a tokenizer that silently loses every text.", "quantifier": "all such documents, texts, id lists and histories of calls", "why_tests_cant": "the set of documents and of call histories is infinite; a test shows one text for one document", "anchors": ["src/tokenizer.cpp: Tokenizer::Tokenizer", "src/tokenizer.cpp: Tokenizer::do_tokenize", "src/model.cpp: with_model"]}
{"id": "C108", "title": "What encode returns, for every text and every flag of the added tokens", "statement": "Whatever the configuration, and for every text - also with characters above U+FFFF, and with single_word, lstrip or rstrip tokens in text that is not ASCII - a successful encode returns, in all vectors and overflow windows, exactly what is obtained as follows: the added tokens are looked for in the UTF-16 form of the text (shortest entry at the start, after a space or right after another one), a single_word token is dropped if a word byte of the UTF-8 form is next to the same positions, lstrip/rstrip extend it over blank bytes of the UTF-8 form, and the code points of the text are cut at those positions; the pieces are normalized and cut again in the same way, pre-tokenized, tokenized, truncated, post-processed and padded.  This prescribes exactly one list of words.  If a piece starts beyond the last code point, encode throws out_of_range.", "quantifier": "all tokenizers constructed and used in any way (whose vocabulary has no empty entry), all configurations, texts, flags and platforms with sane regexes", "why_tests_cant": "The three encodings disagree on infinitely many texts; tests use ASCII.", "anchors": ["src/added_vocabulary.cpp: AddedVocabulary::find_matches", "src/added_vocabulary.cpp: AddedVocabulary::extract_and_normalize", "src/tokenizer.cpp: Tokenizer::encode"]}
{"id": "C109", "title": "Every position encode reports is the specified one", "statement": "Without a normalizer, or with the BERT normalizer on a text in which nothing is dropped or decomposed, a successful encode is determined completely, positions included: each word has one prescribed position in the text that is pre-tokenized (counted in UTF-16 units; positions count on from added token to added token and from piece to piece, and ByteLevel may put one space in front, which shares the position of the first character), this position leads back to a character of the text given to encode (itself; an ideograph for the spaces put around it; the original character for a cleaned or lower-cased one), and a token's offsets are its offsets in the word plus the position of that character.", "quantifier": "all tokenizers with WordPiece or BPE, any nesting of pre-tokenizers, all post-processors, truncation and padding settings; without added vocabulary every text of scalar values, with one every text extraction is right for (up to U+FFFF; ASCII if a token has flags)", "why_tests_cant": "positions depend on tables that every normalization and pre-tokenization step shifts; a test sees a few texts", "anchors": ["src/tokenizer.cpp: into_encoding", "src/added_vocabulary.cpp: AddedVocabulary::extract_and_normalize", "src/normalizer.cpp: NormalizedString::transform", "src/pre_tokenizer.cpp: ByteLevelPreTokenizer"]}
{"id": "C110", "title": "decode, exactly, in every case", "statement": "After any sequence of calls, decode has exactly one outcome, determined by the tokens given so far (configured or added), the model's vocabulary and the decoder: bad_optional_access if some id is unknown to both; otherwise every id is replaced by the added content given last with that id or else by the model's token, the contents given as special are left out when skipping is asked for, and the decoder's rule is applied: WordPiece keeps the first token, strips the prefix from or puts a space before each further one and cleans every token up with the eleven replacements; ByteLevel writes the low byte of every code point read (twice beyond U+FFFF, U+FFFD for each ill-formed part); Replace, ByteFallback, Fuse and Strip give nothing; Sequence applies its members in order; the results are concatenated.", "quantifier": "all tokenizers with an added vocabulary, a model without an empty entry and a decoder; all histories; all lists of ids; both values of skip_special_tokens; all decoders", "why_tests_cant": "the ids, the tokens added before and the token texts are unbounded", "anchors": ["src/tokenizer.cpp: Tokenizer::decode", "src/decoder.cpp: WordPieceDecoder::decode_chain", "src/decoder.cpp: ByteLevelDecoder::decode_chain", "src/decoder.cpp: SequenceDecoder::decode_chain", "src/added_vocabulary.cpp: AddedVocabulary::id_to_token"]}
{"id": "C111", "title": "Texts with the same normalized form are encoded alike", "statement": "For a tokenizer with an added vocabulary and without ByteLevel add_prefix_space: if the configured normalizer makes the same non-empty text of two texts in which no token matched before normalization is recognized (for example texts that differ only in case, for a lower-casing tokenizer, or a text and its normalized form), and encode returns for both, the two encodings agree in ids, type ids, tokens, word indices, masks and overflowing windows; only the offsets may differ.", "quantifier": "all configurations, all pairs of texts with one normalized form, both values of add_special_tokens", "why_tests_cant": "A relation between two runs for arbitrary pairs of texts and configurations; tests compare a few pairs.", "anchors": ["src/tokenizer.cpp: encode", "src/added_vocabulary.cpp: AddedVocabulary::extract_and_normalize", "src/normalizer.cpp: BertNormalizer"]}
{"id": "C112", "title": "Texts joined by spaces are encoded one by one", "statement": "For a tokenizer whose pre-tokenization begins with the BERT rule, with no truncation and no padding, whose added tokens have no flags, and for texts of characters up to U+FFFF whose normalization treats the two sides of a space separately and leaves something of every piece (true of BERT normalization of texts of plain characters, and without a normalizer), the ids and tokens of texts joined by single spaces are the ids and tokens of the single texts in a row, put once between the special tokens of the template.", "quantifier": "all lists of texts, tokenizers of that kind (WordPiece or BPE without dropout, any added tokens), and platforms", "why_tests_cant": "It relates encode on unboundedly many unboundedly long texts to encode on their concatenation; the matching of added tokens, the normalizer and the pre-tokenizer could each look across the seam.", "anchors": ["src/tokenizer.cpp: encode", "src/added_vocabulary.cpp: AddedVocabulary::find_matches", "src/pre_tokenizer.cpp: BertPreTokenizer"]}
{"id": "C113", "title": "The number of tokens is bounded by the length of the text", "statement": "With a WordPiece model a word gives at most one token per UTF-16 unit, with a BPE model at most one per byte (with byte fallback: per byte, affixes included), and a non-empty word gives at least one; so the tokens of the text in an encoding and in each overflow window are at most as many as the words have units or bytes, and, when the pre-tokenizer only cuts and there is no normalizer, as the text has. Conditions: the length limit of WordPiece is not negative, the empty text is not a vocabulary entry answered by ignore_merges, words shorter than 2^31 bytes.", "quantifier": "all texts, vocabularies, merge lists, tokenizers with any truncation, template and padding", "why_tests_cant": "A bound on the size of the result for texts of every length; a merge or fallback that adds symbols shows only on particular vocabularies.", "anchors": ["src/model.cpp: WordPiece", "src/model.cpp: BPE", "src/tokenizer.cpp: encode"]}
{"id": "C114", "title": "Decoded text and tokens are well-formed UTF-8", "statement": "When the vocabulary, the added tokens and the continuation prefix are well-formed UTF-8 (as they are whenever the tokenizer was made from a JSON document, whose strings are) and no vocabulary key is empty, decode returns well-formed UTF-8 for every list of ids, after any history of calls, with every decoder but ByteLevel; and all tokens of an encoding and of its overflow windows are well-formed. With the ByteLevel decoder this fails: the id of a token such as '\u00e9' decodes to a lone byte.", "quantifier": "all tokenizers, all histories of calls, all lists of ids, all texts, all documents", "why_tests_cant": "A test tries a few ids; that no list of ids whatsoever, after no history of added tokens, and none of the clean-up replacements ever cuts a character in two is a statement about all of them.", "anchors": ["src/tokenizer.cpp: decode", "src/decoder.cpp: WordPieceDecoder", "src/decoder.cpp: ByteLevelDecoder"]}
{"id": "C115", "title": "Adding tokens in one call or in several makes no difference", "statement": "After any history of calls, adding lists of tokens by several calls of add_tokens or add_special_tokens has exactly the effect of one call with all of them: the counts reported add up to the same number, the resulting tokenizer is the same (so everything it returns later is), and one fails exactly when the other does - unless a token that an earlier list (but nothing before) gives as not special is special in a later list. In particular, distinct tokens may be added one by one.", "quantifier": "all tokenizers, all histories of calls, all lists of lists of tokens", "why_tests_cant": "The effect of a call depends on everything added before; tests compare a few additions, not all ways to distribute any tokens over any number of calls.", "anchors": ["src/added_vocabulary.cpp: AddedVocabulary::add_tokens", "src/added_vocabulary.cpp: AddedVocabulary::refresh_added_tokens", "src/tokenizer.cpp: add_tokens"]}
{"id": "C116", "title": "Adding tokens that do not occur changes nothing", "statement": "Adding tokens to a tokenizer, whatever happened to it before, leaves the result of encode (its failures included) unchanged for every text in which none of the tokens that the model knows is written, neither in the text nor in the normalized form of a part of it, provided no new token gets the id of another entry of the model's vocabulary. That proviso holds for tokens that were not added before when the ids of the vocabulary are distinct. Tokens that neither the model nor the added vocabulary knows change no encoding at all. Decoding of ids that are not the new tokens' is unchanged as well.", "quantifier": "all histories of calls, all lists of tokens added, all texts and all lists of ids", "why_tests_cant": "quantifies over all histories, token lists and texts", "anchors": ["src/added_vocabulary.cpp: AddedVocabulary::add_tokens", "src/added_vocabulary.cpp: AddedVocabulary::find_matches", "src/added_vocabulary.cpp: AddedVocabulary::refresh_added_tokens", "src/tokenizer.cpp: encode"]}
{"id": "C117", "title": "Which exceptions can leave a call, and why", "statement": "encode throws only range_error, out_of_range, length_error or regex_error; and each only for a reason a user can name: range_error only if the text is not Unicode text (then always) or a normalization step can produce something that is not (a configured string that is not UTF-8, a platform function that leaves Unicode); regex_error only if the pattern of a Replace normalizer is rejected; length_error only for a negative fixed padding size with a known direction; out_of_range only for a ByteLevel pre-tokenizer (with signed char, or with add_prefix_space on the empty text) or for text in which the positions of added tokens can be misread (a code point above U+FFFF, or non-ASCII text beside an added token with rstrip). decode throws only bad_optional_access, for an unknown id; adding tokens throws nothing. That every valid text makes encode return is refuted with one text per exception.", "quantifier": "every platform, tokenizer configuration, added tokens, history of calls, text, flag and exception", "why_tests_cant": "which exceptions can escape depends on every stage of the pipeline for every text; tests only see the exceptions their inputs happen to trigger", "anchors": ["src/tokenizer.cpp: encode", "src/tokenizer.cpp: decode", "src/tokenizer.cpp: add_tokens", "src/added_vocabulary.cpp: AddedVocabulary::extract_and_normalize", "src/utils.cpp: Padding::pad_encoding"]}
{"id": "C118", "title": "encode comes to an end", "statement": "encode does not come to an end exactly if a truncation is configured whose windows do not advance (direction Right with stride = max_length, direction Left with stride >= max_length - 1) and the encoding of the text without truncation, post-processing and padding exists and is longer than max_length (with a strategy that cuts). In every other case - every normalizer, pre-tokenizer, added tokens, model, post-processor, padding and text - the call ends. decode and add_tokens always end.", "quantifier": "every platform, tokenizer configuration, text, flag, list of ids, list of tokens", "why_tests_cant": "termination for every text and every setting is not observable by running finitely many of them", "anchors": ["src/tokenizer.cpp: encode", "src/utils.cpp: Truncation::truncate_encoding", "src/model.cpp: BPE", "src/added_vocabulary.cpp: AddedVocabulary::find_matches"]}
{"id": "C119", "title": "The add_special_tokens flag decides about special tokens only", "statement": "For every tokenizer whose template lists as many ids as tokens for each special token, every text and any truncation, post-processing and padding: encode with add_special_tokens = true and with false return in the same cases, leave the tokenizer in the same state and give as many windows. The entries whose special_tokens_mask is 0 are the same in both results, in the same order, with the same ids, tokens, word indices, type ids and attention mask; without padding they are all that the encoding without special tokens holds. Their offsets are the same too, unless the post-processor trims offsets with add_prefix_space behind a template: then the offsets of the first token of the text depend on the flag.", "quantifier": "all tokenizers (any normalizer, pre-tokenizer, model, post-processor sequence, truncation, padding), all texts", "why_tests_cant": "A unit test compares the two results for one configuration and text; the claim is about every post-processor sequence, every window and every padding size.", "anchors": ["src/tokenizer.cpp: encode", "src/post_processor.cpp: TemplateProcessing", "src/post_processor.cpp: ByteLevelProcessing"]}
{"id": "C120", "title": "What a tokenizer keeps in memory between calls", "statement": "Whatever calls are made: a byte-pair tokenizer keeps at most one entry per different word of the texts it has encoded (its words are distinct, each is a word of a text of an earlier encode call), nothing is ever dropped, and words for which a returned encode computed an answer without dropout and without a direct hit of ignore_merges are kept. A WordPiece tokenizer keeps nothing. Encoding a text a second time, with or without special tokens, leaves the tokenizer exactly as it is. There is no limit: for every n (below 2^31, the length of words a model can handle) there are calls after which n entries are kept.", "quantifier": "all tokenizers, all histories of encode, decode, add_tokens and add_special_tokens, all texts", "why_tests_cant": "Growth of a long-lived object is a statement about every history of calls; a test sees one.", "anchors": ["src/model.cpp: BPE", "src/tokenizer.cpp: encode", "src/added_vocabulary.cpp: AddedVocabulary::find_matches"]}
{"id": "C121", "title": "Vocabulary entries that a text does not need make no difference", "statement": "If two models differ in their vocabularies only, and agree on every entry that can be looked up for a word of the text, encode returns the same encoding, or the same failure. For WordPiece that are the unknown token and the entries that are written in the text, as they stand or after the continuation prefix; for byte-level BPE with an entry for each byte of the text, the entries whose text is written in the text. So a vocabulary can be pruned (or extended by other entries) without changing the encodings of such texts.", "quantifier": "all texts, all pairs of vocabularies (with the merge tables built from them), all configurations, all earlier calls", "why_tests_cant": "unit tests use one vocabulary", "anchors": ["src/model.cpp: WordPiece", "src/model.cpp: BPE", "src/tokenizer.cpp: encode"]}
{"id": "C122", "title": "The same encodings on different platforms", "statement": "The same tokenizer gives the same encoding of a text (or the same failure) on two platforms - x86 and ARM, other C libraries, locales, ICU versions - whatever either instance has been used for before, provided that the platforms agree on the characters of the text: on their classes, their lower case, the normal forms and regex matches of texts made of them. This holds for every normalizer whose inserted texts are made of such characters and every pre-tokenizer in which ByteLevel comes last; ByteLevel needs ASCII texts or the same signedness of char; BPE needs the same priority queue, or an unambiguous merge list without dropout. It is false beyond that: a byte-level tokenizer throws on a letter that is not ASCII on one platform and encodes it on the other.", "quantifier": "every pair of platforms, every set of characters they agree on, every text over it, every tokenizer and history of use", "why_tests_cant": "tests run on one platform; two implementations of the C library, ICU and the priority queue cannot be enumerated", "anchors": ["src/normalizer.cpp: BertNormalizer", "src/pre_tokenizer.cpp: ByteLevelPreTokenizer", "src/tokenizer.cpp: encode", "src/model.cpp: BPE"]}
{"id": "C123", "title": "White space between words makes no difference", "statement": "For a tokenizer whose pre-tokenization begins with the BERT rule: two texts whose normalized forms consist of the same words, separated by any amount and kind of white space and possibly with white space at the ends, get the same encoding - ids, type ids, tokens, word indices, masks and overflowing windows - and differ in the offsets only, provided no added token is recognized in them. With added tokens (without flags) the same holds for any number of spaces (U+0020) between parts and at the ends. Beside an added token other white space does make a difference, and so it does without BERT pre-tokenization.", "quantifier": "all configurations of that kind (any normalizer, model, truncation, post-processor, padding), all texts", "why_tests_cant": "no finite set of texts covers every amount and mix of white space under every configuration", "anchors": ["src/pre_tokenizer.cpp: BertPreTokenizer", "src/added_vocabulary.cpp: AddedVocabulary::find_matches", "src/tokenizer.cpp: encode"]}
{"id": "C124", "title": "Text cannot produce control tokens unless they are recognized in it", "statement": "With BERT pre-tokenization and a WordPiece model, a control token (a vocabulary entry of two or more code points, one of them punctuation or white space, such as [SEP]) stands in the encoding of a text at a place not marked as special only if it is written out in an added token recognized in the text; where no added token is recognized, neither the token nor its id stands at such a place.  With byte-pair encoding, an id that no merge, no single byte, no byte token and not the unknown token has stands at such a place only if ignore_merges is on and some word is exactly that entry.", "quantifier": "every text, vocabulary, merge list, added vocabulary, normalizer, truncation, template and padding; the main encoding and every overflow window; BPE words short enough for the ints the code counts with", "why_tests_cant": "A test shows that some hostile texts do not smuggle a control token in; that no text does needs an argument about every cut of every text.", "anchors": ["src/model.cpp: WordPiece", "src/pre_tokenizer.cpp: BertPreTokenizer", "src/added_vocabulary.cpp: AddedVocabulary::find_matches", "src/model.cpp: BPE"]}
{"id": "C125", "title": "Documents with the same content make the same tokenizer", "statement": "Two tokenizer.json documents with the same content \u2014 the fields of a record in another order, fields the library does not know added or removed, strings escaped differently, the entries of the vocabulary in another order \u2014 have the same effect: the constructor fails for one exactly as for the other, and otherwise the two tokenizers answer every encode, decode and add_tokens call alike after every history, provided no two vocabulary entries have the same id. Vocabulary keys escaped differently are not the same content to the library (C60).", "quantifier": "all pairs of documents related by SameContent (any nesting, any number of fields), all platforms, all call histories", "why_tests_cant": "tests parse a few fixed files; no finite number of files covers every ordering, every unknown field and every escape", "anchors": ["src/tokenizer.cpp: Tokenizer", "src/normalizer.cpp: with_normalizer", "src/model.cpp: with_model", "src/decoder.cpp: with_decoder", "src/post_processor.cpp: with_post_processor"]}
{"id": "C126", "title": "Encoding decoded text again gives the same encoding", "statement": "With BERT pre-tokenization, a word-piece model and the word-piece decoder (same prefix, no clean-up), decode(encode(text).ids, skip special tokens) is the list of the words of the normalized text with single spaces between them (punctuation marks are words), and encoding that text again gives the same ids, type ids, tokens, word indices and masks as encoding the original text, whatever case, accents, control characters, white space and punctuation the original had. Assumed: no added token is recognized in the text, normalization leaves the decoded text as it is, every word is covered by the vocabulary and none but the first begins with the continuation prefix, nothing is cut off, and the template and padding tokens are special. It fails for a text with an unknown word: the text [UNK] is cut at its brackets when encoded again.", "quantifier": "all texts, normalizers, vocabularies, templates, paddings and added vocabularies (without flags)", "why_tests_cant": "a test can show the fixed point for some texts only; it depends on the agreement of normalizer, pre-tokenizer, model, template and decoder for every text", "anchors": ["src/pre_tokenizer.cpp: BertPreTokenizer", "src/model.cpp: WordPiece", "src/decoder.cpp: WordPieceDecoder", "src/tokenizer.cpp: encode", "src/tokenizer.cpp: decode"]}
{"id": "C127", "title": "A tokenizer that has seen the texts can be shared without locks", "statement": "Once a tokenizer has encoded some texts, and as long as nothing is added to it, any number of threads may encode those of the texts in which no added token is recognized, and decode, on the same tokenizer without locks: no interleaving has a data race or changes the tokenizer, and every call returns what it returns alone. Conversely, two threads that successfully encode the same text can race whenever an added token is recognized in it or one of its words is not remembered yet.", "quantifier": "every tokenizer, every history of calls, every list of concurrent calls, every schedule of their accesses", "why_tests_cant": "the number of schedules is unbounded, and a race that does not happen in a test run can happen in the next", "anchors": ["src/model.cpp: tokenize_with_cache", "src/added_vocabulary.cpp: find_matches", "src/tokenizer.cpp: encode", "src/tokenizer.cpp: decode"]}
{"id": "C128", "title": "Truncation, special tokens and padding only cut, insert and fill", "statement": "If encode returns, the same tokenizer configured without truncation, post-processor and padding returns too, and the result consists of the rows of that plain encoding cut into windows, with the inserted special tokens and padding: the entries whose special mask is 0 are the main window of the plain encoding, in order, with the same ids, tokens and words (and offsets unless trimmed). With truncation alone nothing is lost: the windows joined without their overlap are the plain encoding, in every vector. Conversely encode returns whenever the plain one does unless the truncation stalls or has to cut in an unknown direction or the padding size is negative. Two tokenizers with the same settings that agree without them agree with them.", "quantifier": "all tokenizers, truncations, post-processors, paddings and texts", "why_tests_cant": "A test compares a few texts with a few settings; that nothing of the text is lost, repeated or changed by the last three stages holds for all configurations and lengths.", "anchors": ["src/tokenizer.cpp: do_post_process", "src/utils.cpp: Truncation::truncate_encoding", "src/utils.cpp: Padding::pad_encoding", "src/post_processor.cpp: TemplateProcessing"]}
{"id": "C129", "title": "Adding tokens while other threads use the tokenizer", "statement": "Threads may share one tokenizer as long as no call of add_tokens or add_special_tokens runs beside another call: calls race exactly when two of them access a common member that one of them modifies; calls that cannot race return in every schedule what they return alone. add_tokens beside add_tokens always races, beside encode it races for every text made of Unicode characters, even when the list of tokens is empty, and beside decode exactly if there is something to add and something to decode; and even if all accesses were atomic, an encode beside an add_tokens may recognize one of two tokens added in one call and not the other.", "quantifier": "every tokenizer, every list of calls (encode, decode, add_tokens) made by any number of threads, every schedule of their accesses", "why_tests_cant": "Data races depend on the schedule; a test observes one schedule per run and usually the harmless one.", "anchors": ["src/added_vocabulary.cpp: AddedVocabulary::add_tokens", "src/added_vocabulary.cpp: AddedVocabulary::refresh_added_tokens", "src/added_vocabulary.cpp: AddedVocabulary::find_matches", "src/tokenizer.cpp: encode", "src/tokenizer.cpp: decode"]}
{"id": "C130", "title": "When truncation and padding make encode fail", "statement": "For every tokenizer whose special tokens list as many ids as texts and every text: if encode fails without truncation, post-processor and padding, it fails with them in the same way. If it succeeds with n tokens, then with them: a truncation that has to cut n tokens loops for ever exactly if its windows do not advance (Right: stride = max_length; Left: stride >= max_length - 1) and is undefined behaviour exactly if its direction is unknown; otherwise a negative fixed padding length with a known direction throws std::length_error (for encodings of fewer than 2^63 tokens); in all other cases encode returns. The post-processor never makes a difference.", "quantifier": "every tokenizer, text, flag and every int value of the parameters of truncation and padding", "why_tests_cant": "Failure and non-termination have to be excluded for every combination of parameters and text length; a test that loops for ever cannot even report it.", "anchors": ["src/tokenizer.cpp: do_post_process", "src/utils.cpp: Truncation::truncate_encoding", "src/utils.cpp: Padding::pad_encoding"]}
{"id": "C131", "title": "ByteLevel with use_regex separates words at apostrophes and nowhere else", "statement": "With a ByteLevel pre-tokenizer and use_regex, the words given to the model are the ordinary pieces of the text cut so that every 's, every other apostrophe and every stretch between them is one word; a text without apostrophes is one word, whatever blanks, digits and punctuation it contains. (The pattern in the source would separate words at blanks, numbers and punctuation.)", "quantifier": "every text, every tokenizer with this pre-tokenizer (with or without added tokens, normalizer, add_prefix_space), every platform whose regex engine matches 's|' from left to right, first alternative first", "why_tests_cant": "The cut points depend on where the apostrophes of an arbitrary text are; no finite set of texts shows that nothing else separates words.", "anchors": ["src/pre_tokenizer.cpp: ByteLevelPreTokenizer", "src/pre_tokenizer.cpp: find_matches", "src/tokenizer.cpp: encode"]}
{"id": "C132", "title": "Components of a type the library does not have are ignored", "statement": "A configuration may name normalizers, pre-tokenizers, decoders and post-processors that the library does not have yet (Lowercase, Metaspace, CTC, BertProcessing, ...: the planned entries of the support matrix). The constructor makes of such a configuration the very tokenizer, or fails in the very way, that it makes of the configuration in which the section is null and the members of sequences, at any depth, are left out. That such a configuration is refused is violated: text is silently encoded without the step.", "quantifier": "every platform, every JSON document and every choice of components of other types in it, at any nesting", "why_tests_cant": "tests try one unsupported type at one place; the claim is about every document, every type name and every nesting of sequences", "anchors": ["src/normalizer.cpp: with_normalizer", "src/pre_tokenizer.cpp: with_pre_tokenizer", "src/decoder.cpp: with_decoder", "src/post_processor.cpp: with_post_processor"]}
{"id": "C133", "title": "Offsets are bounded ranges", "statement": "In the encoding and in each overflow window the two offsets of every entry are not negative, the first is not greater than the second, and the second is at most the length of the text (plus, with an added vocabulary, the length of its normalized parts) plus the number of tokens the longest word can have.", "quantifier": "all texts, platforms with well-behaved regexes, models, normalizers, pre-tokenizers, added tokens, post-processors, truncation and padding", "why_tests_cant": "the offset table is rewritten by every normalizer in its own way and renumbered per piece; a test sees single tables, not the invariant that entries stay ordered pairs and that renumbering adds at most one position per run of equal entries", "anchors": ["src/normalizer.cpp: NormalizedString::transform_range", "src/tokenizer.cpp: into_encoding", "src/added_vocabulary.cpp: AddedVocabulary::extract_and_normalize"]}
{"id": "C134", "title": "A larger max_length only adds tokens", "statement": "If two tokenizers differ only in truncation, post-processor and padding, and the second keeps at least as much (no limit, or a limit on the same side that is not smaller), then the tokens of the text in the main encoding of the first - ids, tokens, word numbers, and offsets unless trimmed - are the beginning (direction Right) or the end (direction Left) of those of the second. In particular they do not depend on the stride, on which of the two strategies for a single text is used, on special tokens, on the flag, or on padding.", "quantifier": "all tokenizers, texts, flags, truncation settings of one direction, post-processors that mention the text once, paddings", "why_tests_cant": "a relation between two calls for every pair of settings and every text", "anchors": ["src/utils.cpp: Truncation::truncate_encoding", "src/utils.cpp: Padding::pad_encoding", "src/tokenizer.cpp: do_post_process"]}
{"id": "C135", "title": "The work for a pre-token is bounded", "statement": "Byte-pair encoding without dropout takes fewer than 3n entries from its priority queue for a pre-token of n pieces (of which there are at most as many as bytes, times the length of a byte with its affixes), whatever the vocabulary, the merge list and the order of equal ranks. With dropout the number is at most quadratic in n, whatever is drawn, and it is not linear. WordPiece looks at most n(n+1)/2 candidates up for a pre-token of n UTF-16 units, and none for a pre-token longer than max_input_chars_per_word, so that its work is bounded by that setting however long the pre-token is.", "quantifier": "all vocabularies, merge lists, affixes, dropouts, priority queues and pre-tokens", "why_tests_cant": "A benchmark measures one vocabulary and some texts; the worst case is over all vocabularies, merge lists, tie orders and pre-tokens.", "anchors": ["src/model.cpp: Word::merge_all", "src/model.cpp: WordPiece::tokenize", "include/tokenizers/model.h: Merge"]}
{"id": "C136", "title": "Text behind the limit does not matter", "statement": "When truncation keeps the beginning of a text and a text already has at least as many tokens as are kept, then continuing it after a space by any text that can be encoded leaves the ids and the tokens of the result unchanged, whatever post-processor and padding are set; when truncation keeps the end, the same holds for whatever precedes the text.", "quantifier": "all BERT-pre-tokenizing tokenizers with a Word-Piece or BPE model, added vocabulary, BERT or no normalizer, truncation, post-processor and padding; all texts and all two continuations", "why_tests_cant": "The continuations are arbitrary texts; a test compares a few.", "anchors": ["src/utils.cpp: Truncation::truncate_encoding", "src/tokenizer.cpp: do_post_process", "src/pre_tokenizer.cpp: BertPreTokenizer", "src/added_vocabulary.cpp: AddedVocabulary::extract_and_normalize"]}
{"id": "C137", "title": "Different words get different ids", "statement": "For a word-piece tokenizer (template and padding tokens special), if two texts whose words are covered by the vocabulary get the same ids, they have the same words - for BERT pre-tokenization, the same words and punctuation marks of the normalized text - and hence the same tokens, word indices, type ids and masks. For a byte-level byte-pair tokenizer, two readable texts that get the same ids are the same text. Not so for words the vocabulary does not cover, or that begin with the continuation prefix.", "quantifier": "all pairs of texts, vocabularies (also with several entries of one id), templates, paddings, normalizers and added vocabularies (without flags)", "why_tests_cant": "Injectivity speaks of all pairs of texts.", "anchors": ["src/model.cpp: WordPiece", "src/model.cpp: BPE", "src/tokenizer.cpp: encode", "src/decoder.cpp: WordPieceDecoder"]}
{"id": "C138", "title": "Merge rules that a text does not need make no difference", "statement": "If two models differ in their vocabularies and merge lists only, agree on every entry that can be looked up for a word of the text, and have the same lines, at the same places in the list, about pieces that can meet in a word, encode returns the same encoding, or the same failure. For byte-level BPE with an entry for each byte of the text only the rules p q count for which p followed by q is written in the text: a tokenizer that is given further entries, and further rules at the end of its merge list, encodes every text in which none of them is written as before.", "quantifier": "all texts, all pairs of vocabularies and merge lists (of any length), all configurations, all earlier calls", "why_tests_cant": "A test compares two merge lists on some texts; the claim is about every merge order the loop can take for every word and every pair of lists.", "anchors": ["src/model.cpp: BPE", "src/model.cpp: Word", "src/model.cpp: Merge", "src/tokenizer.cpp: encode"]}
{"id": "C139", "title": "Added tokens separate the text", "statement": "For an added vocabulary whose tokens carry no flags, a text up to U+FFFF of which the normalizer leaves something of every piece, and a pre-tokenizer that puts no space in front: cutting the text at the added tokens it contains and encoding every piece by itself (the tokens and what is between them) gives the same ids and tokens, in a row and laid out by the post-processor, as encoding the whole text; an added token on its own is recognized again, and nothing is recognized in what is between. Without truncation and padding.", "quantifier": "every such tokenizer (WordPiece or BPE model, any normalizer, any pre-tokenizer that puts no space in front, any template) and every such text", "why_tests_cant": "recognition starts only at the start of a text, behind a space or behind another token, so that whether a piece is treated the same alone is a statement about all texts around it", "anchors": ["src/added_vocabulary.cpp: AddedVocabulary::find_matches", "src/added_vocabulary.cpp: AddedVocabulary::extract_and_normalize", "src/tokenizer.cpp: encode"]}
{"id": "C140", "title": "The numbers of the tokens do not matter", "statement": "Take a tokenizer and give every token another number, differently numbered tokens staying different: in the model's vocabulary (and, for pair merging, in the merges and the cached words), among the added tokens, in the template and for padding. Then encode gives, for every text and both values of add_special_tokens, the same result with the new numbers in place of the old ones (every other field the same, in the overflowing windows too), or the same exception, and leaves a tokenizer that corresponds in the same way, so this holds for every sequence of calls. decode of the new numbers gives the same text or the same exception as decode of the old ones. Adding tokens that are in the vocabulary keeps the correspondence. A pair-merging model built from the renumbered vocabulary and the same merge lines is the renumbered model. A word-piece model is supposed to contain its unknown token (or number 0 must stay 0).", "quantifier": "every tokenizer in the model, every one-to-one renumbering of the integers, every text, every flag, every list of ids; every priority queue that compares merges by rank only", "why_tests_cant": "a test compares a tokenizer under one numbering; this ranges over all numberings of all tokenizers", "anchors": ["src/tokenizer.cpp: encode", "src/tokenizer.cpp: decode", "src/tokenizer.cpp: add_tokens", "src/model.cpp: WordPiece", "src/model.cpp: BPE", "src/added_vocabulary.cpp: AddedVocabulary::find_matches"]}
{"id": "C141", "title": "Model options that a text does not need make no difference", "statement": "Two tokenizers whose models have the same vocabulary (and merge list) but different options encode a text alike - the same encoding or the same failure, after whatever earlier calls - if the options do not matter for the words of the text. Word-piece: limits on the word length that decide alike about each word are interchangeable; the unknown token matters only for words that are over the limit or cannot be segmented, the continuation prefix only for words that are not entries themselves and not over the limit. Byte-pair: unk_token and fuse_unk matter only for words with an unknown byte, fuse_unk only if there is an unknown token, byte_fallback only if a byte without an entry has byte tokens, ignore_merges only for words that are entries (and without dropout).", "quantifier": "all texts, all pairs of option settings, all vocabularies and merge lists, all configurations and earlier calls", "why_tests_cant": "a test compares two settings on a few texts; this ranges over all settings and texts", "anchors": ["src/model.cpp: WordPiece", "src/model.cpp: BPE", "src/model.cpp: tokenize_with_cache", "src/tokenizer.cpp: encode"]}
{"id": "C142", "title": "Of the list of merges only the rules and their order matter", "statement": "Two BPE models that are built from the same values, but for lists of merges that list the same rules in the same relative order, make encode return the same: the same encoding, or the same failure. In particular a header line, an empty line, a line with a piece that is no entry, or a second line about a pair already listed can be put anywhere into the list of merges, or taken out, without any effect.", "quantifier": "all vocabularies, options, dropout draws, lists of merges, texts and histories of calls; all platforms whose priority queue only compares ranks", "why_tests_cant": "The ranks are line numbers, and each inserted line shifts the ranks of all later rules; that the merge loop never uses more than their order must hold for every list, every text and every state of the queue.", "anchors": ["src/model.cpp: BPE", "src/model.cpp: Word", "src/model.cpp: Merge"]}
{"id": "C143", "title": "The order in which tokens are added does not matter", "statement": "Two lists of the same tokens are added to a tokenizer with a model. If every non-empty token of the list is already settled (added before, or a token of the model) and different tokens of the list have different ids, then adding the one list or the other leaves two tokenizers that answer every call alike, whatever is called on both afterwards, and the same number is returned for a permutation. Nor does it matter how the tokens are distributed over calls and in which order the calls are made. Tokens the model does not know are numbered in the order given, and of two tokens with one content the last decides the white space taken along, so for those the order is visible.", "quantifier": "every tokenizer with a model, whatever its components and its earlier additions, every pair of lists with the same tokens, every later sequence of calls", "why_tests_cant": "a test compares a few orders of a few tokens on a few texts; the claim is about all lists, all permutations and every text and call that may follow", "anchors": ["src/added_vocabulary.cpp: AddedVocabulary::add_tokens", "src/added_vocabulary.cpp: AddedVocabulary::refresh_added_tokens", "src/tokenizer.cpp: add_tokens"]}
{"id": "C144", "title": "Which added tokens are looked for", "statement": "After any sequence of calls on a constructed tokenizer, the contents that encode looks for before and after normalization, the ids they stand for and the flags they are matched with are functions of the configured list of tokens and the lists given since: a content is looked for if the model knows it (under the model's id) and it is the content of a configured token, of the first special token with this content, or of a token given while its content was not special, before normalization or after it as that token says; the flags of an id are those of the last token given under it. Encode and decode calls have no influence, and encode gives the same result for every added vocabulary that looks for the same contents with the same flags. A content is special exactly if it was ever given as special.", "quantifier": "every configured list, every model, every history of calls, every text", "why_tests_cant": "a test looks at a few tokens after a few calls; what is looked for depends on all earlier calls and their order", "anchors": ["src/added_vocabulary.cpp: AddedVocabulary::add_tokens", "src/added_vocabulary.cpp: AddedVocabulary::refresh_added_tokens", "src/added_vocabulary.cpp: AddedVocabulary::find_matches"]}
{"id": "C145", "title": "Adding the same tokens again changes nothing", "statement": "Once a list of tokens has been added with add_tokens (or add_special_tokens), adding the same list once more succeeds, returns the same number and leaves a tokenizer that answers every call exactly as before, whatever is called on it afterwards; in between, texts may have been encoded and decoded and the same list added any number of times. The list may contain new tokens, tokens of the model, empty contents, and several versions of one token. When other tokens were added in between this need not be so: the flags of a token are those of the last version given.", "quantifier": "every tokenizer (with or without a model), every list of tokens, every sequence of encode, decode and repeated add calls in between, every later sequence of calls", "why_tests_cant": "A test adds one list twice and looks at a few texts; the claim is about every list, every state of the tokenizer and everything that can be asked of it afterwards.", "anchors": ["src/added_vocabulary.cpp: AddedVocabulary::add_tokens", "src/added_vocabulary.cpp: AddedVocabulary::refresh_added_tokens", "src/tokenizer.cpp: add_tokens"]}
{"id": "C146", "title": "Special tokens may be configured or added later", "statement": "When a tokenizer can be constructed with a list of added tokens in its configuration, none of them empty and no two of the same content, it can be constructed without them as well, adding them afterwards by add_special_tokens (or add_tokens) succeeds, and the two tokenizers answer every call alike, whatever is called on both afterwards. With two versions of one token this fails: configured, both are looked for; added later, only the first.", "quantifier": "every configuration (with or without a model), every list of tokens with which the constructor succeeds, every later sequence of calls", "why_tests_cant": "A test compares two tokenizers on a few texts and tokens; the claim is about every configuration, list, text and later call.", "anchors": ["src/added_vocabulary.cpp: AddedVocabulary::add_tokens", "src/tokenizer.cpp: add_special_tokens"]}
