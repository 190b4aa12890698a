{
 "claims": [
  {
   "property": "C01",
   "status": "proved",
   "theorems": [
    "Tok.C01_injective",
    "Tok.C01_roundtrip"
   ],
   "note": "Full statement."
  },
  {
   "property": "C02",
   "status": "proved",
   "theorems": [
    "Tok.C02_from_string_iff",
    "Tok.C02_from_string_throws_iff",
    "Tok.C02_from_to",
    "Tok.C02_to_string_iff",
    "Tok.C02_to_string_throws_iff"
   ],
   "note": "Full statement: exact success/throw conditions in both directions."
  },
  {
   "property": "C03",
   "status": "proved",
   "theorems": [
    "Tok.C03_alphabet",
    "Tok.C03_hidden_increasing",
    "Tok.C03_injective",
    "Tok.C03_only_bytes"
   ],
   "note": "The finite table of 256 bytes, lifted to all bytes and pairs."
  },
  {
   "property": "C04",
   "status": "partial",
   "theorems": [
    "Tok.C04_fails_nonascii",
    "Tok.C04_lossless_partial",
    "Tok.C04_prefix_space_added",
    "Tok.C04_prefix_space_present",
    "Tok.C04_violated_empty",
    "Tok.C04_violated_nonascii"
   ],
   "note": "Proved: for non-empty ASCII text (both signedness conventions, any ordered in-range match list) the bytes are recovered; add_prefix_space adds one space exactly when missing. Refuted as stated: the empty text with add_prefix_space and any non-ASCII text (signed char) fail; C04_fails_nonascii shows it for every non-ASCII text."
  },
  {
   "property": "C05",
   "status": "partial",
   "theorems": [
    "Tok.C05_decode_inverts_partial",
    "Tok.C05_decode_value",
    "Tok.C05_violated"
   ],
   "note": "Proved: the exact value of the decoder for every byte string and that it inverts on the bytes mapped to themselves. Refuted: any of the remapped bytes comes back wrong (C05_violated)."
  },
  {
   "property": "C06",
   "status": "proved",
   "theorems": [
    "Tok.C06_isolated_lossless"
   ],
   "note": "Full statement for every ordered in-range match list."
  },
  {
   "property": "C07",
   "status": "proved",
   "theorems": [
    "Tok.C07_removed_gaps"
   ],
   "note": "Full statement."
  },
  {
   "property": "C08",
   "status": "partial",
   "theorems": [
    "Tok.C08_token_ids_kept_partial",
    "Tok.C08_tokens_kept_partial",
    "Tok.C08_violated_prefix",
    "Tok.C08_violated_text"
   ],
   "note": "Proved: token list survives for every tree without ByteLevel add_prefix_space, text too when there is no ByteLevel. Refuted otherwise: ByteLevel rewrites the text of recognized tokens, add_prefix_space discards them."
  },
  {
   "property": "C09",
   "status": "proved",
   "theorems": [
    "Tok.C09_bert_pieces",
    "Tok.C09_pieces_postcondition"
   ],
   "note": "Full statement: equality with the specification pieces and its postcondition."
  },
  {
   "property": "C10",
   "status": "proved",
   "theorems": [
    "Tok.C10_offsets_tile",
    "Tok.wordPiece_splits"
   ],
   "note": "Full statement."
  },
  {
   "property": "C11",
   "status": "proved",
   "theorems": [
    "Tok.C11_greedy_spells",
    "Tok.C11_needs_clean",
    "Tok.C11_spell_all",
    "Tok.C11_tokens_spell_word"
   ],
   "note": "C11_spell_all: full statement for every vocabulary, in UTF-16 units. C11_tokens_spell_word: the same in code points, for words of the basic multilingual plane or vocabularies without U+FFFD; C11_needs_clean shows that in code points this restriction is needed."
  },
  {
   "property": "C12",
   "status": "proved",
   "theorems": [
    "Tok.C12_C13_answer",
    "Tok.C12_answer_all",
    "Tok.C12_greedy_unique"
   ],
   "note": "C12_answer_all: for every vocabulary, in UTF-16 units, the answer is exactly the one of the specification. C12_C13_answer: the same in code points, for words of the basic multilingual plane or vocabularies without U+FFFD; the segmentation is unique."
  },
  {
   "property": "C13",
   "status": "proved",
   "theorems": [
    "Tok.C13_greedy_not_stuck",
    "Tok.C12_C13_answer",
    "Tok.C12_answer_all"
   ],
   "note": "Full statement: C12_answer_all for every vocabulary (in UTF-16 units), C12_C13_answer in code points."
  },
  {
   "property": "C14",
   "status": "proved",
   "theorems": [
    "Tok.C14_vocab_word_whole"
   ],
   "note": "Full statement."
  },
  {
   "property": "C15",
   "status": "proved",
   "theorems": [
    "Tok.C15_terminates",
    "Tok.bpe_tokenize"
   ],
   "note": "Full statement, for every law-abiding priority queue and draw sequence. Fits says that the number of symbols of the word fits an int."
  },
  {
   "property": "C16",
   "status": "proved",
   "theorems": [
    "Tok.C16_only_vocabulary"
   ],
   "note": "Full statement."
  },
  {
   "property": "C17",
   "status": "partial",
   "theorems": [
    "Tok.C17_offsets_partial",
    "Tok.C17_violated"
   ],
   "note": "Proved for every word ignore_merges does not answer, with the exact end of the last offset in every case (byte fallback, dropped bytes, affixes). Refuted: an ignore_merges hit reports offsets {0,0}."
  },
  {
   "property": "C18",
   "status": "proved",
   "theorems": [
    "Tok.C18_concat",
    "Tok.C18_lossless"
   ],
   "note": "Full statement. Fits says that the number of symbols of the word fits an int."
  },
  {
   "property": "C19",
   "status": "proved",
   "theorems": [
    "Tok.C19_normal_form"
   ],
   "note": "Full statement. Fits says that the number of symbols of the word fits an int."
  },
  {
   "property": "C20",
   "status": "partial",
   "theorems": [
    "Tok.C20_additive",
    "Tok.C20_no_prefix",
    "Tok.C20_violated",
    "Tok.C20_worst_first",
    "Tok.C20_worst_first_any"
   ],
   "note": "Refuted (C20_violated): the heap order is inverted. Proved instead: the popped merge always has the worst (largest) rank among those waiting, when different pairs make different entries (C20_worst_first) or when merges make pieces longer (C20_worst_first_any; C20_additive, C20_no_prefix: which lists are of this kind)."
  },
  {
   "property": "C21",
   "status": "proved",
   "theorems": [
    "Tok.C21_cache_invisible"
   ],
   "note": "Full statement, over every history of calls."
  },
  {
   "property": "C22",
   "status": "partial",
   "theorems": [
    "Tok.C22_violated"
   ],
   "note": "Refuted: BPE walks bytes, so for every multi-byte character a vocabulary exists in which it is an entry but is reported unknown/dropped."
  },
  {
   "property": "C23",
   "status": "partial",
   "theorems": [
    "Tok.C23_violated",
    "Tok.C23_violated_empty"
   ],
   "note": "Refuted: an empty symbol list always ends in undefined behaviour (both for unknown-only and for empty text)."
  },
  {
   "property": "C24",
   "status": "partial",
   "theorems": [
    "Tok.C24_never_hex",
    "Tok.C24_violated"
   ],
   "note": "Refuted: the fallback name is built as \"<000b>\"-style text, never \"<0xNN>\" (C24_never_hex, for every byte)."
  },
  {
   "property": "C25",
   "status": "proved",
   "theorems": [
    "Tok.C25_dropout_one",
    "Tok.C25_dropout_zero",
    "Tok.C25_repeatable",
    "Tok.C25_unmerged"
   ],
   "note": "Full statement."
  },
  {
   "property": "C26",
   "status": "proved",
   "theorems": [
    "Tok.C26_fused",
    "Tok.C26_unfused"
   ],
   "note": "Full statement. Fits says that the number of symbols of the word fits an int. \"Outside the merge table\" is read as: in no listed merge, and not itself the entry of a byte or of a byte token."
  },
  {
   "property": "C27",
   "status": "proved",
   "theorems": [
    "Tok.C27_count",
    "Tok.C27_returns"
   ],
   "note": "Full statement over every history."
  },
  {
   "property": "C28",
   "status": "proved",
   "theorems": [
    "Tok.C28_ids_stable",
    "Tok.C28_model_id_kept"
   ],
   "note": "Full statement over every history."
  },
  {
   "property": "C29",
   "status": "partial",
   "theorems": [
    "Tok.C29_ids_distinct_partial",
    "Tok.C29_violated"
   ],
   "note": "Proved when the vocabulary ids are 0..n-1. Refuted for a vocabulary with a gap."
  },
  {
   "property": "C30",
   "status": "partial",
   "theorems": [
    "Tok.C30_lookup_partial",
    "Tok.C30_violated"
   ],
   "note": "Proved for dense vocabularies. Refuted in general: two contents sharing an id overwrite each other."
  },
  {
   "property": "C31",
   "status": "partial",
   "theorems": [
    "Tok.C31_lossless_partial",
    "Tok.C31_normalized_partial",
    "Tok.C31_violated_overlap",
    "Tok.C31_violated_supplementary",
    "Tok.C31_violated_throws"
   ],
   "note": "Proved for texts of the basic multilingual plane and non-overlapping/strip-free matches. Refuted for supplementary characters, overlapping tokens and rstrip on non-ASCII (throws). What the segments are in those cases is given exactly by C108."
  },
  {
   "property": "C32",
   "status": "partial",
   "theorems": [
    "Tok.C32_encoded_partial",
    "Tok.C32_violated",
    "Tok.C32_word_start_partial"
   ],
   "note": "Proved for tokens of the model vocabulary that start the text or follow a space: C32_word_start_partial on the level of the lookup tables, C32_encoded_partial end to end (any history of calls, word-piece model, the ids and tokens encode returns). Refuted (C32_violated): added tokens outside the model vocabulary are never recognized, none is inside a word, and the byte-pair model splits a recognized token again."
  },
  {
   "property": "C33",
   "status": "partial",
   "theorems": [
    "Tok.C33_special_iff_partial",
    "Tok.C33_special_stays",
    "Tok.C33_violated"
   ],
   "note": "Proved for tokens given with special=true content flags as the code needs; stays special for ever. Refuted: add_special_tokens does not set the flag."
  },
  {
   "property": "C34",
   "status": "proved",
   "theorems": [
    "Tok.C34_right_truncation"
   ],
   "note": "Full statement."
  },
  {
   "property": "C35",
   "status": "partial",
   "theorems": [
    "Tok.C35_left_diverges",
    "Tok.C35_left_truncation_partial",
    "Tok.C35_violated"
   ],
   "note": "Proved: first window, and divergence condition for every case. Refuted: windows step by offset-1 and the loop need not end."
  },
  {
   "property": "C36",
   "status": "partial",
   "theorems": [
    "Tok.C36_fits_unchanged",
    "Tok.C36_max_length_partial",
    "Tok.C36_violated_negative",
    "Tok.C36_violated_strategy",
    "Tok.C36_violated_zero"
   ],
   "note": "Proved for max_length > 0 and the longest_first strategy. Refuted for max_length = 0, negative values and other strategies."
  },
  {
   "property": "C37",
   "status": "proved",
   "theorems": [
    "Tok.C37_C38_padding",
    "Tok.C37_negative_throws",
    "Tok.C37_padded_length"
   ],
   "note": "Full statement for non-negative sizes; negative sizes throw (C37_negative_throws)."
  },
  {
   "property": "C38",
   "status": "proved",
   "theorems": [
    "Tok.C37_C38_padding"
   ],
   "note": "Full statement."
  },
  {
   "property": "C39",
   "status": "proved",
   "theorems": [
    "Tok.C39_any_template",
    "Tok.C39_template_layout"
   ],
   "note": "Full statement."
  },
  {
   "property": "C40",
   "status": "partial",
   "theorems": [
    "Tok.C40_kept_partial",
    "Tok.C40_violated"
   ],
   "note": "Proved for post-processors without a Template. Refuted: Template drops the overflow windows."
  },
  {
   "property": "C41",
   "status": "proved",
   "theorems": [
    "Tok.C41_only_narrows",
    "Tok.C41_trim_value"
   ],
   "note": "Full statement."
  },
  {
   "property": "C42",
   "status": "proved",
   "theorems": [
    "Tok.C42_aligned",
    "Tok.C42_violated"
   ],
   "note": "Full statement under the stated assumption on template tables; C42_violated shows the assumption is needed."
  },
  {
   "property": "C43",
   "status": "proved",
   "theorems": [
    "Tok.C43_masks",
    "Tok.C43_rows"
   ],
   "note": "Full statement under the stated assumption on template tables."
  },
  {
   "property": "C44",
   "status": "partial",
   "theorems": [
    "Tok.C44_length",
    "Tok.C44_max_length_partial",
    "Tok.C44_violated",
    "Tok.C44_violated_all"
   ],
   "note": "Proved: exact length; bounded by max_length plus special tokens. Refuted: special tokens are added after truncation."
  },
  {
   "property": "C45",
   "status": "partial",
   "theorems": [
    "Tok.C45_bpe_partial",
    "Tok.C45_violated",
    "Tok.C45_wordPiece_partial"
   ],
   "note": "Proved for ASCII/BMP text without normalizer, WordPiece and BPE, pre-tokenizers that only cut. Refuted in general."
  },
  {
   "property": "C46",
   "status": "proved",
   "theorems": [
    "Tok.C46_violated",
    "Tok.C46_words"
   ],
   "note": "Full statement under the stated assumption on the template; C46_violated shows the assumption is needed."
  },
  {
   "property": "C47",
   "status": "proved",
   "theorems": [
    "Tok.C47_add",
    "Tok.C47_decode",
    "Tok.C47_decode_needs_nonempty",
    "Tok.C47_encode"
   ],
   "note": "Full statement for encode, add_tokens and decode."
  },
  {
   "property": "C48",
   "status": "proved",
   "theorems": [
    "Tok.C48_skip_special",
    "Tok.C48_special_id"
   ],
   "note": "Full statement."
  },
  {
   "property": "C49",
   "status": "proved",
   "theorems": [
    "Tok.C49_decoder_total",
    "Tok.C49_unknown_ids"
   ],
   "note": "Full statement."
  },
  {
   "property": "C50",
   "status": "proved",
   "theorems": [
    "Tok.C50_roundtrip"
   ],
   "note": "Full statement."
  },
  {
   "property": "C51",
   "status": "partial",
   "theorems": [
    "Tok.C51_returns_text_partial",
    "Tok.C51_violated",
    "Tok.C51_violated_decode"
   ],
   "note": "Proved for WordPiece, ByteLevel, sequences. Refuted: Replace, ByteFallback, Fuse and Strip return nothing."
  },
  {
   "property": "C52",
   "status": "partial",
   "theorems": [
    "Tok.C52_missing_section",
    "Tok.C52_nothing",
    "Tok.C52_succeeds_partial",
    "Tok.C52_throws_iff",
    "Tok.C52_unreadable",
    "Tok.C52_unsafe",
    "Tok.C52_violated"
   ],
   "note": "Proved: the exceptions for no input, unreadable file, missing section; a document throws (runtime_error) exactly when it describes no tokenizer (C52_throws_iff); it succeeds exactly when in addition the added tokens are safe (C52_succeeds_partial, C52_unsafe). Refuted: a complete document with a non-special added token is undefined behaviour (C52_violated). Parsing JSON text is simdjson and not modelled: the model starts from the document tree."
  },
  {
   "property": "C53",
   "status": "partial",
   "theorems": [
    "Tok.C53_empty_partial",
    "Tok.C53_returns_iff",
    "Tok.C53_violated"
   ],
   "note": "Refuted whenever the tokenizer has an added vocabulary, i.e. for practically every configuration (C53_violated). Without one: exact characterisation (C53_returns_iff), and it returns for every pre-tokenizer that drops empty pieces (C53_empty_partial)."
  },
  {
   "property": "C54",
   "status": "partial",
   "theorems": [
    "Tok.C54_bert_steps",
    "Tok.C54_cjk",
    "Tok.C54_cjk_gap",
    "Tok.C54_cjk_unique",
    "Tok.C54_cjk_value",
    "Tok.C54_clean_exact",
    "Tok.C54_clean_one",
    "Tok.C54_clean_returns",
    "Tok.C54_clean_unique",
    "Tok.C54_clean_value",
    "Tok.C54_last_dropped",
    "Tok.C54_violated"
   ],
   "note": "CJK padding: full statement, including that it always returns. Cleaning: the text is exactly as specified whenever the call returns (C54_clean_value), and the exact condition for returning on every text (C54_clean_exact; C54_clean_returns for ASCII). Refuted: cleaning a text with two dropped characters at the end is undefined behaviour (C54_violated; C54_last_dropped: whenever the last character and another one are dropped)."
  },
  {
   "property": "C55",
   "status": "partial",
   "theorems": [
    "Tok.C55_cjk",
    "Tok.C55_lowercase_partial",
    "Tok.C55_prepend_partial",
    "Tok.C55_start_partial",
    "Tok.C55_violated_clean",
    "Tok.C55_violated_nfd",
    "Tok.C55_violated_strip",
    "Tok.C55_violated_supplementary"
   ],
   "note": "Proved for construction, CJK, lowercase, prepend. Refuted for cleaning, strip, NFD and supplementary characters."
  },
  {
   "property": "C56",
   "status": "partial",
   "theorems": [
    "Tok.C56_strip_partial",
    "Tok.C56_strip_value",
    "Tok.C56_violated"
   ],
   "note": "Proved: exact value, infix. Refuted: the white-space test looks at the low byte."
  },
  {
   "property": "C57",
   "status": "partial",
   "theorems": [
    "Tok.C57_bmp_partial",
    "Tok.C57_violated"
   ],
   "note": "Proved for strings of the basic multilingual plane. Refuted for every string with a supplementary character: encode throws (C57_violated)."
  },
  {
   "property": "C58",
   "status": "proved",
   "theorems": [
    "Tok.C58_cleanup_returns",
    "Tok.C58_replaced",
    "Tok.C58_unchanged",
    "Tok.C58_unique"
   ],
   "note": "Full statement."
  },
  {
   "property": "C59",
   "status": "partial",
   "theorems": [
    "Tok.C59_safe_iff",
    "Tok.C59_violated"
   ],
   "note": "Exact characterisation (C59_safe_iff). Refuted: a non-special added token makes the constructor alias and destroy its own argument."
  },
  {
   "property": "C60",
   "status": "partial",
   "theorems": [
    "Tok.C60_plain_partial",
    "Tok.C60_spelling",
    "Tok.C60_violated"
   ],
   "note": "Proved for keys without a backslash; C60_spelling says what key is stored in general. Refuted for keys with JSON escapes (C60_violated)."
  },
  {
   "property": "C61",
   "status": "proved",
   "theorems": [
    "Tok.C61_decoders",
    "Tok.C61_normalizers",
    "Tok.C61_postProcessors",
    "Tok.C61_preTokenizers"
   ],
   "note": "Full statement."
  },
  {
   "property": "C62",
   "status": "partial",
   "theorems": [
    "Tok.C62_only_prefix",
    "Tok.C62_violated"
   ],
   "note": "Refuted: std::regex_constants::optimize is taken as the length of the string, so the pattern is its first four characters (C62_violated, C62_only_prefix)."
  },
  {
   "property": "C63",
   "status": "partial",
   "theorems": [
    "Tok.C63_applied_partial",
    "Tok.C63_nothing_left",
    "Tok.C63_pieces",
    "Tok.C63_violated",
    "Tok.C63_violated_nothing_left",
    "Tok.C63_violated_prefix",
    "Tok.C63_words"
   ],
   "note": "Proved for every added vocabulary (also with tokens matched before normalization) and every text: C63_words (any settings) and C63_pieces (no truncation, no padding: ids and tokens): the encoding consists of the model answers for the added tokens and of the encodings, by the tokenizer without normalizer, of the normalized ordinary pieces; C63_applied_partial is the case without tokens matched before normalization, with positions. Refuted without added vocabulary (never applied, C63_violated), with ByteLevel add_prefix_space (C63_violated_prefix), and when nothing is left of the text after normalization (C63_violated_nothing_left; C63_nothing_left says what happens then)."
  },
  {
   "property": "C64",
   "status": "partial",
   "theorems": [
    "Tok.C64_violated"
   ],
   "note": "Refuted: the option has no effect at all (C64_violated)."
  },
  {
   "property": "C65",
   "status": "partial",
   "theorems": [
    "Tok.C65_accents_partial",
    "Tok.C65_nf_returns",
    "Tok.C65_strip_accents",
    "Tok.C65_violated_accents",
    "Tok.C65_violated_clean"
   ],
   "note": "Proved for the normal forms, stand-alone StripAccents, and accent stripping of already decomposed text. Refuted for BERT cleaning and accent stripping (C65_violated_*)."
  },
  {
   "property": "C66",
   "status": "partial",
   "theorems": [
    "Tok.C66_prepend_partial",
    "Tok.C66_violated"
   ],
   "note": "Proved for every non-empty text. Refuted for the empty text (undefined behaviour, C66_violated)."
  },
  {
   "property": "C67",
   "status": "partial",
   "theorems": [
    "Tok.C67_no_match",
    "Tok.C67_replace_partial",
    "Tok.C67_violated"
   ],
   "note": "Proved: no match leaves the text unchanged; single-character matches and content. Refuted for longer matches, longer content, and for several matches (C67_violated)."
  },
  {
   "property": "C68",
   "status": "proved",
   "theorems": [
    "Tok.C68_described"
   ],
   "note": "Full statement, from the document tree."
  },
  {
   "property": "C69",
   "status": "partial",
   "theorems": [
    "Tok.C69_faithful_iff",
    "Tok.C69_value",
    "Tok.C69_violated",
    "Tok.C69_violated_nul"
   ],
   "note": "Proved: the value for every decoded text and the exact condition under which it is faithful (C69_faithful_iff). Refuted for supplementary characters and NUL."
  },
  {
   "property": "C70",
   "status": "partial",
   "theorems": [
    "Tok.C70_config_iff",
    "Tok.C70_no_nul",
    "Tok.C70_violated"
   ],
   "note": "Exact condition (C70_config_iff): faithful iff the string has neither NUL nor supplementary characters. Refuted otherwise."
  },
  {
   "property": "C71",
   "status": "partial",
   "theorems": [
    "Tok.C71_concat",
    "Tok.C71_order_needed",
    "Tok.C71_prefix"
   ],
   "note": "Proved for every decoder in which ByteLevel, if present, comes last (C71_prefix; the ByteLevel concatenation law is C71_concat). Refuted when a cleaning WordPiece decoder follows ByteLevel (C71_order_needed)."
  },
  {
   "property": "C72",
   "status": "proved",
   "theorems": [
    "Tok.C72_decodable",
    "Tok.C72_ids_match_tokens",
    "Tok.C72_needs_specials",
    "Tok.C72_needs_unk"
   ],
   "note": "C72_decodable and C72_ids_match_tokens; both configuration hypotheses are shown necessary (C72_needs_unk: id 0 is invented for a missing unknown token; C72_needs_specials)."
  },
  {
   "property": "C73",
   "status": "partial",
   "theorems": [
    "Tok.C73_accents_partial",
    "Tok.C73_any_bpe_partial",
    "Tok.C73_any_only_if",
    "Tok.C73_any_partial",
    "Tok.C73_bert_any_partial",
    "Tok.C73_bert_partial",
    "Tok.C73_bert_usable",
    "Tok.C73_bpe_normalized_partial",
    "Tok.C73_bpe_partial",
    "Tok.C73_bpe_unk_partial",
    "Tok.C73_free_cuts",
    "Tok.C73_no_tokens_partial",
    "Tok.C73_normalized_partial",
    "Tok.C73_plain_partial",
    "Tok.C73_returns_partial",
    "Tok.C73_violated",
    "Tok.C73_violated_accents"
   ],
   "note": "Proved: WordPiece (or no model) returns on every safe text; for byte-pair models, returns iff every pre-token is answered by ignore_merges or has a byte that yields a symbol. C73_bert_partial adds the BERT normalizer together with an added vocabulary. C73_normalized_partial, C73_bpe_normalized_partial: any normalizer whose results are usable, encode returns iff it returns on every ordinary piece. C73_any_partial, C73_any_bpe_partial: every text of Unicode characters, also above U+FFFF, and every flag of the added tokens, if the pieces prescribed by C108 are not empty, do not overlap, added tokens stand for ASCII text and the normalizer leaves usable results; C73_any_only_if: what of this is necessary; C73_free_cuts: without flags pieces never overlap; C73_plain_partial, C73_no_tokens_partial, C73_bert_usable, C73_bert_any_partial: texts in which no added token is recognized, without normalizer or behind a BERT normalizer. Missing: Isolated splits whose pattern can match the empty text, an empty text with added tokens, unknown truncation directions, negative fixed padding are refuted (C73_violated)."
  },
  {
   "property": "C74",
   "status": "partial",
   "theorems": [
    "Tok.C74_bert_partial",
    "Tok.C74_violated",
    "Tok.C74_wordPiece_partial"
   ],
   "note": "Proved for every text of characters up to U+FFFF in which nothing is dropped (control characters, with clean_text) or decomposed (accents, with strip_accents or lowercase), with any mix of white-space cleaning, ideograph padding and lower-casing, added tokens before and after normalization; C74_violated shows stripped accents and dropped control characters shift all later offsets."
  },
  {
   "property": "C75",
   "status": "partial",
   "theorems": [
    "Tok.C75_encode_partial",
    "Tok.C75_mixed_partial",
    "Tok.C75_returns_partial",
    "Tok.C75_table_kept",
    "Tok.C75_used_partial",
    "Tok.C75_used_returns_partial"
   ],
   "note": "Proved for every schedule of atomic container accesses (C75_encode_partial: encode on any tokenizer with an empty cache; C75_mixed_partial, C75_returns_partial: encode and decode on a constructed tokenizer whose model has no empty token; C75_used_partial, C75_used_returns_partial: the same after any history of calls; C75_table_kept). Missing: the accesses are not atomic in the code - where they conflict the behaviour is undefined (C76)."
  },
  {
   "property": "C76",
   "status": "partial",
   "theorems": [
    "Tok.C76_decode_partial",
    "Tok.C76_exact",
    "Tok.C76_quiet_partial",
    "Tok.C76_uncached_partial",
    "Tok.C76_violated",
    "Tok.C76_violated_added"
   ],
   "note": "Refuted: C76_violated (every byte-pair encoding that misses its cache), C76_violated_added (added tokens are looked up with operator[]). C76_exact characterises when two equal calls can race; C76_decode_partial, C76_uncached_partial, C76_quiet_partial give the race-free classes."
  },
  {
   "property": "C77",
   "status": "proved",
   "theorems": [
    "Tok.C77_plain",
    "Tok.C77_text_only"
   ],
   "note": "Hypotheses: Fit (no truncation applies), NamesSequence, template and padding ids are special. Examples: rt_wordsBert (BERT with template, truncation 10, padding), rt_space."
  },
  {
   "property": "C78",
   "status": "partial",
   "theorems": [
    "Tok.C78_roundtrip_partial",
    "Tok.C78_skip_partial",
    "Tok.C78_violated",
    "Tok.C78_visible"
   ],
   "note": "False as stated (C78_violated: blanks are lost, non-ASCII throws with signed char). Proved: for texts whose pre-tokens are entries answered by ignore_merges or consist of visible ASCII characters with entries of their own, after any history, with any merges, with and without special tokens/padding; and without side conditions on pre-tokens for visible ASCII (C78_visible). Missing: texts with byte fallback or unknown tokens (they do not come back)."
  },
  {
   "property": "C79",
   "status": "proved",
   "theorems": [
    "Tok.C79_violated",
    "Tok.C79_words",
    "Tok.C79_words_plain"
   ],
   "note": "C79_violated shows that each of the conditions single spaces, no punctuation, covered words is needed. Example: rt_wordsBert."
  },
  {
   "property": "C80",
   "status": "proved",
   "theorems": [
    "Tok.C80_otherwise",
    "Tok.C80_overshoot",
    "Tok.C80_returns_iff"
   ],
   "note": "Exact condition in both directions; the failing cases are named (C80_otherwise, C80_overshoot)."
  },
  {
   "property": "C81",
   "status": "proved",
   "theorems": [
    "Tok.C81_fixed_size",
    "Tok.C81_needs_room"
   ],
   "note": "C81_needs_room shows that the room condition is needed."
  },
  {
   "property": "C82",
   "status": "partial",
   "theorems": [
    "Tok.C82_lists",
    "Tok.C82_output",
    "Tok.C82_run",
    "Tok.C82_run_vectors",
    "Tok.C82_tokens_violated",
    "Tok.C82_vectors"
   ],
   "note": "Proved for every list of numbers, optional numbers and pairs, for the ids and type ids of whole runs (C82_run), and, when every token is the single quote or has no single quote (or the tokens agree), for every printed vector and the decoded text (C82_vectors, C82_run_vectors). Refuted for other tokens (C82_tokens_violated): quotes inside a token are not escaped."
  },
  {
   "property": "C83",
   "status": "proved",
   "theorems": [
    "Tok.C83_python_iff",
    "Tok.C83_violated"
   ],
   "note": "Exact condition; C83_violated shows a differing token ('s)."
  },
  {
   "property": "C84",
   "status": "proved",
   "theorems": [
    "Tok.C84_masked"
   ],
   "note": "The tensor operations are outside the model."
  },
  {
   "property": "C85",
   "status": "partial",
   "theorems": [
    "Tok.C85_cut_partial",
    "Tok.C85_disjoint",
    "Tok.C85_tables",
    "Tok.C85_tokens",
    "Tok.C85_unique",
    "Tok.C85_violated"
   ],
   "note": "Exact description proved for texts without code points above U+FFFF and (no flags, or ASCII text and tokens without blanks): a token is recognized iff it is the shortest token at the start of the text, after U+0020 or directly after a recognized token, and contains no space; single_word, lstrip and rstrip are described exactly; the pieces are unique. The intended property (longest, anywhere) is refuted by C85_violated. The exact description for all other texts is C108."
  },
  {
   "property": "C86",
   "status": "partial",
   "theorems": [
    "Tok.C86_tokenize_any_partial",
    "Tok.C86_tokenize_partial",
    "Tok.C86_violated",
    "Tok.C86_word_any_partial",
    "Tok.C86_word_partial"
   ],
   "note": "Proved for every text and any two conforming priority queues when no entry merges with itself, different pairs merge into different entries, and a merge that uses an entry is listed before those that make it (C86_word_partial, C86_tokenize_partial); different pairs may also make the same entry if no two vocabulary entries have one id and every second entry is longer than the continuation prefix - always, without one (C86_word_any_partial, C86_tokenize_any_partial). Refuted without these conditions: C86_violated gives two conforming queues with different tokens for the merge list 'a a' and for the trained-order list 'a b','ab a'."
  },
  {
   "property": "C87",
   "status": "partial",
   "theorems": [
    "Tok.C87_reference_any_partial",
    "Tok.C87_reference_partial",
    "Tok.C87_reversed_any_partial",
    "Tok.C87_reversed_partial",
    "Tok.C87_violated"
   ],
   "note": "C87_reversed_partial: every step applies the least-ranked applicable merge of the original list and the result admits none; C87_reference_partial: under NoSelf and MadeBefore it is the only such result. C87_reversed_any_partial, C87_reference_any_partial: the same when different pairs make the same entry. Refuted for lists with two lines about a pair (the last counts) and for texts ignore_merges finds directly (C87_violated); texts without symbols are undefined (C23)."
  },
  {
   "property": "C88",
   "status": "partial",
   "theorems": [
    "Tok.C88_bert_partial",
    "Tok.C88_bpe_partial",
    "Tok.C88_violated",
    "Tok.C88_violated_normalizer",
    "Tok.C88_wordPiece_partial"
   ],
   "note": "Proved for WordPiece on every text of scalar values (added tokens: BMP, no normalizer) with cutting pre-tokenizers (C88_wordPiece_partial), and for byte-pair encoding on ASCII text, without byte fallback or without affixes (C88_bpe_partial), including trimmed offsets and overflowing windows; behind a BERT normalizer and pre-tokenizer on text in which nothing is dropped or decomposed (C88_bert_partial). Refuted for byte-pair encoding on non-ASCII text (C88_violated: offsets overlap and leave the text) and behind a normalizer that makes several characters of one (C88_violated_normalizer)."
  },
  {
   "property": "C89",
   "status": "proved",
   "theorems": [
    "Tok.C89_documents",
    "Tok.C89_exact",
    "Tok.C89_order",
    "Tok.C89_violated"
   ],
   "note": "C89_order (any reordering of the map, after any history), C89_documents (two documents with the vocabulary entries permuted: same failures, same answers), C89_exact (the condition on ids is necessary and sufficient for id_to_token), C89_violated (two entries with one id: the encoding itself depends on the order)."
  },
  {
   "property": "C90",
   "status": "proved",
   "theorems": [
    "Tok.C90_replace"
   ],
   "note": "Exact in every case (C67 has the weaker statements and the refutations)."
  },
  {
   "property": "C91",
   "status": "partial",
   "theorems": [
    "Tok.C91_any_bpe_partial",
    "Tok.C91_any_partial",
    "Tok.C91_encode_bpe_partial",
    "Tok.C91_encode_partial",
    "Tok.C91_metaspace",
    "Tok.C91_metaspace_bmp",
    "Tok.C91_text_any_partial"
   ],
   "note": "Normalization: exact (C91_metaspace, C91_metaspace_bmp). encode: exact for added tokens without flags and text up to U+FFFF (C91_encode_partial, C91_encode_bpe_partial); for every text of Unicode characters and every flag, exact when the text is cut well at the added tokens \u2014 no empty or overlapping pieces, ASCII added tokens (C91_any_partial, C91_any_bpe_partial, C91_text_any_partial)."
  },
  {
   "property": "C92",
   "status": "proved",
   "theorems": [
    "Tok.C92_truncation"
   ],
   "note": "Exact in every case. Signed overflow of loop variables near 2^31 is not modelled."
  },
  {
   "property": "C93",
   "status": "proved",
   "theorems": [
    "Tok.C93_answers"
   ],
   "note": "Exact in both directions; the bound says that the number of symbols fits an int."
  },
  {
   "property": "C94",
   "status": "proved",
   "theorems": [
    "Tok.C94_outcome"
   ],
   "note": "Exact. Parsing of JSON text (simdjson) is not modelled; the model starts from the document tree."
  },
  {
   "property": "C95",
   "status": "proved",
   "theorems": [
    "Tok.C95_byteLevel"
   ],
   "note": "Exact (C04 has the version for splits with tokens, and the refutations)."
  },
  {
   "property": "C96",
   "status": "proved",
   "theorems": [
    "Tok.C96_accents",
    "Tok.C96_mismatches",
    "Tok.C96_one_accent",
    "Tok.C96_two_accents"
   ],
   "note": "Exact for every text without dropped characters (C96_accents, C96_mismatches); C96_one_accent, C96_two_accents are the two families of texts. What it means for encode: C73_accents_partial, C73_violated_accents."
  },
  {
   "property": "C97",
   "status": "proved",
   "theorems": [
    "Tok.C97_bert",
    "Tok.C97_interference"
   ],
   "note": "C97_bert is an exact characterisation without restriction on text or flags (hypothesis: the number of mismatches, which always exists and is unique, C96_mismatches). C97_interference: cleaning shortens the table so that padding of a later ideograph is undefined. C54_clean_exact, C54_last_dropped state the cleaning step for every text."
  },
  {
   "property": "C98",
   "status": "proved",
   "theorems": [
    "Tok.C98_decode",
    "Tok.C98_encode",
    "Tok.C98_new"
   ],
   "note": "C98_encode, C98_new without hypotheses on the configuration; C98_decode for vocabularies without an empty token (needed: C47_decode_needs_nonempty). What simdjson makes of the configuration text is a parameter."
  },
  {
   "property": "C99",
   "status": "partial",
   "theorems": [
    "Tok.C99_never_freed",
    "Tok.C99_violated"
   ],
   "note": "Refuted (C99_violated): for every n there is a session that keeps no Java object and occupies n native tokenizers. Exact: the number of native tokenizers is the number ever created (C99_never_freed)."
  },
  {
   "property": "C100",
   "status": "partial",
   "theorems": [
    "Tok.C100_app",
    "Tok.C100_empty"
   ],
   "note": "Exact (C100_app): the app shows for each input what a new tokenizer gives, up to the first input for which that fails. C100_empty: a click without text ends the app whenever the configuration lists added tokens. Hypothesis: no empty token in the vocabulary."
  },
  {
   "property": "C101",
   "status": "partial",
   "theorems": [
    "Tok.C101_in_order",
    "Tok.C101_pieces",
    "Tok.C101_unique",
    "Tok.C101_violated"
   ],
   "note": "C101_pieces and C101_unique: in every case the tokens come by listed merges from the pieces described by the specification, which are unique. C101_in_order: they are in the order of the text when no byte is unknown or (without fusing) no byte has byte tokens. C101_violated: otherwise the property is false: byte tokens overtake the unknown token."
  },
  {
   "property": "C102",
   "status": "proved",
   "theorems": [
    "Tok.C102_examples",
    "Tok.C102_lookup",
    "Tok.C102_no_clash_iff",
    "Tok.C102_numbering",
    "Tok.C102_returns_iff",
    "Tok.C102_unique"
   ],
   "note": "C102_numbering (the ids), C102_unique (the specification determines them), C102_lookup (ids looked up in decode; no empty token in the vocabulary), C102_no_clash_iff (exact condition for never sharing an id, which also settles C29), C102_returns_iff (when adding tokens returns)."
  },
  {
   "property": "C103",
   "status": "proved",
   "theorems": [
    "Tok.C103_bert",
    "Tok.C103_bert_all",
    "Tok.C103_unique"
   ],
   "note": "C103_bert_all: for every text and all flags of the added tokens, the ids and tokens of every result are those of the specification; at_items_unique / C103_unique: it prescribes one result. C103_bert: the same with the simpler cutting of C85, for the texts of C85. That encode returns is C73; padding and left truncation are in C105."
  },
  {
   "property": "C104",
   "status": "proved",
   "theorems": [
    "Tok.C104_table",
    "Tok.C104_text",
    "Tok.C104_texts",
    "Tok.C104_unique",
    "Tok.C104_uniques"
   ],
   "note": "C104_text: the returned text is in relation NormalizesTo (a small inductive specification) with the given one; C104_unique: that relation is functional; C104_table: hence the table does not matter."
  },
  {
   "property": "C105",
   "status": "proved",
   "theorems": [
    "Tok.C105_encode",
    "Tok.C105_encode_partial",
    "Tok.C105_pre_unique",
    "Tok.C105_pre_uniques",
    "Tok.C105_prefix_discards",
    "Tok.C105_tokens_unique",
    "Tok.C105_words_unique"
   ],
   "note": "C105_encode: ids and tokens of every returned encoding are those of the specification (one small rule per component: Spec/Pipeline.lean, Spec/AnyText.lean), for every text. C105_pre_unique, C108_words_unique, C105_tokens_unique: the specification prescribes a single result; C105_prefix_discards: what add_prefix_space throws away. C105_encode_partial: the same with the simpler cutting of C85. BPE words are assumed to be shorter than 2^31 bytes and the text to give fewer than 2^31 tokens."
  },
  {
   "property": "C106",
   "status": "proved",
   "theorems": [
    "Tok.C106_encode",
    "Tok.C106_encode_partial",
    "Tok.C106_padded_unique",
    "Tok.C106_processed_unique",
    "Tok.C106_processed_uniques",
    "Tok.C106_windows_unique"
   ],
   "note": "C106_encode (every text), with C106_windows_unique, C106_processed_unique, C106_padded_unique (the specification of Spec/Rows.lean prescribes a single result). The start of each word is existential here; it is given exactly by C109."
  },
  {
   "property": "C107",
   "status": "partial",
   "theorems": [
    "Tok.C107_add",
    "Tok.C107_decode",
    "Tok.C107_encode",
    "Tok.C107_violated"
   ],
   "note": "Refuted (C107_violated): the constructor accepts such documents. Exact consequences: after every history all texts for which encode returns give the same encoding, empty without post-processor and padding (C107_encode); adding a token (in the document or later) dereferences the missing model (C107_add); so does decoding any id (C107_decode)."
  },
  {
   "property": "C108",
   "status": "proved",
   "theorems": [
    "Tok.C108_agrees",
    "Tok.C108_cuts_exist",
    "Tok.C108_cuts_unique",
    "Tok.C108_encode",
    "Tok.C108_tables",
    "Tok.C108_throws",
    "Tok.C108_words_unique"
   ],
   "note": "C108_encode: every text, every flag. The starts of the words in the offsets are existential here; they are given by C109. C108_tables: the hypothesis about the tables holds of every constructed tokenizer after any calls. C108_agrees: for the texts of C85 it is the cutting of C85."
  },
  {
   "property": "C109",
   "status": "proved",
   "theorems": [
    "Tok.C109_encode",
    "Tok.C109_origins_unique",
    "Tok.C109_positions",
    "Tok.C109_words",
    "Tok.C109_words_unique"
   ],
   "note": "C109_encode, C109_positions (without normalizer: position of the word less the spaces put in front). C109_words_unique, C109_origins_unique: one result. C109_words: without the positions these are the words of C108."
  },
  {
   "property": "C110",
   "status": "proved",
   "theorems": [
    "Tok.C110_decode",
    "Tok.C110_decode_iff",
    "Tok.C110_decoder",
    "Tok.C110_decoder_unique",
    "Tok.C110_missing",
    "Tok.C110_model_token",
    "Tok.C110_reads",
    "Tok.C110_reads_text",
    "Tok.C110_unique"
   ],
   "note": "C110_decode_iff gives the outcome for every history, C110_decoder the rule of every decoder, C110_reads how bytes are read as UTF-8; C110_unique and C110_decoder_unique show that the specification leaves no choice; C110_missing covers absent components"
  },
  {
   "property": "C111",
   "status": "proved",
   "theorems": [
    "Tok.C111_case",
    "Tok.C111_normalized_text",
    "Tok.C111_same_normalized",
    "Tok.C111_violated",
    "Tok.C111_violated_empty"
   ],
   "note": "C111_same_normalized (any normalizer, pre-tokenizer, model, truncation, post-processor, padding), C111_normalized_text (encoding the normalized text), C111_case. Exceptions, which the property excludes or which are refuted: no added vocabulary or ByteLevel add_prefix_space (C111_violated), texts of which normalization leaves nothing (C111_violated_empty), texts with a token matched before normalization (hypothesis NothingBefore)."
  },
  {
   "property": "C112",
   "status": "proved",
   "theorems": [
    "Tok.C112_append",
    "Tok.C112_bert",
    "Tok.C112_chunks",
    "Tok.C112_normalizers",
    "Tok.C112_plain",
    "Tok.C112_violated",
    "Tok.C112_violated_length"
   ],
   "note": "C112_chunks for any number of parts, C112_append for two without a template; C112_bert, C112_plain and C112_normalizers discharge the condition on normalization; C112_violated and C112_violated_length show that the pre-tokenizer and the absence of truncation are needed."
  },
  {
   "property": "C113",
   "status": "proved",
   "theorems": [
    "Tok.C113_ids",
    "Tok.C113_text",
    "Tok.C113_violated",
    "Tok.C113_word",
    "Tok.C113_words"
   ],
   "note": "C113_word for one word, C113_words and C113_ids for encode in terms of the words, C113_text in terms of the text; C113_violated: with ByteLevel the bound in terms of the text does not hold, as the byte alphabet has characters of two bytes."
  },
  {
   "property": "C114",
   "status": "partial",
   "theorems": [
    "Tok.C114_decode_partial",
    "Tok.C114_document_partial",
    "Tok.C114_tokens",
    "Tok.C114_violated"
   ],
   "note": "Proved for every decoder without ByteLevel, for any vocabulary without an empty key; C114_violated refutes it for ByteLevel (a one-character token above U+007F decodes to a lone byte)."
  },
  {
   "property": "C115",
   "status": "proved",
   "theorems": [
    "Tok.C115_batches",
    "Tok.C115_either",
    "Tok.C115_one_by_one",
    "Tok.C115_violated"
   ],
   "note": "C115_batches, C115_one_by_one, C115_either (the two methods do the same). C115_violated shows that the exception is needed: a token made special by a later call is still listed as an ordinary one and encode recognizes it differently. A model is assumed (without one see C107)."
  },
  {
   "property": "C116",
   "status": "proved",
   "theorems": [
    "Tok.C116_decode",
    "Tok.C116_encode",
    "Tok.C116_fresh",
    "Tok.C116_unknown",
    "Tok.C116_violated",
    "Tok.C116_written"
   ],
   "note": "C116_violated shows that the proviso on ids is needed: in a vocabulary with a gap a token can get the id of an entry, and adding it again with other flags changes how that entry is recognized."
  },
  {
   "property": "C117",
   "status": "proved",
   "theorems": [
    "Tok.C117_add_tokens",
    "Tok.C117_decode",
    "Tok.C117_encode",
    "Tok.C117_history",
    "Tok.C117_kinds",
    "Tok.C117_not_unicode",
    "Tok.C117_quiet",
    "Tok.C117_range_iff",
    "Tok.C117_search",
    "Tok.C117_violated"
   ],
   "note": ""
  },
  {
   "property": "C118",
   "status": "proved",
   "theorems": [
    "Tok.C118_ends",
    "Tok.C118_hangs_iff",
    "Tok.C118_others"
   ],
   "note": "Bounds: every pre-token and the encoding short enough for int arithmetic."
  },
  {
   "property": "C119",
   "status": "proved",
   "theorems": [
    "Tok.C119_returns",
    "Tok.C119_rows",
    "Tok.C119_state",
    "Tok.C119_vectors",
    "Tok.C119_violated"
   ],
   "note": "C119_rows, C119_vectors (vectors read where the mask is 0), C119_returns, C119_state; C119_violated shows the exception for offsets is needed (offsets (2,3) with special tokens, (1,3) without)."
  },
  {
   "property": "C120",
   "status": "proved",
   "theorems": [
    "Tok.C120_again",
    "Tok.C120_encode",
    "Tok.C120_history",
    "Tok.C120_nothing",
    "Tok.C120_unbounded",
    "Tok.C120_words"
   ],
   "note": "C120_encode (one call), C120_words (words as specified in Spec/AnyText), C120_history, C120_nothing (WordPiece), C120_again (exact equality of the state), C120_unbounded (growth without limit)."
  },
  {
   "property": "C121",
   "status": "proved",
   "theorems": [
    "Tok.C121_bpe",
    "Tok.C121_encode",
    "Tok.C121_text",
    "Tok.C121_wordPiece"
   ],
   "note": "C121_encode (all words), C121_text (texts that are only cut), C121_wordPiece and C121_bpe (explicit conditions). BPE: no two entries with the same id, both models constructed from the same merge list, words short enough for an int. The tables of added tokens are the same on both sides."
  },
  {
   "property": "C122",
   "status": "proved",
   "theorems": [
    "Tok.C122_encode",
    "Tok.C122_noModel",
    "Tok.C122_violated",
    "Tok.C122_wordPiece"
   ],
   "note": "AgreeOn lists what the platforms must agree on; C122_violated shows that signedness and classes matter beyond it"
  },
  {
   "property": "C123",
   "status": "proved",
   "theorems": [
    "Tok.C123_spaces",
    "Tok.C123_violated",
    "Tok.C123_white_space"
   ],
   "note": "C123_white_space (any white space, no added token recognized), C123_spaces (spaces, any added tokens without flags, on text the normalizer treats space-wise; each part can be encoded on its own). C123_violated: a tab in front of an added token, and a tokenizer without pre-tokenization."
  },
  {
   "property": "C124",
   "status": "proved",
   "theorems": [
    "Tok.C124_bpe",
    "Tok.C124_plain",
    "Tok.C124_violated",
    "Tok.C124_wordPiece"
   ],
   "note": "C124_wordPiece, C124_plain, C124_bpe; C124_violated shows that BPE without ignore_merges does not give the id even if the token has been added and is written out, and that without pre-tokenization the claim fails for WordPiece."
  },
  {
   "property": "C125",
   "status": "proved",
   "theorems": [
    "Tok.C125_describes",
    "Tok.C125_documents",
    "Tok.C125_violated"
   ],
   "note": "C125_documents, C125_describes; C125_violated shows that differently escaped vocabulary keys change the result."
  },
  {
   "property": "C126",
   "status": "partial",
   "theorems": [
    "Tok.C126_again",
    "Tok.C126_violated",
    "Tok.C126_words"
   ],
   "note": "C126_words: the decoded text is the words with single spaces; C126_again: its encoding is the same up to the offsets, for texts whose words the vocabulary covers; C126_violated: false with an unknown word, so the unrestricted claim is refuted."
  },
  {
   "property": "C127",
   "status": "proved",
   "theorems": [
    "Tok.C127_exact",
    "Tok.C127_remembered",
    "Tok.C127_shared",
    "Tok.C127_warm"
   ],
   "note": "C127_exact (when two equal calls can race, after any history), C127_shared (calls that ask nothing new), C127_remembered, C127_warm. The tables of added tokens are assumed to have no empty entry and no entry with two ids. As in C75 and C76 a call is its sequence of accesses to the two shared containers."
  },
  {
   "property": "C128",
   "status": "partial",
   "theorems": [
    "Tok.C128_content",
    "Tok.C128_left",
    "Tok.C128_only",
    "Tok.C128_returns",
    "Tok.C128_right",
    "Tok.C128_rows",
    "Tok.C128_violated"
   ],
   "note": "The content statement needs templates that mention the text once; refuted by C128_violated for a template that mentions it twice. Rejoining the windows is proved for windows that advance (stride < max_length, and < max_length - 1 from the left, where one entry more than the stride is repeated)."
  },
  {
   "property": "C129",
   "status": "partial",
   "theorems": [
    "Tok.C129_add_add",
    "Tok.C129_add_decode",
    "Tok.C129_add_encode",
    "Tok.C129_isolated",
    "Tok.C129_race_iff",
    "Tok.C129_refines",
    "Tok.C129_torn"
   ],
   "note": "Refuted as a thread-safety guarantee (C129_add_add, C129_add_encode, C129_torn). C129_refines: the access-level model computes what the sequential model computes. C129_race_iff, C129_isolated: exactly when calls race and that calls which cannot race are isolated."
  },
  {
   "property": "C130",
   "status": "proved",
   "theorems": [
    "Tok.C130_padding",
    "Tok.C130_returns",
    "Tok.C130_text",
    "Tok.C130_truncation"
   ],
   "note": "C130_text, C130_truncation, C130_padding, C130_returns: the cases are exclusive and cover everything (signed overflow near 2^31 aside)."
  },
  {
   "property": "C131",
   "status": "proved",
   "theorems": [
    "Tok.C131_cut",
    "Tok.C131_engine",
    "Tok.C131_one_word",
    "Tok.C131_plain",
    "Tok.C131_unique",
    "Tok.C131_violated",
    "Tok.C131_words"
   ],
   "note": "Full statement (C131_words; C131_plain and C131_one_word without added vocabulary; C131_cut and C131_unique: the cut is the one the pattern makes, and it is the only one; C131_engine: the matches meet the assumptions made elsewhere). C131_violated: consequence for a GPT-2 style vocabulary."
  },
  {
   "property": "C132",
   "status": "proved",
   "theorems": [
    "Tok.C132_describes",
    "Tok.C132_ignored",
    "Tok.C132_violated"
   ],
   "note": ""
  },
  {
   "property": "C133",
   "status": "proved",
   "theorems": [
    "Tok.C133_plain",
    "Tok.C133_ranges",
    "Tok.C133_violated"
   ],
   "note": "Needs a model, tables of added tokens without empty entries or two ids for one entry, and words short enough for int. C133_violated: the offsets can lie outside the text."
  },
  {
   "property": "C134",
   "status": "proved",
   "theorems": [
    "Tok.C134_more",
    "Tok.C134_same"
   ],
   "note": "C134_more, C134_same. Templates that repeat the text are excluded (C128_violated)."
  },
  {
   "property": "C135",
   "status": "proved",
   "theorems": [
    "Tok.C135_dropout",
    "Tok.C135_merging",
    "Tok.C135_once",
    "Tok.C135_pieces",
    "Tok.C135_segmented",
    "Tok.C135_violated_dropout",
    "Tok.C135_wordPiece"
   ],
   "note": "C135_merging: linear without dropout; C135_dropout: quadratic bound; C135_violated_dropout: eight pieces can take 28 entries with dropout; C135_wordPiece: look-ups; C135_once, C135_segmented: the counts are determined; C135_pieces: how many pieces a text has. Not counted: the copy of the merge table that merge_all takes for every word (its parameter is passed by value), hashing and string building."
  },
  {
   "property": "C136",
   "status": "proved",
   "theorems": [
    "Tok.C136_before",
    "Tok.C136_behind",
    "Tok.C136_violated"
   ],
   "note": "C136_behind for the beginning, C136_before for the end, for the tokenizers and texts of C112 (ChunkSafe) and lengths that fit an int. Examples instantiate both with a concrete tokenizer, an added token and an ideograph; C136_violated shows that too few tokens or the other side do let the rest show."
  },
  {
   "property": "C137",
   "status": "proved",
   "theorems": [
    "Tok.C137_alike",
    "Tok.C137_bert",
    "Tok.C137_texts",
    "Tok.C137_violated",
    "Tok.C137_violated_prefix",
    "Tok.C137_words"
   ],
   "note": "C137_words (any pre-tokenization, words without spaces and continuation prefix), C137_bert (BERT pre-tokenization), C137_alike (same ids iff the encodings differ in offsets only), C137_texts (byte-level byte-pair, under the conditions of C78). C137_violated, C137_violated_prefix: without the conditions."
  },
  {
   "property": "C138",
   "status": "proved",
   "theorems": [
    "Tok.C138_bpe",
    "Tok.C138_encode",
    "Tok.C138_extended",
    "Tok.C138_text"
   ],
   "note": "C138_encode (all words), C138_text (texts that are only cut), C138_bpe and C138_extended (explicit conditions). No two entries with the same id, words short enough for an int, both models constructed from their lists."
  },
  {
   "property": "C139",
   "status": "proved",
   "theorems": [
    "Tok.C139_alone",
    "Tok.C139_separate",
    "Tok.C139_violated"
   ],
   "note": "C139_separate; C139_alone is the statement about recognition. Examples: a BERT tokenizer and a text with two adjacent added tokens; C139_violated shows that a piece of which the normalizer leaves nothing is encoded differently alone."
  },
  {
   "property": "C140",
   "status": "proved",
   "theorems": [
    "Tok.C140_add",
    "Tok.C140_build",
    "Tok.C140_decode",
    "Tok.C140_encode",
    "Tok.C140_violated"
   ],
   "note": "C140_encode, C140_decode, C140_add, C140_build; C140_violated shows both exceptions: a word-piece model without its unknown token reports 0 under every numbering, and an added token that is not in the vocabulary is numbered by the size of the vocabulary, which collides with a vocabulary that is not numbered from 0"
  },
  {
   "property": "C141",
   "status": "proved",
   "theorems": [
    "Tok.C141_bytes",
    "Tok.C141_encode",
    "Tok.C141_limit",
    "Tok.C141_text",
    "Tok.C141_violated"
   ],
   "note": "C141_encode (words of any tokenizer), C141_text (texts that are only cut), C141_limit and C141_bytes (explicit conditions); C141_violated: ignore_merges changes the offsets of a word that is an entry. Assumed in C141_encode: no added token is empty or has two ids (PlainTables), GoodRegexes."
  },
  {
   "property": "C142",
   "status": "proved",
   "theorems": [
    "Tok.C142_encode",
    "Tok.C142_padded",
    "Tok.C142_violated"
   ],
   "note": "SameOrder compares the two tables of listed rules (Listed, the specification of C15); PaddedWith is the insertion of lines that give no rule. C142_violated shows that the order itself matters."
  },
  {
   "property": "C143",
   "status": "proved",
   "theorems": [
    "Tok.C143_calls",
    "Tok.C143_members",
    "Tok.C143_order",
    "Tok.C143_violated"
   ],
   "note": "C143_members for lists with the same members (repetitions allowed), C143_order for permutations with the count, C143_calls for any distribution over calls in any order, after any history; C143_violated shows both exceptions"
  },
  {
   "property": "C144",
   "status": "proved",
   "theorems": [
    "Tok.C144_encode",
    "Tok.C144_special",
    "Tok.C144_tables",
    "Tok.C144_violated"
   ],
   "note": "C144_tables (contents, ids, flags), C144_encode (encode depends on the past through them only), C144_special; C144_violated: a content given again is looked for in both ways. Together with C85 and C108 this says which occurrences in a text are recognized in terms of the calls made."
  },
  {
   "property": "C145",
   "status": "proved",
   "theorems": [
    "Tok.C145_again",
    "Tok.C145_special",
    "Tok.C145_violated"
   ],
   "note": "C145_again and C145_special, for any history between the two calls; C145_violated shows that the list has to be the last one added."
  },
  {
   "property": "C146",
   "status": "proved",
   "theorems": [
    "Tok.C146_later",
    "Tok.C146_violated"
   ],
   "note": "C146_later; C146_violated shows that two versions of one token are treated differently. That the constructor succeeds implies that the tokens are special (C59)."
  }
 ]
}