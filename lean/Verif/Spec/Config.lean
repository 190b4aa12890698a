import Verif.Config
import Verif.Spec.Text
import Verif.Spec.BPE

set_option autoImplicit false

/-!
What a `tokenizer.json` document means: a relation between JSON values and components, written as
a schema.  A JSON string is given by the characters between its quotes (`raw`), a number by its
text, an object by its list of fields.
-/

namespace Tok.Spec

/-! ### JSON values -/

/-- Two lists of the same length, related element by element. -/
inductive AllOf {α β : Type} (R : α → β → Prop) : List α → List β → Prop
  | nil : AllOf R [] []
  | cons {a : α} {b : β} {l : List α} {m : List β} : R a b → AllOf R l m → AllOf R (a :: l) (b :: m)

/-- The character after a backslash, and the character meant (RFC 8259 §7). -/
def ShortEscape (x y : Nat) : Prop :=
  (x, y) ∈ [(0x22, 0x22), (0x5C, 0x5C), (0x2F, 0x2F), (0x62, 0x08), (0x66, 0x0C), (0x6E, 0x0A), (0x72, 0x0D), (0x74, 0x09)]

/-- A hexadecimal digit and its value. -/
def HexDigit (c v : Nat) : Prop :=
  v < 16 ∧ (c = 0x30 + v ∧ v < 10 ∨ c = 0x41 + (v - 10) ∧ 10 ≤ v ∨ c = 0x61 + (v - 10) ∧ 10 ≤ v)

/-- Four hexadecimal digits and their value. -/
def Hex4 (a b c d v : Nat) : Prop :=
  ∃ p q r s, HexDigit a p ∧ HexDigit b q ∧ HexDigit c r ∧ HexDigit d s ∧ v = p * 4096 + q * 256 + r * 16 + s

/-- The string (UTF-8 bytes) denoted by the characters between the quotes of a JSON string. -/
inductive Denotes : Str → Str → Prop
  | nil : Denotes [] []
  | plain {c : Nat} {r s : Str} : c ≠ 0x5C → Denotes r s → Denotes (c :: r) (c :: s)
  | short {x y : Nat} {r s : Str} : ShortEscape x y → Denotes r s → Denotes (0x5C :: x :: r) (y :: s)
  | unit {a b c d v : Nat} {u r s : Str} : Hex4 a b c d v → Utf8Char v u → Denotes r s →
      Denotes (0x5C :: 0x75 :: a :: b :: c :: d :: r) (u ++ s)
  | pair {a b c d a' b' c' d' x y : Nat} {u r s : Str} : Hex4 a b c d (0xD800 + x) → x < 1024 →
      Hex4 a' b' c' d' (0xDC00 + y) → y < 1024 → Utf8Char (0x10000 + x * 1024 + y) u → Denotes r s →
      Denotes (0x5C :: 0x75 :: a :: b :: c :: d :: 0x5C :: 0x75 :: a' :: b' :: c' :: d' :: r) (u ++ s)

/-- The value of a sequence of decimal digits. -/
inductive Digits : Str → Nat → Prop
  | one {c : Nat} : 0x30 ≤ c → c ≤ 0x39 → Digits [c] (c - 0x30)
  | snoc {t : Str} {n c : Nat} : Digits t n → 0x30 ≤ c → c ≤ 0x39 → Digits (t ++ [c]) (n * 10 + (c - 0x30))

/-- A JSON natural number: digits without superfluous leading zero. -/
def Natural (t : Str) (n : Nat) : Prop := Digits t n ∧ ∀ r, t = 0x30 :: r → r = []

/-- A JSON integer. -/
def Integer (t : Str) (i : Int) : Prop :=
  (∃ n : Nat, Natural t n ∧ i = n) ∨ (∃ r n, t = 0x2D :: r ∧ Natural r n ∧ i = -(n : Int))

def StringOf (j : Json) (s : Str) : Prop := ∃ raw, j = .str raw ∧ Denotes raw s
def BoolOf (j : Json) (b : Bool) : Prop := j = .bool b
/-- A 64-bit integer, reduced to 32 bits. -/
def IntOf (j : Json) (i : Int) : Prop :=
  ∃ t n, j = .num t ∧ Integer t n ∧ -(2:Int) ^ 63 ≤ n ∧ n < 2 ^ 63 ∧
    -(2:Int) ^ 31 ≤ i ∧ i < 2 ^ 31 ∧ ∃ k : Int, n = i + k * 2 ^ 32
def ArrayOf {α : Type} (R : Json → α → Prop) (j : Json) (x : List α) : Prop := ∃ l, j = .arr l ∧ AllOf R l x

/-- The first field with key `k` has the value `v`. -/
def First (l : List (Str × Json)) (k : Str) (v : Json) : Prop :=
  ∃ A B, l = A ++ (k, v) :: B ∧ ∀ f ∈ A, f.1 ≠ k

/-- `j` is an object whose field `k` has the value `v`. -/
def Field (j : Json) (k : Str) (v : Json) : Prop := ∃ l, j = .obj l ∧ First l k v

/-- A value that may be `null`, which means `d`. -/
def OrNull {α : Type} (R : Json → α → Prop) (d : α) (j : Json) (x : α) : Prop :=
  (j = .null ∧ x = d) ∨ (j ≠ .null ∧ R j x)

/-- The field `k` of `j` must be present; `null` means `d`. -/
def Opt {α : Type} (R : Json → α → Prop) (d : α) (j : Json) (k : Str) (x : α) : Prop :=
  ∃ v, Field j k v ∧ OrNull R d v x

/-- A string looked up in a table of names; other strings mean `d`. -/
def Named {α : Type} (table : List (Str × α)) (d : α) (s : Str) (x : α) : Prop :=
  (s, x) ∈ table ∨ ((∀ y, (s, y) ∉ table) ∧ x = d)

/-- The field `type`. -/
def HasType (j : Json) (s : Str) : Prop := ∃ v, Field j b!"type" v ∧ StringOf v s

/-! ### Components -/

def TruncationOf (j : Json) (t : Truncation) : Prop :=
  (∃ s, Opt StringOf [] j b!"direction" s ∧ Named [(b!"Right", .right), (b!"Left", .left)] .unknown s t.direction) ∧
  (∃ s, Opt StringOf [] j b!"strategy" s ∧
    Named [(b!"LongestFirst", .longestFirst), (b!"OnlyFirst", .onlyFirst), (b!"OnlySecond", .onlySecond)] .unknown s t.strategy) ∧
  Opt IntOf 0 j b!"max_length" t.maxLength ∧ Opt IntOf 0 j b!"stride" t.stride

/-- The strategy of padding: a string; or an object such as `{"Fixed": 128}`, whose last field counts; or `null`. -/
def PadStrategy (j : Json) (name : Str) (size : Int) : Prop :=
  (j = .null ∧ name = [] ∧ size = -1) ∨
  (StringOf j name ∧ size = -1) ∨
  (j = .obj [] ∧ name = [] ∧ size = -1) ∨
  (∃ l v, j = .obj (l ++ [(name, v)]) ∧ (∀ f ∈ l, ∃ i, IntOf f.2 i) ∧ IntOf v size)

def PaddingOf (j : Json) (p : Padding) : Prop :=
  (∃ s, Opt StringOf [] j b!"direction" s ∧ Named [(b!"Right", .right), (b!"Left", .left)] .unknown s p.direction) ∧
  (∃ v s, Field j b!"strategy" v ∧ PadStrategy v s p.fixedSize ∧
    Named [(b!"BatchLongest", .batchLongest), (b!"Fixed", .fixed)] .unknown s p.strategy) ∧
  Opt IntOf 0 j b!"pad_id" p.padId ∧ Opt IntOf 0 j b!"pad_type_id" p.padTypeId ∧
  Opt StringOf [] j b!"pad_token" p.padToken ∧ Opt IntOf 0 j b!"pad_to_multiple_of" p.padToMultipleOf

/-- The last field with key `k`, if there is one, has the value `x`; otherwise `x` is the default.  Every field with
this key must be of the right kind. -/
def LastField {α : Type} (R : Json → α → Prop) (d : α) (l : List (Str × Json)) (k : Str) (x : α) : Prop :=
  (∀ f ∈ l, f.1 = k → ∃ y, R f.2 y) ∧
  (((∀ f ∈ l, f.1 ≠ k) ∧ x = d) ∨ ∃ A v B, l = A ++ (k, v) :: B ∧ (∀ f ∈ B, f.1 ≠ k) ∧ R v x)

def AddedTokenOf (j : Json) (t : AddedToken) : Prop :=
  ∃ l, j = .obj l ∧ LastField IntOf 0 l b!"id" t.id ∧ LastField StringOf [] l b!"content" t.content ∧
    LastField BoolOf false l b!"single_word" t.singleWord ∧ LastField BoolOf false l b!"lstrip" t.lstrip ∧
    LastField BoolOf false l b!"rstrip" t.rstrip ∧ LastField BoolOf true l b!"normalized" t.normalized ∧
    LastField BoolOf false l b!"special" t.special

/-- A pattern `{"String": …}` or `{"Regex": …}`. -/
def PatternOf (kind : Str) (j : Json) (s : Str) : Prop := ∃ v, Field j kind v ∧ StringOf v s

mutual
inductive NormalizerOf : Json → Option Normalizer → Prop
  | sequence {j : Json} {l : List Json} {ns : List Normalizer} : HasType j b!"Sequence" → Field j b!"normalizers" (.arr l) →
      NormalizersOf l ns → NormalizerOf j (some (.seq ns))
  | nf {j : Json} {s : Str} {k : NFKind} : HasType j s →
      (s, k) ∈ [(b!"NFC", .nfc), (b!"NFD", .nfd), (b!"NFKC", .nfkc), (b!"NFKD", .nfkd)] → NormalizerOf j (some (.nf k))
  | prepend {j : Json} {s : Str} : HasType j b!"Prepend" → Opt StringOf [] j b!"prepend" s → NormalizerOf j (some (.prepend s))
  | replace {j : Json} {p c : Str} : HasType j b!"Replace" → Opt (PatternOf b!"String") [] j b!"pattern" p →
      Opt StringOf [] j b!"content" c → NormalizerOf j (some (.replace p c))
  | bert {j : Json} {clean chinese accents lower : Bool} : HasType j b!"BertNormalizer" →
      Opt BoolOf false j b!"clean_text" clean → Opt BoolOf false j b!"handle_chinese_chars" chinese →
      Opt BoolOf false j b!"strip_accents" accents → Opt BoolOf false j b!"lowercase" lower →
      NormalizerOf j (some (.bert clean chinese accents lower))
  | strip {j : Json} {l r : Bool} : HasType j b!"Strip" → Opt BoolOf false j b!"strip_left" l →
      Opt BoolOf false j b!"strip_right" r → NormalizerOf j (some (.strip l r))
  | stripAccents {j : Json} : HasType j b!"StripAccents" → NormalizerOf j (some .stripAccents)
  | other {j : Json} {s : Str} : HasType j s →
      s ∉ [b!"Sequence", b!"NFC", b!"NFD", b!"NFKC", b!"NFKD", b!"Prepend", b!"Replace", b!"BertNormalizer", b!"Strip", b!"StripAccents"] →
      NormalizerOf j none
inductive NormalizersOf : List Json → List Normalizer → Prop
  | nil : NormalizersOf [] []
  | cons {j : Json} {n : Normalizer} {l : List Json} {ns : List Normalizer} : NormalizerOf j (some n) → NormalizersOf l ns →
      NormalizersOf (j :: l) (n :: ns)
  | skip {j : Json} {l : List Json} {ns : List Normalizer} : NormalizerOf j none → NormalizersOf l ns → NormalizersOf (j :: l) ns
end

mutual
inductive PreTokenizerOf : Json → Option PreTokenizer → Prop
  | bert {j : Json} : HasType j b!"BertPreTokenizer" → PreTokenizerOf j (some .bert)
  | sequence {j : Json} {l : List Json} {ns : List PreTokenizer} : HasType j b!"Sequence" →
      Field j b!"pretokenizers" (.arr l) → PreTokenizersOf l ns → PreTokenizerOf j (some (.seq ns))
  | split {j : Json} {p s : Str} {b : Behavior} {i : Bool} : HasType j b!"Split" →
      Opt (PatternOf b!"Regex") [] j b!"pattern" p → Opt StringOf [] j b!"behavior" s →
      Named [(b!"Isolated", .isolated)] .removed s b → Opt BoolOf false j b!"invert" i →
      PreTokenizerOf j (some (.split p b i))
  | byteLevel {j : Json} {a u : Bool} : HasType j b!"ByteLevel" → Opt BoolOf false j b!"add_prefix_space" a →
      Opt BoolOf false j b!"use_regex" u → PreTokenizerOf j (some (.byteLevel a u))
  | other {j : Json} {s : Str} : HasType j s → s ∉ [b!"BertPreTokenizer", b!"Sequence", b!"Split", b!"ByteLevel"] →
      PreTokenizerOf j none
inductive PreTokenizersOf : List Json → List PreTokenizer → Prop
  | nil : PreTokenizersOf [] []
  | cons {j : Json} {n : PreTokenizer} {l : List Json} {ns : List PreTokenizer} : PreTokenizerOf j (some n) →
      PreTokenizersOf l ns → PreTokenizersOf (j :: l) (n :: ns)
  | skip {j : Json} {l : List Json} {ns : List PreTokenizer} : PreTokenizerOf j none → PreTokenizersOf l ns →
      PreTokenizersOf (j :: l) ns
end

mutual
inductive DecoderOf : Json → Option Decoder → Prop
  | sequence {j : Json} {l : List Json} {ns : List Decoder} : HasType j b!"Sequence" → Field j b!"decoders" (.arr l) →
      DecodersOf l ns → DecoderOf j (some (.seq ns))
  | wordPiece {j : Json} {p : Str} {c : Bool} : HasType j b!"WordPiece" → Opt StringOf [] j b!"prefix" p →
      Opt BoolOf false j b!"cleanup" c → DecoderOf j (some (.wordPiece p c))
  | strip {j : Json} {c : Str} {a b : Int} : HasType j b!"Strip" → Opt StringOf [] j b!"content" c →
      Opt IntOf 0 j b!"start" a → Opt IntOf 0 j b!"stop" b → DecoderOf j (some (.strip c a b))
  | replace {j : Json} {p c : Str} : HasType j b!"Replace" → Opt (PatternOf b!"String") [] j b!"pattern" p →
      Opt StringOf [] j b!"content" c → DecoderOf j (some (.replace p c))
  | byteFallback {j : Json} : HasType j b!"ByteFallback" → DecoderOf j (some .byteFallback)
  | fuse {j : Json} : HasType j b!"Fuse" → DecoderOf j (some .fuse)
  | byteLevel {j : Json} : HasType j b!"ByteLevel" → DecoderOf j (some .byteLevel)
  | other {j : Json} {s : Str} : HasType j s →
      s ∉ [b!"Sequence", b!"WordPiece", b!"Strip", b!"Replace", b!"ByteFallback", b!"Fuse", b!"ByteLevel"] → DecoderOf j none
inductive DecodersOf : List Json → List Decoder → Prop
  | nil : DecodersOf [] []
  | cons {j : Json} {n : Decoder} {l : List Json} {ns : List Decoder} : DecoderOf j (some n) → DecodersOf l ns →
      DecodersOf (j :: l) (n :: ns)
  | skip {j : Json} {l : List Json} {ns : List Decoder} : DecoderOf j none → DecodersOf l ns → DecodersOf (j :: l) ns
end

/-- One field of a template element, such as `"Sequence": {"id": "A", "type_id": 0}`. -/
def PieceOf (f : Str × Json) (p : Piece) : Prop :=
  p.kind = f.1 ∧ (∃ v, Field f.2 b!"id" v ∧ StringOf v p.id) ∧ (∃ v, Field f.2 b!"type_id" v ∧ IntOf v p.typeId)

/-- A template: a list of objects, usually with one field each. -/
def TemplateOf (j : Json) (ps : List Piece) : Prop :=
  ∃ pss, ArrayOf (fun e x => ∃ l, e = .obj l ∧ AllOf PieceOf l x) j pss ∧ ps = pss.flatten

def SpecialTokenOf (j : Json) (s : SpecialToken) : Prop :=
  (∃ v, Field j b!"id" v ∧ StringOf v s.id) ∧ (∃ v, Field j b!"ids" v ∧ ArrayOf IntOf v s.ids) ∧
  (∃ v, Field j b!"tokens" v ∧ ArrayOf StringOf v s.tokens)

def SpecialTokensOf (j : Json) (s : List SpecialToken) : Prop :=
  ∃ l, j = .obj l ∧ AllOf (fun f x => SpecialTokenOf f.2 x) l s

mutual
inductive PostProcessorOf : Json → Option PostProcessor → Prop
  | template {j : Json} {a b : List Piece} {s : List SpecialToken} : HasType j b!"TemplateProcessing" →
      Opt TemplateOf [] j b!"single" a → Opt TemplateOf [] j b!"pair" b → Opt SpecialTokensOf [] j b!"special_tokens" s →
      PostProcessorOf j (some (.template a b s))
  | sequence {j : Json} {l : List Json} {ns : List PostProcessor} : HasType j b!"Sequence" → Field j b!"processors" (.arr l) →
      PostProcessorsOf l ns → PostProcessorOf j (some (.seq ns))
  | byteLevel {j : Json} {a t : Bool} : HasType j b!"ByteLevel" → Opt BoolOf false j b!"add_prefix_space" a →
      Opt BoolOf false j b!"trim_offsets" t → PostProcessorOf j (some (.byteLevel a t))
  | other {j : Json} {s : Str} : HasType j s → s ∉ [b!"TemplateProcessing", b!"Sequence", b!"ByteLevel"] →
      PostProcessorOf j none
inductive PostProcessorsOf : List Json → List PostProcessor → Prop
  | nil : PostProcessorsOf [] []
  | cons {j : Json} {n : PostProcessor} {l : List Json} {ns : List PostProcessor} : PostProcessorOf j (some n) →
      PostProcessorsOf l ns → PostProcessorsOf (j :: l) (n :: ns)
  | skip {j : Json} {l : List Json} {ns : List PostProcessor} : PostProcessorOf j none → PostProcessorsOf l ns →
      PostProcessorsOf (j :: l) ns
end

/-- The vocabulary of an object: every value is an integer; the entry of a key is the first field whose key is spelt
this way. -/
def VocabOf (j : Json) (V : Vocab) : Prop :=
  ∃ l, j = .obj l ∧ (∀ f ∈ l, ∃ i, IntOf f.2 i) ∧ (V.map (·.1)).Nodup ∧
    ∀ k i, (k, i) ∈ V ↔ ∃ v, First l k v ∧ IntOf v i

/-- The dropout of a BPE model: the comparisons made for the number written in the document. -/
def DropoutOf (P : Platform) (j : Json) (d : Dropout) : Prop := ∃ t, j = .num t ∧ d = P.dropout t

/-- A line of the merge list that the constructor refuses: both parts are entries, and the second is shorter than the
continuation prefix. -/
def BadMerge (V : Str → Option Int) (pre line : Str) : Prop :=
  ∃ p q a b, Fields line p q ∧ V p = some a ∧ V q = some b ∧ q.length < pre.length

inductive ModelOf (P : Platform) : Json → Option Model → Prop
  | wordPiece {j : Json} {m : WordPiece} : HasType j b!"WordPiece" → Opt VocabOf [] j b!"vocab" m.vocab →
      Opt StringOf [] j b!"unk_token" m.unkToken → Opt IntOf 0 j b!"max_input_chars_per_word" m.maxChars →
      Opt StringOf [] j b!"continuing_subword_prefix" m.pre → ModelOf P j (some (.wordPiece m))
  | bpe {j : Json} {m : BPE} {lines : List Str} : HasType j b!"BPE" → Opt VocabOf [] j b!"vocab" m.vocab →
      Opt (ArrayOf StringOf) [] j b!"merges" lines →
      Opt (DropoutOf P) { on := false, draw := fun _ => false } j b!"dropout" m.dropout →
      Opt StringOf [] j b!"unk_token" m.unkToken → Opt StringOf [] j b!"continuing_subword_prefix" m.pre →
      Opt StringOf [] j b!"end_of_word_suffix" m.suf → Opt BoolOf false j b!"fuse_unk" m.fuseUnk →
      Opt BoolOf false j b!"byte_fallback" m.byteFallback → Opt BoolOf false j b!"ignore_merges" m.ignoreMerges →
      m.cache = [] → (∀ line ∈ lines, ¬ BadMerge (fun s => mapFind m.vocab s) m.pre line) →
      (∀ a b r n, mapFind m.merges (a, b) = some (r, n) ↔
        ∃ k : Nat, r = k ∧ Listed (fun s => mapFind m.vocab s) m.pre lines k a b n) →
      ModelOf P j (some (.bpe m))
  | other {j : Json} {s : Str} {v : Vocab} : HasType j s → s ∉ [b!"WordPiece", b!"BPE"] → Opt VocabOf [] j b!"vocab" v →
      ModelOf P j none

/-- A section of the document, which must be present; `null` means that there is no such component. -/
def SectionOf {α : Type} (R : Json → Option α → Prop) (doc : Json) (k : Str) (x : Option α) : Prop :=
  Opt R none doc k x

/-- The value is there and is described by the JSON value. -/
def Some' {α : Type} (R : Json → α → Prop) (j : Json) (x : Option α) : Prop := ∃ y, x = some y ∧ R j y

def AddedTokensOf (j : Json) (a : AddedVocab) : Prop := ∃ l, ArrayOf AddedTokenOf j l ∧ a = AddedVocab.init l

/-- The tokenizer (before its added tokens are registered) that a document describes. -/
def Describes (P : Platform) (doc : Json) (t : Tokenizer) : Prop :=
  SectionOf (Some' TruncationOf) doc b!"truncation" t.truncation ∧
  SectionOf (Some' PaddingOf) doc b!"padding" t.padding ∧
  SectionOf (Some' AddedTokensOf) doc b!"added_tokens" t.added ∧
  SectionOf NormalizerOf doc b!"normalizer" t.normalizer ∧
  SectionOf PreTokenizerOf doc b!"pre_tokenizer" t.preTokenizer ∧
  SectionOf (ModelOf P) doc b!"model" t.model ∧
  SectionOf DecoderOf doc b!"decoder" t.decoder ∧
  SectionOf PostProcessorOf doc b!"post_processor" t.postProcessor

end Tok.Spec
