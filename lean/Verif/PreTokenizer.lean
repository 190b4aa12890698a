import Verif.Normalizer

set_option autoImplicit false

/-
`include/tokenizers/pre_tokenizer.h`, `src/pre_tokenizer.cpp`.
-/

namespace Tok

/-- `pre_tokenizer.h:36-45` `PreTokenizedString`. -/
structure PTS where
  normalized : NS
  splits : List Split
  deriving DecidableEq, Repr

/-- `pre_tokenizer.cpp:44-47` constructor `PreTokenizedString(NormalizedString)`. -/
def PTS.ofNS (n : NS) : Res PTS := do
  let s ← convertToString n.normalized
  return { normalized := n, splits := [{ normalized := s, offsets := (0, n.normalized.length) }] }

/-- A stretch of UTF-16 text and whether it is a match of the pattern. -/
abbrev Seg := (Nat × Nat) × Bool

/-- `pre_tokenizer.cpp:116-128`: turn match positions into segments (`cur` is the loop
variable, `len` the length of the input). -/
def segments (len : Nat) : Nat → List (Nat × Nat) → List Seg
  | cur, [] => if cur < len then [((cur, len), false)] else []
  | cur, m :: r =>
    (if cur ≠ m.1 then [((cur, m.1), false)] else []) ++ (m, true) :: segments len m.2 r

/-- `pre_tokenizer.cpp:103-129` `find_matches`.  A pattern that does not compile leaves
`unicode_pattern` null, and `unicode_pattern->matcher` is undefined behaviour. -/
def findMatches (P : Platform) (pattern : Str) (input : U16) : Res (List Seg) :=
  match P.regex pattern with
  | none => .error (.ub .nullDeref)
  | some find => .ok (segments input.length 0 (find input))

/-- Number of UTF-16 units of a code point. -/
def unitLen (c : Nat) : Nat := (utf16Enc1 c).length

/-- The matches of `\s+` (ICU, leftmost longest runs) on a list of code points whose
first unit is at position `pos`. -/
def spaceRuns (P : Platform) : Nat → WStr → List (Nat × Nat)
  | _, [] => []
  | pos, c :: r =>
    if P.reSpace c then
      match spaceRuns P (pos + unitLen c) r with
      | [] => [(pos, pos + unitLen c)]
      | (s, e) :: rest =>
        if s = pos + unitLen c then (pos, e) :: rest
        else (pos, pos + unitLen c) :: (s, e) :: rest
    else spaceRuns P (pos + unitLen c) r

/-- The matches of `\p{P}` (ICU): every single punctuation code point. -/
def punctMatches (P : Platform) : Nat → WStr → List (Nat × Nat)
  | _, [] => []
  | pos, c :: r =>
    if P.rePunct c then (pos, pos + unitLen c) :: punctMatches P (pos + unitLen c) r
    else punctMatches P (pos + unitLen c) r

/-- `pre_tokenizer.cpp:131-135` `is_whitespace(UnicodeString)`. -/
def isWhitespaceSegs (P : Platform) (input : U16) : Res (List Seg) :=
  .ok (segments input.length 0 (spaceRuns P 0 (u16Points input)))

/-- `pre_tokenizer.cpp:137-141` `is_bert_punc(UnicodeString)`. -/
def isBertPuncSegs (P : Platform) (input : U16) : Res (List Seg) :=
  .ok (segments input.length 0 (punctMatches P 0 (u16Points input)))

/-- `pre_tokenizer.cpp:143-176` `split_normalized`. -/
def splitNormalized (orig : Split) (splitFn : U16 → Res (List Seg)) (b : Behavior) :
    Res (List Split) := do
  let u := fromUTF8 orig.normalized
  let matches0 ← splitFn u
  let matches1 : List Seg := match b with
    | .removed => matches0
    | .isolated => matches0.map fun m => (m.1, false)
  return (matches1.filter fun m => !m.2).map fun (m : Seg) =>
    { normalized := toUTF8String (tempSubStringBetween u m.1.1 m.1.2)
      offsets := (m.1.1 + orig.offsets.1, m.1.2 + orig.offsets.1) }

/-- `pre_tokenizer.cpp:184-194`: the loop over splits; splits that already carry tokens
are kept. -/
def splitLoop (splitFn : U16 → Res (List Seg)) (b : Behavior) : List Split → Res (List Split)
  | [] => .ok []
  | s :: r => do
    let here ← if s.tokens.length ≠ 0 then .ok [s] else splitNormalized s splitFn b
    let rest ← splitLoop splitFn b r
    return here ++ rest

/-- `pre_tokenizer.cpp:178-196` `PreTokenizedString::split`. -/
def PTS.split (p : PTS) (splitFn : U16 → Res (List Seg)) (b : Behavior) : Res PTS := do
  let splits ← splitLoop splitFn b p.splits
  return { p with splits }

/-- `pre_tokenizer.cpp:244`: the literal in the source, the GPT-2 pattern. -/
def gpt2Pattern : Str :=
  b!"'s|'t|'re|'ve|'m|'ll|'d| ?\\p{L}+| ?\\p{N}+| ?[^\\s\\p{L}\\p{N}]+|\\s+(?!\\S)|\\s+"

/-- Numeric value of `std::regex_constants::optimize` (an unscoped enumeration, `1 << 2`
in libstdc++ and libc++). -/
def regexOptimize : Nat := 4

/-- `pre_tokenizer.cpp:243-245` with `pre_tokenizer.h:97`: the member `regex` is a
`std::string`, so `regex(literal, std::regex_constants::optimize)` calls
`std::string(const char*, size_type)` and keeps only the first `optimize` characters of
the literal. -/
def byteLevelPattern : Str := gpt2Pattern.take regexOptimize

/-- `static_cast<int>(char)` followed by the conversion to the `uint16_t` key. -/
def charKey (P : Platform) (b : Nat) : Nat :=
  if P.charSigned ∧ 128 ≤ b then b + 65536 - 256 else b

/-- `pre_tokenizer.cpp:266-269`: `BYTES_CHAR.at(static_cast<int>(c))` for every byte. -/
def mapBytes (P : Platform) : Str → Res Str
  | [] => .ok []
  | b :: r => do
    let s ← mapAt bytesChar (charKey P b)
    return s ++ (← mapBytes P r)

/-- `pre_tokenizer.cpp:265-271`. -/
def mapSplits (P : Platform) : List Split → Res (List Split)
  | [] => .ok []
  | s :: r => do
    let n ← mapBytes P s.normalized
    let rest ← mapSplits P r
    return { s with normalized := n } :: rest

/-- `pre_tokenizer.cpp:248-273` `ByteLevelPreTokenizer::pre_tokenize`. -/
def byteLevelPreTokenize (P : Platform) (addPrefixSpace useRegex : Bool) (p : PTS) : Res PTS := do
  let p ←
    if addPrefixSpace then
      match p.normalized.normalized with
      | [] => .error (.throws .outOfRange)
      | c :: _ =>
        if P.iswspace c then .ok p
        else do
          let n ← ({ p.normalized with normalized := 0x20 :: p.normalized.normalized } : NS).transform 0 .add 1
          PTS.ofNS n
    else .ok p
  let p ← p.split (fun u => if useRegex then findMatches P byteLevelPattern u
                            else .ok [((0, u.length), false)]) .isolated
  let splits ← mapSplits P p.splits
  return { p with splits }

/-- `pre_tokenizer.cpp:200-205` `BertPreTokenizer::pre_tokenize`. -/
def bertPreTokenize (P : Platform) (p : PTS) : Res PTS := do
  let p ← p.split (isWhitespaceSegs P) .removed
  p.split (isBertPuncSegs P) .isolated

/-- `pre_tokenizer.cpp:228-237` `SplitPreTokenizer::pre_tokenize`; the member `invert`
is not used by the code. -/
def splitPreTokenize (P : Platform) (pattern : Str) (b : Behavior) (p : PTS) : Res PTS :=
  p.split (findMatches P pattern) b

/-- `pre_tokenizer.h:57-99`: the pre-tokenizer classes. -/
inductive PreTokenizer
  | bert
  | split (pattern : Str) (behavior : Behavior) (invert : Bool)
  | byteLevel (addPrefixSpace useRegex : Bool)
  | seq (l : List PreTokenizer)

mutual
/-- `PreTokenizer::pre_tokenize` (virtual dispatch). -/
def PreTokenizer.run (P : Platform) : PreTokenizer → PTS → Res PTS
  | .bert, p => bertPreTokenize P p
  | .split pat b _, p => splitPreTokenize P pat b p
  | .byteLevel a u, p => byteLevelPreTokenize P a u p
  | .seq l, p => PreTokenizer.runList P l p
/-- `pre_tokenizer.cpp:211-220` `SequencePreTokenizer::pre_tokenize`. -/
def PreTokenizer.runList (P : Platform) : List PreTokenizer → PTS → Res PTS
  | [], p => .ok p
  | t :: r, p => do PreTokenizer.runList P r (← PreTokenizer.run P t p)
end

end Tok
