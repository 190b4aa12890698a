import Verif.Tokenizer

set_option autoImplicit false

/-
Construction from a JSON configuration: `src/tokenizer.cpp:24-90` and the `with_…`
functions.  The JSON text itself is parsed by simdjson; the model starts from the
document tree.  Keys and strings are kept *raw* (as written between the quotes) because
`simdjson`'s `escaped_key()` and field lookup work on raw keys, while `get_string()`
unescapes.
-/

namespace Tok

/-- A JSON document; strings and keys are raw, numbers are their text. -/
inductive Json
  | null
  | bool (b : Bool)
  | num (text : Str)
  | str (raw : Str)
  | arr (l : List Json)
  | obj (l : List (Str × Json))

/-- Value of a hexadecimal digit. -/
def hexVal (c : Nat) : Option Nat :=
  if 0x30 ≤ c ∧ c ≤ 0x39 then some (c - 0x30)
  else if 0x41 ≤ c ∧ c ≤ 0x46 then some (c - 0x37)
  else if 0x61 ≤ c ∧ c ≤ 0x66 then some (c - 0x57)
  else none

/-- Value of `XXXX` in a `\uXXXX` escape. -/
def hex4 (a b c d : Nat) : Option Nat := do
  return (← hexVal a) * 4096 + (← hexVal b) * 256 + (← hexVal c) * 16 + (← hexVal d)

/-- Single-character escapes of JSON. -/
def simpleEscape (c : Nat) : Option Nat :=
  if c = 0x22 ∨ c = 0x5C ∨ c = 0x2F then some c
  else if c = 0x62 then some 8
  else if c = 0x66 then some 12
  else if c = 0x6E then some 10
  else if c = 0x72 then some 13
  else if c = 0x74 then some 9
  else none

/-- The string denoted by a raw JSON string (RFC 8259 §7); `none` when malformed. -/
def unescape : Nat → Str → Option Str
  | _, [] => some []
  | 0, _ :: _ => none
  | n + 1, c :: r =>
    if c ≠ 0x5C then (unescape n r).map (c :: ·)
    else
      match r with
      | 0x75 :: a :: b :: e :: f :: r' => do
        let v ← hex4 a b e f
        if isLead v then
          match r' with
          | 0x5C :: 0x75 :: a' :: b' :: e' :: f' :: r'' => do
            let v' ← hex4 a' b' e' f'
            if isTrail v' then return utf8Enc1 (pairCode v v') ++ (← unescape n r'') else none
          | _ => none
        else if isTrail v then none
        else return utf8Enc1 v ++ (← unescape n r')
      | x :: r' => do return (← simpleEscape x) :: (← unescape n r')
      | [] => none

/-- The string denoted by a raw JSON string. -/
def jsonText (raw : Str) : Option Str := unescape raw.length raw

/-- Every use of simdjson that fails throws `simdjson_error`. -/
def jfail {α : Type} : Res α := .error (.throws .jsonError)

/-- `get_string()`. -/
def Json.getString : Json → Res Str
  | .str raw => match jsonText raw with
    | some s => .ok s
    | none => jfail
  | _ => jfail

/-- `get_bool()`. -/
def Json.getBool : Json → Res Bool
  | .bool b => .ok b
  | _ => jfail

/-- Decimal digits. -/
def digitsVal : Str → Nat → Option Nat
  | [], acc => some acc
  | c :: r, acc => if 0x30 ≤ c ∧ c ≤ 0x39 then digitsVal r (acc * 10 + (c - 0x30)) else none

/-- The digits of a JSON integer: no superfluous leading zero. -/
def natOf : Str → Option Nat
  | [] => none
  | c :: r => if c = 0x30 ∧ r ≠ [] then none else digitsVal (c :: r) 0

/-- An integer literal. -/
def intOf (t : Str) : Option Int :=
  match t with
  | 0x2D :: r => (natOf r).map fun (n : Nat) => -(n : Int)
  | t => (natOf t).map fun (n : Nat) => (n : Int)

/-- `static_cast<int>(int64_t)` with 32-bit `int`. -/
def toInt32 (i : Int) : Int := (i + 2 ^ 31) % 2 ^ 32 - 2 ^ 31

/-- `static_cast<int>(get_int64())`. -/
def Json.getInt : Json → Res Int
  | .num t => match intOf t with
    | some i => if -(2 ^ 63) ≤ i ∧ i < 2 ^ 63 then .ok (toInt32 i) else jfail
    | none => jfail
  | _ => jfail

/-- `get_array()`. -/
def Json.getArray : Json → Res (List Json)
  | .arr l => .ok l
  | _ => jfail

/-- `get_object()`. -/
def Json.getObject : Json → Res (List (Str × Json))
  | .obj l => .ok l
  | _ => jfail

/-- `obj["key"].value()`: the first field with this raw key.  Simplification: when a key occurs
several times, simdjson's `find_field_unordered` may find a later one, depending on which
fields were read before. -/
def Json.field (j : Json) (k : Str) : Res Json := do
  match mapFind (← j.getObject) k with
  | some v => .ok v
  | none => jfail

/-- `val.type() == null ? default : val.get_…()`. -/
def Json.orDefault {α : Type} (j : Json) (dflt : α) (get : Json → Res α) : Res α :=
  match j with
  | .null => .ok dflt
  | j => get j

/-- `field` followed by `orDefault`. -/
def Json.opt {α : Type} (j : Json) (k : Str) (dflt : α) (get : Json → Res α) : Res α := do
  (← j.field k).orDefault dflt get

/-- Map with failure, in order. -/
def mapRes {α β : Type} (f : α → Res β) : List α → Res (List β)
  | [] => .ok []
  | a :: r => do return (← f a) :: (← mapRes f r)

/-- `utils.cpp:287-296` `get_map_ints_from_json`: keys as returned by `escaped_key()`,
i.e. raw; `insert` keeps the first entry of a key.  Simplification: the iteration order of the
`unordered_map` is taken to be the order of the document; the theorems about models quantify
over vocabularies in any order. -/
def vocabFields : List (Str × Json) → Vocab → Res Vocab
  | [], acc => .ok acc
  | (k, v) :: r, acc => do vocabFields r (mapInsert acc k (← v.getInt))

/-- `utils.cpp:137-160` `with_truncation`. -/
def withTruncation (j : Json) : Res Truncation := do
  let direction ← j.opt b!"direction" [] Json.getString
  let strategy ← j.opt b!"strategy" [] Json.getString
  let maxLength ← j.opt b!"max_length" 0 Json.getInt
  let stride ← j.opt b!"stride" 0 Json.getInt
  return { direction := getTDir direction, strategy := getTStrat strategy, maxLength, stride }

/-- `utils.cpp:256-260`: the last field of the strategy object wins. -/
def strategyFields : List (Str × Json) → Str × Int → Res (Str × Int)
  | [], acc => .ok acc
  | (k, v) :: r, _ => do strategyFields r (k, ← v.getInt)

/-- `utils.cpp:249-263`: the field `strategy`, a string or an object. -/
def padStrategyField : Json → Res (Str × Int)
  | .null => .ok ([], -1)
  | .obj l => strategyFields l ([], -1)
  | v => do return (← v.getString, -1)

/-- `utils.cpp:242-285` `with_padding`. -/
def withPadding (j : Json) : Res Padding := do
  let direction ← j.opt b!"direction" [] Json.getString
  let strategy ← padStrategyField (← j.field b!"strategy")
  let padId ← j.opt b!"pad_id" 0 Json.getInt
  let padTypeId ← j.opt b!"pad_type_id" 0 Json.getInt
  let padToken ← j.opt b!"pad_token" [] Json.getString
  let padToMultipleOf ← j.opt b!"pad_to_multiple_of" 0 Json.getInt
  return { direction := getPDir direction, strategy := getPStrat strategy.1, fixedSize := strategy.2, padId,
           padTypeId, padToken, padToMultipleOf }

/-- `added_vocabulary.cpp:331-346`: one field of an added token. -/
def tokenField (k : Str) (v : Json) (t : AddedToken) : Res AddedToken :=
  if k = b!"id" then do return { t with id := ← v.getInt }
  else if k = b!"content" then do return { t with content := ← v.getString }
  else if k = b!"single_word" then do return { t with singleWord := ← v.getBool }
  else if k = b!"lstrip" then do return { t with lstrip := ← v.getBool }
  else if k = b!"rstrip" then do return { t with rstrip := ← v.getBool }
  else if k = b!"normalized" then do return { t with normalized := ← v.getBool }
  else if k = b!"special" then do return { t with special := ← v.getBool }
  else return t

/-- `added_vocabulary.cpp:329-347`: the fields of one added token. -/
def tokenFields : List (Str × Json) → AddedToken → Res AddedToken
  | [], t => .ok t
  | (k, v) :: r, t => do tokenFields r (← tokenField k v t)

/-- `added_vocabulary.cpp:323-351` `with_added_vocabulary`. -/
def withAddedVocabulary (j : Json) : Res AddedVocab := do
  let l ← mapRes (fun v => do tokenFields (← Json.getObject v) {}) (← j.getArray)
  return AddedVocab.init l

/-- `{"String": …}` / `{"Regex": …}` patterns; `null` gives the empty string. -/
def patternField (j : Json) (key : Str) : Res Str :=
  j.opt b!"pattern" [] fun v => do (← v.field key).getString

/-- `normalizer.cpp:68-150` `with_normalizer`; `fuel` bounds the nesting of sequences;
null members of a sequence are skipped. -/
def withNormalizer : Nat → Json → Res (Option Normalizer)
  | 0, _ => .error .diverges
  | fuel + 1, j => do
    let type ← (← j.field b!"type").getString
    if type = b!"Sequence" then
      let l ← mapRes (withNormalizer fuel) (← (← j.field b!"normalizers").getArray)
      return some (.seq (l.filterMap id))
    else if type = b!"NFC" then return some (.nf .nfc)
    else if type = b!"NFD" then return some (.nf .nfd)
    else if type = b!"NFKC" then return some (.nf .nfkc)
    else if type = b!"NFKD" then return some (.nf .nfkd)
    else if type = b!"Prepend" then
      return some (.prepend (← j.opt b!"prepend" [] Json.getString))
    else if type = b!"Replace" then
      let p ← patternField j b!"String"
      return some (.replace p (← j.opt b!"content" [] Json.getString))
    else if type = b!"BertNormalizer" then
      let a ← j.opt b!"clean_text" false Json.getBool
      let b ← j.opt b!"handle_chinese_chars" false Json.getBool
      let c ← j.opt b!"strip_accents" false Json.getBool
      return some (.bert a b c (← j.opt b!"lowercase" false Json.getBool))
    else if type = b!"Strip" then
      let l ← j.opt b!"strip_left" false Json.getBool
      return some (.strip l (← j.opt b!"strip_right" false Json.getBool))
    else if type = b!"StripAccents" then return some .stripAccents
    else return none

/-- `pre_tokenizer.cpp:49-101` `with_pre_tokenizer`. -/
def withPreTokenizer : Nat → Json → Res (Option PreTokenizer)
  | 0, _ => .error .diverges
  | fuel + 1, j => do
    let type ← (← j.field b!"type").getString
    if type = b!"BertPreTokenizer" then return some .bert
    else if type = b!"Sequence" then
      let l ← mapRes (withPreTokenizer fuel) (← (← j.field b!"pretokenizers").getArray)
      return some (.seq (l.filterMap id))
    else if type = b!"Split" then
      let p ← patternField j b!"Regex"
      let b ← j.opt b!"behavior" [] Json.getString
      let i ← j.opt b!"invert" false Json.getBool
      return some (.split p (getBehavior b) i)
    else if type = b!"ByteLevel" then
      let a ← j.opt b!"add_prefix_space" false Json.getBool
      return some (.byteLevel a (← j.opt b!"use_regex" false Json.getBool))
    else return none

/-- `model.cpp:73-76`: `get_double()`; the number is interpreted by the platform. -/
def dropoutValue (P : Platform) : Json → Res Dropout
  | .num t => .ok (P.dropout t)
  | _ => jfail

/-- `model.cpp:36-109` `with_model`. -/
def withModel (P : Platform) (j : Json) : Res (Option Model) := do
  let type ← (← j.field b!"type").getString
  let vocab ← j.opt b!"vocab" [] fun v => do vocabFields (← v.getObject) []
  if type = b!"WordPiece" then
    let unkToken ← j.opt b!"unk_token" [] Json.getString
    let maxChars ← j.opt b!"max_input_chars_per_word" 0 Json.getInt
    let pre ← j.opt b!"continuing_subword_prefix" [] Json.getString
    return some (.wordPiece { vocab, unkToken, maxChars, pre })
  else if type = b!"BPE" then
    let merges ← j.opt b!"merges" [] fun v => do mapRes Json.getString (← v.getArray)
    let dropout ← j.opt b!"dropout" { on := false, draw := fun _ => false } (dropoutValue P)
    let unkToken ← j.opt b!"unk_token" [] Json.getString
    let pre ← j.opt b!"continuing_subword_prefix" [] Json.getString
    let suf ← j.opt b!"end_of_word_suffix" [] Json.getString
    let fuseUnk ← j.opt b!"fuse_unk" false Json.getBool
    let byteFallback ← j.opt b!"byte_fallback" false Json.getBool
    let ignoreMerges ← j.opt b!"ignore_merges" false Json.getBool
    return some (.bpe (← BPE.make vocab merges dropout unkToken pre suf fuseUnk byteFallback ignoreMerges))
  else return none

/-- `decoder.cpp:37-103` `with_decoder`. -/
def withDecoder : Nat → Json → Res (Option Decoder)
  | 0, _ => .error .diverges
  | fuel + 1, j => do
    let type ← (← j.field b!"type").getString
    if type = b!"Sequence" then
      let l ← mapRes (withDecoder fuel) (← (← j.field b!"decoders").getArray)
      return some (.seq (l.filterMap id))
    else if type = b!"WordPiece" then
      let p ← j.opt b!"prefix" [] Json.getString
      return some (.wordPiece p (← j.opt b!"cleanup" false Json.getBool))
    else if type = b!"Strip" then
      let c ← j.opt b!"content" [] Json.getString
      let a ← j.opt b!"start" 0 Json.getInt
      return some (.strip c a (← j.opt b!"stop" 0 Json.getInt))
    else if type = b!"Replace" then
      let p ← patternField j b!"String"
      return some (.replace p (← j.opt b!"content" [] Json.getString))
    else if type = b!"ByteFallback" then return some .byteFallback
    else if type = b!"Fuse" then return some .fuse
    else if type = b!"ByteLevel" then return some .byteLevel
    else return none

/-- `post_processor.cpp:54-62, 71-79`: the fields of one template element. -/
def pieceFields : List (Str × Json) → Res (List Piece)
  | [] => .ok []
  | (k, v) :: r => do
    let id ← (← v.field b!"id").getString
    let typeId ← (← v.field b!"type_id").getInt
    return { kind := k, id, typeId } :: (← pieceFields r)

/-- `post_processor.cpp:48-64, 65-81`: a template. -/
def pieces (j : Json) (k : Str) : Res (List Piece) :=
  j.opt k [] fun v => do
    let l ← mapRes (fun e => do pieceFields (← Json.getObject e)) (← v.getArray)
    return l.flatten

/-- `post_processor.cpp:86-104`: one special token. -/
def specialField (v : Json) : Res SpecialToken := do
  let id ← (← v.field b!"id").getString
  let ids ← mapRes Json.getInt (← (← v.field b!"ids").getArray)
  let tokens ← mapRes Json.getString (← (← v.field b!"tokens").getArray)
  return { id, ids, tokens }

/-- `post_processor.cpp:42-136` `with_post_processor`. -/
def withPostProcessor : Nat → Json → Res (Option PostProcessor)
  | 0, _ => .error .diverges
  | fuel + 1, j => do
    let type ← (← j.field b!"type").getString
    if type = b!"TemplateProcessing" then
      let single ← pieces j b!"single"
      let pair ← pieces j b!"pair"
      let specials ← j.opt b!"special_tokens" [] fun v => do
        mapRes (fun e => specialField e.2) (← v.getObject)
      return some (.template single pair specials)
    else if type = b!"Sequence" then
      let l ← mapRes (withPostProcessor fuel) (← (← j.field b!"processors").getArray)
      return some (.seq (l.filterMap id))
    else if type = b!"ByteLevel" then
      let a ← j.opt b!"add_prefix_space" false Json.getBool
      return some (.byteLevel a (← j.opt b!"trim_offsets" false Json.getBool))
    else return none

/-- `tokenizer.cpp:43-82`: one section; `null` leaves the member null. -/
def section' {α : Type} (doc : Json) (k : Str) (f : Json → Res (Option α)) : Res (Option α) := do
  match ← doc.field k with
  | .null => .ok none
  | j => f j

/-- `tokenizer.cpp:43-82`: all sections, in order.  Simplification: a section that
must be an object or array but is not fails in the first access inside the `with_…`
function instead of in the conversion before it; both throw `simdjson_error`. -/
def parseSections (P : Platform) (fuel : Nat) (doc : Json) : Res Tokenizer := do
  let truncation ← section' doc b!"truncation" fun j => do pure (some (← withTruncation j))
  let padding ← section' doc b!"padding" fun j => do pure (some (← withPadding j))
  let added ← section' doc b!"added_tokens" fun j => do pure (some (← withAddedVocabulary j))
  let normalizer ← section' doc b!"normalizer" (withNormalizer fuel)
  let preTokenizer ← section' doc b!"pre_tokenizer" (withPreTokenizer fuel)
  let model ← section' doc b!"model" (withModel P)
  let decoder ← section' doc b!"decoder" (withDecoder fuel)
  let postProcessor ← section' doc b!"post_processor" (withPostProcessor fuel)
  return { truncation, padding, added, normalizer, preTokenizer, model, decoder, postProcessor }

mutual
/-- Nesting depth of a document; used as fuel for the recursive `with_…` functions. -/
def Json.depth : Json → Nat
  | .arr l => Json.depthList l + 1
  | .obj l => Json.depthFields l + 1
  | _ => 1
/-- Largest depth of a list. -/
def Json.depthList : List Json → Nat
  | [] => 0
  | j :: r => max j.depth (Json.depthList r)
/-- Largest depth of the field values. -/
def Json.depthFields : List (Str × Json) → Nat
  | [] => 0
  | (_, j) :: r => max j.depth (Json.depthFields r)
end

/-- The outcome of reading and parsing the configuration text. -/
inductive Source
  | bothEmpty                -- path and config are empty strings
  | unreadable               -- the file cannot be loaded or is not JSON
  | document (j : Json)

/-- `tokenizer.cpp:24-90` constructor `Tokenizer`.  `catch (const std::exception&)`
turns every exception of the parsing part into `std::runtime_error`; undefined behaviour
is not caught. -/
def Tokenizer.make (P : Platform) (src : Source) : Res Tokenizer :=
  match src with
  | .bothEmpty => .error (.throws .invalidArgument)
  | .unreadable => .error (.throws .runtimeError)
  | .document doc =>
    match parseSections P (doc.depth) doc with
    | .error (.throws _) => .error (.throws .runtimeError)
    | .error e => .error e
    | .ok t => t.finish

end Tok
