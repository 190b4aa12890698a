import Verif.AddedVocabulary
import Verif.Utils
import Verif.PostProcessor
import Verif.Decoder

set_option autoImplicit false

/-
`include/tokenizers/tokenizer.h`, `src/tokenizer.cpp`, and the JNI binding
`android/tokenizers_android/src/main/cpp/tokenizers_android_jni.cpp`.
-/

namespace Tok

/-- `tokenizer.h` `Tokenizer`: every component is a `unique_ptr`, null when `none`. -/
structure Tokenizer where
  truncation : Option Truncation := none
  padding : Option Padding := none
  added : Option AddedVocab := none
  normalizer : Option Normalizer := none
  preTokenizer : Option PreTokenizer := none
  model : Option Model := none
  decoder : Option Decoder := none
  postProcessor : Option PostProcessor := none

/-- `tokenizer.cpp:149-159`: the entries of one token. -/
def tokenEnc (base : Nat) (word typeId : Int) (t : Token) : Enc :=
  { ids := [t.id]
    tokens := [t.value]
    offsets := [((base : Int) + t.offsets.1, (base : Int) + t.offsets.2)]
    words := [some word]
    typeIds := [typeId]
    specialTokensMask := [0]
    attentionMask := [1] }

/-- `tokenizer.cpp:138-160`: the loop of `into_encoding`; `idx` is the loop index. -/
def intoLoop (ns : NS) (wordIdx : Option Int) (typeId : Int) : Nat → List Split → Res Enc
  | _, [] => .ok {}
  | idx, s :: r => do
    let rng ← vecAt ns.ranges s.offsets.1
    let base ← vecAt ns.offsets rng.1
    let here := (s.tokens.map (tokenEnc base.1 (wordIdx.getD idx) typeId)).foldr Enc.append {}
    return here.append (← intoLoop ns wordIdx typeId (idx + 1) r)

/-- `tokenizer.cpp:135-162` `into_encoding`. -/
def intoEncoding (p : PTS) (wordIdx : Option Int) (typeId : Int) : Res Encoding := do
  return { toEnc := (← intoLoop p.normalized wordIdx typeId 0 p.splits), overflowing := [] }

/-- `tokenizer.cpp:164-171` `do_tokenize`. -/
def Tokenizer.doTokenize (P : Platform) (t : Tokenizer) (p : PTS) : Res Encoding × Tokenizer :=
  match t.model with
  | none => (intoEncoding p none 0, t)
  | some m =>
    let r := m.tokenize P p
    (do intoEncoding (← r.1) none 0, { t with model := some r.2 })

/-- `tokenizer.cpp:173-185` `do_post_process`. -/
def Tokenizer.doPostProcess (t : Tokenizer) (e : Encoding) (addSpecial : Bool) : Res Encoding := do
  let e ← match t.truncation with
    | some x => x.run e
    | none => .ok e
  let e ← match t.postProcessor with
    | some x => x.run addSpecial e
    | none => .ok e
  match t.padding with
    | some x => x.run e
    | none => .ok e

/-- `tokenizer.cpp:94-102`: the pre-tokenized text, with the added vocabulary that
`find_matches` may have touched. -/
def Tokenizer.preTokenized (P : Platform) (t : Tokenizer) (w : WStr) : Res PTS × Tokenizer :=
  match PTS.ofNS (NS.ofText w) with
  | .error e => (.error e, t)
  | .ok p =>
    let (r, t) : Res PTS × Tokenizer := match t.added with
      | none => (.ok p, t)
      | some a =>
        let x := a.extract P t.normalizer w
        (x.1, { t with added := some x.2 })
    (do
      let p ← r
      match t.preTokenizer with
      | none => .ok p
      | some pt => pt.run P p, t)

/-- `tokenizer.cpp:92-105` `Tokenizer::encode`; returns the result and the tokenizer
(whose BPE cache and added vocabulary may have changed). -/
def Tokenizer.encode (P : Platform) (t : Tokenizer) (w : WStr) (addSpecial : Bool) :
    Res Encoding × Tokenizer :=
  match t.preTokenized P w with
  | (.error e, t') => (.error e, t')
  | (.ok p, t') =>
    match t'.doTokenize P p with
    | (.error e, t'') => (.error e, t'')
    | (.ok e, t'') => (t''.doPostProcess e addSpecial, t'')

/-- `tokenizer.cpp:110-121`: the token of one id.  The pointers are only dereferenced
when reached. -/
def Tokenizer.idToken (t : Tokenizer) (id : Int) : Res Str :=
  match t.added with
  | none => .error (.ub .nullDeref)
  | some a =>
    match a.idToToken id with
    | some s => .ok s
    | none =>
      match t.model with
      | none => .error (.ub .nullDeref)
      | some m =>
        match idToToken m.vocab id with
        | some s => .ok s
        | none => .error (.throws .badOptionalAccess)

/-- Is a token special (`added_vocabulary->is_special_token`)? -/
def Tokenizer.isSpecial (t : Tokenizer) (s : Str) : Bool :=
  match t.added with
  | none => false
  | some a => a.isSpecial s

/-- `tokenizer.cpp:110-121`: the loop over ids. -/
def Tokenizer.idTokens (t : Tokenizer) (skip : Bool) : List Int → Res (List Str)
  | [] => .ok []
  | i :: r => do
    let s ← t.idToken i
    let rest ← t.idTokens skip r
    return if !skip || !t.isSpecial s then s :: rest else rest

/-- `tokenizer.cpp:107-124` `Tokenizer::decode`. -/
def Tokenizer.decode (t : Tokenizer) (ids : List Int) (skip : Bool) : Res Str := do
  let tokens ← t.idTokens skip ids
  match t.decoder with
  | none => .error (.ub .nullDeref)
  | some d => do return concat (← d.run tokens)

/-- `tokenizer.cpp:126-128` `Tokenizer::add_tokens`. -/
def Tokenizer.addTokens (t : Tokenizer) (l : List AddedToken) : Res (Nat × Tokenizer) :=
  match t.added with
  | none => .error (.ub .nullDeref)
  | some a => do
    let (n, a) ← a.addTokens (t.model.map Model.vocab) l
    return (n, { t with added := some a })

/-- `tokenizer.cpp:130-133` `Tokenizer::add_special_tokens`. -/
def Tokenizer.addSpecialTokens (t : Tokenizer) (l : List AddedToken) : Res (Nat × Tokenizer) :=
  match t.added with
  | none => .error (.ub .nullDeref)
  | some a => do
    let (n, a) ← a.addSpecialTokens (t.model.map Model.vocab) l
    return (n, { t with added := some a })

/-- `tokenizer.cpp:87-89`: the end of the constructor; the argument of `add_tokens` is
the member `added_tokens` itself. -/
def Tokenizer.finish (t : Tokenizer) : Res Tokenizer :=
  match t.added with
  | none => .ok t
  | some a => do
    let (_, a) ← a.addTokensCore (t.model.map Model.vocab) true a.addedTokens
    return { t with added := some a }

/-- `tokenizers_android_jni.cpp:21-25`: the Java string (UTF-16 units) is copied unit by
unit into a `std::wstring` with 32-bit `wchar_t`. -/
def Tokenizer.encodeJava (P : Platform) (t : Tokenizer) (s : U16) (addSpecial : Bool) :
    Res (List Int) × Tokenizer :=
  let r := t.encode P s addSpecial
  (do return (← r.1).ids, r.2)

end Tok
