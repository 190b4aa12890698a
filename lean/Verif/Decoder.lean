import Verif.Common

set_option autoImplicit false

/-
`include/tokenizers/decoder.h`, `src/decoder.cpp`.
-/

namespace Tok

/-- Leftmost position `≥ k` (relative to the list) where `pat` occurs. -/
def findSub (pat : Str) : Str → Option Nat
  | [] => if pat = [] then some 0 else none
  | s@(_ :: r) => if pat.isPrefixOf s then some 0 else (findSub pat r).map (· + 1)

/-- `std::string::find(pat, start)`. -/
def strFind (s pat : Str) (start : Nat) : Option Nat :=
  if start ≤ s.length then (findSub pat (s.drop start)).map (· + start) else none

/-- `decoder.cpp:108-115` `replace`, the loop with fuel. -/
def replaceLoop (pat to : Str) : Nat → Nat → Str → Res Str
  | fuel, start, input =>
    match strFind input pat start with
    | none => .ok input
    | some p =>
      match fuel with
      | 0 => .error .diverges
      | fuel + 1 =>
        replaceLoop pat to fuel (p + to.length) (input.take p ++ to ++ input.drop (p + pat.length))

/-- `decoder.cpp:108-115` `replace`.  With a non-empty pattern every round consumes a
character behind `start`, so `input.length` rounds suffice. -/
def replaceStr (input pat to : Str) : Res Str := replaceLoop pat to input.length 0 input

/-- `decoder.cpp:118-128`: the replacements, in order. -/
def cleanupRules : List (Str × Str) :=
  [(b!" .", b!"."), (b!" ?", b!"?"), (b!" !", b!"!"), (b!" ,", b!","), (b!" ' ", b!"'"),
   (b!" n't", b!"n't"), (b!" 'm", b!"'m"), (b!" do not", b!" don't"), (b!" 's", b!"'s"),
   (b!" 've", b!"'ve"), (b!" 're", b!"'re")]

/-- Apply the rules one after the other. -/
def applyRules : List (Str × Str) → Str → Res Str
  | [], s => .ok s
  | (f, t) :: r, s => do applyRules r (← replaceStr s f t)

/-- `decoder.cpp:117-130` `cleanup_token`. -/
def cleanupToken (s : Str) : Res Str := applyRules cleanupRules s

/-- `decoder.cpp:136-147`: one token; `i` is its index. -/
def wpDecodeTok (pre : Str) (cleanup : Bool) (i : Nat) (t : Str) : Res Str :=
  let t := if i ≠ 0 then
      (if strFind t pre 0 = some 0 then t.drop pre.length else 0x20 :: t) else t
  if cleanup then cleanupToken t else .ok t

/-- `decoder.cpp:135-148`: the loop. -/
def wpDecodeLoop (pre : Str) (cleanup : Bool) : Nat → List Str → Res (List Str)
  | _, [] => .ok []
  | i, t :: r => do return (← wpDecodeTok pre cleanup i t) :: (← wpDecodeLoop pre cleanup (i + 1) r)

/-- `decoder.cpp:194-199`: `CHAR_BYTES`. -/
def charBytes : List (Str × Nat) := bytesChar.foldl (fun m p => mapSet m p.2 p.1) []

/-- `decoder.cpp:207-213`: one UTF-16 unit; `std::string(1, ch)` and `push_back(ch)`
keep only the low byte of the code point. -/
def decodeUnit (u : U16) (i : Nat) : Nat :=
  let ch := char32At u i % 256
  match mapFind charBytes [ch] with
  | some b => b % 256
  | none => ch

/-- `decoder.cpp:205-214`: one token. -/
def decodeBytes (t : Str) : Str :=
  let u := fromUTF8 t
  (List.range u.length).map (decodeUnit u)

/-- `decoder.cpp:201-218` `ByteLevelDecoder::decode_chain`. -/
def byteLevelDecode (ts : List Str) : List Str := [ts.flatMap decodeBytes]

/-- `decoder.h:36-104`: the decoder classes. -/
inductive Decoder
  | wordPiece (pre : Str) (cleanup : Bool)
  | replace (pattern content : Str)
  | byteFallback
  | fuse
  | strip (content : Str) (start stop : Int)
  | byteLevel
  | seq (l : List Decoder)

mutual
/-- `Decoder::decode_chain` (virtual dispatch); `decoder.cpp:156-159, 163-166, 170-173,
178-181` return an empty vector. -/
def Decoder.run : Decoder → List Str → Res (List Str)
  | .wordPiece p c, ts => wpDecodeLoop p c 0 ts
  | .replace _ _, _ => .ok []
  | .byteFallback, _ => .ok []
  | .fuse, _ => .ok []
  | .strip _ _ _, _ => .ok []
  | .byteLevel, ts => .ok (byteLevelDecode ts)
  | .seq l, ts => Decoder.runList l ts
/-- `decoder.cpp:186-192` `SequenceDecoder::decode_chain`. -/
def Decoder.runList : List Decoder → List Str → Res (List Str)
  | [], ts => .ok ts
  | d :: r, ts => do Decoder.runList r (← Decoder.run d ts)
end

end Tok
