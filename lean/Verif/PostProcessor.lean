import Verif.Common

set_option autoImplicit false

/-
`include/tokenizers/post_processor.h`, `src/post_processor.cpp`.
-/

namespace Tok

/-- `post_processor.h` `SpecialToken`. -/
structure SpecialToken where
  id : Str
  ids : List Int
  tokens : List Str
  deriving DecidableEq, Repr

/-- `post_processor.h` `Piece`, paired with its JSON key ("Sequence", "SpecialToken"). -/
structure Piece where
  kind : Str
  id : Str
  typeId : Int
  deriving DecidableEq, Repr

/-- `post_processor.cpp:186-203`: append every vector. -/
def Enc.append (a b : Enc) : Enc :=
  { ids := a.ids ++ b.ids
    typeIds := a.typeIds ++ b.typeIds
    tokens := a.tokens ++ b.tokens
    words := a.words ++ b.words
    offsets := a.offsets ++ b.offsets
    specialTokensMask := a.specialTokensMask ++ b.specialTokensMask
    attentionMask := a.attentionMask ++ b.attentionMask }

/-- `post_processor.cpp:158-179`: the encoding of a special piece; an unknown special
token stays default-constructed (empty). -/
def specialEnc (specials : List SpecialToken) (p : Piece) : Enc :=
  let t : SpecialToken := (specials.find? fun s => s.id == p.id).getD { id := [], ids := [], tokens := [] }
  { ids := t.ids
    tokens := t.tokens
    typeIds := List.replicate t.ids.length p.typeId
    words := List.replicate t.ids.length none
    offsets := List.replicate t.ids.length (0, 0)
    specialTokensMask := List.replicate t.ids.length 1
    attentionMask := List.replicate t.ids.length 1 }

/-- `post_processor.cpp:147-183`: the loop over the template, with the (mutated)
encoding; returns `final_encodings`. -/
def templateParts (specials : List SpecialToken) (addSpecial : Bool) :
    List Piece → Enc → List Enc
  | [], _ => []
  | p :: r, e =>
    if p.kind = b!"Sequence" then
      let e := if p.id = b!"A" then
          { e with typeIds := List.replicate e.typeIds.length p.typeId } else e
      e :: templateParts specials addSpecial r e
    else if p.kind = b!"SpecialToken" then
      if addSpecial then specialEnc specials p :: templateParts specials addSpecial r e
      else templateParts specials addSpecial r e
    else templateParts specials addSpecial r e

/-- `post_processor.cpp:144-206` `TemplateProcessing::process`; the result is a fresh
`Encoding`, its `overflowing` is empty. -/
def templateProcess (single : List Piece) (specials : List SpecialToken) (addSpecial : Bool)
    (e : Encoding) : Encoding :=
  { toEnc := (templateParts specials addSpecial single e.toEnc).foldl Enc.append {}
    overflowing := [] }

/-- `post_processor.cpp:219`: `BYTES_CHAR.at(' ')`. -/
def spaceChar : Str := (mapFind bytesChar 0x20).getD []

/-- `post_processor.cpp:217-219`: is this UTF-16 unit the image of a space? -/
def isSpaceUnit (u : Nat) : Bool := spaceChar = toUTF8String [u]

/-- `post_processor.cpp:212-247`: the new offsets of token number `i`. -/
def trimOffsets (addPrefixSpace : Bool) (i : Nat) (token : Str) (o : Int × Int) : Int × Int :=
  let u := fromUTF8 token
  let lead : Int := (u.takeWhile isSpaceUnit).length
  let trail : Int := (u.reverse.takeWhile isSpaceUnit).length
  if lead > 0 ∨ trail > 0 then
    let first :=
      if lead > 0 then
        let isFirst := i = 0 ∨ o.1 = 0
        let lead := if isFirst ∧ addPrefixSpace = true ∧ lead = 1 then 0 else lead
        min (o.1 + lead) o.2
      else o.1
    let second := if trail > 0 ∧ trail ≤ o.2 then max (o.2 - trail) first else o.2
    (first, second)
  else o

/-- `post_processor.cpp:211-250`: the loop; `n` is the number of remaining ids, `i` the
loop index.  `tokens[i]` or `offsets[i]` out of range is undefined behaviour. -/
def trimLoop (addPrefixSpace : Bool) (tokens : List Str) : Nat → Nat → List (Int × Int) →
    Res (List (Int × Int))
  | 0, _, offsets => .ok offsets
  | n + 1, i, offsets => do
    let t ← vecAt tokens i
    let o ← vecAt offsets i
    trimLoop addPrefixSpace tokens n (i + 1) (offsets.set i (trimOffsets addPrefixSpace i t o))

/-- `post_processor.cpp:208-252` `ByteLevelProcessing::process_offsets`. -/
def processOffsets (addPrefixSpace : Bool) (e : Enc) : Res Enc := do
  let offsets ← trimLoop addPrefixSpace e.tokens e.ids.length 0 e.offsets
  return { e with offsets }

/-- `post_processor.cpp:264-267`. -/
def processAll (addPrefixSpace : Bool) : List Enc → Res (List Enc)
  | [] => .ok []
  | e :: r => do return (← processOffsets addPrefixSpace e) :: (← processAll addPrefixSpace r)

/-- `post_processor.cpp:260-270` `ByteLevelProcessing::process`. -/
def byteLevelProcess (addPrefixSpace trim : Bool) (e : Encoding) : Res Encoding := do
  if trim then
    let main ← processOffsets addPrefixSpace e.toEnc
    let overflowing ← processAll addPrefixSpace e.overflowing
    return { toEnc := main, overflowing }
  else return e

/-- `post_processor.h:51-85`: the post-processor classes. -/
inductive PostProcessor
  | template (single pair : List Piece) (specials : List SpecialToken)
  | byteLevel (addPrefixSpace trimOffsets : Bool)
  | seq (l : List PostProcessor)

mutual
/-- `PostProcessor::process` (virtual dispatch). -/
def PostProcessor.run (addSpecial : Bool) : PostProcessor → Encoding → Res Encoding
  | .template s _ t, e => .ok (templateProcess s t addSpecial e)
  | .byteLevel a t, e => byteLevelProcess a t e
  | .seq l, e => PostProcessor.runList addSpecial l e
/-- `post_processor.cpp:276-285` `SequenceProcessing::process`. -/
def PostProcessor.runList (addSpecial : Bool) : List PostProcessor → Encoding → Res Encoding
  | [], e => .ok e
  | p :: r, e => do PostProcessor.runList addSpecial r (← PostProcessor.run addSpecial p e)
end

end Tok
