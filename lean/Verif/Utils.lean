import Verif.Common

set_option autoImplicit false

/-
`include/tokenizers/utils.h`, `src/utils.cpp`: truncation and padding.
`int` arithmetic is modelled in `Int` without overflow (lengths stay far below 2^31).
-/

namespace Tok

/-- `utils.h:14-18` `TRUNCATION_DIRECTION`. -/
inductive TDir | right | left | unknown
  deriving DecidableEq, Repr
/-- `utils.h:22-27` `TRUNCATION_STRATEGY`. -/
inductive TStrat | longestFirst | onlyFirst | onlySecond | unknown
  deriving DecidableEq, Repr

/-- `utils.cpp:15-25` `get_truncation_direction`. -/
def getTDir (s : Str) : TDir :=
  if s = b!"Right" then .right else if s = b!"Left" then .left else .unknown

/-- `utils.cpp:27-38` `get_truncation_strategy`. -/
def getTStrat (s : Str) : TStrat :=
  if s = b!"LongestFirst" then .longestFirst
  else if s = b!"OnlyFirst" then .onlyFirst
  else if s = b!"OnlySecond" then .onlySecond
  else .unknown

/-- `utils.h:31-43` `Truncation`. -/
structure Truncation where
  direction : TDir
  strategy : TStrat
  maxLength : Int
  stride : Int
  deriving DecidableEq, Repr

/-- `utils.cpp:61-67`: the loop of the direction Right, with fuel.  `len` is
`encoding.ids.size()`, `fin` the flag `end`. -/
def rightRanges (len : Nat) (maxLen offset : Int) :
    Nat → Int → Bool → List (Int × Int) → Res (List (Int × Int))
  | fuel, start, fin, acc =>
    if toSizeT start < len then
      match fuel with
      | 0 => .error .diverges
      | fuel + 1 =>
        if fin then rightRanges len maxLen offset fuel (start + offset) fin acc
        else
          let stop := min (start + maxLen) len
          rightRanges len maxLen offset fuel (start + offset) (stop == len) (acc ++ [(start, stop)])
    else .ok acc

/-- `utils.cpp:69-76`: the loop of the direction Left, with fuel.  The body increments
the loop variable. -/
def leftRanges (maxLen offset : Int) :
    Nat → Int → Bool → List (Int × Int) → Res (List (Int × Int))
  | fuel, stop0, fin, acc =>
    if 0 ≤ stop0 then
      match fuel with
      | 0 => .error .diverges
      | fuel + 1 =>
        let stop := stop0 + 1
        let start := if stop < maxLen then 0 else stop - maxLen
        if start < stop ∧ fin = false then
          leftRanges maxLen offset fuel (stop - offset) (start == 0) (acc ++ [(start, stop)])
        else leftRanges maxLen offset fuel (stop - offset) fin acc
    else .ok acc

/-- `std::vector(v.begin() + a, v.begin() + b)`. -/
def sliceI {α : Type} (l : List α) (a b : Int) : Res (List α) :=
  if 0 ≤ a ∧ 0 ≤ b then slice l a.toNat b.toNat else .error (.ub .outOfBounds)

/-- `utils.cpp:79-93, 97-112`: the part `[a, b)` of every vector. -/
def Enc.window (e : Enc) (r : Int × Int) : Res Enc := do
  let ids ← sliceI e.ids r.1 r.2
  let typeIds ← sliceI e.typeIds r.1 r.2
  let tokens ← sliceI e.tokens r.1 r.2
  let words ← sliceI e.words r.1 r.2
  let offsets ← sliceI e.offsets r.1 r.2
  let specialTokensMask ← sliceI e.specialTokensMask r.1 r.2
  let attentionMask ← sliceI e.attentionMask r.1 r.2
  return { ids, typeIds, tokens, words, offsets, specialTokensMask, attentionMask }

/-- `utils.cpp:95-113`: the overflow windows. -/
def windows (e : Enc) : List (Int × Int) → Res (List Enc)
  | [] => .ok []
  | r :: rs => do return (← e.window r) :: (← windows e rs)

/-- `utils.cpp:58-77`: the window positions.  Fuel: every round of a terminating loop
moves the loop variable by at least one, so `len + 1` rounds suffice. -/
def partsRanges (len : Nat) (maxLen stride : Int) (d : TDir) : Res (List (Int × Int)) :=
  match d with
  | .right => rightRanges len maxLen (maxLen - stride) (len + 1) 0 false []
  | .left => leftRanges maxLen (maxLen - stride) (len + 1) ((len : Int) - 1) false []
  | .unknown => .ok []

/-- `utils.cpp:47-115` `truncate`. -/
def truncate (e : Encoding) (maxLen stride : Int) (d : TDir) : Res Encoding :=
  if (e.ids.length : Int) ≤ maxLen then .ok e
  else if maxLen = 0 then .ok { e with overflowing := [] }
  else do
    match ← partsRanges e.ids.length maxLen stride d with
    | [] => .error (.ub .outOfBounds)
    | r :: rs =>
      let first ← e.toEnc.window r
      let rest ← windows e.toEnc rs
      return { toEnc := first, overflowing := rest }

/-- `utils.cpp:117-135` `Truncation::truncate_encoding`. -/
def Truncation.run (t : Truncation) (e : Encoding) : Res Encoding :=
  if t.maxLength = 0 then truncate e 0 t.stride t.direction
  else if e.ids.length ≤ toSizeT t.maxLength then .ok e
  else
    let toRemove : Int := e.ids.length - t.maxLength
    match t.strategy with
    | .longestFirst => truncate e ((e.ids.length : Int) - toRemove) t.stride t.direction
    | .onlyFirst =>
      if (e.ids.length : Int) > toRemove then truncate e t.maxLength t.stride t.direction
      else .ok e
    | _ => .ok e

/-- `utils.h:45-49` `PADDING_DIRECTION`. -/
inductive PDir | right | left | unknown
  deriving DecidableEq, Repr
/-- `utils.h:53-57` `PADDING_STRATEGY`. -/
inductive PStrat | batchLongest | fixed | unknown
  deriving DecidableEq, Repr

/-- `utils.cpp:162-171` `get_padding_direction`. -/
def getPDir (s : Str) : PDir :=
  if s = b!"Right" then .right else if s = b!"Left" then .left else .unknown

/-- `utils.cpp:173-183` `get_padding_strategy`. -/
def getPStrat (s : Str) : PStrat :=
  if s = b!"BatchLongest" then .batchLongest else if s = b!"Fixed" then .fixed else .unknown

/-- `utils.h:61-76` `Padding`. -/
structure Padding where
  direction : PDir
  strategy : PStrat
  fixedSize : Int
  padId : Int
  padTypeId : Int
  padToken : Str
  padToMultipleOf : Int
  deriving DecidableEq, Repr

/-- `utils.cpp:204-230`: the seven vectors of `pad`.  The test compares a `size_t` with
an `int`; inserting a negative count throws `std::length_error`. -/
def padEnc (p : Padding) (target : Int) (e : Enc) : Res Enc :=
  if toSizeT target ≤ e.ids.length then .ok e
  else
    let n := target - e.ids.length
    match p.direction with
    | .unknown => .ok e
    | .left =>
      if n < 0 then .error (.throws .lengthError)
      else
        let k := n.toNat
        .ok { ids := List.replicate k p.padId ++ e.ids
              typeIds := List.replicate k p.padTypeId ++ e.typeIds
              tokens := List.replicate k p.padToken ++ e.tokens
              words := List.replicate k (some 0) ++ e.words
              attentionMask := List.replicate k 0 ++ e.attentionMask
              specialTokensMask := List.replicate k 1 ++ e.specialTokensMask
              offsets := List.replicate k (0, 0) ++ e.offsets }
    | .right =>
      if n < 0 then .error (.throws .lengthError)
      else
        let k := n.toNat
        .ok { ids := e.ids ++ List.replicate k p.padId
              typeIds := e.typeIds ++ List.replicate k p.padTypeId
              tokens := e.tokens ++ List.replicate k p.padToken
              words := e.words ++ List.replicate k (some 0)
              attentionMask := e.attentionMask ++ List.replicate k 0
              specialTokensMask := e.specialTokensMask ++ List.replicate k 1
              offsets := e.offsets ++ List.replicate k (0, 0) }

/-- `utils.cpp:198-203`: padding of the overflow windows. -/
def padAll (p : Padding) (target : Int) : List Enc → Res (List Enc)
  | [] => .ok []
  | e :: r => do return (← padEnc p target e) :: (← padAll p target r)

/-- `utils.cpp:196-231` `pad`. -/
def pad (p : Padding) (target : Int) (e : Encoding) : Res Encoding := do
  let overflowing ← padAll p target e.overflowing
  let main ← padEnc p target e.toEnc
  return { toEnc := main, overflowing }

/-- `utils.cpp:234-238`: the target length (C++ `%` truncates towards zero). -/
def Padding.target (p : Padding) (len : Nat) : Int :=
  let n : Int := if p.strategy = .fixed then p.fixedSize else len
  if p.padToMultipleOf > 0 ∧ n.tmod p.padToMultipleOf > 0 then
    n + (p.padToMultipleOf - n.tmod p.padToMultipleOf)
  else n

/-- `utils.cpp:233-240` `Padding::pad_encoding`. -/
def Padding.run (p : Padding) (e : Encoding) : Res Encoding := pad p (p.target e.ids.length) e

end Tok
