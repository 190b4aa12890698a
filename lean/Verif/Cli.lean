import Verif.Config

set_option autoImplicit false

/-
The example programs: `examples/run/run.cpp` and the part of
`examples/libtorch-bert/mobilebert-uncased.cpp` that does not belong to LibTorch.
Standard output is the list of bytes written so far.
-/

namespace Tok

/-- Decimal digits of a number, most significant first; `fuel` bounds their count. -/
def natDigits : Nat → Nat → Str
  | 0, _ => []
  | fuel + 1, n => if n < 10 then [0x30 + n] else natDigits fuel (n / 10) ++ [0x30 + n % 10]

/-- `std::ostream << int` in the "C" locale. -/
def decimal (i : Int) : Str :=
  if i < 0 then 0x2D :: natDigits ((-i).toNat + 1) (-i).toNat else natDigits (i.toNat + 1) i.toNat

/-- `run.cpp:13-14` `var_type`. -/
inductive Elem
  | num (i : Int)
  | opt (o : Option Int)
  | str (s : Str)
  | pair (p : Int × Int)

/-- `run.cpp:20-40`: one element of a list. -/
def showElem : Elem → Str
  | .num i => decimal i
  | .opt (some i) => decimal i
  | .opt none => b!"None"
  | .str s => (if s = b!"'" then b!"\"" else b!"'") ++ s ++ (if s = b!"'" then b!"\"" else b!"'")
  | .pair p => b!"(" ++ decimal p.1 ++ b!", " ++ decimal p.2 ++ b!")"

/-- `run.cpp:18-43`: the loop, at index `i` of `size` elements. -/
def printLoop (size : Nat) : Nat → List Elem → Str
  | _, [] => []
  | i, e :: r => showElem e ++ (if i ≠ size - 1 then b!", " else []) ++ printLoop size (i + 1) r

/-- `run.cpp:16-45` `print_result`. -/
def printResult (l : List Elem) : Str := b!"[" ++ printLoop l.length 0 l ++ b!"]\n"

/-- `run.cpp:53-69`: what is printed of the encoding of a text. -/
def printEncoding (text : Str) (e : Enc) : Str :=
  b!"Encoding: " ++ text ++ b!"\n" ++
  b!"ids: " ++ printResult (e.ids.map .num) ++
  b!"type_ids: " ++ printResult (e.typeIds.map .num) ++
  b!"tokens: " ++ printResult (e.tokens.map .str) ++
  b!"words: " ++ printResult (e.words.map .opt) ++
  b!"offsets: " ++ printResult (e.offsets.map .pair) ++
  b!"attention_mask: " ++ printResult (e.attentionMask.map .num)

/-- `run.cpp:72-74`: what is printed of the decoded text. -/
def printDecoding (ids : List Int) (text : Str) : Str :=
  b!"Decoding: " ++ printResult (ids.map .num) ++ b!"tokens: " ++ text ++ b!"\n"

/-- `run.cpp:47-76` `main`, given the outcome of reading the configuration at `argv[1]` and the bytes of
`argv[2]` (`none` when there are fewer arguments: `std::string` of a null pointer is undefined
behaviour).  The bytes written before a failure are returned with it; an exception ends the program. -/
def runMain (P : Platform) : Option (Source × Str) → Str × Res Unit
  | none => ([], .error (.ub .nullDeref))
  | some (src, arg) =>
    match Tokenizer.make P src with
    | .error e => ([], .error e)
    | .ok t =>
      match convertFromString arg with
      | .error e => ([], .error e)
      | .ok input =>
        match t.encode P input true with
        | (.error e, _) => ([], .error e)
        | (.ok result, t) =>
          match convertToString input with
          | .error e => (b!"Encoding: ", .error e)
          | .ok text =>
            match t.decode result.ids true with
            | .error e => (printEncoding text result.toEnc, .error e)
            | .ok out => (printEncoding text result.toEnc ++ printDecoding result.ids out, .ok ())

/-- `mobilebert-uncased.cpp:27-32`: the loop that looks for the masked position, at index `i`. -/
def maskedLoop : Int → List Int → Int
  | _, [] => -1
  | i, id :: r => if id = 103 then i else maskedLoop (i + 1) r

/-- `mobilebert-uncased.cpp:26-32`: `masked_index`. -/
def maskedIndex (e : Enc) : Int := maskedLoop 0 e.ids

end Tok
