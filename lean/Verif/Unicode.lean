import Verif.Base

set_option autoImplicit false

/-
Text conversions: `src/common.cpp:59-67` (`convert_to_string`, `convert_from_string`,
i.e. libstdc++'s `std::codecvt_utf8<wchar_t>`), and the parts of `icu::UnicodeString`
the library uses (`fromUTF8`, `fromUTF32`, `toUTF8String`, `tempSubString`, `char32At`).
-/

namespace Tok

/-- A Unicode scalar value: a code point that is not a surrogate. -/
def isScalar (c : Nat) : Bool := c < 0xD800 || (0xE000 ≤ c && c < 0x110000)

/-- UTF-8 bytes of one code point (the classical bit layout). -/
def utf8Enc1 (c : Nat) : Str :=
  if c < 0x80 then [c]
  else if c < 0x800 then [0xC0 + c / 64, 0x80 + c % 64]
  else if c < 0x10000 then [0xE0 + c / 4096, 0x80 + c / 64 % 64, 0x80 + c % 64]
  else [0xF0 + c / 262144, 0x80 + c / 4096 % 64, 0x80 + c / 64 % 64, 0x80 + c % 64]

/-- UTF-8 bytes of a sequence of code points. -/
def utf8 (w : WStr) : Str := w.flatMap utf8Enc1

/-- `src/common.cpp:59-62` `convert_to_string`: `wstring_convert<codecvt_utf8<wchar_t>>::
to_bytes` throws `std::range_error` on a value that is not a scalar value. -/
def convertToString : WStr → Res Str
  | [] => .ok []
  | c :: r =>
    if isScalar c then
      match convertToString r with
      | .ok s => .ok (utf8Enc1 c ++ s)
      | .error e => .error e
    else .error (.throws .rangeError)

/-- Is `b` a UTF-8 continuation byte? -/
def isCont (b : Nat) : Bool := 0x80 ≤ b && b < 0xC0

/-- One strict UTF-8 decoding step (libstdc++ `read_utf8_code_point`: rejects
continuation bytes in lead position, overlong forms, surrogates, values above
U+10FFFF and truncated sequences).  Returns the code point and its byte count. -/
def utf8Step : Str → Option (Nat × Nat)
  | [] => none
  | b0 :: r =>
    if b0 < 0x80 then some (b0, 1)
    else if b0 < 0xC2 then none
    else if b0 < 0xE0 then
      match r with
      | b1 :: _ =>
        if isCont b1 then some ((b0 - 0xC0) * 64 + (b1 - 0x80), 2) else none
      | _ => none
    else if b0 < 0xF0 then
      match r with
      | b1 :: b2 :: _ =>
        let c := (b0 - 0xE0) * 4096 + (b1 - 0x80) * 64 + (b2 - 0x80)
        if isCont b1 && isCont b2 && decide (0x800 ≤ c) && isScalar c then some (c, 3) else none
      | _ => none
    else if b0 < 0xF5 then
      match r with
      | b1 :: b2 :: b3 :: _ =>
        let c := (b0 - 0xF0) * 262144 + (b1 - 0x80) * 4096 + (b2 - 0x80) * 64 + (b3 - 0x80)
        if isCont b1 && isCont b2 && isCont b3 && decide (0x10000 ≤ c) && isScalar c then some (c, 4)
        else none
      | _ => none
    else none

/-- Strict decoding with fuel = number of remaining bytes (each step consumes at least
one byte, so `s.length` fuel always suffices). -/
def utf8DecFuel : Nat → Str → Option WStr
  | _, [] => some []
  | 0, _ :: _ => none
  | n + 1, s@(_ :: _) =>
    match utf8Step s with
    | none => none
    | some (c, k) => (utf8DecFuel n (s.drop k)).map (c :: ·)

/-- `src/common.cpp:64-67` `convert_from_string`: throws `std::range_error` on
ill-formed UTF-8.  Simplification: some libstdc++ versions silently ignore an
incomplete sequence at the very end; the library only calls this function on text that
is well-formed (JSON strings and its own output). -/
def convertFromString (s : Str) : Res WStr :=
  match utf8DecFuel s.length s with
  | some w => .ok w
  | none => .error (.throws .rangeError)

/-- UTF-16 units of one code point. -/
def utf16Enc1 (c : Nat) : U16 :=
  if c < 0x10000 then [c] else [0xD800 + (c - 0x10000) / 1024, 0xDC00 + (c - 0x10000) % 1024]

/-- UTF-16 of a code point sequence. -/
def utf16 (w : WStr) : U16 := w.flatMap utf16Enc1

/-- ICU substitutes U+FFFD for a value that is not a scalar value. -/
def sanitize (c : Nat) : Nat := if isScalar c then c else 0xFFFD

/-- `icu::UnicodeString::fromUTF32`. -/
def fromUTF32 (w : WStr) : U16 := utf16 (w.map sanitize)

def isLead (u : Nat) : Bool := 0xD800 ≤ u && u < 0xDC00
def isTrail (u : Nat) : Bool := 0xDC00 ≤ u && u < 0xE000

/-- Code point of a surrogate pair. -/
def pairCode (h l : Nat) : Nat := 0x10000 + (h - 0xD800) * 1024 + (l - 0xDC00)

/-- Code points of a UTF-16 string; an unpaired surrogate is kept as it is. -/
def u16Points : U16 → WStr
  | [] => []
  | [u] => [u]
  | h :: l :: r =>
    if isLead h && isTrail l then pairCode h l :: u16Points r
    else h :: u16Points (l :: r)

/-- `icu::UnicodeString::toUTF8String`: unpaired surrogates become U+FFFD. -/
def toUTF8String (u : U16) : Str := utf8 ((u16Points u).map sanitize)

/-- Can `b1` follow the lead byte `b0` of a well-formed UTF-8 sequence of three or four bytes?  (Table 3-7 of
the Unicode Standard; ICU's `U8_IS_VALID_LEAD3_AND_T1`, `U8_IS_VALID_LEAD4_AND_T1`.) -/
def leadPair (b0 b1 : Nat) : Bool :=
  isCont b1 && !(b0 == 0xE0 && b1 < 0xA0) && !(b0 == 0xED && 0xA0 ≤ b1) && !(b0 == 0xF0 && b1 < 0x90) &&
    !(b0 == 0xF4 && 0x90 ≤ b1)

/-- How many bytes at the front of an ill-formed string ICU replaces by one U+FFFD (ICU 60 and later: the
longest beginning of a well-formed sequence, at least one byte). -/
def brokenLen : Str → Nat
  | b0 :: b1 :: r =>
    if 0xE0 ≤ b0 && b0 < 0xF5 && leadPair b0 b1 then
      match r with
      | b2 :: _ => if 0xF0 ≤ b0 && isCont b2 then 3 else 2
      | [] => 2
    else 1
  | _ => 1

/-- Lossy decoding with fuel; used by `fromUTF8`. -/
def utf8LossyFuel : Nat → Str → WStr
  | _, [] => []
  | 0, _ :: _ => []
  | n + 1, s@(_ :: _) =>
    match utf8Step s with
    | none => 0xFFFD :: utf8LossyFuel n (s.drop (brokenLen s))
    | some (c, k) => c :: utf8LossyFuel n (s.drop k)

/-- `icu::UnicodeString::fromUTF8`. -/
def fromUTF8 (s : Str) : U16 := utf16 (utf8LossyFuel s.length s)

/-- `icu::UnicodeString::tempSubString(start, len)`: arguments are pinned to the
string. -/
def tempSubString (u : U16) (start len : Nat) : U16 := (u.drop start).take len

/-- `icu::UnicodeString::tempSubStringBetween(start, limit)`. -/
def tempSubStringBetween (u : U16) (start limit : Nat) : U16 := (u.drop start).take (limit - start)

/-- `icu::UnicodeString::char32At(i)`: the code point that contains unit `i`, whether
`i` is the first or the second unit of a pair; U+FFFF out of range. -/
def char32At (u : U16) (i : Nat) : Nat :=
  match u[i]? with
  | none => 0xFFFF
  | some c =>
    if isLead c then
      match u[i + 1]? with
      | some l => if isTrail l then pairCode c l else c
      | none => c
    else if isTrail c then
      match i with
      | 0 => c
      | j + 1 =>
        match u[j]? with
        | some h => if isLead h then pairCode h c else c
        | none => c
    else c

end Tok
