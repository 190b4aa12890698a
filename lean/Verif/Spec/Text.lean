import Verif.Base

set_option autoImplicit false

/-!
Specification of Unicode text encodings, written from the standard and independent of
the model (it only uses the type abbreviations of `Base`).
-/

namespace Tok.Spec

/-- Unicode scalar value: a code point (`≤ U+10FFFF`) outside the surrogate range. -/
def Scalar (c : Nat) : Prop := c ≤ 0x10FFFF ∧ ¬ (0xD800 ≤ c ∧ c ≤ 0xDFFF)

/-- The well-formed UTF-8 byte sequences of the Unicode Standard (table 3-7), each with
the code point it denotes. -/
inductive Utf8Char : Nat → Str → Prop
  | one (c : Nat) : c ≤ 0x7F → Utf8Char c [c]
  | two (x y : Nat) : 2 ≤ x → x < 32 → y < 64 → Utf8Char (x * 64 + y) [0xC0 + x, 0x80 + y]
  | three (x y z : Nat) : x < 16 → y < 64 → z < 64 → (x = 0 → 32 ≤ y) → (x = 13 → y < 32) →
      Utf8Char (x * 4096 + y * 64 + z) [0xE0 + x, 0x80 + y, 0x80 + z]
  | four (x y z t : Nat) : x ≤ 4 → y < 64 → z < 64 → t < 64 → (x = 0 → 16 ≤ y) →
      (x = 4 → y < 16) →
      Utf8Char (x * 262144 + y * 4096 + z * 64 + t) [0xF0 + x, 0x80 + y, 0x80 + z, 0x80 + t]

/-- `Utf8Text w s`: the bytes `s` are a well-formed UTF-8 representation of the code
points `w`. -/
inductive Utf8Text : WStr → Str → Prop
  | nil : Utf8Text [] []
  | cons {c : Nat} {b : Str} {w : WStr} {s : Str} :
      Utf8Char c b → Utf8Text w s → Utf8Text (c :: w) (b ++ s)

/-- The code points of a sequence of UTF-16 units: a high surrogate followed by a low
surrogate is one code point, every other unit stands for itself. -/
inductive Utf16Text : WStr → U16 → Prop
  | nil : Utf16Text [] []
  | bmp {c : Nat} {w : WStr} {u : U16} : c < 0x10000 → ¬ (0xD800 ≤ c ∧ c ≤ 0xDFFF) →
      Utf16Text w u → Utf16Text (c :: w) (c :: u)
  | pair {x y : Nat} {w : WStr} {u : U16} : x < 1024 → y < 1024 → Utf16Text w u →
      Utf16Text ((0x10000 + x * 1024 + y) :: w) ((0xD800 + x) :: (0xDC00 + y) :: u)

end Tok.Spec
