import Verif.Spec.Pipeline

set_option autoImplicit false

/-!
Specification vocabulary for the pattern that ByteLevel really matches with.
-/

namespace Tok.Spec

/-- What a regex engine finds for `'s|'` in UTF-16 text: from left to right, at every apostrophe the first alternative if an
`s` follows, otherwise the second. `pos` is the position of the first unit. -/
def apostrophes : Nat → U16 → List (Nat × Nat)
  | _, [] => []
  | pos, 0x27 :: 0x73 :: r => (pos, pos + 2) :: apostrophes (pos + 2) r
  | pos, 0x27 :: r => (pos, pos + 1) :: apostrophes (pos + 1) r
  | pos, _ :: r => apostrophes (pos + 1) r

/-- The platform's engine knows the pattern `'s|'`. -/
def KnowsApostrophes (P : Platform) : Prop := P.regex b!"'s|'" = some (apostrophes 0)

/-- A text cut at its apostrophes: `'s` and `'` are words of their own, and so is every stretch between them, whatever it
contains - blanks, digits, punctuation. -/
inductive ApostropheWords : WStr → List WStr → Prop
  | nil : ApostropheWords [] []
  | possessive {w : WStr} {l : List WStr} : ApostropheWords w l → ApostropheWords (0x27 :: 0x73 :: w) ([0x27, 0x73] :: l)
  | apostrophe {w : WStr} {l : List WStr} : w.head? ≠ some 0x73 → ApostropheWords w l → ApostropheWords (0x27 :: w) ([0x27] :: l)
  | stretch {g w : WStr} {l : List WStr} : g ≠ [] → 0x27 ∉ g → (w = [] ∨ w.head? = some 0x27) → ApostropheWords w l →
      ApostropheWords (g ++ w) (g :: l)

/-- The split holds the UTF-8 bytes of the text, written in the byte alphabet. -/
def WrittenInBytes (v : WStr) (s : Split) : Prop := ∃ bytes, Utf8Text v bytes ∧ HasText s (byteText bytes)

end Tok.Spec
