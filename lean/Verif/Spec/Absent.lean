import Verif.Spec.AnyText

set_option autoImplicit false

/-!
Added tokens that a text does not contain.
-/

namespace Tok.Spec

/-- The token `c` is written somewhere in the text `w` (in its UTF-16 form; half a code point reads as U+FFFD). -/
def WrittenIn (c : Str) (w : WStr) : Prop :=
  ∃ u a b x, Utf16Text w u ∧ b ≤ u.length ∧ ReadAs (between u a b) x ∧ Utf8Text x c

/-- Those of the tokens that the model knows are written neither in the text nor in what the normalizer makes of a part of it. -/
def Absent (P : Platform) (norm : Option Normalizer) (v : Vocab) (l : List AddedToken) (w : WStr) : Prop :=
  ∀ x ∈ l, tokenToId v x.content ≠ none → ¬ WrittenIn x.content w ∧
    ∀ p y q n, w = p ++ y ++ q → Normalizes P norm y n → ¬ WrittenIn x.content n

end Tok.Spec
