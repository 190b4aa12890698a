import Verif.Spec.Limits
import Verif.Spec.Hangs

set_option autoImplicit false

/-!
Texts that agree where the tokens that are kept come from.
-/

namespace Tok.Spec

/-- `x` is `w`, or `w` continued, after a space, by a text that can be encoded. -/
def GoesOn (P : Platform) (t : Tokenizer) (w x : WStr) : Prop :=
  x = w ∨ ∃ v, x = w ++ 0x20 :: v ∧ ∃ e, ((bareOf t).encode P v false).1 = .ok e

/-- `x` is `w`, or `w` with a text that can be encoded, and a space, in front of it. -/
def ComesAfter (P : Platform) (t : Tokenizer) (w x : WStr) : Prop :=
  x = w ∨ ∃ v, x = v ++ 0x20 :: w ∧ ∃ e, ((bareOf t).encode P v false).1 = .ok e

end Tok.Spec
