import Verif.Spec.Throws
import Verif.Spec.Truncation

set_option autoImplicit false

/-!
When a call does not come to an end.
-/

namespace Tok.Spec

/-- The tokenizer without truncation, post-processing and padding. -/
def bareOf (t : Tokenizer) : Tokenizer := { t with truncation := none, postProcessor := none, padding := none }

/-- The truncation has to cut `n` entries but its windows do not advance. -/
def Stalls (tr : Truncation) (n : Nat) : Prop :=
  ¬ LeftAsIs tr n ∧ ((tr.direction = .right ∧ tr.stride = tr.maxLength) ∨ (tr.direction = .left ∧ tr.maxLength - 1 ≤ tr.stride))

end Tok.Spec
