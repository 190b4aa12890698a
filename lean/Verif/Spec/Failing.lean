import Verif.Spec.Settings

set_option autoImplicit false

/-!
The ways in which truncation and padding fail.
-/

namespace Tok.Spec

/-- The truncation has to cut `n` entries but does not know from which side. -/
def Misdirected (tr : Truncation) (n : Nat) : Prop := ¬ LeftAsIs tr n ∧ tr.direction = .unknown

/-- The padding has to make every window of a negative length. -/
def Negative (p : Padding) : Prop := p.strategy = .fixed ∧ p.fixedSize < 0 ∧ p.direction ≠ .unknown

end Tok.Spec
