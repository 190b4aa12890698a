import Verif.Spec.Located

set_option autoImplicit false

/-!
Specification vocabulary for the order of the offsets of an encoding.
-/

namespace Tok.Spec

/-- The offsets of the tokens of the text (the positions whose special-tokens mask is 0) lie in the text, which has `n`
UTF-16 units, and follow each other without overlap. -/
structure InOrder (n : Nat) (x : Enc) : Prop where
  inside : ∀ (i : Nat) (o : Int × Int), x.specialTokensMask[i]? = some 0 → x.offsets[i]? = some o →
    0 ≤ o.1 ∧ o.1 ≤ o.2 ∧ o.2 ≤ n
  follow : ∀ (i j : Nat) (o o' : Int × Int), i < j → x.specialTokensMask[i]? = some 0 → x.specialTokensMask[j]? = some 0 →
    x.offsets[i]? = some o → x.offsets[j]? = some o' → o.2 ≤ o'.1

end Tok.Spec
