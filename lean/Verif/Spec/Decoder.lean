import Verif.Base

set_option autoImplicit false

/-!
Specification of substring replacement.
-/

namespace Tok.Spec

/-- `pat` occurs in `s` at position `i`. -/
def OccursAt (pat s : Str) (i : Nat) : Prop := ∃ A B, s = A ++ pat ++ B ∧ A.length = i

/-- `Replaced pat to s out`: `out` is `s` with the leftmost occurrence of `pat` replaced by `to`, and so on
in what follows that occurrence, until there is none. -/
inductive Replaced (pat to : Str) : Str → Str → Prop
  | none {s : Str} : (∀ i, ¬ OccursAt pat s i) → Replaced pat to s s
  | some {A B out : Str} : (∀ i, OccursAt pat (A ++ pat ++ B) i → A.length ≤ i) → Replaced pat to B out →
      Replaced pat to (A ++ pat ++ B) (A ++ to ++ out)

end Tok.Spec
