import Verif.Spec.Decoding
import Verif.Spec.History

set_option autoImplicit false

/-!
Adding tokens in several calls.
-/

namespace Tok.Spec

/-- `add_tokens` is called with each of the lists in turn; the results of the calls are summed up. -/
def addEach : Tokenizer → List (List AddedToken) → Res (Nat × Tokenizer)
  | t, [] => .ok (0, t)
  | t, l :: ls => do
    let (n, t) ← t.addTokens l
    let (m, t) ← addEach t ls
    return (n + m, t)

/-- No token is given as special that was already given, in an earlier list, and only as not special.  `given` are the tokens
that were given before. -/
def NoLateSpecial (given : List AddedToken) (ls : List (List AddedToken)) : Prop :=
  ∀ A B, ls = A ++ B → ∀ x ∈ A.flatten, ∀ y ∈ B.flatten, y.special = true → y.content = x.content → x.content ≠ [] →
    GivenSpecial (given ++ A.flatten) x.content

end Tok.Spec
