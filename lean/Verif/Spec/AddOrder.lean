import Verif.Spec.History
import Verif.Spec.Order

set_option autoImplicit false

/-!
Lists of tokens that are added in another order.
-/

namespace Tok.Spec

/-- The id that is settled for a content before it is added: the one it was added with, or else the model's. -/
def settledId (t : Tokenizer) (c : Str) : Option Int := (recorded t c).or (modelId t c)

/-- The ids of the (non-empty) tokens of the list are settled, and different tokens have different ids. -/
structure Settled (t : Tokenizer) (l : List AddedToken) : Prop where
  known : ∀ x ∈ l, x.content ≠ [] → settledId t x.content ≠ none
  distinct : ∀ x ∈ l, ∀ y ∈ l, x.content ≠ [] → y.content ≠ [] → settledId t x.content = settledId t y.content → x = y

end Tok.Spec
