import Verif.Spec.Concurrent
import Verif.Spec.Memory
import Verif.Spec.Blanks

set_option autoImplicit false

/-!
Sharing a tokenizer that has seen the texts before.
-/

namespace Tok.Spec

/-- An added token is recognized in the text, or, if none is, in the normalized text. -/
def HasAdded (P : Platform) (t : Tokenizer) (w : WStr) : Prop :=
  ∃ a, t.added = some a ∧ ((∃ u x y i, Utf16Text w u ∧ RecognizedIn a.nonNormTrie u x y i) ∨
    ∃ n u x y i, Normalizes P t.normalizer w n ∧ Utf16Text n u ∧ RecognizedIn a.normTrie u x y i)

/-- Only `encode` and `decode` are called. -/
def Call.asks : Call → Bool
  | .encode _ _ => true
  | .decode _ _ => true
  | _ => false

end Tok.Spec
