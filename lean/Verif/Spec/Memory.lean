import Verif.Spec.AnyText
import Verif.Spec.History

set_option autoImplicit false

/-!
What a tokenizer keeps in memory between calls.
-/

namespace Tok.Spec

/-- The words for which a byte-pair model has kept its answer. -/
def remembered (t : Tokenizer) : List Str :=
  match t.model with
  | some (.bpe m) => m.cache.map (·.1)
  | _ => []

/-- The words of a text, that is what the model is asked about; none if there is an exception before. -/
def askedWords (P : Platform) (t : Tokenizer) (w : WStr) : List Str :=
  match (t.preTokenized P w).1 with
  | .ok p => p.splits.map (·.normalized)
  | .error _ => []

/-- The model keeps its answers for words like `s`: it is byte-pair encoding without dropout, and does not take `s` from the vocabulary
because of `ignore_merges`. -/
def KeepsAnswer (t : Tokenizer) (s : Str) : Prop :=
  ∃ m, t.model = some (.bpe m) ∧ m.dropout.on = false ∧ ¬ (m.ignoreMerges = true ∧ ∃ i, tokenToId m.vocab s = some i)

end Tok.Spec
