import Verif.Common

set_option autoImplicit false

/-!
Specification vocabulary: what it means for a pre-tokenizer to leave splits that carry
tokens (recognized added tokens) alone.
-/

namespace Tok.Spec

/-- `KeepsTokens same l l'`: `l'` is `l` with every split without tokens replaced by any
number of splits without tokens, and every split `s` with tokens replaced by one split
`q` with `same s q`, in the same order. -/
inductive KeepsTokens (same : Split → Split → Prop) : List Split → List Split → Prop
  | nil : KeepsTokens same [] []
  | keep {s q : Split} {l l' : List Split} : s.tokens ≠ [] → q.tokens ≠ [] → same s q →
      KeepsTokens same l l' → KeepsTokens same (s :: l) (q :: l')
  | cut {s : Split} {part l l' : List Split} : s.tokens = [] → (∀ q ∈ part, q.tokens = []) →
      KeepsTokens same l l' → KeepsTokens same (s :: l) (part ++ l')

end Tok.Spec
