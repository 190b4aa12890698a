import Verif.Spec.Located
import Verif.Spec.BPE
import Verif.Spec.Encoding

set_option autoImplicit false

/-!
What a configuration and a text must be like for `encode` to return.
-/

namespace Tok.Spec

/-- The pattern compiles, its matches are ordered, in range, on character boundaries and — if `filled` — not empty. -/
def Matches (P : Platform) (pattern : Str) (filled : Prop) : Prop :=
  ∃ find, P.regex pattern = some find ∧ GoodEngine find ∧ (filled → ∀ u, ∀ m ∈ find u, m.1 < m.2)

mutual
/-- The pre-tokenizer only cuts, and cuts off no empty pieces. -/
def CutsCleanly (P : Platform) : PreTokenizer → Prop
  | .bert => True
  | .split pattern b _ => Matches P pattern (b = .isolated)
  | .byteLevel _ _ => False
  | .seq l => CutsCleanlyList P l
def CutsCleanlyList (P : Platform) : List PreTokenizer → Prop
  | [] => True
  | t :: r => CutsCleanly P t ∧ CutsCleanlyList P r
end

/-- The pre-tokenizer returns on the text `w`: it only cuts, or its last step is ByteLevel without `add_prefix_space`, and
`w` is ASCII if `char` is signed. -/
inductive SafePre (P : Platform) (w : WStr) : PreTokenizer → Prop
  | cuts {t : PreTokenizer} : CutsCleanly P t → SafePre P w t
  | byteLevel {u : Bool} : (P.charSigned = true → Ascii w) → (u = true → Matches P b!"'s|'" True) → SafePre P w (.byteLevel false u)
  | seq {l : List PreTokenizer} {t : PreTokenizer} : CutsCleanlyList P l → SafePre P w t → SafePre P w (.seq (l ++ [t]))

/-- Truncation with this configuration returns: it is switched off by its parameters, or the windows are well formed. -/
def SafeTruncation (t : Truncation) : Prop :=
  t.maxLength = 0 ∨ t.strategy = .onlySecond ∨ t.strategy = .unknown ∨
  (0 ≤ t.stride ∧ ((t.direction = .right ∧ t.stride < t.maxLength) ∨ (t.direction = .left ∧ t.stride + 2 ≤ t.maxLength)))

/-- The text is one for which extraction of added tokens returns: any text of Unicode scalar values if there are no added
tokens at all; otherwise a non-empty text extraction is right for, without normalizer, where no added token is empty and
those matched before normalization are ASCII. -/
def SafeText (t : Tokenizer) (w : WStr) : Prop :=
  match t.added with
  | none => w ≠ [] ∧ ∀ c ∈ w, Scalar c
  | some a => t.normalizer = none ∧ w ≠ [] ∧ Cuttable a w ∧ (∀ p ∈ a.nonNormTrie, Ascii p.1) ∧
      ∀ p ∈ a.nonNormTrie ++ a.normTrie, p.1 ≠ []

/-- What follows the model returns on every encoding: truncation is well formed, no template has a special token with more
ids than texts or the reverse, and a fixed padding length is not negative. -/
def SafeEnd (t : Tokenizer) : Prop :=
  (∀ x, t.truncation = some x → SafeTruncation x) ∧
  (∀ s ∈ Specials t, s.ids.length = s.tokens.length) ∧
  (∀ p, t.padding = some p → p.strategy = .fixed → 0 ≤ p.fixedSize)

end Tok.Spec
