import Verif.Spec.Total
import Verif.Spec.Recognized

set_option autoImplicit false

/-!
When a normalizer leaves a table that later steps can work with.
-/

namespace Tok.Spec

/-- The result of a normalizer is usable: the text is not empty, every character has an entry in the table, no entry is
empty, and the vector of original positions is as long as the entries say. -/
structure Usable (s : NS) : Prop where
  ne : s.normalized ≠ []
  entries : s.normalized.length ≤ s.ranges.length
  filled : ∀ r ∈ s.ranges, 0 < r.2
  covered : (s.ranges.map (·.2)).sum ≤ s.offsets.length

/-- The piece `v` of the text `w` is ordinary text between the added tokens matched before normalization. -/
def OrdinaryPiece (a : AddedVocab) (w v : WStr) : Prop :=
  ∃ cuts x y, CutInto a a.nonNormTrie w cuts ∧ (none, (x, y)) ∈ cuts ∧ v = between w x y

/-- What is asked of a text `w` that a normalizer and the added tokens of `a` work on: it is not empty; what the normalizer
returns on an ordinary piece, if it returns, is usable and made of characters of `w'`; recognition of added tokens is
described for `w`, and right for `w` and for `w'`; no added token is empty and those matched before normalization are
ASCII. -/
structure NormalText (P : Platform) (n : Normalizer) (a : AddedVocab) (w w' : WStr) : Prop where
  ne : w ≠ []
  usable : ∀ v, OrdinaryPiece a w v → ∀ s, n.run P (NS.ofText v) = .ok s → Usable s ∧ ∀ c ∈ s.normalized, c ∈ w'
  described : Describable a a.nonNormTrie w
  before : Cuttable a w
  after : Cuttable a w'
  ascii : ∀ p ∈ a.nonNormTrie, Ascii p.1
  filled : ∀ p ∈ a.nonNormTrie ++ a.normTrie, p.1 ≠ []

end Tok.Spec
