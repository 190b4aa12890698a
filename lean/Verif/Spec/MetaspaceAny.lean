import Verif.Spec.Replace
import Verif.Spec.Returns
import Verif.Spec.Blanks

set_option autoImplicit false

/-!
Specification for C91 beyond U+FFFF and with flagged added tokens: when a text survives `Prepend ▁`, `Replace " " ▁`, and what the
result is.
-/

namespace Tok.Spec

/-- Every space of the text, moved right by the number of spaces before it, is still inside the text (counted in UTF-16 units). -/
def SpacesFit (v : WStr) : Prop := ∀ A B, v = A ++ 0x20 :: B → A.length + times 0x20 A < units v

/-- `▁`, then the text with every space replaced by `▁`. -/
def metaspaced (v : WStr) : WStr := 0x2581 :: v.map fun c => if c = 0x20 then 0x2581 else c

/-- The text `w` is cut into `cuts` at the added tokens matched before normalization: no piece is empty, the pieces are together not longer
than the text, added tokens stand for ASCII text, and what Prepend and Replace make of an ordinary piece is cut at the added tokens matched
after normalization so that no piece is empty. -/
structure CutsWell (a : AddedVocab) (w : WStr) (cuts : List Cut) : Prop where
  cut : CutUp a a.nonNormTrie w cuts
  filled : NoneEmpty w cuts
  forward : ∀ c ∈ cuts, c.2.1 < c.2.2
  fits : (cuts.map fun c => c.2.2 - c.2.1).sum ≤ units w
  tokens : ∀ i x y, (some i, (x, y)) ∈ cuts → Ascii (textAt w x y)
  pieces : ∀ x y, (none, (x, y)) ∈ cuts → ∃ cuts', CutUp a a.normTrie (metaspaced (textAt w x y)) cuts' ∧
    NoneEmpty (metaspaced (textAt w x y)) cuts'

end Tok.Spec
