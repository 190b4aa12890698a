import Verif.Spec.Encoding
import Verif.Spec.Added

set_option autoImplicit false

/-!
Specification vocabulary for positions in the text.  Positions count UTF-16 units.
-/

namespace Tok.Spec

/-- The text of the split is found in `w` at the position where the split says it starts. -/
def Located (w : WStr) (s : Split) : Prop := ∃ b v, PartOf w s.offsets.1 b v ∧ HasText s v

mutual
/-- The pre-tokenizer only cuts: it has no ByteLevel member, and the regular expressions of its Split members are
matched by a good engine. -/
def OnlyCuts (P : Platform) : PreTokenizer → Prop
  | .bert => True
  | .split pattern _ _ => ∀ find, P.regex pattern = some find → GoodEngine find
  | .byteLevel _ _ => False
  | .seq l => OnlyCutsList P l
def OnlyCutsList (P : Platform) : List PreTokenizer → Prop
  | [] => True
  | t :: r => OnlyCuts P t ∧ OnlyCutsList P r
end

/-- The text `w` is one for which the positions are claimed to be right: any text of Unicode scalar values without
added tokens; with added tokens and no normalizer, a text extraction is right for, if all added tokens matched before
normalization are ASCII. -/
def Positioned (t : Tokenizer) (w : WStr) : Prop :=
  match t.added with
  | none => ∀ c ∈ w, Scalar c
  | some a => t.normalizer = none ∧ Cuttable a w ∧ ∀ p ∈ a.nonNormTrie, Ascii p.1

/-- `x` to `y` is a stretch of the text `w` and `v` is the text there. -/
def TextAt (w : WStr) (o : Int × Int) (v : WStr) : Prop := ∃ x y : Nat, o = ((x : Int), (y : Int)) ∧ PartOf w x y v

end Tok.Spec
