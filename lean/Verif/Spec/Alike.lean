import Verif.Spec.AnyText

set_option autoImplicit false

/-!
Encodings that differ at most in the offsets.
-/

namespace Tok.Spec

/-- The same ids, type ids, tokens, word indices and masks, and as many offsets. -/
structure SameButOffsets (e e' : Enc) : Prop where
  ids : e.ids = e'.ids
  typeIds : e.typeIds = e'.typeIds
  tokens : e.tokens = e'.tokens
  words : e.words = e'.words
  specialTokensMask : e.specialTokensMask = e'.specialTokensMask
  attentionMask : e.attentionMask = e'.attentionMask
  offsets : e.offsets.length = e'.offsets.length

/-- The same for the main encoding and each overflowing one. -/
def AlikeEncodings (e e' : Encoding) : Prop :=
  SameButOffsets e.toEnc e'.toEnc ∧ Each SameButOffsets e.overflowing e'.overflowing

/-- No token that is matched before normalization is recognized in the text. -/
def NothingBefore (a : AddedVocab) (w : WStr) : Prop :=
  ∀ u x y i, Utf16Text w u → ¬ RecognizedIn a.nonNormTrie u x y i

end Tok.Spec
