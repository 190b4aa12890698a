import Verif.Spec.Blanks
import Verif.Spec.Roundtrip
import Verif.Spec.WordPiece

set_option autoImplicit false

/-!
Encoding decoded text again.
-/

namespace Tok.Spec

/-- The word is segmented into entries of the vocabulary: it is not too long and the longest-match segmentation does not get
stuck. -/
structure Segmented (m : WordPiece) (w : WStr) : Prop where
  clean : CleanWord (tokenToId m.vocab) w
  short : (units w : Int) ≤ m.maxChars
  covered : ¬ Stuck (tokenToId m.vocab) m.pre true w

/-- No part of the word, with or without the continuation prefix in front, is a special token. -/
def NoSpecialPart (t : Tokenizer) (pre : Str) (w : WStr) : Prop :=
  ∀ v s, v ≠ [] → v <:+: w → Utf8Text v s → t.isSpecial s = false ∧ t.isSpecial (pre ++ s) = false

end Tok.Spec
