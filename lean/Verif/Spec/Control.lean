import Verif.Spec.AnyText
import Verif.Spec.BPE

set_option autoImplicit false

/-!
Control tokens: entries of the vocabulary, such as `[SEP]` or `<|endoftext|>`, that are meant for the program that uses the
tokenizer and not for the text.
-/

namespace Tok.Spec

/-- `k`, which reads `x`, is a control token for BERT pre-tokenization and WordPiece: at least two code points, one of which is
punctuation or white space; neither the unknown token nor a token that continues a word. -/
structure ControlToken (P : Platform) (m : WordPiece) (x : WStr) (k : Str) : Prop where
  text : Utf8Text x k
  readable : 0xFFFD ∉ x
  long : 2 ≤ x.length
  mark : ∃ c ∈ x, P.rePunct c = true ∨ P.reSpace c = true
  notUnknown : k ≠ m.unkToken
  notContinued : m.pre = [] ∨ ∀ s, k ≠ m.pre ++ s

/-- The id `j` is out of reach of byte-pair encoding: no merge in the list gives it, it is the id of no single byte (with prefix and
suffix as they may be), of no byte token, and not of the unknown token. -/
structure OutOfReach (m : BPE) (lines : List Str) (j : Int) : Prop where
  merges : ∀ rank a b, ¬ Listed (tokenToId m.vocab) m.pre lines rank a b j
  single : ∀ s i, i < s.length → tokenToId m.vocab (spelling m.pre m.suf s (i, i + 1)) ≠ some j
  bytes : m.byteFallback = true → ∀ c, tokenToId m.vocab (fallbackKey c) ≠ some j
  unknown : m.unkToken ≠ [] → tokenToId m.vocab m.unkToken ≠ some j

end Tok.Spec
