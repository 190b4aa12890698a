import Verif.Spec.Pipeline

set_option autoImplicit false

/-!
How many tokens a text is cut into.
-/

namespace Tok.Spec

/-- Number of bytes of a text in UTF-8. -/
def octets : WStr → Nat
  | [] => 0
  | c :: r => (if c < 0x80 then 1 else if c < 0x800 then 2 else if c < 0x10000 then 3 else 4) + octets r

/-- The number of tokens of the text in an encoding: the entries that are neither special tokens nor padding. -/
def tokensOfText (x : Enc) : Nat := x.specialTokensMask.count 0

/-- The greatest number of tokens for a word: WordPiece makes at most one for each UTF-16 unit, BPE at most one for each byte; with
byte fallback at most one for each byte, prefix and suffix included. -/
def mostTokens : Model → WStr → Nat
  | .wordPiece _, v => units v
  | .bpe m, v => if m.byteFallback then octets v * (m.pre.length + m.suf.length + 1) else octets v

/-- The settings under which nothing is made of nothing: the limit for the length of words is not negative, the empty text is
no entry that answers for a whole word. -/
def NoneOfNothing : Model → Prop
  | .wordPiece m => 0 ≤ m.maxChars
  | .bpe m => m.ignoreMerges = true → tokenToId m.vocab [] = none

/-- The word is short enough for the `int`s BPE counts with. -/
def ShortEnough : Model → WStr → Prop
  | .wordPiece _, _ => True
  | .bpe m, v => octets v * (m.pre.length + m.suf.length + 1) < 2 ^ 31

end Tok.Spec
