import Verif.Spec.Again
import Verif.Spec.Pruned

set_option autoImplicit false

/-!
When the options of a model do not matter for a word.
-/

namespace Tok.Spec

/-- Two word-piece models with the same vocabulary, and with limits that decide alike about the word `y`, whose other options do not
matter for `y`: they are the same; or the word is over the limit, when only the unknown token matters; or it is segmented, when only
the continuation prefix matters; or it is an entry of the vocabulary, when neither matters. -/
structure WordPieceAlike (m m' : WordPiece) (y : WStr) : Prop where
  vocab : m'.vocab = m.vocab
  limit : (units y : Int) ≤ m.maxChars ↔ (units y : Int) ≤ m'.maxChars
  rest : (m'.unkToken = m.unkToken ∧ (m'.pre = m.pre ∨ m.maxChars < units y)) ∨ (m'.pre = m.pre ∧ Segmented m y) ∨
    (y ≠ [] ∧ (units y : Int) ≤ m.maxChars ∧ ∃ s, Utf8Text y s ∧ tokenToId m.vocab s ≠ none)

/-- Two byte-pair models with the same vocabulary, affixes and dropout whose other options do not matter for the word `s`:
`ignore_merges` answers it under both; or - if `ignore_merges` differs, the word is no entry (or there is dropout); if `byte_fallback` differs,
there are no byte tokens for the bytes without an entry; if the unknown token differs, or (there being one) the fusing, no byte is unknown. -/
structure BPEAlike (m m' : BPE) (s : Str) : Prop where
  vocab : m'.vocab = m.vocab
  pre : m'.pre = m.pre
  suf : m'.suf = m.suf
  dropout : m'.dropout = m.dropout
  rest : (m.dropout.on = false ∧ m.ignoreMerges = true ∧ m'.ignoreMerges = true ∧ tokenToId m.vocab s ≠ none) ∨
    ((m'.ignoreMerges = m.ignoreMerges ∨ tokenToId m.vocab s = none ∨ m.dropout.on = true) ∧
     (m'.byteFallback = m.byteFallback ∨
       ∀ i, i < s.length → tokenToId m.vocab (spelling m.pre m.suf s (i, i + 1)) = none → ¬ Fallback (tokenToId m.vocab) m.pre m.suf s i) ∧
     ((m'.unkToken = m.unkToken ∧ (m'.fuseUnk = m.fuseUnk ∨ unknownOf (tokenToId m.vocab) m.unkToken = none)) ∨
       ∀ i, i < s.length → ¬ Unknown (tokenToId m.vocab) m.pre m.suf m.byteFallback s i))

/-- The options in which the two models differ do not matter for the word `y`. -/
def OptionsAlike : Model → Model → WStr → Prop
  | .wordPiece m, .wordPiece m', y => WordPieceAlike m m' y
  | .bpe m, .bpe m', y => ∃ s, Utf8Text y s ∧ BPEAlike m m' s
  | _, _, _ => False

end Tok.Spec
