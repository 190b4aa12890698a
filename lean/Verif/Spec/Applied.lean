import Verif.Spec.AnyText

set_option autoImplicit false

/-!
Encoding piece by piece: what becomes of the ordinary pieces between the added tokens, and of the added tokens.
-/

namespace Tok.Spec

/-- The same tokenizer without normalizer, for text that has been normalized: only the added tokens that are looked for after
normalization are looked for. -/
def afterNormalizing (t : Tokenizer) : Tokenizer :=
  { t with normalizer := none, added := t.added.map fun a => { a with nonNormTrie := [] } }

mutual
/-- How many ByteLevel pre-tokenizers there are. -/
def byteLevels : PreTokenizer → Nat
  | .bert => 0
  | .split _ _ _ => 0
  | .byteLevel _ _ => 1
  | .seq l => byteLevelsAll l
/-- The same for a list. -/
def byteLevelsAll : List PreTokenizer → Nat
  | [] => 0
  | x :: r => byteLevels x + byteLevelsAll r
end

/-- `v` replaced by its bytes, written in the byte alphabet, `k` times. -/
inductive InBytesTimes : Nat → WStr → WStr → Prop
  | zero {v : WStr} : InBytesTimes 0 v v
  | more {k : Nat} {v x y : WStr} : InBytes v x → InBytesTimes k x y → InBytesTimes (k + 1) v y

/-- What an added token, as it stands in the text, is for the model: itself, or what the ByteLevel pre-tokenizers make of it. -/
def KeptAs (t : Tokenizer) (v g : WStr) : Prop := InBytesTimes (match t.preTokenizer with | some x => byteLevels x | none => 0) v g

/-- The words of one piece of the text `w`: an added token is one word; ordinary text is normalized, and its words are those of
the normalized text for the tokenizer without normalizer. -/
def PieceWords (P : Platform) (t : Tokenizer) (w : WStr) (c : Cut) (ws : List WStr) : Prop :=
  match c.1 with
  | some _ => ∃ g, KeptAs t (textAt w c.2.1 c.2.2) g ∧ ws = [g]
  | none => ∃ n, Normalizes P t.normalizer (textAt w c.2.1 c.2.2) n ∧ AnyWords P (afterNormalizing t) n ws

/-- Something is left of the text after normalization: there is an added token in it, or an ordinary piece that is not normalized
to nothing. -/
def SomethingLeft (P : Platform) (t : Tokenizer) (w : WStr) (cuts : List Cut) : Prop :=
  ∃ c ∈ cuts, c.1 ≠ none ∨ ∃ n, Normalizes P t.normalizer (textAt w c.2.1 c.2.2) n ∧ n ≠ []

/-- What the entries of the pieces are: an added token is what the model makes of it as one word; an ordinary piece is encoded as the
normalized piece by the tokenizer without normalizer. -/
def PieceTokens (P : Platform) (t : Tokenizer) (lines : List Str) (m : Model) (w : WStr) (b : Bool) (c : Cut) (ts : List Token) : Prop :=
  match c.1 with
  | some _ => ∃ g, KeptAs t (textAt w c.2.1 c.2.2) g ∧ ModelTokens lines m g ts
  | none => ∃ n, Normalizes P t.normalizer (textAt w c.2.1 c.2.2) n ∧
      ((n = [] ∧ ts = []) ∨ ∃ e, ((afterNormalizing t).encode P n b).1 = .ok e ∧
        e.ids = laidOutBy t.postProcessor b (·.ids) (ts.map (·.id)) ∧ e.tokens = laidOutBy t.postProcessor b (·.tokens) (ts.map (·.value)))

end Tok.Spec
