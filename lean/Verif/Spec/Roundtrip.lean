import Verif.Spec.Total

set_option autoImplicit false

/-!
Specification vocabulary for decoding what `encode` returns.
-/

namespace Tok.Spec

mutual
/-- The single-sequence template of every template processor names the sequence exactly once. -/
def NamesSequence : PostProcessor → Prop
  | .template s _ _ => (s.filter fun p => p.kind = b!"Sequence").length = 1
  | .byteLevel _ _ => True
  | .seq l => NamesSequenceList l
def NamesSequenceList : List PostProcessor → Prop
  | [] => True
  | p :: r => NamesSequence p ∧ NamesSequenceList r
end

/-- The ids of the tokens of a text, in order. -/
def textIds (q : PTS) : List Int := q.splits.flatMap fun s => s.tokens.map (·.id)

/-- The tokens of a text, in order. -/
def textTokens (q : PTS) : List Str := q.splits.flatMap fun s => s.tokens.map (·.value)

/-- The text fits: if truncation is configured, `max_length` is positive and the text has at most that many tokens. -/
def Fit (P : Platform) (t : Tokenizer) (w : WStr) : Prop :=
  ∀ x, t.truncation = some x → 0 < x.maxLength ∧ ∀ q, TokenizedInto P t w q → ((textIds q).length : Int) ≤ x.maxLength

/-- `decode` shows the id of every entry of the vocabulary as that entry. -/
def ShowsVocabulary (t : Tokenizer) (m : Model) : Prop :=
  ∀ v i, tokenToId m.vocab v = some i → t.idToken i = .ok v

/-- A pre-tokenizer that ends in ByteLevel (without `add_prefix_space`) and otherwise isolates matches. -/
inductive ByteSplits (P : Platform) : PreTokenizer → Prop
  | byteLevel {u : Bool} : (u = true → Matches P b!"'s|'" True) → ByteSplits P (.byteLevel false u)
  | seq {l : List PreTokenizer} {u : Bool} :
      (∀ x ∈ l, ∃ pat inv, x = .split pat .isolated inv ∧ Matches P pat True) → (u = true → Matches P b!"'s|'" True) →
      ByteSplits P (.seq (l ++ [.byteLevel false u]))

/-- A visible ASCII character. -/
def Visible (c : Nat) : Prop := 0x21 ≤ c ∧ c ≤ 0x7E

end Tok.Spec
