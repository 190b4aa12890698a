import Verif.Spec.Numbering

set_option autoImplicit false

/-!
Which added tokens a tokenizer looks for in a text, and with which flags, as a function of the lists of tokens that were given to it:
first the configured list, then those of the calls of `add_tokens` and `add_special_tokens`.
-/

namespace Tok.Spec

/-- The lists of tokens a call gives to the tokenizer. -/
def Call.lists : Call → List (List AddedToken)
  | .addTokens l => [l]
  | .addSpecialTokens l => [l]
  | _ => []

/-- The first special token with its content. -/
def FirstSpecial (L : List AddedToken) (x : AddedToken) : Prop :=
  x.special = true ∧ x.content ≠ [] ∧ ∃ p q, L = p ++ x :: q ∧ ∀ y ∈ p, y.special = true → y.content ≠ x.content

/-- A token whose content was not special, neither before its list nor in it. -/
def Ordinary (L : List (List AddedToken)) (x : AddedToken) : Prop :=
  x.content ≠ [] ∧ ∃ A l B, L = A ++ l :: B ∧ x ∈ l ∧ ∀ y ∈ A.flatten ++ l, y.special = true → y.content ≠ x.content

/-- The tokens that count: the configured ones, the first special token of each content, and the ordinary ones. -/
def Watched (L : List (List AddedToken)) (x : AddedToken) : Prop :=
  x ∈ L.headD [] ∨ FirstSpecial L.flatten x ∨ Ordinary L x

/-- The content `k` is looked for, after normalization or before it, and stands for the id `i`: the model knows it under this id,
and one of the tokens that count has it. -/
def LookedFor (v : Vocab) (L : List (List AddedToken)) (normalized : Bool) (k : Str) (i : Int) : Prop :=
  tokenToId v k = some i ∧ ∃ x, Watched L x ∧ x.content = k ∧ x.normalized = normalized

/-- The token whose flags decide how the id `i` is matched, when the ids are `f`: the last one given with this id; without one, a
token without flags. -/
def flagsFor (f : Str → Option Int) (L : List (List AddedToken)) (i : Int) : AddedToken :=
  (L.flatten.filter fun x => f x.content = some i).getLast?.getD {}

/-- An added vocabulary that looks for exactly these tokens with these flags. -/
structure LooksFor (v : Vocab) (f : Str → Option Int) (L : List (List AddedToken)) (a : AddedVocab) : Prop where
  before : ∀ k i, (k, i) ∈ a.nonNormTrie ↔ LookedFor v L false k i
  after : ∀ k i, (k, i) ∈ a.normTrie ↔ LookedFor v L true k i
  flags : ∀ i, (mapFind a.mapR i).getD {} = flagsFor f L i

end Tok.Spec
