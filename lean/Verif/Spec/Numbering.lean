import Verif.Spec.History

set_option autoImplicit false

/-!
Specification vocabulary: the ids of added tokens, as a function of the order in which contents are given.
-/

namespace Tok.Spec

/-- The contents that a call gives to the tokenizer. -/
def Call.given : Call → List Str
  | .addTokens l => l.map (·.content)
  | .addSpecialTokens l => l.map (·.content)
  | _ => []

/-- The next free number: the least one that is at least the number of vocabulary entries and above every
number already given. -/
def NextId (v : Vocab) (f : Str → Option Int) (i : Int) : Prop :=
  (vocabSize v ≤ i ∧ ∀ c j, f c = some j → j < i) ∧
  ∀ k, vocabSize v ≤ k → (∀ c j, f c = some j → j < k) → i ≤ k

/-- The numbers afterwards, when `c` gets the number `i`. -/
def numbered (f : Str → Option Int) (c : Str) (i : Int) : Str → Option Int :=
  fun x => if x = c then some i else f x

/-- Starting with the numbers `f`, giving the contents one after the other leads to the numbers `g`:
the empty content gets none, a content that has a number keeps it, a content of the model gets the model's
number, and any other one the next free number. -/
inductive Numbers (v : Vocab) : (Str → Option Int) → List Str → (Str → Option Int) → Prop
  | nil (f : Str → Option Int) : Numbers v f [] f
  | empty {f g : Str → Option Int} {r : List Str} : Numbers v f r g → Numbers v f ([] :: r) g
  | again {f g : Str → Option Int} {r : List Str} {c : Str} {i : Int} : c ≠ [] → f c = some i → Numbers v f r g →
      Numbers v f (c :: r) g
  | known {f g : Str → Option Int} {r : List Str} {c : Str} {i : Int} : c ≠ [] → f c = none → tokenToId v c = some i →
      Numbers v (numbered f c i) r g → Numbers v f (c :: r) g
  | new {f g : Str → Option Int} {r : List Str} {c : Str} {i : Int} : c ≠ [] → f c = none → tokenToId v c = none →
      v ≠ [] → NextId v f i → Numbers v (numbered f c i) r g → Numbers v f (c :: r) g

/-- The content found for a number when the given contents have the numbers `f`: the last one given with
this number, otherwise the model's. -/
def contentOf (v : Vocab) (given : List Str) (f : Str → Option Int) (i : Int) : Option Str :=
  (given.filter fun c => f c = some i).getLast?.or (idToToken v i)

/-- No two contents share an id, be it the id recorded for an added token or the id of a model token. -/
def NoClash (t : Tokenizer) : Prop :=
  ∀ c c' i, recorded t c = some i → recorded t c' = some i ∨ modelId t c' = some i → c = c'

end Tok.Spec
