import Verif.Config
import Verif.Spec.History

set_option autoImplicit false

/-!
Specification vocabulary for the order in which a hash map lists its entries.  A vocabulary is
a list of entries in iteration order; the same map iterated in another order is a permutation
of that list.
-/

namespace Tok.Spec

/-- A model with the vocabulary listed in another order. -/
def reorderedModel (v : Vocab) : Model → Model
  | .wordPiece m => .wordPiece { m with vocab := v }
  | .bpe m => .bpe { m with vocab := v }

/-- A tokenizer with the vocabulary of its model listed in another order. -/
def reordered (v : Vocab) (t : Tokenizer) : Tokenizer :=
  { t with model := t.model.map (reorderedModel v) }

/-- The vocabulary of a tokenizer is the map listed as `v`: every string is the key of at
most one entry. -/
def HasVocab (t : Tokenizer) (v : Vocab) : Prop :=
  (v.map (·.1)).Nodup ∧ ∀ m, t.model = some m → m.vocab = v

/-- No id is given to two entries. -/
def OneTokenPerId (v : Vocab) : Prop := (v.map (·.2)).Nodup

/-- The id of the model and the text of the model for an id, if there is a model. -/
def modelToken (t : Tokenizer) (i : Int) : Option Str := t.model.bind fun m => idToToken m.vocab i

/-- Two tokenizers answer every call alike. -/
structure SameAnswers (P : Platform) (t t' : Tokenizer) : Prop where
  encode : ∀ w b, (t.encode P w b).1 = (t'.encode P w b).1
  decode : ∀ l b, t.decode l b = t'.decode l b
  addTokens : ∀ l, (t.addTokens l).map (·.1) = (t'.addTokens l).map (·.1)
  addSpecialTokens : ∀ l, (t.addSpecialTokens l).map (·.1) = (t'.addSpecialTokens l).map (·.1)
  tokenToId : ∀ s, modelId t s = modelId t' s
  idToToken : ∀ i, modelToken t i = modelToken t' i
  isSpecial : ∀ s, t.isSpecial s = t'.isSpecial s

/-- Two tokenizers answer every call alike, whatever calls have been made on both before. -/
def AlwaysSame (P : Platform) (t t' : Tokenizer) : Prop :=
  ∀ cs t1, History P t cs t1 → ∃ t1', History P t' cs t1' ∧ SameAnswers P t1 t1'

/-- Two configuration documents that differ in the order of the entries of the vocabulary
only. -/
inductive SameUpToOrder : Json → Json → Prop
  | mk {xs ys us vs fs fs' : List (Str × Json)} :
      b!"model" ∉ xs.map (·.1) → b!"vocab" ∉ us.map (·.1) →
      (fs.map (·.1)).Nodup → fs.Perm fs' →
      SameUpToOrder (.obj (xs ++ (b!"model", .obj (us ++ (b!"vocab", .obj fs) :: vs)) :: ys))
        (.obj (xs ++ (b!"model", .obj (us ++ (b!"vocab", .obj fs') :: vs)) :: ys))

end Tok.Spec
