import Verif.Tokenizer
import Verif.Spec.Text

set_option autoImplicit false

/-!
Specification vocabulary for histories of API calls on one tokenizer, and for the id under
which an added token is recorded.
-/

namespace Tok.Spec

/-- A call of the API of a tokenizer. -/
inductive Call
  | encode (text : WStr) (addSpecial : Bool)
  | decode (ids : List Int) (skip : Bool)
  | addTokens (l : List AddedToken)
  | addSpecialTokens (l : List AddedToken)

/-- The call adds tokens. -/
def Call.adds : Call → Bool
  | .addTokens _ => true
  | .addSpecialTokens _ => true
  | _ => false

/-- `t'` is what the call leaves behind when made on `t`.  An `encode` that throws leaves a
tokenizer behind as well; a call of `add_tokens` with undefined behaviour leaves nothing. -/
inductive After (P : Platform) : Tokenizer → Call → Tokenizer → Prop
  | encode (t : Tokenizer) (w : WStr) (b : Bool) : After P t (.encode w b) (t.encode P w b).2
  | decode (t : Tokenizer) (ids : List Int) (b : Bool) : After P t (.decode ids b) t
  | addTokens {t t' : Tokenizer} {l : List AddedToken} {n : Nat} :
      t.addTokens l = .ok (n, t') → After P t (.addTokens l) t'
  | addSpecialTokens {t t' : Tokenizer} {l : List AddedToken} {n : Nat} :
      t.addSpecialTokens l = .ok (n, t') → After P t (.addSpecialTokens l) t'

/-- `t'` is what the calls leave behind when made on `t`, in order. -/
inductive History (P : Platform) : Tokenizer → List Call → Tokenizer → Prop
  | nil (t : Tokenizer) : History P t [] t
  | cons {t t' t'' : Tokenizer} {c : Call} {cs : List Call} :
      After P t c t' → History P t' cs t'' → History P t (c :: cs) t''

/-- The tokenizer is one the constructor returns: its last act is to hand the configured added
tokens to `add_tokens`. -/
def Constructed (t : Tokenizer) : Prop :=
  ∃ (t0 : Tokenizer) (l : Option (List AddedToken)),
    t0.added = l.map AddedVocab.init ∧ t0.finish = .ok t

/-- The id recorded for an added token. -/
def recorded (t : Tokenizer) (content : Str) : Option Int :=
  t.added.bind fun a => mapFind a.map content

/-- The id of a model token (`token_to_id`). -/
def modelId (t : Tokenizer) (content : Str) : Option Int :=
  t.model.bind fun m => tokenToId m.vocab content

/-- A vocabulary numbered without gaps: different entries, different ids, all below the
number of entries. -/
def DenseVocab (v : Vocab) : Prop :=
  (v.map (·.1)).Nodup ∧ (v.map (·.2)).Nodup ∧ ∀ p ∈ v, 0 ≤ p.2 ∧ p.2 < vocabSize v

end Tok.Spec
