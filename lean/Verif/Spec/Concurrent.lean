import Verif.Concurrent

set_option autoImplicit false

/-!
Specification vocabulary for threads that use one tokenizer.
-/

namespace Tok.Spec

/-- A call that threads make on a shared tokenizer. -/
inductive Request
  | encode (text : WStr) (addSpecial : Bool)
  | decode (ids : List Int) (skip : Bool)

/-- What the call returns (or how it fails). -/
inductive Reply
  | encoding (r : Res Encoding)
  | text (r : Res Str)

/-- What the call returns when nothing else happens to the tokenizer. -/
def Request.alone (P : Platform) (t : Tokenizer) : Request → Reply
  | .encode w b => .encoding (t.encode P w b).1
  | .decode ids skip => .text (t.decode ids skip)

/-- The call as a sequence of accesses to the shared containers. -/
def Request.prog (P : Platform) (t : Tokenizer) : Request → Prog Reply
  | .encode w b => Prog.bind (encodeA P t w b) fun r => .ret (.encoding r)
  | .decode ids skip => Prog.bind (decodeA t ids skip) fun r => .ret (.text r)

/-- One thread per call, none of which has made an access yet. -/
def start (P : Platform) (t : Tokenizer) (rs : List Request) : Sys Reply :=
  { threads := rs.map (Request.prog P t), shared := t.shared }

/-- The request is a call of `encode`. -/
def Request.isEncode : Request → Bool
  | .encode _ _ => true
  | .decode _ _ => false

/-- When it runs alone on these containers, the computation sooner or later makes an access that counts as a modification. -/
inductive Modifies {α : Type} : Prog α → Shared → Prop
  | now {p : Prog α} {S : Shared} {c : Container} : p.next = some (c, true) → Modifies p S
  | later {p : Prog α} {S : Shared} {c : Container} : p.next = some (c, false) → Modifies (p.step S).1 S → Modifies p S

/-- No token of the added vocabulary is looked for in texts, and the model keeps no cache. -/
def Uncached (t : Tokenizer) : Prop :=
  (∀ a, t.added = some a → a.nonNormTrie = [] ∧ a.normTrie = []) ∧
  ∀ m, t.model = some (.bpe m) → m.dropout.on = true

end Tok.Spec
