import Verif.Access

set_option autoImplicit false

/-!
Specification vocabulary for threads of which some may add tokens.
-/

namespace Tok.Spec

/-- A call that threads make on a shared tokenizer (`add_special_tokens` does what `add_tokens` does). -/
inductive Use
  | encode (text : WStr) (addSpecial : Bool)
  | decode (ids : List Int) (skip : Bool)
  | addTokens (tokens : List AddedToken)

/-- What a call returns, or how it fails. -/
inductive Answer
  | encoding (r : Res Encoding)
  | text (r : Res Str)
  | count (r : Res Nat)

/-- What the call returns when nothing else happens to the tokenizer. -/
def Use.alone (P : Platform) (t : Tokenizer) : Use → Answer
  | .encode w b => .encoding (t.encode P w b).1
  | .decode ids skip => .text (t.decode ids skip)
  | .addTokens l => .count ((t.addTokens l).map (·.1))

/-- The call as a sequence of accesses to the members of the tokenizer. -/
def Use.code (P : Platform) (t : Tokenizer) : Use → Code Answer
  | .encode w b => Code.bind (encodeC P t w b) fun r => .ret (.encoding r)
  | .decode ids skip => Code.bind (decodeC t ids skip) fun r => .ret (.text r)
  | .addTokens l => Code.bind (addTokensC t l) fun r => .ret (.count r)

/-- What a computation returns when it runs alone, and the members it leaves behind. -/
def runAlone {α : Type} : Code α → Store → α × Store
  | .ret a, s => (a, s)
  | .access m w f k, s => runAlone (k (s m)) (s.after m w f)

/-- The accesses a computation makes when it runs alone, in their order; `true` marks the modifications. -/
def accesses {α : Type} : Code α → Store → List (Member × Bool)
  | .ret _, _ => []
  | .access m w f k, s => (m, w) :: accesses (k (s m)) (s.after m w f)

/-- The accesses the call makes when it runs alone. -/
def Use.touches (P : Platform) (t : Tokenizer) (u : Use) : List (Member × Bool) := accesses (u.code P t) t.store

/-- Two lists of accesses have a member in common that one of them modifies. -/
def Clash (a b : List (Member × Bool)) : Prop := ∃ m x y, (m, x) ∈ a ∧ (m, y) ∈ b ∧ (x || y) = true

/-- One thread per call, none of which has made an access yet. -/
def launch (P : Platform) (t : Tokenizer) (us : List Use) : Threads Answer :=
  { codes := us.map (Use.code P t), store := t.store }

/-- Two of the calls clash. -/
def TwoClash (P : Platform) (t : Tokenizer) (us : List Use) : Prop :=
  ∃ (i j : Nat) (u v : Use), i ≠ j ∧ us[i]? = some u ∧ us[j]? = some v ∧ Clash (u.touches P t) (v.touches P t)

end Tok.Spec
