import Verif.Spec.Settings

set_option autoImplicit false

/-!
Two tokenizers that differ in how much they keep of a text.
-/

namespace Tok.Spec

/-- A truncation that cuts what is too long: it has a limit, and a strategy for a single text. -/
def Limits (x : Truncation) : Prop := 0 < x.maxLength ∧ (x.strategy = .longestFirst ∨ x.strategy = .onlyFirst)

/-- `tr'` keeps at least as much as `tr`: it does not limit anything, or both do, on the same side, `tr'` not with the smaller limit. -/
def KeepsMore (tr tr' : Option Truncation) : Prop :=
  ∀ x', tr' = some x' → ¬ Limits x' ∨ ∃ x, tr = some x ∧ Limits x ∧ x.direction = x'.direction ∧ x.maxLength ≤ x'.maxLength

/-- What is kept on the side `d`: the beginning is kept by cutting on the right. -/
def PartOn {α : Type} (d : TDir) (l l' : List α) : Prop :=
  match d with
  | .right => l <+: l'
  | .left => l <:+ l'
  | .unknown => l = l'

/-- The tokens of the text in `e` - ids, tokens, word numbers - are the beginning (or the end) of those in `e'`. -/
def TextPart (d : TDir) (e e' : Encoding) : Prop :=
  PartOn d (textEntries e.toEnc e.ids) (textEntries e'.toEnc e'.ids) ∧
  PartOn d (textEntries e.toEnc e.tokens) (textEntries e'.toEnc e'.tokens) ∧
  PartOn d (textEntries e.toEnc e.words) (textEntries e'.toEnc e'.words)

end Tok.Spec
