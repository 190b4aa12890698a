import Verif.Spec.Room
import Verif.Spec.AnyText

set_option autoImplicit false

/-!
When `encode` returns, for texts with characters above U+FFFF and for every flag of the added tokens.
-/

namespace Tok.Spec

/-- What the normalizer, if there is one, makes of the text `v`. -/
def MadeOf (P : Platform) (n : Option Normalizer) (v : WStr) (s : NS) : Prop :=
  match n with
  | some n => n.run P (NS.ofText v) = .ok s
  | none => s = NS.ofText v

/-- The normalizer's result is usable, and its table has an entry for every UTF-16 unit of the text. -/
def Roomy (s : NS) : Prop := Usable s ∧ units s.normalized ≤ s.ranges.length

/-- No piece of the text is empty. -/
def NoneEmpty (w : WStr) (cuts : List Cut) : Prop := ∀ c ∈ cuts, textAt w c.2.1 c.2.2 ≠ []

/-- The text `w` is cut into `cuts` at the added tokens matched before normalization, and the rest of `encode` can work with the
pieces: none is empty, they are together not longer than the text (they do not overlap and do not leave it), added tokens stand for ASCII
text; the normalizer returns on each piece of ordinary text, its result is usable, made of characters of `w'`, and cut in turn
at the added tokens so that no piece is empty. -/
structure Workable (P : Platform) (n : Option Normalizer) (a : AddedVocab) (w w' : WStr) (cuts : List Cut) : Prop where
  cut : CutUp a a.nonNormTrie w cuts
  filled : NoneEmpty w cuts
  forward : ∀ c ∈ cuts, c.2.1 < c.2.2
  fits : (cuts.map fun c => c.2.2 - c.2.1).sum ≤ units w
  tokens : ∀ i x y, (some i, (x, y)) ∈ cuts → Ascii (textAt w x y)
  pieces : ∀ x y, (none, (x, y)) ∈ cuts → ∃ s cuts', MadeOf P n (textAt w x y) s ∧ Roomy s ∧ (∀ c ∈ s.normalized, c ∈ w') ∧
    CutUp a a.normTrie s.normalized cuts' ∧ NoneEmpty s.normalized cuts'

end Tok.Spec
