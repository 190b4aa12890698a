import Verif.Spec.Count
import Verif.Spec.AnyText

set_option autoImplicit false

/-!
How far the offsets in an encoding can reach.
-/

namespace Tok.Spec

/-- The UTF-16 units of the ordinary pieces of a text that has been cut, one piece after the other. -/
def ordinaryUnits (w : WStr) : List Cut → Nat
  | [] => 0
  | (none, (x, y)) :: r => units (textAt w x y) + ordinaryUnits w r
  | (some _, _) :: r => ordinaryUnits w r

/-- No word of the text starts behind this position: the end of the text; with an added vocabulary, as many positions more as the
pieces that are normalized have. -/
def Extent (t : Tokenizer) (w : WStr) (n : Nat) : Prop :=
  match t.added with
  | none => n = units w
  | some a => ∃ cuts, CutUp a a.nonNormTrie w cuts ∧ n = units w + ordinaryUnits w cuts

/-- A range of positions, not behind position `n`. -/
def RangeUpTo (n : Nat) (o : Int × Int) : Prop := 0 ≤ o.1 ∧ o.1 ≤ o.2 ∧ o.2 ≤ n

end Tok.Spec
