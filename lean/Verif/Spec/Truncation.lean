import Verif.Spec.Utils
import Verif.Utils

set_option autoImplicit false

/-!
Truncation with any parameters.
-/

namespace Tok.Spec

/-- The windows from position `s` on: at most `max` entries each, each starting `step` after the previous one, up to the first
that reaches the end or starts behind it. -/
inductive WindowsFrom (len max step : Nat) : Nat → List (Nat × Nat) → Prop
  | over {s : Nat} : len ≤ s → WindowsFrom len max step s []
  | last {s : Nat} : s < len → len ≤ s + max → WindowsFrom len max step s [(s, len)]
  | more {s : Nat} {r : List (Nat × Nat)} : s + max < len → WindowsFrom len max step (s + step) r →
      WindowsFrom len max step s ((s, s + max) :: r)

/-- The windows before position `e`, from the right: at most `max` entries each, each ending `step` before the previous one, up
to the first that reaches the start. -/
inductive WindowsTo (max step : Nat) : Nat → List (Nat × Nat) → Prop
  | over : WindowsTo max step 0 []
  | last {e : Nat} : 0 < e → e ≤ max → WindowsTo max step e [(0, e)]
  | more {e : Nat} {r : List (Nat × Nat)} : max < e → WindowsTo max step (e - step) r →
      WindowsTo max step e ((e - max, e) :: r)

/-- Truncation with these parameters leaves an encoding of `n` entries as it is: the parameters ask for nothing, the encoding
fits, or the strategy is for the second of two texts or unknown. -/
def LeftAsIs (t : Truncation) (n : Nat) : Prop :=
  t.maxLength ≤ 0 ∨ (n : Int) ≤ t.maxLength ∨ t.strategy = .onlySecond ∨ t.strategy = .unknown

/-- The result consists of the windows `ws` of the encoding: the first is the result, the others are its overflow. -/
def CutAt (e : Encoding) (ws : List (Nat × Nat)) (r : Encoding) : Prop :=
  Each (IsPart e.toEnc) ws (r.toEnc :: r.overflowing)

/-- A value that fits into a C++ `int`. -/
def IsInt (i : Int) : Prop := -(2 : Int) ^ 31 ≤ i ∧ i < 2 ^ 31

end Tok.Spec
