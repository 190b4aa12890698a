import Verif.Spec.Text
import Verif.Normalizer

set_option autoImplicit false

/-!
Replacing the occurrences of one character.
-/

namespace Tok.Spec

/-- The regex engine finds the occurrences of the character `c`, from left to right. -/
def Finds (c : Nat) (find : WStr → List (Nat × Nat)) : Prop :=
  ∀ w, ((find w).map (·.1)).Pairwise (· < ·) ∧ ∀ i, i ∈ (find w).map (·.1) ↔ w[i]? = some c

/-- How often the character `c` occurs in the text. -/
def times (c : Nat) (w : WStr) : Nat := (w.filter (· = c)).length

/-- Every space of the text has at least as many characters after it as spaces before it. -/
def Evenly (w : WStr) : Prop := ∀ A B, w = A ++ 0x20 :: B → times 0x20 A ≤ B.length

/-- Every entry of the table has one id. -/
def OneId (T : List (Str × Int)) : Prop := ∀ k i j, (k, i) ∈ T → (k, j) ∈ T → i = j

end Tok.Spec
