import Verif.Base

set_option autoImplicit false

/-!
Specification vocabulary for the example program: how Python prints a list of strings.
-/

namespace Tok.Spec

/-- A printable ASCII character. -/
def AsciiPrintable (c : Nat) : Prop := 0x20 ≤ c ∧ c ≤ 0x7E

/-- Python's `repr` of a string of printable ASCII characters: between double quotes if it has a single quote and no
double quote, otherwise between single quotes; a backslash, and the enclosing quote, are written with a backslash in
front. -/
def pyRepr (s : Str) : Str :=
  let q : Nat := if 0x27 ∈ s ∧ 0x22 ∉ s then 0x22 else 0x27
  [q] ++ s.flatMap (fun c => if c = 0x5C ∨ c = q then [0x5C, c] else [c]) ++ [q]

/-- Items separated by a comma and a blank. -/
def commaSeparated : List Str → Str
  | [] => []
  | [s] => s
  | s :: t :: r => s ++ b!", " ++ commaSeparated (t :: r)

/-- Python's `print` of a list of strings. -/
def pyPrint (l : List Str) : Str := b!"[" ++ commaSeparated (l.map pyRepr) ++ b!"]\n"

/-- A token whose printed form shows where it ends: the single quote alone, or a token without a single quote. -/
def ClearToken (s : Str) : Prop := s = b!"'" ∨ 0x27 ∉ s

end Tok.Spec
