import Verif.Spec.Split

set_option autoImplicit false

/-!
Specification of BERT pre-tokenization: split on white space, then put every punctuation
character into a piece of its own.
-/

namespace Tok.Spec

/-- A pending piece that starts at `start`, if it is not empty. -/
def flush (start : Nat) (cur : WStr) : List (Nat × WStr) := if cur = [] then [] else [(start, cur)]

/-- The words of a text separated by white space, with their positions in UTF-16 units;
`cur` is the word being read, which began at `start`. -/
def wsWords (space : Nat → Bool) (start : Nat) (cur : WStr) : WStr → List (Nat × WStr)
  | [] => flush start cur
  | c :: r =>
    if space c then flush start cur ++ wsWords space (start + units cur + units [c]) [] r
    else wsWords space start (cur ++ [c]) r

/-- The same with every punctuation character cut out as a piece of its own. -/
def punctWords (punct : Nat → Bool) (start : Nat) (cur : WStr) : WStr → List (Nat × WStr)
  | [] => flush start cur
  | c :: r =>
    if punct c then flush start cur ++ (start + units cur, [c]) ::
      punctWords punct (start + units cur + units [c]) [] r
    else punctWords punct start (cur ++ [c]) r

/-- The pieces of a text, with positions. -/
def bertPieces (space punct : Nat → Bool) (w : WStr) : List (Nat × WStr) :=
  (wsWords space 0 [] w).flatMap fun (a, x) => (punctWords punct 0 [] x).map fun (b, y) => (a + b, y)

/-- What becomes of a split: one that carries tokens is kept, any other is replaced by
the pieces of its text. -/
def BertSplit (space punct : Nat → Bool) (s : Split) (part : List Split) : Prop :=
  (s.tokens ≠ [] ∧ part = [s]) ∨
  (s.tokens = [] ∧ ∃ w, HasText s w ∧
    Each (fun (x : Nat × WStr) q => q.tokens = [] ∧ HasText q x.2 ∧
      q.offsets = (s.offsets.1 + x.1, s.offsets.1 + x.1 + units x.2)) (bertPieces space punct w) part)

end Tok.Spec
