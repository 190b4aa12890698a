import Verif.Spec.Traced

set_option autoImplicit false

/-!
Accent stripping: how the decomposed text is compared with the text.
-/

namespace Tok.Spec

/-- Walking along the text `o` and its decomposition `d` side by side: equal characters are passed together; where they
differ, one character of the text and two of the decomposition are passed.  `k` is the number of places where they
differ. -/
inductive Mismatches : WStr → WStr → Nat → Prop
  | textEnds (d : WStr) : Mismatches [] d 0
  | decompositionEnds (o : WStr) : Mismatches o [] 0
  | equal {o d : WStr} {k : Nat} (c : Nat) : Mismatches o d k → Mismatches (c :: o) (c :: d) k
  | last {o : WStr} {c x : Nat} : c ≠ x → Mismatches (c :: o) [x] 1
  | differ {o d : WStr} {k c x y : Nat} : c ≠ x → Mismatches o d k → Mismatches (c :: o) (x :: y :: d) (k + 1)

/-- The text `d` is the text `o` with some characters replaced by two: a letter with one accent by the letter and the
accent.  (Characters below U+0080 have no decomposition.) -/
inductive OneMark : WStr → WStr → Prop
  | nil : OneMark [] []
  | same {o d : WStr} (c : Nat) : OneMark o d → OneMark (c :: o) (c :: d)
  | accent {o d : WStr} {c : Nat} (x y : Nat) : 0x80 ≤ c → c ≠ x → OneMark o d → OneMark (c :: o) (x :: y :: d)

/-- Position `j` of the text holds a non-spacing mark. -/
def MarkAt (P : Platform) (d : WStr) (j : Nat) : Prop := ∃ c, d[j]? = some c ∧ P.isNSM c = true

/-- The number of UTF-16 units of a character; a value that is no character counts as U+FFFD. -/
def unitsOf (c : Nat) : Nat := if 0x10000 ≤ c ∧ c ≤ 0x10FFFF then 2 else 1

/-- The text whose accents are stripped: white space replaced with `clean`, ideographs put between spaces with `cjk`. -/
def prepared (P : Platform) (clean cjk : Bool) (w : WStr) : WStr := w.flatMap (bertChar P clean cjk false)

/-- Its canonical decomposition. -/
def decomposed (P : Platform) (clean cjk : Bool) (w : WStr) : WStr := P.nf .nfd ((prepared P clean cjk w).map sanitize)

/-- The text after accent stripping and, with `lower`, lower-casing. -/
def stripped (P : Platform) (lower : Bool) (d : WStr) : WStr :=
  (d.filter fun c => !P.isNSM c).map fun c => if lower then P.towlower c else c

end Tok.Spec
