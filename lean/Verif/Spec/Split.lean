import Verif.Spec.Text
import Verif.Common

set_option autoImplicit false

/-!
Specification vocabulary for splitting text into pieces.
-/

namespace Tok.Spec

/-- Two lists of the same length whose entries are related one by one. -/
inductive Each {α β : Type} (R : α → β → Prop) : List α → List β → Prop
  | nil : Each R [] []
  | cons {a : α} {b : β} {l : List α} {m : List β} : R a b → Each R l m → Each R (a :: l) (b :: m)

/-- Number of UTF-16 units of a text: one per code point below U+10000, two otherwise. -/
def units : WStr → Nat
  | [] => 0
  | c :: r => (if c < 0x10000 then 1 else 2) + units r

/-- `Tiles a l b`: the intervals `l` start at `a`, follow each other without gap or
overlap and end at `b`. -/
def Tiles : Nat → List (Nat × Nat) → Nat → Prop
  | a, [], b => a = b
  | a, (x, y) :: r, b => x = a ∧ x ≤ y ∧ Tiles y r b

/-- Matches reported by a regex engine: in order, without overlap, inside `[cur, len]`. -/
def Ordered (len : Nat) : Nat → List (Nat × Nat) → Prop
  | cur, [] => cur ≤ len
  | cur, (a, b) :: r => cur ≤ a ∧ a ≤ b ∧ Ordered len b r

/-- Position `i` (in UTF-16 units) lies between two code points of the text. -/
def Boundary (w : WStr) (i : Nat) : Prop := ∃ v r, w = v ++ r ∧ i = units v

/-- What is assumed of a regex engine: for every text, matches are ordered, in range and
do not cut a code point in two. -/
def GoodEngine (find : U16 → List (Nat × Nat)) : Prop :=
  ∀ (w : WStr) (u : U16), Utf16Text w u →
    Ordered u.length 0 (find u) ∧ ∀ m ∈ find u, Boundary w m.1 ∧ Boundary w m.2

/-- The split `s` holds the text `w`. -/
def HasText (s : Split) (w : WStr) : Prop := Utf8Text w s.normalized

/-- The code points of a text from unit position `a` to unit position `b`. -/
def PartOf (w : WStr) (a b : Nat) (v : WStr) : Prop :=
  ∃ l r, w = l ++ v ++ r ∧ a = units l ∧ b = units l + units v

/-- `rs` are the stretches of `[0, len)` left between the matches `ms`: in order,
non-empty, not overlapping any match, covering everything outside the matches, and
extending from a match (or the start) to a match (or the end). -/
structure Gaps (len : Nat) (ms rs : List (Nat × Nat)) : Prop where
  ordered : Ordered len 0 rs
  nonempty : ∀ r ∈ rs, r.1 < r.2
  disjoint : ∀ r ∈ rs, ∀ m ∈ ms, m.2 ≤ r.1 ∨ r.2 ≤ m.1
  covers : ∀ i < len, (∀ m ∈ ms, ¬ (m.1 ≤ i ∧ i < m.2)) → ∃ r ∈ rs, r.1 ≤ i ∧ i < r.2
  maximal : ∀ r ∈ rs, (r.1 = 0 ∨ ∃ m ∈ ms, r.1 = m.2) ∧ (r.2 = len ∨ ∃ m ∈ ms, r.2 = m.1)

/-- What becomes of a split under lossless splitting: a split that carries tokens is
kept; any other is cut into pieces without tokens whose texts concatenate to its text and
whose offsets tile its offsets, from its start on, one position per UTF-16 unit. -/
def IsolatedPieces (s : Split) (part : List Split) : Prop :=
  (s.tokens ≠ [] ∧ part = [s]) ∨
  (s.tokens = [] ∧ (∀ q ∈ part, q.tokens = [] ∧ ∃ v, HasText q v) ∧
    (part.map (·.normalized)).flatten = s.normalized ∧
    ∃ w, HasText s w ∧ Tiles s.offsets.1 (part.map (·.offsets)) (s.offsets.1 + units w))

/-- What becomes of a split when matches are removed: a split that carries tokens is
kept; any other is replaced by the stretches between the matches, each with the text
found there and its offsets shifted by the start of the split. -/
def RemovedPieces (find : U16 → List (Nat × Nat)) (s : Split) (part : List Split) : Prop :=
  (s.tokens ≠ [] ∧ part = [s]) ∨
  (s.tokens = [] ∧ ∃ w u rs, HasText s w ∧ Utf16Text w u ∧ Gaps (units w) (find u) rs ∧
    Each (fun r q => q.tokens = [] ∧ q.offsets = (s.offsets.1 + r.1, s.offsets.1 + r.2) ∧
      ∃ v, PartOf w r.1 r.2 v ∧ HasText q v) rs part)

end Tok.Spec
