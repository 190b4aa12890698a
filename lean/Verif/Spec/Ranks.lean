import Verif.Spec.BPE

set_option autoImplicit false

/-!
Lists of merges that differ in the numbers of their lines only.
-/

namespace Tok.Spec

/-- Two tables have the same rules, in the same relative order. -/
structure SameOrder (T T' : Table) : Prop where
  rules : ∀ a b n, (∃ r, T r a b n) ↔ ∃ r, T' r a b n
  order : ∀ r s r' s' a b n c d k, T r a b n → T s c d k → T' r' a b n → T' s' c d k → (r < s ↔ r' < s')

/-- A merge that is waiting in the queue with another rank. -/
def reRank (g : Int → Int) (m : Merge) : Merge := { m with rank := g m.rank }

/-- `g` keeps the order of the ranks in `R`. -/
def KeepsOrder (g : Int → Int) (R : Int → Prop) : Prop := ∀ i j, R i → R j → (i < j ↔ g i < g j)

/-- The priority queue only compares the ranks of the merges: with other ranks in the same order it does the same. -/
def ComparesRanks (q : PQ) : Prop :=
  ∀ g R, KeepsOrder g R →
    (∀ l m, (∀ x ∈ m :: l, R x.rank) → q.push (l.map (reRank g)) (reRank g m) = (q.push l m).map (reRank g)) ∧
    ∀ l, (∀ x ∈ l, R x.rank) → q.pop (l.map (reRank g)) = (q.pop l).map fun r => (reRank g r.1, r.2.map (reRank g))

/-- A line of the list of merges, with the lines `before` before it, that gives no rule: it has no two fields, or one of them or what
they would be merged into is no entry; or an earlier line is about the same pair. -/
def NoRule (V : Str → Option Int) (pre : Str) (before : List Str) (line : Str) : Prop :=
  ∀ p q a b n, Fields line p q → V p = some a → V q = some b → V (p ++ q.drop pre.length) = some n → ∃ r k, Says V pre before r a b k

/-- The second list of lines is the first one with lines that give no rule inserted; `before` are the lines before it (of the second list). -/
inductive PaddedWith (V : Str → Option Int) (pre : Str) : List Str → List Str → List Str → Prop
  | nil (before : List Str) : PaddedWith V pre before [] []
  | line (before : List Str) (x : Str) (l l' : List Str) : PaddedWith V pre (before ++ [x]) l l' → PaddedWith V pre before (x :: l) (x :: l')
  | extra (before : List Str) (x : Str) (l l' : List Str) : NoRule V pre before x → PaddedWith V pre (before ++ [x]) l l' → PaddedWith V pre before l (x :: l')

end Tok.Spec
