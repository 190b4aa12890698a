import Verif.Spec.BPE

set_option autoImplicit false

/-!
Byte-pair encoding as it is defined in the literature, and merge lists for which the order among merges of equal rank
does not matter.
-/

namespace Tok.Spec

/-- Any number of merges, each of which is the one of least rank that applies: the usual definition of byte-pair
encoding. -/
inductive BestFirst (T : Table) : List (Int × Nat) → List (Int × Nat) → Prop
  | refl (l : List (Int × Nat)) : BestFirst T l l
  | step {a b c : List (Int × Nat)} {rank : Nat} : BestFirst T a b → MergeOnce T rank b c →
      (∀ r c', MergeOnce T r b c' → rank ≤ r) → BestFirst T a c

/-- No entry merges with itself. -/
def NoSelf (T : Table) : Prop := ∀ r a n, ¬ T r a a n

/-- A merge that uses an entry is listed after the merges that make the entry, as in a list obtained by training. -/
def MadeBefore (T : Table) : Prop := ∀ r a b n r' c d e, T r a b n → T r' c d e → c = n ∨ d = n → r < r'

/-- A merge that uses an entry is listed before the merges that make the entry. -/
def MadeAfter (T : Table) : Prop := ∀ r a b n r' c d e, T r a b n → T r' c d e → c = n ∨ d = n → r' < r

end Tok.Spec
