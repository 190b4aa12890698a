import Verif.Spec.BPE

set_option autoImplicit false

/-!
Merge lists in which every merge makes the piece longer.  Different pairs may be merged into the same entry (`a` + `bc` and `ab` + `c`), as
they are in merge lists that were derived from a vocabulary.
-/

namespace Tok.Spec

/-- No two entries have the same id, and the second entry of every line is longer than the continuation prefix, so that every merge adds to the first
entry.  (The second condition says, without continuation prefix, that no line ends with the empty entry.) -/
def Lengthens (V : Str → Option Int) (pre : Str) (lines : List Str) : Prop :=
  DistinctIds V ∧ ∀ line ∈ lines, ∀ p q, Fields line p q → pre.length < q.length

/-- Entries have a size, and every merge makes an entry of the sizes of both, the second of which is positive. -/
def Additive (T : Table) : Prop := ∃ size : Int → Int, ∀ r a b n, T r a b n → size n = size a + size b ∧ 0 < size b

end Tok.Spec
