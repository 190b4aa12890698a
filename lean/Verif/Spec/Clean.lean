import Verif.Spec.Accents

set_option autoImplicit false

/-!
BERT text cleaning: what the offset table must still hold when a character is dropped.
-/

namespace Tok.Spec

/-- The table entries of one character: one for a character of the basic multilingual plane, as long as its UTF-8
form, and two entries of length four for a supplementary character.  A value that is no character counts as U+FFFD. -/
def sizesOf (c : Nat) : List Nat :=
  if 0x10000 ≤ c ∧ c ≤ 0x10FFFF then [4, 4]
  else if c < 0x80 then [1] else if c < 0x800 then [2] else [3]

/-- The entries of the table made for the text `w`. -/
def sizes (w : WStr) : List Nat := w.flatMap sizesOf

/-- With `clean`, the character is dropped by BERT cleaning. -/
def Drops (P : Platform) (clean : Bool) (c : Nat) : Prop := clean = true ∧ Dropped P c

instance (P : Platform) (clean : Bool) : DecidablePred (Drops P clean) := fun c => by unfold Drops Dropped; infer_instance

/-- The text without the dropped characters. -/
def remaining (P : Platform) (clean : Bool) (w : WStr) : WStr := w.filter fun c => !decide (Drops P clean c)

/-- The table entries that are taken away for the dropped characters of a text, in this order: starting at entry `e`, one
entry is passed for every character kept and two for every character dropped, of which the first is taken away. -/
def slots (P : Platform) (clean : Bool) : Nat → WStr → List Nat
  | _, [] => []
  | e, c :: w => if Drops P clean c then e :: slots P clean (e + 2) w else slots P clean (e + 1) w

/-- What is left of a table `R` after that. -/
def leftOver {α : Type} (P : Platform) (clean : Bool) : WStr → List α → List α
  | [], R => R
  | c :: w, R =>
    if Drops P clean c then (R.drop 1).take 1 ++ leftOver P clean w (R.drop 2)
    else R.take 1 ++ leftOver P clean w (R.drop 1)

/-- Every entry to be taken away exists, and behind it the table still holds at least as many bytes as were taken away
before. -/
def Enough (L l : List Nat) : Prop :=
  ∀ (k e : Nat), l[k]? = some e → e < L.length ∧ ((l.take k).map fun x => L.getD x 0).sum ≤ (L.drop (e + 1)).sum

/-- The bytes that remain. -/
def bytesLeft (L l : List Nat) : Nat := L.sum - (l.map fun x => L.getD x 0).sum

/-- The table with entries of the sizes `L`: where each entry starts, and its size. -/
def sizeTable (L : List Nat) : List (Nat × Nat) := (List.range L.length).map fun x => ((L.take x).sum, L.getD x 0)

/-- Position `t` of the text holds an ideograph. -/
def CjkAt (v : WStr) (t : Nat) : Prop := ∃ c, v[t]? = some c ∧ Cjk c

/-- The table `R` reaches every ideograph of the text `v`: counting on from the start recorded for the first ideograph,
every ideograph starts inside the `N` bytes that remain. -/
def Reaches (v : WStr) (R : List (Nat × Nat)) (N : Nat) : Prop :=
  ∀ (t₁ t : Nat), CjkAt v t₁ → (∀ x, x < t₁ → ¬ CjkAt v x) → t₁ ≤ t → CjkAt v t →
    (R.getD t₁ (0, 0)).1 + (((R.drop t₁).take (t - t₁)).map (·.2)).sum < N

/-- What BERT normalization asks of a text `w`, whose prepared text (without the dropped characters, white space replaced,
ideographs padded) differs from its decomposition in `k` places. -/
structure BertFits (P : Platform) (clean cjk strip lower : Bool) (w : WStr) (k : Nat) : Prop where
  /-- cleaning finds the entries it takes away -/
  dropped : Enough (sizes w) (slots P clean 0 w)
  /-- padding finds the ideographs in the table that is left -/
  padded : cjk = true → Reaches (prepared P clean false (remaining P clean w))
    (leftOver P clean w (sizeTable (sizes w))) (bytesLeft (sizes w) (slots P clean 0 w))
  /-- accent stripping finds every mark -/
  marks : strip = true ∨ lower = true → ∀ j, MarkAt P (decomposed P clean cjk (remaining P clean w)) j →
    j < (leftOver P clean w (sizeTable (sizes w))).length +
      ((prepared P clean cjk (remaining P clean w)).length - (remaining P clean w).length) + k

/-- The normalized text. -/
def bertResult (P : Platform) (clean cjk strip lower : Bool) (w : WStr) : WStr :=
  if strip = true ∨ lower = true then stripped P lower (decomposed P clean cjk (remaining P clean w))
  else prepared P clean cjk (remaining P clean w)

end Tok.Spec
