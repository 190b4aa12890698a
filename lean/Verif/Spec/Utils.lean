import Verif.Spec.Split

set_option autoImplicit false

/-!
Specification vocabulary for truncation and padding.
-/

namespace Tok.Spec

/-- The seven vectors all have `n` entries. -/
def Aligned (e : Enc) (n : Nat) : Prop :=
  e.ids.length = n ∧ e.typeIds.length = n ∧ e.tokens.length = n ∧ e.words.length = n ∧
  e.offsets.length = n ∧ e.specialTokensMask.length = n ∧ e.attentionMask.length = n

/-- The entries of a list from position `r.1` up to position `r.2`. -/
def part {α : Type} (l : List α) (r : Nat × Nat) : List α := (l.take r.2).drop r.1

/-- `w` is the part `r` of every vector of `e`. -/
def IsPart (e : Enc) (r : Nat × Nat) (w : Enc) : Prop :=
  w.ids = part e.ids r ∧ w.typeIds = part e.typeIds r ∧ w.tokens = part e.tokens r ∧
  w.words = part e.words r ∧ w.offsets = part e.offsets r ∧
  w.specialTokensMask = part e.specialTokensMask r ∧ w.attentionMask = part e.attentionMask r

/-- Windows of at most `max` entries over `[s, len)`, each starting `step` after the
previous one, up to the first that reaches the end. -/
inductive RightWindows (len max step : Nat) : Nat → List (Nat × Nat) → Prop
  | last {s : Nat} : s < len → len ≤ s + max → RightWindows len max step s [(s, len)]
  | more {s : Nat} {r : List (Nat × Nat)} : s + max < len → RightWindows len max step (s + step) r →
      RightWindows len max step s ((s, s + max) :: r)

/-- Windows of at most `max` entries over `[0, e)` from the right, each ending `step`
before the previous one, up to the first that reaches the start. -/
inductive LeftWindows (max step : Nat) : Nat → List (Nat × Nat) → Prop
  | last {e : Nat} : 0 < e → e ≤ max → LeftWindows max step e [(0, e)]
  | more {e : Nat} {r : List (Nat × Nat)} : max < e → LeftWindows max step (e - step) r →
      LeftWindows max step e ((e - max, e) :: r)

/-- Consecutive windows overlap by exactly `k` entries. -/
def Overlap (k : Nat) : List (Nat × Nat) → Prop
  | [] => True
  | [_] => True
  | a :: b :: r => min a.2 b.2 = max a.1 b.1 + k ∧ Overlap k (b :: r)

/-- The windows together hold every position below `n`. -/
def Cover (n : Nat) (ws : List (Nat × Nat)) : Prop := ∀ i < n, ∃ w ∈ ws, w.1 ≤ i ∧ i < w.2

/-- `t` is the smallest multiple of `m` that is not below `n` (any `n` when `m` is not
positive). -/
def RoundedUp (n : Nat) (m : Int) (t : Nat) : Prop :=
  if 0 < m then n ≤ t ∧ (t : Int) < n + m ∧ ∃ q : Nat, (t : Int) = q * m else t = n

/-- `k` filler entries. -/
def filler (k : Nat) (padId padTypeId : Int) (padToken : Str) : Enc :=
  { ids := List.replicate k padId, typeIds := List.replicate k padTypeId,
    tokens := List.replicate k padToken, words := List.replicate k (some 0),
    offsets := List.replicate k (0, 0), specialTokensMask := List.replicate k 1,
    attentionMask := List.replicate k 0 }

/-- The entries of `a` followed by those of `b`. -/
def joined (a b : Enc) : Enc :=
  { ids := a.ids ++ b.ids, typeIds := a.typeIds ++ b.typeIds, tokens := a.tokens ++ b.tokens,
    words := a.words ++ b.words, offsets := a.offsets ++ b.offsets,
    specialTokensMask := a.specialTokensMask ++ b.specialTokensMask,
    attentionMask := a.attentionMask ++ b.attentionMask }

end Tok.Spec
