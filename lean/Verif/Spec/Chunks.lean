import Verif.Spec.AnyText

set_option autoImplicit false

/-!
Texts that are encoded part by part.
-/

namespace Tok.Spec

/-- Normalization, given as the relation `N`, treats what is on the two sides of a space separately, and keeps the space. -/
def ApartAtSpaces (N : WStr → WStr → Prop) : Prop :=
  N [] [] ∧ ∀ x y nx ny, N x nx → N y ny → N (x ++ 0x20 :: y) (nx ++ 0x20 :: ny)

/-- Normalization leaves something of every piece of the text. -/
def LeavesSome (N : WStr → WStr → Prop) (w : WStr) : Prop :=
  ∀ l v r n, w = l ++ v ++ r → v ≠ [] → N v n → n ≠ []

/-- Normalization makes texts up to U+FFFF of the pieces of the text. -/
def StaysBmp (N : WStr → WStr → Prop) (w : WStr) : Prop :=
  ∀ l v r n, w = l ++ v ++ r → N v n → Bmp n

/-- What the platform's Unicode functions do to spaces. -/
structure SpaceSafe (P : Platform) : Prop where
  control : P.iswcntrl 0x20 = false
  space : P.reSpace 0x20 = true
  accent : P.isNSM 0x20 = false
  lower : P.towlower 0x20 = 0x20
  empty : ∀ k, P.nf k [] = []
  forms : ∀ k x y, P.nf k (x ++ 0x20 :: y) = P.nf k x ++ 0x20 :: P.nf k y

/-- The normalizers that treat the two sides of a space separately. -/
inductive SpaceWise : Normalizer → Prop
  | bert {clean cjk strip lower : Bool} : SpaceWise (.bert clean cjk strip lower)
  | nf {k : NFKind} : SpaceWise (.nf k)
  | stripAccents : SpaceWise .stripAccents
  | seq {l : List Normalizer} : (∀ n ∈ l, SpaceWise n) → SpaceWise (.seq l)

end Tok.Spec
