import Verif.Spec.Total
import Verif.Spec.Normalizer

set_option autoImplicit false

/-!
Texts changed by a normalizer character by character, and where each new character comes from.
-/

namespace Tok.Spec

/-- `w'` is `w` with characters changed by `g`: each character `c` of `w`, the `i`-th one (counted from `i`), is kept or
replaced by the characters `g c`.  `pos` gives for each character of `w'` the number of the character it comes from. -/
inductive Traced (g : Nat → WStr) : Nat → WStr → WStr → List Nat → Prop
  | nil (i : Nat) : Traced g i [] [] []
  | kept {i c : Nat} {w w' : WStr} {pos : List Nat} : Traced g (i + 1) w w' pos →
      Traced g i (c :: w) (c :: w') (i :: pos)
  | changed {i c : Nat} {w w' : WStr} {pos : List Nat} : Traced g (i + 1) w w' pos →
      Traced g i (c :: w) (g c ++ w') ((g c).map (fun _ => i) ++ pos)

instance (c : Nat) : Decidable (Cjk c) := by unfold Cjk; infer_instance

/-- What the BERT normalizer makes of one character that it does not drop and that has no accents: with `clean` white
space becomes U+0020; with `cjk` an ideograph is put between spaces; with `lower` the result is lower-cased. -/
def bertChar (P : Platform) (clean cjk lower : Bool) (c : Nat) : WStr :=
  let low := fun x => if lower = true then P.towlower x else x
  let c1 := if clean = true ∧ (c = 9 ∨ c = 10 ∨ c = 13 ∨ P.iswspace c = true) then 0x20 else c
  if cjk = true ∧ Cjk c1 then [low 0x20, low c1, low 0x20] else [low c1]

/-- The text has nothing the BERT normalizer would drop or decompose: with `clean`, no control characters; with accent
stripping (which `lower` switches on too), no text made of its characters and spaces changes under canonical decomposition
and it has no non-spacing marks. -/
def Undropped (P : Platform) (clean strip lower : Bool) (w : WStr) : Prop :=
  (clean = true → ∀ c ∈ w, ¬ Dropped P c) ∧
  (strip = true ∨ lower = true → ∀ v : WStr, (∀ c ∈ v, c = 0x20 ∨ c ∈ w) → P.nf .nfd v = v ∧ ∀ c ∈ v, P.isNSM c = false)

/-- What is asked of a text `w` that a BERT normalizer and the added tokens of `a` work on: it is not empty, has nothing
that is dropped or decomposed, extraction is right for it before and after normalization, the added tokens matched before
normalization are ASCII, none is empty, and lower-casing leaves the space alone. -/
structure BertText (P : Platform) (clean cjk strip lower : Bool) (a : AddedVocab) (w : WStr) : Prop where
  ne : w ≠ []
  undropped : Undropped P clean strip lower w
  before : Cuttable a w
  after : Cuttable a (w.flatMap (bertChar P clean cjk lower))
  ascii : ∀ p ∈ a.nonNormTrie, Ascii p.1
  filled : ∀ p ∈ a.nonNormTrie ++ a.normTrie, p.1 ≠ []
  space : lower = true → P.towlower 0x20 = 0x20

/-- `v` is made from `u` character by character: each is kept or is one of the characters `g` makes of it. -/
def MadeFrom (g : Nat → WStr) (u v : WStr) : Prop := Each (fun c c' => c' = c ∨ c' ∈ g c) u v

end Tok.Spec
