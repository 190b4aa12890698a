import Verif.Spec.Chunks
import Verif.Spec.Alike

set_option autoImplicit false

/-!
White space between words.
-/

namespace Tok.Spec

/-- The text consists of the words `l`, with white space between them and possibly at both ends, however much and of
whatever kind. -/
inductive Separated (blank : Nat → Bool) : WStr → List WStr → Prop
  | blanks {b : WStr} : (∀ c ∈ b, blank c = true) → Separated blank b []
  | word {b x r : WStr} {l : List WStr} : (∀ c ∈ b, blank c = true) → x ≠ [] → (∀ c ∈ x, blank c = false) →
      (∀ c, r.head? = some c → blank c = true) → Separated blank r l → Separated blank (b ++ x ++ r) (x :: l)

/-- No token of the table `T` is recognized in the text. -/
def NothingIn (T : List (Str × Int)) (w : WStr) : Prop := ∀ u x y i, Utf16Text w u → ¬ RecognizedIn T u x y i

/-- No added token is recognized in the text `w`, before or after normalization, and its normalized form is `n`, which is not
empty.  (Without an added vocabulary nothing is normalized.) -/
def PlainAs (P : Platform) (t : Tokenizer) (w n : WStr) : Prop :=
  match t.added with
  | none => n = w
  | some a => NothingIn a.nonNormTrie w ∧ Normalizes P t.normalizer w n ∧ NothingIn a.normTrie n ∧ n ≠ []

end Tok.Spec
