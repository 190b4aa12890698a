import Verif.Spec.Rows

set_option autoImplicit false

/-!
Recognition of added tokens, and the words of a text, for every text and every flag.

The code looks for the tokens in the UTF-16 form of the text, judges the flags by the bytes of its UTF-8 form, and cuts the text
itself, code point by code point, all at the same positions.  For texts up to U+FFFF the first and the last agree; for ASCII texts all three.
-/

namespace Tok.Spec

/-- Some entry of `T` is written in the units `[a, b)`; half a code point reads as U+FFFD. -/
def EntryIn (T : List (Str × Int)) (u : U16) (a b : Nat) (i : Int) : Prop :=
  b ≤ u.length ∧ ∃ x k, ReadAs (between u a b) x ∧ Utf8Text x k ∧ (k, i) ∈ T

/-- The shortest entry of `T` written at unit `a` is at `[a, b)`, has the id `i`, and contains no space. -/
def ShortestIn (T : List (Str × Int)) (u : U16) (a b : Nat) (i : Int) : Prop :=
  a < b ∧ EntryIn T u a b i ∧ (∀ c ∈ between u a b, c ≠ 0x20) ∧ ∀ c j, a < c → c < b → ¬ EntryIn T u a c j

/-- The occurrences that are recognized: the shortest entry at the start of the text, after a space, or at the end of another
recognized occurrence. -/
inductive RecognizedIn (T : List (Str × Int)) (u : U16) : Nat → Nat → Int → Prop
  | first {b : Nat} {i : Int} : ShortestIn T u 0 b i → RecognizedIn T u 0 b i
  | word {a b : Nat} {i : Int} : u[a]? = some 0x20 → ShortestIn T u (a + 1) b i → RecognizedIn T u (a + 1) b i
  | next {a b c : Nat} {i j : Int} : RecognizedIn T u a b i → ShortestIn T u b c j → RecognizedIn T u b c j

/-- A `single_word` token counts only if the bytes in front of it and behind it, if there are any, are not word characters. -/
def CountsIn (a : AddedVocab) (s : Str) (x y : Nat) (i : Int) : Prop :=
  (flagsOf a i).singleWord = true → (x = 0 ∨ ∃ c, s[x - 1]? = some c ∧ ¬ WordChar c) ∧ (∀ c, s[y]? = some c → ¬ WordChar c)

/-- Where the piece of an occurrence that starts at `x` begins: with `lstrip` at the first of the blank bytes in front of it, but
not before `p`, where the previous piece ended. -/
def LeftEnd (a : AddedVocab) (s : Str) (p : Nat) (i : Int) (x x' : Nat) : Prop :=
  if (flagsOf a i).lstrip = true then
    ∃ q, q ≤ x ∧ (∀ c ∈ between s q x, BlankByte c) ∧ (q = 0 ∨ ∃ c, s[q - 1]? = some c ∧ ¬ BlankByte c) ∧ x' = max q p
  else x' = x

/-- Where the piece of an occurrence that ends at `y` ends: with `rstrip` behind the last of the blank bytes that follow. -/
def RightEnd (a : AddedVocab) (s : Str) (i : Int) (y y' : Nat) : Prop :=
  if (flagsOf a i).rstrip = true then
    y ≤ y' ∧ y' ≤ s.length ∧ (∀ c ∈ between s y y', BlankByte c) ∧ ∀ c, s[y']? = some c → ¬ BlankByte c
  else y' = y

/-- Cutting, from position `p` on, at the given occurrences: those that count become tokens; what is between them is ordinary
text, and so is what is left at the end. -/
inductive CutFrom (a : AddedVocab) (s : Str) (total : Nat) : Nat → List (Nat × Nat × Int) → List Cut → Prop
  | rest {p : Nat} : p ≠ total → CutFrom a s total p [] [(none, (p, total))]
  | done : CutFrom a s total total [] []
  | skip {p x y : Nat} {i : Int} {r : List (Nat × Nat × Int)} {cuts : List Cut} : ¬ CountsIn a s x y i → CutFrom a s total p r cuts →
      CutFrom a s total p ((x, y, i) :: r) cuts
  | take {p x y x' y' : Nat} {i : Int} {r : List (Nat × Nat × Int)} {cuts : List Cut} : CountsIn a s x y i → LeftEnd a s p i x x' →
      RightEnd a s i y y' → CutFrom a s total y' r cuts →
      CutFrom a s total p ((x, y, i) :: r) ((if p < x' then [(none, (p, x'))] else []) ++ (some i, (x', y')) :: cuts)

/-- The text `w` is cut at the recognized occurrences, from left to right. -/
def CutUp (a : AddedVocab) (T : List (Str × Int)) (w : WStr) (cuts : List Cut) : Prop :=
  ∃ u s occ, Utf16Text w u ∧ Utf8Text w s ∧ occ.Pairwise (fun o o' : Nat × Nat × Int => o.2.1 ≤ o'.1) ∧
    (∀ x y i, (x, y, i) ∈ occ ↔ RecognizedIn T u x y i) ∧ CutFrom a s u.length 0 occ cuts

/-- The code points of the text from `x` to `y`, or to the end if `y` comes before `x`. -/
def textAt (w : WStr) (x y : Nat) : WStr := if x ≤ y then between w x y else w.drop x

/-- The pieces of a text that has been cut, with a note of whether each is an added token. -/
def itemsAt (w : WStr) (cuts : List Cut) : List (WStr × Bool) := cuts.map fun c => (textAt w c.2.1 c.2.2, c.1.isSome)

/-- As `Items`, for every text. -/
def AnyItems (a : AddedVocab) (N : WStr → WStr → Prop) (w : WStr) (items : List (WStr × Bool)) : Prop :=
  ∃ cuts groups, CutUp a a.nonNormTrie w cuts ∧
    Each (fun (c : Cut) g => match c.1 with
      | some _ => g = [(textAt w c.2.1 c.2.2, true)]
      | none => ∃ n cuts', N (textAt w c.2.1 c.2.2) n ∧ CutUp a a.normTrie n cuts' ∧ g = itemsAt n cuts') cuts groups ∧
    items = if groups.flatten = [] then itemsAt w cuts else groups.flatten

/-- The pieces the pre-tokenizer starts with.  Without an added vocabulary there is no normalization. -/
def AnyFirst (P : Platform) (t : Tokenizer) (w : WStr) (items : List (WStr × Bool)) : Prop :=
  match t.added with
  | some a => AnyItems a (Normalizes P t.normalizer) w items
  | none => items = [(w, false)]

/-- The words given to the model. -/
def AnyWords (P : Platform) (t : Tokenizer) (w : WStr) (words : List WStr) : Prop :=
  ∃ items w' items', AnyFirst P t w items ∧ words = items'.map (·.1) ∧
    match t.preTokenizer with
    | some x => PreTokenizes P x (w, items) (w', items')
    | none => items' = items

/-- The tables of added tokens: no entry is empty, and none has two ids. -/
def PlainTables (a : AddedVocab) : Prop :=
  ∀ T, T = a.nonNormTrie ∨ T = a.normTrie → (∀ p ∈ T, p.1 ≠ []) ∧ ∀ k i j, (k, i) ∈ T → (k, j) ∈ T → i = j

end Tok.Spec
