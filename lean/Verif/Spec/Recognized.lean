import Verif.Spec.Added

set_option autoImplicit false

/-!
Which occurrences of the added tokens in a text are recognized, and how the text is cut at them.
Positions are positions of code points.
-/

namespace Tok.Spec

/-- The code points of the text from position `a` up to position `b`. -/
def between (w : WStr) (a b : Nat) : WStr := (w.drop a).take (b - a)

/-- Some entry of the table `T` is written at `[a, b)`. -/
def EntryAt (T : List (Str × Int)) (w : WStr) (a b : Nat) (i : Int) : Prop :=
  b ≤ w.length ∧ ∃ k, Utf8Text (between w a b) k ∧ (k, i) ∈ T

/-- The shortest entry of `T` written at position `a` is at `[a, b)`, has the id `i`, and contains no space
(U+0020). -/
def ShortestAt (T : List (Str × Int)) (w : WStr) (a b : Nat) (i : Int) : Prop :=
  a < b ∧ EntryAt T w a b i ∧ (∀ c ∈ between w a b, c ≠ 0x20) ∧ ∀ c j, a < c → c < b → ¬ EntryAt T w a c j

/-- The occurrences that are recognized: the shortest entry at the start of the text, after a space, or at the end
of another recognized occurrence. -/
inductive Recognized (T : List (Str × Int)) (w : WStr) : Nat → Nat → Int → Prop
  | first {b : Nat} {i : Int} : ShortestAt T w 0 b i → Recognized T w 0 b i
  | word {a b : Nat} {i : Int} : w[a]? = some 0x20 → ShortestAt T w (a + 1) b i → Recognized T w (a + 1) b i
  | next {a b c : Nat} {i j : Int} : Recognized T w a b i → ShortestAt T w b c j → Recognized T w b c j

/-- A letter, digit or underscore of ASCII. -/
def WordChar (c : Nat) : Prop :=
  (0x30 ≤ c ∧ c ≤ 0x39) ∨ (0x41 ≤ c ∧ c ≤ 0x5A) ∨ (0x61 ≤ c ∧ c ≤ 0x7A) ∨ c = 0x5F

/-- The flags recorded for the id; an id that is not recorded has none. -/
def flagsOf (a : AddedVocab) (i : Int) : AddedToken := (mapFind a.mapR i).getD {}

/-- An occurrence of a `single_word` token counts only if it neither follows nor precedes a word character. -/
def Counts (a : AddedVocab) (w : WStr) (x y : Nat) (i : Int) : Prop :=
  (flagsOf a i).singleWord = true →
    (x = 0 ∨ ∃ c, w[x - 1]? = some c ∧ ¬ WordChar c) ∧ (∀ c, w[y]? = some c → ¬ WordChar c)

/-- A piece of a text and, if it is taken as an added token, its id. -/
abbrev Cut := Option Int × (Nat × Nat)

/-- The occurrence at `[x, y)` is taken together with the blanks next to it on the sides where the token strips: all
the blanks after it; the blanks before it up to the previous token. -/
def Takes (a : AddedVocab) (w : WStr) (cuts : List Cut) (i : Int) (x y x' y' : Nat) : Prop :=
  x' ≤ x ∧ y ≤ y' ∧ (∀ c ∈ between w x' x, BlankByte c) ∧ (∀ c ∈ between w y y', BlankByte c) ∧
  ((flagsOf a i).lstrip = false → x' = x) ∧ ((flagsOf a i).rstrip = false → y' = y) ∧
  ((flagsOf a i).lstrip = true → x' = 0 ∨ (∃ c, w[x' - 1]? = some c ∧ ¬ BlankByte c) ∨ ∃ j z, (some j, (z, x')) ∈ cuts) ∧
  ((flagsOf a i).rstrip = true → ∀ c, w[y']? = some c → ¬ BlankByte c)

/-- No two pieces in a row are ordinary text. -/
def Alternate : List Cut → Prop
  | [] => True
  | [_] => True
  | c :: d :: r => (c.1 ≠ none ∨ d.1 ≠ none) ∧ Alternate (d :: r)

/-- The text `w` is cut into pieces that are not empty: exactly the recognized occurrences that count are taken as
tokens, everything else is ordinary text. -/
structure CutInto (a : AddedVocab) (T : List (Str × Int)) (w : WStr) (cuts : List Cut) : Prop where
  tiles : Tiles 0 (cuts.map (·.2)) w.length
  filled : ∀ c ∈ cuts, c.2.1 < c.2.2
  alternate : Alternate cuts
  only : ∀ i x' y', (some i, (x', y')) ∈ cuts →
    ∃ x y, Recognized T w x y i ∧ Counts a w x y i ∧ Takes a w cuts i x y x' y'
  all : ∀ i x y, Recognized T w x y i → Counts a w x y i →
    ∃ x' y', (some i, (x', y')) ∈ cuts ∧ Takes a w cuts i x y x' y'

/-- The texts and tables for which recognition is described: no code point above U+FFFF, no empty entry, one id per
entry, and either no flag is set or everything is ASCII and no entry contains a blank. -/
def Describable (a : AddedVocab) (T : List (Str × Int)) (w : WStr) : Prop :=
  Bmp w ∧ (∀ p ∈ T, p.1 ≠ []) ∧ (∀ k i j, (k, i) ∈ T → (k, j) ∈ T → i = j) ∧
  ((∀ i t, mapFind a.mapR i = some t → t.singleWord = false ∧ t.lstrip = false ∧ t.rstrip = false) ∨
   (Ascii w ∧ ∀ p ∈ T, ∀ c ∈ p.1, ¬ BlankByte c))

/-- The split made of a piece of the text `w`: its text, and, if it is a token, the token. -/
def SplitOf (w : WStr) (c : Cut) (s : Split) : Prop :=
  Utf8Text (between w c.2.1 c.2.2) s.normalized ∧
  s.tokens = (match c.1 with
    | some i => [{ id := i, value := s.normalized, offsets := (0, s.normalized.length) }]
    | none => [])

/-- What becomes of a piece of the text: a token stays; ordinary text is normalized, and the normalized text is cut
once more, at the entries that are matched after normalization. -/
def Continued (P : Platform) (norm : Option Normalizer) (a : AddedVocab) (w : WStr) (c : Cut) (g : List Split) :
    Prop :=
  match c.1 with
  | some _ => ∃ s, g = [s] ∧ SplitOf w c s
  | none => ∃ n cuts, normalizeOpt P norm (NS.ofText (between w c.2.1 c.2.2)) = .ok n ∧
      CutInto a a.normTrie n.normalized cuts ∧ Each (SplitOf n.normalized) cuts g

end Tok.Spec
