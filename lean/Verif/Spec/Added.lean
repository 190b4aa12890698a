import Verif.Spec.BPE
import Verif.AddedVocabulary

set_option autoImplicit false

/-!
Specification of added-token extraction.
-/

namespace Tok.Spec

/-- A text of code points of the Basic Multilingual Plane. -/
def Bmp (w : WStr) : Prop := ∀ c ∈ w, Scalar c ∧ c < 0x10000

/-- An ASCII text. -/
def Ascii (w : WStr) : Prop := ∀ c ∈ w, c < 0x80

/-- The text is one for which extraction is claimed to be right: no code point above U+FFFF,
and either no added token strips blanks at its side or the text is ASCII and no added token is
empty or contains blanks. -/
def Cuttable (a : AddedVocab) (w : WStr) : Prop :=
  Bmp w ∧
  ((∀ i t, mapFind a.mapR i = some t → t.lstrip = false ∧ t.rstrip = false) ∨
   (Ascii w ∧ ∀ p ∈ a.nonNormTrie ++ a.normTrie, p.1 ≠ [] ∧ ∀ c ∈ p.1, ¬ BlankByte c))

/-- The split is one occurrence of an entry of the table `T`: it holds the entry and nothing else
except blanks on a side where the token strips them, and has the entry's id as its only token. -/
def IsToken (a : AddedVocab) (T : List (Str × Int)) (s : Split) : Prop :=
  ∃ (i : Int) (k l r : Str), (k, i) ∈ T ∧ s.normalized = l ++ k ++ r ∧
    (∀ c ∈ l, BlankByte c) ∧ (∀ c ∈ r, BlankByte c) ∧
    (l ≠ [] → ∃ t, mapFind a.mapR i = some t ∧ t.lstrip = true) ∧
    (r ≠ [] → ∃ t, mapFind a.mapR i = some t ∧ t.rstrip = true) ∧
    s.tokens = [{ id := i, value := s.normalized, offsets := (0, s.normalized.length) }]

/-- What becomes of a piece of the text: a piece taken as the added token with id `i` stays, as one
split; any other is normalized, and its normalized text is cut once more. -/
def Extracted (P : Platform) (norm : Option Normalizer) (a : AddedVocab) (cut : WStr × Option Int) (g : List Split) :
    Prop :=
  match cut.2 with
  | some i => ∃ s, g = [s] ∧ Utf8Text cut.1 s.normalized ∧ IsToken a a.nonNormTrie s ∧ s.tokens.map (·.id) = [i]
  | none => ∃ n, normalizeOpt P norm (NS.ofText cut.1) = .ok n ∧
      Utf8Text n.normalized (g.map (·.normalized)).flatten ∧
      ∀ s ∈ g, s.tokens = [] ∨ IsToken a a.normTrie s

end Tok.Spec
