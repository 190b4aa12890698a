import Verif.Spec.Text
import Verif.Normalizer

set_option autoImplicit false

/-!
Specification of the normalizers' effect on the text and of a consistent offset table.
-/

namespace Tok.Spec

/-- BERT text cleaning of `w` gives `w'`: characters in `drop` disappear, the other characters in
`space` become U+0020, all others stay, in order. -/
inductive Cleaned (drop space : Nat → Prop) : WStr → WStr → Prop
  | nil : Cleaned drop space [] []
  | dropped {c : Nat} {w w' : WStr} : drop c → Cleaned drop space w w' → Cleaned drop space (c :: w) w'
  | spaced {c : Nat} {w w' : WStr} : ¬ drop c → space c → Cleaned drop space w w' →
      Cleaned drop space (c :: w) (0x20 :: w')
  | kept {c : Nat} {w w' : WStr} : ¬ drop c → ¬ space c → Cleaned drop space w w' →
      Cleaned drop space (c :: w) (c :: w')

/-- What BERT cleaning drops: NUL, the replacement character and control characters other than
tab, line feed and carriage return. -/
def Dropped (P : Platform) (c : Nat) : Prop :=
  c = 0 ∨ c = 0xFFFD ∨ (P.iswcntrl c = true ∧ c ≠ 9 ∧ c ≠ 10 ∧ c ≠ 13)

/-- What BERT cleaning treats as white space. -/
def Blank (P : Platform) (c : Nat) : Prop := c = 9 ∨ c = 10 ∨ c = 13 ∨ P.iswspace c = true

/-- The blocks of CJK ideographs BERT surrounds by spaces (as in the reference implementation). -/
def Cjk (c : Nat) : Prop :=
  (0x4E00 ≤ c ∧ c ≤ 0x9FFF) ∨ (0x3400 ≤ c ∧ c ≤ 0x4DBF) ∨ (0x20000 ≤ c ∧ c ≤ 0x2A6DF) ∨
  (0x2A700 ≤ c ∧ c ≤ 0x2B73F) ∨ (0x2B740 ≤ c ∧ c ≤ 0x2B81F) ∨ (0x2B920 ≤ c ∧ c ≤ 0x2CEAF) ∨
  (0xF900 ≤ c ∧ c ≤ 0xFAFF) ∨ (0x2F800 ≤ c ∧ c ≤ 0x2FA1F)

/-- Every CJK ideograph is surrounded by spaces and nothing else changes. -/
inductive CjkPadded : WStr → WStr → Prop
  | nil : CjkPadded [] []
  | cjk {c : Nat} {w w' : WStr} : Cjk c → CjkPadded w w' → CjkPadded (c :: w) (0x20 :: c :: 0x20 :: w')
  | other {c : Nat} {w w' : WStr} : ¬ Cjk c → CjkPadded w w' → CjkPadded (c :: w) (c :: w')

/-- A consistent offset table: one range per character, whose length is the UTF-8 length of the
character, the ranges follow each other without gap from 0, and together they cover the vector of
original positions. -/
def Consistent (s : NS) : Prop :=
  s.ranges.length = s.normalized.length ∧
  (∀ (i c : Nat) (r : Nat × Nat), s.normalized[i]? = some c → s.ranges[i]? = some r →
    ∃ b, Utf8Char c b ∧ r.2 = b.length) ∧
  (∀ (i : Nat) (r : Nat × Nat), s.ranges[i]? = some r → r.1 = ((s.ranges.take i).map (·.2)).sum) ∧
  s.offsets.length = (s.ranges.map (·.2)).sum

/-- White space of the "C" locale. -/
def WhiteSpace (c : Nat) : Prop := c = 0x20 ∨ (9 ≤ c ∧ c ≤ 13)

end Tok.Spec
