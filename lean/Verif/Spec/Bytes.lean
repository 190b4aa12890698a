import Verif.Spec.Split

set_option autoImplicit false

/-!
Specification of the byte alphabet used by byte-level BPE (GPT-2).
-/

namespace Tok.Spec

/-- Bytes shown as themselves: `!`…`~`, `¡`…`¬`, `®`…`ÿ`. -/
def Printable (b : Nat) : Prop :=
  (0x21 ≤ b ∧ b ≤ 0x7E) ∨ (0xA1 ≤ b ∧ b ≤ 0xAC) ∨ (0xAE ≤ b ∧ b ≤ 0xFF)

instance (b : Nat) : Decidable (Printable b) := by unfold Printable; infer_instance

/-- How many bytes below `b` are not printable. -/
def hiddenBelow : Nat → Nat
  | 0 => 0
  | b + 1 => hiddenBelow b + (if Printable b then 0 else 1)

/-- The code point of a byte: itself if printable; the other bytes get the code points
from U+0100 on, in increasing order. -/
def byteCode (b : Nat) : Nat := if Printable b then b else 0x100 + hiddenBelow b

/-- A byte string written in the byte alphabet. -/
def byteText (s : Str) : WStr := s.map byteCode

/-- Bytes that the byte-level decoder of the library does not give back. -/
def LostByte (b : Nat) : Prop := (127 ≤ b ∧ b ≤ 160) ∨ b = 173

instance (b : Nat) : Decidable (LostByte b) := by unfold LostByte; infer_instance

/-- What becomes of a split under byte-level pre-tokenization: a split that carries
tokens keeps its tokens and offsets and has its text written in the byte alphabet; any
other is cut into pieces that hold its bytes, in order, written in the byte alphabet,
and whose offsets tile its offsets, one position per UTF-16 unit. -/
def CodedPieces (s : Split) (part : List Split) : Prop :=
  (s.tokens ≠ [] ∧ ∃ q, part = [q] ∧ q.tokens = s.tokens ∧ q.offsets = s.offsets ∧
    Utf8Text (byteText s.normalized) q.normalized) ∨
  (s.tokens = [] ∧ ∃ bs : List Str, bs.flatten = s.normalized ∧
    Each (fun b q => q.tokens = [] ∧ Utf8Text (byteText b) q.normalized) bs part ∧
    ∃ w, HasText s w ∧ Tiles s.offsets.1 (part.map (·.offsets)) (s.offsets.1 + units w))

end Tok.Spec
