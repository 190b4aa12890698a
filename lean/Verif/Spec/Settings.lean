import Verif.Spec.Flag
import Verif.Spec.Hangs

set_option autoImplicit false

/-!
What truncation, the post-processor and padding make of the encoding of the same tokenizer without them.
-/

namespace Tok.Spec

/-- One vector of the encoding, and of its windows from left to right without their first `k` entries. -/
def rejoined {α : Type} (k : Nat) (v : Enc → List α) (e : Encoding) : List α :=
  v e.toEnc ++ (e.overflowing.map fun x => (v x).drop k).flatten

/-- One vector of the windows of the encoding, from the last to the first and without their last `k` entries, and of the encoding. -/
def rejoinedLeft {α : Type} (k : Nat) (v : Enc → List α) (e : Encoding) : List α :=
  (e.overflowing.map fun x => (v x).take ((v x).length - k)).reverse.flatten ++ v e.toEnc

/-- The entries of a vector that are neither special tokens nor padding. -/
def textEntries {α : Type} (e : Enc) (l : List α) : List α := ((l.zip e.specialTokensMask).filter (·.2 == 0)).map (·.1)

/-- Every template of the post-processor mentions the text once. -/
def TextOnce (pp : PostProcessor) : Prop :=
  ∀ single pair specials, PostProcessor.template single pair specials ∈ steps pp → (single.filter fun p => p.kind == b!"Sequence").length = 1

/-- No step of the post-processor trims offsets. -/
def TrimsNothing (pp : PostProcessor) : Prop := ∀ a, PostProcessor.byteLevel a true ∉ steps pp

end Tok.Spec
