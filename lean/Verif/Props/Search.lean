import Verif.Proofs.AnyText
import Verif.Props.Ordered

set_option autoImplicit false

/-!
The search for added tokens never fails.
-/

namespace Tok
open Spec

/-- **C117** The search for added tokens itself throws nothing, on any text of Unicode characters and with any table of tokens: no position it
computes lies outside the text.  (So the entries of `added_tokens_map_r` that `findMatches` records as touched are exactly those that the code
touches.) -/
theorem C117_search (a : AddedVocab) (T : List (Str × Int)) {w : WStr} (hw : Scalars w) : ∃ cuts, (a.findMatches (utf8 w) T).1 = .ok cuts := by
  unfold AddedVocab.findMatches
  simp only [fromUTF8_utf8 hw]
  have ho := scan_ordered (wordIds T) (utf16 w) (utf16 w) 0 0 (Nat.le_refl _) (by simp) 0 (Nat.le_refl _)
  generalize scan (wordIds T) (utf16 w) (utf16 w) 0 0 = ms at ho
  have hl := at_units_le hw
  obtain ⟨segs, h1, _⟩ := at_matchSegs a (utf8 w) (utf16 w).length ms 0 (by
    intro m hm
    have := (od_token ho).1 (m.1, m.2.1) (List.mem_map.2 ⟨m, hm, rfl⟩)
    simp only at this
    omega)
  exact ⟨segs, h1⟩

/-- The hypothesis is met. -/
example : Scalars w!"a [X] \u4e2d" := by unfold Scalars isScalar; decide

end Tok
