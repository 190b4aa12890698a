import Verif.Spec.Utils
import Verif.PostProcessor

set_option autoImplicit false

/-!
Specification vocabulary for post-processing.
-/

namespace Tok.Spec

/-- The entries of a special token put into an encoding with the type id `ty`: its ids
and tokens, no word index, empty offsets, special mask 1, attention mask 1. -/
def marked (t : SpecialToken) (ty : Int) : Enc :=
  let n := t.ids.length
  { ids := t.ids, tokens := t.tokens, typeIds := List.replicate n ty, words := List.replicate n none,
    offsets := List.replicate n (0, 0), specialTokensMask := List.replicate n 1,
    attentionMask := List.replicate n 1 }

/-- The entries that one piece of a template stands for: the sequence `e` with the type
id of the piece, or the special token (the first one listed under that name, none if the
name is not listed, and none when special tokens are not requested). -/
def block (specials : List SpecialToken) (add : Bool) (e : Enc) (p : Piece) : Enc :=
  if p.kind = b!"Sequence" then { e with typeIds := List.replicate e.typeIds.length p.typeId }
  else if p.kind = b!"SpecialToken" ∧ add = true then
    match specials.find? fun t => t.id == p.id with
    | some t => marked t p.typeId
    | none => {}
  else {}

/-- Entries one after the other. -/
def joinAll : List Enc → Enc
  | [] => {}
  | e :: r => joined e (joinAll r)

/-- `o'` lies inside `o` and is well-ordered, if `o` is. -/
def Narrowed (o o' : Int × Int) : Prop := o.1 ≤ o.2 → o.1 ≤ o'.1 ∧ o'.1 ≤ o'.2 ∧ o'.2 ≤ o.2

/-- `r` is `e` except that offsets have been narrowed. -/
def OnlyOffsets (e r : Enc) : Prop := { r with offsets := e.offsets } = e ∧ Each Narrowed e.offsets r.offsets

/-- `Ġ`, the image of a space in the byte alphabet. -/
def spaceSign : Nat := 0x120

end Tok.Spec
