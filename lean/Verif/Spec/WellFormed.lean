import Verif.Spec.Decoding
import Verif.Spec.Config

set_option autoImplicit false

/-!
Well-formed text: byte strings that are UTF-8.
-/

namespace Tok.Spec

/-- The bytes are well-formed UTF-8. -/
def WellFormed (s : Str) : Prop := ∃ w, Utf8Text w s

/-- A JSON value all of whose strings and keys are well-formed as they are written (the JSON parser refuses others). -/
inductive TextDoc : Json → Prop
  | null : TextDoc .null
  | bool (b : Bool) : TextDoc (.bool b)
  | num (t : Str) : TextDoc (.num t)
  | str {raw : Str} : WellFormed raw → TextDoc (.str raw)
  | arr {l : List Json} : (∀ j ∈ l, TextDoc j) → TextDoc (.arr l)
  | obj {l : List (Str × Json)} : (∀ f ∈ l, WellFormed f.1) → (∀ f ∈ l, TextDoc f.2) → TextDoc (.obj l)

mutual
/-- A decoder without ByteLevel. -/
def NoByteLevel : Decoder → Prop
  | .byteLevel => False
  | .seq l => NoByteLevelAll l
  | _ => True
def NoByteLevelAll : List Decoder → Prop
  | [] => True
  | d :: l => NoByteLevel d ∧ NoByteLevelAll l
end

mutual
/-- A decoder whose continuation prefix is well-formed, and without ByteLevel. -/
def TextDecoder : Decoder → Prop
  | .wordPiece pre _ => WellFormed pre
  | .byteLevel => False
  | .seq l => TextDecoders l
  | _ => True
def TextDecoders : List Decoder → Prop
  | [] => True
  | d :: l => TextDecoder d ∧ TextDecoders l
end

end Tok.Spec
