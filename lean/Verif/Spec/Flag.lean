import Verif.Spec.Rows

set_option autoImplicit false

/-!
What the flag `add_special_tokens` decides.
-/

namespace Tok.Spec

mutual
/-- The templates and ByteLevel steps of a post-processor, in the order in which they are applied. -/
def steps : PostProcessor → List PostProcessor
  | .seq l => stepsOf l
  | .template s p t => [.template s p t]
  | .byteLevel a t => [.byteLevel a t]
def stepsOf : List PostProcessor → List PostProcessor
  | [] => []
  | p :: r => steps p ++ stepsOf r
end

/-- The step is a template. -/
def IsTemplate : PostProcessor → Prop
  | .template _ _ _ => True
  | _ => False

/-- The step trims offsets and spares the first token of the encoding. -/
def SparesFirst : PostProcessor → Prop
  | .byteLevel true true => True
  | _ => False

/-- No step that spares the first token comes behind a template, which might put something in front of that token. -/
def TrimsFirst (pp : PostProcessor) : Prop := (steps pp).Pairwise fun a b => IsTemplate a → ¬ SparesFirst b

/-- A row but for its offsets. -/
def placeless (r : Row) : Row := { r with offsets := (0, 0) }

end Tok.Spec
