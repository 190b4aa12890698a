import Verif.Java
import Verif.Spec.Cli

set_option autoImplicit false

/-!
Sessions of the Java interface.
-/

namespace Tok.Spec

/-- The configurations of the tokenizers created, in this order. -/
def created : List JCall → List U16
  | [] => []
  | .new config :: cs => config :: created cs
  | _ :: cs => created cs

/-- The objects let go. -/
def dropped : List JCall → List Nat
  | [] => []
  | .collect obj :: cs => obj :: dropped cs
  | _ :: cs => dropped cs

/-- What a process replies that creates one tokenizer and makes one call on it. -/
def alone (P : Platform) (read : Str → Source) (config : U16) (call : Nat → JCall) : Res JReply := do
  let (_, p) ← ({} : JProcess).call P read (.new config)
  let (r, _) ← p.call P read (call 0)
  return r

/-- What the demonstration app shows for one input, with a new tokenizer: the ids in decimal, separated by a comma and a
space, in brackets, and the decoded text in the next line. -/
def shown (P : Platform) (t : Tokenizer) (text : U16) : Res U16 := do
  let ids ← (t.encodeJava P text true).1
  let decoded ← t.decodeJava ids false
  return b!"Encoded: [" ++ commaSeparated (ids.map decimal) ++ b!"]\nDecoded: " ++ decoded

end Tok.Spec
