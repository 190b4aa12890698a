import Verif.Config
import Verif.Jni
import Verif.Cli

set_option autoImplicit false

/-
A process that uses the Java interface: `android/tokenizers_android/src/main/java/xyz/omkar/tokenizers/Tokenizer.java`
(the class) on top of `tokenizers_android_jni.cpp` (the native functions), with any number of tokenizers.
The native objects live on the C++ heap: `new` without a matching `delete` anywhere in the repository.
-/

namespace Tok

/-- The state of the process: the native tokenizers, in the order of their creation (the position stands for the
address), and which of them still belong to a reachable Java object. -/
structure JProcess where
  native : List Tokenizer := []
  alive : List Nat := []

/-- What the program does: `new Tokenizer(config)`, `encode`, `decode` (`Tokenizer.java:7-17`), and letting go of a Java
object, which the garbage collector then takes away (there is no `close`, finalizer or cleaner). -/
inductive JCall
  | new (config : U16)
  | encode (obj : Nat) (text : U16) (addSpecial : Bool)
  | decode (obj : Nat) (ids : List Int) (skip : Bool)
  | collect (obj : Nat)

/-- What the program sees. -/
inductive JReply
  | object (obj : Nat)
  | ids (l : List Int)
  | text (s : U16)
  | done
  deriving DecidableEq, Repr

/-- `tokenizers_android_jni.cpp:9-15` with `tokenizer.cpp:24-34`: the empty path and the configuration go to the
constructor; `read` is what simdjson makes of the bytes. -/
def javaSource (read : Str → Source) (config : U16) : Source :=
  if javaConfig config = [] then .bothEmpty else read (javaConfig config)

/-- One call.  There is no `try` in the native functions, so a C++ exception leaves an `extern "C"` function called by
the virtual machine: the process is terminated, like with undefined behaviour there is no next state.
`Tokenizer.java:5-9` stores the address in a private final field, so a call always gets the address of a native object that
exists. -/
def JProcess.call (P : Platform) (read : Str → Source) (p : JProcess) : JCall → Res (JReply × JProcess)
  | .new config => do
    let t ← Tokenizer.make P (javaSource read config)
    return (.object p.native.length,
      { native := p.native ++ [t], alive := p.native.length :: p.alive })
  | .encode obj text addSpecial => do
    let t ← vecAt p.native obj
    let r := t.encodeJava P text addSpecial
    let ids ← r.1
    return (.ids ids, { p with native := p.native.set obj r.2 })
  | .decode obj ids skip => do
    let t ← vecAt p.native obj
    return (.text (← t.decodeJava ids skip), p)
  | .collect obj => return (.done, { p with alive := p.alive.filter (· ≠ obj) })

/-- A session: the replies so far and the state, or how it ended. -/
def JProcess.session (P : Platform) (read : Str → Source) : JProcess → List JCall → Res (List JReply × JProcess)
  | p, [] => .ok ([], p)
  | p, c :: cs => do
    let (r, p) ← p.call P read c
    let (rs, p) ← p.session P read cs
    return (r :: rs, p)

/-- Kotlin's `List<Int>.toString()`: decimal numbers separated by a comma and a space, in brackets.  (All characters are
ASCII, so the bytes are the UTF-16 units.) -/
def kotlinList : List Int → U16
  | [] => b!"[]"
  | i :: r => b!"[" ++ decimal i ++ r.flatMap (fun j => b!", " ++ decimal j) ++ b!"]"

/-- `MainActivity.kt:36-40`: the button.  The text is encoded with special tokens, the ids are decoded with special tokens,
and both are shown. -/
def JProcess.click (P : Platform) (p : JProcess) (obj : Nat) (text : U16) : Res (U16 × JProcess) := do
  let t ← vecAt p.native obj
  let r := t.encodeJava P text true
  let ids ← r.1
  let p := { p with native := p.native.set obj r.2 }
  let t ← vecAt p.native obj
  let decoded ← t.decodeJava ids false
  return (b!"Encoded: " ++ kotlinList ids ++ b!"\nDecoded: " ++ decoded, p)

/-- The clicks one after the other, with what is shown after each. -/
def JProcess.clicks (P : Platform) : JProcess → Nat → List U16 → Res (List U16)
  | _, _, [] => .ok []
  | p, obj, x :: xs => do
    let (out, p) ← p.click P obj x
    let outs ← p.clicks P obj xs
    return out :: outs

/-- `MainActivity.kt:21-47`: the demonstration app; `config` is what `getTokenizerConfig` reads from the assets. -/
def demoApp (P : Platform) (read : Str → Source) (config : U16) (inputs : List U16) : Res (List U16) := do
  let (_, p) ← ({} : JProcess).call P read (.new config)
  p.clicks P 0 inputs

end Tok
