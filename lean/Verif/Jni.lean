import Verif.Tokenizer

set_option autoImplicit false

/-
The Java interface, `android/tokenizers_android/src/main/cpp/tokenizers_android_jni.cpp`.
Java strings are sequences of UTF-16 units.  `GetStringUTFChars` and `NewStringUTF` use the
*modified* UTF-8 of the Java Native Interface: a unit is written on its own (so a supplementary
character takes two times three bytes), and the unit 0 is written `C0 80`.
-/

namespace Tok

/-- Modified UTF-8 of one UTF-16 unit. -/
def mutf8Enc1 (u : Nat) : Str :=
  if u = 0 then [0xC0, 0x80]
  else if u < 0x80 then [u]
  else if u < 0x800 then [0xC0 + u / 64, 0x80 + u % 64]
  else [0xE0 + u / 4096, 0x80 + u / 64 % 64, 0x80 + u % 64]

/-- `tokenizers_android_jni.cpp:11-12`: `GetStringUTFChars`, then `std::string(const char*)`; the
result never contains a NUL byte, so it is the argument of the constructor. -/
def javaConfig (s : U16) : Str := s.flatMap mutf8Enc1

/-- One unit of modified UTF-8. -/
def mutf8Step : Str → Option (Nat × Nat)
  | [] => none
  | b0 :: r =>
    if b0 = 0 then none
    else if b0 < 0x80 then some (b0, 1)
    else if b0 < 0xC0 then none
    else if b0 < 0xE0 then
      match r with
      | b1 :: _ =>
        let c := (b0 - 0xC0) * 64 + (b1 - 0x80)
        if isCont b1 && (decide (0x80 ≤ c) || decide (c = 0)) then some (c, 2) else none
      | _ => none
    else if b0 < 0xF0 then
      match r with
      | b1 :: b2 :: _ =>
        let c := (b0 - 0xE0) * 4096 + (b1 - 0x80) * 64 + (b2 - 0x80)
        if isCont b1 && isCont b2 && decide (0x800 ≤ c) then some (c, 3) else none
      | _ => none
    else none

/-- Units of modified UTF-8 bytes; fuel = number of bytes. -/
def mutf8DecFuel : Nat → Str → Option U16
  | _, [] => some []
  | 0, _ :: _ => none
  | n + 1, s@(_ :: _) =>
    match mutf8Step s with
    | none => none
    | some (c, k) => (mutf8DecFuel n (s.drop k)).map (c :: ·)

/-- `NewStringUTF(const char*)`: reads up to the first NUL; the behaviour is undefined when the bytes
are not modified UTF-8. -/
def newStringUTF (s : Str) : Res U16 :=
  let t := s.takeWhile (· ≠ 0)
  match mutf8DecFuel t.length t with
  | some u => .ok u
  | none => .error (.ub .badString)

/-- `tokenizers_android_jni.cpp:32-42` `decode`. -/
def Tokenizer.decodeJava (t : Tokenizer) (ids : List Int) (skip : Bool) : Res U16 := do
  newStringUTF (← t.decode ids skip)

end Tok
