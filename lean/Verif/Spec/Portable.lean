import Verif.Spec.Pruned

set_option autoImplicit false

/-!
Two platforms (compiler, C library, ICU version, locale) that agree on some characters.
-/

namespace Tok.Spec

/-- All characters of the text are in `C`. -/
def Over (C : Nat → Prop) (w : WStr) : Prop := ∀ c ∈ w, C c

/-- The pattern compiles on both platforms or on neither, and the matches are the same on the texts in `D`. -/
def FindAlike {α : Type} (D : α → Prop) : Option (α → List (Nat × Nat)) → Option (α → List (Nat × Nat)) → Prop
  | none, none => True
  | some f, some g => ∀ x, D x → f x = g x
  | _, _ => False

/-- The platforms agree on the characters in `C`, which are code points and include the space: on their classes, on what
they are in lower case, on the normal forms of texts of them, and on the matches of regular expressions in such texts.  Lower-casing and
the normal forms do not lead out of `C`. -/
structure AgreeOn (C : Nat → Prop) (P P' : Platform) : Prop where
  scalar : ∀ c, C c → Scalar c
  blank : C 0x20
  iswspace : ∀ c, C c → P.iswspace c = P'.iswspace c
  iswcntrl : ∀ c, C c → P.iswcntrl c = P'.iswcntrl c
  towlower : ∀ c, C c → P.towlower c = P'.towlower c ∧ C (P.towlower c)
  isNSM : ∀ c, C c → P.isNSM c = P'.isNSM c
  nf : ∀ k w, Over C w → P.nf k w = P'.nf k w ∧ Over C (P.nf k w)
  wregex : ∀ pattern, FindAlike (Over C) (P.wregex pattern) (P'.wregex pattern)
  regex : ∀ pattern, FindAlike (fun u => ∃ w, Over C w ∧ Utf16Text w u) (P.regex pattern) (P'.regex pattern)
  reSpace : ∀ c, C c → P.reSpace c = P'.reSpace c
  rePunct : ∀ c, C c → P.rePunct c = P'.rePunct c

mutual
/-- What Prepend and Replace put into the text is made of characters in `C`. -/
def InsertsOnly (C : Nat → Prop) : Normalizer → Prop
  | .prepend s => ∀ v, Utf8Text v s → Over C v
  | .replace _ s => ∀ v, Utf8Text v s → Over C v
  | .seq l => InsertOnly C l
  | _ => True
/-- The same for a list of normalizers. -/
def InsertOnly (C : Nat → Prop) : List Normalizer → Prop
  | [] => True
  | n :: l => InsertsOnly C n ∧ InsertOnly C l
end

mutual
/-- There is no ByteLevel pre-tokenizer. -/
def KeepsText : PreTokenizer → Prop
  | .byteLevel _ _ => False
  | .seq l => KeepText l
  | _ => True
/-- The same for a list of pre-tokenizers. -/
def KeepText : List PreTokenizer → Prop
  | [] => True
  | p :: l => KeepsText p ∧ KeepText l
end

mutual
/-- A ByteLevel pre-tokenizer comes last. -/
def BytesAtEnd : PreTokenizer → Prop
  | .seq l => BytesAtEndIn l
  | _ => True
/-- The same for a list of pre-tokenizers. -/
def BytesAtEndIn : List PreTokenizer → Prop
  | [] => True
  | p :: l => (l = [] ∧ BytesAtEnd p) ∨ (KeepsText p ∧ BytesAtEndIn l)
end

/-- Whether `char` is signed makes no difference: it is the same on both platforms, or all characters are ASCII, or there is no ByteLevel
pre-tokenizer. -/
def SignAlike (C : Nat → Prop) (P P' : Platform) (pt : Option PreTokenizer) : Prop :=
  P.charSigned = P'.charSigned ∨ (∀ c, C c → c < 0x80) ∨ ∀ p, pt = some p → KeepsText p

end Tok.Spec
