import Verif.Spec.Absent

set_option autoImplicit false

/-!
Which exceptions can leave a call, and for what reason.
-/

namespace Tok.Spec

/-- `k` is the normalizer `n` or one of the normalizers it is made of. -/
inductive NormStep : Normalizer → Normalizer → Prop
  | self (n : Normalizer) : NormStep n n
  | inside {l : List Normalizer} {n k : Normalizer} : n ∈ l → NormStep n k → NormStep (.seq l) k

/-- `k` is the pre-tokenizer `n` or one of the pre-tokenizers it is made of. -/
inductive PreStep : PreTokenizer → PreTokenizer → Prop
  | self (n : PreTokenizer) : PreStep n n
  | inside {l : List PreTokenizer} {n k : PreTokenizer} : n ∈ l → PreStep n k → PreStep (.seq l) k

/-- The bytes are not well-formed UTF-8. -/
def IllFormed (s : Str) : Prop := ¬ ∃ w, Utf8Text w s

/-- The platform's normal form `k` turns some Unicode text into something that is not Unicode text. -/
def BadForm (P : Platform) (k : NFKind) : Prop := ∃ v : WStr, (∀ c ∈ v, Scalar c) ∧ ∃ c ∈ P.nf k v, ¬ Scalar c

/-- A normalization step that can leave something that is not Unicode text: a configured string that is not UTF-8, or
platform functions (normal forms, `towlower`) that give values that are not code points. -/
def Spoils (P : Platform) : Normalizer → Prop
  | .bert _ _ strip lower => ((strip = true ∨ lower = true) ∧ BadForm P .nfd) ∨ (lower = true ∧ ∃ c, Scalar c ∧ ¬ Scalar (P.towlower c))
  | .prepend s => IllFormed s
  | .replace p c => IllFormed p ∨ IllFormed c
  | .nf k => BadForm P k
  | _ => False

/-- A text in which the positions of a token (counted in UTF-16 units) can be mistaken for positions outside the text: it has a
code point above U+FFFF, or it is not ASCII and there is an added token with `rstrip`. -/
def Misleads (a : AddedVocab) (w : WStr) : Prop :=
  (∃ c ∈ w, 0x10000 ≤ c) ∨ ((∃ c ∈ w, 0x80 ≤ c) ∧ ∃ i x, mapFind a.mapR i = some x ∧ x.rstrip = true)

/-- What must be the case for `encode` to throw the exception on the text `w`. -/
def EncodeThrows (P : Platform) (t : Tokenizer) (w : WStr) : Exn → Prop
  | .rangeError => (∃ c ∈ w, ¬ Scalar c) ∨
      t.added ≠ none ∧ ∃ n k, t.normalizer = some n ∧ NormStep n k ∧ Spoils P k
  | .regexError => t.added ≠ none ∧ ∃ n p c v, t.normalizer = some n ∧ NormStep n (.replace p c) ∧ Utf8Text v p ∧ P.wregex v = none
  | .lengthError => ∃ p, t.padding = some p ∧ p.strategy = .fixed ∧ p.fixedSize < 0 ∧ p.direction ≠ .unknown
  | .outOfRange =>
      (∃ n a u, t.preTokenizer = some n ∧ PreStep n (.byteLevel a u) ∧ (P.charSigned = true ∨ a = true ∧ w = [])) ∨
      (∃ a, t.added = some a ∧ (a.nonNormTrie ≠ [] ∧ Misleads a w ∨
        a.normTrie ≠ [] ∧ ∃ p y q n, w = p ++ y ++ q ∧ Normalizes P t.normalizer y n ∧ Misleads a n))
  | _ => False

end Tok.Spec
