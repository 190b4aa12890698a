import Verif.Spec.Normalizer

set_option autoImplicit false

/-!
The text a normalizer makes of a text.
-/

namespace Tok.Spec

/-- The characters from `drop` are cut off at the left end, with `l`, and at the right end, with `r`, as many as possible. -/
def Trimmed (drop : Nat → Prop) (l r : Bool) (w w' : WStr) : Prop :=
  ∃ a b, w = a ++ w' ++ b ∧ (∀ c ∈ a ++ b, drop c) ∧ (l = false → a = []) ∧ (r = false → b = []) ∧
    (l = true → ∀ c, w'.head? = some c → ¬ drop c) ∧ (r = true → ∀ c, w'.getLast? = some c → ¬ drop c)

/-- BERT normalization: cleaning, spaces around ideographs, accent stripping (which lower-casing includes), lower-casing. -/
def BertNormalized (P : Platform) (clean cjk strip lower : Bool) (w w' : WStr) : Prop :=
  ∃ a b c, (if clean then Cleaned (Dropped P) (Blank P) w a else a = w) ∧ (if cjk then CjkPadded a b else b = a) ∧
    (if strip || lower then c = (P.nf .nfd (b.map sanitize)).filter (fun x => !P.isNSM x) else c = b) ∧
    w' = if lower then c.map P.towlower else c

mutual
/-- The normalizer makes `w'` of the text `w`. -/
inductive NormalizesTo (P : Platform) : Normalizer → WStr → WStr → Prop
  | bert {clean cjk strip lower : Bool} {w w' : WStr} : BertNormalized P clean cjk strip lower w w' →
      NormalizesTo P (.bert clean cjk strip lower) w w'
  | prepend {p : Str} {v w : WStr} : Utf8Text v p → NormalizesTo P (.prepend p) w (v ++ w)
  /-- Replace without a match -/
  | unmatched {pattern content : Str} {v w : WStr} {find : WStr → List (Nat × Nat)} : Utf8Text v pattern →
      P.wregex v = some find → find w = [] → NormalizesTo P (.replace pattern content) w w
  /-- Replace: the character each match starts with becomes the replacement, which is one character. -/
  | replaced {pattern content : Str} {c : Nat} {v w w' : WStr} {find : WStr → List (Nat × Nat)} : Utf8Text v pattern →
      P.wregex v = some find → find w ≠ [] → Utf8Text [c] content → w'.length = w.length →
      (∀ i, ((∃ m ∈ find w, m.1 = i) → w'[i]? = some c) ∧ ((¬ ∃ m ∈ find w, m.1 = i) → w'[i]? = w[i]?)) →
      NormalizesTo P (.replace pattern content) w w'
  /-- A Unicode normal form, where values that are no characters count as U+FFFD. -/
  | nf {k : NFKind} {w : WStr} : NormalizesTo P (.nf k) w (P.nf k (w.map sanitize))
  /-- Strip judges a character by its low byte. -/
  | strip {l r : Bool} {w w' : WStr} : Trimmed (fun c => WhiteSpace (c % 256)) l r w w' → NormalizesTo P (.strip l r) w w'
  | stripAccents {w w' : WStr} : Cleaned (fun c => 0x300 ≤ c ∧ c ≤ 0x36F) (fun _ => False) w w' →
      NormalizesTo P .stripAccents w w'
  | seq {l : List Normalizer} {w w' : WStr} : NormalizesAll P l w w' → NormalizesTo P (.seq l) w w'
/-- The normalizers one after the other make `w'` of the text `w`. -/
inductive NormalizesAll (P : Platform) : List Normalizer → WStr → WStr → Prop
  | nil {w : WStr} : NormalizesAll P [] w w
  | cons {n : Normalizer} {l : List Normalizer} {w w' w'' : WStr} : NormalizesTo P n w w' → NormalizesAll P l w' w'' →
      NormalizesAll P (n :: l) w w''
end

end Tok.Spec
