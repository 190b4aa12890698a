import Verif.Tokenizer
import Verif.Spec.PostProcessor

set_option autoImplicit false

/-!
Specification vocabulary for whole encodings: an encoding read row by row, and where a row may
come from.
-/

namespace Tok.Spec

/-- One position of an encoding. -/
structure Row where
  id : Int
  typeId : Int
  token : Str
  word : Option Int
  offsets : Int × Int
  special : Int
  attention : Int

/-- The vectors of `e`, read position by position, are `rows`. -/
def HasRows (e : Enc) (rows : List Row) : Prop :=
  e.ids = rows.map (·.id) ∧ e.typeIds = rows.map (·.typeId) ∧ e.tokens = rows.map (·.token) ∧
  e.words = rows.map (·.word) ∧ e.offsets = rows.map (·.offsets) ∧
  e.specialTokensMask = rows.map (·.special) ∧ e.attentionMask = rows.map (·.attention)

/-- The pre-tokenized text of `w` with the tokens the model gave to each pre-token. -/
def TokenizedInto (P : Platform) (t : Tokenizer) (w : WStr) (q : PTS) : Prop :=
  ∃ p, (t.preTokenized P w).1 = .ok p ∧
    match t.model with
    | none => q = p
    | some m => (m.tokenize P p).1 = .ok q

/-- The row of a token of pre-token number `k`, whose text starts at position `start` of the
input. -/
def textRow (k start : Nat) (t : Token) : Row :=
  { id := t.id, typeId := 0, token := t.value, word := some k,
    offsets := ((start : Int) + t.offsets.1, (start : Int) + t.offsets.2), special := 0, attention := 1 }

/-- The rows of the pre-tokens from number `k` on; the start of a pre-token is looked up in the
table of original positions. -/
inductive TextRows (ns : NS) : Nat → List Split → List Row → Prop
  | nil (k : Nat) : TextRows ns k [] []
  | cons {k : Nat} {s : Split} {l : List Split} {rows : List Row} {g o : Nat × Nat} :
      ns.ranges[s.offsets.1]? = some g → ns.offsets[g.1]? = some o → TextRows ns (k + 1) l rows →
      TextRows ns k (s :: l) (s.tokens.map (textRow k o.1) ++ rows)

mutual
/-- The special tokens listed by the templates of a post-processor. -/
def specialsOf : PostProcessor → List SpecialToken
  | .template _ _ s => s
  | .byteLevel _ _ => []
  | .seq l => specialsOfList l
def specialsOfList : List PostProcessor → List SpecialToken
  | [] => []
  | p :: r => specialsOf p ++ specialsOfList r
end

mutual
/-- The single-sequence template of every template processor names the sequence at most once. -/
def SequenceOnce : PostProcessor → Prop
  | .template s _ _ => (s.filter fun p => p.kind = b!"Sequence").length ≤ 1
  | .byteLevel _ _ => True
  | .seq l => SequenceOnceList l
def SequenceOnceList : List PostProcessor → Prop
  | [] => True
  | p :: r => SequenceOnce p ∧ SequenceOnceList r
end

/-- The special tokens a tokenizer may add. -/
def Specials (t : Tokenizer) : List SpecialToken := (t.postProcessor.map specialsOf).getD []

mutual
/-- Some ByteLevel post-processor trims offsets. -/
def Trims : PostProcessor → Prop
  | .template _ _ _ => False
  | .byteLevel _ trim => trim = true
  | .seq l => TrimsList l
def TrimsList : List PostProcessor → Prop
  | [] => False
  | p :: r => Trims p ∨ TrimsList r
end

/-- `r` is the row `r0` of a token of the text: only the type id may differ and, if offsets are
trimmed, the offsets may have been narrowed. -/
def RowOf (trims : Prop) (r0 r : Row) : Prop :=
  r.id = r0.id ∧ r.token = r0.token ∧ r.word = r0.word ∧ r.special = r0.special ∧ r.attention = r0.attention ∧
  Narrowed r0.offsets r.offsets ∧ (¬ trims → r.offsets = r0.offsets)

/-- Where a row of an encoding may come from: a token of the text (one of the rows `text`), a
special token of a template, or padding. -/
inductive RowKind (trims : Prop) (text : List Row) (specials : List SpecialToken) (pad : Option Padding) : Row → Prop
  | content {r : Row} (r0 : Row) : r0 ∈ text → RowOf trims r0 r → r.special = 0 → r.attention = 1 →
      RowKind trims text specials pad r
  | special {r : Row} (s : SpecialToken) (j : Nat) : s ∈ specials → s.ids[j]? = some r.id → s.tokens[j]? = some r.token →
      r.word = none → r.offsets = (0, 0) → r.special = 1 → r.attention = 1 → RowKind trims text specials pad r
  | padding {r : Row} (p : Padding) : pad = some p → r.id = p.padId → r.token = p.padToken → r.typeId = p.padTypeId →
      r.offsets = (0, 0) → r.special = 1 → r.attention = 0 → RowKind trims text specials pad r

/-- The rows that are tokens of the text. -/
def contentRows (rows : List Row) : List Row := rows.filter fun r => r.special = 0

/-- The rows `rows` hold the tokens of a contiguous part of the text, in order. -/
def HoldsPart (trims : Prop) (text rows : List Row) : Prop :=
  ∃ part, part <:+: text ∧ Each (RowOf trims) part (contentRows rows)

/-- How many entries one piece of a template stands for, when the sequence has `n` entries. -/
def pieceLength (specials : List SpecialToken) (add : Bool) (n : Nat) (p : Piece) : Nat :=
  if p.kind = b!"Sequence" then n
  else if p.kind = b!"SpecialToken" ∧ add = true then
    match specials.find? fun t => t.id == p.id with
    | some t => t.ids.length
    | none => 0
  else 0

mutual
/-- How many entries post-processing makes of `n` entries. -/
def lengthAfter (add : Bool) : PostProcessor → Nat → Nat
  | .template single _ specials, n => (single.map (pieceLength specials add n)).sum
  | .byteLevel _ _, n => n
  | .seq l, n => lengthAfterList add l n
def lengthAfterList (add : Bool) : List PostProcessor → Nat → Nat
  | [], n => n
  | p :: r, n => lengthAfterList add r (lengthAfter add p n)
end

end Tok.Spec
