import Verif.Spec.Pipeline

set_option autoImplicit false

/-!
All vectors of an encoding and of its overflow windows, row by row, for any configuration.
-/

namespace Tok.Spec

/-- The rows of the words from number `k` on: for each word the position of the input where it starts, and its tokens. -/
def wordRows : Nat → List (Nat × List Token) → List Row
  | _, [] => []
  | k, (start, ts) :: r => ts.map (textRow k start) ++ wordRows (k + 1) r

/-- The windows into which truncation cuts `n` rows; the first is the main one. -/
def Windows (t : Option Truncation) (n : Nat) (ws : List (Nat × Nat)) : Prop :=
  match t with
  | none => ws = [(0, n)]
  | some x =>
    if LeftAsIs x n then ws = [(0, n)]
    else match x.direction with
      | .right =>
        (x.stride < x.maxLength ∧ WindowsFrom n x.maxLength.toNat (x.maxLength - x.stride).toNat 0 ws) ∨
        (x.maxLength < x.stride ∧ ws = [(0, x.maxLength.toNat)])
      | .left => x.stride < x.maxLength - 1 ∧ WindowsTo x.maxLength.toNat (x.maxLength - x.stride - 1).toNat n ws
      | .unknown => False

/-- The rows of a special token. -/
def specialRows (t : SpecialToken) (typeId : Int) : List Row :=
  List.zipWith (fun i s => { id := i, typeId := typeId, token := s, word := none, offsets := (0, 0), special := 1, attention := 1 }) t.ids t.tokens

/-- What a template makes of the rows of a text.  A sequence named "A" gives the text the type id of the piece, and the text keeps
it where the sequence is named otherwise later on. -/
def templateRows (specials : List SpecialToken) (add : Bool) : List Piece → List Row → List Row
  | [], _ => []
  | p :: ps, text =>
    if p.kind = b!"Sequence" then
      let text' := if p.id = b!"A" then text.map fun r => { r with typeId := p.typeId } else text
      text' ++ templateRows specials add ps text'
    else if p.kind = b!"SpecialToken" ∧ add = true then
      (match specials.find? fun t => t.id == p.id with
        | some t => specialRows t p.typeId
        | none => []) ++ templateRows specials add ps text
    else templateRows specials add ps text

/-- The offsets `o` of the token with the text `v` after trimming: they do not count the space signs at the ends of the token,
except that one sign at the start of the first token, or of one at position 0, is not trimmed with `add_prefix_space`, and
that nothing is trimmed at the end if there are more signs than positions in front of the end. -/
def trimmedOffsets (addPrefixSpace first : Bool) (v : WStr) (o : Int × Int) : Int × Int :=
  let lead := (v.takeWhile (· == spaceSign)).length
  let trail := (v.reverse.takeWhile (· == spaceSign)).length
  let keep : Bool := (first || o.1 == 0) && addPrefixSpace && lead == 1
  let start := if lead = 0 then o.1 else min (if keep then o.1 else o.1 + lead) o.2
  (start, if 0 < trail ∧ (trail : Int) ≤ o.2 then max (o.2 - trail) start else o.2)

/-- Trimming changes nothing but offsets, and those as said if the token is text. -/
def TrimmedRows (addPrefixSpace : Bool) (rows rows' : List Row) : Prop :=
  rows'.length = rows.length ∧ ∀ (i : Nat) (r : Row), rows[i]? = some r → ∃ o, rows'[i]? = some { r with offsets := o } ∧
    ∀ v, Utf8Text v r.token → o = trimmedOffsets addPrefixSpace (i == 0) v r.offsets

mutual
/-- What a post-processor makes of the windows. -/
inductive Processes (add : Bool) : PostProcessor → List (List Row) → List (List Row) → Prop
  /-- A template takes the main window and drops the others. -/
  | template {single pair : List Piece} {specials : List SpecialToken} {main : List Row} {rest : List (List Row)} :
      Processes add (.template single pair specials) (main :: rest) [templateRows specials add single main]
  | untrimmed {a : Bool} {ws : List (List Row)} : Processes add (.byteLevel a false) ws ws
  | trimmed {a : Bool} {ws ws' : List (List Row)} : Each (TrimmedRows a) ws ws' → Processes add (.byteLevel a true) ws ws'
  | seq {ps : List PostProcessor} {ws ws' : List (List Row)} : ProcessesAll add ps ws ws' → Processes add (.seq ps) ws ws'
/-- What a list of post-processors makes of the windows, from left to right. -/
inductive ProcessesAll (add : Bool) : List PostProcessor → List (List Row) → List (List Row) → Prop
  | nil {ws : List (List Row)} : ProcessesAll add [] ws ws
  | cons {p : PostProcessor} {ps : List PostProcessor} {ws ws' ws'' : List (List Row)} : Processes add p ws ws' →
      ProcessesAll add ps ws' ws'' → ProcessesAll add (p :: ps) ws ws''
end

/-- Without a post-processor the windows stay. -/
def PostProcessed (pp : Option PostProcessor) (add : Bool) (ws ws' : List (List Row)) : Prop :=
  match pp with
  | some p => Processes add p ws ws'
  | none => ws' = ws

/-- The row of a padding entry. -/
def fillerRow (p : Padding) : Row :=
  { id := p.padId, typeId := p.padTypeId, token := p.padToken, word := some 0, offsets := (0, 0), special := 1, attention := 0 }

/-- A window padded to `size` rows. -/
def paddedTo (p : Padding) (size : Nat) (rows : List Row) : List Row :=
  match p.direction with
  | .left => List.replicate (size - rows.length) (fillerRow p) ++ rows
  | .right => rows ++ List.replicate (size - rows.length) (fillerRow p)
  | .unknown => rows

/-- Padding: every window, to the same size, which depends on the main window. -/
def PaddedAll (pad : Option Padding) (ws ws' : List (List Row)) : Prop :=
  match pad with
  | none => ws' = ws
  | some p => ∃ size, RoundedUp (if p.strategy = .fixed then p.fixedSize.toNat else (ws.headD []).length) p.padToMultipleOf size ∧
      ws' = ws.map (paddedTo p size)

/-- From the rows of the text to the windows of the result. -/
def Finished (t : Tokenizer) (add : Bool) (text : List Row) (out : List (List Row)) : Prop :=
  ∃ ws out', Windows t.truncation text.length ws ∧ PostProcessed t.postProcessor add (ws.map (part text)) out' ∧
    PaddedAll t.padding out' out

end Tok.Spec
