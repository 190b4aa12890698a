import Verif.Spec.AnyText
import Verif.Spec.Located
import Verif.Spec.Traced

set_option autoImplicit false

/-!
Where the words of a text are: like the words themselves (Spec/Pipeline.lean, Spec/AnyText.lean), with the position of each in
the text that is being pre-tokenized, counted in UTF-16 units.
-/

namespace Tok.Spec

/-- A piece, whether it is an added token, and its position. -/
abbrev PlacedPiece := (WStr × Bool) × Nat

/-- The pieces of a text that starts at position `e`. -/
def piecesAt (w : WStr) (e : Nat) (cuts : List Cut) : List PlacedPiece :=
  cuts.map fun c => ((textAt w c.2.1 c.2.2, c.1.isSome), e + c.2.1)

/-- The pieces of a text after normalization.  Positions count on from piece to piece: by the number of *bytes* of an added token,
and by the number of code points of normalized text. -/
inductive PieceGroups (a : AddedVocab) (N : WStr → WStr → Prop) (w : WStr) : Nat → List Cut → List (List PlacedPiece) → Prop
  | nil {e : Nat} : PieceGroups a N w e [] []
  | token {e x y : Nat} {i : Int} {s : Str} {cuts : List Cut} {gs : List (List PlacedPiece)} : Utf8Text (textAt w x y) s →
      PieceGroups a N w (e + s.length) cuts gs →
      PieceGroups a N w e ((some i, (x, y)) :: cuts) ([((textAt w x y, true), e)] :: gs)
  | text {e x y : Nat} {n : WStr} {cuts' cuts : List Cut} {gs : List (List PlacedPiece)} : N (textAt w x y) n → CutUp a a.normTrie n cuts' →
      PieceGroups a N w (e + n.length) cuts gs →
      PieceGroups a N w e ((none, (x, y)) :: cuts) (piecesAt n e cuts' :: gs)

/-- As `AnyItems`, with positions. -/
def PlacedItems (a : AddedVocab) (N : WStr → WStr → Prop) (w : WStr) (items : List PlacedPiece) : Prop :=
  ∃ cuts groups, CutUp a a.nonNormTrie w cuts ∧ PieceGroups a N w 0 cuts groups ∧
    items = if groups.flatten = [] then piecesAt w 0 cuts else groups.flatten

/-- As `CutsAt`, with positions. -/
inductive CutsWith (keep : Bool) : Nat → List (Nat × Nat) → WStr → List (Nat × WStr) → Prop
  | done {pos : Nat} : CutsWith keep pos [] [] []
  | rest {pos : Nat} {w : WStr} : w ≠ [] → CutsWith keep pos [] w [(pos, w)]
  | gap {pos a b : Nat} {ms : List (Nat × Nat)} {g w : WStr} {l : List (Nat × WStr)} : g ≠ [] → a = pos + units g →
      CutsWith keep a ((a, b) :: ms) w l → CutsWith keep pos ((a, b) :: ms) (g ++ w) ((pos, g) :: l)
  | here {a b : Nat} {ms : List (Nat × Nat)} {m w : WStr} {l : List (Nat × WStr)} : b = a + units m →
      CutsWith keep b ms w l → CutsWith keep a ((a, b) :: ms) (m ++ w) (if keep then (a, m) :: l else l)

/-- The text `w` cut at the matches of the regex `pattern`, with positions. -/
def RegexPieces (P : Platform) (keep : Bool) (pattern : Str) (w : WStr) (l : List (Nat × WStr)) : Prop :=
  ∃ find u, P.regex pattern = some find ∧ Utf16Text w u ∧ CutsWith keep 0 (find u) w l

/-- Each piece that is no added token is cut as `R` says. -/
def CutPieces (R : WStr → List (Nat × WStr) → Prop) (items items' : List PlacedPiece) : Prop :=
  ∃ groups, Each (fun (x : PlacedPiece) g => if x.1.2 = true then g = [x] else ∃ l, R x.1.1 l ∧ g = l.map fun v => ((v.2, false), x.2 + v.1))
    items groups ∧ items' = groups.flatten

/-- A text in the middle of pre-tokenization, the number of spaces that were put in front of it, and its pieces. -/
abbrev PlacedStage := (WStr × Nat) × List PlacedPiece

/-- As `PrefixSpace`, with positions. -/
inductive PrefixPlaced (P : Platform) : Bool → PlacedStage → PlacedStage → Prop
  | off {s : PlacedStage} : PrefixPlaced P false s s
  | blank {c k : Nat} {w : WStr} {l : List PlacedPiece} : P.iswspace c = true → PrefixPlaced P true ((c :: w, k), l) ((c :: w, k), l)
  | added {c k : Nat} {w : WStr} {l : List PlacedPiece} : P.iswspace c = false →
      PrefixPlaced P true ((c :: w, k), l) ((0x20 :: c :: w, k + 1), [((0x20 :: c :: w, false), 0)])

mutual
/-- As `PreTokenizes`, with positions. -/
inductive PrePlaces (P : Platform) : PreTokenizer → PlacedStage → PlacedStage → Prop
  | bert {w : WStr × Nat} {l l' : List PlacedPiece} :
      CutPieces (fun v vs => vs = bertPieces P.reSpace P.rePunct v) l l' → PrePlaces P .bert (w, l) (w, l')
  | split {pattern : Str} {behavior : Behavior} {invert : Bool} {w : WStr × Nat} {l l' : List PlacedPiece} :
      CutPieces (RegexPieces P (behavior == .isolated) pattern) l l' → PrePlaces P (.split pattern behavior invert) (w, l) (w, l')
  | byteLevel {addPrefixSpace useRegex : Bool} {w w' : WStr × Nat} {l l0 l1 l' : List PlacedPiece} :
      PrefixPlaced P addPrefixSpace (w, l) (w', l0) →
      CutPieces (fun v vs => if useRegex = true then RegexPieces P true byteLevelPattern v vs else vs = [(0, v)]) l0 l1 →
      Each (fun (x y : PlacedPiece) => InBytes x.1.1 y.1.1 ∧ y.1.2 = x.1.2 ∧ y.2 = x.2) l1 l' →
      PrePlaces P (.byteLevel addPrefixSpace useRegex) (w, l) (w', l')
  | seq {ts : List PreTokenizer} {s s' : PlacedStage} : PrePlacesAll P ts s s' → PrePlaces P (.seq ts) s s'
/-- As `PreTokenizesAll`, with positions. -/
inductive PrePlacesAll (P : Platform) : List PreTokenizer → PlacedStage → PlacedStage → Prop
  | nil {s : PlacedStage} : PrePlacesAll P [] s s
  | cons {t : PreTokenizer} {ts : List PreTokenizer} {s s' s'' : PlacedStage} : PrePlaces P t s s' →
      PrePlacesAll P ts s' s'' → PrePlacesAll P (t :: ts) s s''
end

/-- The pieces the pre-tokenizer starts with. -/
def PlacedFirst (P : Platform) (t : Tokenizer) (w : WStr) (items : List PlacedPiece) : Prop :=
  match t.added with
  | some a => PlacedItems a (Normalizes P t.normalizer) w items
  | none => items = [((w, false), 0)]

/-- The words given to the model and their positions, in a text with `k` spaces put in front. -/
def PlacedWords (P : Platform) (t : Tokenizer) (w : WStr) (k : Nat) (words : List (WStr × Nat)) : Prop :=
  ∃ items w' items', PlacedFirst P t w items ∧ words = items'.map (fun x => (x.1.1, x.2)) ∧
    match t.preTokenizer with
    | some x => PrePlaces P x ((w, 0), items) ((w', k), items')
    | none => items' = items ∧ k = 0

/-- For each character of `w` after each was changed by `g`: the number of the character it comes from, counted from `i`. -/
def changedFrom (g : Nat → WStr) : Nat → WStr → List Nat
  | _, [] => []
  | i, c :: w => (g c).map (fun _ => i) ++ changedFrom g (i + 1) w

/-- The same for a text made of pieces, of which the added tokens stay as they are. -/
def piecesFrom (g : Nat → WStr) : Nat → List (WStr × Bool) → List Nat
  | _, [] => []
  | i, (v, true) :: r => changedFrom (fun c => [c]) i v ++ piecesFrom g (i + v.length) r
  | i, (v, false) :: r => changedFrom g i v ++ piecesFrom g (i + v.length) r

/-- Where the positions of the text being pre-tokenized come from in the text `w` that was given to `encode`.  Without added
vocabulary there is no normalization; with one, without normalizer or with a BERT normalizer, `w` has to be a text that extraction
is right for. -/
def Origins (P : Platform) (t : Tokenizer) (w : WStr) (origin : List Nat) : Prop :=
  match t.added with
  | none => (∀ c ∈ w, Scalar c) ∧ origin = List.range (units w)
  | some a =>
    match t.normalizer with
    | none => Cuttable a w ∧ (∀ p ∈ a.nonNormTrie, Ascii p.1) ∧ origin = List.range w.length
    | some (.bert clean cjk strip lower) => BertText P clean cjk strip lower a w ∧
        ∃ cuts, CutUp a a.nonNormTrie w cuts ∧ origin = piecesFrom (bertChar P clean cjk lower) 0 (itemsAt w cuts)
    | some _ => False

end Tok.Spec
