import Verif.Spec.Recognized
import Verif.Spec.Bert
import Verif.Spec.Clean
import Verif.Spec.WordPieceUnits
import Verif.Spec.PostProcessor
import Verif.Tokenizer

set_option autoImplicit false

/-!
The tokens of a text for a BERT tokenizer, from the text to the ids: cut at the added tokens, normalize the rest,
split it into words, cut the words greedily, and put the result into the template.
-/

namespace Tok.Spec

/-- The pieces of a text that has been cut, with a note of whether each is an added token. -/
def itemsOf (w : WStr) (cuts : List Cut) : List (WStr × Bool) := cuts.map fun c => (between w c.2.1 c.2.2, c.1.isSome)

/-- The pieces of a text after normalization, where `N` says what ordinary text is normalized to: added tokens matched
before normalization stay as they are; other text is normalized and cut at the added tokens matched afterwards.  When this
leaves nothing at all, the pieces of the text as it was before normalization are used. -/
def Items (a : AddedVocab) (N : WStr → WStr → Prop) (w : WStr) (items : List (WStr × Bool)) : Prop :=
  ∃ cuts groups, CutInto a a.nonNormTrie w cuts ∧
    Each (fun (c : Cut) g => match c.1 with
      | some _ => g = [(between w c.2.1 c.2.2, true)]
      | none => ∃ n cuts', N (between w c.2.1 c.2.2) n ∧ CutInto a a.normTrie n cuts' ∧ g = itemsOf n cuts') cuts groups ∧
    items = if groups.flatten = [] then itemsOf w cuts else groups.flatten

/-- The words of a list of pieces: an added token is one word, other text is split at white space and punctuation. -/
def bertWords (P : Platform) (items : List (WStr × Bool)) : List WStr :=
  items.flatMap fun x => if x.2 = true then [x.1] else (bertPieces P.reSpace P.rePunct x.1).map (·.2)

/-- What WordPiece makes of a word. -/
def WordTokens (m : WordPiece) (v : WStr) (ts : List Token) : Prop :=
  ∃ u, Utf16Text v u ∧ UnitsAnswer (tokenToId m.vocab) m.pre m.unkToken m.maxChars u ts

/-- The tokens of the text `w`. -/
def BertTokens (P : Platform) (clean cjk strip lower : Bool) (a : AddedVocab) (m : WordPiece) (w : WStr) (ts : List Token) :
    Prop :=
  ∃ items parts, Items a (fun x n => n = bertResult P clean cjk strip lower x) w items ∧
    Each (WordTokens m) (bertWords P items) parts ∧ ts = parts.flatten

/-- The entries of a template: those of the text where the template says "Sequence", those of the special token named
(the first one listed under the name) if special tokens are asked for. -/
def laidOut {α : Type} (single : List Piece) (specials : List SpecialToken) (add : Bool) (of : SpecialToken → List α)
    (text : List α) : List α :=
  single.flatMap fun p =>
    if p.kind = b!"Sequence" then text
    else if p.kind = b!"SpecialToken" ∧ add = true then
      match specials.find? fun t => t.id == p.id with
      | some t => of t
      | none => []
    else []

/-- Truncation, where configured, cuts off at the right end, and does end. -/
def CutsRight (t : Tokenizer) : Prop :=
  ∀ x, t.truncation = some x → x.direction = .right ∧ (x.strategy = .longestFirst ∨ x.strategy = .onlyFirst) ∧
    0 ≤ x.stride ∧ x.stride < x.maxLength

/-- What truncation at the right end leaves of the entries of a text. -/
def beginning {α : Type} (t : Tokenizer) (l : List α) : List α :=
  match t.truncation with
  | some x => l.take x.maxLength.toNat
  | none => l

end Tok.Spec
