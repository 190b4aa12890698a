import Verif.Spec.Split

set_option autoImplicit false

/-!
Specification of WordPiece: greedy longest-match-first segmentation of a word into
vocabulary entries.  `V` is the vocabulary (the API `token_to_id`), `pre` the
continuation prefix.
-/

namespace Tok.Spec

/-- `key` is the vocabulary key for the piece `v`: its UTF-8 text, preceded by the
continuation prefix unless it is the first piece of the word. -/
def PieceKey (pre : Str) (first : Bool) (v : WStr) (key : Str) : Prop :=
  ∃ s, Utf8Text v s ∧ key = if first then s else pre ++ s

/-- No non-empty beginning of `w` is a vocabulary entry. -/
def NoPiece (V : Str → Option Int) (pre : Str) (first : Bool) (w : WStr) : Prop :=
  ∀ v r key, w = v ++ r → v ≠ [] → PieceKey pre first v key → V key = none

/-- `v` is the longest non-empty beginning of `v ++ r` that is a vocabulary entry; `key`
is its key and `id` its id. -/
structure Longest (V : Str → Option Int) (pre : Str) (first : Bool) (v r : WStr) (key : Str) (id : Int) :
    Prop where
  nonempty : v ≠ []
  key_of : PieceKey pre first v key
  known : V key = some id
  longest : ∀ v' r' key', v ++ r = v' ++ r' → v.length < v'.length → PieceKey pre first v' key' →
    V key' = none

/-- `Greedy V pre first pos w ts`: cutting `w` greedily gives the tokens `ts`, the first
of which starts at position `pos` (in UTF-16 units). -/
inductive Greedy (V : Str → Option Int) (pre : Str) : Bool → Nat → WStr → List Token → Prop
  | done {first : Bool} {pos : Nat} : Greedy V pre first pos [] []
  | take {first : Bool} {pos : Nat} {v r : WStr} {key : Str} {id : Int} {ts : List Token} :
      Longest V pre first v r key id → Greedy V pre false (pos + units v) r ts →
      Greedy V pre first pos (v ++ r) ({ id := id, value := key, offsets := (pos, pos + units v) } :: ts)

/-- Cutting the word greedily arrives at a non-empty rest without any vocabulary piece. -/
inductive Stuck (V : Str → Option Int) (pre : Str) : Bool → WStr → Prop
  | here {first : Bool} {w : WStr} : w ≠ [] → NoPiece V pre first w → Stuck V pre first w
  | later {first : Bool} {v r : WStr} {key : Str} {id : Int} :
      Longest V pre first v r key id → Stuck V pre false r → Stuck V pre first (v ++ r)

/-- The answer for a word that cannot be cut: the unknown token over the whole word, with
its vocabulary id, or 0 when it is not in the vocabulary. -/
def UnkAnswer (V : Str → Option Int) (unk : Str) (w : WStr) : List Token :=
  [{ id := (V unk).getD 0, value := unk, offsets := (0, units w) }]

/-- The replacement character U+FFFD occurs in the byte string. -/
def HasReplacement (s : Str) : Prop := ∃ x y, s = x ++ [0xEF, 0xBF, 0xBD] ++ y

/-- Either the word lies in the basic multilingual plane or no vocabulary entry contains
U+FFFD. -/
def CleanWord (V : Str → Option Int) (w : WStr) : Prop :=
  (∀ c ∈ w, c < 0x10000) ∨ ∀ key, HasReplacement key → V key = none

/-- What WordPiece answers for the word `w`. -/
def WordPieceAnswer (V : Str → Option Int) (pre unk : Str) (maxLen : Int) (w : WStr) (ts : List Token) :
    Prop :=
  (maxLen < units w ∧ ts = UnkAnswer V unk w) ∨
  ((units w : Int) ≤ maxLen ∧ Stuck V pre true w ∧ ts = UnkAnswer V unk w) ∨
  ((units w : Int) ≤ maxLen ∧ Greedy V pre true 0 w ts)

/-- Words separated by single spaces. -/
def spaced : List WStr → WStr
  | [] => []
  | [w] => w
  | w :: r => w ++ 0x20 :: spaced r

end Tok.Spec
