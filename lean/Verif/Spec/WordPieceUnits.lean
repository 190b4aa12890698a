import Verif.Spec.WordPiece

set_option autoImplicit false

/-!
WordPiece in terms of UTF-16 units, for every vocabulary.  The code cuts a word between any two units, also inside a code point
above U+FFFF; half a code point is looked up as U+FFFD.
-/

namespace Tok.Spec

/-- What UTF-16 units read as: like `Utf16Text`, and half a pair reads as U+FFFD. -/
inductive ReadAs : U16 → WStr → Prop
  | nil : ReadAs [] []
  | bmp {c : Nat} {u : U16} {w : WStr} : c < 0x10000 → ¬ (0xD800 ≤ c ∧ c ≤ 0xDFFF) → ReadAs u w → ReadAs (c :: u) (c :: w)
  | pair {x y : Nat} {u : U16} {w : WStr} : x < 1024 → y < 1024 → ReadAs u w →
      ReadAs ((0xD800 + x) :: (0xDC00 + y) :: u) ((0x10000 + x * 1024 + y) :: w)
  | high {x : Nat} {u : U16} {w : WStr} : x < 1024 → (∀ y, y < 1024 → u.head? ≠ some (0xDC00 + y)) → ReadAs u w →
      ReadAs ((0xD800 + x) :: u) (0xFFFD :: w)
  | low {y : Nat} {u : U16} {w : WStr} : y < 1024 → ReadAs u w → ReadAs ((0xDC00 + y) :: u) (0xFFFD :: w)

/-- `key` is the vocabulary key for the units `v`: the UTF-8 text of what they read as, preceded by the continuation prefix unless
they start the word. -/
def UnitKey (pre : Str) (first : Bool) (v : U16) (key : Str) : Prop :=
  ∃ x s, ReadAs v x ∧ Utf8Text x s ∧ key = if first then s else pre ++ s

/-- `v` is the longest non-empty beginning of `v ++ r` that is a vocabulary entry. -/
structure LongestUnits (V : Str → Option Int) (pre : Str) (first : Bool) (v r : U16) (key : Str) (id : Int) : Prop where
  nonempty : v ≠ []
  key_of : UnitKey pre first v key
  known : V key = some id
  longest : ∀ v' r' key', v ++ r = v' ++ r' → v.length < v'.length → UnitKey pre first v' key' → V key' = none

/-- Cutting the units greedily gives the tokens `ts`, the first of which starts at position `pos`. -/
inductive GreedyUnits (V : Str → Option Int) (pre : Str) : Bool → Nat → U16 → List Token → Prop
  | done {first : Bool} {pos : Nat} : GreedyUnits V pre first pos [] []
  | take {first : Bool} {pos : Nat} {v r : U16} {key : Str} {id : Int} {ts : List Token} :
      LongestUnits V pre first v r key id → GreedyUnits V pre false (pos + v.length) r ts →
      GreedyUnits V pre first pos (v ++ r) ({ id := id, value := key, offsets := (pos, pos + v.length) } :: ts)

/-- Cutting the units greedily arrives at a non-empty rest no beginning of which is a vocabulary entry. -/
inductive StuckUnits (V : Str → Option Int) (pre : Str) : Bool → U16 → Prop
  | here {first : Bool} {u : U16} : u ≠ [] → (∀ v r key, u = v ++ r → v ≠ [] → UnitKey pre first v key → V key = none) →
      StuckUnits V pre first u
  | later {first : Bool} {v r : U16} {key : Str} {id : Int} :
      LongestUnits V pre first v r key id → StuckUnits V pre false r → StuckUnits V pre first (v ++ r)

/-- What WordPiece answers for the word with the units `u`. -/
def UnitsAnswer (V : Str → Option Int) (pre unk : Str) (maxLen : Int) (u : U16) (ts : List Token) : Prop :=
  ((maxLen < u.length ∨ StuckUnits V pre true u) ∧ ts = [{ id := (V unk).getD 0, value := unk, offsets := (0, u.length) }]) ∨
  (u.length ≤ maxLen ∧ ¬ StuckUnits V pre true u ∧ GreedyUnits V pre true 0 u ts)

end Tok.Spec
