import Verif.Spec.Count
import Verif.Spec.Absent

set_option autoImplicit false

/-!
Which vocabulary entries a model looks up for a word.
-/

namespace Tok.Spec

/-- WordPiece looks up the non-empty parts of the word (in its UTF-16 form; half a code point reads as U+FFFD), those that do not
start the word with the continuation prefix in front. -/
def WordPieceKey (pre : Str) (v : WStr) (k : Str) : Prop :=
  ∃ u a b x s, Utf16Text v u ∧ a < b ∧ b ≤ u.length ∧ ReadAs (between u a b) x ∧ Utf8Text x s ∧
    k = if a = 0 then s else pre ++ s

/-- What neighbouring pieces, given by their ids, are called when they are merged, in any order. -/
inductive MergedKey (V : Str → Option Int) (pre : Str) : List Int → Str → Prop
  | one {i : Int} {k : Str} : V k = some i → MergedKey V pre [i] k
  | join {g h : List Int} {p q : Str} : MergedKey V pre g p → MergedKey V pre h q → MergedKey V pre (g ++ h) (p ++ q.drop pre.length)

/-- The unknown token's id, if there is one. -/
def unknownOf (V : Str → Option Int) (unk : Str) : Option Int := if unk = [] then none else V unk

/-- Byte-pair encoding looks up: the spelling of each byte; if there is no such entry, with byte fallback, the tokens of the bytes
of the spelling; if there is nothing for a byte, the unknown token; with `ignore_merges` the whole word; and what neighbouring pieces
of the word are called when they are merged. -/
inductive BPEKey (m : BPE) (s : Str) : Str → Prop
  | byte {i : Nat} : i < s.length → BPEKey m s (spelling m.pre m.suf s (i, i + 1))
  | fallback {i b : Nat} : m.byteFallback = true → i < s.length → tokenToId m.vocab (spelling m.pre m.suf s (i, i + 1)) = none →
      b ∈ spelling m.pre m.suf s (i, i + 1) → BPEKey m s (fallbackKey b)
  | unknown {i : Nat} : i < s.length → Unknown (tokenToId m.vocab) m.pre m.suf m.byteFallback s i → BPEKey m s m.unkToken
  | whole : m.ignoreMerges = true → BPEKey m s s
  | merged {l : List (Int × Nat)} {x g y : List Int} {k : Str} :
      Pieces (unknownOf (tokenToId m.vocab) m.unkToken) m.fuseUnk
        (foundAll (tokenToId m.vocab) m.pre m.suf m.byteFallback s) l →
      l.map (·.1) = x ++ g ++ y → MergedKey (tokenToId m.vocab) m.pre g k → BPEKey m s k

/-- The entries the model may look up for the word `v`. -/
def LookedUp : Model → WStr → Str → Prop
  | .wordPiece m, v, k => k = m.unkToken ∨ WordPieceKey m.pre v k
  | .bpe m, v, k => ∃ s, Utf8Text v s ∧ BPEKey m s k

/-- Line number `r` of the merge list is about `p` and `q`. -/
def AboutPair (lines : List Str) (r : Nat) (p q : Str) : Prop := ∃ line, lines[r]? = some line ∧ Fields line p q

/-- Neighbouring pieces of the word, or what neighbouring pieces are called when they are merged, are `p` and `q`. -/
def BPEPair (m : BPE) (s p q : Str) : Prop :=
  ∃ (l : List (Int × Nat)) (x g h y : List Int), Pieces (unknownOf (tokenToId m.vocab) m.unkToken) m.fuseUnk
    (foundAll (tokenToId m.vocab) m.pre m.suf m.byteFallback s) l ∧ l.map (·.1) = x ++ g ++ h ++ y ∧
    MergedKey (tokenToId m.vocab) m.pre g p ∧ MergedKey (tokenToId m.vocab) m.pre h q

/-- The pairs the model may look for in its merge list for the word `v`. -/
def MergesFor : Model → WStr → Str → Str → Prop
  | .wordPiece _, _, _, _ => False
  | .bpe m, v, p, q => ∃ s, Utf8Text v s ∧ BPEPair m s p q

/-- The same model, made from another vocabulary. -/
def WithVocab (v : Vocab) : Model → Model → Prop
  | .wordPiece m, x => x = .wordPiece { m with vocab := v }
  | .bpe m, x => ∃ ms, x = .bpe { m with vocab := v, merges := ms }

end Tok.Spec
