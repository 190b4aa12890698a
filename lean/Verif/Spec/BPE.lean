import Verif.Spec.Split
import Verif.Common

set_option autoImplicit false

/-!
Specification of byte-pair encoding.  `V` is the vocabulary (the API `token_to_id`);
a piece is a vocabulary id together with the number of bytes of the word it covers.
-/

namespace Tok.Spec

/-- White space of the C locale. -/
def BlankByte (c : Nat) : Prop := c = 0x20 ∨ (0x09 ≤ c ∧ c ≤ 0x0D)

/-- The first two blank-separated fields of the line are `p` and `q`. -/
def Fields (line p q : Str) : Prop :=
  ∃ b1 b2 rest, line = b1 ++ p ++ b2 ++ q ++ rest ∧ p ≠ [] ∧ q ≠ [] ∧ b2 ≠ [] ∧
    (∀ c ∈ b1, BlankByte c) ∧ (∀ c ∈ p, ¬ BlankByte c) ∧ (∀ c ∈ b2, BlankByte c) ∧
    (∀ c ∈ q, ¬ BlankByte c) ∧ (∀ c, rest.head? = some c → BlankByte c)

/-- Line number `rank` of the merge list says that the entries with ids `a` and `b` merge
into the entry with id `new`: it reads `p q`, and the new entry is `p` followed by `q`
without as many bytes as the continuation prefix has. -/
def Says (V : Str → Option Int) (pre : Str) (lines : List Str) (rank : Nat) (a b new : Int) : Prop :=
  ∃ line p q, lines[rank]? = some line ∧ Fields line p q ∧ V p = some a ∧ V q = some b ∧
    V (p ++ q.drop pre.length) = some new

/-- The first line of the merge list about the pair `a`, `b` has number `rank` and merges it into
`new`. -/
def Listed (V : Str → Option Int) (pre : Str) (lines : List Str) (rank : Nat) (a b new : Int) : Prop :=
  Says V pre lines rank a b new ∧ ∀ r n, Says V pre lines r a b n → rank ≤ r

/-- A merge table: `T rank a b new`. -/
abbrev Table := Nat → Int → Int → Int → Prop

/-- `l'` is `l` after merging two neighbouring pieces by the listed merge of rank `rank`. -/
inductive MergeOnce (T : Table) (rank : Nat) : List (Int × Nat) → List (Int × Nat) → Prop
  | mk {A B : List (Int × Nat)} {a b : Int × Nat} {n : Int} : T rank a.1 b.1 n →
      MergeOnce T rank (A ++ a :: b :: B) (A ++ (n, a.2 + b.2) :: B)

/-- Any number of merges. -/
inductive MergeMany (T : Table) : List (Int × Nat) → List (Int × Nat) → Prop
  | refl (l : List (Int × Nat)) : MergeMany T l l
  | step {a b c : List (Int × Nat)} {rank : Nat} : MergeMany T a b → MergeOnce T rank b c → MergeMany T a c

/-- Any number of merges, each of which is the one of greatest rank that applies. -/
inductive WorstFirst (T : Table) : List (Int × Nat) → List (Int × Nat) → Prop
  | refl (l : List (Int × Nat)) : WorstFirst T l l
  | step {a b c : List (Int × Nat)} {rank : Nat} : WorstFirst T a b → MergeOnce T rank b c →
      (∀ r c', MergeOnce T r b c' → r ≤ rank) → WorstFirst T a c

/-- No merge applies. -/
def Final (T : Table) (l : List (Int × Nat)) : Prop := ∀ r l', ¬ MergeOnce T r l l'

/-- The text an entry over the bytes `[o.1, o.2)` of the word `s` is expected to have: those
bytes, after the continuation prefix unless they start the word, and before the end-of-word
suffix if they end it. -/
def spelling (pre suf s : Str) (o : Nat × Nat) : Str :=
  (if o.1 = 0 then [] else pre) ++ (s.drop o.1).take (o.2 - o.1) ++ (if o.2 = s.length then suf else [])

/-- The key under which byte fallback looks up byte `b`. -/
def fallbackKey (b : Nat) : Str := [0x3C, 0x30, 0x30, 0x30, b, 0x3E]

/-- What there is for a byte of the word: a vocabulary entry, or byte tokens, or nothing. -/
inductive Found where
  | entry (i : Int)
  | bytes (ids : List Int)
  | nothing
  deriving DecidableEq, Repr

/-- What there is for the byte at position `i`: the entry of its spelling; otherwise, with byte fallback (`fb`), the byte tokens
of the bytes of its spelling that have one, if there are any. -/
def found (V : Str → Option Int) (pre suf : Str) (fb : Bool) (s : Str) (i : Nat) : Found :=
  match V (spelling pre suf s (i, i + 1)) with
  | some id => .entry id
  | none =>
    match (spelling pre suf s (i, i + 1)).filterMap fun b => V (fallbackKey b) with
    | [] => .nothing
    | id :: ids => if fb then .bytes (id :: ids) else .nothing

/-- What there is for each byte of the word. -/
def foundAll (V : Str → Option Int) (pre suf : Str) (fb : Bool) (s : Str) : List Found :=
  (List.range s.length).map (found V pre suf fb s)

/-- The byte tokens in `fs`, one piece of length 1 each. -/
def byteTokens (fs : List Found) : List (Int × Nat) :=
  fs.flatMap fun f => match f with
    | .bytes ids => ids.map fun i => (i, 1)
    | _ => []

/-- The pieces `l` of a word before merging.  A byte with an entry becomes that entry, and byte tokens stand for the byte they
replace.  A byte for which there is nothing is dropped when there is no unknown token; otherwise it becomes the unknown token, which
comes *after* the byte tokens that follow it: without fusing, after those that follow it directly; with fusing, all unknown bytes
up to the next byte with an entry become one unknown token, after all byte tokens up to there. -/
inductive Pieces (unk : Option Int) (fuse : Bool) : List Found → List (Int × Nat) → Prop
  | nil : Pieces unk fuse [] []
  | known {i : Int} {r : List Found} {l : List (Int × Nat)} : Pieces unk fuse r l →
      Pieces unk fuse (.entry i :: r) ((i, 1) :: l)
  | bytes {ids : List Int} {r : List Found} {l : List (Int × Nat)} : Pieces unk fuse r l →
      Pieces unk fuse (.bytes ids :: r) (byteTokens [.bytes ids] ++ l)
  | dropped {r : List Found} {l : List (Int × Nat)} : unk = none → Pieces unk fuse r l →
      Pieces unk fuse (.nothing :: r) l
  | single {u : Int} {fs r : List Found} {l : List (Int × Nat)} : unk = some u → fuse = false →
      (∀ f ∈ fs, ∃ ids, f = .bytes ids) → (∀ ids, r.head? ≠ some (.bytes ids)) → Pieces unk fuse r l →
      Pieces unk fuse (.nothing :: fs ++ r) (byteTokens fs ++ (u, 1) :: l)
  | run {u : Int} {fs r : List Found} {l : List (Int × Nat)} : unk = some u → fuse = true →
      (∀ f ∈ fs, ∀ i, f ≠ .entry i) → (∀ f, r.head? = some f → ∃ i, f = .entry i) → Pieces unk fuse r l →
      Pieces unk fuse (.nothing :: fs ++ r) (byteTokens fs ++ (u, 1 + fs.count .nothing) :: l)

/-- The number of bytes the pieces of a byte are counted as: each byte token counts as one, and a dropped byte as none. -/
def counted (unk : Option Int) : Found → Nat
  | .entry _ => 1
  | .bytes ids => ids.length
  | .nothing => if unk = none then 0 else 1

/-- The pieces of tokens. -/
def piecesOf (ts : List Token) : List (Int × Nat) := ts.map fun t => (t.id, t.offsets.2 - t.offsets.1)

/-- Byte fallback finds something for the byte at position `i`. -/
def Fallback (V : Str → Option Int) (pre suf s : Str) (i : Nat) : Prop :=
  ∃ b ∈ spelling pre suf s (i, i + 1), ∃ id, V (fallbackKey b) = some id

/-- The byte at position `i` of the word yields a symbol: it has an entry, or byte fallback
(`fb`) finds something, or there is an unknown token. -/
def Yields (V : Str → Option Int) (pre suf unk : Str) (fb : Bool) (s : Str) (i : Nat) : Prop :=
  (∃ id, V (spelling pre suf s (i, i + 1)) = some id) ∨ (fb = true ∧ Fallback V pre suf s i) ∨
  (unk ≠ [] ∧ ∃ id, V unk = some id)

/-- The byte at position `i` is unknown: no entry, and byte fallback finds nothing. -/
def Unknown (V : Str → Option Int) (pre suf : Str) (fb : Bool) (s : Str) (i : Nat) : Prop :=
  V (spelling pre suf s (i, i + 1)) = none ∧ ¬ (fb = true ∧ Fallback V pre suf s i)

/-- No two entries have the same id. -/
def DistinctIds (V : Str → Option Int) : Prop := ∀ p q i, V p = some i → V q = some i → p = q

end Tok.Spec
