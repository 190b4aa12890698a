import Verif.Unicode

set_option autoImplicit false

/-
`include/tokenizers/common.h`, `src/common.cpp`: plain data and the byte alphabet.
-/

namespace Tok

/-- `common.h:31-38` `Token`. -/
structure Token where
  id : Int
  value : Str
  offsets : Nat × Nat
  deriving DecidableEq, Repr

/-- `common.h:45-52` `Split`.  `offsets` are `int`s in C++; every value the library
stores is a sum of string positions, hence a natural number. -/
structure Split where
  normalized : Str
  offsets : Nat × Nat
  tokens : List Token := []
  deriving DecidableEq, Repr

/-- `common.h:40` `SPLIT_DELIMITER_BEHAVIOR`. -/
inductive Behavior | removed | isolated
  deriving DecidableEq, Repr

/-- `common.cpp:22-28` `get_split_delimiter_behavior`: everything but "Isolated" means
"removed". -/
def getBehavior (s : Str) : Behavior := if s = b!"Isolated" then .isolated else .removed

/-- The seven parallel vectors of `common.h:12-29` `Encoding`. -/
structure Enc where
  ids : List Int := []
  typeIds : List Int := []
  tokens : List Str := []
  words : List (Option Int) := []
  offsets : List (Int × Int) := []
  specialTokensMask : List Int := []
  attentionMask : List Int := []
  deriving DecidableEq, Repr

/-- `common.h:12-29` `Encoding`.  Simplification: the windows in `overflowing` carry no
overflow of their own; every window the library builds uses the 7-argument constructor
(`common.cpp:44-57`), which leaves it empty. -/
structure Encoding extends Enc where
  overflowing : List Enc := []
  deriving DecidableEq, Repr

/-- `common.cpp:71-80`: the bytes that keep their own code point, in push order. -/
def printableBytes : List Nat :=
  (List.range 94).map (· + 0x21) ++ (List.range 12).map (· + 0xA1) ++ (List.range 82).map (· + 0xAE)

/-- `common.cpp:85-91`: the second loop; `n` counts the bytes added so far. -/
def fillLoop : List Nat → Nat → List (Nat × Nat) → List (Nat × Nat)
  | [], _, acc => acc
  | b :: rest, n, acc =>
    if acc.any (fun p => p.1 == b) then fillLoop rest n acc
    else fillLoop rest (n + 1) (acc ++ [(b, 256 + n)])

/-- `common.cpp:71-91`: the vectors `bs` and `cs`, zipped. -/
def byteCodes : List (Nat × Nat) :=
  fillLoop (List.range 256) 0 (printableBytes.map fun b => (b, b))

/-- `common.cpp:92-109`: `bytes_char()`, as the list of its entries.  All code points
are below U+10000 so only the first branch of the `UnicodeString` construction runs. -/
def bytesChar : List (Nat × Str) := byteCodes.map fun p => (p.1, utf8Enc1 p.2)

/-- `include/tokenizers/model.h:64-71` `Merge`: a candidate merge of the symbol at `pos`
with its right neighbour. -/
structure Merge where
  pos : Nat
  rank : Int
  newId : Int
  deriving DecidableEq, Repr

/-- `std::priority_queue<Merge>` ordered by `Merge::operator<` (`model.h:70`, `rank <
other.rank`), i.e. a max-heap on `rank`.  The container contents are a list; `inv` is
the representation invariant (the heap order); ties may be broken in any way.  The
fields `push_perm` … are what the C++ standard guarantees. -/
structure PQ where
  push : List Merge → Merge → List Merge
  pop : List Merge → Option (Merge × List Merge)
  inv : List Merge → Prop
  inv_nil : inv []
  push_inv : ∀ q m, inv q → inv (push q m)
  push_perm : ∀ q m, inv q → (push q m).Perm (m :: q)
  pop_nil : pop [] = none
  pop_some : ∀ q, inv q → q ≠ [] → ∃ m r, pop q = some (m, r)
  pop_inv : ∀ q m r, inv q → pop q = some (m, r) → inv r
  pop_perm : ∀ q m r, inv q → pop q = some (m, r) → q.Perm (m :: r)
  pop_max : ∀ q m r, inv q → pop q = some (m, r) → ∀ x ∈ q, x.rank ≤ m.rank

/-- The dropout of a BPE model: `on` is `dropout != 0.0f`, `draw k` tells whether the
`k`-th number drawn from the default-seeded engine is below `dropout`
(`model.cpp:239-244`).  The engine is local to `merge_all`, so the sequence is the same
for every word. -/
structure Dropout where
  on : Bool
  draw : Nat → Bool

end Tok
