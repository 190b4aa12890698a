import Verif.WordPiece

set_option autoImplicit false

/-
`src/model.cpp:201-449`: BPE.
-/

namespace Tok

/-- `model.h:54-62` `Symbol`. -/
structure Symbol where
  c : Int
  prev : Int
  next : Int
  len : Nat
  deriving DecidableEq, Repr

/-- `std::unordered_map<pair<int,int>, pair<int,int>> merges`: (left, right) ↦
(rank, new id). -/
abbrev Merges := List ((Int × Int) × (Int × Int))

/-- `model.cpp:215-224` `Word::add`. -/
def wordAdd (w : List Symbol) (c : Int) (len : Nat) : List Symbol :=
  match w with
  | [] => [{ c, prev := -1, next := -1, len }]
  | _ => w.modify (w.length - 1) (fun l => { l with next := w.length })
         ++ [{ c, prev := (w.length : Int) - 1, next := -1, len }]

/-- `model.cpp:204-208` `Symbol::merge_with`. -/
def Symbol.mergeWith (s other : Symbol) (newC : Int) : Symbol :=
  { s with c := newC, len := s.len + other.len, next := other.next }

/-- `model.cpp:233-237, 277-282, 287-292`: push the merge of `(a, b)` at `pos` if the
pair is listed. -/
def pushPair (P : Platform) (merges : Merges) (q : List Merge) (pos : Nat) (a b : Int) :
    List Merge :=
  match mapFind merges (a, b) with
  | some (rank, newId) => P.pq.push q { pos, rank, newId }
  | none => q

/-- `model.cpp:232-238` for a non-empty word; `i` is the index of the first symbol. -/
def initQueue (P : Platform) (merges : Merges) : Nat → List Symbol → List Merge → List Merge
  | i, a :: b :: r, q => initQueue P merges (i + 1) (b :: r) (pushPair P merges q i a.c b.c)
  | _, _, q => q

/-- Local state of the loop of `Word::merge_all`; `drawn` counts random draws. -/
structure MState where
  syms : List Symbol
  queue : List Merge
  skip : List Merge
  drawn : Nat

/-- `model.cpp:274-284`: the pair of the new symbol with its left neighbour. -/
def pushLeft (P : Platform) (merges : Merges) (syms : List Symbol) (q : List Merge)
    (current : Symbol) : Res (List Merge) :=
  if 0 ≤ current.prev ∧ toSizeT current.prev < syms.length then do
    let ps ← vecAt syms current.prev.toNat
    return pushPair P merges q current.prev.toNat ps.c current.c
  else return q

/-- `model.cpp:285-293`: the pair of the new symbol with its right neighbour. -/
def pushRight (P : Platform) (merges : Merges) (syms : List Symbol) (q : List Merge) (pos : Nat)
    (current : Symbol) : Res (List Merge) :=
  if toSizeT current.next < syms.length then do
    let ns ← vecAt syms current.next.toNat
    return pushPair P merges q pos current.c ns.c
  else return q

/-- `model.cpp:252-293`: what the loop does with a popped merge `top` that is not
skipped; `q` is the queue after the skipped entries were put back.  Every subscript is
checked.  `none` as next symbol state means the `continue` branches. -/
def applyTop (P : Platform) (merges : Merges) (syms : List Symbol) (q : List Merge)
    (top : Merge) : Res (List Symbol × List Merge) := do
  let s ← vecAt syms top.pos
  if s.len = 0 then return (syms, q)
  else if s.next = -1 then return (syms, q)
  else if syms.length ≤ toSizeT s.next then return (syms, q)
  else do
    let nextPos := s.next.toNat
    let right ← vecAt syms nextPos
    match mapFind merges (s.c, right.c) with
    | none => return (syms, q)
    | some (_, newId) =>
      if newId ≠ top.newId then return (syms, q)
      else do
        let syms := syms.modify top.pos fun x => x.mergeWith right top.newId
        let syms := syms.modify nextPos fun x => { x with len := 0 }
        let syms := if 0 ≤ right.next ∧ toSizeT right.next < syms.length then
            syms.modify right.next.toNat fun x => { x with prev := top.pos } else syms
        let current ← vecAt syms top.pos
        let q ← pushLeft P merges syms q current
        let q ← pushRight P merges syms q top.pos current
        return (syms, q)

/-- `model.cpp:241-294`: one round of the loop; `none` when the queue is empty. -/
def mergeStep (P : Platform) (merges : Merges) (d : Dropout) (st : MState) :
    Res (Option MState) := do
  match P.pq.pop st.queue with
  | none => return none
  | some (top, q) =>
    if d.on && d.draw st.drawn then
      return some { st with queue := q, skip := st.skip ++ [top], drawn := st.drawn + 1 }
    else do
      let q := st.skip.foldl P.pq.push q
      let (syms, q) ← applyTop P merges st.syms q top
      return some { syms, queue := q, skip := [], drawn := st.drawn + 1 }

/-- `model.cpp:241-294`: the loop, with fuel. -/
def mergeLoop (P : Platform) (merges : Merges) (d : Dropout) : Nat → MState → Res (List Symbol)
  | 0, _ => .error .diverges
  | fuel + 1, st => do
    match ← mergeStep P merges d st with
    | none => return st.syms
    | some st' => mergeLoop P merges d fuel st'

/-- Fuel given to the loop for a word of `n` symbols; `BPE_terminates` proves that it is
always enough. -/
def mergeFuel (n : Nat) : Nat := (4 * n + 1) * (4 * n + 1)

/-- `model.cpp:226-298` `Word::merge_all`.  With no symbols, `symbols.size() - 1` wraps
around and `symbols[0]` is out of bounds. -/
def mergeAll (P : Platform) (merges : Merges) (d : Dropout) (w : List Symbol) :
    Res (List Symbol) :=
  match w with
  | [] => .error (.ub .outOfBounds)
  | _ => do
    let syms ← mergeLoop P merges d (mergeFuel w.length)
      { syms := w, queue := initQueue P merges 0 w [], skip := [], drawn := 0 }
    return syms.filter fun s => s.len ≠ 0

/-- `model.h:94-117` `BPE`. -/
structure BPE where
  vocab : Vocab
  merges : Merges
  dropout : Dropout
  unkToken : Str
  pre : Str
  suf : Str
  fuseUnk : Bool
  byteFallback : Bool
  ignoreMerges : Bool
  cache : List (Str × List Symbol) := []

/-- `std::istream >> std::string`: skip white space, read up to white space. -/
def readWord (s : Str) : Option (Str × Str) :=
  match s.dropWhile isspaceC with
  | [] => none
  | t => some (t.takeWhile fun c => !isspaceC c, t.dropWhile fun c => !isspaceC c)

/-- `model.cpp:326-327`: the right part without the continuation prefix; `substr` throws
when it is too short. -/
def mergeTail (pre part2 : Str) : Res Str :=
  if pre.length ≠ 0 then
    (if pre.length ≤ part2.length then .ok (part2.drop pre.length) else .error (.throws .outOfRange))
  else .ok part2

/-- `model.cpp:318-334`: one entry of the merge list. -/
def addMerge (vocab : Vocab) (pre : Str) (i : Nat) (line : Str) (merges : Merges) : Res Merges :=
  match readWord line with
  | none => .ok merges
  | some (part1, rest) =>
    match readWord rest with
    | none => .ok merges
    | some (part2, _) =>
      match mapFind vocab part1, mapFind vocab part2 with
      | some a, some b => do
        let tail ← mergeTail pre part2
        match mapFind vocab (part1 ++ tail) with
        | some n => return mapInsert merges (a, b) ((i : Int), n)
        | none => return merges
      | _, _ => .ok merges

/-- `model.cpp:317-335`: the loop over the merge list. -/
def addMerges (vocab : Vocab) (pre : Str) : Nat → List Str → Merges → Res Merges
  | _, [], merges => .ok merges
  | i, line :: r, merges => do addMerges vocab pre (i + 1) r (← addMerge vocab pre i line merges)

/-- `model.cpp:300-336` constructor `BPE`. -/
def BPE.make (vocab : Vocab) (mergesList : List Str) (dropout : Dropout)
    (unkToken pre suf : Str) (fuseUnk byteFallback ignoreMerges : Bool) : Res BPE := do
  let merges ← addMerges vocab pre 0 mergesList []
  return { vocab, merges, dropout, unkToken, pre, suf, fuseUnk, byteFallback, ignoreMerges }

/-- `model.cpp:369-372`: the text looked up for byte `b` with byte fallback.
`std::setw(4)` pads the *character* `b`, which is printed as a character. -/
def fallbackCode (b : Nat) : Str := b!"<000" ++ [b] ++ b!">"

/-- `model.cpp:368-384`: the byte-fallback tokens that exist. -/
def fallbackIds (vocab : Vocab) (sub : Str) : List Int :=
  sub.filterMap fun b => mapFind vocab (fallbackCode b)

/-- `model.cpp:347-356`: the vocabulary key looked up for byte `b`. -/
def BPE.symbolKey (m : BPE) (b : Nat) (isFirst isLast : Bool) : Str :=
  let s := if !isFirst && m.pre.length ≠ 0 then m.pre ++ [b] else [b]
  if isLast && m.suf.length ≠ 0 then s ++ m.suf else s

/-- `model.cpp:343-401`: the body of the loop for one byte (`sub_len` is always 1). -/
def BPE.addByte (m : BPE) (b : Nat) (isFirst isLast : Bool) (word : List Symbol)
    (unk : Option (Int × Nat)) : List Symbol × Option (Int × Nat) :=
  let sub := m.symbolKey b isFirst isLast
  match mapFind m.vocab sub with
  | some i =>
    let word := match unk with
      | some u => wordAdd word u.1 u.2
      | none => word
    (wordAdd word i 1, none)
  | none =>
    let ids := if m.byteFallback then fallbackIds m.vocab sub else []
    if ids ≠ [] then (ids.foldl (fun w i => wordAdd w i 1) word, unk)
    else if m.unkToken.length ≠ 0 then
      match unk, m.fuseUnk with
      | some u, true => (word, some (u.1, u.2 + 1))
      | _, _ =>
        let word := match unk with
          | some u => wordAdd word u.1 u.2
          | none => word
        match mapFind m.vocab m.unkToken with
        | some i => (word, some (i, 1))
        | none => (word, unk)
    else (word, unk)

/-- `model.cpp:342-405`: the loop over bytes and the final flush. -/
def BPE.symbolsLoop (m : BPE) : Bool → Str → List Symbol → Option (Int × Nat) → List Symbol
  | _, [], word, unk =>
    match unk with
    | some u => wordAdd word u.1 u.2
    | none => word
  | isFirst, b :: r, word, unk =>
    let s := m.addByte b isFirst r.isEmpty word unk
    BPE.symbolsLoop m false r s.1 s.2

/-- `model.cpp:338-405`: the symbols of a text before merging. -/
def BPE.symbols (m : BPE) (s : Str) : List Symbol := m.symbolsLoop true s [] none

/-- `model.cpp:338-408` `BPE::merge_word`. -/
def BPE.mergeWord (P : Platform) (m : BPE) (s : Str) : Res (List Symbol) :=
  mergeAll P m.merges m.dropout (m.symbols s)

/-- `model.cpp:410-419` `BPE::word_to_tokens`. -/
def BPE.wordToTokens (m : BPE) : Nat → List Symbol → Res (List Token)
  | _, [] => .ok []
  | pos, s :: r =>
    match mapFind (vocabR m.vocab) s.c with
    | none => .error (.throws .outOfRange)
    | some v => do
      let rest ← BPE.wordToTokens m (pos + s.len) r
      return { id := s.c, value := v, offsets := (pos, pos + s.len) } :: rest

/-- `model.cpp:421-436` `BPE::tokenize_with_cache`; returns the updated model. -/
def BPE.tokenizeWithCache (P : Platform) (m : BPE) (s : Str) : Res (List Token) × BPE :=
  match (if m.ignoreMerges then mapFind m.vocab s else none) with
  | some i => (.ok [{ id := i, value := s, offsets := (0, 0) }], m)
  | none =>
    match mapFind m.cache s with
    | some w => (m.wordToTokens 0 w, m)
    | none =>
      match m.mergeWord P s with
      | .error e => (.error e, m)
      | .ok w =>
        match m.wordToTokens 0 w with
        | .error e => (.error e, m)
        | .ok ts => (.ok ts, { m with cache := mapInsert m.cache s w })

/-- `model.cpp:440-446`: one split. -/
def BPE.word (P : Platform) (m : BPE) (s : Str) : Res (List Token) × BPE :=
  if m.dropout.on = false then m.tokenizeWithCache P s
  else
    match m.mergeWord P s with
    | .error e => (.error e, m)
    | .ok w => (m.wordToTokens 0 w, m)

/-- `model.cpp:439-447`: the loop over splits. -/
def BPE.splitsLoop (P : Platform) : BPE → List Split → Res (List Split) × BPE
  | m, [] => (.ok [], m)
  | m, s :: r =>
    match m.word P s.normalized with
    | (.error e, m') => (.error e, m')
    | (.ok ts, m') =>
      match BPE.splitsLoop P m' r with
      | (.error e, m'') => (.error e, m'')
      | (.ok rest, m'') => (.ok ({ s with tokens := ts } :: rest), m'')

/-- `model.cpp:438-449` `BPE::tokenize`. -/
def BPE.tokenize (P : Platform) (m : BPE) (p : PTS) : Res PTS × BPE :=
  match BPE.splitsLoop P m p.splits with
  | (.error e, m') => (.error e, m')
  | (.ok splits, m') => (.ok { p with splits }, m')

/-- `model.h:27-38`: the implemented models. -/
inductive Model
  | wordPiece (m : WordPiece)
  | bpe (m : BPE)

/-- `Model::vocab`. -/
def Model.vocab : Model → Vocab
  | .wordPiece m => m.vocab
  | .bpe m => m.vocab

/-- `Model::tokenize` (virtual dispatch).  The model is returned because BPE updates its
cache. -/
def Model.tokenize (P : Platform) : Model → PTS → Res PTS × Model
  | .wordPiece m, p => (.ok (m.tokenize p), .wordPiece m)
  | .bpe m, p => let r := m.tokenize P p; (r.1, .bpe r.2)

end Tok
