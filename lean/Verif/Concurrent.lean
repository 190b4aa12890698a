import Verif.Tokenizer

set_option autoImplicit false

/-
Calls of `encode` and `decode` made by several threads on one `Tokenizer`.

The code has no locks.  `encode` and `decode` work on local copies, except for two containers of the tokenizer:
`AddedVocabulary::added_tokens_map_r` (`added_vocabulary.h:50`), read by `id_to_token` and accessed with `operator[]` by
`find_matches`, and the `mutable` member `BPE::cache` (`model.h:113`), read and filled by `tokenize_with_cache`.  A call is
modelled as the sequence of its accesses to these two containers; what happens between two accesses is local to the thread.
Each access is taken to be atomic; whether the C++ rules allow two accesses at the same time is the separate question
answered by `Sys.Race`.
-/

namespace Tok

/-- The part of a tokenizer that calls of `encode` change: `added_vocabulary.h:50` `added_tokens_map_r`, `model.h:113`
`cache`. -/
structure Shared where
  mapR : List (Int × AddedToken)
  cache : List (Str × List Symbol)

/-- A computation that accesses the shared containers. -/
inductive Prog (α : Type) where
  /-- finished -/
  | ret (a : α)
  /-- `added_tokens_map_r[id]` (`added_vocabulary.cpp:209`): inserts a default token when the id is missing -/
  | entry (id : Int) (k : AddedToken → Prog α)
  /-- `added_tokens_map_r.find(id)` (`added_vocabulary.cpp:48`) -/
  | find (id : Int) (k : Option AddedToken → Prog α)
  /-- `cache.find(sequence)` (`model.cpp:428`) and the copy of the entry found -/
  | cacheFind (s : Str) (k : Option (List Symbol) → Prog α)
  /-- `cache.insert({sequence, word})` (`model.cpp:434`) -/
  | cacheInsert (s : Str) (w : List Symbol) (k : Prog α)

/-- One access; a finished computation stays as it is. -/
def Prog.step {α : Type} : Prog α → Shared → Prog α × Shared
  | .ret a, s => (.ret a, s)
  | .entry id k, s => (k ((mapFind s.mapR id).getD {}), { s with mapR := mapInsert s.mapR id {} })
  | .find id k, s => (k (mapFind s.mapR id), s)
  | .cacheFind x k, s => (k (mapFind s.cache x), s)
  | .cacheInsert x w k, s => (k, { s with cache := mapInsert s.cache x w })

/-- The containers. -/
inductive Container | mapR | cache
  deriving DecidableEq, Repr

/-- The container that the next access uses, and whether the access counts as a modification in the sense of the C++
standard ([container.requirements.dataraces]): `find` does not; `insert` and, for unordered maps, `operator[]` do. -/
def Prog.next {α : Type} : Prog α → Option (Container × Bool)
  | .ret _ => none
  | .entry _ _ => some (.mapR, true)
  | .find _ _ => some (.mapR, false)
  | .cacheFind _ _ => some (.cache, false)
  | .cacheInsert _ _ _ => some (.cache, true)

/-- Sequencing. -/
def Prog.bind {α β : Type} : Prog α → (α → Prog β) → Prog β
  | .ret a, f => f a
  | .entry id k, f => .entry id fun t => (k t).bind f
  | .find id k, f => .find id fun t => (k t).bind f
  | .cacheFind s k, f => .cacheFind s fun w => (k w).bind f
  | .cacheInsert s w k, f => .cacheInsert s w (k.bind f)

/-- A computation that may fail. -/
def Act (α : Type) := Prog (Res α)

/-- A local computation. -/
def Act.lift {α : Type} (r : Res α) : Act α := Prog.ret r

/-- A failure ends the computation. -/
instance : Monad Act where
  pure a := Prog.ret (.ok a)
  bind p f := Prog.bind p fun r => match r with
    | .ok a => f a
    | .error e => Prog.ret (.error e)

/-- `added_vocabulary.cpp:206-239`: as `matchSegs`, one access per match. -/
def matchSegsA (sentence : Str) (total : Nat) : List (Nat × Nat × Int) → Nat → Act (List TSeg)
  | [], startOffset =>
    pure (if startOffset ≠ total then [(none, (startOffset, total))] else [])
  | (start, stop, id) :: r, startOffset =>
    Prog.entry id fun t => (do
      if (← Act.lift (wordOk t sentence start stop)) then
        let start := if t.lstrip then max (spaceLeftmostAtEnd (sentence.take start)) startOffset else start
        let stop ← Act.lift (if t.rstrip then do pure (stop + spaceRightmostAtStart (← substrFrom sentence stop))
                   else pure stop)
        let rest ← matchSegsA sentence total r stop
        return (if startOffset < start then [(none, (startOffset, start))] else []) ++
          (some id, (start, stop)) :: rest
      else matchSegsA sentence total r startOffset : Act (List TSeg))

/-- `added_vocabulary.cpp:173-241` `find_matches`. -/
def findMatchesA (sentence : Str) (trie : List (Str × Int)) : Act (List TSeg) :=
  let u := fromUTF8 sentence
  matchSegsA sentence u.length (scan (wordIds trie) u u 0 0) 0

/-- `added_vocabulary.cpp:250-271`: as `firstSplits`. -/
def firstSplitsA (a : AddedVocab) (w : WStr) : Act PTS := do
  let p ← Act.lift (PTS.ofNS (NS.ofText w))
  let text ← Act.lift (convertToString w)
  let segs ← findMatchesA text a.nonNormTrie
  let splits ← Act.lift (segSplits w 0 segs)
  return if splits = [] then p else { p with splits }

/-- `added_vocabulary.cpp:282-314`: as `normalizeSplit`. -/
def normalizeSplitA (P : Platform) (norm : Option Normalizer) (a : AddedVocab) (ns : NS)
    (ending : Nat) (s : Split) : Act (NS × List Split × Nat) := do
  let (ns, sub, text) ← Act.lift (do
    let sub ← normalizeOpt P norm (NS.ofText (← convertFromString s.normalized))
    if ending + s.offsets.2 < s.offsets.1 then .error (.ub .outOfBounds)
    else do
      let ns ← ns.transformRange ending (ending + s.offsets.2 - s.offsets.1) sub
      let text ← convertToString sub.normalized
      return (ns, sub, text) : Res (NS × NS × Str))
  let segs ← findMatchesA text a.normTrie
  let splits ← Act.lift (segSplits sub.normalized ending segs)
  return (ns, splits, sub.normalized.length)

/-- `added_vocabulary.cpp:275-315`: as `normalizeLoop`. -/
def normalizeLoopA (P : Platform) (norm : Option Normalizer) (a : AddedVocab) :
    NS → Nat → List Split → Act (NS × List Split)
  | ns, _, [] => pure (ns, [])
  | ns, ending, s :: r =>
    if s.tokens ≠ [] then do
      let (ns', rest) ← normalizeLoopA P norm a ns (ending + s.normalized.length) r
      return (ns', { s with offsets := (ending, ending + s.normalized.length) } :: rest)
    else do
      let (ns', here, n) ← normalizeSplitA P norm a ns ending s
      let (ns'', rest) ← normalizeLoopA P norm a ns' (ending + n) r
      return (ns'', here ++ rest)

/-- `added_vocabulary.cpp:248-321` `extract_and_normalize`. -/
def extractA (P : Platform) (norm : Option Normalizer) (a : AddedVocab) (w : WStr) : Act PTS := do
  let p ← firstSplitsA a w
  let (ns, splits) ← normalizeLoopA P norm a p.normalized 0 p.splits
  return { normalized := ns, splits := if splits = [] then p.splits else splits }

/-- `model.cpp:421-436` `BPE::tokenize_with_cache`. -/
def tokenizeWithCacheA (P : Platform) (m : BPE) (s : Str) : Act (List Token) :=
  match (if m.ignoreMerges then mapFind m.vocab s else none) with
  | some i => pure [{ id := i, value := s, offsets := (0, 0) }]
  | none =>
    Prog.cacheFind s fun
      | some w => Act.lift (m.wordToTokens 0 w)
      | none => (do
        let w ← Act.lift (m.mergeWord P s)
        let ts ← Act.lift (m.wordToTokens 0 w)
        Prog.cacheInsert s w (Prog.ret (.ok ts)) : Act (List Token))

/-- `model.cpp:440-446`: one split. -/
def wordA (P : Platform) (m : BPE) (s : Str) : Act (List Token) :=
  if m.dropout.on = false then tokenizeWithCacheA P m s
  else Act.lift (do m.wordToTokens 0 (← m.mergeWord P s))

/-- `model.cpp:439-447`: the loop over splits. -/
def splitsLoopA (P : Platform) (m : BPE) : List Split → Act (List Split)
  | [] => pure []
  | s :: r => do
    let ts ← wordA P m s.normalized
    let rest ← splitsLoopA P m r
    return { s with tokens := ts } :: rest

/-- `Model::tokenize`. -/
def tokenizeA (P : Platform) : Model → PTS → Act PTS
  | .wordPiece m, p => pure (m.tokenize p)
  | .bpe m, p => do return { p with splits := ← splitsLoopA P m p.splits }

/-- `tokenizer.cpp:94-102`. -/
def preTokenizedA (P : Platform) (t : Tokenizer) (w : WStr) : Act PTS := do
  let p ← Act.lift (PTS.ofNS (NS.ofText w))
  let p ← match t.added with
    | none => pure p
    | some a => extractA P t.normalizer a w
  Act.lift (match t.preTokenizer with
    | none => .ok p
    | some pt => pt.run P p)

/-- `tokenizer.cpp:164-171` `do_tokenize`. -/
def doTokenizeA (P : Platform) (t : Tokenizer) (p : PTS) : Act Encoding :=
  match t.model with
  | none => Act.lift (intoEncoding p none 0)
  | some m => do Act.lift (intoEncoding (← tokenizeA P m p) none 0)

/-- `tokenizer.cpp:92-105` `Tokenizer::encode`. -/
def encodeA (P : Platform) (t : Tokenizer) (w : WStr) (addSpecial : Bool) : Act Encoding := do
  let p ← preTokenizedA P t w
  let e ← doTokenizeA P t p
  Act.lift (t.doPostProcess e addSpecial)

/-- `tokenizer.cpp:110-121`: the token of one id; `added_vocabulary.cpp:47-53`. -/
def idTokenA (t : Tokenizer) (id : Int) : Act Str :=
  match t.added with
  | none => Act.lift (.error (.ub .nullDeref))
  | some _ =>
    Prog.find id fun
      | some e => Prog.ret (.ok e.content)
      | none => Prog.ret (match t.model with
        | none => .error (.ub .nullDeref)
        | some m =>
          match idToToken m.vocab id with
          | some s => .ok s
          | none => .error (.throws .badOptionalAccess))

/-- `tokenizer.cpp:110-121`: the loop over ids. -/
def idTokensA (t : Tokenizer) (skip : Bool) : List Int → Act (List Str)
  | [] => pure []
  | i :: r => do
    let s ← idTokenA t i
    let rest ← idTokensA t skip r
    return if !skip || !t.isSpecial s then s :: rest else rest

/-- `tokenizer.cpp:107-124` `Tokenizer::decode`. -/
def decodeA (t : Tokenizer) (ids : List Int) (skip : Bool) : Act Str := do
  let tokens ← idTokensA t skip ids
  Act.lift (match t.decoder with
    | none => .error (.ub .nullDeref)
    | some d => do return concat (← d.run tokens))

/-- Threads, each in the middle of a call, and the containers they share. -/
structure Sys (α : Type) where
  threads : List (Prog α)
  shared : Shared

/-- Thread number `i` makes its next access. -/
def Sys.step {α : Type} (s : Sys α) (i : Nat) : Sys α :=
  match s.threads[i]? with
  | none => s
  | some p => { threads := s.threads.set i (p.step s.shared).1, shared := (p.step s.shared).2 }

/-- A schedule: the numbers of the threads, in the order in which they make their accesses. -/
def Sys.run {α : Type} (s : Sys α) : List Nat → Sys α
  | [] => s
  | i :: r => (s.step i).run r

/-- Two threads are about to access the same container, and one access is a modification: undefined behaviour
([intro.races]). -/
def Sys.Race {α : Type} (s : Sys α) : Prop :=
  ∃ (i j : Nat) (p q : Prog α) (c : Container) (x y : Bool), i ≠ j ∧ s.threads[i]? = some p ∧ s.threads[j]? = some q ∧
    p.next = some (c, x) ∧ q.next = some (c, y) ∧ (x || y) = true

/-- The shared containers of a tokenizer. -/
def Tokenizer.shared (t : Tokenizer) : Shared :=
  { mapR := match t.added with
      | some a => a.mapR
      | none => []
    cache := match t.model with
      | some (.bpe m) => m.cache
      | _ => [] }

end Tok
