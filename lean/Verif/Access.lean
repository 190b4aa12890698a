import Verif.Tokenizer

set_option autoImplicit false

/-
Calls of `encode`, `decode`, `add_tokens` and `add_special_tokens` made by several threads on one `Tokenizer`.

`Verif/Concurrent.lean` models `encode` and `decode` beside each other; here `add_tokens` may run beside them.  A call is
modelled as the sequence of its accesses to the members of the tokenizer that some call can change: those of
`AddedVocabulary` (`added_vocabulary.h:36,50-57`) and `BPE::cache` (`model.h:113`).  Everything else a call touches is
local to its thread or never changes after construction.  Each access is taken to be atomic; whether the C++ rules allow
two accesses at the same time is the separate question answered by `Threads.Race`.
-/

namespace Tok

/-- The members that calls change: `added_vocabulary.h:36` `added_tokens`, `:50-57` `added_tokens_map`, `added_tokens_map_r`,
`special_tokens`, `special_tokens_set`, `split_non_normalized_trie`, `split_normalized_trie`; `model.h:113` `cache`. -/
inductive Member
  | addedTokens | map | mapR | specialTokens | specialSet | nonNormTrie | normTrie | cache
  deriving DecidableEq, Repr

/-- What a member holds (as in `AddedVocab` and `BPE`). -/
@[reducible] def Member.Held : Member → Type
  | .addedTokens => List AddedToken
  | .map => List (Str × Int)
  | .mapR => List (Int × AddedToken)
  | .specialTokens => List AddedToken
  | .specialSet => List Str
  | .nonNormTrie => List (Str × Int)
  | .normTrie => List (Str × Int)
  | .cache => List (Str × List Symbol)

/-- The members of one tokenizer. -/
def Store := (m : Member) → m.Held

/-- The member `m` gets a new value. -/
def Store.set (s : Store) (m : Member) (v : m.Held) : Store := fun n => if h : n = m then h ▸ v else s n

/-- A computation that accesses members.  An access reads the member `m`, and if it counts as a modification
(`write`) also replaces its value. -/
inductive Code (α : Type) where
  | ret (a : α)
  | access (m : Member) (write : Bool) (change : m.Held → m.Held) (k : m.Held → Code α)

/-- The members after an access. -/
def Store.after (s : Store) (m : Member) (write : Bool) (change : m.Held → m.Held) : Store :=
  if write then s.set m (change (s m)) else s

/-- One access; a finished computation stays as it is. -/
def Code.step {α : Type} : Code α → Store → Code α × Store
  | .ret a, s => (.ret a, s)
  | .access m w f k, s => (k (s m), s.after m w f)

/-- The member that the next access uses, and whether the access counts as a modification. -/
def Code.next {α : Type} : Code α → Option (Member × Bool)
  | .ret _ => none
  | .access m w _ _ => some (m, w)

/-- Sequencing. -/
def Code.bind {α β : Type} : Code α → (α → Code β) → Code β
  | .ret a, f => f a
  | .access m w g k, f => .access m w g fun x => (k x).bind f

/-- A computation that may fail. -/
def Op (α : Type) := Code (Res α)

/-- A local computation. -/
def Op.lift {α : Type} (r : Res α) : Op α := Code.ret r

/-- A failure ends the computation. -/
instance : Monad Op where
  pure a := Code.ret (.ok a)
  bind p f := Code.bind p fun r => match r with
    | .ok a => f a
    | .error e => Code.ret (.error e)

/-- Reading a member. -/
def Op.read (m : Member) : Op m.Held := Code.access m false id fun x => Code.ret (.ok x)

/-- Modifying a member. -/
def Op.modify (m : Member) (f : m.Held → m.Held) : Op Unit := Code.access m true f fun _ => Code.ret (.ok ())

/-! ### encode -/

/-- `added_vocabulary.cpp:206-239`: as `matchSegs`; `added_tokens_map_r[id]` is a modification. -/
def matchSegsC (sentence : Str) (total : Nat) : List (Nat × Nat × Int) → Nat → Op (List TSeg)
  | [], startOffset =>
    pure (if startOffset ≠ total then [(none, (startOffset, total))] else [])
  | (start, stop, id) :: r, startOffset =>
    Code.access .mapR true (fun (m : List (Int × AddedToken)) => mapInsert m id {}) fun (m : List (Int × AddedToken)) =>
      let t := (mapFind m id).getD {}
      (do
        if (← Op.lift (wordOk t sentence start stop)) then
          let start := if t.lstrip then max (spaceLeftmostAtEnd (sentence.take start)) startOffset else start
          let stop ← Op.lift (if t.rstrip then do pure (stop + spaceRightmostAtStart (← substrFrom sentence stop))
                     else pure stop)
          let rest ← matchSegsC sentence total r stop
          return (if startOffset < start then [(none, (startOffset, start))] else []) ++
            (some id, (start, stop)) :: rest
        else matchSegsC sentence total r startOffset : Op (List TSeg))

/-- `added_vocabulary.cpp:173-241` `find_matches`. -/
def findMatchesC (sentence : Str) (trie : List (Str × Int)) : Op (List TSeg) :=
  let u := fromUTF8 sentence
  matchSegsC sentence u.length (scan (wordIds trie) u u 0 0) 0

/-- `added_vocabulary.cpp:250-271`: as `firstSplits`; `split_non_normalized_trie` is copied for the call of `find_matches`.
The copy is taken after the conversion of the text (the order of the two is unspecified). -/
def firstSplitsC (w : WStr) : Op PTS := do
  let p ← Op.lift (PTS.ofNS (NS.ofText w))
  let text ← Op.lift (convertToString w)
  let trie : List (Str × Int) ← Op.read .nonNormTrie
  let segs ← findMatchesC text trie
  let splits ← Op.lift (segSplits w 0 segs)
  return if splits = [] then p else { p with splits }

/-- `added_vocabulary.cpp:282-314`: as `normalizeSplit`; `split_normalized_trie` is copied. -/
def normalizeSplitC (P : Platform) (norm : Option Normalizer) (ns : NS) (ending : Nat) (s : Split) : Op (NS × List Split × Nat) := do
  let (ns, sub, text) ← Op.lift (do
    let sub ← normalizeOpt P norm (NS.ofText (← convertFromString s.normalized))
    if ending + s.offsets.2 < s.offsets.1 then .error (.ub .outOfBounds)
    else do
      let ns ← ns.transformRange ending (ending + s.offsets.2 - s.offsets.1) sub
      let text ← convertToString sub.normalized
      return (ns, sub, text) : Res (NS × NS × Str))
  let trie : List (Str × Int) ← Op.read .normTrie
  let segs ← findMatchesC text trie
  let splits ← Op.lift (segSplits sub.normalized ending segs)
  return (ns, splits, sub.normalized.length)

/-- `added_vocabulary.cpp:275-315`: as `normalizeLoop`. -/
def normalizeLoopC (P : Platform) (norm : Option Normalizer) : NS → Nat → List Split → Op (NS × List Split)
  | ns, _, [] => pure (ns, [])
  | ns, ending, s :: r =>
    if s.tokens ≠ [] then do
      let (ns', rest) ← normalizeLoopC P norm ns (ending + s.normalized.length) r
      return (ns', { s with offsets := (ending, ending + s.normalized.length) } :: rest)
    else do
      let (ns', here, n) ← normalizeSplitC P norm ns ending s
      let (ns'', rest) ← normalizeLoopC P norm ns' (ending + n) r
      return (ns'', here ++ rest)

/-- `added_vocabulary.cpp:248-321` `extract_and_normalize`. -/
def extractC (P : Platform) (norm : Option Normalizer) (w : WStr) : Op PTS := do
  let p ← firstSplitsC w
  let (ns, splits) ← normalizeLoopC P norm p.normalized 0 p.splits
  return { normalized := ns, splits := if splits = [] then p.splits else splits }

/-- `model.cpp:421-436` `BPE::tokenize_with_cache`. -/
def tokenizeWithCacheC (P : Platform) (m : BPE) (s : Str) : Op (List Token) :=
  match (if m.ignoreMerges then mapFind m.vocab s else none) with
  | some i => pure [{ id := i, value := s, offsets := (0, 0) }]
  | none => do
    let cache : List (Str × List Symbol) ← Op.read .cache
    match mapFind cache s with
      | some w => Op.lift (m.wordToTokens 0 w)
      | none => do
        let w ← Op.lift (m.mergeWord P s)
        let ts ← Op.lift (m.wordToTokens 0 w)
        Op.modify .cache fun (c : List (Str × List Symbol)) => mapInsert c s w
        return ts

/-- `model.cpp:440-446`: one split. -/
def wordC (P : Platform) (m : BPE) (s : Str) : Op (List Token) :=
  if m.dropout.on = false then tokenizeWithCacheC P m s
  else Op.lift (do m.wordToTokens 0 (← m.mergeWord P s))

/-- `model.cpp:439-447`: the loop over splits. -/
def splitsLoopC (P : Platform) (m : BPE) : List Split → Op (List Split)
  | [] => pure []
  | s :: r => do
    let ts ← wordC P m s.normalized
    let rest ← splitsLoopC P m r
    return { s with tokens := ts } :: rest

/-- `Model::tokenize`. -/
def tokenizeC (P : Platform) : Model → PTS → Op PTS
  | .wordPiece m, p => pure (m.tokenize p)
  | .bpe m, p => do return { p with splits := ← splitsLoopC P m p.splits }

/-- `tokenizer.cpp:94-102`. -/
def preTokenizedC (P : Platform) (t : Tokenizer) (w : WStr) : Op PTS := do
  let p ← Op.lift (PTS.ofNS (NS.ofText w))
  let p ← if t.added.isSome then extractC P t.normalizer w else pure p
  Op.lift (match t.preTokenizer with
    | none => .ok p
    | some pt => pt.run P p)

/-- `tokenizer.cpp:164-171` `do_tokenize`. -/
def doTokenizeC (P : Platform) (t : Tokenizer) (p : PTS) : Op Encoding :=
  match t.model with
  | none => Op.lift (intoEncoding p none 0)
  | some m => do Op.lift (intoEncoding (← tokenizeC P m p) none 0)

/-- `tokenizer.cpp:92-105` `Tokenizer::encode`. -/
def encodeC (P : Platform) (t : Tokenizer) (w : WStr) (addSpecial : Bool) : Op Encoding := do
  let p ← preTokenizedC P t w
  let e ← doTokenizeC P t p
  Op.lift (t.doPostProcess e addSpecial)

/-! ### decode -/

/-- `tokenizer.cpp:110-121`: the token of one id; `added_vocabulary.cpp:47-53` `id_to_token`. -/
def idTokenC (t : Tokenizer) (id : Int) : Op Str :=
  if t.added.isSome then do
    let m : List (Int × AddedToken) ← Op.read .mapR
    Op.lift (match mapFind m id with
      | some e => .ok e.content
      | none =>
        match t.model with
        | none => .error (.ub .nullDeref)
        | some m =>
          match idToToken m.vocab id with
          | some s => .ok s
          | none => .error (.throws .badOptionalAccess))
  else Op.lift (.error (.ub .nullDeref))

/-- `tokenizer.cpp:110-121`: the loop over ids; `is_special_token` is only asked when special tokens are to be skipped. -/
def idTokensC (t : Tokenizer) (skip : Bool) : List Int → Op (List Str)
  | [] => pure []
  | i :: r => do
    let s ← idTokenC t i
    if skip then
      let set : List Str ← Op.read .specialSet
      let rest ← idTokensC t skip r
      return if set.contains s then rest else s :: rest
    else
      let rest ← idTokensC t skip r
      return s :: rest

/-- `tokenizer.cpp:107-124` `Tokenizer::decode`. -/
def decodeC (t : Tokenizer) (ids : List Int) (skip : Bool) : Op Str := do
  let tokens ← idTokensC t skip ids
  Op.lift (match t.decoder with
    | none => .error (.ub .nullDeref)
    | some d => do return concat (← d.run tokens))

/-! ### add_tokens -/

/-- `added_vocabulary.cpp:57-63`: the first loop of `add_tokens`. -/
def registerSpecialsC : List AddedToken → Op Unit
  | [] => pure ()
  | t :: r =>
    if t.special = true ∧ t.content ≠ [] then do
      let set : List Str ← Op.read .specialSet
      if set.contains t.content then registerSpecialsC r
      else
        Op.modify .specialTokens fun (l : List AddedToken) => l ++ [t]
        Op.modify .specialSet fun (l : List Str) => l ++ [t.content]
        registerSpecialsC r
    else registerSpecialsC r

/-- `added_vocabulary.cpp:72-92`: the id of a token; `std::max_element` reads the table once more. -/
def newIdC (model : Option Vocab) (content : Str) : Op Int := do
  let map : List (Str × Int) ← Op.read .map
  match mapFind map content with
  | some i => pure i
  | none =>
    match model with
    | none => Op.lift (.error (.ub .nullDeref))
    | some v =>
      match tokenToId v content with
      | some i => pure i
      | none => do
        let map : List (Str × Int) ← Op.read .map
        match maxId map with
        | none => if vocabSize v = 0 then Op.lift (.error (.ub .endDeref)) else pure (vocabSize v)
        | some w => if vocabSize v = 0 ∨ w ≥ vocabSize v then pure (w + 1) else pure (vocabSize v)

/-- `added_vocabulary.cpp:66-99`: the second loop of `add_tokens`, for a list of the caller. -/
def assignIdsC (model : Option Vocab) : List AddedToken → Op Unit
  | [] => pure ()
  | t :: r =>
    if t.content = [] then assignIdsC model r
    else do
      let i ← newIdC model t.content
      Op.modify .map fun (m : List (Str × Int)) => mapSet m t.content i
      Op.modify .mapR fun (m : List (Int × AddedToken)) => mapSet m i t
      let set : List Str ← Op.read .specialSet
      if set.contains t.content then assignIdsC model r
      else
        Op.modify .addedTokens fun (l : List AddedToken) => l ++ [t]
        assignIdsC model r

/-- `added_vocabulary.cpp:106-145` `refresh_added_tokens`. -/
def refreshC (model : Option Vocab) : Op Unit := do
  let specials : List AddedToken ← Op.read .specialTokens
  let added : List AddedToken ← Op.read .addedTokens
  match model with
  | none =>
    if specials = [] ∧ added = [] then
      Op.modify .normTrie fun _ => ([] : List (Str × Int))
      Op.modify .nonNormTrie fun _ => ([] : List (Str × Int))
    else Op.lift (.error (.ub .nullDeref))
  | some v =>
    Op.modify .normTrie fun _ => (trieOf v true specials ++ trieOf v true added : List (Str × Int))
    Op.modify .nonNormTrie fun _ => (trieOf v false specials ++ trieOf v false added : List (Str × Int))

/-- `tokenizer.cpp:126-133` `Tokenizer::add_tokens`, `Tokenizer::add_special_tokens` (the same, `added_vocabulary.cpp:243-246`);
`added_vocabulary.cpp:55-104`. -/
def addTokensC (t : Tokenizer) (l : List AddedToken) : Op Nat :=
  if t.added.isSome then do
    registerSpecialsC l
    assignIdsC (t.model.map Model.vocab) l
    refreshC (t.model.map Model.vocab)
    return l.length - (l.filter fun x => x.content = []).length
  else Op.lift (.error (.ub .nullDeref))

/-! ### Threads -/

/-- Threads, each in the middle of a call, and the members they share. -/
structure Threads (α : Type) where
  codes : List (Code α)
  store : Store

/-- Thread number `i` makes its next access. -/
def Threads.step {α : Type} (s : Threads α) (i : Nat) : Threads α :=
  match s.codes[i]? with
  | none => s
  | some p => { codes := s.codes.set i (p.step s.store).1, store := (p.step s.store).2 }

/-- A schedule: the numbers of the threads, in the order in which they make their accesses. -/
def Threads.run {α : Type} (s : Threads α) : List Nat → Threads α
  | [] => s
  | i :: r => (s.step i).run r

/-- Two threads are about to access the same member, and one access is a modification: undefined behaviour ([intro.races]). -/
def Threads.Race {α : Type} (s : Threads α) : Prop :=
  ∃ (i j : Nat) (p q : Code α) (m : Member) (x y : Bool), i ≠ j ∧ s.codes[i]? = some p ∧ s.codes[j]? = some q ∧
    p.next = some (m, x) ∧ q.next = some (m, y) ∧ (x || y) = true

/-- The members of an added vocabulary and a cache. -/
def storeOf (a : AddedVocab) (c : List (Str × List Symbol)) : Store
  | .addedTokens => a.addedTokens
  | .map => a.map
  | .mapR => a.mapR
  | .specialTokens => a.specialTokens
  | .specialSet => a.specialSet
  | .nonNormTrie => a.nonNormTrie
  | .normTrie => a.normTrie
  | .cache => c

/-- The members of a tokenizer. -/
def Tokenizer.store (t : Tokenizer) : Store :=
  storeOf (t.added.getD { addedTokens := [] }) (match t.model with
    | some (.bpe m) => m.cache
    | _ => [])

end Tok
