import Verif.BPE

set_option autoImplicit false

/-
`include/tokenizers/added_vocabulary.h`, `src/added_vocabulary.cpp`.
-/

namespace Tok

/-- `added_vocabulary.h:18-32` `AddedToken` (defaults as in `added_vocabulary.cpp:21-28`). -/
structure AddedToken where
  id : Int := 0
  content : Str := []
  singleWord : Bool := false
  lstrip : Bool := false
  rstrip : Bool := false
  normalized : Bool := true
  special : Bool := false
  deriving DecidableEq, Repr

/-- `added_vocabulary.h:34-60` `AddedVocabulary`.  The member `encode_special_tokens` is
always false (`added_vocabulary.cpp:41`) and therefore left out. -/
structure AddedVocab where
  addedTokens : List AddedToken
  map : List (Str × Int) := []
  mapR : List (Int × AddedToken) := []
  specialTokens : List AddedToken := []
  specialSet : List Str := []
  nonNormTrie : List (Str × Int) := []
  normTrie : List (Str × Int) := []
  deriving DecidableEq, Repr

/-- `added_vocabulary.cpp:40-41` constructor. -/
def AddedVocab.init (l : List AddedToken) : AddedVocab := { addedTokens := l }

/-- `added_vocabulary.cpp:43-45` `is_special_token`. -/
def AddedVocab.isSpecial (a : AddedVocab) (t : Str) : Bool := a.specialSet.contains t

/-- `added_vocabulary.cpp:47-53` `id_to_token`. -/
def AddedVocab.idToToken (a : AddedVocab) (i : Int) : Option Str :=
  (mapFind a.mapR i).map (·.content)

/-- `added_vocabulary.cpp:57-63`: the first loop of `add_tokens`. -/
def registerSpecials : List AddedToken → AddedVocab → AddedVocab
  | [], a => a
  | t :: r, a =>
    if t.special = true ∧ t.content ≠ [] ∧ a.isSpecial t.content = false then
      registerSpecials r { a with specialTokens := a.specialTokens ++ [t],
                                  specialSet := a.specialSet ++ [t.content] }
    else registerSpecials r a

/-- Largest value of the map (`std::max_element`), `none` for an empty map. -/
def maxId : List (Str × Int) → Option Int
  | [] => none
  | (_, v) :: r =>
    match maxId r with
    | none => some v
    | some w => some (if v < w then w else v)

/-- `added_vocabulary.cpp:72-92`: the id of a token.  `model` is null when `none`. -/
def newId (a : AddedVocab) (model : Option Vocab) (content : Str) : Res Int :=
  match mapFind a.map content with
  | some i => .ok i
  | none =>
    match model with
    | none => .error (.ub .nullDeref)
    | some v =>
      match tokenToId v content with
      | some i => .ok i
      | none =>
        match maxId a.map with
        | none => if vocabSize v = 0 then .error (.ub .endDeref) else .ok (vocabSize v)
        | some w => if vocabSize v = 0 ∨ w ≥ vocabSize v then .ok (w + 1) else .ok (vocabSize v)

/-- `added_vocabulary.cpp:66-99`: the second loop of `add_tokens`.  `aliased` tells
whether `tokens` is the member `added_tokens` itself (`tokenizer.cpp:88`): pushing to it
then invalidates the iterators of the loop. -/
def assignIds (model : Option Vocab) (aliased : Bool) : List AddedToken → AddedVocab → Res AddedVocab
  | [], a => .ok a
  | t :: r, a =>
    if t.content = [] then assignIds model aliased r a
    else do
      let i ← newId a model t.content
      let a := { a with map := mapSet a.map t.content i, mapR := mapSet a.mapR i t }
      if a.isSpecial t.content then assignIds model aliased r a
      else if aliased then .error (.ub .invalidIterator)
      else assignIds model aliased r { a with addedTokens := a.addedTokens ++ [t] }

/-- `added_vocabulary.cpp:108-144`: the entries of the two lookup tables, for one list of
tokens; only tokens of the model vocabulary are entered. -/
def trieOf (v : Vocab) (norm : Bool) (l : List AddedToken) : List (Str × Int) :=
  l.filterMap fun t =>
    match tokenToId v t.content with
    | some i => if t.normalized = norm then some (t.content, i) else none
    | none => none

/-- `added_vocabulary.cpp:106-145` `refresh_added_tokens`. -/
def AddedVocab.refresh (a : AddedVocab) (model : Option Vocab) : Res AddedVocab :=
  match model with
  | none => if a.specialTokens = [] ∧ a.addedTokens = [] then .ok { a with nonNormTrie := [], normTrie := [] }
            else .error (.ub .nullDeref)
  | some v =>
    .ok { a with
      normTrie := trieOf v true a.specialTokens ++ trieOf v true a.addedTokens
      nonNormTrie := trieOf v false a.specialTokens ++ trieOf v false a.addedTokens }

/-- `added_vocabulary.cpp:55-104` `add_tokens`; returns the result of the call and the
new state.  The count is `tokens.size() - ignored`. -/
def AddedVocab.addTokensCore (a : AddedVocab) (model : Option Vocab) (aliased : Bool)
    (tokens : List AddedToken) : Res (Nat × AddedVocab) := do
  let a ← assignIds model aliased tokens (registerSpecials tokens a)
  let a ← a.refresh model
  return (tokens.length - (tokens.filter fun t => t.content = []).length, a)

/-- `add_tokens` with a list of the caller. -/
def AddedVocab.addTokens (a : AddedVocab) (model : Option Vocab) (tokens : List AddedToken) :
    Res (Nat × AddedVocab) := a.addTokensCore model false tokens

/-- `added_vocabulary.cpp:243-246` `add_special_tokens`. -/
def AddedVocab.addSpecialTokens (a : AddedVocab) (model : Option Vocab)
    (tokens : List AddedToken) : Res (Nat × AddedVocab) := a.addTokens model tokens

/-- `\w` of `std::regex` on a byte, "C" locale. -/
def isWordByte (b : Nat) : Bool :=
  (0x30 ≤ b && b ≤ 0x39) || (0x41 ≤ b && b ≤ 0x5A) || (0x61 ≤ b && b ≤ 0x7A) || b = 0x5F

/-- `added_vocabulary.cpp:147-149` `ends_with_word`. -/
def endsWithWord (s : Str) : Bool := match s.getLast? with | some b => isWordByte b | none => false
/-- `added_vocabulary.cpp:151-153` `starts_with_word`. -/
def startsWithWord (s : Str) : Bool := match s.head? with | some b => isWordByte b | none => false
/-- `added_vocabulary.cpp:155-162` `space_leftmost_at_end`: `\s*$` always matches, first
at the start of the trailing white space. -/
def spaceLeftmostAtEnd (s : Str) : Nat := s.length - (s.reverse.takeWhile isspaceC).length
/-- `added_vocabulary.cpp:164-171` `space_rightmost_at_start`. -/
def spaceRightmostAtStart (s : Str) : Nat := (s.takeWhile isspaceC).length

/-- `added_vocabulary.cpp:179-182`: `word_ids`, the last entry of a key wins. -/
def wordIds (trie : List (Str × Int)) : List (Str × Int) :=
  trie.foldl (fun m p => mapSet m p.1 p.2) []

/-- `added_vocabulary.cpp:185-203`: the scan.  `rest` is the text from unit `i` on. -/
def scan (ids : List (Str × Int)) (u : U16) : U16 → Nat → Nat → List (Nat × Nat × Int)
  | [], i, cur =>
    if i ≠ cur then
      match mapFind ids (toUTF8String (tempSubString u cur (i - cur))) with
      | some k => [(cur, i, k)]
      | none => []
    else []
  | c :: rest, i, cur =>
    match mapFind ids (toUTF8String (tempSubString u cur (i - cur))) with
    | some k =>
      (cur, i, k) :: scan ids u rest (i + 1) (if c = 0x20 then i + 1 else i)
    | none => scan ids u rest (i + 1) (if c = 0x20 then i + 1 else cur)

/-- A segment of the text and, if it is an added token, its id. -/
abbrev TSeg := Option Int × (Nat × Nat)

/-- `std::string::substr(pos)`. -/
def substrFrom (s : Str) (pos : Nat) : Res Str :=
  if pos ≤ s.length then .ok (s.drop pos) else .error (.throws .outOfRange)

/-- `added_vocabulary.cpp:214-222`: does the `single_word` flag let the match pass? -/
def wordOk (t : AddedToken) (sentence : Str) (start stop : Nat) : Res Bool := do
  if t.singleWord then
    let startSpace := start == 0 || !endsWithWord (sentence.take start)
    let stopSpace ← if stop = sentence.length then pure true
      else do pure (!startsWithWord (← substrFrom sentence stop))
    return stopSpace && startSpace
  else return true

/-- `added_vocabulary.cpp:206-239`: the loop over the matches and the trailing segment.
`added_tokens_map_r[id]` yields a default token for an unknown id. -/
def matchSegs (mapR : List (Int × AddedToken)) (sentence : Str) (total : Nat) :
    List (Nat × Nat × Int) → Nat → Res (List TSeg)
  | [], startOffset =>
    .ok (if startOffset ≠ total then [(none, (startOffset, total))] else [])
  | (start, stop, id) :: r, startOffset => do
    let t := (mapFind mapR id).getD {}
    if (← wordOk t sentence start stop) then
      let start := if t.lstrip then max (spaceLeftmostAtEnd (sentence.take start)) startOffset else start
      let stop ← if t.rstrip then do pure (stop + spaceRightmostAtStart (← substrFrom sentence stop))
                 else pure stop
      let rest ← matchSegs mapR sentence total r stop
      return (if startOffset < start then [(none, (startOffset, start))] else []) ++
        (some id, (start, stop)) :: rest
    else matchSegs mapR sentence total r startOffset

/-- The entries that `added_tokens_map_r[id]` (`added_vocabulary.cpp:209`) inserts as a
side effect. -/
def touchIds : List (Nat × Nat × Int) → List (Int × AddedToken) → List (Int × AddedToken)
  | [], m => m
  | (_, _, id) :: r, m => touchIds r (mapInsert m id {})

/-- `added_vocabulary.cpp:173-241` `find_matches`; also returns the updated
`added_tokens_map_r`.  Simplification: if `substr` threw, the entries of later matches
would be inserted too; it never does (`C117_search`). -/
def AddedVocab.findMatches (a : AddedVocab) (sentence : Str) (trie : List (Str × Int)) :
    Res (List TSeg) × AddedVocab :=
  let u := fromUTF8 sentence
  let ms := scan (wordIds trie) u u 0 0
  (matchSegs a.mapR sentence u.length ms 0, { a with mapR := touchIds ms a.mapR })

/-- `std::wstring::substr(a, b - a)`: a negative count means "to the end". -/
def wsubstr (w : WStr) (a b : Nat) : Res WStr :=
  if a ≤ w.length then .ok (if a ≤ b then (w.drop a).take (b - a) else w.drop a)
  else .error (.throws .outOfRange)

/-- `added_vocabulary.cpp:256-268, 296-312`: the splits of the segments of a text;
`base` is added to the offsets. -/
def segSplits (w : WStr) (base : Nat) : List TSeg → Res (List Split)
  | [] => .ok []
  | (id, (a, b)) :: r => do
    let value ← convertToString (← wsubstr w a b)
    let rest ← segSplits w base r
    let toks := match id with
      | some i => [{ id := i, value, offsets := (0, value.length) }]
      | none => []
    return { normalized := value, offsets := (a + base, b + base), tokens := toks } :: rest

/-- `added_vocabulary.cpp:285-287`: `normalizer` may be null. -/
def normalizeOpt (P : Platform) (n : Option Normalizer) (s : NS) : Res NS :=
  match n with
  | some n => n.run P s
  | none => .ok s

/-- `added_vocabulary.cpp:282-314`: the body of the second loop for a split that is not
an added token.  Returns the new offset table, the new splits and the length of the
normalized text. -/
def normalizeSplit (P : Platform) (norm : Option Normalizer) (a : AddedVocab) (ns : NS)
    (ending : Nat) (s : Split) : Res (NS × List Split × Nat) × AddedVocab :=
  let pre : Res (NS × NS × Str) := do
    let sub ← normalizeOpt P norm (NS.ofText (← convertFromString s.normalized))
    if ending + s.offsets.2 < s.offsets.1 then .error (.ub .outOfBounds)
    else do
      let ns ← ns.transformRange ending (ending + s.offsets.2 - s.offsets.1) sub
      let text ← convertToString sub.normalized
      return (ns, sub, text)
  match pre with
  | .error e => (.error e, a)
  | .ok (ns, sub, text) =>
    let (ms, a') := a.findMatches text a.normTrie
    (do
      let segs ← ms
      let splits ← segSplits sub.normalized ending segs
      return (ns, splits, sub.normalized.length), a')

/-- `added_vocabulary.cpp:275-315`: the second loop. -/
def normalizeLoop (P : Platform) (norm : Option Normalizer) :
    AddedVocab → NS → Nat → List Split → Res (NS × List Split) × AddedVocab
  | a, ns, _, [] => (.ok (ns, []), a)
  | a, ns, ending, s :: r =>
    if s.tokens ≠ [] then
      match normalizeLoop P norm a ns (ending + s.normalized.length) r with
      | (.error e, a') => (.error e, a')
      | (.ok (ns', rest), a') =>
        (.ok (ns', { s with offsets := (ending, ending + s.normalized.length) } :: rest), a')
    else
      match normalizeSplit P norm a ns ending s with
      | (.error e, a') => (.error e, a')
      | (.ok (ns', here, n), a') =>
        match normalizeLoop P norm a' ns' (ending + n) r with
        | (.error e, a'') => (.error e, a'')
        | (.ok (ns'', rest), a'') => (.ok (ns'', here ++ rest), a'')

/-- `added_vocabulary.cpp:250-271`: the splits on tokens that are matched before
normalization. -/
def AddedVocab.firstSplits (a : AddedVocab) (w : WStr) : Res PTS × AddedVocab :=
  match PTS.ofNS (NS.ofText w) with
  | .error e => (.error e, a)
  | .ok p =>
    match convertToString w with
    | .error e => (.error e, a)
    | .ok text =>
      let (ms, a') := a.findMatches text a.nonNormTrie
      (do
        let segs ← ms
        let splits ← segSplits w 0 segs
        return if splits = [] then p else { p with splits }, a')

/-- `added_vocabulary.cpp:248-321` `extract_and_normalize`. -/
def AddedVocab.extract (P : Platform) (norm : Option Normalizer) (a : AddedVocab) (w : WStr) :
    Res PTS × AddedVocab :=
  match a.firstSplits w with
  | (.error e, a') => (.error e, a')
  | (.ok p, a') =>
    match normalizeLoop P norm a' p.normalized 0 p.splits with
    | (.error e, a'') => (.error e, a'')
    | (.ok (ns, splits), a'') =>
      (.ok { normalized := ns, splits := if splits = [] then p.splits else splits }, a'')

end Tok
