import Verif.PreTokenizer

set_option autoImplicit false

/-
`src/model.cpp:111-199`: the common model base class and WordPiece.
-/

namespace Tok

/-- `std::unordered_map<std::string, int> vocab`: entries with distinct keys, listed in
the (unspecified) iteration order of the map. -/
abbrev Vocab := List (Str × Int)

/-- `model.cpp:111-115` constructor `Model`: `vocab_r[pair.second] = pair.first`. -/
def vocabR (v : Vocab) : List (Int × Str) := v.foldl (fun m p => mapSet m p.2 p.1) []

/-- `model.cpp:117` `get_vocab_size`. -/
def vocabSize (v : Vocab) : Int := v.length

/-- `model.cpp:119-125` `token_to_id`. -/
def tokenToId (v : Vocab) (t : Str) : Option Int := mapFind v t

/-- `model.cpp:127-133` `id_to_token`. -/
def idToToken (v : Vocab) (i : Int) : Option Str := mapFind (vocabR v) i

/-- `model.h:42-52` `WordPiece`. -/
structure WordPiece where
  vocab : Vocab
  unkToken : Str
  maxChars : Int
  pre : Str

/-- `model.cpp:149-155, 188-194`: the answer for a word that cannot be segmented. -/
def WordPiece.unk (m : WordPiece) (charLen : Nat) : List Token :=
  match mapFind m.vocab m.unkToken with
  | none => [{ id := 0, value := m.unkToken, offsets := (0, charLen) }]
  | some i => [{ id := i, value := m.unkToken, offsets := (0, charLen) }]

/-- `model.cpp:164-170`: the candidate piece for `[start, stop)`. -/
def WordPiece.piece (m : WordPiece) (u : U16) (start stop : Nat) : Str :=
  let sub := toUTF8String (tempSubString u start (stop - start))
  if start > 0 then m.pre ++ sub else sub

/-- `model.cpp:163-179`: the inner loop, `k = end - start` counts down to 0.  Returns
the token for the longest matching piece. -/
def WordPiece.longest (m : WordPiece) (u : U16) (start : Nat) : Nat → Option Token
  | 0 => none
  | k + 1 =>
    let sub := m.piece u start (start + (k + 1))
    match mapFind m.vocab sub with
    | some i => some { id := i, value := sub, offsets := (start, start + (k + 1)) }
    | none => WordPiece.longest m u start k

/-- `model.cpp:160-186`: the outer loop; `none` stands for `is_bad`.  Each round consumes
at least one unit, so `u.length - start` rounds suffice; the fuel is that number. -/
def WordPiece.loop (m : WordPiece) (u : U16) : Nat → Nat → Option (List Token)
  | fuel, start =>
    if start < u.length then
      match fuel with
      | 0 => none
      | fuel + 1 =>
        match m.longest u start (u.length - start) with
        | none => none
        | some t => (WordPiece.loop m u fuel t.offsets.2).map (t :: ·)
    else some []

/-- `model.cpp:145-196`: the body of the loop over splits. -/
def WordPiece.word (m : WordPiece) (s : Str) : List Token :=
  let u := fromUTF8 s
  if (u.length : Int) > m.maxChars then m.unk u.length
  else
    match m.loop u u.length 0 with
    | none => m.unk u.length
    | some ts => ts

/-- `model.cpp:143-199` `WordPiece::tokenize`.  Splits that already carry tokens are
tokenized again. -/
def WordPiece.tokenize (m : WordPiece) (p : PTS) : PTS :=
  { p with splits := p.splits.map fun s => { s with tokens := m.word s.normalized } }

end Tok
