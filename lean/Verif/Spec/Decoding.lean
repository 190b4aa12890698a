import Verif.Spec.Numbering
import Verif.Spec.Decoder
import Verif.Spec.Split

set_option autoImplicit false

/-!
Specification of decoding: from ids to tokens, and from tokens to text, for every decoder.
-/

namespace Tok.Spec

/-! ### Reading bytes as UTF-8 -/

/-- The bytes begin the UTF-8 form of some character. -/
def StartsChar (b : Str) : Prop := ∃ (c : Nat) (x : Str), Utf8Char c (b ++ x)

/-- `Reads s w`: the bytes `s`, read as UTF-8, are the code points `w`.  Where no well-formed character starts,
the longest beginning of one (or a single byte, if there is none) is read as one U+FFFD. -/
inductive Reads : Str → WStr → Prop
  | nil : Reads [] []
  | char {c : Nat} {b s : Str} {w : WStr} : Utf8Char c b → Reads s w → Reads (b ++ s) (c :: w)
  | broken {b s : Str} {w : WStr} : (∀ c x y, Utf8Char c x → b ++ s ≠ x ++ y) → (b.length = 1 ∨ 1 < b.length ∧ StartsChar b) →
      (∀ x y, b ++ s = x ++ y → b.length < x.length → ¬ StartsChar x) → Reads s w → Reads (b ++ s) (0xFFFD :: w)

/-! ### Decoders -/

/-- The byte-level decoder writes the low byte of every code point: once below U+10000, twice from there on. -/
def lowBytes (w : WStr) : Str := w.flatMap fun c => if c < 0x10000 then [c % 256] else [c % 256, c % 256]

/-- The clean-up replacements of the word-piece decoder, in order. -/
def cleanups : List (Str × Str) :=
  [(b!" .", b!"."), (b!" ?", b!"?"), (b!" !", b!"!"), (b!" ,", b!","), (b!" ' ", b!"'"),
   (b!" n't", b!"n't"), (b!" 'm", b!"'m"), (b!" do not", b!" don't"), (b!" 's", b!"'s"),
   (b!" 've", b!"'ve"), (b!" 're", b!"'re")]

/-- All replacements, one after the other. -/
inductive ReplacedAll : List (Str × Str) → Str → Str → Prop
  | nil (s : Str) : ReplacedAll [] s s
  | cons {r : Str × Str} {l : List (Str × Str)} {s t u : Str} : Replaced r.1 r.2 s t → ReplacedAll l t u →
      ReplacedAll (r :: l) s u

/-- A token that is not the first loses the continuation prefix, or has a space put in front of it. -/
inductive Attached (pre : Str) : Str → Str → Prop
  | continued (t : Str) : Attached pre (pre ++ t) t
  | new {t : Str} : (∀ x, t ≠ pre ++ x) → Attached pre t (b!" " ++ t)

/-- With clean-up every token is cleaned up on its own. -/
def Tidied (cleanup : Bool) (s t : Str) : Prop :=
  (cleanup = true → ReplacedAll cleanups s t) ∧ (cleanup = false → t = s)

/-- What a decoder makes of a list of tokens. -/
inductive Decodes : Decoder → List Str → List Str → Prop
  | wordPieceNone (pre : Str) (cleanup : Bool) : Decodes (.wordPiece pre cleanup) [] []
  | wordPiece {pre : Str} {cleanup : Bool} {t o : Str} {r r' os : List Str} : Each (Attached pre) r r' →
      Tidied cleanup t o → Each (Tidied cleanup) r' os → Decodes (.wordPiece pre cleanup) (t :: r) (o :: os)
  | byteLevel {ts : List Str} {ws : List WStr} : Each Reads ts ws → Decodes .byteLevel ts [ws.flatMap lowBytes]
  | replace (p c : Str) (ts : List Str) : Decodes (.replace p c) ts []
  | byteFallback (ts : List Str) : Decodes .byteFallback ts []
  | fuse (ts : List Str) : Decodes .fuse ts []
  | strip (c : Str) (i j : Int) (ts : List Str) : Decodes (.strip c i j) ts []
  | seqNil (ts : List Str) : Decodes (.seq []) ts ts
  | seqCons {d : Decoder} {l : List Decoder} {ts us vs : List Str} : Decodes d ts us → Decodes (.seq l) us vs →
      Decodes (.seq (d :: l)) ts vs

/-! ### From ids to text -/

/-- The tokens that a call gives to the tokenizer. -/
def Call.tokens : Call → List AddedToken
  | .addTokens l => l
  | .addSpecialTokens l => l
  | _ => []

/-- A text is special if a non-empty token with this content was given as special. -/
def GivenSpecial (given : List AddedToken) (s : Str) : Prop := s ≠ [] ∧ ∃ x ∈ given, x.special = true ∧ x.content = s

/-- `Kept given skip ts us`: of the tokens `ts`, the special ones are left out if they are to be skipped. -/
inductive Kept (given : List AddedToken) (skip : Bool) : List Str → List Str → Prop
  | nil : Kept given skip [] []
  | out {s : Str} {ts us : List Str} : skip = true → GivenSpecial given s → Kept given skip ts us →
      Kept given skip (s :: ts) us
  | keep {s : Str} {ts us : List Str} : (skip = true → ¬ GivenSpecial given s) → Kept given skip ts us →
      Kept given skip (s :: ts) (s :: us)

/-- The outcome of `decode` when the tokens `given` have the numbers `f` and the model has the vocabulary `v`:
with an id that nobody knows it throws `bad_optional_access`; otherwise the tokens of the ids, without the special
ones if so wanted, go through the decoder, and what it makes of them is put together. -/
inductive DecodeOutcome (v : Vocab) (given : List AddedToken) (f : Str → Option Int) (d : Decoder) (ids : List Int)
    (skip : Bool) : Res Str → Prop
  | throws {i : Int} : i ∈ ids → contentOf v (given.map (·.content)) f i = none →
      DecodeOutcome v given f d ids skip (.error (.throws .badOptionalAccess))
  | text {ts us os : List Str} : Each (fun i s => contentOf v (given.map (·.content)) f i = some s) ids ts →
      Kept given skip ts us → Decodes d us os → DecodeOutcome v given f d ids skip (.ok os.flatten)

end Tok.Spec
