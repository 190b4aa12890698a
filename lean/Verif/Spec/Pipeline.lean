import Verif.Spec.Reference
import Verif.Spec.Normalized
import Verif.Spec.Bytes
import Verif.Spec.BPE
import Verif.Spec.Truncation

set_option autoImplicit false

/-!
The ids of a text for any configuration: added tokens and normalization, pre-tokenization, the model, truncation,
post-processing, padding.
-/

namespace Tok.Spec

/-- A text cut at the matches `ms`, which are given by their positions in UTF-16 units; the text starts at position `pos`.
The stretches between matches are pieces unless they are empty; with `keep`, so are the matches, empty or not. -/
inductive CutsAt (keep : Bool) : Nat → List (Nat × Nat) → WStr → List WStr → Prop
  | done {pos : Nat} : CutsAt keep pos [] [] []
  | rest {pos : Nat} {w : WStr} : w ≠ [] → CutsAt keep pos [] w [w]
  | gap {pos a b : Nat} {ms : List (Nat × Nat)} {g w : WStr} {l : List WStr} : g ≠ [] → a = pos + units g →
      CutsAt keep a ((a, b) :: ms) w l → CutsAt keep pos ((a, b) :: ms) (g ++ w) (g :: l)
  | here {a b : Nat} {ms : List (Nat × Nat)} {m w : WStr} {l : List WStr} : b = a + units m →
      CutsAt keep b ms w l → CutsAt keep a ((a, b) :: ms) (m ++ w) (if keep then m :: l else l)

/-- The text `w` cut at the matches of the regex `pattern`. -/
def CutByRegex (P : Platform) (keep : Bool) (pattern : Str) (w : WStr) (l : List WStr) : Prop :=
  ∃ find u, P.regex pattern = some find ∧ Utf16Text w u ∧ CutsAt keep 0 (find u) w l

/-- Each piece that is no added token is cut as `R` says. -/
def CutItems (R : WStr → List WStr → Prop) (items items' : List (WStr × Bool)) : Prop :=
  ∃ groups, Each (fun (x : WStr × Bool) g => if x.2 = true then g = [x] else ∃ l, R x.1 l ∧ g = l.map fun v => (v, false)) items groups ∧
    items' = groups.flatten

/-- A text in the middle of pre-tokenization: the text as it was given to `encode`, and its pieces, with a note of whether
each is an added token. -/
abbrev Stage := WStr × List (WStr × Bool)

/-- ByteLevel with `add_prefix_space`: unless the text as it was given begins with white space, a space is put in front of it
and the pieces - whatever has become of them - are replaced by this text. -/
inductive PrefixSpace (P : Platform) : Bool → Stage → Stage → Prop
  | off {s : Stage} : PrefixSpace P false s s
  | blank {c : Nat} {w : WStr} {l : List (WStr × Bool)} : P.iswspace c = true → PrefixSpace P true (c :: w, l) (c :: w, l)
  | added {c : Nat} {w : WStr} {l : List (WStr × Bool)} : P.iswspace c = false →
      PrefixSpace P true (c :: w, l) (0x20 :: c :: w, [(0x20 :: c :: w, false)])

/-- The text is replaced by its bytes, written in the byte alphabet. -/
def InBytes (v v' : WStr) : Prop := ∃ bytes, Utf8Text v bytes ∧ v' = byteText bytes

mutual
/-- What a pre-tokenizer does. -/
inductive PreTokenizes (P : Platform) : PreTokenizer → Stage → Stage → Prop
  | bert {w : WStr} {l l' : List (WStr × Bool)} :
      CutItems (fun v vs => vs = (bertPieces P.reSpace P.rePunct v).map (·.2)) l l' → PreTokenizes P .bert (w, l) (w, l')
  | split {pattern : Str} {behavior : Behavior} {invert : Bool} {w : WStr} {l l' : List (WStr × Bool)} :
      CutItems (CutByRegex P (behavior == .isolated) pattern) l l' → PreTokenizes P (.split pattern behavior invert) (w, l) (w, l')
  /-- ByteLevel: added tokens are not cut, but are written in bytes as well. -/
  | byteLevel {addPrefixSpace useRegex : Bool} {w w' : WStr} {l l0 l1 l' : List (WStr × Bool)} :
      PrefixSpace P addPrefixSpace (w, l) (w', l0) →
      CutItems (fun v vs => if useRegex = true then CutByRegex P true byteLevelPattern v vs else vs = [v]) l0 l1 →
      Each (fun (x y : WStr × Bool) => InBytes x.1 y.1 ∧ y.2 = x.2) l1 l' →
      PreTokenizes P (.byteLevel addPrefixSpace useRegex) (w, l) (w', l')
  | seq {ts : List PreTokenizer} {s s' : Stage} : PreTokenizesAll P ts s s' → PreTokenizes P (.seq ts) s s'
/-- What a list of pre-tokenizers does, from left to right. -/
inductive PreTokenizesAll (P : Platform) : List PreTokenizer → Stage → Stage → Prop
  | nil {s : Stage} : PreTokenizesAll P [] s s
  | cons {t : PreTokenizer} {ts : List PreTokenizer} {s s' s'' : Stage} : PreTokenizes P t s s' →
      PreTokenizesAll P ts s' s'' → PreTokenizesAll P (t :: ts) s s''
end

/-- What the normalizer makes of a text; without one the text stays. -/
def Normalizes (P : Platform) (norm : Option Normalizer) (w n : WStr) : Prop :=
  match norm with
  | some x => NormalizesTo P x w n
  | none => n = w

/-- The pieces the pre-tokenizer starts with.  Without an added vocabulary there is no normalization. -/
def FirstItems (P : Platform) (t : Tokenizer) (w : WStr) (items : List (WStr × Bool)) : Prop :=
  match t.added with
  | some a => Items a (Normalizes P t.normalizer) w items
  | none => items = [(w, false)]

/-- The words given to the model. -/
def Words (P : Platform) (t : Tokenizer) (w : WStr) (words : List WStr) : Prop :=
  ∃ items w' items', FirstItems P t w items ∧ words = items'.map (·.1) ∧
    match t.preTokenizer with
    | some x => PreTokenizes P x (w, items) (w', items')
    | none => items' = items

/-- What BPE makes of a word (of fewer than 2³¹ bytes, counted with the prefix and suffix of each): the entry of the
vocabulary, with `ignore_merges` and without dropout; otherwise what the merges make of the pieces of the word, which is
final without dropout; the tokens follow each other from position 0 on. -/
def BpeTokens (m : BPE) (lines : List Str) (v : WStr) (ts : List Token) : Prop :=
  ∃ s, Utf8Text v s ∧ (s.length * (m.pre.length + m.suf.length + 1) < 2 ^ 31 →
    (∃ i, m.dropout.on = false ∧ m.ignoreMerges = true ∧ tokenToId m.vocab s = some i ∧
      ts = [{ id := i, value := s, offsets := (0, 0) }]) ∨
    (¬ (m.dropout.on = false ∧ m.ignoreMerges = true ∧ ∃ i, tokenToId m.vocab s = some i) ∧
      ∃ l, Pieces (if m.unkToken = [] then none else tokenToId m.vocab m.unkToken) m.fuseUnk
          (foundAll (tokenToId m.vocab) m.pre m.suf m.byteFallback s) l ∧
        MergeMany (Listed (tokenToId m.vocab) m.pre lines) l (piecesOf ts) ∧ ts ≠ [] ∧
        (m.dropout.on = false → Final (Listed (tokenToId m.vocab) m.pre lines) (piecesOf ts)) ∧
        (∀ t ∈ ts, tokenToId m.vocab t.value = some t.id) ∧
        ∃ stop, Tiles 0 (ts.map (·.offsets)) stop))

/-- What the model, whose merge list is `lines` if it is BPE, makes of a word. -/
def ModelTokens (lines : List Str) : Model → WStr → List Token → Prop
  | .wordPiece m => WordTokens m
  | .bpe m => BpeTokens m lines

/-- The tokens of the text `w`. -/
def TextTokens (P : Platform) (t : Tokenizer) (lines : List Str) (m : Model) (w : WStr) (ts : List Token) : Prop :=
  ∃ words parts, Words P t w words ∧ Each (ModelTokens lines m) words parts ∧ ts = parts.flatten

instance (t : Truncation) (n : Nat) : Decidable (LeftAsIs t n) := by unfold LeftAsIs; infer_instance

/-- What truncation leaves of the entries `l` in the main encoding: the first or the last `max_length` of them, if there is
something to do. -/
def mainPart {α : Type} (t : Option Truncation) (l : List α) : List α :=
  match t with
  | none => l
  | some x =>
    if LeftAsIs x l.length then l
    else match x.direction with
      | .left => l.drop (l.length - x.maxLength.toNat)
      | .right => l.take x.maxLength.toNat
      | .unknown => l

mutual
/-- What a post-processor makes of the entries `l` of a text; `of` gives the entries of a special token. -/
def arranged {α : Type} (add : Bool) (of : SpecialToken → List α) : PostProcessor → List α → List α
  | .template single _ specials, l => laidOut single specials add of l
  | .byteLevel _ _, l => l
  | .seq ps, l => arrangedAll add of ps l
/-- The same for a list of post-processors. -/
def arrangedAll {α : Type} (add : Bool) (of : SpecialToken → List α) : List PostProcessor → List α → List α
  | [], l => l
  | p :: ps, l => arrangedAll add of ps (arranged add of p l)
end

/-- What post-processing makes of the entries of a text. -/
def laidOutBy {α : Type} (pp : Option PostProcessor) (add : Bool) (of : SpecialToken → List α) (l : List α) : List α :=
  match pp with
  | some p => arranged add of p l
  | none => l

/-- Padding of an encoding of `n` ids: `l'` is `l` with as many `fill` on the configured side as ids are missing. -/
def PaddedBy {α : Type} (pad : Option Padding) (n : Nat) (fill : Padding → α) (l l' : List α) : Prop :=
  match pad with
  | none => l' = l
  | some p => ∃ size, RoundedUp (if p.strategy = .fixed then p.fixedSize.toNat else n) p.padToMultipleOf size ∧
    l' = match p.direction with
      | .left => List.replicate (size - n) (fill p) ++ l
      | .right => l ++ List.replicate (size - n) (fill p)
      | .unknown => l

/-- What is assumed of the regex engine. -/
def GoodRegexes (P : Platform) : Prop := ∀ pattern find, P.regex pattern = some find → GoodEngine find

end Tok.Spec
