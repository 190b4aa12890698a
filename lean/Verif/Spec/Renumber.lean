import Verif.Tokenizer

set_option autoImplicit false

/-!
Tokenizers that differ in the numbers of their tokens only.
-/

namespace Tok.Spec

/-- A token under its new number. -/
def renToken (f : Int → Int) (t : Token) : Token := { t with id := f t.id }

/-- The vocabulary, and other tables of ids, under new numbers. -/
def renIds (f : Int → Int) (v : List (Str × Int)) : List (Str × Int) := v.map fun p => (p.1, f p.2)

/-- A symbol of a word under its new number. -/
def renSymbol (f : Int → Int) (s : Symbol) : Symbol := { s with c := f s.c }

/-- A merge that is waiting in the queue: its position and its rank stay. -/
def renMerge (f : Int → Int) (m : Merge) : Merge := { m with newId := f m.newId }

/-- The table of merges: pairs of ids and their merged id; the ranks stay. -/
def renMerges (f : Int → Int) (l : Merges) : Merges := l.map fun p => ((f p.1.1, f p.1.2), (p.2.1, f p.2.2))

def renWordPiece (f : Int → Int) (m : WordPiece) : WordPiece := { m with vocab := renIds f m.vocab }

def renBPE (f : Int → Int) (m : BPE) : BPE :=
  { m with vocab := renIds f m.vocab, merges := renMerges f m.merges, cache := m.cache.map fun p => (p.1, p.2.map (renSymbol f)) }

def renModel (f : Int → Int) : Model → Model
  | .wordPiece m => .wordPiece (renWordPiece f m)
  | .bpe m => .bpe (renBPE f m)

/-- The added tokens under new numbers; their contents and flags stay. -/
def renAdded (f : Int → Int) (a : AddedVocab) : AddedVocab :=
  { a with map := renIds f a.map, mapR := a.mapR.map fun p => (f p.1, p.2), nonNormTrie := renIds f a.nonNormTrie, normTrie := renIds f a.normTrie }

/-- The special tokens of a template under new numbers. -/
def renSpecial (f : Int → Int) (s : SpecialToken) : SpecialToken := { s with ids := s.ids.map f }

mutual
def renPost (f : Int → Int) : PostProcessor → PostProcessor
  | .template single pair specials => .template single pair (specials.map (renSpecial f))
  | .byteLevel a t => .byteLevel a t
  | .seq l => .seq (renPosts f l)
def renPosts (f : Int → Int) : List PostProcessor → List PostProcessor
  | [] => []
  | p :: r => renPost f p :: renPosts f r
end

/-- The tokenizer whose tokens have new numbers: in the model, among the added tokens, in the template and for padding. -/
def renumbered (f : Int → Int) (t : Tokenizer) : Tokenizer :=
  { t with model := t.model.map (renModel f), added := t.added.map (renAdded f), postProcessor := t.postProcessor.map (renPost f),
           padding := t.padding.map fun p => { p with padId := f p.padId } }

/-- One window with new numbers: only the ids change. -/
def renEnc (f : Int → Int) (e : Enc) : Enc := { e with ids := e.ids.map f }

/-- An encoding with new numbers: only the ids change, in the main window and in the overflowing ones. -/
def renEncoding (f : Int → Int) (e : Encoding) : Encoding := { toEnc := renEnc f e.toEnc, overflowing := e.overflowing.map (renEnc f) }

/-- Different tokens keep different numbers. -/
def OneToOne (f : Int → Int) : Prop := ∀ i j, f i = f j → i = j

/-- The priority queue does not look at the ids of the merges (it compares their ranks). -/
def BlindToIds (q : PQ) : Prop :=
  ∀ f, OneToOne f → (∀ l m, q.push (l.map (renMerge f)) (renMerge f m) = (q.push l m).map (renMerge f)) ∧
    ∀ l, q.pop (l.map (renMerge f)) = (q.pop l).map fun r => (renMerge f r.1, r.2.map (renMerge f))

/-- A word-piece model reports its unknown token under the number it has in the vocabulary, and under number 0 if it is not there:
then 0 must stay 0. -/
def UnknownKept (f : Int → Int) (t : Tokenizer) : Prop :=
  ∀ m, t.model = some (.wordPiece m) → tokenToId m.vocab m.unkToken ≠ none ∨ f 0 = 0

end Tok.Spec
