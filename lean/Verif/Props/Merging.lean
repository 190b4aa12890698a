import Verif.Props.BPE
import Verif.Props.ByteLevel
import Verif.Spec.Merging
import Verif.Proofs.Merging

set_option autoImplicit false

/-!
C86, C87: when byte-pair encoding does not depend on how the standard library's priority queue breaks ties, and how to
obtain the usual byte-pair encoding from this one.
-/

namespace Tok
open Spec

/-- What the theorems ask of a table: no entry merges with itself, different pairs merge into different entries, and a
merge that uses an entry is listed before the merges that make it. -/
structure Unambiguous (T : Table) : Prop where
  noSelf : NoSelf T
  distinct : ∀ r r' a b a' b' n, T r a b n → T r' a' b' n → a = a' ∧ b = b'
  order : MadeAfter T

theorem mg_distinctNew {lines : List Str} {m : BPE} (hm : Made lines m)
    (hdist : ∀ r r' a b a' b' n, Listed (tokenToId m.vocab) m.pre lines r a b n →
      Listed (tokenToId m.vocab) m.pre lines r' a' b' n → a = a' ∧ b = b') : DistinctNew m.merges := by
  rintro ⟨a, b⟩ ⟨a', b'⟩ r r' n h h'
  obtain ⟨k, _, g⟩ := (make_merges hm a b r n).1 h
  obtain ⟨k', _, g'⟩ := (make_merges hm a' b' r' n).1 h'
  obtain ⟨rfl, rfl⟩ := hdist _ _ _ _ _ _ _ g g'
  rfl

/-- **C86** Without dropout, for a merge list of this kind, the answer for a text is the same on every platform: in
particular it does not depend on the order in which the priority queue yields merges of equal rank. -/
theorem C86_word_partial (P P' : Platform) {lines : List Str} {m : BPE} (hm : Made lines m) (s : Str)
    (hoff : m.dropout.on = false) (hfit : Fits m s)
    (ht : Unambiguous (Listed (tokenToId m.vocab) m.pre lines)) : (m.word P s).1 = (m.word P' s).1 := by
  by_cases hd : Direct m s
  · rcases word_answer P (made_cache hm) s with ⟨i, _, e, h⟩ | ⟨h, _⟩
    · rcases word_answer P' (made_cache hm) s with ⟨i', _, e', h'⟩ | ⟨h', _⟩
      · rw [e] at e'; cases e'; rw [h, h']
      · exact absurd hd h'
    · exact absurd hd h
  · by_cases hy : ∃ i, i < s.length ∧ Yields (tokenToId m.vocab) m.pre m.suf m.unkToken m.byteFallback s i
    · obtain ⟨ts, h1, _, h3, _, h5, h6, h7⟩ := word_spec P hm s hy hfit hd
      obtain ⟨ts', h1', _, h3', _, h5', h6', h7'⟩ := word_spec P' hm s hy hfit hd
      have hdn := mg_distinctNew hm ht.distinct
      have e := worst_unique (listed_oneEach _ _ _) ht.noSelf ht.order (h7 hoff hdn) (h7' hoff hdn) (h6 hoff) (h6' hoff)
      rw [h1, h1', tokens_of_pieces e h3 h3' h5 h5']
    · have hy' : ∀ i, i < s.length → ¬ Yields (tokenToId m.vocab) m.pre m.suf m.unkToken m.byteFallback s i :=
        fun i hi h => hy ⟨i, hi, h⟩
      rw [C23_violated P hm s hy' hd, C23_violated P' hm s hy' hd]

/-- The same for whole texts, and whatever has been tokenized before. -/
theorem C86_tokenize_partial (P P' : Platform) {lines : List Str} {m : BPE} (hm : Made lines m) (before before' : List PTS)
    (p q : PTS) (hoff : m.dropout.on = false) (hfit : ∀ s ∈ p.splits, Fits m s.normalized)
    (ht : Unambiguous (Listed (tokenToId m.vocab) m.pre lines)) :
    ((usedBPE P m before).tokenize P p).1 = .ok q ↔ ((usedBPE P' m before').tokenize P' p).1 = .ok q := by
  rw [bpe_tokenize P hm, bpe_tokenize P' hm]
  constructor <;> rintro ⟨h1, h2⟩ <;> refine ⟨h1, Each.imp_mem ?_ h2⟩ <;> rintro s t hs - ⟨g1, g2, g3⟩ <;> refine ⟨g1, g2, ?_⟩
  · rw [C86_word_partial P' P hm _ hoff (hfit s hs) ht]; exact g3
  · rw [C86_word_partial P P' hm _ hoff (hfit s hs) ht]; exact g3

/-! ### Examples -/

/-- Vocabulary a, b, c, d, ab, cd, abcd; merge list "ab cd", "c d", "a b". -/
def pairsBPE : BPE :=
  { vocab := [(b!"a", 0), (b!"b", 1), (b!"c", 2), (b!"d", 3), (b!"ab", 4), (b!"cd", 5), (b!"abcd", 6)],
    merges := [((4, 5), (0, 6)), ((2, 3), (1, 5)), ((0, 1), (2, 4))], dropout := ⟨false, fun _ => false⟩,
    unkToken := [], pre := [], suf := [], fuseUnk := false, byteFallback := false, ignoreMerges := false }

def pairsLines : List Str := [b!"ab cd", b!"c d", b!"a b"]

theorem pairsBPE_made : Made pairsLines pairsBPE := by
  simp only [Made]; rfl

theorem pairsBPE_listed {r : Nat} {a b n : Int} (h : Listed (tokenToId pairsBPE.vocab) pairsBPE.pre pairsLines r a b n) :
    (r = 0 ∧ a = 4 ∧ b = 5 ∧ n = 6) ∨ (r = 1 ∧ a = 2 ∧ b = 3 ∧ n = 5) ∨ (r = 2 ∧ a = 0 ∧ b = 1 ∧ n = 4) := by
  have g := mapFind_mem ((make_merges pairsBPE_made a b r n).2 ⟨r, rfl, h⟩)
  simp only [pairsBPE, List.mem_cons, Prod.mk.injEq, List.not_mem_nil, or_false] at g
  omega

theorem pairsBPE_unambiguous : Unambiguous (Listed (tokenToId pairsBPE.vocab) pairsBPE.pre pairsLines) where
  noSelf := by intro r a n h; have := pairsBPE_listed h; omega
  distinct := by intro r r' a b a' b' n h h'; have := pairsBPE_listed h; have := pairsBPE_listed h'; omega
  order := by intro r a b n r' c d e h h' g; have := pairsBPE_listed h; have := pairsBPE_listed h'; omega

example (P : Platform) : (pairsBPE.word P b!"abcdab").1 = .ok [⟨6, b!"abcd", (0, 4)⟩, ⟨4, b!"ab", (4, 6)⟩] := by
  rw [C86_word_partial P ascii pairsBPE_made _ rfl (by simp [Fits, pairsBPE]) pairsBPE_unambiguous]
  decide +kernel

/-- A priority queue that yields the youngest of the merges of equal rank. -/
def youngPQ : PQ where
  push q m := m :: q
  pop := popMax
  inv _ := True
  inv_nil := trivial
  push_inv _ _ _ := trivial
  push_perm q m _ := .refl _
  pop_nil := rfl
  pop_some q _ hne := by
    cases h : popMax q with
    | none => exact absurd (popMax_none h) hne
    | some p => exact ⟨p.1, p.2, rfl⟩
  pop_inv _ _ _ _ _ := trivial
  pop_perm _ _ _ _ h := popMax_perm h
  pop_max _ _ _ _ h := popMax_max h

/-- The sample platform with this queue. -/
def youngPlatform : Platform := { ascii with pq := youngPQ }

/-- Vocabulary a, aa; merge list "a a". -/
def selfBPE : BPE :=
  { vocab := [(b!"a", 0), (b!"aa", 1)], merges := [((0, 0), (0, 1))], dropout := ⟨false, fun _ => false⟩,
    unkToken := [], pre := [], suf := [], fuseUnk := false, byteFallback := false, ignoreMerges := false }

/-- Vocabulary a, b, ab, aba; merge list "a b", "ab a". -/
def overlapBPE : BPE :=
  { vocab := [(b!"a", 0), (b!"b", 1), (b!"ab", 2), (b!"aba", 3)], merges := [((0, 1), (0, 2)), ((2, 0), (1, 3))],
    dropout := ⟨false, fun _ => false⟩,
    unkToken := [], pre := [], suf := [], fuseUnk := false, byteFallback := false, ignoreMerges := false }

/-- **C86** is violated for other lists: the C++ standard does not say which of several entries of equal rank a
priority queue yields first, and two conforming queues give different tokens — for a pair of an entry with itself
("a a"), and for a list in the order of training, where a merge ("ab a") uses an entry made by an earlier one ("a b"). -/
theorem C86_violated :
    (Made [b!"a a"] selfBPE ∧
      (selfBPE.word ascii b!"aaa").1 = .ok [⟨1, b!"aa", (0, 2)⟩, ⟨0, b!"a", (2, 3)⟩] ∧
      (selfBPE.word youngPlatform b!"aaa").1 = .ok [⟨0, b!"a", (0, 1)⟩, ⟨1, b!"aa", (1, 3)⟩]) ∧
    (Made [b!"a b", b!"ab a"] overlapBPE ∧
      (overlapBPE.word ascii b!"abab").1 = .ok [⟨3, b!"aba", (0, 3)⟩, ⟨1, b!"b", (3, 4)⟩] ∧
      (overlapBPE.word youngPlatform b!"abab").1 = .ok [⟨2, b!"ab", (0, 2)⟩, ⟨2, b!"ab", (2, 4)⟩]) := by
  refine ⟨⟨by simp only [Made]; rfl, ?_, ?_⟩, by simp only [Made]; rfl, ?_, ?_⟩ <;> decide +kernel

/-! ### The usual byte-pair encoding -/

/-- No two lines are about the same pair. -/
def OnceEach (T : Table) : Prop := ∀ r r' a b n n', T r a b n → T r' a b n' → r = r'

theorem mg_listed {V : Str → Option Int} {pre : Str} {lines : List Str} (h : OnceEach (Says V pre lines)) {r : Nat} {a b n : Int} :
    Listed V pre lines r a b n ↔ Says V pre lines r a b n :=
  ⟨fun g => g.1, fun g => ⟨g, fun _ _ g' => Nat.le_of_eq (h _ _ _ _ _ _ g g')⟩⟩

theorem mg_lt {V : Str → Option Int} {pre : Str} {lines : List Str} {r : Nat} {a b n : Int}
    (h : Says V pre lines r a b n) : r < lines.length := by
  obtain ⟨line, p, q, h, -⟩ := h
  rcases Nat.lt_or_ge r lines.length with h' | h'
  · exact h'
  · rw [List.getElem?_eq_none h'] at h; cases h

theorem mg_reverse {V : Str → Option Int} {pre : Str} {lines : List Str} (h : OnceEach (Says V pre lines)) {r : Nat} {a b n : Int} :
    Listed V pre lines.reverse r a b n ↔ r < lines.length ∧ Listed V pre lines (lines.length - 1 - r) a b n := by
  have h' : OnceEach (Says V pre lines.reverse) := by
    intro r r' a b n n' g g'
    obtain ⟨l1, g⟩ := says_reverse.1 g
    obtain ⟨l2, g'⟩ := says_reverse.1 g'
    have := h _ _ _ _ _ _ g g'
    omega
  rw [mg_listed h', mg_listed h, says_reverse]

theorem mg_once {V : Str → Option Int} {pre : Str} {lines : List Str} (h : OnceEach (Says V pre lines)) {r : Nat}
    {x y : List (Int × Nat)} : MergeOnce (Listed V pre lines.reverse) r x y ↔
      r < lines.length ∧ MergeOnce (Listed V pre lines) (lines.length - 1 - r) x y := by
  constructor
  · rintro ⟨g⟩
    obtain ⟨h1, h2⟩ := (mg_reverse h).1 g
    exact ⟨h1, .mk h2⟩
  · rintro ⟨h1, ⟨g⟩⟩
    exact .mk ((mg_reverse h).2 ⟨h1, g⟩)

theorem mg_once' {V : Str → Option Int} {pre : Str} {lines : List Str} (h : OnceEach (Says V pre lines)) {r : Nat}
    {x y : List (Int × Nat)} : MergeOnce (Listed V pre lines) r x y ↔
      r < lines.length ∧ MergeOnce (Listed V pre lines.reverse) (lines.length - 1 - r) x y := by
  rw [mg_once h]
  constructor
  · intro g
    have hlt : r < lines.length := by obtain ⟨g⟩ := g; exact mg_lt g.1
    refine ⟨hlt, by omega, ?_⟩
    rw [show lines.length - 1 - (lines.length - 1 - r) = r by omega]; exact g
  · rintro ⟨hlt, -, g⟩
    rw [show lines.length - 1 - (lines.length - 1 - r) = r by omega] at g; exact g

theorem mg_best {V : Str → Option Int} {pre : Str} {lines : List Str} (h : OnceEach (Says V pre lines))
    {x y : List (Int × Nat)} : WorstFirst (Listed V pre lines.reverse) x y → BestFirst (Listed V pre lines) x y := by
  intro g
  induction g with
  | refl => exact .refl _
  | @step b c rank _ g1 g2 ih =>
    obtain ⟨l1, g1'⟩ := (mg_once h).1 g1
    refine .step ih g1' ?_
    intro r c' g'
    obtain ⟨l2, g''⟩ := (mg_once' h).1 g'
    have := g2 _ _ g''
    omega

theorem mg_final {V : Str → Option Int} {pre : Str} {lines : List Str} (h : OnceEach (Says V pre lines))
    {x : List (Int × Nat)} : Final (Listed V pre lines.reverse) x → Final (Listed V pre lines) x :=
  fun g _ _ g' => g _ _ ((mg_once' h).1 g').2

/-- **C87** A model built from the *reversed* merge list encodes by byte-pair encoding in the usual sense over the list
itself: from the pieces of the text, the applicable merge listed first is applied until none applies. -/
theorem C87_reversed_partial (P : Platform) {lines : List Str} {m : BPE} (hm : Made lines.reverse m) (s : Str)
    (hoff : m.dropout.on = false)
    (hy : ∃ i, i < s.length ∧ Yields (tokenToId m.vocab) m.pre m.suf m.unkToken m.byteFallback s i)
    (hfit : Fits m s) (hnd : ¬ Direct m s)
    (hone : OnceEach (Says (tokenToId m.vocab) m.pre lines))
    (hdist : ∀ r r' a b a' b' n, Listed (tokenToId m.vocab) m.pre lines r a b n →
      Listed (tokenToId m.vocab) m.pre lines r' a' b' n → a = a' ∧ b = b') :
    ∃ ts l, (m.word P s).1 = .ok ts ∧ Initial m s l ∧
      BestFirst (Listed (tokenToId m.vocab) m.pre lines) l (piecesOf ts) ∧
      Final (Listed (tokenToId m.vocab) m.pre lines) (piecesOf ts) := by
  obtain ⟨ts, l, h1, h2, h3, h4⟩ := C20_worst_first P hm s hoff hy hfit hnd (by
    intro r r' a b a' b' n g g'
    exact hdist _ _ _ _ _ _ _ ((mg_reverse hone).1 g).2 ((mg_reverse hone).1 g').2)
  exact ⟨ts, l, h1, h2, mg_best hone h3, mg_final hone h4⟩

/-- The pieces of a text before merging are determined by it. -/
theorem mg_pieces {unk : Option Int} {fuse : Bool} {e : List Found} {l l' : List (Int × Nat)} (h : Pieces unk fuse e l)
    (h' : Pieces unk fuse e l') : l' = l := by
  rw [pieces_machine.1 h, pieces_machine.1 h']

/-- When no entry merges with itself and a merge that uses an entry is listed after the merges that make it (as a
training program writes the list), the usual byte-pair encoding has one result only, and it is the answer. -/
theorem C87_reference_partial (P : Platform) {lines : List Str} {m : BPE} (hm : Made lines.reverse m) (s : Str)
    (hoff : m.dropout.on = false)
    (hy : ∃ i, i < s.length ∧ Yields (tokenToId m.vocab) m.pre m.suf m.unkToken m.byteFallback s i)
    (hfit : Fits m s) (hnd : ¬ Direct m s)
    (hone : OnceEach (Says (tokenToId m.vocab) m.pre lines))
    (hdist : ∀ r r' a b a' b' n, Listed (tokenToId m.vocab) m.pre lines r a b n →
      Listed (tokenToId m.vocab) m.pre lines r' a' b' n → a = a' ∧ b = b')
    (hself : NoSelf (Listed (tokenToId m.vocab) m.pre lines))
    (hbefore : MadeBefore (Listed (tokenToId m.vocab) m.pre lines)) :
    ∃ ts, (m.word P s).1 = .ok ts ∧ ∀ l x, Initial m s l →
      ((BestFirst (Listed (tokenToId m.vocab) m.pre lines) l x ∧ Final (Listed (tokenToId m.vocab) m.pre lines) x) ↔
        x = piecesOf ts) := by
  obtain ⟨ts, l, h1, h2, h3, h4⟩ := C87_reversed_partial P hm s hoff hy hfit hnd hone hdist
  refine ⟨ts, h1, ?_⟩
  intro l' x h2'
  have e : l' = l := mg_pieces h2 h2'
  subst e
  constructor
  · rintro ⟨g1, g2⟩
    exact best_unique (listed_oneEach _ _ _) hself hbefore g1 h3 g2 h4
  · rintro rfl; exact ⟨h3, h4⟩

/-! ### Examples -/

theorem pairs_says {r : Nat} {a b n : Int} (h : Says (tokenToId pairsBPE.vocab) pairsBPE.pre pairsLines.reverse r a b n) :
    (r = 0 ∧ a = 0 ∧ b = 1 ∧ n = 4) ∨ (r = 1 ∧ a = 2 ∧ b = 3 ∧ n = 5) ∨ (r = 2 ∧ a = 4 ∧ b = 5 ∧ n = 6) := by
  obtain ⟨h1, line, p, q, h2, h3, h4, h5, h6⟩ := says_reverse.1 h
  have hr : r = 0 ∨ r = 1 ∨ r = 2 := by have : pairsLines.length = 3 := rfl; omega
  have key : ∀ (p' q' : Str), line = p' ++ [0x20] ++ q' → p' ≠ [] → q' ≠ [] → (∀ c ∈ p', ¬ BlankByte c) →
      (∀ c ∈ q', ¬ BlankByte c) → p = p' ∧ q = q' := by
    intro p' q' e g1 g2 g3 g4
    exact fields_unique h3 ⟨[], [0x20], [], by simp [e], g1, g2, by simp, by simp, g3, by simp [BlankByte], g4, by simp⟩
  rcases hr with rfl | rfl | rfl
  · have e : line = b!"a" ++ [0x20] ++ b!"b" := (Option.some.inj h2).symm
    obtain ⟨rfl, rfl⟩ := key _ _ e (by decide) (by decide) (by unfold BlankByte; decide) (by unfold BlankByte; decide)
    have := Option.some.inj h4; have := Option.some.inj h5; have := Option.some.inj h6
    omega
  · have e : line = b!"c" ++ [0x20] ++ b!"d" := (Option.some.inj h2).symm
    obtain ⟨rfl, rfl⟩ := key _ _ e (by decide) (by decide) (by unfold BlankByte; decide) (by unfold BlankByte; decide)
    have := Option.some.inj h4; have := Option.some.inj h5; have := Option.some.inj h6
    omega
  · have e : line = b!"ab" ++ [0x20] ++ b!"cd" := (Option.some.inj h2).symm
    obtain ⟨rfl, rfl⟩ := key _ _ e (by decide) (by decide) (by unfold BlankByte; decide) (by unfold BlankByte; decide)
    have := Option.some.inj h4; have := Option.some.inj h5; have := Option.some.inj h6
    omega

/-- The trained list is "a b", "c d", "ab cd"; the model is built from its reverse. -/
example : ∃ ts, (pairsBPE.word ascii b!"abcdab").1 = .ok ts ∧ ∀ l x, Initial pairsBPE b!"abcdab" l →
    ((BestFirst (Listed (tokenToId pairsBPE.vocab) [] [b!"a b", b!"c d", b!"ab cd"]) l x ∧
      Final (Listed (tokenToId pairsBPE.vocab) [] [b!"a b", b!"c d", b!"ab cd"]) x) ↔ x = piecesOf ts) :=
  C87_reference_partial (lines := [b!"a b", b!"c d", b!"ab cd"]) ascii pairsBPE_made _ rfl
    ⟨0, by decide, .inl ⟨0, rfl⟩⟩ (by simp [Fits, pairsBPE])
    (by rintro ⟨_, h, _⟩; cases h)
    (by intro r r' a b n n' h h'; have := pairs_says h; have := pairs_says h'; omega)
    (by intro r r' a b a' b' n h h'; have := pairs_says h.1; have := pairs_says h'.1; omega)
    (by intro r a n h; have := pairs_says h.1; omega)
    (by intro r a b n r' c d e h h' g; have := pairs_says h.1; have := pairs_says h'.1; omega)

end Tok
