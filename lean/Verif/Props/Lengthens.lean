import Verif.Props.Merging
import Verif.Proofs.Lengthens

set_option autoImplicit false

/-!
C20, C86 and C87 for merge lists in which different pairs may make the same entry, and where C87 ends.
-/

namespace Tok
open Spec

/-- The size of an entry: by how much it is longer than the continuation prefix. -/
noncomputable def sizeOf' (V : Str → Option Int) (pre : Str) (i : Int) : Int :=
  open Classical in if h : ∃ p, V p = some i then (h.choose.length : Int) - pre.length else 0

theorem le_size {V : Str → Option Int} {pre p : Str} {i : Int} (hd : DistinctIds V) (h : V p = some i) :
    sizeOf' V pre i = (p.length : Int) - pre.length := by
  have h' : ∃ p, V p = some i := ⟨p, h⟩
  unfold sizeOf'
  rw [dif_pos h']
  rw [hd _ _ _ h'.choose_spec h]

/-- Merge lists of this kind are additive. -/
theorem C20_additive {V : Str → Option Int} {pre : Str} {lines : List Str} (h : Lengthens V pre lines) : Additive (Listed V pre lines) := by
  refine ⟨sizeOf' V pre, ?_⟩
  rintro r a b n ⟨⟨line, p, q, h1, h2, h3, h4, h5⟩, -⟩
  have hq := h.2 line (List.mem_of_getElem? h1) p q h2
  rw [le_size h.1 h3, le_size h.1 h4, le_size h.1 h5]
  simp only [List.length_append, List.length_drop]
  omega

/-- Without continuation prefix it is enough that no two entries have the same id. -/
theorem C20_no_prefix {V : Str → Option Int} {lines : List Str} (h : DistinctIds V) : Lengthens V [] lines := by
  refine ⟨h, fun line _ p q hf => ?_⟩
  obtain ⟨_, _, _, _, _, hq, _⟩ := hf
  exact List.length_pos_iff.2 hq

theorem le_addsTo {lines : List Str} {m : BPE} (hm : Made lines m) {f : Int → Int}
    (hf : ∀ r a b n, Listed (tokenToId m.vocab) m.pre lines r a b n → f n = f a + f b ∧ 0 < f b) : AddsTo m.merges f := by
  intro a b r n h
  obtain ⟨k, rfl, h1⟩ := (make_merges hm a b r n).1 h
  exact hf k a b n h1

theorem le_pieces (m : BPE) (out : List Symbol) : ∀ (pos : Nat) (ts : List Token), m.wordToTokens pos out = .ok ts →
    piecesOf ts = out.map fun s => (s.c, s.len) := by
  induction out with
  | nil => intro pos ts h; cases h; rfl
  | cons s r ih =>
    intro pos ts h
    simp only [BPE.wordToTokens] at h
    split at h
    · cases h
    · rename_i v hv
      obtain ⟨rest, h1, h2⟩ := res_bind_ok.1 h
      cases h2
      have := ih _ _ h1
      simp only [piecesOf, List.map_cons, List.cons.injEq] at this ⊢
      exact ⟨by simp, this⟩

/-- **C20**, how it is violated, for all merge lists in which merges make pieces longer (`Lengthens`), also if different pairs make the same
entry: what is applied is always the applicable merge listed *last*. -/
theorem C20_worst_first_any (P : Platform) {lines : List Str} {m : BPE} (hm : Made lines m) (s : Str)
    (hoff : m.dropout.on = false)
    (hy : ∃ i, i < s.length ∧ Yields (tokenToId m.vocab) m.pre m.suf m.unkToken m.byteFallback s i)
    (hfit : Fits m s) (hnd : ¬ Direct m s) (hadd : Additive (Listed (tokenToId m.vocab) m.pre lines)) :
    ∃ ts l, (m.word P s).1 = .ok ts ∧ Initial m s l ∧
      WorstFirst (Listed (tokenToId m.vocab) m.pre lines) l (piecesOf ts) ∧
      Final (Listed (tokenToId m.vocab) m.pre lines) (piecesOf ts) := by
  obtain ⟨f, hf⟩ := hadd
  have hN := (made_knownNew hm).1
  have hne := symList_ne_nil hy
  obtain ⟨h1, h2⟩ := symList_spec m s true none (goodPend_none m)
  obtain ⟨out, ts, g1, g2, g3, g4, g5, g6, g7, -⟩ := freshTokens_spec P m s (made_knownNew hm) hne hfit
  have hw : (m.word P s).1 = .ok ts := by
    rcases word_answer P (made_cache hm) s with ⟨i, hd, _⟩ | ⟨_, ⟨e, he, _⟩ | ⟨w, hw, hr⟩⟩
    · exact absurd hd hnd
    · rw [g1] at he; cases he
    · rw [g1] at hw; cases hw; rw [hr, g2]
  refine ⟨ts, _, hw, initial_symList m s, ?_, by rw [← made_table hm]; exact g7 hoff⟩
  have hfit' : (symList m true s none).length < 2 ^ 31 := by
    simp [pend] at h2
    exact Nat.lt_of_le_of_lt h2 hfit
  have g1' := g1
  rw [BPE.mergeWord, symbols_chain] at g1'
  have := le_merge P (le_addsTo hm hf) hN hoff (symList m true s none) hne (fun p hp => (h1 p hp).1) hfit' g1'
  rw [made_table hm, ← le_pieces m out 0 ts g2] at this
  exact this

/-- **C87** A model built from the *reversed* merge list encodes by byte-pair encoding in the usual sense over the list itself, also if different
pairs make the same entry. -/
theorem C87_reversed_any_partial (P : Platform) {lines : List Str} {m : BPE} (hm : Made lines.reverse m) (s : Str)
    (hoff : m.dropout.on = false)
    (hy : ∃ i, i < s.length ∧ Yields (tokenToId m.vocab) m.pre m.suf m.unkToken m.byteFallback s i)
    (hfit : Fits m s) (hnd : ¬ Direct m s)
    (hone : OnceEach (Says (tokenToId m.vocab) m.pre lines)) (hlen : Lengthens (tokenToId m.vocab) m.pre lines) :
    ∃ ts l, (m.word P s).1 = .ok ts ∧ Initial m s l ∧
      BestFirst (Listed (tokenToId m.vocab) m.pre lines) l (piecesOf ts) ∧
      Final (Listed (tokenToId m.vocab) m.pre lines) (piecesOf ts) := by
  obtain ⟨ts, l, h1, h2, h3, h4⟩ := C20_worst_first_any P hm s hoff hy hfit hnd
    (C20_additive ⟨hlen.1, fun line h => hlen.2 line (List.mem_reverse.1 h)⟩)
  exact ⟨ts, l, h1, h2, mg_best hone h3, mg_final hone h4⟩

/-- **C87** When moreover no entry merges with itself and a merge that uses an entry is listed after the merges that make it, the usual byte-pair
encoding has one result only, and it is the answer. -/
theorem C87_reference_any_partial (P : Platform) {lines : List Str} {m : BPE} (hm : Made lines.reverse m) (s : Str)
    (hoff : m.dropout.on = false)
    (hy : ∃ i, i < s.length ∧ Yields (tokenToId m.vocab) m.pre m.suf m.unkToken m.byteFallback s i)
    (hfit : Fits m s) (hnd : ¬ Direct m s)
    (hone : OnceEach (Says (tokenToId m.vocab) m.pre lines)) (hlen : Lengthens (tokenToId m.vocab) m.pre lines)
    (hself : NoSelf (Listed (tokenToId m.vocab) m.pre lines))
    (hbefore : MadeBefore (Listed (tokenToId m.vocab) m.pre lines)) :
    ∃ ts, (m.word P s).1 = .ok ts ∧ ∀ l x, Initial m s l →
      ((BestFirst (Listed (tokenToId m.vocab) m.pre lines) l x ∧ Final (Listed (tokenToId m.vocab) m.pre lines) x) ↔
        x = piecesOf ts) := by
  obtain ⟨ts, l, h1, h2, h3, h4⟩ := C87_reversed_any_partial P hm s hoff hy hfit hnd hone hlen
  refine ⟨ts, h1, ?_⟩
  intro l' x h2'
  have e : l' = l := mg_pieces h2 h2'
  subst e
  constructor
  · rintro ⟨g1, g2⟩
    exact best_unique (listed_oneEach _ _ _) hself hbefore g1 h3 g2 h4
  · rintro rfl; exact ⟨h3, h4⟩

/-- What C86 asks of a table: no entry merges with itself, a merge that uses an entry is listed before the merges that make it, and different pairs
merge into different entries or merges make pieces longer. -/
structure Decided (T : Table) : Prop where
  noSelf : NoSelf T
  order : MadeAfter T
  clear : (∀ r r' a b a' b' n, T r a b n → T r' a' b' n → a = a' ∧ b = b') ∨ Additive T

/-- **C86** Without dropout, for a merge list of this kind, the answer for a text is the same on every platform, also if different pairs make the
same entry. -/
theorem C86_word_any_partial (P P' : Platform) {lines : List Str} {m : BPE} (hm : Made lines m) (s : Str)
    (hoff : m.dropout.on = false) (hfit : Fits m s) (ht : Decided (Listed (tokenToId m.vocab) m.pre lines)) :
    (m.word P s).1 = (m.word P' s).1 := by
  rcases ht.clear with hdist | hadd
  · exact C86_word_partial P P' hm s hoff hfit ⟨ht.noSelf, hdist, ht.order⟩
  by_cases hd : Direct m s
  · rcases word_answer P (made_cache hm) s with ⟨i, _, e, h⟩ | ⟨h, _⟩
    · rcases word_answer P' (made_cache hm) s with ⟨i', _, e', h'⟩ | ⟨h', _⟩
      · rw [e] at e'; cases e'; rw [h, h']
      · exact absurd hd h'
    · exact absurd hd h
  · by_cases hy : ∃ i, i < s.length ∧ Yields (tokenToId m.vocab) m.pre m.suf m.unkToken m.byteFallback s i
    · obtain ⟨ts, h1, _, h3, _, h5, _, _⟩ := word_spec P hm s hy hfit hd
      obtain ⟨ts', h1', _, h3', _, h5', _, _⟩ := word_spec P' hm s hy hfit hd
      obtain ⟨us, l, g1, g2, g3, g4⟩ := C20_worst_first_any P hm s hoff hy hfit hd hadd
      obtain ⟨us', l', g1', g2', g3', g4'⟩ := C20_worst_first_any P' hm s hoff hy hfit hd hadd
      rw [h1] at g1; cases g1
      rw [h1'] at g1'; cases g1'
      have el : l' = l := mg_pieces g2 g2'
      subst el
      have e := worst_unique (listed_oneEach _ _ _) ht.noSelf ht.order g3 g3' g4 g4'
      rw [h1, h1', tokens_of_pieces e h3 h3' h5 h5']
    · have hy' : ∀ i, i < s.length → ¬ Yields (tokenToId m.vocab) m.pre m.suf m.unkToken m.byteFallback s i :=
        fun i hi h => hy ⟨i, hi, h⟩
      rw [C23_violated P hm s hy' hd, C23_violated P' hm s hy' hd]

/-- **C86** The same for whole texts, and whatever has been tokenized before. -/
theorem C86_tokenize_any_partial (P P' : Platform) {lines : List Str} {m : BPE} (hm : Made lines m) (before before' : List PTS)
    (p q : PTS) (hoff : m.dropout.on = false) (hfit : ∀ s ∈ p.splits, Fits m s.normalized)
    (ht : Decided (Listed (tokenToId m.vocab) m.pre lines)) :
    ((usedBPE P m before).tokenize P p).1 = .ok q ↔ ((usedBPE P' m before').tokenize P' p).1 = .ok q := by
  rw [bpe_tokenize P hm, bpe_tokenize P' hm]
  constructor <;> rintro ⟨h1, h2⟩ <;> refine ⟨h1, Each.imp_mem ?_ h2⟩ <;> rintro s t hs - ⟨g1, g2, g3⟩ <;> refine ⟨g1, g2, ?_⟩
  · rw [C86_word_any_partial P' P hm _ hoff (hfit s hs) ht]; exact g3
  · rw [C86_word_any_partial P P' hm _ hoff (hfit s hs) ht]; exact g3

/-! ### Examples -/

/-- Vocabulary a, b, c, ab, bc, abc; the list is "b c", "a bc", "a b", "ab c": two pairs make `abc`. -/
def eitherLines : List Str := [b!"b c", b!"a bc", b!"a b", b!"ab c"]

def eitherBPE : BPE :=
  { vocab := [(b!"a", 0), (b!"b", 1), (b!"c", 2), (b!"ab", 3), (b!"bc", 4), (b!"abc", 5)],
    merges := [((3, 2), (0, 5)), ((0, 1), (1, 3)), ((0, 4), (2, 5)), ((1, 2), (3, 4))], dropout := ⟨false, fun _ => false⟩,
    unkToken := [], pre := [], suf := [], fuseUnk := false, byteFallback := false, ignoreMerges := false }

theorem eitherBPE_made : Made eitherLines.reverse eitherBPE := by
  simp only [Made, eitherLines]; rfl

theorem eitherBPE_distinct : DistinctIds (tokenToId eitherBPE.vocab) := by
  intro p q i h h'
  have e := mapFind_mem h
  have e' := mapFind_mem h'
  simp only [eitherBPE, List.mem_cons, Prod.mk.injEq, List.not_mem_nil, or_false] at e e'
  rcases e with ⟨rfl, rfl⟩ | ⟨rfl, rfl⟩ | ⟨rfl, rfl⟩ | ⟨rfl, rfl⟩ | ⟨rfl, rfl⟩ | ⟨rfl, rfl⟩ <;>
    rcases e' with ⟨rfl, e'⟩ | ⟨rfl, e'⟩ | ⟨rfl, e'⟩ | ⟨rfl, e'⟩ | ⟨rfl, e'⟩ | ⟨rfl, e'⟩ <;> first | rfl | (exfalso; revert e'; decide)

theorem either_says {r : Nat} {a b n : Int} (h : Says (tokenToId eitherBPE.vocab) eitherBPE.pre eitherLines r a b n) :
    (r = 0 ∧ a = 1 ∧ b = 2 ∧ n = 4) ∨ (r = 1 ∧ a = 0 ∧ b = 4 ∧ n = 5) ∨ (r = 2 ∧ a = 0 ∧ b = 1 ∧ n = 3) ∨ (r = 3 ∧ a = 3 ∧ b = 2 ∧ n = 5) := by
  have h0 := mg_lt h
  obtain ⟨line, p, q, h2, h3, h4, h5, h6⟩ := h
  have hr : r = 0 ∨ r = 1 ∨ r = 2 ∨ r = 3 := by have : eitherLines.length = 4 := rfl; omega
  have key : ∀ (p' q' : Str), line = p' ++ [0x20] ++ q' → p' ≠ [] → q' ≠ [] → (∀ c ∈ p', ¬ BlankByte c) →
      (∀ c ∈ q', ¬ BlankByte c) → p = p' ∧ q = q' := by
    intro p' q' e g1 g2 g3 g4
    exact fields_unique h3 ⟨[], [0x20], [], by simp [e], g1, g2, by simp, by simp, g3, by simp [BlankByte], g4, by simp⟩
  rcases hr with rfl | rfl | rfl | rfl
  · have e : line = b!"b" ++ [0x20] ++ b!"c" := (Option.some.inj h2).symm
    obtain ⟨rfl, rfl⟩ := key _ _ e (by decide) (by decide) (by unfold BlankByte; decide) (by unfold BlankByte; decide)
    have := Option.some.inj h4; have := Option.some.inj h5; have := Option.some.inj h6
    omega
  · have e : line = b!"a" ++ [0x20] ++ b!"bc" := (Option.some.inj h2).symm
    obtain ⟨rfl, rfl⟩ := key _ _ e (by decide) (by decide) (by unfold BlankByte; decide) (by unfold BlankByte; decide)
    have := Option.some.inj h4; have := Option.some.inj h5; have := Option.some.inj h6
    omega
  · have e : line = b!"a" ++ [0x20] ++ b!"b" := (Option.some.inj h2).symm
    obtain ⟨rfl, rfl⟩ := key _ _ e (by decide) (by decide) (by unfold BlankByte; decide) (by unfold BlankByte; decide)
    have := Option.some.inj h4; have := Option.some.inj h5; have := Option.some.inj h6
    omega
  · have e : line = b!"ab" ++ [0x20] ++ b!"c" := (Option.some.inj h2).symm
    obtain ⟨rfl, rfl⟩ := key _ _ e (by decide) (by decide) (by unfold BlankByte; decide) (by unfold BlankByte; decide)
    have := Option.some.inj h4; have := Option.some.inj h5; have := Option.some.inj h6
    omega

/-- The hypotheses of `C87_reference_any_partial`: two pairs make `abc`, so that `C87_reference_partial` does not apply. -/
example : ∃ ts, (eitherBPE.word ascii b!"aabcab").1 = .ok ts ∧ ∀ l x, Initial eitherBPE b!"aabcab" l →
    ((BestFirst (Listed (tokenToId eitherBPE.vocab) [] eitherLines) l x ∧
      Final (Listed (tokenToId eitherBPE.vocab) [] eitherLines) x) ↔ x = piecesOf ts) :=
  C87_reference_any_partial (lines := eitherLines) ascii eitherBPE_made _ rfl
    ⟨0, by decide, .inl ⟨0, rfl⟩⟩ (by simp [Fits, eitherBPE])
    (by rintro ⟨_, h, _⟩; cases h)
    (by intro r r' a b n n' h h'; have := either_says h; have := either_says h'; omega)
    (C20_no_prefix eitherBPE_distinct)
    (by intro r a n h; have := either_says h.1; omega)
    (by intro r a b n r' c d e h h' g; have := either_says h.1; have := either_says h'.1; omega)

example : (eitherBPE.word ascii b!"aabcab").1 = .ok [⟨0, b!"a", (0, 1)⟩, ⟨5, b!"abc", (1, 4)⟩, ⟨3, b!"ab", (4, 6)⟩] := by decide +kernel

/-- The list of `eitherBPE` in the order the library wants it. -/
example (P : Platform) : (eitherBPE.word P b!"aabcab").1 = .ok [⟨0, b!"a", (0, 1)⟩, ⟨5, b!"abc", (1, 4)⟩, ⟨3, b!"ab", (4, 6)⟩] := by
  rw [C86_word_any_partial P ascii eitherBPE_made _ rfl (by simp [Fits, eitherBPE])
    ⟨by intro r a n h; have := either_says (says_reverse.1 h.1).2; omega,
      by
        intro r a b n r' c d e h h' g
        obtain ⟨l1, h⟩ := says_reverse.1 h.1
        obtain ⟨l2, h'⟩ := says_reverse.1 h'.1
        have := either_says h; have := either_says h'; omega,
      .inr (C20_additive (C20_no_prefix eitherBPE_distinct))⟩]
  decide +kernel

/-- The model of a list with two lines about a pair. -/
def twiceBPE : BPE := { abcBPE with merges := [((0, 1), (0, 3)), ((1, 2), (1, 4))] }

/-- **C87** does not hold for lists with two lines about a pair, of which the last counts: with "a b", "b c", "a b" (its own reverse) the first
listed merge applies to `abc`, but the second is applied.  It does not hold either for a text `ignore_merges` finds in the vocabulary: there `abc` is
answered with itself, though no merge makes it. -/
theorem C87_violated :
    (Made [b!"a b", b!"b c", b!"a b"].reverse twiceBPE ∧
      Says (tokenToId twiceBPE.vocab) twiceBPE.pre [b!"a b", b!"b c", b!"a b"] 0 0 1 3 ∧
      (twiceBPE.word ascii b!"abc").1 = .ok [⟨0, b!"a", (0, 1)⟩, ⟨4, b!"bc", (1, 3)⟩]) ∧
    (({ abcBPE with vocab := abcBPE.vocab ++ [(b!"abc", 5)], ignoreMerges := true } : BPE).word ascii b!"abc").1 = .ok [⟨5, b!"abc", (0, 0)⟩] := by
  refine ⟨⟨by simp only [Made]; rfl, ?_, by decide +kernel⟩, by decide +kernel⟩
  exact ⟨b!"a b", b!"a", b!"b", rfl, ⟨[], [0x20], [], by decide, by decide, by decide, by decide, by simp, by unfold BlankByte; decide,
    by unfold BlankByte; decide, by unfold BlankByte; decide, by simp⟩, by decide, by decide, by decide⟩

end Tok
