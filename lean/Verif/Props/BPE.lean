import Verif.Proofs.BPESpell
import Verif.Sample

set_option autoImplicit false

/-!
C15–C26: byte-pair encoding.  The theorems are about the model `m` the constructor builds
from a merge list (`Made`), and about `m.word P s`, the answer for one split with the text
`s`; `bpe_tokenize` relates it to `tokenize` and to models that have been used before.
-/

namespace Tok
open Spec

/-- `m` is what the constructor returns for the merge list `lines` (and the other
parameters of `m`). -/
def Made (lines : List Str) (m : BPE) : Prop :=
  BPE.make m.vocab lines m.dropout m.unkToken m.pre m.suf m.fuseUnk m.byteFallback m.ignoreMerges = .ok m

/-- The model after tokenizing `ps`, in that order (calls that fail included). -/
def usedBPE (P : Platform) (m : BPE) (ps : List PTS) : BPE := ps.foldl (fun m p => (m.tokenize P p).2) m

/-- `ignore_merges` answers directly. -/
def Direct (m : BPE) (s : Str) : Prop :=
  m.dropout.on = false ∧ m.ignoreMerges = true ∧ ∃ i, tokenToId m.vocab s = some i

/-- Number of symbols fits an `int` with a wide margin. -/
def Fits (m : BPE) (s : Str) : Prop := s.length * (m.pre.length + m.suf.length + 1) < 2 ^ 31

/-! ### Examples of models -/

/-- Vocabulary a, b, c, ab, bc; merge list "a b", "b c". -/
def abcBPE : BPE :=
  { vocab := [(b!"a", 0), (b!"b", 1), (b!"c", 2), (b!"ab", 3), (b!"bc", 4)],
    merges := [((0, 1), (0, 3)), ((1, 2), (1, 4))], dropout := ⟨false, fun _ => false⟩,
    unkToken := [], pre := [], suf := [], fuseUnk := false, byteFallback := false, ignoreMerges := false }

theorem abcBPE_made : Made [b!"a b", b!"b c"] abcBPE := by
  simp only [Made]; rfl

/-- With an unknown token, a continuation prefix `##`, an end-of-word suffix `</w>`. -/
def subBPE (fuse fb ig : Bool) (d : Dropout) : BPE :=
  { vocab := [(b!"<unk>", 0), (b!"a", 1), (b!"##b", 2), (b!"##c</w>", 3), (b!"ab", 4), (b!"abc</w>", 5)],
    merges := [((1, 2), (0, 4)), ((4, 3), (1, 5))], dropout := d,
    unkToken := b!"<unk>", pre := b!"##", suf := b!"</w>", fuseUnk := fuse, byteFallback := fb, ignoreMerges := ig }

theorem subBPE_made (fuse fb ig : Bool) (d : Dropout) :
    Made [b!"a ##b", b!"ab ##c</w>"] (subBPE fuse fb ig d) := by
  simp only [Made]; rfl

/-! ### Generalities -/

theorem made_table {lines : List Str} {m : BPE} (h : Made lines m) :
    tableOf m.merges = Listed (tokenToId m.vocab) m.pre lines := by
  funext r a b n
  apply propext
  rw [tableOf, make_merges h]
  constructor
  · rintro ⟨k, h1, h2⟩; have : r = k := by omega
    subst this; exact h2
  · intro h; exact ⟨r, rfl, h⟩

theorem made_knownNew {lines : List Str} {m : BPE} (h : Made lines m) : KnownNew m := by
  refine ⟨?_, ?_⟩
  · rintro ⟨a, b⟩ r n hr
    obtain ⟨k, rfl, _⟩ := (make_merges h a b r n).1 hr
    omega
  · rintro ⟨a, b⟩ r n hr
    obtain ⟨k, rfl, ⟨_, p, q, _, _, _, _, h5⟩, _⟩ := (make_merges h a b r n).1 hr
    exact ⟨_, h5⟩

theorem made_cache {lines : List Str} {m : BPE} (h : Made lines m) : m.cache = [] := (make_fields h).2.2.2.2.2.2.2.2

theorem made_cacheOk {lines : List Str} {m : BPE} (P : Platform) (h : Made lines m) : CacheOk P m := by
  intro s w hw; rw [made_cache h] at hw; simp [mapFind] at hw

theorem used_cache {lines : List Str} {m : BPE} (P : Platform) (h : Made lines m) (ps : List PTS) :
    CacheOk P (usedBPE P m ps) ∧ (usedBPE P m ps).fresh = m := by
  have gen : ∀ (ps : List PTS) (m' : BPE), CacheOk P m' → CacheOk P (usedBPE P m' ps) ∧
      (usedBPE P m' ps).fresh = m'.fresh := by
    intro ps
    induction ps with
    | nil => intro m' h; exact ⟨h, rfl⟩
    | cons p ps ih =>
      intro m' h
      have h1 := splitsLoop_cache P p.splits m' h
      have e : (m'.tokenize P p).2 = (BPE.splitsLoop P m' p.splits).2 := by
        unfold BPE.tokenize; split <;> rename_i h' <;> rw [h']
      have h2 := ih (m'.tokenize P p).2 (by rw [e]; exact h1.2.1)
      refine ⟨h2.1, ?_⟩
      show (usedBPE P (m'.tokenize P p).2 ps).fresh = _
      rw [h2.2, e, h1.2.2]
  have := gen ps m (made_cacheOk P h)
  refine ⟨this.1, ?_⟩
  rw [this.2]
  have hc := made_cache h
  obtain ⟨_, _, _, _, _, _, _, _, _, _⟩ := m
  simp only at hc; subst hc; rfl

theorem symList_ne_nil {m : BPE} {s : Str}
    (h : ∃ i, i < s.length ∧ Yields (tokenToId m.vocab) m.pre m.suf m.unkToken m.byteFallback s i) :
    symList m true s none ≠ [] := by
  intro e
  have := (symList_nil_iff m s [] none (goodPend_none m)).1 e
  obtain ⟨i, hi, hy⟩ := h
  exact this.2 i hi (by simpa using hy)

theorem symList_eq_nil {m : BPE} {s : Str}
    (h : ∀ i, i < s.length → ¬ Yields (tokenToId m.vocab) m.pre m.suf m.unkToken m.byteFallback s i) :
    symList m true s none = [] :=
  (symList_nil_iff m s [] none (goodPend_none m)).2 ⟨rfl, fun i hi => by simpa using h i hi⟩

/-- The answer for a word is direct, or the tokens of the merged word. -/
theorem word_answer (P : Platform) {m : BPE} (hc : m.cache = []) (s : Str) :
    (∃ i, Direct m s ∧ tokenToId m.vocab s = some i ∧ (m.word P s).1 = .ok [{ id := i, value := s, offsets := (0, 0) }]) ∨
    (¬ Direct m s ∧ ((∃ e, m.mergeWord P s = .error e ∧ (m.word P s).1 = .error e) ∨
      ∃ w, m.mergeWord P s = .ok w ∧ (m.word P s).1 = m.wordToTokens 0 w)) := by
  have fin : ¬ Direct m s → (m.word P s).1 = (match m.mergeWord P s with
      | .error e => .error e
      | .ok w => m.wordToTokens 0 w) := by
    intro hd
    unfold BPE.word BPE.tokenizeWithCache
    split
    · rename_i hoff
      have hno : (if m.ignoreMerges = true then mapFind m.vocab s else none) = none := by
        split
        · rename_i hi
          cases hf : mapFind m.vocab s with
          | none => rfl
          | some i => exact absurd ⟨hoff, hi, i, hf⟩ hd
        · rfl
      rw [hno, hc]
      simp only [mapFind]
      cases m.mergeWord P s with
      | error e => rfl
      | ok w => simp only; split <;> rename_i h <;> rw [h]
    · cases m.mergeWord P s with
      | error e => rfl
      | ok w => rfl
  by_cases hd : Direct m s
  · left
    obtain ⟨h1, h2, i, h3⟩ := hd
    refine ⟨i, ⟨h1, h2, i, h3⟩, h3, ?_⟩
    rw [tokenToId] at h3
    simp only [BPE.word, BPE.tokenizeWithCache, h1, h2, if_true, h3]
  · right
    refine ⟨hd, ?_⟩
    rw [fin hd]
    cases m.mergeWord P s with
    | error e => exact .inl ⟨e, rfl, rfl⟩
    | ok w => exact .inr ⟨w, rfl, rfl⟩

/-- Everything about a word that yields symbols and is not answered directly. -/
theorem word_spec (P : Platform) {lines : List Str} {m : BPE} (hm : Made lines m) (s : Str)
    (hy : ∃ i, i < s.length ∧ Yields (tokenToId m.vocab) m.pre m.suf m.unkToken m.byteFallback s i)
    (hfit : Fits m s) (hnd : ¬ Direct m s) :
    ∃ ts, (m.word P s).1 = .ok ts ∧
      MergeMany (Listed (tokenToId m.vocab) m.pre lines) (symList m true s none) (piecesOf ts) ∧
      Tiles 0 (ts.map (·.offsets)) ((symList m true s none).map (·.2)).sum ∧
      (∀ t ∈ ts, t.offsets.1 < t.offsets.2) ∧
      (∀ t ∈ ts, mapFind (vocabR m.vocab) t.id = some t.value) ∧
      (m.dropout.on = false → Final (Listed (tokenToId m.vocab) m.pre lines) (piecesOf ts)) ∧
      (m.dropout.on = false → DistinctNew m.merges →
        WorstFirst (Listed (tokenToId m.vocab) m.pre lines) (symList m true s none) (piecesOf ts)) := by
  obtain ⟨out, ts, h1, h2, h3, h4, h5, h6, h7, h8⟩ :=
    freshTokens_spec P m s (made_knownNew hm) (symList_ne_nil hy) hfit
  rw [made_table hm] at h3 h7 h8
  refine ⟨ts, ?_, h3, h4, h5, h6, h7, h8⟩
  rcases word_answer P (made_cache hm) s with ⟨i, hd, _⟩ | ⟨_, ⟨e, he, _⟩ | ⟨w, hw, hr⟩⟩
  · exact absurd hd hnd
  · rw [h1] at he; cases he
  · rw [h1] at hw; cases hw; rw [hr, h2]

/-- `tokenize` answers each split on its own and changes nothing but the tokens, whatever
was tokenized before with the same model; it fails if and only if some split fails. -/
theorem bpe_tokenize (P : Platform) {lines : List Str} {m : BPE} (hm : Made lines m) (before : List PTS) (p q : PTS) :
    ((usedBPE P m before).tokenize P p).1 = .ok q ↔ q.normalized = p.normalized ∧
      Each (fun s t => t.normalized = s.normalized ∧ t.offsets = s.offsets ∧
        (m.word P s.normalized).1 = .ok t.tokens) p.splits q.splits := by
  have loop : ∀ (l : List Split) (m' : BPE), CacheOk P m' → m'.fresh = m → ∀ (l' : List Split),
      (BPE.splitsLoop P m' l).1 = .ok l' ↔
      Each (fun s t => t.normalized = s.normalized ∧ t.offsets = s.offsets ∧
        (m.word P s.normalized).1 = .ok t.tokens) l l' := by
    intro l
    induction l with
    | nil =>
      intro m' _ _ l'
      simp only [BPE.splitsLoop]
      constructor
      · intro h; cases h; exact .nil
      · intro h; cases h; rfl
    | cons s r ih =>
      intro m' hc hf l'
      obtain ⟨h1, h2, h3⟩ := word_cache P m' s.normalized hc
      rw [hf] at h1 h3
      have hih := ih (m'.word P s.normalized).2 h2 h3
      simp only [BPE.splitsLoop]
      generalize m'.word P s.normalized = R at h1 h2 h3 hih
      obtain ⟨res, m1⟩ := R
      simp only at h1 h2 h3 hih
      cases res with
      | error e =>
        simp only
        constructor
        · intro h; cases h
        · intro h
          cases h with
          | cons hst _ => rw [← h1] at hst; simp at hst
      | ok ts =>
        simp only
        generalize BPE.splitsLoop P m1 r = Q at hih
        obtain ⟨q, m2⟩ := Q
        simp only at hih
        cases q with
        | error e =>
          simp only
          constructor
          · intro h; cases h
          · intro h
            cases h with
            | cons hst hr => have := (hih _).2 hr; cases this
        | ok rest =>
          simp only
          constructor
          · intro h; cases h
            exact .cons ⟨rfl, rfl, h1.symm⟩ ((hih rest).1 rfl)
          · intro h
            cases h with
            | cons hst hr =>
              rename_i t r'
              have := (hih _).2 hr; cases this
              obtain ⟨g1, g2, g3⟩ := hst
              rw [← h1] at g3; cases g3
              obtain ⟨tn, to, tt⟩ := t
              simp only at g1 g2; subst g1 g2
              rfl
  obtain ⟨h1, h2⟩ := used_cache P hm before
  have := loop p.splits _ h1 h2
  unfold BPE.tokenize
  generalize BPE.splitsLoop P (usedBPE P m before) p.splits = R at this
  obtain ⟨res, m1⟩ := R
  simp only at this
  cases res with
  | error e =>
    simp only
    constructor
    · intro h; cases h
    · rintro ⟨_, h⟩; have := (this _).2 h; cases this
  | ok l =>
    simp only
    constructor
    · intro h; cases h; exact ⟨rfl, (this l).1 rfl⟩
    · rintro ⟨hn, h⟩
      have := (this _).2 h; cases this
      obtain ⟨qn, qs⟩ := q
      simp only at hn; subst hn; rfl

/-! ### The properties -/

/-- **C15** Tokenizing a text at least one of whose bytes yields a symbol terminates, makes
no out-of-range access and throws nothing. -/
theorem C15_terminates (P : Platform) {lines : List Str} {m : BPE} (hm : Made lines m) (s : Str)
    (hy : ∃ i, i < s.length ∧ Yields (tokenToId m.vocab) m.pre m.suf m.unkToken m.byteFallback s i)
    (hfit : Fits m s) : ∃ ts, (m.word P s).1 = .ok ts := by
  by_cases hd : Direct m s
  · rcases word_answer P (made_cache hm) s with ⟨i, _, _, h⟩ | ⟨h, _⟩
    · exact ⟨_, h⟩
    · exact absurd hd h
  · obtain ⟨ts, h, _⟩ := word_spec P hm s hy hfit hd
    exact ⟨ts, h⟩

example (fuse fb ig : Bool) (d : Dropout) : ∃ ts, ((subBPE fuse fb ig d).word ascii b!"abxc").1 = .ok ts :=
  C15_terminates ascii (subBPE_made fuse fb ig d) _ ⟨0, by decide, .inl ⟨1, rfl⟩⟩
    (by simp [Fits, subBPE])

/-- **C23** is violated for every model: a text none of whose bytes yields a symbol (in
particular the empty text) makes BPE read out of bounds, unless `ignore_merges` answers. -/
theorem C23_violated (P : Platform) {lines : List Str} {m : BPE} (hm : Made lines m) (s : Str)
    (hy : ∀ i, i < s.length → ¬ Yields (tokenToId m.vocab) m.pre m.suf m.unkToken m.byteFallback s i)
    (hnd : ¬ Direct m s) : (m.word P s).1 = .error (.ub .outOfBounds) := by
  have hm' : m.mergeWord P s = .error (.ub .outOfBounds) := by
    rw [BPE.mergeWord, symbols_chain, symList_eq_nil hy]; rfl
  rcases word_answer P (made_cache hm) s with ⟨i, hd, _⟩ | ⟨_, ⟨e, he, h⟩ | ⟨w, hw, _⟩⟩
  · exact absurd hd hnd
  · rw [hm'] at he; cases he; exact h
  · rw [hm'] at hw; cases hw

theorem C23_violated_empty (P : Platform) {lines : List Str} {m : BPE} (hm : Made lines m)
    (hne : tokenToId m.vocab [] = none) : (m.word P []).1 = .error (.ub .outOfBounds) :=
  C23_violated P hm [] (by simp) (by rintro ⟨_, _, i, h⟩; rw [hne] at h; cases h)

example : (abcBPE.word ascii []).1 = .error (.ub .outOfBounds) := C23_violated_empty ascii abcBPE_made rfl
example : (abcBPE.word ascii b!"zz").1 = .error (.ub .outOfBounds) := by decide +kernel

/-- **C16** Every token has an id of the vocabulary and a value the vocabulary maps to it,
whatever the state of the model. -/
theorem C16_only_vocabulary (P : Platform) (m : BPE) (hkeys : (m.vocab.map (·.1)).Nodup) (s : Str) (ts : List Token)
    (h : (m.word P s).1 = .ok ts) : ∀ t ∈ ts, tokenToId m.vocab t.value = some t.id := by
  have hw : ∀ (w : List Symbol) (ts : List Token), m.wordToTokens 0 w = .ok ts → ∀ t ∈ ts, tokenToId m.vocab t.value = some t.id := by
    intro w ts h t ht
    exact (mapFind_iff_mem hkeys _ _).2 (vocabR_some (wordToTokens_values m w 0 ts h t ht))
  unfold BPE.word BPE.tokenizeWithCache at h
  split at h
  · split at h
    · rename_i i hi
      cases h
      intro t ht
      simp only [List.mem_singleton] at ht; subst ht
      split at hi
      · exact hi
      · cases hi
    · split at h
      · exact hw _ _ h
      · split at h
        · cases h
        · split at h
          · cases h
          · rename_i ts' hts; cases h; exact hw _ _ hts
  · split at h
    · cases h
    · exact hw _ _ h

example : ∀ t ∈ [(⟨0, b!"a", (0, 1)⟩ : Token), ⟨4, b!"bc", (1, 3)⟩], tokenToId abcBPE.vocab t.value = some t.id :=
  C16_only_vocabulary ascii abcBPE (by decide) b!"abc" _ (by decide +kernel)

/-- The id of the unknown token, if there is one. -/
def unknownId (m : BPE) : Option Int := if m.unkToken = [] then none else tokenToId m.vocab m.unkToken

/-- The pieces of a word before merging. -/
def Initial (m : BPE) (s : Str) (l : List (Int × Nat)) : Prop :=
  Pieces (unknownId m) m.fuseUnk (foundAll (tokenToId m.vocab) m.pre m.suf m.byteFallback s) l

theorem unkId_eq (m : BPE) : unkId m = unknownId m := by
  unfold unkId unknownId
  cases m.unkToken <;> simp [tokenToId]

theorem initial_symList (m : BPE) (s : Str) : Initial m s (symList m true s none) := by
  have hp := symList_pieces m s
  rw [foundFrom_nil, unkId_eq] at hp
  exact hp

/-- **C17**, except for words `ignore_merges` answers directly: the offsets are contiguous from 0, no token is empty, and they end
at what the bytes of the word are counted as.  That is the byte length of the word when no byte is dropped, unless byte fallback
is used together with a continuation prefix or an end-of-word suffix. -/
theorem C17_offsets_partial (P : Platform) {lines : List Str} {m : BPE} (hm : Made lines m) (s : Str)
    (hy : ∃ i, i < s.length ∧ Yields (tokenToId m.vocab) m.pre m.suf m.unkToken m.byteFallback s i)
    (hfit : Fits m s) (hnd : ¬ Direct m s) :
    ∃ ts e, (m.word P s).1 = .ok ts ∧ Tiles 0 (ts.map (·.offsets)) e ∧ (∀ t ∈ ts, t.offsets.1 < t.offsets.2) ∧
      e = ((foundAll (tokenToId m.vocab) m.pre m.suf m.byteFallback s).map (counted (unknownId m))).sum ∧
      (m.byteFallback = false ∨ (m.pre = [] ∧ m.suf = []) →
        (∀ i, i < s.length → Yields (tokenToId m.vocab) m.pre m.suf m.unkToken m.byteFallback s i) →
        e = s.length) := by
  obtain ⟨ts, h1, h2, h3, h4, _⟩ := word_spec P hm s hy hfit hnd
  have hp := pieces_sum (initial_symList m s)
  refine ⟨ts, _, h1, h3, h4, hp, ?_⟩
  intro hfb hall
  rw [hp, sum_ones]
  · simp [foundAll]
  · intro n hn
    simp only [foundAll, List.map_map, List.mem_map, List.mem_range, Function.comp] at hn
    obtain ⟨i, hi, rfl⟩ := hn
    have h1 := counted_le (tokenToId m.vocab) m.pre m.suf m.byteFallback s (unknownId m) hfb i
    have h2 := counted_pos (tokenToId m.vocab) m.pre m.suf m.unkToken m.byteFallback s i (hall i hi) (k := unknownId m) rfl
    omega

example (fuse : Bool) (d : Dropout) : ∃ ts, ((subBPE fuse false false d).word ascii b!"abxxc").1 = .ok ts ∧
    Tiles 0 (ts.map (·.offsets)) 5 := by
  obtain ⟨ts, e, h1, h2, _, _, h4⟩ := C17_offsets_partial ascii (subBPE_made fuse false false d) b!"abxxc"
    ⟨0, by decide, .inl ⟨1, rfl⟩⟩ (by simp [Fits, subBPE]) (by rintro ⟨_, h, _⟩; cases h)
  have := h4 (.inl rfl) fun _ _ => .inr (.inr ⟨by simp [subBPE], 0, rfl⟩)
  subst this; exact ⟨ts, h1, h2⟩

/-- **C17** is violated by every word `ignore_merges` answers directly: its single token has
the empty range (0, 0). -/
theorem C17_violated (P : Platform) {lines : List Str} {m : BPE} (hm : Made lines m) (s : Str) (hd : Direct m s) :
    ∃ i, (m.word P s).1 = .ok [{ id := i, value := s, offsets := (0, 0) }] := by
  rcases word_answer P (made_cache hm) s with ⟨i, _, _, h⟩ | ⟨h, _⟩
  · exact ⟨i, h⟩
  · exact absurd hd h

example : Direct (subBPE false false true ⟨false, fun _ => false⟩) b!"ab" := ⟨rfl, rfl, 4, rfl⟩

/-- **C18** With distinct keys and ids and an entry for every byte of the text, the tokens
cover the text exactly, and the value of each token is the text it covers (with the
continuation prefix and the end-of-word suffix where they belong). -/
theorem C18_lossless (P : Platform) {lines : List Str} {m : BPE} (hm : Made lines m) (s : Str) (hs : s ≠ [])
    (hfit : Fits m s) (hkeys : (m.vocab.map (·.1)).Nodup) (hids : DistinctIds (tokenToId m.vocab))
    (hall : ∀ i, i < s.length → ∃ id, tokenToId m.vocab (spelling m.pre m.suf s (i, i + 1)) = some id)
    (hnd : ¬ Direct m s) :
    ∃ ts, (m.word P s).1 = .ok ts ∧ Tiles 0 (ts.map (·.offsets)) s.length ∧
      ∀ t ∈ ts, t.offsets.1 < t.offsets.2 ∧ t.value = spelling m.pre m.suf s t.offsets := by
  have hpos : 0 < s.length := List.length_pos_iff.2 hs
  obtain ⟨ts, h1, h2, h3, h4, h5, _⟩ := word_spec P hm s ⟨0, hpos, .inl (hall 0 hpos)⟩ hfit hnd
  have hsp := symList_spells m s [] (by simpa [tokenToId] using hall)
  have hsp' := spells_many (V := tokenToId m.vocab) (pre := m.pre) (suf := m.suf) (s := s)
    (T := Listed (tokenToId m.vocab) m.pre lines)
    (by rintro r a b n ⟨⟨_, p, q, _, _, g1, g2, g3⟩, _⟩; exact ⟨p, q, g1, g2, g3⟩) hids h2 hsp
  obtain ⟨e, hv⟩ := spells_tokens hsp' h3
  rw [e] at h3
  refine ⟨ts, h1, h3, ?_⟩
  intro t ht
  refine ⟨h4 t ht, ?_⟩
  have g1 := hv t ht
  have g2 := (mapFind_iff_mem hkeys _ _).2 (vocabR_some (h5 t ht))
  exact hids _ _ _ g2 g1

/-- **C18** Without prefix and suffix the values concatenate to the text. -/
theorem C18_concat (P : Platform) {lines : List Str} {m : BPE} (hm : Made lines m) (s : Str) (hs : s ≠ [])
    (hpre : m.pre = []) (hsuf : m.suf = [])
    (hfit : Fits m s) (hkeys : (m.vocab.map (·.1)).Nodup) (hids : DistinctIds (tokenToId m.vocab))
    (hall : ∀ b ∈ s, ∃ id, tokenToId m.vocab [b] = some id) :
    ∃ ts, (m.word P s).1 = .ok ts ∧ (ts.map (·.value)).flatten = s := by
  by_cases hnd : Direct m s
  · obtain ⟨i, h⟩ := C17_violated P hm s hnd
    exact ⟨_, h, by simp⟩
  · obtain ⟨ts, h1, h2, h3⟩ := C18_lossless P hm s hs hfit hkeys hids (by
      intro i hi
      obtain ⟨id, h⟩ := hall s[i] (List.getElem_mem hi)
      refine ⟨id, ?_⟩
      rw [← h]; congr 1
      simp only [spelling, hpre, hsuf, ite_self, List.nil_append, List.append_nil]
      rw [List.drop_eq_getElem_cons hi, show i + 1 - i = 1 by omega]; rfl) hnd
    refine ⟨ts, h1, ?_⟩
    have gen : ∀ (ts : List Token) (a : Nat), Tiles a (ts.map (·.offsets)) s.length →
        (∀ t ∈ ts, t.value = spelling m.pre m.suf s t.offsets) → (ts.map (·.value)).flatten = s.drop a := by
      intro ts
      induction ts with
      | nil => intro a h _; simp only [List.map_nil, Tiles] at h; subst h; simp
      | cons t ts ih =>
        intro a h hv
        simp only [List.map_cons, List.flatten_cons]
        rw [hv t (by simp)]
        obtain ⟨tid, tv, ta, tb⟩ := t
        simp only [List.map_cons, Tiles] at h
        obtain ⟨rfl, g2, g3⟩ := h
        rw [ih tb g3 (fun t ht => hv t (by simp [ht]))]
        simp only [spelling, hpre, hsuf, ite_self, List.nil_append, List.append_nil]
        rw [show s.drop tb = (s.drop ta).drop (tb - ta) by rw [List.drop_drop]; congr 1; omega,
          List.take_append_drop]
    have := gen ts 0 h2 (fun t ht => (h3 t ht).2)
    simpa using this

theorem distinctIds_of_nodup {v : Vocab} (h : (v.map (·.2)).Nodup) : DistinctIds (tokenToId v) := by
  intro p q i hp hq
  have h1 := mapFind_mem hp
  have h2 := mapFind_mem hq
  clear hp hq
  induction v with
  | nil => simp at h1
  | cons e r ih =>
    simp only [List.map_cons, List.nodup_cons] at h
    simp only [List.mem_cons] at h1 h2
    rcases h1 with h1 | h1 <;> rcases h2 with h2 | h2
    · rw [← h1] at h2; exact (Prod.mk.inj h2).1.symm
    · exact absurd (List.mem_map.2 ⟨_, h2, by rw [← h1]⟩) h.1
    · exact absurd (List.mem_map.2 ⟨_, h1, by rw [← h2]⟩) h.1
    · exact ih h.2 h1 h2

example : ∃ ts, (abcBPE.word ascii b!"aabcc").1 = .ok ts ∧ (ts.map (·.value)).flatten = b!"aabcc" :=
  C18_concat ascii abcBPE_made _ (by decide) rfl rfl (by simp [Fits, abcBPE]) (by decide)
    (distinctIds_of_nodup (by decide)) (by
      intro b hb
      simp only [List.mem_cons, List.not_mem_nil, or_false] at hb
      rcases hb with rfl | rfl | rfl | rfl | rfl <;> exact ⟨_, rfl⟩)

example (d : Dropout) : ∃ ts, ((subBPE false true false d).word ascii b!"abc").1 = .ok ts ∧
    Tiles 0 (ts.map (·.offsets)) 3 := by
  obtain ⟨ts, h1, h2, _⟩ := C18_lossless ascii (subBPE_made false true false d) b!"abc" (by decide)
    (by simp [Fits, subBPE]) (by simp [subBPE]) (distinctIds_of_nodup (by simp [subBPE])) (by
      intro i hi
      match i, hi with
      | 0, _ => exact ⟨1, rfl⟩
      | 1, _ => exact ⟨2, rfl⟩
      | 2, _ => exact ⟨3, rfl⟩
      | n + 3, h => simp at h; omega) (by rintro ⟨_, h, _⟩; cases h)
  exact ⟨ts, h1, h2⟩

theorem exists_least {p : Nat → Prop} (h : ∃ n, p n) : ∃ n, p n ∧ ∀ k, p k → n ≤ k := by
  obtain ⟨n, hn⟩ := h
  induction n using Nat.strongRecOn with
  | ind n ih =>
    by_cases hk : ∃ k, k < n ∧ p k
    · obtain ⟨k, hlt, hp⟩ := hk; exact ih k hlt hp
    · refine ⟨n, hn, fun k hp => ?_⟩
      rcases Nat.lt_or_ge k n with h | h
      · exact absurd ⟨k, h, hp⟩ hk
      · exact h

/-- **C19** Without dropout no two adjacent tokens form a pair of the merge list. -/
theorem C19_normal_form (P : Platform) {lines : List Str} {m : BPE} (hm : Made lines m) (s : Str)
    (hoff : m.dropout.on = false)
    (hy : ∃ i, i < s.length ∧ Yields (tokenToId m.vocab) m.pre m.suf m.unkToken m.byteFallback s i)
    (hfit : Fits m s) :
    ∃ ts, (m.word P s).1 = .ok ts ∧
      ∀ A t u B rank new, ts = A ++ t :: u :: B → ¬ Says (tokenToId m.vocab) m.pre lines rank t.id u.id new := by
  by_cases hnd : Direct m s
  · obtain ⟨i, h⟩ := C17_violated P hm s hnd
    refine ⟨_, h, ?_⟩
    intro A t u B rank new e
    cases A with
    | nil => simp at e
    | cons a A => simp at e
  · obtain ⟨ts, h1, _, _, _, _, h6, _⟩ := word_spec P hm s hy hfit hnd
    refine ⟨ts, h1, ?_⟩
    intro A t u B rank new e hs
    -- the first line about the pair
    have hex : ∃ r n, Listed (tokenToId m.vocab) m.pre lines r t.id u.id n := by
      have : ∃ r, ∃ n, Says (tokenToId m.vocab) m.pre lines r t.id u.id n := ⟨rank, new, hs⟩
      obtain ⟨r, ⟨n, hn⟩, hmin⟩ := exists_least this
      exact ⟨r, n, hn, fun r n' h' => hmin r ⟨n', h'⟩⟩
    obtain ⟨r, n, hl⟩ := hex
    subst e
    have hmo := MergeOnce.mk (A := piecesOf A) (B := piecesOf B) (a := (t.id, t.offsets.2 - t.offsets.1))
      (b := (u.id, u.offsets.2 - u.offsets.1)) hl
    have he : piecesOf (A ++ t :: u :: B) = piecesOf A ++ (t.id, t.offsets.2 - t.offsets.1) ::
        (u.id, u.offsets.2 - u.offsets.1) :: piecesOf B := by simp [piecesOf]
    rw [← he] at hmo
    exact h6 hoff r _ hmo

example : ∃ ts, (abcBPE.word ascii b!"aabcc").1 = .ok ts ∧ ∀ A t u B rank new, ts = A ++ t :: u :: B →
    ¬ Says (tokenToId abcBPE.vocab) [] [b!"a b", b!"b c"] rank t.id u.id new :=
  C19_normal_form ascii abcBPE_made _ rfl ⟨0, by decide, .inl ⟨0, rfl⟩⟩ (by simp [Fits, abcBPE])

/-- **C20** is violated: with the merge list "a b", "b c" the text "abc" becomes a, bc: the
merge listed last was applied first. -/
theorem C20_violated : Made [b!"a b", b!"b c"] abcBPE ∧
    (abcBPE.word ascii b!"abc").1 = .ok [⟨0, b!"a", (0, 1)⟩, ⟨4, b!"bc", (1, 3)⟩] :=
  ⟨abcBPE_made, by decide +kernel⟩

/-- How BPE violates **C20**, in general: when different pairs merge into different entries,
what is applied is always the applicable merge listed *last*, starting from the pieces of the
word and until none applies. -/
theorem C20_worst_first (P : Platform) {lines : List Str} {m : BPE} (hm : Made lines m) (s : Str)
    (hoff : m.dropout.on = false)
    (hy : ∃ i, i < s.length ∧ Yields (tokenToId m.vocab) m.pre m.suf m.unkToken m.byteFallback s i)
    (hfit : Fits m s) (hnd : ¬ Direct m s)
    (hdist : ∀ r r' a b a' b' n, Listed (tokenToId m.vocab) m.pre lines r a b n →
      Listed (tokenToId m.vocab) m.pre lines r' a' b' n → a = a' ∧ b = b') :
    ∃ ts l, (m.word P s).1 = .ok ts ∧ Initial m s l ∧
      WorstFirst (Listed (tokenToId m.vocab) m.pre lines) l (piecesOf ts) ∧
      Final (Listed (tokenToId m.vocab) m.pre lines) (piecesOf ts) := by
  obtain ⟨ts, h1, _, _, _, _, h6, h7⟩ := word_spec P hm s hy hfit hnd
  refine ⟨ts, _, h1, initial_symList m s, h7 hoff ?_, h6 hoff⟩
  rintro ⟨a, b⟩ ⟨a', b'⟩ r r' n h h'
  obtain ⟨k, _, g⟩ := (make_merges hm a b r n).1 h
  obtain ⟨k', _, g'⟩ := (make_merges hm a' b' r' n).1 h'
  obtain ⟨rfl, rfl⟩ := hdist _ _ _ _ _ _ _ g g'
  rfl

theorem abcBPE_distinct (r r' : Nat) (a b a' b' n : Int)
    (h : Listed (tokenToId abcBPE.vocab) [] [b!"a b", b!"b c"] r a b n)
    (h' : Listed (tokenToId abcBPE.vocab) [] [b!"a b", b!"b c"] r' a' b' n) : a = a' ∧ b = b' := by
  have g := (make_merges abcBPE_made a b r n).2 ⟨r, rfl, h⟩
  have g' := (make_merges abcBPE_made a' b' r' n).2 ⟨r', rfl, h'⟩
  have e := mapFind_mem g
  have e' := mapFind_mem g'
  simp only [abcBPE, List.mem_cons, Prod.mk.injEq, List.not_mem_nil, or_false] at e e'
  omega

example : ∃ ts l, (abcBPE.word ascii b!"abc").1 = .ok ts ∧ Initial abcBPE b!"abc" l ∧
    WorstFirst (Listed (tokenToId abcBPE.vocab) [] [b!"a b", b!"b c"]) l (piecesOf ts) ∧
    Final (Listed (tokenToId abcBPE.vocab) [] [b!"a b", b!"b c"]) (piecesOf ts) :=
  C20_worst_first ascii abcBPE_made _ rfl ⟨0, by decide, .inl ⟨0, rfl⟩⟩ (by simp [Fits, abcBPE])
    (by rintro ⟨_, h, _⟩; cases h) abcBPE_distinct

/-- **C21** What was tokenized before does not change the result. -/
theorem C21_cache_invisible (P : Platform) {lines : List Str} {m : BPE} (hm : Made lines m) (before before' : List PTS)
    (p : PTS) : ((usedBPE P m before).tokenize P p).1 = ((usedBPE P m before').tokenize P p).1 := by
  have gen : ∀ before, ((usedBPE P m before).tokenize P p).1 = (m.tokenize P p).1 := by
    intro before
    obtain ⟨h1, h2⟩ := used_cache P hm before
    have := (splitsLoop_cache P p.splits _ h1).1
    rw [h2] at this
    unfold BPE.tokenize
    generalize BPE.splitsLoop P (usedBPE P m before) p.splits = R at this
    generalize BPE.splitsLoop P m p.splits = R' at this
    obtain ⟨r, n⟩ := R
    obtain ⟨r', n'⟩ := R'
    simp only at this; subst this
    cases r <;> rfl
  rw [gen before, gen before']

/-- A text with one split. -/
def oneSplit (s : Str) : PTS := { normalized := NS.ofText [], splits := [{ normalized := s, offsets := (0, 0) }] }

/-- The cache is used. -/
example : (usedBPE ascii abcBPE [oneSplit b!"ab"]).cache ≠ [] := by decide +kernel

/-- **C25** Dropping every candidate gives what an empty merge list gives. -/
theorem C25_dropout_one (P : Platform) {lines : List Str} {m m' : BPE} (hm : Made lines m) (s : Str)
    (hon : m.dropout.on = true) (hall : ∀ k, m.dropout.draw k = true)
    (hm' : BPE.make m.vocab [] m.dropout m.unkToken m.pre m.suf m.fuseUnk m.byteFallback m.ignoreMerges = .ok m') :
    (m.word P s).1 = (m'.word P s).1 := by
  have e : m' = { m with merges := [] } := by
    have h1 := make_fields hm
    simp only [BPE.make, addMerges, res_ok_bind, res_pure] at hm'
    cases hm'
    have hc := made_cache hm
    obtain ⟨_, _, _, _, _, _, _, _, _, _⟩ := m
    simp only at hc; subst hc; rfl
  have hs : ∀ (r : Str) f w u, BPE.symbolsLoop { m with merges := [] } f r w u = m.symbolsLoop f r w u := by
    intro r
    induction r with
    | nil => intro f w u; rfl
    | cons b r ih => intro f w u; simp only [BPE.symbolsLoop]; rw [ih]; rfl
  have ht : ∀ (w : List Symbol) pos, BPE.wordToTokens { m with merges := [] } pos w = m.wordToTokens pos w := by
    intro w
    induction w with
    | nil => intro pos; rfl
    | cons x r ih => intro pos; simp only [BPE.wordToTokens, ih]
  have hmw : m.mergeWord P s = BPE.mergeWord P { m with merges := [] } s := by
    unfold BPE.mergeWord BPE.symbols
    rw [hs]
    simp only
    cases hw : m.symbolsLoop true s [] none with
    | nil => rfl
    | cons x r => rw [mergeAll_drop P _ _ hon hall _ (by simp), mergeAll_none P _ _ (by simp)]
  subst e
  unfold BPE.word
  simp only [hon, Bool.true_eq_false, if_false]
  rw [hmw]
  cases BPE.mergeWord P { m with merges := [] } s with
  | error e => rfl
  | ok w => simp only [ht]

/-- **C25** With no merge list the tokens are the pieces of the word. -/
theorem C25_unmerged (P : Platform) {m : BPE} (hm : Made [] m) (s : Str)
    (hy : ∃ i, i < s.length ∧ Yields (tokenToId m.vocab) m.pre m.suf m.unkToken m.byteFallback s i)
    (hfit : Fits m s) (hnd : ¬ Direct m s) :
    ∃ ts, (m.word P s).1 = .ok ts ∧ Initial m s (piecesOf ts) := by
  obtain ⟨ts, h1, h2, _⟩ := word_spec P hm s hy hfit hnd
  refine ⟨ts, h1, ?_⟩
  have gen : ∀ {a b}, MergeMany (Listed (tokenToId m.vocab) m.pre []) a b → b = a := by
    intro a b h
    induction h with
    | refl => rfl
    | step _ h _ =>
      cases h with
      | mk ht => obtain ⟨⟨_, _, _, h, _⟩, _⟩ := ht; simp at h
  rw [gen h2]; exact initial_symList m s

/-- **C25** With dropout 0 the random draws are irrelevant. -/
theorem C25_dropout_zero (P : Platform) (m : BPE) (draw : Nat → Bool) (hoff : m.dropout.on = false) (p : PTS) :
    (BPE.tokenize P { m with dropout := ⟨false, draw⟩ } p).1 = (m.tokenize P p).1 := by
  have hmw : ∀ (m : BPE) (s : Str), m.dropout.on = false →
      BPE.mergeWord P { m with dropout := ⟨false, draw⟩ } s = m.mergeWord P s := by
    intro m s h
    have hs : ∀ (r : Str) f w u, BPE.symbolsLoop { m with dropout := ⟨false, draw⟩ } f r w u = m.symbolsLoop f r w u := by
      intro r
      induction r with
      | nil => intro f w u; rfl
      | cons b r ih => intro f w u; simp only [BPE.symbolsLoop]; rw [ih]; rfl
    unfold BPE.mergeWord BPE.symbols
    rw [hs]
    exact mergeAll_off P _ _ _ rfl h _
  have ht : ∀ (m : BPE) (w : List Symbol) pos,
      BPE.wordToTokens { m with dropout := ⟨false, draw⟩ } pos w = m.wordToTokens pos w := by
    intro m w
    induction w with
    | nil => intro pos; rfl
    | cons x r ih => intro pos; simp only [BPE.wordToTokens, ih]
  have hw : ∀ (m : BPE) (s : Str), m.dropout.on = false →
      BPE.word P { m with dropout := ⟨false, draw⟩ } s =
        ((m.word P s).1, { (m.word P s).2 with dropout := ⟨false, draw⟩ }) ∧ (m.word P s).2.dropout.on = false := by
    intro m s h
    unfold BPE.word BPE.tokenizeWithCache
    simp only [h, if_true, hmw m s h, ht]
    split
    · exact ⟨rfl, h⟩
    · split
      · exact ⟨rfl, h⟩
      · split
        · exact ⟨rfl, h⟩
        · split
          · exact ⟨rfl, h⟩
          · exact ⟨rfl, h⟩
  have hl : ∀ (l : List Split) (m : BPE), m.dropout.on = false →
      (BPE.splitsLoop P { m with dropout := ⟨false, draw⟩ } l).1 = (BPE.splitsLoop P m l).1 := by
    intro l
    induction l with
    | nil => intro m h; rfl
    | cons x r ih =>
      intro m h
      obtain ⟨h1, h2⟩ := hw m x.normalized h
      simp only [BPE.splitsLoop]
      rw [h1]
      generalize m.word P x.normalized = R at h2
      obtain ⟨res, m1⟩ := R
      simp only at h2
      cases res with
      | error e => rfl
      | ok ts =>
        have := ih m1 h2
        simp only
        generalize BPE.splitsLoop P { m1 with dropout := ⟨false, draw⟩ } r = Q at this
        generalize BPE.splitsLoop P m1 r = Q' at this
        obtain ⟨q, m2⟩ := Q
        obtain ⟨q', m2'⟩ := Q'
        simp only at this; subst this
        cases q <;> rfl
  have := hl p.splits m hoff
  unfold BPE.tokenize
  generalize BPE.splitsLoop P { m with dropout := ⟨false, draw⟩ } p.splits = Q at this
  generalize BPE.splitsLoop P m p.splits = Q' at this
  obtain ⟨q, m2⟩ := Q
  obtain ⟨q', m2'⟩ := Q'
  simp only at this; subst this
  cases q <;> rfl

/-- **C25** With dropout, calls leave the model as it is, so that repeated calls give the same
tokens. -/
theorem C25_repeatable (P : Platform) (m : BPE) (hon : m.dropout.on = true) (p : PTS) :
    (m.tokenize P p).2 = m := by
  have hw : ∀ s, (m.word P s).2 = m := by
    intro s
    unfold BPE.word
    simp only [hon, Bool.true_eq_false, if_false]
    split <;> rfl
  have hl : ∀ (l : List Split), (BPE.splitsLoop P m l).2 = m := by
    intro l
    induction l with
    | nil => rfl
    | cons x r ih =>
      have h1 := hw x.normalized
      simp only [BPE.splitsLoop]
      generalize m.word P x.normalized = R at h1
      obtain ⟨res, m1⟩ := R
      simp only at h1; subst h1
      cases res with
      | error e => rfl
      | ok ts =>
        simp only
        generalize BPE.splitsLoop P m1 r = Q at ih
        obtain ⟨q, m2⟩ := Q
        simp only at ih; subst ih
        cases q <;> rfl
  have := hl p.splits
  unfold BPE.tokenize
  generalize BPE.splitsLoop P m p.splits = Q at this
  obtain ⟨q, m2⟩ := Q
  simp only at this; subst this
  cases q <;> rfl

example : ∃ ts, ((subBPE false false false ⟨true, fun _ => true⟩).word ascii b!"abc").1 = .ok ts ∧ ts.length = 3 :=
  ⟨[⟨1, b!"a", (0, 1)⟩, ⟨2, b!"##b", (1, 2)⟩, ⟨3, b!"##c</w>", (2, 3)⟩], by decide +kernel, rfl⟩

/-- **C26** With `fuse_unk`, two unknown tokens are never adjacent, provided the unknown
token is outside the merge table and is not itself the entry of a byte of the text. -/
theorem C26_fused (P : Platform) {lines : List Str} {m : BPE} (hm : Made lines m) (s : Str) (u : Int)
    (hf : m.fuseUnk = true) (_hunk : tokenToId m.vocab m.unkToken = some u)
    (hout : ∀ r a b n, Says (tokenToId m.vocab) m.pre lines r a b n → a ≠ u ∧ b ≠ u ∧ n ≠ u)
    (hkey : ∀ i, i < s.length → tokenToId m.vocab (spelling m.pre m.suf s (i, i + 1)) ≠ some u)
    (hbyte : ∀ b, tokenToId m.vocab (fallbackKey b) ≠ some u)
    (hy : ∃ i, i < s.length ∧ Yields (tokenToId m.vocab) m.pre m.suf m.unkToken m.byteFallback s i)
    (hfit : Fits m s) :
    ∃ ts, (m.word P s).1 = .ok ts ∧ ∀ A t t' B, ts = A ++ t :: t' :: B → ¬ (t.id = u ∧ t'.id = u) := by
  by_cases hnd : Direct m s
  · obtain ⟨i, h⟩ := C17_violated P hm s hnd
    refine ⟨_, h, ?_⟩
    intro A t t' B e
    cases A with
    | nil => simp at e
    | cons a A => simp at e
  · obtain ⟨ts, h1, h2, _⟩ := word_spec P hm s hy hfit hnd
    refine ⟨ts, h1, ?_⟩
    have h0 : NoAdj u (symList m true s none) := symList_noAdj m u hf s [] none (by
      intro i hi
      refine ⟨by simpa [tokenToId] using hkey i hi, fun b _ => hbyte b⟩)
    have gen : ∀ {a b}, MergeMany (Listed (tokenToId m.vocab) m.pre lines) a b → NoAdj u a → NoAdj u b := by
      intro a b h ha
      induction h with
      | refl => exact ha
      | step _ h ih =>
        cases h with
        | mk ht => exact noAdj_merge (hout _ _ _ _ ht.1).2.2 ih
    have hts := gen h2 h0
    intro A t t' B e
    subst e
    have := hts (piecesOf A) (t.id, t.offsets.2 - t.offsets.1) (t'.id, t'.offsets.2 - t'.offsets.1) (piecesOf B)
      (by simp [piecesOf])
    exact this

/-- **C26** Without `fuse_unk`, there is one unknown token, of length 1, for each unknown
byte. -/
theorem C26_unfused (P : Platform) {lines : List Str} {m : BPE} (hm : Made lines m) (s : Str) (u : Int)
    (hf : m.fuseUnk = false) (hne : m.unkToken ≠ []) (hunk : tokenToId m.vocab m.unkToken = some u)
    (hout : ∀ r a b n, Says (tokenToId m.vocab) m.pre lines r a b n → a ≠ u ∧ b ≠ u ∧ n ≠ u)
    (hkey : ∀ i, i < s.length → tokenToId m.vocab (spelling m.pre m.suf s (i, i + 1)) ≠ some u)
    (hbyte : ∀ b, tokenToId m.vocab (fallbackKey b) ≠ some u)
    (hs : s ≠ []) (hfit : Fits m s) (hnd : ¬ Direct m s) (bad : List Nat) (hbad : bad.Nodup)
    (hmem : ∀ i, i ∈ bad ↔ i < s.length ∧ Unknown (tokenToId m.vocab) m.pre m.suf m.byteFallback s i) :
    ∃ ts, (m.word P s).1 = .ok ts ∧ (ts.filter fun t => t.id = u).length = bad.length ∧
      ∀ t ∈ ts, t.id = u → t.offsets.2 = t.offsets.1 + 1 := by
  have hl : m.unkToken.length ≠ 0 := fun h => hne (List.length_eq_zero_iff.1 h)
  obtain ⟨ts, h1, h2, h3, h4, _⟩ := word_spec P hm s ⟨0, List.length_pos_iff.2 hs, .inr (.inr ⟨hne, u, hunk⟩)⟩ hfit hnd
  refine ⟨ts, h1, ?_⟩
  have h0 := symList_withId m u hf hl hunk s [] none (by simp) (by
    intro i hi
    refine ⟨by simpa [tokenToId] using hkey i hi, fun b _ => hbyte b⟩)
  have gen : ∀ {a b}, MergeMany (Listed (tokenToId m.vocab) m.pre lines) a b → withId u b = withId u a := by
    intro a b h
    induction h with
    | refl => rfl
    | step _ h ih =>
      rw [← ih]
      cases h with
      | mk ht =>
        obtain ⟨g1, g2, g3⟩ := hout _ _ _ _ ht.1
        exact withId_merge g1 g2 g3
  have hts := gen h2
  simp only [List.isEmpty_nil] at h0
  rw [h0] at hts
  simp only [pend, Option.toList, List.nil_append, List.length_nil, Nat.zero_add] at hts
  have hcount : ((List.range s.length).countP fun i => unknownAt m s i) = bad.length := by
    rw [List.countP_eq_length_filter]
    apply List.Perm.length_eq
    apply (List.perm_ext_iff_of_nodup ((List.nodup_range).filter _) hbad).2
    intro i
    simp only [List.mem_filter, List.mem_range, unknownAt, decide_eq_true_eq, hmem]
  rw [hcount] at hts
  have hfil : withId u (piecesOf ts) = piecesOf (ts.filter fun t => t.id = u) := by
    simp only [withId, piecesOf, List.filter_map]; rfl
  rw [hfil] at hts
  refine ⟨?_, ?_⟩
  · have := congrArg List.length hts
    simpa [piecesOf] using this
  · intro t ht hid
    have hin : (t.id, t.offsets.2 - t.offsets.1) ∈ piecesOf (ts.filter fun t => t.id = u) :=
      List.mem_map.2 ⟨t, List.mem_filter.2 ⟨ht, by simpa using hid⟩, rfl⟩
    rw [hts] at hin
    have := (List.mem_replicate.1 hin).2
    simp only [Prod.mk.injEq] at this
    have := h4 t ht
    omega

theorem subBPE_out (fuse fb ig : Bool) (d : Dropout) (r : Nat) (a b n : Int)
    (h : Says (tokenToId (subBPE fuse fb ig d).vocab) b!"##" [b!"a ##b", b!"ab ##c</w>"] r a b n) :
    a ≠ 0 ∧ b ≠ 0 ∧ n ≠ 0 := by
  have : ∃ r n, Listed (tokenToId (subBPE fuse fb ig d).vocab) b!"##" [b!"a ##b", b!"ab ##c</w>"] r a b n := by
    obtain ⟨r, ⟨n, hn⟩, hmin⟩ := exists_least (p := fun r => ∃ n,
      Says (tokenToId (subBPE fuse fb ig d).vocab) b!"##" [b!"a ##b", b!"ab ##c</w>"] r a b n) ⟨r, n, h⟩
    exact ⟨r, n, hn, fun r n' h' => hmin r ⟨n', h'⟩⟩
  obtain ⟨r', n', h'⟩ := this
  have g := mapFind_mem ((make_merges (subBPE_made fuse fb ig d) a b r' n').2 ⟨r', rfl, h'⟩)
  simp only [subBPE, List.mem_cons, Prod.mk.injEq, List.not_mem_nil, or_false] at g
  refine ⟨by omega, by omega, ?_⟩
  obtain ⟨line, p, q, hl, hf, h1, h2, h3⟩ := h
  intro e; subst e
  have h4 : p ++ List.drop (List.length (b!"##")) q = b!"<unk>" :=
    distinctIds_of_nodup (v := (subBPE fuse fb ig d).vocab) (by simp [subBPE]) _ _ _ h3 rfl
  have h5 := mapFind_mem h1
  have h6 := mapFind_mem h2
  simp only [subBPE, List.mem_cons, Prod.mk.injEq, List.not_mem_nil, or_false] at h5 h6
  rcases h5 with ⟨rfl, rfl⟩ | ⟨rfl, rfl⟩ | ⟨rfl, rfl⟩ | ⟨rfl, rfl⟩ | ⟨rfl, rfl⟩ | ⟨rfl, rfl⟩ <;>
    rcases h6 with ⟨rfl, rfl⟩ | ⟨rfl, rfl⟩ | ⟨rfl, rfl⟩ | ⟨rfl, rfl⟩ | ⟨rfl, rfl⟩ | ⟨rfl, rfl⟩ <;>
    first
    | omega
    | simp at h4

theorem subBPE_bytes (fuse fb ig : Bool) (d : Dropout) (b : Nat) :
    tokenToId (subBPE fuse fb ig d).vocab (fallbackKey b) = none := by
  simp [subBPE, tokenToId, mapFind, fallbackKey]

example (fb : Bool) (d : Dropout) : ∃ ts, ((subBPE true fb false d).word ascii b!"axxbxxc").1 = .ok ts ∧
    ∀ A t t' B, ts = A ++ t :: t' :: B → ¬ (t.id = 0 ∧ t'.id = 0) :=
  C26_fused ascii (subBPE_made true fb false d) _ 0 rfl rfl (subBPE_out true fb false d) (by
      intro i hi
      match i, hi with
      | 0, _ => exact (by decide : (some 1 : Option Int) ≠ some 0)
      | 1, _ => exact (by decide : (none : Option Int) ≠ some 0)
      | 2, _ => exact (by decide : (none : Option Int) ≠ some 0)
      | 3, _ => exact (by decide : (some 2 : Option Int) ≠ some 0)
      | 4, _ => exact (by decide : (none : Option Int) ≠ some 0)
      | 5, _ => exact (by decide : (none : Option Int) ≠ some 0)
      | 6, _ => exact (by decide : (some 3 : Option Int) ≠ some 0)
      | n + 7, h => simp at h; omega)
    (fun b => by rw [subBPE_bytes]; simp) ⟨0, by decide, .inl ⟨1, rfl⟩⟩ (by simp [Fits, subBPE])

example (d : Dropout) : ∃ ts, ((subBPE false true false d).word ascii b!"axx").1 = .ok ts ∧
    (ts.filter fun t => t.id = 0).length = 2 ∧ ∀ t ∈ ts, t.id = 0 → t.offsets.2 = t.offsets.1 + 1 :=
  C26_unfused ascii (subBPE_made false true false d) _ 0 rfl (by simp [subBPE]) rfl (subBPE_out false true false d) (by
      intro i hi
      match i, hi with
      | 0, _ => exact (by decide : (some 1 : Option Int) ≠ some 0)
      | 1, _ => exact (by decide : (none : Option Int) ≠ some 0)
      | 2, _ => exact (by decide : (none : Option Int) ≠ some 0)
      | n + 3, h => simp at h; omega)
    (fun b => by rw [subBPE_bytes]; simp) (by decide) (by simp [Fits, subBPE]) (by rintro ⟨_, h, _⟩; cases h)
    [1, 2] (by decide) (by
      intro i
      have hb : ∀ i, ¬ ((true = true) ∧ Fallback (tokenToId (subBPE false true false d).vocab) b!"##" b!"</w>" b!"axx" i) := by
        rintro i ⟨_, b, _, id, h⟩
        rw [subBPE_bytes] at h; cases h
      constructor
      · intro h
        simp only [List.mem_cons, List.not_mem_nil, or_false] at h
        rcases h with rfl | rfl
        · exact ⟨by decide, rfl, hb 1⟩
        · exact ⟨by decide, rfl, hb 2⟩
      · rintro ⟨h1, h2, _⟩
        match i, h1 with
        | 0, _ => exact absurd h2 (by show (some 1 : Option Int) ≠ none; simp)
        | 1, _ => simp
        | 2, _ => simp
        | n + 3, h => simp at h; omega)

/-! ### Characters and byte fallback -/

theorem utf8Enc1_high {c : Nat} (h : 0x80 ≤ c) : ∀ b ∈ utf8Enc1 c, 0x80 ≤ b := by
  intro b hb
  unfold utf8Enc1 at hb
  have : ¬ c < 0x80 := by omega
  simp only [this, if_false] at hb
  split at hb
  · simp only [List.mem_cons, List.not_mem_nil, or_false] at hb; omega
  · split at hb <;> simp only [List.mem_cons, List.not_mem_nil, or_false] at hb <;> omega

theorem utf8Enc1_two {c : Nat} (h : 0x80 ≤ c) : 2 ≤ (utf8Enc1 c).length := by
  unfold utf8Enc1
  have : ¬ c < 0x80 := by omega
  simp only [this, if_false]
  split
  · simp
  · split <;> simp

/-- A lone byte above 0x7F cannot follow ASCII in well-formed UTF-8 unless another such byte
follows it. -/
theorem utf8_lone {w : WStr} : ∀ {a : Str} {b : Nat} {r : Str}, utf8 w = a ++ b :: r → (∀ c ∈ a, c < 0x80) →
    0x80 ≤ b → ∃ b' r', r = b' :: r' ∧ 0x80 ≤ b' := by
  induction w with
  | nil => intro a b r h; cases a <;> simp [utf8] at h
  | cons c w ih =>
    intro a b r h ha hb
    simp only [utf8, List.flatMap_cons] at h
    by_cases hc : c < 0x80
    · have e : utf8Enc1 c = [c] := by simp [utf8Enc1, hc]
      rw [e] at h
      cases a with
      | nil => simp at h; omega
      | cons x a =>
        simp at h
        exact ih h.2 (fun y hy => ha y (by simp [hy])) hb
    · have h2 := utf8Enc1_two (Nat.le_of_not_lt hc)
      have hh := utf8Enc1_high (Nat.le_of_not_lt hc)
      obtain ⟨x, y, z, e⟩ : ∃ x y z, utf8Enc1 c = x :: y :: z := by
        cases he : utf8Enc1 c with
        | nil => rw [he] at h2; simp at h2
        | cons x t =>
          cases t with
          | nil => rw [he] at h2; simp at h2
          | cons y z => exact ⟨x, y, z, rfl⟩
      rw [e] at h hh
      cases a with
      | nil =>
        simp only [List.cons_append, List.nil_append, List.cons.injEq] at h
        exact ⟨y, _, h.2.symm, hh y (by simp)⟩
      | cons p a =>
        simp only [List.cons_append, List.cons.injEq] at h
        have := ha p (by simp)
        have := hh x (by simp)
        omega

/-- **C22** is violated for every model without prefix, suffix and unknown token whose
entries are well-formed UTF-8: any text of characters outside ASCII, even if they all are
entries of the vocabulary, makes BPE read out of bounds. -/
theorem C22_violated (P : Platform) {lines : List Str} {m : BPE} (hm : Made lines m) (s : Str) (w : WStr)
    (hpre : m.pre = []) (hsuf : m.suf = []) (hunk : m.unkToken = [] ∨ tokenToId m.vocab m.unkToken = none)
    (hkeys : ∀ k i, tokenToId m.vocab k = some i → ∃ v, Utf8Text v k)
    (hw : Utf8Text w s) (hhigh : ∀ c ∈ w, 0x80 ≤ c) (hnd : ¬ Direct m s) :
    (m.word P s).1 = .error (.ub .outOfBounds) := by
  obtain ⟨_, rfl⟩ := utf8Text_iff.1 hw
  have hb : ∀ b ∈ utf8 w, 0x80 ≤ b := by
    intro b hb
    simp only [utf8, List.mem_flatMap] at hb
    obtain ⟨c, hc, hb⟩ := hb
    exact utf8Enc1_high (hhigh c hc) b hb
  refine C23_violated P hm _ ?_ hnd
  intro i hi
  have hsp : spelling m.pre m.suf (utf8 w) (i, i + 1) = [(utf8 w)[i]] := by
    simp only [spelling, hpre, hsuf, ite_self, List.nil_append, List.append_nil]
    rw [List.drop_eq_getElem_cons hi, show i + 1 - i = 1 by omega]; rfl
  have hbi := hb _ (List.getElem_mem hi)
  rintro (⟨id, h⟩ | ⟨_, b, hbm, id, h⟩ | ⟨h, id, h'⟩)
  · rw [hsp] at h
    obtain ⟨v, hv⟩ := hkeys _ _ h
    obtain ⟨_, e⟩ := utf8Text_iff.1 hv
    obtain ⟨_, _, e', _⟩ := utf8_lone (a := []) e.symm (by simp) hbi
    cases e'
  · rw [hsp] at hbm
    simp only [List.mem_singleton] at hbm
    obtain ⟨v, hv⟩ := hkeys _ _ h
    obtain ⟨_, e⟩ := utf8Text_iff.1 hv
    obtain ⟨_, _, e', h'⟩ := utf8_lone (a := [0x3C, 0x30, 0x30, 0x30]) (b := b) (r := [0x3E]) e.symm
      (by decide) (by omega)
    simp only [List.cons.injEq] at e'; omega
  · rcases hunk with h'' | h''
    · exact h h''
    · rw [h''] at h'; cases h'

/-- The vocabulary of "é" (U+00E9). -/
def eacuteBPE : BPE :=
  { vocab := [(b!"é", 0)], merges := [], dropout := ⟨false, fun _ => false⟩, unkToken := [], pre := [], suf := [],
    fuseUnk := false, byteFallback := false, ignoreMerges := false }

example : (eacuteBPE.word ascii b!"é").1 = .error (.ub .outOfBounds) :=
  C22_violated ascii (lines := []) (m := eacuteBPE) rfl _ w!"é" rfl rfl (.inl rfl) (by
      intro k i h
      have := mapFind_mem h
      simp only [eacuteBPE, List.mem_singleton, Prod.mk.injEq] at this
      obtain ⟨rfl, rfl⟩ := this
      exact ⟨w!"é", utf8Text_iff.2 ⟨by simp [Scalars, isScalar], rfl⟩⟩)
    (utf8Text_iff.2 ⟨by simp [Scalars, isScalar], rfl⟩) (by decide) (by rintro ⟨_, h, _⟩; cases h)

/-- **C24** is violated for every model: unless the vocabulary has an entry of the odd form
`<000b>` (`b` a raw byte), byte fallback has no effect at all; in particular entries of the
form `<0xNN>` are never found. -/
theorem C24_violated (P : Platform) (m : BPE) (s : Str)
    (hodd : ∀ b, tokenToId m.vocab (fallbackKey b) = none) :
    ((BPE.fresh { m with byteFallback := true }).word P s).1 = ((BPE.fresh { m with byteFallback := false }).word P s).1 := by
  have hids : ∀ k, fallbackIds m.vocab k = [] := by
    intro k
    simp only [fallbackIds, List.filterMap_eq_nil_iff]
    intro b _; exact hodd b
  have hs : ∀ (r : Str) f w u, BPE.symbolsLoop { m with byteFallback := true, cache := [] } f r w u =
      BPE.symbolsLoop { m with byteFallback := false, cache := [] } f r w u := by
    intro r
    induction r with
    | nil => intro f w u; rfl
    | cons b r ih =>
      intro f w u
      simp only [BPE.symbolsLoop]
      have : BPE.addByte { m with byteFallback := true, cache := [] } b f r.isEmpty w u =
          BPE.addByte { m with byteFallback := false, cache := [] } b f r.isEmpty w u := by
        simp only [BPE.addByte, hids, ite_self]
        rfl
      rw [this, ih]
  have hmw : BPE.mergeWord P { m with byteFallback := true, cache := [] } s =
      BPE.mergeWord P { m with byteFallback := false, cache := [] } s := by
    unfold BPE.mergeWord BPE.symbols
    rw [hs]
  have ht : ∀ (w : List Symbol) pos, BPE.wordToTokens { m with byteFallback := true, cache := [] } pos w =
      BPE.wordToTokens { m with byteFallback := false, cache := [] } pos w := by
    intro w
    induction w with
    | nil => intro pos; rfl
    | cons x r ih => intro pos; simp only [BPE.wordToTokens, ih]
  unfold BPE.fresh BPE.word BPE.tokenizeWithCache
  simp only [hmw, ht, mapFind]
  cases BPE.mergeWord P { m with byteFallback := false, cache := [] } s with
  | error e => simp only; split; (split <;> rfl); rfl
  | ok w =>
    simp only
    split
    · split
      · rfl
      · split <;> rfl
    · rfl

/-- `<0xNN>` is not of the form byte fallback looks up. -/
theorem C24_never_hex (b : Nat) (x y : Nat) : fallbackKey b ≠ b!"<0x" ++ [x, y] ++ b!">" := by
  simp [fallbackKey]

/-- A vocabulary with the byte token `<0x61>` only: `a` is not found. -/
def hexBPE : BPE :=
  { vocab := [(b!"<0x61>", 0)], merges := [], dropout := ⟨false, fun _ => false⟩, unkToken := [], pre := [],
    suf := [], fuseUnk := false, byteFallback := true, ignoreMerges := false }

example : (hexBPE.word ascii b!"a").1 = .error (.ub .outOfBounds) := by decide +kernel

end Tok
