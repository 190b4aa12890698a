import Verif.Spec.Options
import Verif.Props.Pruned
import Verif.Props.Rules
import Verif.Props.Fallback
import Verif.Props.Again

set_option autoImplicit false

/-!
C141: options of the model that a text does not need.
-/

namespace Tok
open Spec

/-! ### WordPiece -/

theorem op_wp {m m' : WordPiece} {y : WStr} {s : Str} (hs : Utf8Text y s) (h : WordPieceAlike m m' y) : m.word s = m'.word s := by
  obtain ⟨hv, hl, hr⟩ := h
  rcases hr with ⟨hu, hr⟩ | ⟨hp, hseg⟩ | ⟨hne, hlen, k, hk, hin⟩
  · obtain ⟨hsc, rfl⟩ := utf8Text_iff.1 hs
    have hunk : m'.unk (units y) = m.unk (units y) := by unfold WordPiece.unk; rw [hv, hu]
    unfold WordPiece.word
    simp only [fromUTF8_utf8 hsc, ← units_eq, hunk]
    by_cases hle : (units y : Int) ≤ m.maxChars
    · have hp : m'.pre = m.pre := hr.resolve_right (by omega)
      have hle' := hl.1 hle
      rw [if_neg (by omega), if_neg (by omega)]
      have lo : ∀ a k, m'.longest (utf16 y) a k = m.longest (utf16 y) a k := by
        intro a k
        induction k with
        | zero => rfl
        | succ k ih =>
          simp only [WordPiece.longest, ih, hv, show m'.piece (utf16 y) a (a + (k + 1)) = m.piece (utf16 y) a (a + (k + 1)) by unfold WordPiece.piece; rw [hp]]
      have lp : ∀ f a, m'.loop (utf16 y) f a = m.loop (utf16 y) f a := by
        intro f
        induction f with
        | zero => intro a; rw [WordPiece.loop, WordPiece.loop]
        | succ f ih =>
          intro a
          rw [WordPiece.loop, WordPiece.loop]
          simp only [lo, ih]
      rw [lp]
    · rw [if_pos (by omega), if_pos (by rcases Int.lt_or_le m'.maxChars (units y) with h | h; exact h; exact absurd (hl.2 h) hle)]
  · have a := C12_C13_answer m s y hs hseg.clean
    have b := C12_C13_answer m' s y hs (by rw [hv]; exact hseg.clean)
    have sh := hl.1 hseg.short
    have sh' := hseg.short
    rcases a with ⟨a, -⟩ | ⟨-, a, -⟩ | ⟨-, a⟩
    · omega
    · exact absurd a hseg.covered
    · rcases b with ⟨b, -⟩ | ⟨-, b, -⟩ | ⟨-, b⟩
      · omega
      · rw [hv, hp] at b
        exact absurd b hseg.covered
      · rw [hv, hp] at b
        exact C12_greedy_unique a b
  · obtain ⟨hsc, rfl⟩ := utf8Text_iff.1 hs
    obtain ⟨-, rfl⟩ := utf8Text_iff.1 hk
    cases hi : tokenToId m.vocab (utf8 y) with
    | none => exact absurd hi hin
    | some i =>
      rw [C14_vocab_word_whole m _ y hs hne hlen i hi, C14_vocab_word_whole m' _ y hs hne (hl.1 hlen) i (by rw [hv]; exact hi)]

/-! ### Byte-pair encoding -/

theorem op_pieces {unk unk' : Option Int} {fuse fuse' : Bool} {fs : List Found} {l : List (Int × Nat)} (h : Pieces unk fuse fs l)
    (hn : (unk = none ∧ unk' = none) ∨ ∀ f ∈ fs, f ≠ .nothing) : Pieces unk' fuse' fs l := by
  have hd : ∀ {f : Found} {r : List Found}, ((unk = none ∧ unk' = none) ∨ ∀ x ∈ f :: r, x ≠ .nothing) → (unk = none ∧ unk' = none) ∨ ∀ x ∈ r, x ≠ .nothing :=
    fun h => h.imp_right fun h x hx => h x (List.mem_cons_of_mem _ hx)
  induction h with
  | nil => exact .nil
  | known _ ih => exact .known (ih (hd hn))
  | bytes _ ih => exact .bytes (ih (hd hn))
  | dropped hu _ ih =>
    rcases hn with hn | hn
    · exact .dropped hn.2 (ih (.inl hn))
    · exact absurd rfl (hn .nothing (by simp))
  | single hu _ _ _ _ _ =>
    rcases hn with hn | hn
    · rw [hn.1] at hu; cases hu
    · exact absurd rfl (hn .nothing (by simp))
  | run hu _ _ _ _ _ =>
    rcases hn with hn | hn
    · rw [hn.1] at hu; cases hu
    · exact absurd rfl (hn .nothing (by simp))

theorem op_found {V : Str → Option Int} {pre suf : Str} {fb : Bool} {s : Str} {i : Nat} : found V pre suf fb s i = .nothing ↔ Unknown V pre suf fb s i := by
  unfold found Unknown Fallback
  cases V (spelling pre suf s (i, i + 1)) with
  | some id => simp
  | none =>
    cases hf : (spelling pre suf s (i, i + 1)).filterMap fun b => V (fallbackKey b) with
    | nil =>
      rw [List.filterMap_eq_nil_iff] at hf
      simp only [true_and, true_iff]
      rintro ⟨-, b, hb, id, hid⟩
      rw [hf b hb] at hid
      cases hid
    | cons x l =>
      have : ∃ b ∈ spelling pre suf s (i, i + 1), ∃ id, V (fallbackKey b) = some id := by
        have hx : x ∈ (spelling pre suf s (i, i + 1)).filterMap fun b => V (fallbackKey b) := by rw [hf]; simp
        obtain ⟨b, hb, e⟩ := List.mem_filterMap.1 hx
        exact ⟨b, hb, x, e⟩
      cases fb <;> simp [this]

theorem op_symList {m m' : BPE} {s : Str} (hv : m'.vocab = m.vocab) (hp : m'.pre = m.pre) (hs : m'.suf = m.suf)
    (hf : m'.byteFallback = m.byteFallback ∨
       ∀ i, i < s.length → tokenToId m.vocab (spelling m.pre m.suf s (i, i + 1)) = none → ¬ Fallback (tokenToId m.vocab) m.pre m.suf s i)
    (hu : (m'.unkToken = m.unkToken ∧ (m'.fuseUnk = m.fuseUnk ∨ unknownOf (tokenToId m.vocab) m.unkToken = none)) ∨
       ∀ i, i < s.length → ¬ Unknown (tokenToId m.vocab) m.pre m.suf m.byteFallback s i) :
    symList m' true s none = symList m true s none := by
  have ha : foundAll (tokenToId m'.vocab) m'.pre m'.suf m'.byteFallback s = foundAll (tokenToId m.vocab) m.pre m.suf m.byteFallback s := by
    rw [hv, hp, hs]
    unfold foundAll
    refine List.map_congr_left fun i hi => ?_
    rcases hf with hf | hf
    · rw [hf]
    · unfold found
      cases e : tokenToId m.vocab (spelling m.pre m.suf s (i, i + 1)) with
      | some id => rfl
      | none =>
        have := hf i (by simpa using hi) e
        have hn : (spelling m.pre m.suf s (i, i + 1)).filterMap (fun b => tokenToId m.vocab (fallbackKey b)) = [] := by
          rw [List.filterMap_eq_nil_iff]
          intro b hb
          cases hk : tokenToId m.vocab (fallbackKey b) with
          | none => rfl
          | some id => exact absurd ⟨b, hb, id, hk⟩ this
        simp only [hn]
  have h' : Pieces (unknownId m') m'.fuseUnk (foundAll (tokenToId m.vocab) m.pre m.suf m.byteFallback s) (symList m' true s none) := by
    rw [← ha]; exact initial_symList m' s
  refine C101_unique (m := m) (s := s) ?_ (initial_symList m s)
  show Pieces _ _ _ _
  rcases hu with ⟨hu, hfu | hfu⟩ | hu
  · have : unknownId m' = unknownId m := by unfold unknownId; rw [hu, hv]
    rw [this, hfu] at h'
    exact h'
  · have e1 : unknownId m = none := by
      rw [← hfu]; rfl
    have : unknownId m' = unknownId m := by unfold unknownId; rw [hu, hv]
    exact op_pieces h' (.inl ⟨this.trans e1, e1⟩)
  · refine op_pieces h' (.inr fun f hf => ?_)
    obtain ⟨i, hi, rfl⟩ := List.mem_map.1 hf
    exact fun e => hu i (by simpa using hi) (op_found.1 e)

theorem op_wordToTokens {m m' : BPE} (hv : m'.vocab = m.vocab) : ∀ (w : List Symbol) (p : Nat), m'.wordToTokens p w = m.wordToTokens p w
  | [], p => rfl
  | s :: r, p => by
    simp only [BPE.wordToTokens, hv]
    cases mapFind (vocabR m.vocab) s.c with
    | none => rfl
    | some v => simp only [op_wordToTokens hv r]

theorem op_bpe (P : Platform) {lines : List Str} {m m' : BPE} (hm : Made lines m) (hm' : Made lines m') {s : Str} (h : BPEAlike m m' s) :
    (m.word P s).1 = (m'.word P s).1 := by
  obtain ⟨hv, hp, hs, hd, hr⟩ := h
  have hmer : m'.merges = m.merges := by
    unfold Made BPE.make at hm hm'
    obtain ⟨a, a1, a2⟩ := res_bind_ok.1 hm
    obtain ⟨b, b1, b2⟩ := res_bind_ok.1 hm'
    rw [hv, hp, a1] at b1
    cases b1
    have a3 := congrArg BPE.merges (Except.ok.inj a2)
    have b3 := congrArg BPE.merges (Except.ok.inj b2)
    exact b3.symm.trans a3
  rcases hr with ⟨d1, d2, d3, d4⟩ | ⟨hw, hf, hu⟩
  · cases hi : tokenToId m.vocab s with
    | none => exact absurd hi d4
    | some i =>
      have e : mapFind m.vocab s = some i := hi
      have e' : mapFind m'.vocab s = some i := by rw [hv]; exact hi
      unfold BPE.word BPE.tokenizeWithCache
      rw [hd]
      simp only [d1, d2, d3, e, e', if_true]
  · have hmw : m'.mergeWord P s = m.mergeWord P s := by
      unfold BPE.mergeWord
      rw [symbols_chain, symbols_chain, op_symList hv hp hs hf hu, hmer, hd]
    have hdi : Direct m s ↔ Direct m' s := by
      unfold Direct
      rw [hd, hv]
      constructor
      · rintro ⟨a, b, i, c⟩
        rcases hw with hw | hw | hw
        · exact ⟨a, hw.trans b, i, c⟩
        · rw [hw] at c; cases c
        · rw [a] at hw; cases hw
      · rintro ⟨a, b, i, c⟩
        rcases hw with hw | hw | hw
        · exact ⟨a, hw.symm.trans b, i, c⟩
        · rw [hw] at c; cases c
        · rw [a] at hw; cases hw
    rcases word_answer P (made_cache hm) s with ⟨i, a1, a2, a3⟩ | ⟨a1, a2⟩
    · rcases word_answer P (made_cache hm') s with ⟨j, b1, b2, b3⟩ | ⟨b1, b2⟩
      · rw [a3, b3]
        rw [hv, a2] at b2
        cases b2; rfl
      · exact absurd (hdi.1 a1) b1
    · rcases word_answer P (made_cache hm') s with ⟨j, b1, b2, b3⟩ | ⟨b1, b2⟩
      · exact absurd (hdi.2 b1) a1
      · rw [hmw] at b2
        rcases a2 with ⟨e, a2, a3⟩ | ⟨w, a2, a3⟩ <;> rcases b2 with ⟨e', b2, b3⟩ | ⟨w', b2, b3⟩
        · rw [a3, b3]; rw [b2] at a2; cases a2; rfl
        · rw [b2] at a2; cases a2
        · rw [b2] at a2; cases a2
        · rw [a3, b3]; rw [b2] at a2; cases a2
          exact (op_wordToTokens hv _ _).symm

/-! ### The model and the tokenizer -/

theorem op_model (P : Platform) {lines : List Str} {m m' x x' : Model} (hm : ModelIs P lines m x) (hm' : ModelIs P lines m' x') {ws : List WStr} {p : PTS}
    (hw : Each (fun y s => HasText s y) ws p.splits) (h : ∀ y ∈ ws, OptionsAlike m m' y) :
    (x.tokenize P p).1 = (x'.tokenize P p).1 := by
  have none : ∀ {q : WStr → Prop}, (∀ y ∈ ws, q y) → (∀ y, q y → False) → p.splits = [] := by
    intro q h f
    cases ws with
    | nil =>
      generalize p.splits = l at hw
      cases hw
      rfl
    | cons y ws => exact (f y (h y (by simp))).elim
  cases m with
  | wordPiece m =>
    cases m' with
    | bpe m' =>
      obtain ⟨-, -, before', rfl⟩ := hm'
      cases hm
      have hn := none h fun _ k => k
      simp only [Model.tokenize, WordPiece.tokenize, BPE.tokenize, hn, BPE.splitsLoop, List.map_nil]
    | wordPiece m' =>
      cases hm; cases hm'
      simp only [Model.tokenize, WordPiece.tokenize, Except.ok.injEq, PTS.mk.injEq, true_and]
      apply List.map_congr_left
      intro s hsm
      obtain ⟨y, hy, ht⟩ := each_mem_right hw s hsm
      rw [op_wp ht (h y hy)]
  | bpe m =>
    cases m' with
    | wordPiece m' =>
      obtain ⟨-, -, before, rfl⟩ := hm
      cases hm'
      have hn := none h fun _ k => k
      simp only [Model.tokenize, WordPiece.tokenize, BPE.tokenize, hn, BPE.splitsLoop, List.map_nil]
    | bpe m' =>
      obtain ⟨hmade, -, before, rfl⟩ := hm
      obtain ⟨hmade', -, before', rfl⟩ := hm'
      obtain ⟨c1, f1⟩ := used_cache P hmade before
      obtain ⟨c2, f2⟩ := used_cache P hmade' before'
      have key := pr_splits P p.splits (m := m) (m' := m') (by
        intro s hsm
        obtain ⟨y, hy, ht⟩ := each_mem_right hw s hsm
        obtain ⟨k, hk, ha⟩ := h y hy
        have : k = s.normalized := (utf8Text_iff.1 hk).2.trans (utf8Text_iff.1 ht).2.symm
        subst this
        exact op_bpe P hmade hmade' ha) _ _ c1 f1 c2 f2
      simp only [Model.tokenize, BPE.tokenize]
      generalize BPE.splitsLoop P _ p.splits = R at key
      generalize BPE.splitsLoop P _ p.splits = R' at key
      obtain ⟨q, z⟩ := R
      obtain ⟨q', z'⟩ := R'
      simp only at key
      subst key
      cases q <;> rfl

theorem op_encode (P : Platform) {t : Tokenizer} {x x' : Model} {w : WStr} {b : Bool} (hx : t.model = some x)
    (h : ∀ p, (t.preTokenized P w).1 = .ok p → (x.tokenize P p).1 = (x'.tokenize P p).1) :
    (t.encode P w b).1 = (({ t with model := some x' } : Tokenizer).encode P w b).1 := by
  have hpre : (({ t with model := some x' } : Tokenizer).preTokenized P w).1 = (t.preTokenized P w).1 := by
    unfold Tokenizer.preTokenized
    cases PTS.ofNS (NS.ofText w) with
    | error e => rfl
    | ok p =>
      cases e : t.added with
      | none => simp only
      | some a => rfl
  rw [ha_encode, ha_encode]
  have ht : textPart P { t with model := some x' } w = textPart P t w := by
    unfold textPart
    rw [hpre]
    cases hp : (t.preTokenized P w).1 with
    | error e => rfl
    | ok p =>
      simp only [res_ok_bind]
      simp only [Tokenizer.doTokenize, hx, h p hp]
  rw [ht]
  rfl

/-- **C141** Options of the model that the words of a text do not need make no difference: if the two models differ in options only that do not matter
for the words of the text, `encode` returns the same - the same encoding or the same failure -, whatever texts were encoded before. -/
theorem C141_encode (P : Platform) (hg : GoodRegexes P) {t : Tokenizer} {m m' x x' : Model} {lines : List Str} {w : WStr} {b : Bool}
    (hx : t.model = some x) (hm : ModelIs P lines m x) (hm' : ModelIs P lines m' x') (hd : ∀ a, t.added = some a → PlainTables a)
    (h : ∀ ws, AnyWords P t w ws → ∀ y ∈ ws, OptionsAlike m m' y) :
    (t.encode P w b).1 = (({ t with model := some x' } : Tokenizer).encode P w b).1 :=
  op_encode P hx fun _ hp => by
    obtain ⟨ws, k1, k2⟩ := at_words P hg hd hp
    exact op_model P hm hm' k2 (h ws k1)

/-- **C141** When the text is only cut (no normalizer, pre-tokenizers that only cut), it is enough to look at the parts of the text. -/
theorem C141_text (P : Platform) {t : Tokenizer} {m m' x x' : Model} {lines : List Str} {w : WStr} {b : Bool}
    (hx : t.model = some x) (hm : ModelIs P lines m x) (hm' : ModelIs P lines m' x')
    (hw : Positioned t w) (hpt : ∀ pt, t.preTokenizer = some pt → OnlyCuts P pt) (h : ∀ y, y <:+: w → OptionsAlike m m' y) :
    (t.encode P w b).1 = (({ t with model := some x' } : Tokenizer).encode P w b).1 :=
  op_encode P hx fun p hp => by
    obtain ⟨ws, k1, k2⟩ := pr_laid (preTokenized_laid P t w p hw hpt hp)
    refine op_model P hm hm' k1 fun y hy => h y ?_
    obtain ⟨a, c, e⟩ := k2 y hy
    exact ⟨a, c, e.symm⟩

/-- **C141** A limit on the word length that is at least the length of the text can be any other such limit. -/
theorem C141_limit (P : Platform) {t : Tokenizer} {m : WordPiece} {k : Int} {w : WStr} {b : Bool} (hx : t.model = some (.wordPiece m))
    (hw : Positioned t w) (hpt : ∀ pt, t.preTokenizer = some pt → OnlyCuts P pt) (h : (units w : Int) ≤ m.maxChars) (h' : (units w : Int) ≤ k) :
    (t.encode P w b).1 = (({ t with model := some (.wordPiece { m with maxChars := k }) } : Tokenizer).encode P w b).1 := by
  refine C141_text P (lines := []) (m := .wordPiece m) (m' := .wordPiece { m with maxChars := k }) hx rfl rfl hw hpt fun y hy => ?_
  have hle : units y ≤ units w := by
    obtain ⟨a, c, rfl⟩ := hy
    rw [units_eq, units_eq, utf16_append, utf16_append]
    simp only [List.length_append]
    omega
  exact ⟨rfl, ⟨fun _ => by show _ ≤ k; omega, fun _ => by omega⟩, .inl ⟨rfl, .inl rfl⟩⟩

/-- **C141** If each byte of the text has an entry (and there is neither prefix nor suffix), the unknown token, fusing and byte fallback do not matter;
nor does `ignore_merges` for a model with dropout. -/
theorem C141_bytes (P : Platform) {t : Tokenizer} {m : BPE} {before before' : List PTS} {lines : List Str} {w : WStr} {s : Str} {b : Bool}
    {unk : Str} {fuse fb ig : Bool} (hx : t.model = some (.bpe (usedBPE P m before))) (hm : Made lines m) (hk : (m.vocab.map (·.1)).Nodup)
    (hp : m.pre = []) (hs : m.suf = []) (hw : Positioned t w) (hpt : ∀ pt, t.preTokenizer = some pt → OnlyCuts P pt) (hu : Utf8Text w s)
    (hb : ∀ c ∈ s, tokenToId m.vocab [c] ≠ none) (hig : ig = m.ignoreMerges ∨ m.dropout.on = true) :
    (t.encode P w b).1 = (({ t with model := some (.bpe (usedBPE P { m with unkToken := unk, fuseUnk := fuse, byteFallback := fb, ignoreMerges := ig } before')) } :
      Tokenizer).encode P w b).1 := by
  have hm' : Made lines { m with unkToken := unk, fuseUnk := fuse, byteFallback := fb, ignoreMerges := ig } := by
    unfold Made BPE.make at hm ⊢
    obtain ⟨a, a1, a2⟩ := res_bind_ok.1 hm
    simp only
    rw [a1]
    have a3 := congrArg BPE.merges (Except.ok.inj a2)
    have a4 := congrArg BPE.cache (Except.ok.inj a2)
    simp only at a3 a4
    refine congrArg Except.ok ?_
    simp only [← a3, ← a4]
  refine C141_text P (lines := lines) (m := .bpe m) (m' := .bpe _) hx ⟨hm, hk, before, rfl⟩ ⟨hm', hk, before', rfl⟩ hw hpt fun y hy => ?_
  obtain ⟨a, c, rfl⟩ := hy
  obtain ⟨hsc, rfl⟩ := utf8Text_iff.1 hu
  refine ⟨utf8 y, utf8Text_iff.2 ⟨fun x hx => hsc x (by simp [hx]), rfl⟩, rfl, rfl, rfl, rfl, .inr ⟨hig.imp id .inr, .inr ?_, .inr ?_⟩⟩
  · intro i hi hn
    rw [hp, hs, pr_spelling _ _ hi] at hn
    exact absurd hn (hb _ (by rw [utf8_append, utf8_append]; simp))
  · intro i hi hn
    have hn := hn.1
    rw [hp, hs, pr_spelling _ _ hi] at hn
    exact hb _ (by rw [utf8_append, utf8_append]; simp) hn

/-! ### The hypotheses are met -/

/-- A word-piece tokenizer with BERT pre-tokenization, without normalizer and added tokens. -/
def opTk (limit : Int) (unk : Str) : Tokenizer :=
  { uncasedTk true true true true with
    normalizer := none, added := none
    model := some (.wordPiece { vocab := [(b!"[UNK]", 0), (b!"hello", 1), (b!"##s", 2), (b!"b", 3), (b!"?", 4)], unkToken := unk, maxChars := limit, pre := b!"##" }) }

example : ((opTk 7 b!"[UNK]").encode ascii w!"hellos!" true).1 = ((opTk 100 b!"[UNK]").encode ascii w!"hellos!" true).1 :=
  C141_limit ascii (t := opTk 7 b!"[UNK]") (w := w!"hellos!") rfl (by show ∀ c ∈ _, Scalar c; unfold Scalar; decide) (by intro p h; cases h; exact True.intro) (by decide) (by decide)

/-- With a limit of 4 the word is unknown; and which unknown token there is matters for the exclamation mark only. -/
example : ((opTk 100 b!"[UNK]").encode ascii w!"hellos!" true).1.map (·.ids) = .ok [1, 2, 0] ∧
    ((opTk 4 b!"[UNK]").encode ascii w!"hellos!" true).1.map (·.ids) = .ok [0, 0] ∧
    ((opTk 100 b!"?").encode ascii w!"hellos!" true).1.map (·.ids) = .ok [1, 2, 4] := by
  refine ⟨?_, ?_, ?_⟩ <;> decide +kernel

example : WordPieceAlike { vocab := [(b!"[UNK]", 0), (b!"b", 3)], unkToken := b!"[UNK]", maxChars := 7, pre := b!"##" }
    { vocab := [(b!"[UNK]", 0), (b!"b", 3)], unkToken := b!"b", maxChars := 9, pre := b!"@" } w!"b" :=
  ⟨rfl, by decide, .inr (.inr ⟨by decide, by decide, b!"b", (C02_to_string_iff _ _).1 rfl, by decide⟩)⟩

example : ((abcTk [] false .bert).encode ascii w!"ababbc" true).1 =
    (({ abcTk [] false .bert with model := some (.bpe (usedBPE ascii { abcBPE with unkToken := b!"a", fuseUnk := true, byteFallback := true, ignoreMerges := false } [])) } :
      Tokenizer).encode ascii w!"ababbc" true).1 := by
  refine C141_bytes ascii (t := abcTk [] false .bert) (m := abcBPE) (before := []) (lines := [b!"a b", b!"b c"]) (s := b!"ababbc") rfl abcBPE_made (by decide) rfl rfl ?_ ?_
    ((C02_to_string_iff _ _).1 rfl) ?_ (.inl rfl)
  · show ∀ c ∈ _, Scalar c
    unfold Scalar; decide
  · intro p h; cases h; exact True.intro
  · decide

/-- `ignore_merges` does matter: it changes the offsets of a word that is an entry. -/
theorem C141_violated :
    ((abcTk [] false .bert).encode ascii w!"ab" true).1.map (·.offsets) = .ok [(0, 2)] ∧
    (({ abcTk [] false .bert with model := some (.bpe { abcBPE with ignoreMerges := true }) } : Tokenizer).encode ascii w!"ab" true).1.map (·.offsets) = .ok [(0, 0)] := by
  refine ⟨?_, ?_⟩ <;> decide +kernel

end Tok
