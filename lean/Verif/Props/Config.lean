import Verif.Proofs.Config4
import Verif.Props.Construct
import Verif.Sample

set_option autoImplicit false

/-!
# Construction from a document (C52, C60, C68)
-/

namespace Tok
open Spec

/-- The eight sections of a configuration. -/
def sections : List Str :=
  [b!"truncation", b!"padding", b!"added_tokens", b!"normalizer", b!"pre_tokenizer", b!"model", b!"decoder", b!"post_processor"]

theorem describes_field {P : Platform} {doc : Json} {t : Tokenizer} (h : Describes P doc t) :
    ∀ k ∈ sections, ∃ v, Field doc k v := by
  obtain ⟨⟨v1, f1, _⟩, ⟨v2, f2, _⟩, ⟨v3, f3, _⟩, ⟨v4, f4, _⟩, ⟨v5, f5, _⟩, ⟨v6, f6, _⟩, ⟨v7, f7, _⟩, ⟨v8, f8, _⟩⟩ := h
  intro k hk
  simp only [sections, List.mem_cons, List.not_mem_nil, or_false] at hk
  rcases hk with rfl | rfl | rfl | rfl | rfl | rfl | rfl | rfl
  · exact ⟨v1, f1⟩
  · exact ⟨v2, f2⟩
  · exact ⟨v3, f3⟩
  · exact ⟨v4, f4⟩
  · exact ⟨v5, f5⟩
  · exact ⟨v6, f6⟩
  · exact ⟨v7, f7⟩
  · exact ⟨v8, f8⟩

theorem describes_added {P : Platform} {doc : Json} {t : Tokenizer} (h : Describes P doc t) :
    t.added = none ∨ ∃ l, t.added = some (AddedVocab.init l) := by
  obtain ⟨_, _, ⟨v, _, h⟩, _⟩ := h
  rcases h with ⟨_, h⟩ | ⟨_, y, h, l, _, rfl⟩
  · exact .inl h
  · exact .inr ⟨l, h⟩

/-- The added tokens of the configuration are safe (see `SafeTokens`). -/
def SafeConfig (t : Tokenizer) : Prop := ∀ l, t.added = some (AddedVocab.init l) → SafeTokens t.model l

theorem finish_cases {t : Tokenizer} (ha : t.added = none ∨ ∃ l, t.added = some (AddedVocab.init l)) :
    (SafeConfig t ∧ ∃ t', t.finish = .ok t') ∨ (¬ SafeConfig t ∧ ∃ k, t.finish = .error (.ub k)) := by
  rcases ha with ha | ⟨l, ha⟩
  · left
    refine ⟨?_, t, by unfold Tokenizer.finish; rw [ha]⟩
    intro l hl; rw [ha] at hl; cases hl
  · have h := C59_safe_iff t l ha
    have hs : SafeConfig t ↔ SafeTokens t.model l := by
      constructor
      · exact fun h => h l ha
      · intro h l' hl'
        rw [ha] at hl'
        have : l = l' := by
          have := congrArg (fun o => o.map AddedVocab.addedTokens) hl'
          simpa [AddedVocab.init] using this
        rw [← this]; exact h
    by_cases hsafe : SafeTokens t.model l
    · exact .inl ⟨hs.2 hsafe, h.1.2 hsafe⟩
    · exact .inr ⟨fun h' => hsafe (hs.1 h'), h.2 hsafe⟩

theorem finish_fields {t t' : Tokenizer} (h : t.finish = .ok t') : t = { t' with added := t.added } := by
  unfold Tokenizer.finish at h
  split at h
  · cases h; rfl
  · obtain ⟨⟨n, a⟩, _, h⟩ := res_bind_ok.1 h
    cases h; rfl

theorem nil_of_find {κ ν : Type} [DecidableEq κ] {m : List (κ × ν)} (h : ∀ k, mapFind m k = none) : m = [] := by
  cases m with
  | nil => rfl
  | cons p r => have := h p.1; simp [mapFind] at this

theorem opt_vocab_same {j : Json} {k : Str} {V V' : Vocab} (h : Opt VocabOf [] j k V) (h' : Opt VocabOf [] j k V') (s : Str) :
    mapFind V s = mapFind V' s := by
  obtain ⟨v, hv, h⟩ := h
  obtain ⟨w, hw, h'⟩ := h'
  cases field_unique hv hw
  rcases h with ⟨hn, rfl⟩ | ⟨hn, h⟩
  · rcases h' with ⟨_, rfl⟩ | ⟨hn', _⟩
    · rfl
    · exact absurd hn hn'
  · rcases h' with ⟨hn', _⟩ | ⟨_, h'⟩
    · exact absurd hn' hn
    · exact vocabOf_same h h' s

theorem same_nil {V V' : Vocab} (h : ∀ s, mapFind V s = mapFind V' s) : V = [] ↔ V' = [] := by
  constructor
  · rintro rfl; exact nil_of_find fun k => by rw [← h]; rfl
  · rintro rfl; exact nil_of_find fun k => by rw [h]; rfl

/-- The vocabularies of two descriptions of a model agree. -/
theorem modelOf_same {P : Platform} {j : Json} {x y : Option Model} (hx : ModelOf P j x) (hy : ModelOf P j y) :
    (x = none ∧ y = none) ∨ ∃ m m', x = some m ∧ y = some m' ∧ ∀ s, mapFind m.vocab s = mapFind m'.vocab s := by
  cases hx with
  | wordPiece ht hV =>
    cases hy with
    | wordPiece _ hV' => exact .inr ⟨_, _, rfl, rfl, opt_vocab_same hV hV'⟩
    | bpe ht' => exact absurd (hasType_unique ht ht') (by decide)
    | other ht' hs => cases hasType_unique ht ht'; exact absurd hs (by simp)
  | bpe ht hV =>
    cases hy with
    | wordPiece ht' hV' => exact absurd (hasType_unique ht ht') (by decide)
    | bpe _ hV' => exact .inr ⟨_, _, rfl, rfl, opt_vocab_same hV hV'⟩
    | other ht' hs => cases hasType_unique ht ht'; exact absurd hs (by simp)
  | other ht hs =>
    cases hy with
    | wordPiece ht' => cases hasType_unique ht' ht; exact absurd hs (by simp)
    | bpe ht' => cases hasType_unique ht' ht; exact absurd hs (by simp)
    | other => exact .inl ⟨rfl, rfl⟩

theorem describes_safe {P : Platform} {doc : Json} {t t0 : Tokenizer} (h : Describes P doc t) (h0 : Describes P doc t0)
    (hs : SafeConfig t) : t0.added = t.added ∧ SafeConfig t0 := by
  have hadd : t0.added = t.added := (sec_added doc).unique h0.2.2.1 h.2.2.1
  refine ⟨hadd, ?_⟩
  intro l hl
  rw [hadd] at hl
  have := hs l hl
  obtain ⟨v, hv, hm⟩ := h.2.2.2.2.2.1
  obtain ⟨w, hw, hm0⟩ := h0.2.2.2.2.2.1
  cases field_unique hv hw
  rcases hm with ⟨hn, e⟩ | ⟨hn, hm⟩
  · rcases hm0 with ⟨_, e'⟩ | ⟨hn', _⟩
    · rw [e']; rw [e] at this; exact this
    · exact absurd hn hn'
  · rcases hm0 with ⟨hn', _⟩ | ⟨_, hm0⟩
    · exact absurd hn' hn
    · rcases modelOf_same hm hm0 with ⟨e, e'⟩ | ⟨m, m', e, e', hf⟩
      · rw [e']; rw [e] at this; exact this
      · rw [e']; rw [e] at this
        unfold SafeTokens at this ⊢
        simp only at this ⊢
        rcases this with h | ⟨h1, h2⟩
        · exact .inl h
        · exact .inr ⟨fun hz => h1 ((same_nil hf).2 hz), h2⟩

/-- **C52** Without path and configuration the constructor throws `std::invalid_argument`. -/
theorem C52_nothing (P : Platform) : Tokenizer.make P .bothEmpty = .error (.throws .invalidArgument) := rfl

/-- **C52** A file that cannot be read, or that is not JSON, makes it throw `std::runtime_error`. -/
theorem C52_unreadable (P : Platform) : Tokenizer.make P .unreadable = .error (.throws .runtimeError) := rfl

/-- **C52** A document makes the constructor throw exactly when it describes no tokenizer, and then it throws
`std::runtime_error`. -/
theorem C52_throws_iff (P : Platform) (doc : Json) (ex : Exn) :
    Tokenizer.make P (.document doc) = .error (.throws ex) ↔ ex = .runtimeError ∧ ¬ ∃ t, Describes P doc t := by
  simp only [Tokenizer.make]
  cases hp : parseSections P doc.depth doc with
  | error e =>
    obtain ⟨ex', rfl⟩ := parse_tidy P doc e hp
    simp only [Except.error.injEq, Err.throws.injEq]
    constructor
    · rintro rfl
      refine ⟨rfl, ?_⟩
      rintro ⟨t, ht⟩
      obtain ⟨t', h⟩ := parse_complete P doc t ht
      rw [hp] at h; cases h
    · rintro ⟨rfl, _⟩; rfl
  | ok t =>
    have hd := parse_sound P doc t hp
    constructor
    · intro h
      rcases finish_cases (describes_added hd) with ⟨_, t', h'⟩ | ⟨_, k, h'⟩
      · simp only at h; rw [h'] at h; cases h
      · simp only at h; rw [h'] at h; cases h
    · rintro ⟨_, h⟩; exact absurd ⟨t, hd⟩ h

/-- **C52** A document that lacks one of the eight sections makes it throw `std::runtime_error`. -/
theorem C52_missing_section (P : Platform) (doc : Json) (k : Str) (hk : k ∈ sections) (h : ∀ v, ¬ Field doc k v) :
    Tokenizer.make P (.document doc) = .error (.throws .runtimeError) := by
  refine (C52_throws_iff P doc _).2 ⟨rfl, ?_⟩
  rintro ⟨t, ht⟩
  obtain ⟨v, hv⟩ := describes_field ht k hk
  exact h v hv

/-- **C52** (partial) A document that describes a tokenizer, and whose added tokens are safe, makes it succeed.
Missing: the same without the condition on the added tokens, which is false (`C52_violated`, `C52_unsafe`). -/
theorem C52_succeeds_partial (P : Platform) (doc : Json) (t : Tokenizer) (h : Describes P doc t) (hs : SafeConfig t) :
    ∃ t', Tokenizer.make P (.document doc) = .ok t' := by
  obtain ⟨t0, h0⟩ := parse_complete P doc t h
  have hd := parse_sound P doc t0 h0
  simp only [Tokenizer.make, h0]
  rcases finish_cases (describes_added hd) with ⟨_, h⟩ | ⟨hn, _⟩
  · exact h
  · exact absurd (describes_safe h hd hs).2 hn

/-- **C52** fails for every other document: the behaviour is undefined. -/
theorem C52_unsafe (P : Platform) (doc : Json) (t : Tokenizer) (h : Describes P doc t) (hs : ¬ SafeConfig t) :
    ∃ k, Tokenizer.make P (.document doc) = .error (.ub k) := by
  obtain ⟨t0, h0⟩ := parse_complete P doc t h
  have hd := parse_sound P doc t0 h0
  simp only [Tokenizer.make, h0]
  rcases finish_cases (describes_added hd) with ⟨hs0, _⟩ | ⟨_, h⟩
  · exact absurd (describes_safe hd h hs0).2 hs
  · exact h

/-- **C68** The tokenizer built from a document is the one that the document describes: apart from the registration of
the added tokens, every component, option and default is as in `Spec.Describes`; a component of a section that is
`null` or of an unknown type is absent. -/
theorem C68_described (P : Platform) (doc : Json) (t : Tokenizer) (h : Tokenizer.make P (.document doc) = .ok t) :
    ∃ a, Describes P doc { t with added := a } ∧
      (a = none ∧ t.added = none ∨ ∃ l b n, a = some (AddedVocab.init l) ∧ t.added = some b ∧
        (AddedVocab.init l).addTokensCore (t.model.map Model.vocab) true l = .ok (n, b)) := by
  simp only [Tokenizer.make] at h
  cases hp : parseSections P doc.depth doc with
  | error e => rw [hp] at h; cases e <;> cases h
  | ok t0 =>
    rw [hp] at h
    have hd := parse_sound P doc t0 hp
    refine ⟨t0.added, ?_, ?_⟩
    · rw [finish_fields h] at hd; exact hd
    · rcases describes_added hd with ha | ⟨l, ha⟩
      · left; refine ⟨ha, ?_⟩
        simp only [Tokenizer.finish, ha] at h; cases h; exact ha
      · right
        simp only [Tokenizer.finish, ha] at h
        obtain ⟨⟨n, b⟩, h1, h2⟩ := res_bind_ok.1 h
        cases h2
        exact ⟨l, b, n, ha, rfl, h1⟩

/-! ## Vocabulary keys -/

/-- What the vocabulary of the model contains: the keys of the object as they are *spelt*. -/
theorem C60_spelling (P : Platform) (doc mj : Json) (l : List (Str × Json)) (t : Tokenizer) (m : Model)
    (h : Tokenizer.make P (.document doc) = .ok t) (hmj : Field doc b!"model" mj) (hl : Field mj b!"vocab" (.obj l))
    (hm : t.model = some m) (s : Str) (i : Int) :
    tokenToId m.vocab s = some i ↔ ∃ v, First l s v ∧ IntOf v i := by
  obtain ⟨a, hd, _⟩ := C68_described P doc t h
  obtain ⟨v, hv, hmo⟩ := hd.2.2.2.2.2.1
  cases field_unique hv hmj
  simp only [hm] at hmo
  have hV : Opt VocabOf [] mj b!"vocab" m.vocab := by
    rcases hmo with ⟨_, h⟩ | ⟨_, h⟩
    · cases h
    · cases h with
      | wordPiece _ h => exact h
      | bpe _ h => exact h
  obtain ⟨w, hw, hV⟩ := hV
  cases field_unique hw hl
  rcases hV with ⟨h, _⟩ | ⟨_, l', hl', _, hn, h⟩
  · cases h
  · cases hl'
    rw [tokenToId, mapFind_iff_mem hn, h]

theorem denotes_plain (raw : Str) (h : 0x5C ∉ raw) : Denotes raw raw := by
  induction raw with
  | nil => exact .nil
  | cons c r ih =>
    simp only [List.mem_cons, not_or] at h
    exact .plain (Ne.symm h.1) (ih h.2)

theorem denotes_plain_unique {raw s : Str} (h : 0x5C ∉ raw) (hd : Denotes raw s) : s = raw := by
  have h1 := (jsonText_iff _ _).2 hd
  have h2 := (jsonText_iff _ _).2 (denotes_plain raw h)
  rw [h1] at h2; simpa using h2

/-- **C60** (partial) A key without a backslash is a token under the string it denotes, with the id given by the first
field with this key.  Missing: keys with escapes, for which this is false (`C60_violated`). -/
theorem C60_plain_partial (P : Platform) (doc mj : Json) (l : List (Str × Json)) (t : Tokenizer) (m : Model)
    (h : Tokenizer.make P (.document doc) = .ok t) (hmj : Field doc b!"model" mj) (hl : Field mj b!"vocab" (.obj l))
    (hm : t.model = some m) (raw s : Str) (v : Json) (i : Int) (hf : First l raw v) (hi : IntOf v i)
    (hd : Denotes raw s) (hp : 0x5C ∉ raw) : tokenToId m.vocab s = some i := by
  rw [denotes_plain_unique hp hd]
  exact (C60_spelling P doc mj l t m h hmj hl hm raw i).2 ⟨v, hf, hi⟩

/-- A configuration with a WordPiece model and the given vocabulary. -/
def wpDoc (vocab : List (Str × Json)) (added : Json) : Json :=
  .obj [(b!"version", .str b!"1.0"), (b!"truncation", .null), (b!"padding", .null), (b!"added_tokens", added),
    (b!"normalizer", .null), (b!"pre_tokenizer", .obj [(b!"type", .str b!"BertPreTokenizer")]),
    (b!"post_processor", .null), (b!"decoder", .null),
    (b!"model", .obj [(b!"type", .str b!"WordPiece"), (b!"unk_token", .str b!"[UNK]"),
      (b!"continuing_subword_prefix", .str b!"##"), (b!"max_input_chars_per_word", .num b!"100"), (b!"vocab", .obj vocab)])]

/-- **C60** is violated: a vocabulary whose keys are spelt `\"` and `\u0061` in the document, i.e. the tokens `"` and
`a`, gives a model without these tokens. -/
theorem C60_violated :
    (∃ t m, Tokenizer.make ascii (.document (wpDoc [(b!"\\\"", .num b!"0"), (b!"\\u0061", .num b!"1"), (b!"[UNK]", .num b!"2")] .null)) = .ok t ∧
      t.model = some m ∧ tokenToId m.vocab b!"\"" = none ∧ tokenToId m.vocab b!"a" = none) ∧
    Denotes b!"\\\"" b!"\"" ∧ Denotes b!"\\u0061" b!"a" := by
  refine ⟨⟨_, _, rfl, rfl, by decide, by decide⟩, .short (by simp [ShortEscape]) .nil, ?_⟩
  exact .unit (v := 97) ⟨0, 0, 6, 1, by simp [HexDigit], by simp [HexDigit], by simp [HexDigit], by simp [HexDigit], rfl⟩
    (u := b!"a") (utf8Char_iff.2 (by decide)) .nil

/-- The hypotheses of `C60_plain_partial` are met. -/
example : ∃ t m, Tokenizer.make ascii (.document (wpDoc [(b!"hello", .num b!"7")] .null)) = .ok t ∧ t.model = some m ∧
    tokenToId m.vocab b!"hello" = some 7 := ⟨_, _, rfl, rfl, by decide⟩

/-- **C52** is violated: a complete configuration with one added token that is not special makes the constructor run
into undefined behaviour instead of succeeding. -/
theorem C52_violated :
    (∃ t, Describes ascii (wpDoc [(b!"a", .num b!"0")] (.arr [.obj [(b!"id", .num b!"1"), (b!"content", .str b!"new")]])) t) ∧
    Tokenizer.make ascii (.document (wpDoc [(b!"a", .num b!"0")] (.arr [.obj [(b!"id", .num b!"1"), (b!"content", .str b!"new")]]))) =
      .error (.ub .invalidIterator) :=
  ⟨⟨_, parse_sound ascii _ _ rfl⟩, rfl⟩

/-- The hypotheses of `C52_succeeds_partial` are met by a configuration with two special tokens. -/
example : ∃ t, Describes ascii (wpDoc [(b!"[UNK]", .num b!"0"), (b!"[CLS]", .num b!"1")]
    (.arr [.obj [(b!"id", .num b!"0"), (b!"content", .str b!"[UNK]"), (b!"special", .bool true)],
           .obj [(b!"id", .num b!"1"), (b!"content", .str b!"[CLS]"), (b!"special", .bool true)]])) t ∧ SafeConfig t := by
  refine ⟨_, parse_sound ascii _ _ rfl, ?_⟩
  intro l hl
  have : l = [{ id := 0, content := b!"[UNK]", special := true }, { id := 1, content := b!"[CLS]", special := true }] := by
    have := congrArg (fun o => o.map AddedVocab.addedTokens) hl
    simp only [AddedVocab.init, Option.map_some, Option.some.injEq] at this
    exact this.symm
  subst this
  refine .inr ⟨by decide, ?_⟩
  decide

end Tok
