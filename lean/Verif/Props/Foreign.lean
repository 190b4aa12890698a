import Verif.Props.Documents
import Verif.Spec.Foreign

set_option autoImplicit false

/-!
C132: components of a type that the library does not have are ignored.
-/

namespace Tok

open Spec

/-! ### Replacing the value of one field -/

theorem fo_first {A B : List (Str × Json)} {n k : Str} {v v' x : Json} (hk : k ≠ n) (h : First (A ++ (n, v) :: B) k x) :
    First (A ++ (n, v') :: B) k x := by
  rw [← first_iff] at h ⊢
  rw [← h]
  clear h
  induction A with
  | nil => simp [mapFind, Ne.symm hk]
  | cons a A ih =>
    obtain ⟨a1, a2⟩ := a
    simp only [List.cons_append, mapFind]
    split
    · rfl
    · exact ih

theorem fo_field {A B : List (Str × Json)} {n k : Str} {v v' x : Json} (hk : k ≠ n) (h : Field (.obj (A ++ (n, v) :: B)) k x) :
    Field (.obj (A ++ (n, v') :: B)) k x := by
  obtain ⟨l, e, h⟩ := h
  cases e
  exact ⟨_, rfl, fo_first hk h⟩

theorem fo_at {A B : List (Str × Json)} {n : Str} {v : Json} (h : ∀ f ∈ A, f.1 ≠ n) : Field (.obj (A ++ (n, v) :: B)) n v :=
  ⟨_, rfl, A, B, rfl, h⟩

theorem fo_type {A B : List (Str × Json)} {n s : Str} {v v' : Json} (hn : b!"type" ≠ n) (h : HasType (.obj (A ++ (n, v) :: B)) s) :
    HasType (.obj (A ++ (n, v') :: B)) s := by
  obtain ⟨x, hx, hs⟩ := h
  exact ⟨x, fo_field hn hx, hs⟩

/-! ### The four kinds of components alike -/

/-- How a relation reads components of one kind. -/
structure KindOf {α : Type} (types : List Str) (list : Str) (R : Json → Option α → Prop) (RL : List Json → List α → Prop)
    (mk : List α → α) : Prop where
  foreign : ∀ {j x}, Foreign types j → (R j x ↔ x = none)
  sequence : ∀ {j x}, HasType j b!"Sequence" → (R j x ↔ ∃ l ns, Field j list (.arr l) ∧ RL l ns ∧ x = some (mk ns))
  member : ∀ {j l ns}, RL (j :: l) ns ↔ (∃ n ns', R j (some n) ∧ RL l ns' ∧ ns = n :: ns') ∨ (R j none ∧ RL l ns)
  key : b!"type" ≠ list

section
variable {α : Type} {types : List Str} {list : Str} {R : Json → Option α → Prop} {RL : List Json → List α → Prop} {mk : List α → α}

mutual
theorem fo_weeded (K : KindOf types list R RL mk) {j j' : Json} (h : Weeded types list j j') : ∀ x, R j x ↔ R j' x := by
  match h with
  | .same _ => intro x; exact Iff.rfl
  | .sequence (A := A) (B := B) (l := l) (l' := l') ht hA hl =>
    intro x
    have ih := fo_weededAll K hl
    rw [K.sequence ht, K.sequence (fo_type K.key ht)]
    constructor
    · rintro ⟨m, ns, h1, h2, h3⟩
      cases field_unique h1 (fo_at hA)
      exact ⟨l', ns, fo_at hA, (ih ns).1 h2, h3⟩
    · rintro ⟨m, ns, h1, h2, h3⟩
      cases field_unique h1 (fo_at hA)
      exact ⟨l, ns, fo_at hA, (ih ns).2 h2, h3⟩
theorem fo_weededAll (K : KindOf types list R RL mk) {l l' : List Json} (h : WeededAll types list l l') : ∀ ns, RL l ns ↔ RL l' ns := by
  match h with
  | .nil => intro ns; exact Iff.rfl
  | .keep h1 h2 =>
    intro ns
    have a := fo_weeded K h1
    have b := fo_weededAll K h2
    rw [K.member, K.member]
    simp only [a, b]
  | .drop h1 h2 =>
    intro ns
    have b := fo_weededAll K h2
    rw [K.member]
    simp only [K.foreign h1, b]
    simp
end

theorem fo_section (K : KindOf types list R RL mk) {j j' : Json} (h : WeededSection types list j j') (x : Option α) :
    OrNull R none j x ↔ OrNull R none j' x := by
  rcases h with ⟨h, rfl⟩ | h
  · have hj : j ≠ .null := by
      rintro rfl
      obtain ⟨s, ⟨v, ⟨l, e, -⟩, -⟩, -⟩ := h
      cases e
    simp [OrNull, hj, K.foreign h]
  · have hn : j = .null ↔ j' = .null := by
      cases h with
      | same => exact Iff.rfl
      | sequence => constructor <;> (intro e; cases e)
    simp only [OrNull, hn, ne_eq, fo_weeded K h]

end

theorem fo_not {types : List Str} {j : Json} {s : Str} (h : Foreign types j) (h' : HasType j s) (hs : s ∈ types) : False := by
  obtain ⟨s', h1, h2⟩ := h
  rw [hasType_unique h1 h'] at h2
  exact h2 hs

theorem fo_other {j : Json} {s s' : Str} (h : HasType j s) (h' : HasType j s') (hn : s ≠ s') : False := hn (hasType_unique h h')

theorem fo_normalizer : KindOf [b!"Sequence", b!"NFC", b!"NFD", b!"NFKC", b!"NFKD", b!"Prepend", b!"Replace", b!"BertNormalizer", b!"Strip", b!"StripAccents"]
    b!"normalizers" NormalizerOf NormalizersOf Normalizer.seq where
  foreign := by
    intro j x hf
    constructor
    · intro h
      cases h with
      | other => rfl
      | nf ht hk =>
        exact (fo_not hf ht (by simp only [List.mem_cons, Prod.mk.injEq, List.not_mem_nil, or_false] at hk; rcases hk with ⟨rfl, -⟩ | ⟨rfl, -⟩ | ⟨rfl, -⟩ | ⟨rfl, -⟩ <;> decide)).elim
      | sequence ht | prepend ht | replace ht | bert ht | strip ht | stripAccents ht => exact (fo_not hf ht (by decide)).elim
    · rintro rfl
      obtain ⟨s, h1, h2⟩ := hf
      exact .other h1 h2
  sequence := by
    intro j x hs
    constructor
    · intro h
      cases h with
      | sequence ht hl hn => exact ⟨_, _, hl, hn, rfl⟩
      | other ht hn => rw [hasType_unique ht hs] at hn; exact absurd (by decide) hn
      | nf ht hk =>
        rw [hasType_unique ht hs] at hk; simp at hk
      | prepend ht | replace ht | bert ht | strip ht | stripAccents ht => exact (fo_other ht hs (by decide)).elim
    · rintro ⟨l, ns, h1, h2, rfl⟩
      exact .sequence hs h1 h2
  member := by
    intro j l ns
    constructor
    · intro h
      cases h with
      | cons a b => exact .inl ⟨_, _, a, b, rfl⟩
      | skip a b => exact .inr ⟨a, b⟩
    · rintro (⟨n, ns', a, b, rfl⟩ | ⟨a, b⟩)
      · exact .cons a b
      · exact .skip a b
  key := by decide

theorem fo_preTokenizer : KindOf [b!"BertPreTokenizer", b!"Sequence", b!"Split", b!"ByteLevel"]
    b!"pretokenizers" PreTokenizerOf PreTokenizersOf PreTokenizer.seq where
  foreign := by
    intro j x hf
    constructor
    · intro h
      cases h with
      | other => rfl
      | sequence ht | bert ht | split ht | byteLevel ht => exact (fo_not hf ht (by decide)).elim
    · rintro rfl
      obtain ⟨s, h1, h2⟩ := hf
      exact .other h1 h2
  sequence := by
    intro j x hs
    constructor
    · intro h
      cases h with
      | sequence ht hl hn => exact ⟨_, _, hl, hn, rfl⟩
      | other ht hn => rw [hasType_unique ht hs] at hn; exact absurd (by decide) hn
      | bert ht | split ht | byteLevel ht => exact (fo_other ht hs (by decide)).elim
    · rintro ⟨l, ns, h1, h2, rfl⟩
      exact .sequence hs h1 h2
  member := by
    intro j l ns
    constructor
    · intro h
      cases h with
      | cons a b => exact .inl ⟨_, _, a, b, rfl⟩
      | skip a b => exact .inr ⟨a, b⟩
    · rintro (⟨n, ns', a, b, rfl⟩ | ⟨a, b⟩)
      · exact .cons a b
      · exact .skip a b
  key := by decide

theorem fo_decoder : KindOf [b!"Sequence", b!"WordPiece", b!"Strip", b!"Replace", b!"ByteFallback", b!"Fuse", b!"ByteLevel"]
    b!"decoders" DecoderOf DecodersOf Decoder.seq where
  foreign := by
    intro j x hf
    constructor
    · intro h
      cases h with
      | other => rfl
      | sequence ht | wordPiece ht | strip ht | replace ht | byteFallback ht | fuse ht | byteLevel ht => exact (fo_not hf ht (by decide)).elim
    · rintro rfl
      obtain ⟨s, h1, h2⟩ := hf
      exact .other h1 h2
  sequence := by
    intro j x hs
    constructor
    · intro h
      cases h with
      | sequence ht hl hn => exact ⟨_, _, hl, hn, rfl⟩
      | other ht hn => rw [hasType_unique ht hs] at hn; exact absurd (by decide) hn
      | wordPiece ht | strip ht | replace ht | byteFallback ht | fuse ht | byteLevel ht => exact (fo_other ht hs (by decide)).elim
    · rintro ⟨l, ns, h1, h2, rfl⟩
      exact .sequence hs h1 h2
  member := by
    intro j l ns
    constructor
    · intro h
      cases h with
      | cons a b => exact .inl ⟨_, _, a, b, rfl⟩
      | skip a b => exact .inr ⟨a, b⟩
    · rintro (⟨n, ns', a, b, rfl⟩ | ⟨a, b⟩)
      · exact .cons a b
      · exact .skip a b
  key := by decide

theorem fo_postProcessor : KindOf [b!"TemplateProcessing", b!"Sequence", b!"ByteLevel"]
    b!"processors" PostProcessorOf PostProcessorsOf PostProcessor.seq where
  foreign := by
    intro j x hf
    constructor
    · intro h
      cases h with
      | other => rfl
      | sequence ht | template ht | byteLevel ht => exact (fo_not hf ht (by decide)).elim
    · rintro rfl
      obtain ⟨s, h1, h2⟩ := hf
      exact .other h1 h2
  sequence := by
    intro j x hs
    constructor
    · intro h
      cases h with
      | sequence ht hl hn => exact ⟨_, _, hl, hn, rfl⟩
      | other ht hn => rw [hasType_unique ht hs] at hn; exact absurd (by decide) hn
      | template ht | byteLevel ht => exact (fo_other ht hs (by decide)).elim
    · rintro ⟨l, ns, h1, h2, rfl⟩
      exact .sequence hs h1 h2
  member := by
    intro j l ns
    constructor
    · intro h
      cases h with
      | cons a b => exact .inl ⟨_, _, a, b, rfl⟩
      | skip a b => exact .inr ⟨a, b⟩
    · rintro (⟨n, ns', a, b, rfl⟩ | ⟨a, b⟩)
      · exact .cons a b
      · exact .skip a b
  key := by decide

/-! ### The document -/

/-- Sections read alike. -/
def SameSections (doc doc' : Json) : Prop :=
  (∀ k ∈ [b!"truncation", b!"padding", b!"added_tokens", b!"model"], ∀ v, Field doc k v ↔ Field doc' k v) ∧
  (∀ x, SectionOf NormalizerOf doc b!"normalizer" x ↔ SectionOf NormalizerOf doc' b!"normalizer" x) ∧
  (∀ x, SectionOf PreTokenizerOf doc b!"pre_tokenizer" x ↔ SectionOf PreTokenizerOf doc' b!"pre_tokenizer" x) ∧
  (∀ x, SectionOf DecoderOf doc b!"decoder" x ↔ SectionOf DecoderOf doc' b!"decoder" x) ∧
  (∀ x, SectionOf PostProcessorOf doc b!"post_processor" x ↔ SectionOf PostProcessorOf doc' b!"post_processor" x)

theorem fo_same_trans {a b c : Json} (h : SameSections a b) (h' : SameSections b c) : SameSections a c :=
  ⟨fun k hk v => (h.1 k hk v).trans (h'.1 k hk v), fun x => (h.2.1 x).trans (h'.2.1 x), fun x => (h.2.2.1 x).trans (h'.2.2.1 x),
    fun x => (h.2.2.2.1 x).trans (h'.2.2.2.1 x), fun x => (h.2.2.2.2 x).trans (h'.2.2.2.2 x)⟩

theorem fo_same_symm {a b : Json} (h : SameSections a b) : SameSections b a :=
  ⟨fun k hk v => (h.1 k hk v).symm, fun x => (h.2.1 x).symm, fun x => (h.2.2.1 x).symm, fun x => (h.2.2.2.1 x).symm, fun x => (h.2.2.2.2 x).symm⟩

theorem fo_fields {A B : List (Str × Json)} {n k : Str} {v v' : Json} (hk : k ≠ n) (x : Json) :
    Field (.obj (A ++ (n, v) :: B)) k x ↔ Field (.obj (A ++ (n, v') :: B)) k x := ⟨fo_field hk, fo_field hk⟩

theorem fo_sections {α : Type} {R : Json → Option α → Prop} {A B : List (Str × Json)} {n k : Str} {v v' : Json} (hk : k ≠ n) (x : Option α) :
    SectionOf R (.obj (A ++ (n, v) :: B)) k x ↔ SectionOf R (.obj (A ++ (n, v') :: B)) k x := by
  simp only [SectionOf, Opt, fo_fields (v := v) (v' := v') hk]

theorem fo_here {α : Type} {R : Json → Option α → Prop} {A B : List (Str × Json)} {n : Str} {v v' : Json} (hA : ∀ f ∈ A, f.1 ≠ n)
    (h : ∀ x, OrNull R none v x ↔ OrNull R none v' x) (x : Option α) :
    SectionOf R (.obj (A ++ (n, v) :: B)) n x ↔ SectionOf R (.obj (A ++ (n, v') :: B)) n x := by
  simp only [SectionOf, Opt]
  constructor
  · rintro ⟨w, h1, h2⟩
    cases field_unique h1 (fo_at hA)
    exact ⟨v', fo_at hA, (h x).1 h2⟩
  · rintro ⟨w, h1, h2⟩
    cases field_unique h1 (fo_at hA)
    exact ⟨v, fo_at hA, (h x).2 h2⟩

theorem fo_step {A B : List (Str × Json)} {name list : Str} {types : List Str} {v v' : Json} (hk : (name, list, types) ∈ componentKinds)
    (hA : ∀ f ∈ A, f.1 ≠ name) (h : WeededSection types list v v') :
    SameSections (.obj (A ++ (name, v) :: B)) (.obj (A ++ (name, v') :: B)) := by
  unfold componentKinds at hk
  simp only [List.mem_cons, Prod.mk.injEq, List.not_mem_nil, or_false] at hk
  rcases hk with ⟨rfl, rfl, rfl⟩ | ⟨rfl, rfl, rfl⟩ | ⟨rfl, rfl, rfl⟩ | ⟨rfl, rfl, rfl⟩
  · refine ⟨fun k hk v => fo_fields ?_ v, fo_here hA (fo_section fo_normalizer h), fo_sections (by decide), fo_sections (by decide), fo_sections (by decide)⟩
    rintro rfl; revert hk; decide
  · refine ⟨fun k hk v => fo_fields ?_ v, fo_sections (by decide), fo_here hA (fo_section fo_preTokenizer h), fo_sections (by decide), fo_sections (by decide)⟩
    rintro rfl; revert hk; decide
  · refine ⟨fun k hk v => fo_fields ?_ v, fo_sections (by decide), fo_sections (by decide), fo_here hA (fo_section fo_decoder h), fo_sections (by decide)⟩
    rintro rfl; revert hk; decide
  · refine ⟨fun k hk v => fo_fields ?_ v, fo_sections (by decide), fo_sections (by decide), fo_sections (by decide), fo_here hA (fo_section fo_postProcessor h)⟩
    rintro rfl; revert hk; decide

theorem fo_doc {doc doc' : Json} (h : WeededDoc doc doc') : SameSections doc doc' := by
  induction h with
  | same => exact ⟨fun _ _ _ => Iff.rfl, fun _ => Iff.rfl, fun _ => Iff.rfl, fun _ => Iff.rfl, fun _ => Iff.rfl⟩
  | step hk hA hv _ ih => exact fo_same_trans (fo_step hk hA hv) ih

theorem fo_opt {α : Type} {R : Json → α → Prop} {d : α} {doc doc' : Json} {k : Str} (h : ∀ v, Field doc k v ↔ Field doc' k v) {x : α}
    (hx : Opt R d doc k x) : Opt R d doc' k x := by
  obtain ⟨v, h1, h2⟩ := hx
  exact ⟨v, (h v).1 h1, h2⟩

theorem fo_section_eq {α : Type} {f : Json → Res (Option α)} {doc doc' : Json} {k : Str} (h : ∀ v, Field doc k v ↔ Field doc' k v) {x : Option α}
    (hx : section' doc k f = .ok x) : section' doc' k f = .ok x := by
  unfold section' at hx ⊢
  obtain ⟨v, hv, hx⟩ := res_bind_ok.1 hx
  rw [((field_reads doc' k).1 v).2 ((h v).1 (((field_reads doc k).1 v).1 hv)), res_ok_bind]
  exact hx

theorem fo_parse {P : Platform} {d d' : Json} {t : Tokenizer} (h : SameSections d d') (ht : parseSections P d.depth d = .ok t) :
    parseSections P d'.depth d' = .ok t := by
  obtain ⟨h0, h4, h5, h7, h8⟩ := h
  obtain ⟨b1, b2, b3, b4, b5, -, b7, b8⟩ := parse_sound P d t ht
  unfold parseSections at ht
  obtain ⟨_, a1, ht⟩ := res_bind_ok.1 ht
  obtain ⟨_, a2, ht⟩ := res_bind_ok.1 ht
  obtain ⟨_, a3, ht⟩ := res_bind_ok.1 ht
  obtain ⟨_, a4, ht⟩ := res_bind_ok.1 ht
  obtain ⟨_, a5, ht⟩ := res_bind_ok.1 ht
  obtain ⟨_, a6, ht⟩ := res_bind_ok.1 ht
  obtain ⟨_, a7, ht⟩ := res_bind_ok.1 ht
  obtain ⟨_, a8, ht⟩ := res_bind_ok.1 ht
  cases ht
  unfold parseSections
  rw [fo_section_eq (h0 _ (by decide)) a1, res_ok_bind, fo_section_eq (h0 _ (by decide)) a2, res_ok_bind,
    fo_section_eq (h0 _ (by decide)) a3, res_ok_bind, ((sec_normalizer d').1 _).2 ((h4 _).1 b4), res_ok_bind,
    ((sec_preTokenizer d').1 _).2 ((h5 _).1 b5), res_ok_bind, fo_section_eq (h0 _ (by decide)) a6, res_ok_bind,
    ((sec_decoder d').1 _).2 ((h7 _).1 b7), res_ok_bind, ((sec_postProcessor d').1 _).2 ((h8 _).1 b8)]
  rfl

/-- **C132** A document describes the same tokenizers without its components of a type that the library does not have. -/
theorem C132_describes (P : Platform) {doc doc' : Json} (h : WeededDoc doc doc') (t : Tokenizer) :
    Describes P doc t ↔ Describes P doc' t := by
  have go : ∀ {d d'}, SameSections d d' → Describes P d t → Describes P d' t := by
    rintro d d' ⟨h0, h4, h5, h7, h8⟩ ⟨b1, b2, b3, b4, b5, b6, b7, b8⟩
    exact ⟨fo_opt (h0 _ (by decide)) b1, fo_opt (h0 _ (by decide)) b2, fo_opt (h0 _ (by decide)) b3, (h4 _).1 b4, (h5 _).1 b5,
      fo_opt (h0 _ (by decide)) b6, (h7 _).1 b7, (h8 _).1 b8⟩
  exact ⟨go (fo_doc h), go (fo_same_symm (fo_doc h))⟩

/-- **C132** The constructor makes of a document the very tokenizer (or fails in the very way) that it makes of the document without its
components of a type that the library does not have: they are ignored, and nothing tells the caller. -/
theorem C132_ignored (P : Platform) {doc doc' : Json} (h : WeededDoc doc doc') :
    Tokenizer.make P (.document doc) = Tokenizer.make P (.document doc') := by
  have hs := fo_doc h
  simp only [Tokenizer.make]
  cases hp : parseSections P doc.depth doc with
  | ok t => rw [fo_parse hs hp]
  | error e =>
    obtain ⟨x, rfl⟩ := parse_tidy P doc e hp
    cases hp' : parseSections P doc'.depth doc' with
    | ok t => rw [fo_parse (fo_same_symm hs) hp'] at hp; cases hp
    | error e' =>
      obtain ⟨x', rfl⟩ := parse_tidy P doc' e' hp'
      rfl

/-- A configuration whose sections hold components of types that the library does not have. -/
def foreignDoc (norm pre post dec : Json) : Json :=
  .obj [(b!"truncation", .null), (b!"padding", .null), (b!"added_tokens", .null),
    (b!"normalizer", norm), (b!"pre_tokenizer", pre), (b!"post_processor", post), (b!"decoder", dec),
    (b!"model", .obj [(b!"type", .str b!"WordPiece"), (b!"unk_token", .str b!"[UNK]"),
      (b!"continuing_subword_prefix", .str b!"##"), (b!"max_input_chars_per_word", .num b!"100"),
      (b!"vocab", .obj [(b!"[UNK]", .num b!"0"), (b!"hi", .num b!"1")])])]

def lowercaseJson : Json := .obj [(b!"type", .str b!"Lowercase")]
def bertPreJson (rest : List Json) : Json :=
  .obj [(b!"type", .str b!"Sequence"), (b!"pretokenizers", .arr (rest ++ [.obj [(b!"type", .str b!"BertPreTokenizer")]]))]
def bertPostJson : Json := .obj [(b!"type", .str b!"BertProcessing"), (b!"sep", .arr []), (b!"cls", .arr [])]

theorem fo_typeIs (s : Str) (r : List (Str × Json)) (h : 0x5C ∉ s) : HasType (.obj ((b!"type", .str s) :: r)) s :=
  ⟨.str s, ⟨_, rfl, [], r, rfl, by simp⟩, s, rfl, denotes_plain s h⟩

/-- A document with a `Lowercase` normalizer, a `Digits` pre-tokenizer inside a sequence and a `BertProcessing` post-processor, and the
document without them. -/
theorem fo_docs : WeededDoc (foreignDoc lowercaseJson (bertPreJson [.obj [(b!"type", .str b!"Digits")]]) bertPostJson .null)
    (foreignDoc .null (bertPreJson []) .null .null) := by
  have hpre : Weeded [b!"BertPreTokenizer", b!"Sequence", b!"Split", b!"ByteLevel"] b!"pretokenizers"
      (bertPreJson [.obj [(b!"type", .str b!"Digits")]]) (bertPreJson []) :=
    .sequence (A := [(b!"type", .str b!"Sequence")]) (B := []) (fo_typeIs _ _ (by decide)) (by decide)
      (.drop ⟨b!"Digits", fo_typeIs _ _ (by decide), by decide⟩ (.keep (.same _) .nil))
  refine .step (A := [(b!"truncation", .null), (b!"padding", .null), (b!"added_tokens", .null)]) (name := b!"normalizer")
    (list := b!"normalizers") (v' := .null) (List.mem_cons_self ..) (by decide) (.inl ⟨⟨b!"Lowercase", fo_typeIs _ _ (by decide), by decide⟩, rfl⟩) ?_
  refine .step (A := [(b!"truncation", .null), (b!"padding", .null), (b!"added_tokens", .null), (b!"normalizer", .null)]) (name := b!"pre_tokenizer")
    (list := b!"pretokenizers") (v' := bertPreJson []) (List.mem_cons_of_mem _ (List.mem_cons_self ..)) (by decide) (.inr hpre) ?_
  refine .step (A := [(b!"truncation", .null), (b!"padding", .null), (b!"added_tokens", .null), (b!"normalizer", .null), (b!"pre_tokenizer", bertPreJson [])])
    (name := b!"post_processor") (list := b!"processors") (v' := .null) (types := [b!"TemplateProcessing", b!"Sequence", b!"ByteLevel"])
    (by simp [componentKinds]) (by simp) (.inl ⟨⟨b!"BertProcessing", fo_typeIs _ _ (by decide), by decide⟩, rfl⟩) (.same _)

/-- **C132** That a configuration with a component of another type is refused is violated: the configuration asks for lower case, but `HI`
does not become `hi`, and nobody is told. -/
theorem C132_violated : ∃ t, Tokenizer.make ascii (.document (foreignDoc lowercaseJson (bertPreJson []) .null .null)) = .ok t ∧
    t.normalizer = none ∧ ((t.encode ascii b!"HI" true).1.map (·.ids) = .ok [0]) ∧ ((t.encode ascii b!"hi" true).1.map (·.ids) = .ok [1]) := by
  refine ⟨_, rfl, rfl, ?_, ?_⟩ <;> decide +kernel

/-- The hypotheses of `C132_ignored` are met by two different documents, of which the constructor makes a tokenizer. -/
example : foreignDoc lowercaseJson (bertPreJson [.obj [(b!"type", .str b!"Digits")]]) bertPostJson .null ≠ foreignDoc .null (bertPreJson []) .null .null ∧
    ∃ t, Tokenizer.make ascii (.document (foreignDoc lowercaseJson (bertPreJson [.obj [(b!"type", .str b!"Digits")]]) bertPostJson .null)) = .ok t ∧
      t.preTokenizer = some (.seq [.bert]) := by
  refine ⟨?_, _, C132_ignored ascii fo_docs, rfl⟩
  intro h
  injection h with h
  injection h with _ h
  injection h with _ h
  injection h with _ h
  injection h with h _
  injection h with _ h
  cases h

end Tok
