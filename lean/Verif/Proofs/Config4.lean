import Verif.Proofs.Config3

set_option autoImplicit false

/-!
Lemmas on the construction of a tokenizer: models and the whole document.
-/

namespace Tok
open Spec

/-- Every failure is an exception. -/
def Tidy {α : Type} (r : Res α) : Prop := ∀ e, r = .error e → ∃ ex, e = .throws ex

theorem Tidy.ok {α : Type} (a : α) : Tidy (.ok a : Res α) := fun e h => by cases h
theorem Tidy.fail {α : Type} : Tidy (jfail : Res α) := fun e h => by cases h; exact ⟨_, rfl⟩
theorem Tidy.bind {α β : Type} {r : Res α} {f : α → Res β} (h : Tidy r) (hf : ∀ a, Tidy (f a)) : Tidy (r >>= f) := by
  intro e he
  rcases res_bind_error.1 he with he | ⟨a, _, h2⟩
  · exact h e he
  · exact hf a e h2
theorem Reads.tidy {α : Type} {r : Res α} {R : α → Prop} (h : Reads r R) : Tidy r := h.2

/-! ### Vocabulary -/

theorem vocabFields_tidy (l : List (Str × Json)) : ∀ acc, Tidy (vocabFields l acc) := by
  induction l with
  | nil => intro acc; exact .ok _
  | cons f r ih => obtain ⟨k, v⟩ := f; intro acc; exact (getInt_reads v).tidy.bind fun i => ih _

theorem vocabFields_complete (l : List (Str × Json)) : ∀ acc, (∀ f ∈ l, ∃ i, IntOf f.2 i) →
    ∃ V, vocabFields l acc = .ok V := by
  induction l with
  | nil => intro acc _; exact ⟨acc, rfl⟩
  | cons f r ih =>
    obtain ⟨k, v⟩ := f
    intro acc h
    obtain ⟨i, hi⟩ := h (k, v) (by simp)
    obtain ⟨V, hV⟩ := ih (mapInsert acc k i) (fun f hf => h f (by simp [hf]))
    refine ⟨V, ?_⟩
    simp only [vocabFields, ((getInt_reads v).1 i).2 hi, res_ok_bind, hV]

theorem mapInsert_nodup {κ ν : Type} [DecidableEq κ] (m : List (κ × ν)) (k : κ) (v : ν) (h : (m.map (·.1)).Nodup) :
    ((mapInsert m k v).map (·.1)).Nodup := by
  unfold mapInsert
  split
  · exact h
  · rename_i hn
    rw [List.map_append, List.nodup_append]
    refine ⟨h, by simp, ?_⟩
    intro a ha b hb
    simp at hb; subst hb
    rintro rfl
    obtain ⟨p, hp, hp1⟩ := List.mem_map.1 ha
    have := (mapFind_isSome_iff m a).2 ⟨p, hp, hp1⟩
    rw [hn] at this; cases this

theorem vocabFields_sound (l : List (Str × Json)) : ∀ acc V, vocabFields l acc = .ok V → (acc.map (·.1)).Nodup →
    (∀ f ∈ l, ∃ i, IntOf f.2 i) ∧ (V.map (·.1)).Nodup ∧
      ∀ k i, mapFind V k = some i ↔ mapFind acc k = some i ∨ (mapFind acc k = none ∧ ∃ v, First l k v ∧ IntOf v i) := by
  induction l with
  | nil =>
    intro acc V h hn
    cases h
    refine ⟨by simp, hn, ?_⟩
    intro k i
    constructor
    · exact .inl
    · rintro (h | ⟨_, v, h, _⟩)
      · exact h
      · rw [← first_iff] at h; cases h
  | cons f r ih =>
    obtain ⟨k, v⟩ := f
    intro acc V h hn
    simp only [vocabFields] at h
    obtain ⟨i, hi, h⟩ := res_bind_ok.1 h
    have hi' := ((getInt_reads v).1 i).1 hi
    obtain ⟨h1, h2, h3⟩ := ih _ _ h (mapInsert_nodup _ _ _ hn)
    refine ⟨?_, h2, ?_⟩
    · intro f hf; simp at hf; rcases hf with rfl | hf
      · exact ⟨i, hi'⟩
      · exact h1 f hf
    · intro k' i'
      rw [h3, mapFind_insert]
      simp only [← first_iff, mapFind]
      by_cases hk : k = k'
      · subst hk
        simp only [if_true]
        cases hm : mapFind acc k with
        | some w => simp
        | none =>
          simp only [Option.some.injEq, reduceCtorEq, false_and, or_false, true_and, false_or]
          constructor
          · rintro rfl; exact ⟨v, rfl, hi'⟩
          · rintro ⟨w, rfl, hw⟩; exact intOf_unique _ _ _ hi' hw
      · simp only [if_neg hk]

/-- Reading the field `vocab`. -/
abbrev vocabField (j : Json) : Res Vocab := j.opt b!"vocab" [] fun v => do vocabFields (← v.getObject) []

theorem vocabOf_sound {v : Json} {V : Vocab} (h : (do vocabFields (← v.getObject) [] : Res Vocab) = .ok V) : VocabOf v V := by
  obtain ⟨l, hl, h⟩ := res_bind_ok.1 h
  have := ((getObject_reads v).1 l).1 hl
  subst this
  obtain ⟨h1, h2, h3⟩ := vocabFields_sound l [] V h (by simp)
  refine ⟨l, rfl, h1, h2, ?_⟩
  intro k i
  rw [← mapFind_iff_mem h2, h3]
  simp [mapFind]

theorem vocabOf_complete {v : Json} {V : Vocab} (h : VocabOf v V) :
    ∃ V', (do vocabFields (← v.getObject) [] : Res Vocab) = .ok V' := by
  obtain ⟨l, rfl, h1, _⟩ := h
  obtain ⟨V', h⟩ := vocabFields_complete l [] h1
  exact ⟨V', h⟩

theorem vocabOf_same {v : Json} {V V' : Vocab} (h : VocabOf v V) (h' : VocabOf v V') (s : Str) : mapFind V s = mapFind V' s := by
  obtain ⟨l, rfl, _, n1, h1⟩ := h
  obtain ⟨l', hl, _, n2, h2⟩ := h'
  cases hl
  have : ∀ i, mapFind V s = some i ↔ mapFind V' s = some i := by
    intro i
    rw [mapFind_iff_mem n1, mapFind_iff_mem n2, h1, h2]
  cases hV : mapFind V s with
  | some i => exact ((this i).1 hV).symm
  | none =>
    cases hV' : mapFind V' s with
    | some i => rw [(this i).2 hV'] at hV; cases hV
    | none => rfl

theorem vocabField_tidy (j : Json) : Tidy (vocabField j) := by
  unfold vocabField Json.opt
  refine (field_reads j _).tidy.bind fun v => ?_
  unfold Json.orDefault
  split
  · exact .ok _
  · exact (getObject_reads _).tidy.bind fun l => vocabFields_tidy l _

theorem vocabField_sound {j : Json} {V : Vocab} (h : vocabField j = .ok V) : Opt VocabOf [] j b!"vocab" V := by
  unfold vocabField Json.opt at h
  obtain ⟨v, hv, h⟩ := res_bind_ok.1 h
  refine ⟨v, ((field_reads j _).1 v).1 hv, ?_⟩
  unfold Json.orDefault at h
  split at h
  · cases h; exact .inl ⟨rfl, rfl⟩
  · rename_i hn
    exact .inr ⟨fun e => hn e, vocabOf_sound h⟩

theorem vocabField_complete {j : Json} {V : Vocab} (h : Opt VocabOf [] j b!"vocab" V) :
    ∃ V', vocabField j = .ok V' ∧ ∀ s, mapFind V' s = mapFind V s := by
  obtain ⟨v, hv, h⟩ := h
  unfold vocabField Json.opt
  rw [((field_reads j _).1 v).2 hv, res_ok_bind]
  unfold Json.orDefault
  rcases h with ⟨rfl, rfl⟩ | ⟨hn, h⟩
  · exact ⟨[], rfl, fun _ => rfl⟩
  · obtain ⟨V', h'⟩ := vocabOf_complete h
    split
    · exact absurd rfl hn
    · exact ⟨V', h', vocabOf_same (vocabOf_sound h') h⟩

/-! ### Merges -/

theorem mergeTail_cases (pre q : Str) :
    (mergeTail pre q = .ok (q.drop pre.length) ∧ ¬ q.length < pre.length) ∨
      (mergeTail pre q = .error (.throws .outOfRange) ∧ q.length < pre.length) := by
  unfold mergeTail
  split
  · split
    · exact .inl ⟨rfl, by omega⟩
    · exact .inr ⟨rfl, by omega⟩
  · rename_i h0; simp at h0; exact .inl ⟨by simp [h0], by simp [h0]⟩

theorem addMerge_fails (vocab : Vocab) (pre : Str) (i : Nat) (line : Str) (merges : Merges) :
    (BadMerge (fun s => mapFind vocab s) pre line ∧ addMerge vocab pre i line merges = .error (.throws .outOfRange)) ∨
    (¬ BadMerge (fun s => mapFind vocab s) pre line ∧ ∃ m, addMerge vocab pre i line merges = .ok m) := by
  unfold addMerge
  split
  · rename_i h1
    refine .inr ⟨?_, _, rfl⟩
    rintro ⟨p, q, a, b, f, _⟩
    obtain ⟨_, _, a1, _⟩ := (fields_iff _ _ _).1 f
    rw [h1] at a1; cases a1
  · rename_i p rest h1
    split
    · rename_i h2
      refine .inr ⟨?_, _, rfl⟩
      rintro ⟨p, q, a, b, f, _⟩
      obtain ⟨_, _, a1, a2⟩ := (fields_iff _ _ _).1 f
      rw [h1] at a1; simp at a1; obtain ⟨rfl, rfl⟩ := a1
      rw [h2] at a2; cases a2
    · rename_i q rest' h2
      have hf : Fields line p q := (fields_iff _ _ _).2 ⟨_, _, h1, h2⟩
      split
      · rename_i a b ha hb
        rcases mergeTail_cases pre q with ⟨ht, hl⟩ | ⟨ht, hl⟩
        · right
          rw [ht]
          refine ⟨?_, ?_⟩
          · rintro ⟨p', q', a', b', f, _, _, h⟩
            obtain ⟨rfl, rfl⟩ := fields_unique hf f
            exact hl h
          · rw [res_ok_bind]; split <;> exact ⟨_, rfl⟩
        · left
          rw [ht]
          exact ⟨⟨p, q, a, b, hf, ha, hb, hl⟩, rfl⟩
      · rename_i hab
        refine .inr ⟨?_, _, rfl⟩
        rintro ⟨p', q', a, b, f, h3, h4, _⟩
        obtain ⟨rfl, rfl⟩ := fields_unique hf f
        exact hab a b h3 h4

theorem addMerges_fails (vocab : Vocab) (pre : Str) (lines : List Str) : ∀ (i : Nat) (merges : Merges),
    ((∃ line ∈ lines, BadMerge (fun s => mapFind vocab s) pre line) ∧
      addMerges vocab pre i lines merges = .error (.throws .outOfRange)) ∨
    ((∀ line ∈ lines, ¬ BadMerge (fun s => mapFind vocab s) pre line) ∧ ∃ m, addMerges vocab pre i lines merges = .ok m) := by
  induction lines with
  | nil => intro i merges; exact .inr ⟨by simp, _, rfl⟩
  | cons line lines ih =>
    intro i merges
    simp only [addMerges]
    rcases addMerge_fails vocab pre i line merges with ⟨hb, h⟩ | ⟨hb, m, h⟩
    · exact .inl ⟨⟨line, by simp, hb⟩, by rw [h]; rfl⟩
    · rw [h, res_ok_bind]
      rcases ih (i + 1) m with ⟨⟨l, hl, hbl⟩, h'⟩ | ⟨hb', h'⟩
      · exact .inl ⟨⟨l, by simp [hl], hbl⟩, h'⟩
      · refine .inr ⟨?_, h'⟩
        intro l hl; simp at hl; rcases hl with rfl | hl
        · exact hb
        · exact hb' l hl

theorem make_fails (vocab : Vocab) (lines : List Str) (d : Dropout) (unk pre suf : Str) (f bf ig : Bool) :
    ((∃ line ∈ lines, BadMerge (fun s => mapFind vocab s) pre line) ∧
      BPE.make vocab lines d unk pre suf f bf ig = .error (.throws .outOfRange)) ∨
    ((∀ line ∈ lines, ¬ BadMerge (fun s => mapFind vocab s) pre line) ∧ ∃ m, BPE.make vocab lines d unk pre suf f bf ig = .ok m) := by
  unfold BPE.make
  rcases addMerges_fails vocab pre lines 0 [] with ⟨h1, h2⟩ | ⟨h1, m, h2⟩
  · exact .inl ⟨h1, by rw [h2]; rfl⟩
  · exact .inr ⟨h1, by rw [h2]; exact ⟨_, rfl⟩⟩

/-! ### Models -/

theorem dropout_reads (P : Platform) (j : Json) (k : Str) :
    Reads (j.opt k { on := false, draw := fun _ => false } (dropoutValue P)) (Opt (DropoutOf P) { on := false, draw := fun _ => false } j k) := by
  refine opt_reads fun v hv => ?_
  clear hv
  unfold DropoutOf dropoutValue
  split
  · rename_i t
    refine (Reads.ok _).congr fun x => ?_
    constructor
    · rintro rfl; exact ⟨t, rfl, rfl⟩
    · rintro ⟨t', h, rfl⟩; cases h; rfl
  · rename_i h
    refine Reads.fail.congr fun x => ?_
    simp only [false_iff]; rintro ⟨t, rfl, _⟩; exact h t rfl

theorem merges_reads (j : Json) (k : Str) :
    Reads (j.opt k [] fun v => do mapRes Json.getString (← v.getArray)) (Opt (ArrayOf StringOf) [] j k) :=
  opt_reads fun v _ => array_reads v fun v => getString_reads v

theorem model_tidy (P : Platform) (j : Json) : Tidy (withModel P j) := by
  unfold withModel
  refine (field_reads j _).tidy.bind fun v => (getString_reads v).tidy.bind fun s => (vocabField_tidy j).bind fun V => ?_
  split
  · exact (string_opt j _).tidy.bind fun _ => (int_opt j _ _).tidy.bind fun _ => (string_opt j _).tidy.bind fun _ => .ok _
  · split
    · refine (merges_reads j _).tidy.bind fun _ => (dropout_reads P j _).tidy.bind fun _ => (string_opt j _).tidy.bind fun _ =>
        (string_opt j _).tidy.bind fun _ => (string_opt j _).tidy.bind fun _ => (bool_opt j _ _).tidy.bind fun _ =>
        (bool_opt j _ _).tidy.bind fun _ => (bool_opt j _ _).tidy.bind fun _ => Tidy.bind ?_ fun _ => .ok _
      intro e he
      rcases make_fails _ _ _ _ _ _ _ _ _ with ⟨_, h⟩ | ⟨_, m, h⟩
      · rw [h] at he; cases he; exact ⟨_, rfl⟩
      · rw [h] at he; cases he
    · exact .ok _

theorem model_sound (P : Platform) (j : Json) (x : Option Model) (h : withModel P j = .ok x) : ModelOf P j x := by
  unfold withModel at h
  obtain ⟨v, hv, k⟩ := res_bind_ok.1 h
  clear h
  obtain ⟨s, hs, l⟩ := res_bind_ok.1 k
  clear k
  obtain ⟨V, hV, h⟩ := res_bind_ok.1 l
  clear l
  have ht : HasType j s := ⟨v, ((field_reads j _).1 v).1 hv, ((getString_reads v).1 s).1 hs⟩
  have hV' := vocabField_sound hV
  by_cases h1 : s = b!"WordPiece"
  · rw [if_pos h1] at h; subst h1
    obtain ⟨a, ha, h⟩ := res_bind_ok.1 h
    obtain ⟨b, hb, h⟩ := res_bind_ok.1 h
    obtain ⟨c, hc, h⟩ := res_bind_ok.1 h
    cases h
    exact .wordPiece ht hV' (((string_opt j _).1 _).1 ha) (((int_opt j _ _).1 _).1 hb) (((string_opt j _).1 _).1 hc)
  · rw [if_neg h1] at h
    by_cases h2 : s = b!"BPE"
    · rw [if_pos h2] at h; subst h2
      obtain ⟨lines, a1, h⟩ := res_bind_ok.1 h
      obtain ⟨d, a2, h⟩ := res_bind_ok.1 h
      obtain ⟨unk, a3, h⟩ := res_bind_ok.1 h
      obtain ⟨pre, a4, h⟩ := res_bind_ok.1 h
      obtain ⟨suf, a5, h⟩ := res_bind_ok.1 h
      obtain ⟨fu, a6, h⟩ := res_bind_ok.1 h
      obtain ⟨bf, a7, h⟩ := res_bind_ok.1 h
      obtain ⟨ig, a8, h⟩ := res_bind_ok.1 h
      obtain ⟨m, a9, h⟩ := res_bind_ok.1 h
      cases h
      have hm := make_merges a9
      obtain ⟨e1, e2, e3, e4, e5, e6, e7, e8, e9⟩ := make_fields a9
      refine .bpe (lines := lines) ht (e1 ▸ hV') (((merges_reads j _).1 _).1 a1) (e2 ▸ ((dropout_reads P j _).1 _).1 a2)
        (e3 ▸ ((string_opt j _).1 _).1 a3) (e4 ▸ ((string_opt j _).1 _).1 a4) (e5 ▸ ((string_opt j _).1 _).1 a5)
        (e6 ▸ ((bool_opt j _ _).1 _).1 a6) (e7 ▸ ((bool_opt j _ _).1 _).1 a7) (e8 ▸ ((bool_opt j _ _).1 _).1 a8) e9 ?_ hm
      rcases make_fails V lines d unk pre suf fu bf ig with ⟨_, h⟩ | ⟨h, _⟩
      · rw [h] at a9; cases a9
      · rw [e1, e4]; exact h
    · rw [if_neg h2] at h
      cases h
      exact .other ht (by simp [h1, h2]) hV'

theorem model_complete (P : Platform) (j : Json) (x : Option Model) (h : ModelOf P j x) : ∃ y, withModel P j = .ok y := by
  unfold withModel
  cases h with
  | wordPiece ht hV a b c =>
    obtain ⟨v, hv, hs⟩ := ht
    obtain ⟨V', hV', _⟩ := vocabField_complete hV
    rw [((field_reads j _).1 v).2 hv, res_ok_bind, ((getString_reads v).1 _).2 hs, res_ok_bind,
      show j.opt b!"vocab" [] _ = _ from hV', res_ok_bind, if_pos rfl, ((string_opt j _).1 _).2 a, res_ok_bind,
      ((int_opt j _ _).1 _).2 b, res_ok_bind, ((string_opt j _).1 _).2 c]
    exact ⟨_, rfl⟩
  | @bpe m lines ht hV a1 a2 a3 a4 a5 a6 a7 a8 _ hb _ =>
    obtain ⟨v, hv, hs⟩ := ht
    obtain ⟨V', hV', hsame⟩ := vocabField_complete hV
    rw [((field_reads j _).1 v).2 hv, res_ok_bind, ((getString_reads v).1 _).2 hs, res_ok_bind,
      show j.opt b!"vocab" [] _ = _ from hV', res_ok_bind, if_neg (by decide), if_pos rfl,
      ((merges_reads j _).1 _).2 a1, res_ok_bind, ((dropout_reads P j _).1 _).2 a2, res_ok_bind,
      ((string_opt j _).1 _).2 a3, res_ok_bind, ((string_opt j _).1 _).2 a4, res_ok_bind,
      ((string_opt j _).1 _).2 a5, res_ok_bind, ((bool_opt j _ _).1 _).2 a6, res_ok_bind, ((bool_opt j _ _).1 _).2 a7, res_ok_bind,
      ((bool_opt j _ _).1 _).2 a8, res_ok_bind]
    rcases make_fails V' lines m.dropout m.unkToken m.pre m.suf m.fuseUnk m.byteFallback m.ignoreMerges with ⟨⟨l, hl, hbl⟩, _⟩ | ⟨_, m', h⟩
    · exact absurd (by simpa only [hsame] using hbl) (hb l hl)
    · rw [h]; exact ⟨_, rfl⟩
  | @other s V ht hs' hV =>
    obtain ⟨v, hv, hs⟩ := ht
    obtain ⟨V', hV', hsame⟩ := vocabField_complete hV
    simp only [List.mem_cons, List.not_mem_nil, or_false, not_or] at hs'
    rw [((field_reads j _).1 v).2 hv, res_ok_bind, ((getString_reads v).1 _).2 hs, res_ok_bind,
      show j.opt b!"vocab" [] _ = _ from hV', res_ok_bind, if_neg hs'.1, if_neg hs'.2]
    exact ⟨_, rfl⟩

/-! ### The document -/

theorem section_reads {α : Type} {doc : Json} {k : Str} {f : Json → Res (Option α)} {R : Json → Option α → Prop}
    (h : ∀ v, Field doc k v → Reads (f v) (R v)) : Reads (section' doc k f) (SectionOf R doc k) := by
  unfold section' SectionOf Opt OrNull
  refine (field_reads doc k).bind (S := fun v x => _) fun v hv => ?_
  split
  · refine (Reads.ok _).congr fun x => by simp
  · rename_i hn
    refine (h v hv).congr fun x => ?_
    have : v ≠ .null := fun h => hn h
    simp [this]

theorem some_reads {α : Type} {r : Res α} {j : Json} {R : Json → α → Prop} (h : Reads r (R j)) :
    Reads (do pure (some (← r)) : Res (Option α)) (Some' R j) := by
  refine (h.bind fun y _ => Reads.ok (some y)).congr fun x => ?_
  unfold Some'
  constructor
  · rintro ⟨y, hy, rfl⟩; exact ⟨y, rfl, hy⟩
  · rintro ⟨y, rfl, hy⟩; exact ⟨y, hy, rfl⟩

theorem sec_truncation (doc : Json) : Reads (section' doc b!"truncation" fun j => do pure (some (← withTruncation j)))
    (SectionOf (Some' TruncationOf) doc b!"truncation") := section_reads fun v _ => some_reads (truncation_reads v)
theorem sec_padding (doc : Json) : Reads (section' doc b!"padding" fun j => do pure (some (← withPadding j)))
    (SectionOf (Some' PaddingOf) doc b!"padding") := section_reads fun v _ => some_reads (padding_reads v)
theorem sec_added (doc : Json) : Reads (section' doc b!"added_tokens" fun j => do pure (some (← withAddedVocabulary j)))
    (SectionOf (Some' AddedTokensOf) doc b!"added_tokens") := section_reads fun v _ => some_reads (added_reads v)
theorem sec_normalizer (doc : Json) : Reads (section' doc b!"normalizer" (withNormalizer doc.depth))
    (SectionOf NormalizerOf doc b!"normalizer") :=
  section_reads fun v hv => normalizer_reads _ v (Nat.le_of_lt (depth_field hv))
theorem sec_preTokenizer (doc : Json) : Reads (section' doc b!"pre_tokenizer" (withPreTokenizer doc.depth))
    (SectionOf PreTokenizerOf doc b!"pre_tokenizer") :=
  section_reads fun v hv => preTokenizer_reads _ v (Nat.le_of_lt (depth_field hv))
theorem sec_decoder (doc : Json) : Reads (section' doc b!"decoder" (withDecoder doc.depth))
    (SectionOf DecoderOf doc b!"decoder") :=
  section_reads fun v hv => decoder_reads _ v (Nat.le_of_lt (depth_field hv))
theorem sec_postProcessor (doc : Json) : Reads (section' doc b!"post_processor" (withPostProcessor doc.depth))
    (SectionOf PostProcessorOf doc b!"post_processor") :=
  section_reads fun v hv => postProcessor_reads _ v (Nat.le_of_lt (depth_field hv))

theorem sec_model_tidy (P : Platform) (doc : Json) : Tidy (section' doc b!"model" (withModel P)) := by
  unfold section'
  refine (field_reads doc _).tidy.bind fun v => ?_
  split
  · exact .ok _
  · exact model_tidy P _

theorem sec_model_sound (P : Platform) (doc : Json) (x : Option Model) (h : section' doc b!"model" (withModel P) = .ok x) :
    SectionOf (ModelOf P) doc b!"model" x := by
  unfold section' at h
  obtain ⟨v, hv, h⟩ := res_bind_ok.1 h
  refine ⟨v, ((field_reads doc _).1 v).1 hv, ?_⟩
  split at h
  · cases h; exact .inl ⟨rfl, rfl⟩
  · rename_i hn
    exact .inr ⟨fun e => hn e, model_sound _ _ _ h⟩

theorem sec_model_complete (P : Platform) (doc : Json) (x : Option Model) (h : SectionOf (ModelOf P) doc b!"model" x) :
    ∃ y, section' doc b!"model" (withModel P) = .ok y := by
  obtain ⟨v, hv, h⟩ := h
  unfold section'
  rw [((field_reads doc _).1 v).2 hv, res_ok_bind]
  rcases h with ⟨rfl, rfl⟩ | ⟨hn, h⟩
  · exact ⟨_, rfl⟩
  · split
    · exact absurd rfl hn
    · exact model_complete P _ _ h

theorem parse_tidy (P : Platform) (doc : Json) : Tidy (parseSections P doc.depth doc) := by
  unfold parseSections
  exact (sec_truncation doc).tidy.bind fun _ => (sec_padding doc).tidy.bind fun _ => (sec_added doc).tidy.bind fun _ =>
    (sec_normalizer doc).tidy.bind fun _ => (sec_preTokenizer doc).tidy.bind fun _ => (sec_model_tidy P doc).bind fun _ =>
    (sec_decoder doc).tidy.bind fun _ => (sec_postProcessor doc).tidy.bind fun _ => .ok _

theorem parse_sound (P : Platform) (doc : Json) (t : Tokenizer) (h : parseSections P doc.depth doc = .ok t) : Describes P doc t := by
  unfold parseSections at h
  obtain ⟨_, a1, h⟩ := res_bind_ok.1 h
  obtain ⟨_, a2, h⟩ := res_bind_ok.1 h
  obtain ⟨_, a3, h⟩ := res_bind_ok.1 h
  obtain ⟨_, a4, h⟩ := res_bind_ok.1 h
  obtain ⟨_, a5, h⟩ := res_bind_ok.1 h
  obtain ⟨_, a6, h⟩ := res_bind_ok.1 h
  obtain ⟨_, a7, h⟩ := res_bind_ok.1 h
  obtain ⟨_, a8, h⟩ := res_bind_ok.1 h
  cases h
  exact ⟨((sec_truncation doc).1 _).1 a1, ((sec_padding doc).1 _).1 a2, ((sec_added doc).1 _).1 a3,
    ((sec_normalizer doc).1 _).1 a4, ((sec_preTokenizer doc).1 _).1 a5, sec_model_sound P doc _ a6,
    ((sec_decoder doc).1 _).1 a7, ((sec_postProcessor doc).1 _).1 a8⟩

theorem parse_complete (P : Platform) (doc : Json) (t : Tokenizer) (h : Describes P doc t) :
    ∃ t', parseSections P doc.depth doc = .ok t' := by
  obtain ⟨a1, a2, a3, a4, a5, a6, a7, a8⟩ := h
  obtain ⟨m, hm⟩ := sec_model_complete P doc _ a6
  unfold parseSections
  rw [((sec_truncation doc).1 _).2 a1, res_ok_bind, ((sec_padding doc).1 _).2 a2, res_ok_bind, ((sec_added doc).1 _).2 a3,
    res_ok_bind, ((sec_normalizer doc).1 _).2 a4, res_ok_bind, ((sec_preTokenizer doc).1 _).2 a5, res_ok_bind, hm, res_ok_bind,
    ((sec_decoder doc).1 _).2 a7, res_ok_bind, ((sec_postProcessor doc).1 _).2 a8]
  exact ⟨_, rfl⟩

end Tok
