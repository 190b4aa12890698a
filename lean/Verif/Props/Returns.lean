import Verif.Proofs.Returns
import Verif.Props.Room
import Verif.Props.Blanks

set_option autoImplicit false

/-!
C73 for texts with characters above U+FFFF and for every flag of the added tokens.
-/

namespace Tok
open Spec

theorem ar_usable_text {v : WStr} (h0 : v ≠ []) (hv : Scalars v) : Roomy (NS.ofText v) := by
  have hl : (unitLens (fromUTF32 v)).length = units v := by rw [unitLens_length, units_eq, fromUTF32_scalars hv]
  have hr := room_units v
  refine ⟨hr.usable h0 (by rw [hl]; exact ar_units_ge v), ?_⟩
  rw [hr.ranges, mkRanges_length, hl]
  exact Nat.le_refl _

/-- **C73** (partial: the normalizer's results have to be usable, added tokens have to stand for ASCII text, and pieces may not
overlap; all of this is in `Workable`).  With a WordPiece model, or none, `encode` returns on every text of Unicode characters, whatever
their planes and the flags of the added tokens. -/
theorem C73_any_partial (P : Platform) (t : Tokenizer) {a : AddedVocab} {w w' : WStr} {cuts : List Cut} (b : Bool) (ha : t.added = some a)
    (hP : PlainTables a) (hw0 : w ≠ []) (h : Workable P t.normalizer a w w' cuts)
    (hpt : ∀ pt, t.preTokenizer = some pt → SafePre P w' pt) (hend : SafeEnd t)
    (hm : t.model = none ∨ ∃ m, t.model = some (.wordPiece m)) : ∃ e, (t.encode P w b).1 = .ok e := by
  obtain ⟨p, lens, h1, h2, h3⟩ := ar_preTokenized P ha hP hw0 h hpt
  rcases hm with hm | ⟨m, hm⟩
  · exact encode_total_room hend ⟨p, h1, by rw [hm]⟩ h2 fun s hs => (h3 s hs).1
  · refine encode_total_room (q := m.tokenize p) hend ⟨p, h1, by rw [hm]; rfl⟩ h2 fun s hs => ?_
    obtain ⟨s0, hs0, rfl⟩ := List.mem_map.1 hs
    exact (h3 s0 hs0).1

theorem ar_bpe_returns (P : Platform) {t : Tokenizer} {w : WStr} (b : Bool) {lines : List Str} {m : BPE} (hmade : Made lines m)
    (before : List PTS) (hend : SafeEnd t) (hm : t.model = some (.bpe (usedBPE P m before))) {p : PTS} {lens : List Nat}
    (h1 : (t.preTokenized P w).1 = .ok p) (h2 : Room lens p.normalized) (h3 : ∀ s ∈ p.splits, s.offsets.1 < lens.length)
    (hfit : ∀ s ∈ p.splits, Fits m s.normalized) :
    (∃ e, (t.encode P w b).1 = .ok e) ↔ ∀ s ∈ p.splits, Direct m s.normalized ∨
        ∃ i, i < s.normalized.length ∧ Yields (tokenToId m.vocab) m.pre m.suf m.unkToken m.byteFallback s.normalized i := by
  constructor
  · rintro ⟨e, he⟩ s hs
    obtain ⟨q, x, ⟨p', hp', hq⟩, _, _⟩ := encode_ok he
    rw [h1] at hp'; cases hp'
    rw [hm] at hq
    have hq' := (bpe_tokenize P hmade before p q).1 hq
    obtain ⟨s', _, _, hword⟩ := each_left hq'.2 s hs
    by_cases hd : Direct m s.normalized
    · exact .inl hd
    · refine .inr (Classical.byContradiction fun hy => ?_)
      rw [C23_violated P hmade s.normalized (fun i hi hyi => hy ⟨i, hi, hyi⟩) hd] at hword
      cases hword
  · intro hall
    obtain ⟨l, hl⟩ := each_total (R := fun (s s' : Split) => s'.normalized = s.normalized ∧ s'.offsets = s.offsets ∧
        (m.word P s.normalized).1 = .ok s'.tokens) p.splits (by
      intro s hs
      have : ∃ ts, (m.word P s.normalized).1 = .ok ts := by
        rcases hall s hs with hd | hy
        · rcases word_answer P (made_cache hmade) s.normalized with ⟨i, _, _, h⟩ | ⟨h, _⟩
          · exact ⟨_, h⟩
          · exact absurd hd h
        · exact C15_terminates P hmade s.normalized hy (hfit s hs)
      obtain ⟨ts, hts⟩ := this
      exact ⟨{ s with tokens := ts }, rfl, rfl, hts⟩)
    refine encode_total_room (q := { p with splits := l }) hend ⟨p, h1, ?_⟩ h2 ?_
    · rw [hm]
      exact (bpe_tokenize P hmade before p _).2 ⟨rfl, hl⟩
    · intro s hs
      obtain ⟨s0, hs0, _, h, _⟩ := each_mem_right hl s hs
      rw [h]; exact h3 s0 hs0

/-- **C73** with a byte-pair model (partial in the same way): `encode` returns exactly if every pre-token is answered by
`ignore_merges` or has a byte that yields a symbol. -/
theorem C73_any_bpe_partial (P : Platform) (t : Tokenizer) {a : AddedVocab} {w w' : WStr} {cuts : List Cut} (b : Bool)
    {lines : List Str} {m : BPE} (hmade : Made lines m) (before : List PTS) (ha : t.added = some a)
    (hP : PlainTables a) (hw0 : w ≠ []) (h : Workable P t.normalizer a w w' cuts)
    (hpt : ∀ pt, t.preTokenizer = some pt → SafePre P w' pt) (hend : SafeEnd t) (hm : t.model = some (.bpe (usedBPE P m before))) :
    ∃ p, (t.preTokenized P w).1 = .ok p ∧ (∀ s ∈ p.splits, s.normalized ≠ []) ∧ ((∀ s ∈ p.splits, Fits m s.normalized) →
      ((∃ e, (t.encode P w b).1 = .ok e) ↔ ∀ s ∈ p.splits, Direct m s.normalized ∨
        ∃ i, i < s.normalized.length ∧ Yields (tokenToId m.vocab) m.pre m.suf m.unkToken m.byteFallback s.normalized i)) := by
  obtain ⟨p, lens, h1, h2, h3⟩ := ar_preTokenized P ha hP hw0 h hpt
  exact ⟨p, h1, fun s hs => (h3 s hs).2, fun hfit => ar_bpe_returns P b hmade before hend hm h1 h2 (fun s hs => (h3 s hs).1) hfit⟩

/-- **C73** (what fails) If `encode` returns, no piece of the text starts beyond its last code point, the normalizer returns on every
ordinary piece, and the result is made of Unicode characters. -/
theorem C73_any_only_if (P : Platform) (t : Tokenizer) {a : AddedVocab} {w : WStr} {e : Encoding} (b : Bool) (ha : t.added = some a)
    (hP : PlainTables a) (h : (t.encode P w b).1 = .ok e) :
    w ≠ [] ∧ Scalars w ∧ ∃ cuts, CutUp a a.nonNormTrie w cuts ∧ (∀ c ∈ cuts, c.2.1 ≤ w.length) ∧
      ∀ x y, (none, (x, y)) ∈ cuts → ∃ s, MadeOf P t.normalizer (textAt w x y) s ∧ Scalars s.normalized := by
  obtain ⟨q, _, ⟨p, hp, _⟩, _, _⟩ := encode_ok h
  have hext : ∃ p1, (a.extract P t.normalizer w).1 = .ok p1 := by
    unfold Tokenizer.preTokenized at hp
    split at hp
    · cases hp
    · simp only [ha] at hp
      obtain ⟨p1, h1, -⟩ := res_bind_ok.1 hp
      exact ⟨p1, h1⟩
  obtain ⟨p1, h1⟩ := hext
  obtain ⟨cuts, groups, g1, g2, -, -⟩ := at_extract0 P t.normalizer hP h1
  refine ⟨?_, ar_cut_scalars g1, cuts, g1, ?_, ?_⟩
  · rintro rfl
    obtain ⟨e, he, -⟩ := extract_nil P t.normalizer a
    rw [he] at h1; cases h1
  · intro c hc
    apply Classical.byContradiction
    intro hn
    rw [C108_throws P ha hP g1 ⟨c, hc, by omega⟩ b] at h
    cases h
  · intro x y hm
    obtain ⟨g, hg⟩ := each_left g2 _ hm
    obtain ⟨n, cuts', k1, k2, -⟩ := hg
    exact ⟨n, ar_madeOf.2 k1, ar_cut_scalars k2⟩

/-! ### Without flags, without recognized tokens -/

theorem ar_from_free {a : AddedVocab} (hfree : FlagFree a) {s : Str} {total p : Nat} {occ : List (Nat × Nat × Int)} {cuts : List Cut}
    (h : CutFrom a s total p occ cuts) (hp : p ≤ total)
    (hpair : occ.Pairwise (fun o o' : Nat × Nat × Int => o.2.1 ≤ o'.1)) (hfirst : ∀ o ∈ occ, p ≤ o.1)
    (hocc : ∀ o ∈ occ, o.1 < o.2.1 ∧ o.2.1 ≤ total) :
    (∀ c ∈ cuts, c.2.1 < c.2.2) ∧ p + (cuts.map fun c => c.2.2 - c.2.1).sum = total := by
  induction h with
  | @rest p hn => simp; omega
  | done => simp
  | @skip p x y i r cuts hc _ ih =>
    have hh := List.pairwise_cons.1 hpair
    exact ih hp hh.2 (fun o ho => hfirst o (by simp [ho])) fun o ho => hocc o (by simp [ho])
  | @take p x y x' y' i r cuts hc hl hr _ ih =>
    obtain ⟨f1, f2, f3⟩ := flagFree_of hfree i
    unfold LeftEnd at hl
    unfold RightEnd at hr
    rw [if_neg (by rw [f2]; simp)] at hl
    rw [if_neg (by rw [f3]; simp)] at hr
    subst hl hr
    have hh := List.pairwise_cons.1 hpair
    have h0 := hocc _ List.mem_cons_self
    have h1 := hfirst _ List.mem_cons_self
    simp only at h0 h1
    obtain ⟨i1, i2⟩ := ih h0.2 hh.2 (fun o ho => hh.1 o ho) fun o ho => hocc o (by simp [ho])
    constructor
    · intro c hc
      simp only [List.mem_append, List.mem_cons] at hc
      rcases hc with hc | rfl | hc
      · split at hc
        · simp at hc; subst hc; simpa using ‹_›
        · cases hc
      · exact h0.1
      · exact i1 c hc
    · split
      · simp; omega
      · simp; omega

/-- **C73** Without flags the pieces of a text follow each other and cover it, so that the conditions `forward` and `fits` of `Workable` hold. -/
theorem C73_free_cuts {a : AddedVocab} {T : List (Str × Int)} {w : WStr} {cuts : List Cut} (hfree : FlagFree a) (h : CutUp a T w cuts) :
    (∀ c ∈ cuts, c.2.1 < c.2.2) ∧ (cuts.map fun c => c.2.2 - c.2.1).sum = units w := by
  obtain ⟨u, s, occ, h1, h2, h3, h4, h5⟩ := h
  obtain ⟨hs, rfl⟩ := utf16Text_iff.1 h1
  obtain ⟨k1, k2⟩ := ar_from_free hfree h5 (Nat.zero_le _) h3 (fun o _ => Nat.zero_le _) (by
    rintro ⟨x, y, i⟩ ho
    exact at_le ((h4 x y i).1 ho))
  exact ⟨k1, by rw [units_eq]; omega⟩

theorem ar_nothing {a : AddedVocab} {T : List (Str × Int)} {w : WStr} (hw : Scalars w) (h0 : w ≠ []) (h : NothingIn T w) :
    CutUp a T w [(none, (0, units w))] := by
  have hu := utf16Text_iff.2 ⟨hw, rfl⟩
  refine ⟨_, _, [], hu, utf8Text_iff.2 ⟨hw, rfl⟩, .nil, ?_, ?_⟩
  · intro x y i
    constructor
    · intro hm; cases hm
    · intro hr; exact absurd hr (h _ x y i hu)
  · rw [units_eq]
    exact .rest (at_units_ne h0)

theorem ar_whole (w : WStr) : textAt w 0 (units w) = w := by
  unfold textAt between
  have := ar_units_ge w
  simp only [Nat.zero_le, if_true, List.drop_zero, Nat.sub_zero]
  exact List.take_of_length_le this

/-- **C73** for texts in which no added token is recognized, whatever the planes of the characters (partial: the normalizer's result has to be usable): with a WordPiece model, or none, `encode` returns. -/
theorem C73_plain_partial (P : Platform) (t : Tokenizer) {a : AddedVocab} {w : WStr} {s : NS} (b : Bool) (ha : t.added = some a)
    (hP : PlainTables a) (hw0 : w ≠ []) (hw : Scalars w) (hn : NothingIn a.nonNormTrie w) (hs : MadeOf P t.normalizer w s) (hr : Roomy s)
    (hsc : Scalars s.normalized) (hn' : NothingIn a.normTrie s.normalized)
    (hpt : ∀ pt, t.preTokenizer = some pt → SafePre P s.normalized pt) (hend : SafeEnd t)
    (hm : t.model = none ∨ ∃ m, t.model = some (.wordPiece m)) : ∃ e, (t.encode P w b).1 = .ok e := by
  have h0 : 0 < units w := by
    have := ar_units_ge w
    have := List.length_pos_iff.2 hw0
    omega
  refine C73_any_partial P t b ha hP hw0 (w' := s.normalized) (cuts := [(none, (0, units w))]) ⟨ar_nothing hw hw0 hn, ?_, ?_, ?_, ?_, ?_⟩ hpt hend hm
  · intro c hc
    simp at hc; subst hc
    simp only [ar_whole]; exact hw0
  · intro c hc
    simp at hc; subst hc
    exact h0
  · simp
  · intro i x y hm
    simp at hm
  · intro x y hm
    simp at hm
    obtain ⟨rfl, rfl⟩ := hm
    rw [ar_whole]
    refine ⟨s, [(none, (0, units s.normalized))], hs, hr, fun c hc => hc, ar_nothing hsc hr.1.ne hn', ?_⟩
    intro c hc
    simp at hc; subst hc
    simp only [ar_whole]; exact hr.1.ne

/-- **C73** for texts in which no added token is recognized, without normalizer: `encode` returns. -/
theorem C73_no_tokens_partial (P : Platform) (t : Tokenizer) {a : AddedVocab} {w : WStr} (b : Bool) (ha : t.added = some a)
    (hP : PlainTables a) (hno : t.normalizer = none) (hw0 : w ≠ []) (hw : ∀ c ∈ w, Scalar c)
    (hn : NothingIn a.nonNormTrie w) (hn' : NothingIn a.normTrie w)
    (hpt : ∀ pt, t.preTokenizer = some pt → SafePre P w pt) (hend : SafeEnd t)
    (hm : t.model = none ∨ ∃ m, t.model = some (.wordPiece m)) : ∃ e, (t.encode P w b).1 = .ok e :=
  C73_plain_partial P t (s := NS.ofText w) b ha hP hw0 (scalars_iff.1 hw) hn (by rw [hno]; rfl)
    (ar_usable_text hw0 (scalars_iff.1 hw)) (scalars_iff.1 hw) hn' hpt hend hm

/-- **C73** What the BERT normalizer makes of a text in which nothing is dropped or decomposed is usable, whatever the planes of its
characters. -/
theorem C73_bert_usable (P : Platform) (clean cjk strip lower : Bool) {v : WStr} (hv : ∀ c ∈ v, Scalar c) (h0 : v ≠ [])
    (h : Undropped P clean strip lower v)
    (hlow : lower = true → ∀ c, c = 0x20 ∨ c ∈ v → c < 0x10000 → P.towlower c < 0x10000) :
    ∃ s, MadeOf P (some (.bert clean cjk strip lower)) v s ∧ Roomy s := ar_bert P clean cjk strip lower (scalars_iff.1 hv) h0 h hlow

/-- **C73** behind a BERT normalizer, for texts in which nothing is dropped or decomposed and no added token is recognized (partial for these
reasons), whatever the planes of the characters: `encode` returns. -/
theorem C73_bert_any_partial (P : Platform) (t : Tokenizer) {a : AddedVocab} {w : WStr} (b clean cjk strip lower : Bool)
    (ha : t.added = some a) (hP : PlainTables a) (hno : t.normalizer = some (.bert clean cjk strip lower)) (hw0 : w ≠ [])
    (hw : ∀ c ∈ w, Scalar c) (hn : NothingIn a.nonNormTrie w) (hu : Undropped P clean strip lower w)
    (hlow : lower = true → ∀ c, c = 0x20 ∨ c ∈ w → c < 0x10000 → P.towlower c < 0x10000)
    (hs : ∀ n, NormalizesTo P (.bert clean cjk strip lower) w n → (∀ c ∈ n, Scalar c) ∧ NothingIn a.normTrie n ∧
      ∀ pt, t.preTokenizer = some pt → SafePre P n pt) (hend : SafeEnd t)
    (hm : t.model = none ∨ ∃ m, t.model = some (.wordPiece m)) : ∃ e, (t.encode P w b).1 = .ok e := by
  obtain ⟨s, h1, h2⟩ := C73_bert_usable P clean cjk strip lower hw hw0 hu hlow
  obtain ⟨k1, k2, k3⟩ := hs s.normalized (C104_text P _ h1)
  exact C73_plain_partial P t b ha hP hw0 (scalars_iff.1 hw) hn (by rw [hno]; exact h1) h2 (scalars_iff.1 k1) k2 k3 hend hm

/-! ### The hypotheses are met -/

theorem ar_cutUp {w : WStr} {T : List (Str × Int)} {cuts : List Cut} (hT : T = tagAdded.nonNormTrie ∨ T = tagAdded.normTrie) (hw : Scalars w)
    (h : (tagAdded.findMatches (utf8 w) T).1 = .ok cuts) : CutUp tagAdded T w cuts := by
  obtain ⟨h1, h2⟩ := at_tagAdded _ hT
  obtain ⟨c, f1, f2⟩ := at_findMatches (a := tagAdded) hw h1 h2
  rw [h] at f1
  cases f1
  exact f2

/-- A text with an added token that strips blanks, followed by a character above U+FFFF. -/
theorem ar_workable : Workable ascii none tagAdded w!"hi A 😀 hi" w!"hi 😀" [(none, (0, 3)), (some 1, (3, 5)), (none, (5, 10))] := by
  refine ⟨ar_cutUp (.inl rfl) (by unfold Scalars isScalar; decide) (by decide +kernel), ?_, by decide, by decide, ?_, ?_⟩
  · unfold NoneEmpty; decide
  · intro i x y hm
    simp at hm
    obtain ⟨-, rfl, rfl⟩ := hm
    unfold Ascii; decide
  · intro x y hm
    simp at hm
    rcases hm with ⟨rfl, rfl⟩ | ⟨rfl, rfl⟩
    · refine ⟨_, [(none, (0, 3))], rfl, ?_, by decide, ar_cutUp (.inr rfl) (by unfold Scalars isScalar; decide) (by decide +kernel), ?_⟩
      · exact ar_usable_text (by decide) (by unfold Scalars isScalar; decide)
      · unfold NoneEmpty; decide
    · refine ⟨_, [(none, (0, 5))], rfl, ?_, by decide, ar_cutUp (.inr rfl) (by unfold Scalars isScalar; decide) (by decide +kernel), ?_⟩
      · exact ar_usable_text (by decide) (by unfold Scalars isScalar; decide)
      · unfold NoneEmpty; decide

/-- What `C73_any_partial` says of it, and what `encode` returns. -/
example : (∃ e, (anyTk.encode ascii w!"hi A 😀 hi" true).1 = .ok e) ∧
    (anyTk.encode ascii w!"hi A 😀 hi" true).1.map (fun e => (e.tokens, e.offsets)) =
      .ok ([b!"hi", b!"[UNK]", b!"[UNK]", b!"hi"], [(0, 2), (3, 5), (5, 7), (8, 10)]) :=
  ⟨C73_any_partial ascii anyTk true rfl at_tagAdded (by decide) ar_workable (by intro pt h; cases h; exact .cuts trivial)
    ⟨by simp [anyTk, tkOf], by simp [Specials, anyTk, tkOf], by simp [anyTk, tkOf]⟩ (.inr ⟨_, rfl⟩), by decide +kernel⟩

end Tok
