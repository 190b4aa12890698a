import Verif.Spec.MetaspaceAny
import Verif.Props.Metaspace
import Verif.Props.Returns
import Verif.Props.Blanks

set_option autoImplicit false

/-!
C91 for every text of Unicode characters and for added tokens with flags.
-/

namespace Tok
open Spec

theorem mz_textAt_mem {w : WStr} {x y : Nat} {c : Nat} (h : c ∈ textAt w x y) : c ∈ w := by
  unfold textAt at h
  split at h
  · exact List.mem_of_mem_drop (List.mem_of_mem_take h)
  · exact List.mem_of_mem_drop h

theorem mz_mem {w v : WStr} (h : ∀ c ∈ v, c ∈ w) : ∀ c ∈ metaspaced v, c ∈ w ++ 0x2581 :: w := by
  intro c hc
  rcases List.mem_cons.1 hc with rfl | hc
  · simp
  · obtain ⟨d, hd, rfl⟩ := List.mem_map.1 hc
    by_cases e : d = 0x20
    · simp [e]
    · simp [e, h d hd]

theorem mz_workable (P : Platform) {find : WStr → List (Nat × Nat)} (hf : P.wregex w!" " = some find) (hfind : Finds 0x20 find)
    {a : AddedVocab} {w : WStr} {cuts : List Cut} (hw : Scalars w) (h : CutsWell a w cuts)
    (hfit : ∀ x y, (none, (x, y)) ∈ cuts → SpacesFit (textAt w x y)) :
    Workable P (some metaspace) a w (w ++ 0x2581 :: w) cuts := by
  refine ⟨h.cut, h.filled, h.forward, h.fits, h.tokens, fun x y hm => ?_⟩
  have hv : Scalars (textAt w x y) := fun c hc => hw c (mz_textAt_mem hc)
  obtain ⟨s, h1, h2, h3⟩ := (metaspace_room P hf hfind hv (h.filled _ hm)).1 (hfit x y hm)
  obtain ⟨cuts', k1, k2⟩ := h.pieces x y hm
  have h2' : s.normalized = metaspaced (textAt w x y) := h2
  refine ⟨s, cuts', h1, h3, ?_, by rw [h2']; exact k1, by rw [h2']; exact k2⟩
  rw [h2']
  exact mz_mem fun c hc => mz_textAt_mem hc

theorem mz_fit (P : Platform) {find : WStr → List (Nat × Nat)} (hf : P.wregex w!" " = some find) (hfind : Finds 0x20 find)
    {v : WStr} (hv : Scalars v) (h0 : v ≠ []) {s : NS} (h : metaspace.run P (NS.ofText v) = .ok s) : SpacesFit v := by
  apply Classical.byContradiction
  intro hn
  rw [(metaspace_room P hf hfind hv h0).2 hn] at h
  cases h

/-- **C91, the whole of `encode`, every text** (partial: the text has to be cut well at the added tokens — see `CutsWell`; the model is
WordPiece or missing).  With Prepend `▁` and Replace ` ` by `▁` as normalizer, `encode` returns exactly if in every ordinary piece every
space, moved right by the number of spaces before it, is still inside the piece — whatever the planes of the characters and the
flags of the added tokens. -/
theorem C91_any_partial (P : Platform) (t : Tokenizer) {a : AddedVocab} {w : WStr} {cuts : List Cut} (b : Bool)
    {find : WStr → List (Nat × Nat)} (hf : P.wregex w!" " = some find) (hfind : Finds 0x20 find)
    (ha : t.added = some a) (hn : t.normalizer = some metaspace) (hP : PlainTables a) (h0 : w ≠ []) (hw : ∀ c ∈ w, Scalar c)
    (h : CutsWell a w cuts) (hpt : ∀ pt, t.preTokenizer = some pt → SafePre P (w ++ 0x2581 :: w) pt) (hend : SafeEnd t)
    (hm : t.model = none ∨ ∃ m, t.model = some (.wordPiece m)) :
    (∃ e, (t.encode P w b).1 = .ok e) ↔ ∀ x y, (none, (x, y)) ∈ cuts → SpacesFit (textAt w x y) := by
  have hw' := scalars_iff.1 hw
  constructor
  · rintro ⟨e, he⟩ x y hxy
    obtain ⟨-, -, cuts', k1, -, k2⟩ := C73_any_only_if P t b ha hP he
    rw [C108_cuts_unique h.cut k1] at hxy
    obtain ⟨s, hs, -⟩ := k2 x y hxy
    rw [hn] at hs
    rw [← C108_cuts_unique h.cut k1] at hxy
    exact mz_fit P hf hfind (fun c hc => hw' c (mz_textAt_mem hc)) (h.filled _ hxy) hs
  · intro hfit
    exact C73_any_partial P t b ha hP h0 (by rw [hn]; exact mz_workable P hf hfind hw' h hfit) hpt hend hm

/-- **C91, `encode` with a byte-pair model** that has an unknown token in its vocabulary, every text (partial: as `C91_any_partial`, and the
pieces may not be longer than the program's integers can count). -/
theorem C91_any_bpe_partial (P : Platform) (t : Tokenizer) {a : AddedVocab} {w : WStr} {cuts : List Cut} (b : Bool)
    {find : WStr → List (Nat × Nat)} (hf : P.wregex w!" " = some find) (hfind : Finds 0x20 find)
    (ha : t.added = some a) (hn : t.normalizer = some metaspace) (hP : PlainTables a) (h0 : w ≠ []) (hw : ∀ c ∈ w, Scalar c)
    (h : CutsWell a w cuts) (hpt : ∀ pt, t.preTokenizer = some pt → SafePre P (w ++ 0x2581 :: w) pt) (hend : SafeEnd t)
    {lines : List Str} {m : BPE} (hmade : Made lines m) (before : List PTS) (hm : t.model = some (.bpe (usedBPE P m before)))
    (hunk : m.unkToken ≠ []) (hin : ∃ i, tokenToId m.vocab m.unkToken = some i)
    (hlen : ∀ p, (t.preTokenized P w).1 = .ok p → ∀ s ∈ p.splits, Fits m s.normalized) :
    (∃ e, (t.encode P w b).1 = .ok e) ↔ ∀ x y, (none, (x, y)) ∈ cuts → SpacesFit (textAt w x y) := by
  have hw' := scalars_iff.1 hw
  constructor
  · rintro ⟨e, he⟩ x y hxy
    obtain ⟨-, -, cuts', k1, -, k2⟩ := C73_any_only_if P t b ha hP he
    rw [C108_cuts_unique h.cut k1] at hxy
    obtain ⟨s, hs, -⟩ := k2 x y hxy
    rw [hn] at hs
    rw [← C108_cuts_unique h.cut k1] at hxy
    exact mz_fit P hf hfind (fun c hc => hw' c (mz_textAt_mem hc)) (h.filled _ hxy) hs
  · intro hfit
    obtain ⟨p, h1, h2, h3⟩ := C73_any_bpe_partial P t b hmade before ha hP h0 (w' := w ++ 0x2581 :: w)
      (by rw [hn]; exact mz_workable P hf hfind hw' h hfit) hpt hend hm
    refine (h3 (hlen p h1)).2 fun s hs => .inr ⟨0, List.length_pos_iff.2 (h2 s hs), .inr (.inr ⟨hunk, hin⟩)⟩

theorem mz_tidy {a : AddedVocab} {w : WStr} (h0 : w ≠ []) (hw : Scalars w) (h1 : NothingIn a.nonNormTrie w)
    (h2 : NothingIn a.normTrie (metaspaced w)) : CutsWell a w [(none, (0, units w))] := by
  have hu : 0 < units w := by
    have := ar_units_ge w
    have := List.length_pos_iff.2 h0
    omega
  have hsc : Scalars (metaspaced w) := by
    intro c hc
    rcases List.mem_cons.1 hc with rfl | hc
    · decide
    · obtain ⟨d, hd, rfl⟩ := List.mem_map.1 hc
      by_cases e : d = 0x20
      · simp only [if_pos e]; decide
      · simp only [if_neg e]; exact hw d hd
  refine ⟨ar_nothing hw h0 h1, ?_, ?_, by simp, by simp, ?_⟩
  · intro c hc
    simp at hc; subst hc
    simp only [ar_whole]; exact h0
  · intro c hc
    simp at hc; subst hc
    exact hu
  · intro x y hm
    simp at hm
    obtain ⟨rfl, rfl⟩ := hm
    rw [ar_whole]
    refine ⟨_, ar_nothing hsc (by simp [metaspaced]) h2, ?_⟩
    intro c hc
    simp at hc; subst hc
    simp only [ar_whole]; simp [metaspaced]

/-- **C91, a text in which no added token is recognized**, whatever the planes of its characters (partial: WordPiece model or none):
`encode` returns exactly if every space of the text, moved right by the number of spaces before it, is still inside the text. -/
theorem C91_text_any_partial (P : Platform) (t : Tokenizer) {a : AddedVocab} {w : WStr} (b : Bool)
    {find : WStr → List (Nat × Nat)} (hf : P.wregex w!" " = some find) (hfind : Finds 0x20 find)
    (ha : t.added = some a) (hn : t.normalizer = some metaspace) (hP : PlainTables a) (h0 : w ≠ []) (hw : ∀ c ∈ w, Scalar c)
    (h1 : NothingIn a.nonNormTrie w) (h2 : NothingIn a.normTrie (metaspaced w))
    (hpt : ∀ pt, t.preTokenizer = some pt → SafePre P (w ++ 0x2581 :: w) pt) (hend : SafeEnd t)
    (hm : t.model = none ∨ ∃ m, t.model = some (.wordPiece m)) : (∃ e, (t.encode P w b).1 = .ok e) ↔ SpacesFit w := by
  rw [C91_any_partial P t b hf hfind ha hn hP h0 hw (mz_tidy h0 (scalars_iff.1 hw) h1 h2) hpt hend hm]
  constructor
  · intro h
    have := h 0 (units w) (by simp)
    rwa [ar_whole] at this
  · intro h x y hm
    simp at hm
    obtain ⟨rfl, rfl⟩ := hm
    rw [ar_whole]; exact h

/-! ### Cases -/

theorem mz_check {v : WStr} (h : ∀ n, n < v.length → v[n]? = some 0x20 → n + times 0x20 (v.take n) < units v) : SpacesFit v := by
  rintro A B rfl
  have := h A.length (by simp) (by simp)
  simpa using this

/-- A tokenizer with this normalizer and an added token, `A`, that strips the blanks after it. -/
def mzTk : Tokenizer := { anyTk with normalizer := some metaspace }

theorem mz_end : SafeEnd mzTk := ⟨by simp [mzTk, anyTk, tkOf], by simp [Specials, mzTk, anyTk, tkOf], by simp [mzTk, anyTk, tkOf]⟩

/-- A text with an added token and a character above U+FFFF. -/
theorem mz_cutsWell : CutsWell tagAdded w!"A 😀 h i j" [(some 1, (0, 2)), (none, (2, 10))] := by
  refine ⟨ar_cutUp (.inl rfl) (by unfold Scalars isScalar; decide) (by decide +kernel), ?_, by decide, by decide, ?_, ?_⟩
  · unfold NoneEmpty; decide
  · intro i x y hm
    simp at hm
    obtain ⟨-, rfl, rfl⟩ := hm
    unfold Ascii; decide
  · intro x y hm
    simp at hm
    obtain ⟨rfl, rfl⟩ := hm
    refine ⟨[(none, (0, 9))], ar_cutUp (.inr rfl) (by unfold Scalars isScalar; decide) (by decide +kernel), ?_⟩
    unfold NoneEmpty; decide

theorem mz_cutsWell' : CutsWell tagAdded w!"A x h i j" [(some 1, (0, 2)), (none, (2, 9))] := by
  refine ⟨ar_cutUp (.inl rfl) (by unfold Scalars isScalar; decide) (by decide +kernel), ?_, by decide, by decide, ?_, ?_⟩
  · unfold NoneEmpty; decide
  · intro i x y hm
    simp at hm
    obtain ⟨-, rfl, rfl⟩ := hm
    unfold Ascii; decide
  · intro x y hm
    simp at hm
    obtain ⟨rfl, rfl⟩ := hm
    refine ⟨[(none, (0, 8))], ar_cutUp (.inr rfl) (by unfold Scalars isScalar; decide) (by decide +kernel), ?_⟩
    unfold NoneEmpty; decide

-- "😀 h i j" has a UTF-16 unit to spare, "x h i j" has not
example : (∃ e, (mzTk.encode ascii w!"A 😀 h i j" true).1 = .ok e) ∧ (mzTk.encode ascii w!"A x h i j" true).1 = .error (.ub .outOfBounds) := by
  obtain ⟨find, hf, hfind⟩ := ascii_finds
  refine ⟨(C91_any_partial ascii mzTk true hf hfind rfl rfl at_tagAdded (by decide) (by unfold Scalar; decide) mz_cutsWell
    (by intro pt h; cases h; exact .cuts trivial) mz_end (.inr ⟨_, rfl⟩)).2 ?_, by decide +kernel⟩
  intro x y hm
  simp at hm
  obtain ⟨rfl, rfl⟩ := hm
  exact mz_check (by decide)

example : ¬ ∃ e, (mzTk.encode ascii w!"A x h i j" true).1 = .ok e := by
  obtain ⟨find, hf, hfind⟩ := ascii_finds
  rw [C91_any_partial ascii mzTk true hf hfind rfl rfl at_tagAdded (by decide) (by unfold Scalar; decide) mz_cutsWell'
    (by intro pt h; cases h; exact .cuts trivial) mz_end (.inr ⟨_, rfl⟩)]
  intro h
  have := h 2 9 (by simp) w!"x h i" w!"j" (by decide)
  exact absurd this (by decide)

-- no added token: four words, the last one above U+FFFF
example : (∃ e, (mzTk.encode ascii w!"a b c 😀" true).1 = .ok e) ∧
    (mzTk.encode ascii w!"a b c d" true).1.map (·.ids) = .error (.ub .outOfBounds) := by
  obtain ⟨find, hf, hfind⟩ := ascii_finds
  obtain ⟨h1, h2⟩ := at_tagAdded _ (.inl rfl)
  obtain ⟨h3, h4⟩ := at_tagAdded _ (.inr rfl)
  refine ⟨(C91_text_any_partial ascii mzTk true hf hfind rfl rfl at_tagAdded (by decide) (by unfold Scalar; decide)
    (bk_nothing (by unfold Scalars isScalar; decide) h1 h2 (by decide +kernel)) (bk_nothing (by unfold Scalars isScalar; decide) h3 h4 (by decide +kernel))
    (by intro pt h; cases h; exact .cuts trivial) mz_end (.inr ⟨_, rfl⟩)).2 (mz_check (by decide)), by decide +kernel⟩

end Tok
