import Verif.Props.Replace
import Verif.Props.Room

set_option autoImplicit false

/-!
C91: SentencePiece-style normalization (Prepend `▁`, then Replace every space by `▁`).
-/

namespace Tok
open Spec

/-- **C91** Prepend `▁`, then Replace ` ` by `▁`, on a text that is not empty: the call returns exactly if every space of the
text, moved right by the number of spaces before it, is still inside the text (counted in UTF-16 units); then the result is `▁`
followed by the text with every space replaced; otherwise the call runs off the end of the table. -/
theorem C91_metaspace (P : Platform) {find : WStr → List (Nat × Nat)} (hf : P.wregex w!" " = some find) (hfind : Finds 0x20 find)
    {w : WStr} (hw : ∀ c ∈ w, Scalar c) (h0 : w ≠ []) :
    ((∀ A B, w = A ++ 0x20 :: B → A.length + times 0x20 A < units w) →
      ∃ s', metaspace.run P (NS.ofText w) = .ok s' ∧ s'.normalized = 0x2581 :: w.map (fun c => if c = 0x20 then 0x2581 else c)) ∧
    ((¬ ∀ A B, w = A ++ 0x20 :: B → A.length + times 0x20 A < units w) →
      metaspace.run P (NS.ofText w) = .error (.ub .outOfBounds)) := by
  obtain ⟨h1, h2⟩ := metaspace_room P hf hfind (scalars_iff.1 hw) h0
  exact ⟨fun h => by obtain ⟨s', e, n, _⟩ := h1 h; exact ⟨s', e, n⟩, h2⟩

theorem evenly_iff {w : WStr} (h : Bmp w) : (∀ A B, w = A ++ 0x20 :: B → A.length + times 0x20 A < units w) ↔ Evenly w := by
  have hu := units_bmp h
  constructor
  · intro H A B e
    have := H A B e
    rw [hu, e] at this; simp at this; omega
  · intro H A B e
    have := H A B e
    rw [hu, e]; simp; omega

/-- **C91 for text up to U+FFFF**: the condition is that every space has at least as many characters after it as spaces
before it. -/
theorem C91_metaspace_bmp (P : Platform) {find : WStr → List (Nat × Nat)} (hf : P.wregex w!" " = some find) (hfind : Finds 0x20 find)
    {w : WStr} (hw : Bmp w) (h0 : w ≠ []) :
    (Evenly w → ∃ s', metaspace.run P (NS.ofText w) = .ok s' ∧
      s'.normalized = 0x2581 :: w.map (fun c => if c = 0x20 then 0x2581 else c)) ∧
    (¬ Evenly w → metaspace.run P (NS.ofText w) = .error (.ub .outOfBounds)) := by
  have := C91_metaspace P hf hfind (scalars_iff.2 (bmp_scalars hw)) h0
  rwa [evenly_iff hw] at this

/-- What every text of this kind gives the rest of `encode`. -/
theorem metaspace_text (P : Platform) {find : WStr → List (Nat × Nat)} (hf : P.wregex w!" " = some find) (hfind : Finds 0x20 find)
    {a : AddedVocab} {w : WStr} (h0 : w ≠ []) (hw : Bmp w) (hfree : FlagFree a) (hone : OneId a.nonNormTrie)
    (hA : ∀ p ∈ a.nonNormTrie, Ascii p.1) (hF : ∀ p ∈ a.nonNormTrie ++ a.normTrie, p.1 ≠ []) :
    NormalText P metaspace a w (0x2581 :: w) ∧
    ∀ v, OrdinaryPiece a w v → ((∃ s, metaspace.run P (NS.ofText v) = .ok s) ↔ Evenly v) := by
  have hstrip : ∀ i t, mapFind a.mapR i = some t → t.lstrip = false ∧ t.rstrip = false := fun i t h => (hfree i t h).2
  have hpiece : ∀ v, OrdinaryPiece a w v → v ≠ [] ∧ ∀ c ∈ v, c ∈ w := by
    rintro v ⟨cuts, x, y, hc, hm, rfl⟩
    have h1 := hc.filled _ hm
    have h2 := tiles_mem_le hc.tiles _ (List.mem_map.2 ⟨_, hm, rfl⟩)
    simp only at h1 h2
    refine ⟨?_, fun c hc => List.mem_of_mem_drop (List.mem_of_mem_take hc)⟩
    intro h
    have := congrArg List.length h
    simp [between] at this
    omega
  refine ⟨⟨h0, ?_, ⟨hw, fun p hp => hF p (List.mem_append_left _ hp), hone, .inl hfree⟩, ⟨hw, .inl hstrip⟩,
    ⟨?_, .inl hstrip⟩, hA, hF⟩, ?_⟩
  · intro v hv s hs
    obtain ⟨g1, g2⟩ := hpiece v hv
    have hb : Bmp v := fun c hc => hw c (g2 c hc)
    obtain ⟨h1, h2⟩ := metaspace_room P hf hfind (bmp_scalars hb) g1
    by_cases hc : ∀ A B, v = A ++ 0x20 :: B → A.length + times 0x20 A < units v
    · obtain ⟨s', e, n, u⟩ := h1 hc
      rw [hs] at e; cases e
      refine ⟨u.1, fun c hc => ?_⟩
      rw [n] at hc
      rcases List.mem_cons.1 hc with rfl | hc
      · simp
      · obtain ⟨d, hd, rfl⟩ := List.mem_map.1 hc
        by_cases h : d = 0x20
        · simp [h]
        · simp [h, g2 d hd]
    · rw [h2 hc] at hs; cases hs
  · intro c hc
    rcases List.mem_cons.1 hc with rfl | hc
    · unfold Scalar; decide
    · exact hw c hc
  · intro v hv
    obtain ⟨g1, g2⟩ := hpiece v hv
    have hb : Bmp v := fun c hc => hw c (g2 c hc)
    obtain ⟨h1, h2⟩ := C91_metaspace_bmp P hf hfind hb g1
    constructor
    · rintro ⟨s, hs⟩
      refine Classical.byContradiction fun h => ?_
      rw [h2 h] at hs; cases hs
    · intro h
      obtain ⟨s, e, _⟩ := h1 h
      exact ⟨s, e⟩

/-- **C91, the whole of `encode`** (partial: added tokens without flags, text up to U+FFFF, a WordPiece model or none): with
this normalizer `encode` returns exactly if in every ordinary piece between added tokens every space has at least as many
characters after it as spaces before it. -/
theorem C91_encode_partial (P : Platform) (t : Tokenizer) (a : AddedVocab) (w : WStr) (b : Bool)
    {find : WStr → List (Nat × Nat)} (hf : P.wregex w!" " = some find) (hfind : Finds 0x20 find)
    (ha : t.added = some a) (hn : t.normalizer = some metaspace) (h0 : w ≠ []) (hw : Bmp w) (hfree : FlagFree a)
    (hone : OneId a.nonNormTrie) (hA : ∀ p ∈ a.nonNormTrie, Ascii p.1) (hF : ∀ p ∈ a.nonNormTrie ++ a.normTrie, p.1 ≠ [])
    (hpt : ∀ pt, t.preTokenizer = some pt → SafePre P (w ++ 0x2581 :: w) pt) (hend : SafeEnd t)
    (hm : t.model = none ∨ ∃ m, t.model = some (.wordPiece m)) :
    (∃ e, (t.encode P w b).1 = .ok e) ↔ ∀ v, OrdinaryPiece a w v → Evenly v := by
  obtain ⟨k1, k2⟩ := metaspace_text P hf hfind h0 hw hfree hone hA hF
  obtain ⟨g1, g2⟩ := C73_normalized_partial P t metaspace a w _ b ha hn k1 hpt hend hm
  exact ⟨fun h v hv => (k2 v hv).1 (g2 hfree h v hv), fun h => g1 fun v hv => (k2 v hv).2 (h v hv)⟩

/-- **C91, `encode` with a byte-pair model** that has an unknown token in its vocabulary (partial in the same way). -/
theorem C91_encode_bpe_partial (P : Platform) (t : Tokenizer) (a : AddedVocab) (w : WStr) (b : Bool)
    {find : WStr → List (Nat × Nat)} (hf : P.wregex w!" " = some find) (hfind : Finds 0x20 find)
    (ha : t.added = some a) (hn : t.normalizer = some metaspace) (h0 : w ≠ []) (hw : Bmp w) (hfree : FlagFree a)
    (hone : OneId a.nonNormTrie) (hA : ∀ p ∈ a.nonNormTrie, Ascii p.1) (hF : ∀ p ∈ a.nonNormTrie ++ a.normTrie, p.1 ≠ [])
    (hpt : ∀ pt, t.preTokenizer = some pt → SafePre P (w ++ 0x2581 :: w) pt) (hend : SafeEnd t)
    {lines : List Str} {m : BPE} (hmade : Made lines m) (before : List PTS) (hm : t.model = some (.bpe (usedBPE P m before)))
    (hunk : m.unkToken ≠ []) (hin : ∃ i, tokenToId m.vocab m.unkToken = some i)
    (hfit : ∀ p, (t.preTokenized P w).1 = .ok p → ∀ s ∈ p.splits, Fits m s.normalized) :
    (∃ e, (t.encode P w b).1 = .ok e) ↔ ∀ v, OrdinaryPiece a w v → Evenly v := by
  obtain ⟨k1, k2⟩ := metaspace_text P hf hfind h0 hw hfree hone hA hF
  constructor
  · rintro ⟨e, he⟩ v hv
    refine (k2 v hv).1 ?_
    obtain ⟨q, _, ⟨p, hp, _⟩, _, _⟩ := encode_ok he
    obtain ⟨cuts', hc', hr⟩ := preTokenized_runs P ha hn k1 hp
    obtain ⟨cuts, x, y, hc, hm, rfl⟩ := hv
    rw [C85_unique hfree hc hc'] at hm
    exact hr x y hm
  · intro h
    obtain ⟨p, h1, h2, h3⟩ := C73_bpe_normalized_partial P t metaspace a w _ b hmade before ha hn k1
      (fun v hv => (k2 v hv).2 (h v hv)) hpt hend hm
    refine (h3 (hfit p h1)).2 fun s hs => .inr ⟨0, ?_, .inr (.inr ⟨hunk, hin⟩)⟩
    exact List.length_pos_iff.2 (h2 s hs)

/-! ### Cases -/

theorem posIds_mem (c : Nat) : ∀ (w : WStr) (k i : Nat), i ∈ posIds c k w ↔ k ≤ i ∧ w[i - k]? = some c := by
  intro w
  induction w with
  | nil => intro k i; simp [posIds]
  | cons x w ih =>
    intro k i
    have hstep : k + 1 ≤ i → ((x :: w)[i - k]? = w[i - (k + 1)]?) := by
      intro h
      rw [show i - k = i - (k + 1) + 1 by omega, List.getElem?_cons_succ]
    by_cases hx : x = c
    · simp only [posIds, if_pos hx, List.mem_cons, ih]
      constructor
      · rintro (rfl | ⟨h1, h2⟩)
        · simp [hx]
        · exact ⟨by omega, by rw [hstep h1]; exact h2⟩
      · rintro ⟨h1, h2⟩
        by_cases h : i = k
        · exact .inl h
        · exact .inr ⟨by omega, by rw [← hstep (by omega)]; exact h2⟩
    · simp only [posIds, if_neg hx, ih]
      constructor
      · rintro ⟨h1, h2⟩
        exact ⟨by omega, by rw [hstep h1]; exact h2⟩
      · rintro ⟨h1, h2⟩
        have h : i ≠ k := by rintro rfl; simp at h2; exact hx h2
        exact ⟨by omega, by rw [← hstep (by omega)]; exact h2⟩

theorem posIds_sorted (c : Nat) : ∀ (w : WStr) (k : Nat), (posIds c k w).Pairwise (· < ·) := by
  intro w
  induction w with
  | nil => intro k; exact .nil
  | cons x w ih =>
    intro k
    by_cases hx : x = c
    · simp only [posIds, if_pos hx, List.pairwise_cons]
      exact ⟨fun i hi => by have := ((posIds_mem c w (k + 1) i).1 hi).1; omega, ih _⟩
    · simp only [posIds, if_neg hx]
      exact ih _

theorem literal_starts (c : Nat) (f : Nat × Nat → Nat) : ∀ (w : WStr) (k : Nat),
    ((literalMatches [c] 0 k w).map fun m => (m.1, f m)).map (·.1) = posIds c k w := by
  intro w
  induction w with
  | nil => intro k; simp [literalMatches, posIds]
  | cons x w ih =>
    intro k
    by_cases hx : x = c
    · subst hx
      simp only [literalMatches, posIds, if_true, List.isPrefixOf, beq_self_eq_true, Bool.true_and]
      simp only [ne_eq, List.cons_ne_nil, not_false_eq_true, and_true, if_true, List.map_cons]
      exact congrArg (k :: ·) (ih (k + 1))
    · have : ¬ (List.isPrefixOf [c] (x :: w) = true ∧ [c] ≠ []) := by
        simp [List.isPrefixOf]; intro h; exact hx h.symm
      simp only [literalMatches, posIds, if_neg hx]
      rw [if_neg this]
      exact ih (k + 1)

/-- The regex engine of the sample platform finds the spaces. -/
theorem ascii_finds : ∃ find, ascii.wregex w!" " = some find ∧ Finds 0x20 find :=
  ⟨_, rfl, fun w => by
    have := literal_starts 0x20 (fun m => m.2 - m.1) w 0
    refine ⟨by show (((literalMatches [0x20] 0 0 w).map fun m => (m.1, m.2 - m.1)).map (·.1)).Pairwise (· < ·)
               rw [this]; exact posIds_sorted _ _ _, fun i => ?_⟩
    show i ∈ ((literalMatches [0x20] 0 0 w).map fun m => (m.1, m.2 - m.1)).map (·.1) ↔ _
    rw [this, posIds_mem]; simp⟩

-- "a b c": the second space has one character after it and one space before it
example : (metaspace.run ascii (NS.ofText w!"a b c")).map (·.normalized) = .ok w!"▁a▁b▁c" ∧
    metaspace.run ascii (NS.ofText w!"a b c d") = .error (.ub .outOfBounds) ∧
    (metaspace.run ascii (NS.ofText w!"two words")).map (·.normalized) = .ok w!"▁two▁words" := by
  refine ⟨?_, ?_, ?_⟩ <;> decide +kernel

/-- Without a recognized added token the whole text is the only ordinary piece. -/
theorem ordinary_whole {a : AddedVocab} {w : WStr} (hfree : FlagFree a) (h0 : w ≠ [])
    (h : ∀ x y i, ¬ Recognized a.nonNormTrie w x y i) (v : WStr) : OrdinaryPiece a w v ↔ v = w := by
  have hl := List.length_pos_iff.2 h0
  have hc : CutInto a a.nonNormTrie w [(none, (0, w.length))] :=
    ⟨by simp [Tiles], by simpa using hl, trivial, by simp, fun i x y hr => absurd hr (h x y i)⟩
  have hb : between w 0 w.length = w := by simp [between]
  constructor
  · rintro ⟨cuts, x, y, hc', hm, rfl⟩
    rw [C85_unique hfree hc' hc] at hm
    simp at hm
    rw [hm.1, hm.2, hb]
  · rintro rfl
    exact ⟨_, 0, v.length, hc, by simp, hb.symm⟩

theorem nothing_recognized {T : List (Str × Int)} (hT : T = []) (w : WStr) : ∀ x y i, ¬ Recognized T w x y i := by
  subst hT
  intro x y i h
  have : ∀ {a b : Nat} {j : Int}, ¬ ShortestAt [] w a b j := by
    rintro a b j ⟨_, ⟨_, k, _, hk⟩, _⟩; cases hk
  cases h <;> exact this ‹_›

/-- A SentencePiece-style tokenizer with the sample added tokens "ab", "abc" and "x". -/
def pieceTk (a : AddedVocab) (m : Model) : Tokenizer := { added := some a, normalizer := some metaspace, model := some m }

theorem pieceTk_end (a : AddedVocab) (m : Model) : SafeEnd (pieceTk a m) :=
  ⟨by simp [pieceTk], by simp [pieceTk, Specials], by simp [pieceTk]⟩

theorem evenly_abc : Evenly w!"a b c" := by
  intro A B e
  have hA : A = (w!"a b c").take A.length := by rw [e]; simp
  have hlen := congrArg List.length e
  simp only [List.length_append, List.length_cons, List.length_nil] at hlen
  generalize hn : A.length = n at hA hlen
  have h1 : n < 5 := by omega
  have h2 := congrArg (·[n]?) e
  simp only [List.getElem?_append_right (Nat.le_of_eq hn), hn, Nat.sub_self, List.getElem?_cons_zero] at h2
  rw [hA]
  match n, h1, h2 with
  | 0, _, h2 => simp at h2
  | 1, _, _ => show 0 ≤ _; omega
  | 2, _, h2 => simp at h2
  | 3, _, _ => show 1 ≤ _; omega
  | 4, _, h2 => simp at h2

-- the theorems decide which of these texts are encoded
example (m : WordPiece) (b : Bool) : (∃ e, ((pieceTk (AddedVocab.init []) (.wordPiece m)).encode ascii w!"a b c" b).1 = .ok e) ∧
    ¬ ∃ e, ((pieceTk (AddedVocab.init []) (.wordPiece m)).encode ascii w!"a b c d" b).1 = .ok e := by
  obtain ⟨find, hf, hfind⟩ := ascii_finds
  have hfree : FlagFree (AddedVocab.init []) := by intro i t h; simp [AddedVocab.init, mapFind] at h
  have key := fun (w : WStr) (h0 : w ≠ []) (hw : Bmp w) =>
    C91_encode_partial ascii (pieceTk (AddedVocab.init []) (.wordPiece m)) _ w b hf hfind rfl rfl h0 hw hfree
      (by intro k i j h; cases h) (by simp [AddedVocab.init]) (by simp [AddedVocab.init]) (by intro pt h; cases h) (pieceTk_end _ _)
      (.inr ⟨m, rfl⟩)
  have hord := fun (w : WStr) (h0 : w ≠ []) => ordinary_whole hfree h0 (nothing_recognized rfl w)
  constructor
  · refine (key w!"a b c" (by decide) (by unfold Bmp Scalar; decide)).2 fun v hv => ?_
    rw [(hord _ (by decide) v).1 hv]
    exact evenly_abc
  · intro h
    have := (key w!"a b c d" (by decide) (by unfold Bmp Scalar; decide)).1 h _ ((hord _ (by decide) _).2 rfl) w!"a b c" w!"d" rfl
    exact absurd this (by decide)

-- with added tokens: the condition is about the ordinary pieces ("x" is an added token, " a b c" has three spaces)
example : ((pieceTk recAdded (.wordPiece ⟨[(b!"[UNK]", 0), (b!"x", 3)], b!"[UNK]", 100, b!"##"⟩)).encode ascii w!"x a b" true).1.map (·.ids) = .ok [3, 0] ∧
    ((pieceTk recAdded (.wordPiece ⟨[(b!"[UNK]", 0), (b!"x", 3)], b!"[UNK]", 100, b!"##"⟩)).encode ascii w!"x a b c" true).1.map (·.ids) =
      .error (.ub .outOfBounds) := by
  refine ⟨?_, ?_⟩ <;> decide +kernel

-- a byte-pair model with an unknown token, after any history
example (before : List PTS) (b : Bool) (d : Dropout) :
    ∃ e, ((pieceTk (AddedVocab.init []) (.bpe (usedBPE ascii (subBPE true false false d) before))).encode ascii w!"a b c" b).1 = .ok e := by
  obtain ⟨find, hf, hfind⟩ := ascii_finds
  have hfree : FlagFree (AddedVocab.init []) := by intro i t h; simp [AddedVocab.init, mapFind] at h
  refine (C91_encode_bpe_partial ascii _ _ _ b hf hfind rfl rfl (by decide) (by unfold Bmp Scalar; decide) hfree
      (by intro k i j h; cases h) (by simp [AddedVocab.init]) (by simp [AddedVocab.init]) (by intro pt h; cases h) (pieceTk_end _ _)
      (subBPE_made true false false d) before rfl (by simp [subBPE]) ⟨0, rfl⟩ ?_).2 fun v hv => ?_
  · intro p hp
    have : ((pieceTk (AddedVocab.init []) (.bpe abcBPE)).preTokenized ascii w!"a b c").1.map
      (fun p => p.splits.map fun s => s.normalized.length) = .ok [12] := by decide +kernel
    have h2 : ((pieceTk (AddedVocab.init []) (.bpe abcBPE)).preTokenized ascii w!"a b c").1 = .ok p := hp
    rw [h2] at this
    simp only [Except.map, Except.ok.injEq] at this
    intro s hs
    have hl : s.normalized.length ∈ [12] := by rw [← this]; exact List.mem_map.2 ⟨s, hs, rfl⟩
    simp only [Fits, subBPE]
    simp at hl
    rw [hl]; decide
  · rw [(ordinary_whole hfree (by decide) (nothing_recognized rfl _) v).1 hv]
    exact evenly_abc

end Tok
