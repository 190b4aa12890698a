import Verif.Proofs.Total2
import Verif.Props.Decodable

set_option autoImplicit false

/-!
C73: `encode` returns (no exception, no undefined behaviour, no endless loop).
-/

namespace Tok
open Spec

/-- **C73** (partial: no normalizer together with added tokens; Split patterns with non-empty matches; no
`add_prefix_space`).  With a WordPiece model, or none, `encode` returns on every safe text. -/
theorem C73_returns_partial (P : Platform) (t : Tokenizer) (w : WStr) (b : Bool) (hw : SafeText t w)
    (hpt : ∀ pt, t.preTokenizer = some pt → SafePre P w pt) (hend : SafeEnd t)
    (hm : t.model = none ∨ ∃ m, t.model = some (.wordPiece m)) : ∃ e, (t.encode P w b).1 = .ok e := by
  obtain ⟨p, lens, h1, h2, h3⟩ := preTokenized_total P t w hw hpt
  rcases hm with hm | ⟨m, hm⟩
  · exact encode_total hend ⟨p, h1, by rw [hm]⟩ h2 fun s hs => (h3 s hs).1
  · refine encode_total (q := m.tokenize p) hend ⟨p, h1, by rw [hm]; rfl⟩ h2 fun s hs => ?_
    obtain ⟨s0, hs0, rfl⟩ := List.mem_map.1 hs
    exact (h3 s0 hs0).1

theorem each_total {α β : Type} {R : α → β → Prop} : ∀ (l : List α), (∀ a ∈ l, ∃ b, R a b) → ∃ m, Each R l m := by
  intro l
  induction l with
  | nil => intro _; exact ⟨[], .nil⟩
  | cons a l ih =>
    intro h
    obtain ⟨b, hb⟩ := h a (by simp)
    obtain ⟨m, hm⟩ := ih fun a ha => h a (by simp [ha])
    exact ⟨b :: m, .cons hb hm⟩

theorem each_left {α β : Type} {R : α → β → Prop} {l : List α} {m : List β} (h : Each R l m) :
    ∀ a ∈ l, ∃ b, R a b := by
  induction h with
  | nil => simp
  | @cons x y _ _ hab _ ih =>
    intro z hz
    rcases List.mem_cons.1 hz with rfl | hz
    · exact ⟨y, hab⟩
    · exact ih z hz

/-- **C73, byte-pair models** (partial in the same way).  Whatever was tokenized before, `encode` returns on a safe text
exactly if every pre-token is answered by `ignore_merges` or has a byte that yields a symbol. -/
theorem C73_bpe_partial (P : Platform) (t : Tokenizer) (w : WStr) (b : Bool) {lines : List Str} {m : BPE} (hmade : Made lines m)
    (before : List PTS) (hw : SafeText t w) (hpt : ∀ pt, t.preTokenizer = some pt → SafePre P w pt) (hend : SafeEnd t)
    (hm : t.model = some (.bpe (usedBPE P m before))) :
    ∃ p, (t.preTokenized P w).1 = .ok p ∧ (∀ s ∈ p.splits, s.normalized ≠ []) ∧ ((∀ s ∈ p.splits, Fits m s.normalized) →
      ((∃ e, (t.encode P w b).1 = .ok e) ↔ ∀ s ∈ p.splits, Direct m s.normalized ∨
        ∃ i, i < s.normalized.length ∧ Yields (tokenToId m.vocab) m.pre m.suf m.unkToken m.byteFallback s.normalized i)) := by
  obtain ⟨p, lens, h1, h2, h3⟩ := preTokenized_total P t w hw hpt
  refine ⟨p, h1, fun s hs => (h3 s hs).2, fun hfit => ⟨?_, ?_⟩⟩
  · rintro ⟨e, he⟩ s hs
    obtain ⟨q, x, ⟨p', hp', hq⟩, _, _⟩ := encode_ok he
    rw [h1] at hp'; cases hp'
    rw [hm] at hq
    have hq' := (bpe_tokenize P hmade before p q).1 hq
    obtain ⟨s', _, _, hword⟩ := each_left hq'.2 s hs
    by_cases hd : Direct m s.normalized
    · exact .inl hd
    · refine .inr (Classical.byContradiction fun hy => ?_)
      rw [C23_violated P hmade s.normalized (fun i hi hyi => hy ⟨i, hi, hyi⟩) hd] at hword
      cases hword
  · intro hall
    obtain ⟨l, hl⟩ := each_total (R := fun (s s' : Split) => s'.normalized = s.normalized ∧ s'.offsets = s.offsets ∧
        (m.word P s.normalized).1 = .ok s'.tokens) p.splits (by
      intro s hs
      have : ∃ ts, (m.word P s.normalized).1 = .ok ts := by
        rcases hall s hs with hd | hy
        · rcases word_answer P (made_cache hmade) s.normalized with ⟨i, _, _, h⟩ | ⟨h, _⟩
          · exact ⟨_, h⟩
          · exact absurd hd h
        · exact C15_terminates P hmade s.normalized hy (hfit s hs)
      obtain ⟨ts, hts⟩ := this
      exact ⟨{ s with tokens := ts }, rfl, rfl, hts⟩)
    refine encode_total (q := { p with splits := l }) hend ⟨p, h1, ?_⟩ h2 ?_
    · rw [hm]
      exact (bpe_tokenize P hmade before p _).2 ⟨rfl, hl⟩
    · intro s hs
      obtain ⟨s0, hs0, h⟩ : ∃ s0, s0 ∈ p.splits ∧ s.offsets = s0.offsets := by
        clear h1 h2 h3 hfit hall
        generalize p.splits = l0 at hl
        induction hl with
        | nil => cases hs
        | @cons x y _ _ hab _ ih =>
          rcases List.mem_cons.1 hs with rfl | hs
          · exact ⟨x, by simp, hab.2.1⟩
          · obtain ⟨s0, h1, h2⟩ := ih hs; exact ⟨s0, by simp [h1], h2⟩
      rw [h]; exact (h3 s0 hs0).1

/-- **C73, byte-pair models with an unknown token** in the vocabulary: `encode` returns on every safe text. -/
theorem C73_bpe_unk_partial (P : Platform) (t : Tokenizer) (w : WStr) (b : Bool) {lines : List Str} {m : BPE}
    (hmade : Made lines m) (before : List PTS) (hw : SafeText t w) (hpt : ∀ pt, t.preTokenizer = some pt → SafePre P w pt)
    (hend : SafeEnd t) (hm : t.model = some (.bpe (usedBPE P m before))) (hunk : m.unkToken ≠ [])
    (hin : ∃ i, tokenToId m.vocab m.unkToken = some i)
    (hfit : ∀ p, (t.preTokenized P w).1 = .ok p → ∀ s ∈ p.splits, Fits m s.normalized) : ∃ e, (t.encode P w b).1 = .ok e := by
  obtain ⟨p, h1, h2, h3⟩ := C73_bpe_partial P t w b hmade before hw hpt hend hm
  refine (h3 (hfit p h1)).2 fun s hs => .inr ⟨0, ?_, .inr (.inr ⟨hunk, hin⟩)⟩
  exact List.length_pos_iff.2 (h2 s hs)


/-! ### Cases -/

theorem noAdded_cuttable {w : WStr} (h : Bmp w) : Cuttable (AddedVocab.init []) w :=
  ⟨h, .inl (by simp [AddedVocab.init, mapFind])⟩

-- a BERT-like tokenizer with truncation, template and padding, on a text with an accented and a Greek letter
example : ∃ e, ((fullBert (.wordPiece b!"##" false)).encode ascii w!"playing go ξé" true).1 = .ok e :=
  C73_returns_partial ascii _ _ true
    ⟨rfl, by decide, noAdded_cuttable (by unfold Bmp Scalar; decide), by simp [AddedVocab.init], by simp [AddedVocab.init]⟩
    (by intro pt h; cases h; exact .cuts trivial)
    ⟨by intro x h; cases h; simp [SafeTruncation, cut], by decide, by intro p h; cases h; decide⟩
    (.inr ⟨_, rfl⟩)

/-- A byte-level byte-pair tokenizer: words at spaces, then bytes. -/
def wordsTk (m : BPE) : Tokenizer :=
  { preTokenizer := some (.seq ([.split b!" " .isolated false] ++ [.byteLevel false true])), model := some (.bpe m) }

theorem spaceFind_matches (q : Str) (b : Prop) : Matches spacePlatform q b :=
  ⟨_, rfl, spaceFind_good, fun _ _ m hm => by have := (spaceFind_mem m hm).1; omega⟩

-- a byte-pair tokenizer with an unknown token, after any history
example (fuse fb ig : Bool) (d : Dropout) (before : List PTS) :
    ∃ e, ((wordsTk (usedBPE spacePlatform (subBPE fuse fb ig d) before)).encode spacePlatform w!"abc ax" false).1 = .ok e := by
  refine C73_bpe_unk_partial spacePlatform _ _ false (subBPE_made fuse fb ig d) before
    ⟨by decide, by unfold Scalar; decide⟩ ?_ ⟨by simp [wordsTk], by simp [wordsTk, Specials], by simp [wordsTk]⟩ rfl (by simp [subBPE])
    ⟨0, rfl⟩ ?_
  · intro pt h; cases h
    exact .seq ⟨spaceFind_matches _ _, trivial⟩ (.byteLevel (fun _ => by unfold Ascii; decide) fun _ => spaceFind_matches _ _)
  · intro p hp
    have : (((wordsTk abcBPE).preTokenized spacePlatform w!"abc ax").1.map fun p => p.splits.map fun s => s.normalized.length) = .ok [3, 2, 2] := by
      decide +kernel
    have h2 : ((wordsTk abcBPE).preTokenized spacePlatform w!"abc ax").1 = .ok p := hp
    rw [h2] at this
    simp only [Except.map, Except.ok.injEq] at this
    intro s hs
    have hl : s.normalized.length ∈ [3, 2, 2] := by rw [← this]; exact List.mem_map.2 ⟨s, hs, rfl⟩
    simp only [Fits, subBPE]
    simp at hl
    rcases hl with h | h <;> rw [h] <;> decide

/-- A platform whose patterns match the empty text at the start and at the end. -/
def emptyMatches : Platform := { ascii with regex := fun _ => some fun u => [(0, 0), (u.length, u.length)] }

/-- **C73 is violated** in these ways, each with everything else as it should be: the empty text when there is an added
vocabulary; a Split whose pattern matches the empty text at the end; a misspelt truncation direction; a fixed padding
length below zero; a byte-pair model without unknown token that does not know a byte. -/
theorem C73_violated :
    ((bertLike none none none).encode ascii [] true).1.map (·.ids) = .error (.ub .outOfBounds) ∧
    (({ bertLike none none none with preTokenizer := some (.split b!"$" .isolated false) } : Tokenizer).encode emptyMatches w!"go" true).1.map (·.ids) =
      .error (.ub .outOfBounds) ∧
    ((bertLike (some ⟨getTDir b!"right", .longestFirst, 1, 0⟩) none none).encode ascii w!"go go" true).1.map (·.ids) =
      .error (.ub .outOfBounds) ∧
    ((bertLike none none (some ⟨.right, .fixed, -1, 0, 0, b!"[PAD]", 0⟩)).encode ascii w!"go" true).1.map (·.ids) =
      .error (.throws .lengthError) ∧
    ((wordsTk abcBPE).encode spacePlatform w!"abc xyz" true).1.map (·.ids) = .error (.ub .outOfBounds) := by
  refine ⟨?_, ?_, ?_, ?_, ?_⟩ <;> decide +kernel

end Tok
