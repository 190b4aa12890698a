import Verif.Proofs.Encoding
import Verif.Props.PostProcessor
import Verif.Props.Extract

set_option autoImplicit false

/-!
# Whole encodings (C42 – C44, C46)
-/

namespace Tok
open Spec

/-- **C42.** The seven vectors of every encoding that `encode` returns, and of each of its overflow windows, have the
same length, if every special token of the post-processor lists as many ids as tokens. -/
theorem C42_aligned (P : Platform) (t : Tokenizer) (w : WStr) (b : Bool) (e : Encoding)
    (hS : ∀ s ∈ Specials t, s.ids.length = s.tokens.length) (h : (t.encode P w b).1 = .ok e) :
    Aligned e.toEnc e.ids.length ∧ ∀ x ∈ e.overflowing, Aligned x x.ids.length := by
  obtain ⟨q, text, _, _, h1, h2⟩ := encode_rows hS h
  have hal : ∀ x : Enc, Good (∃ p, t.postProcessor = some p ∧ Trims p) (∀ p, t.postProcessor = some p → SequenceOnce p) text
        (Specials t) t.padding x → Aligned x x.ids.length := by
    intro x ⟨rows, hr, _⟩
    have := hasRows_aligned hr
    rw [this.1]; exact this
  exact ⟨hal _ h1, fun x hx => hal _ (h2 x hx)⟩

/-- A small BERT-like tokenizer: white-space pre-tokens, word pieces, `[CLS] … [SEP]`, truncation to 3 with stride 1. -/
def bertLike (tr : Option Truncation) (pp : Option PostProcessor) (pad : Option Padding) : Tokenizer :=
  { tkOf [(b!"[UNK]", 0), (b!"play", 1), (b!"##ing", 2), (b!"go", 3)] with
    preTokenizer := some .bert, truncation := tr, postProcessor := pp, padding := pad }

/-- Right truncation to `n` entries with stride 1. -/
def cut (n : Int) : Truncation := ⟨.right, .longestFirst, n, 1⟩

/-- Padding on the right to a fixed size. -/
def padTo (n : Int) : Padding := ⟨.right, .fixed, n, 9, 7, b!"[PAD]", 0⟩

/-- A template, truncation and padding together: the hypotheses of C42, C43 and C46 hold and the call returns. -/
example : ∃ e, ((bertLike (some (cut 3)) (some sampleTemplate) (some (padTo 6))).encode ascii w!"playing go" true).1 = .ok e ∧
    (∀ s ∈ Specials (bertLike (some (cut 3)) (some sampleTemplate) (some (padTo 6))), s.ids.length = s.tokens.length) ∧
    (∀ p, (bertLike (some (cut 3)) (some sampleTemplate) (some (padTo 6))).postProcessor = some p → SequenceOnce p) ∧
    e.ids = [101, 1, 2, 3, 102, 9] ∧ e.attentionMask = [1, 1, 1, 1, 1, 0] ∧ e.specialTokensMask = [1, 0, 0, 0, 1, 1] ∧
    e.words = [none, some 0, some 0, some 1, none, some 0] := by
  refine ⟨_, rfl, by decide, ?_, by decide +kernel, by decide +kernel, by decide +kernel, by decide +kernel⟩
  intro p hp
  cases hp
  show _ ≤ 1
  decide

/-- **C42 needs as many tokens as ids**: a template's special token with two ids and one token gives an encoding with
three ids and two tokens. -/
theorem C42_violated :
    ∃ e, ((bertLike none (some (.template [⟨b!"SpecialToken", b!"S", 0⟩, ⟨b!"Sequence", b!"A", 0⟩] []
        [⟨b!"S", [7, 8], [b!"S"]⟩])) none).encode ascii w!"go" true).1 = .ok e ∧
      e.ids = [7, 8, 3] ∧ e.tokens = [b!"S", b!"go"] ∧ e.words = [none, none, some 0] :=
  ⟨_, rfl, by decide +kernel, by decide +kernel, by decide +kernel⟩

/-- **C43.** Every position of an encoding that `encode` returns, or of one of its overflow windows, is either a token
of the text (attention 1, special 0), or a special token of the template (attention 1, special 1, no word), or padding
(attention 0, special 1). -/
theorem C43_rows (P : Platform) (t : Tokenizer) (w : WStr) (b : Bool) (e : Encoding)
    (hS : ∀ s ∈ Specials t, s.ids.length = s.tokens.length) (h : (t.encode P w b).1 = .ok e) :
    ∃ q text, TokenizedInto P t w q ∧ TextRows q.normalized 0 q.splits text ∧
      ∀ x, x = e.toEnc ∨ x ∈ e.overflowing → ∃ rows, HasRows x rows ∧
        ∀ r ∈ rows, RowKind (∃ p, t.postProcessor = some p ∧ Trims p) text (Specials t) t.padding r := by
  obtain ⟨q, text, hq, ht, h1, h2⟩ := encode_rows hS h
  refine ⟨q, text, hq, ht, ?_⟩
  rintro x (rfl | hx)
  · obtain ⟨rows, hr, hk, _⟩ := h1; exact ⟨rows, hr, hk⟩
  · obtain ⟨rows, hr, hk, _⟩ := h2 x hx; exact ⟨rows, hr, hk⟩

/-- **C43, read off the masks.** Both masks hold only 0 and 1; without padding every attention entry is 1; where the
attention is 0 the pad id and token stand; where the special mask is 0 there is a token of the text with a word. -/
theorem C43_masks (P : Platform) (t : Tokenizer) (w : WStr) (b : Bool) (e : Encoding)
    (hS : ∀ s ∈ Specials t, s.ids.length = s.tokens.length) (h : (t.encode P w b).1 = .ok e) :
    (∀ a ∈ e.attentionMask, a = 0 ∨ a = 1) ∧ (∀ s ∈ e.specialTokensMask, s = 0 ∨ s = 1) ∧
    (t.padding = none → ∀ a ∈ e.attentionMask, a = 1) ∧
    (t.padding = none → t.postProcessor = none → ∀ s ∈ e.specialTokensMask, s = 0) ∧
    (∀ i : Nat, e.attentionMask[i]? = some 0 → ∃ p, t.padding = some p ∧ e.ids[i]? = some p.padId ∧
      e.tokens[i]? = some p.padToken ∧ e.specialTokensMask[i]? = some 1) ∧
    (∀ i : Nat, e.specialTokensMask[i]? = some 0 → e.attentionMask[i]? = some 1 ∧ ∃ k, e.words[i]? = some (some k)) ∧
    (∀ i : Nat, e.specialTokensMask[i]? = some 1 → e.attentionMask[i]? = some 1 →
      ∃ s ∈ Specials t, ∃ j : Nat, s.ids[j]? = e.ids[i]? ∧ s.tokens[j]? = e.tokens[i]? ∧ e.words[i]? = some none) := by
  obtain ⟨q, text, hq, ht, h1, _⟩ := encode_rows hS h
  obtain ⟨rows, ⟨hids, hty, htok, hw, ho, hsp, hat⟩, hk, _⟩ := h1
  have htext := textRows_content ht
  have hword : ∀ {k : Nat} {l : List Split} {rows : List Row}, TextRows q.normalized k l rows → ∀ r ∈ rows, ∃ k, r.word = some k := by
    intro k l rows h
    induction h with
    | nil => simp
    | cons _ _ _ ih =>
      intro r hr; simp only [List.mem_append, List.mem_map] at hr
      rcases hr with ⟨tk, _, rfl⟩ | hr
      · exact ⟨_, rfl⟩
      · exact ih r hr
  rw [hids, htok, hw, hsp, hat]
  have key : ∀ (i : Nat) (r : Row), rows[i]? = some r → r ∈ rows := fun i r hr => List.mem_of_getElem? hr
  refine ⟨?_, ?_, ?_, ?_, ?_, ?_, ?_⟩
  · intro a ha; obtain ⟨r, hr, rfl⟩ := List.mem_map.1 ha
    cases hk r hr <;> simp [*]
  · intro a ha; obtain ⟨r, hr, rfl⟩ := List.mem_map.1 ha
    cases hk r hr <;> simp [*]
  · intro hp a ha; obtain ⟨r, hr, rfl⟩ := List.mem_map.1 ha
    cases hk r hr with
    | content => assumption
    | special => assumption
    | padding p h => rw [hp] at h; cases h
  · intro hp hpp a ha; obtain ⟨r, hr, rfl⟩ := List.mem_map.1 ha
    cases hk r hr with
    | content => assumption
    | special s j hs => simp [Specials, hpp] at hs
    | padding p h => rw [hp] at h; cases h
  · intro i hi
    rw [List.getElem?_map, Option.map_eq_some_iff] at hi
    obtain ⟨r, hr, h0⟩ := hi
    cases hk r (key i r hr) with
    | content _ _ _ _ h => rw [h0] at h; cases h
    | special _ _ _ _ _ _ _ _ h => rw [h0] at h; cases h
    | padding p hp h1 h2 _ _ h3 _ =>
      exact ⟨p, hp, by simp [hr, h1], by simp [hr, h2], by simp [hr, h3]⟩
  · intro i hi
    rw [List.getElem?_map, Option.map_eq_some_iff] at hi
    obtain ⟨r, hr, h0⟩ := hi
    cases hk r (key i r hr) with
    | content r0 hm ho _ h =>
      obtain ⟨k, hk⟩ := hword ht r0 hm
      exact ⟨by simp [hr, h], k, by simp [hr, ho.2.2.1, hk]⟩
    | special _ _ _ _ _ _ _ h => rw [h0] at h; cases h
    | padding _ _ _ _ _ _ h => rw [h0] at h; cases h
  · intro i hi hi2
    rw [List.getElem?_map, Option.map_eq_some_iff] at hi hi2
    obtain ⟨r, hr, h0⟩ := hi
    obtain ⟨r', hr', h0'⟩ := hi2
    rw [hr] at hr'; cases hr'
    cases hk r (key i r hr) with
    | content _ _ _ h => rw [h0] at h; cases h
    | special s j hs h1 h2 h3 => exact ⟨s, hs, j, by simp [hr, h1], by simp [hr, h2], by simp [hr, h3]⟩
    | padding _ _ _ _ _ _ _ h => rw [h0'] at h; cases h

/-! ### Words -/

/-- The rows of the text, by pre-token: the row of a token carries the number of its pre-token. -/
theorem textRows_words {ns : NS} {k : Nat} {l : List Split} {rows : List Row} (h : TextRows ns k l rows) :
    (∀ r ∈ rows, ∃ (i : Nat) (s : Split), l[i]? = some s ∧ r.word = some (((k + i : Nat)) : Int) ∧
      ∃ t ∈ s.tokens, r.id = t.id ∧ r.token = t.value) ∧
    rows.Pairwise (fun a b => ∃ i j : Int, a.word = some i ∧ b.word = some j ∧ i ≤ j) := by
  induction h with
  | nil => simp
  | @cons k s l rows g o h1 h2 h3 ih =>
    constructor
    · intro r hr
      simp only [List.mem_append, List.mem_map] at hr
      rcases hr with ⟨t, ht, rfl⟩ | hr
      · exact ⟨0, s, rfl, rfl, t, ht, rfl, rfl⟩
      · obtain ⟨i, s', hs, hw, ht⟩ := ih.1 r hr
        exact ⟨i + 1, s', by simpa using hs, by rw [hw]; congr 1; omega, ht⟩
    · rw [List.pairwise_append]
      refine ⟨?_, ih.2, ?_⟩
      · rw [List.pairwise_map]
        exact List.pairwise_of_forall (fun {x y} => ⟨k, k, rfl, rfl, Int.le_refl _⟩)
      · intro a ha b hb
        obtain ⟨t, _, rfl⟩ := List.mem_map.1 ha
        obtain ⟨i, s', _, hw, _⟩ := ih.1 b hb
        exact ⟨k, _, rfl, hw, by omega⟩

theorem each_pairwise {α β : Type} {R : α → β → Prop} {p : α → α → Prop} {p' : β → β → Prop}
    (hp : ∀ a b a' b', R a a' → R b b' → p a b → p' a' b') {l : List α} {m : List β} (h : Each R l m)
    (hl : l.Pairwise p) : m.Pairwise p' := by
  induction h with
  | nil => exact .nil
  | cons hab h ih =>
    rw [List.pairwise_cons] at hl ⊢
    refine ⟨fun b' hb' => ?_, ih hl.2⟩
    obtain ⟨b, hb, hr⟩ := each_mem_right h b' hb'
    exact hp _ _ _ _ hab hr (hl.1 b hb)

/-- **C46.** If no template repeats the sequence: the tokens of the text in the encoding are, in order, the tokens of a
contiguous part of the tokenized text, each with the number of its pre-token as word index; so word indices do not
decrease, and equal indices mean the same pre-token. -/
theorem C46_words (P : Platform) (t : Tokenizer) (w : WStr) (b : Bool) (e : Encoding)
    (hS : ∀ s ∈ Specials t, s.ids.length = s.tokens.length) (hO : ∀ p, t.postProcessor = some p → SequenceOnce p)
    (h : (t.encode P w b).1 = .ok e) :
    ∃ q text, TokenizedInto P t w q ∧ TextRows q.normalized 0 q.splits text ∧
      ∀ x, x = e.toEnc ∨ x ∈ e.overflowing → ∃ rows, HasRows x rows ∧
        HoldsPart (∃ p, t.postProcessor = some p ∧ Trims p) text rows ∧
        (contentRows rows).Pairwise (fun a b => ∃ i j : Int, a.word = some i ∧ b.word = some j ∧ i ≤ j) ∧
        ∀ r ∈ contentRows rows, ∃ (i : Nat) (s : Split), q.splits[i]? = some s ∧ r.word = some (i : Int) ∧
          ∃ tk ∈ s.tokens, r.id = tk.id ∧ r.token = tk.value := by
  obtain ⟨q, text, hq, ht, h1, h2⟩ := encode_rows hS h
  refine ⟨q, text, hq, ht, ?_⟩
  have key : ∀ x : Enc, Good (∃ p, t.postProcessor = some p ∧ Trims p) (∀ p, t.postProcessor = some p → SequenceOnce p) text
        (Specials t) t.padding x → ∃ rows, HasRows x rows ∧
        HoldsPart (∃ p, t.postProcessor = some p ∧ Trims p) text rows ∧
        (contentRows rows).Pairwise (fun a b => ∃ i j : Int, a.word = some i ∧ b.word = some j ∧ i ≤ j) ∧
        ∀ r ∈ contentRows rows, ∃ (i : Nat) (s : Split), q.splits[i]? = some s ∧ r.word = some (i : Int) ∧
          ∃ tk ∈ s.tokens, r.id = tk.id ∧ r.token = tk.value := by
    intro x ⟨rows, hr, _, hh⟩
    obtain ⟨part, hp, hE⟩ := hh hO
    obtain ⟨hw1, hw2⟩ := textRows_words ht
    refine ⟨rows, hr, ⟨part, hp, hE⟩, ?_, ?_⟩
    · refine each_pairwise ?_ hE (hw2.sublist hp.sublist)
      rintro a b a' b' ha hb ⟨i, j, hi, hj, hij⟩
      exact ⟨i, j, by rw [ha.2.2.1, hi], by rw [hb.2.2.1, hj], hij⟩
    · intro r hr
      obtain ⟨r0, h0, hro⟩ := each_mem_right hE r hr
      obtain ⟨i, s, hs, hwd, tk, htk, h3, h4⟩ := hw1 r0 (hp.subset h0)
      refine ⟨i, s, hs, ?_, tk, htk, ?_, ?_⟩
      · rw [hro.2.2.1, hwd]; simp
      · rw [hro.1, h3]
      · rw [hro.2.1, h4]
  rintro x (rfl | hx)
  · exact key _ h1
  · exact key _ (h2 x hx)

/-- **C46 needs the sequence once**: the template `$A $A` repeats the words. -/
theorem C46_violated :
    ∃ e, ((bertLike none (some (.template [⟨b!"Sequence", b!"A", 0⟩, ⟨b!"Sequence", b!"A", 1⟩] [] [])) none).encode
        ascii w!"go playing" true).1 = .ok e ∧ e.words = [some 0, some 1, some 1, some 0, some 1, some 1] :=
  ⟨_, rfl, by decide +kernel⟩

/-! ### Length -/

theorem joinAll_ids (l : List Enc) : (joinAll l).ids.length = (l.map fun e => e.ids.length).sum := by
  induction l with
  | nil => rfl
  | cons e r ih => simp [joinAll, joined, ih]

theorem block_ids (specials : List SpecialToken) (add : Bool) (e : Enc) (p : Piece) :
    (block specials add e p).ids.length = pieceLength specials add e.ids.length p := by
  unfold block pieceLength
  split
  · rfl
  · split
    · cases specials.find? fun t => t.id == p.id <;> rfl
    · rfl

theorem postProcessor_length (add : Bool) (p : PostProcessor) : ∀ {e r : Encoding}, PostProcessor.run add p e = .ok r →
    r.ids.length = lengthAfter add p e.ids.length := by
  refine PostProcessor.rec
    (motive_1 := fun p => ∀ {e r : Encoding}, PostProcessor.run add p e = .ok r → r.ids.length = lengthAfter add p e.ids.length)
    (motive_2 := fun l => ∀ {e r : Encoding}, PostProcessor.runList add l e = .ok r →
      r.ids.length = lengthAfterList add l e.ids.length) ?_ ?_ ?_ ?_ ?_ p
  · intro single pair specials e r h
    obtain ⟨r', hr, hd, _⟩ := C39_any_template single pair specials add e
    rw [h] at hr; cases hr
    have : r.ids = (joinAll (single.map (block specials add e.toEnc))).ids := by
      have := congrArg Enc.ids hd; exact this
    rw [this, joinAll_ids, List.map_map, lengthAfter]
    congr 1
    apply List.map_congr_left
    intro p _; exact block_ids _ _ _ _
  · intro a t e r h
    simp only [PostProcessor.run, byteLevelProcess] at h
    rw [lengthAfter]
    split at h
    · obtain ⟨m, hm, h⟩ := res_bind_ok.1 h
      obtain ⟨o, _, h⟩ := res_bind_ok.1 h
      cases h
      unfold processOffsets at hm
      obtain ⟨o, _, hm⟩ := res_bind_ok.1 hm
      cases hm; rfl
    · cases h; rfl
  · intro l ih e r h
    rw [lengthAfter]; exact ih h
  · intro e r h
    simp only [PostProcessor.runList] at h; cases h; rfl
  · intro p l ih1 ih2 e r h
    simp only [PostProcessor.runList] at h
    obtain ⟨e1, h1, h2⟩ := res_bind_ok.1 h
    rw [lengthAfterList, ← ih1 h1]; exact ih2 h2

/-- **C44, the exact length.**  With truncation to a positive `max_length` by a strategy that truncates, and before
padding, `encode` returns what post-processing makes of at most `max_length` entries. -/
theorem C44_length (P : Platform) (t : Tokenizer) (w : WStr) (b : Bool) (e : Encoding) (tr : Truncation)
    (htr : t.truncation = some tr) (hm : 0 < tr.maxLength) (hst : tr.strategy = .longestFirst ∨ tr.strategy = .onlyFirst)
    (hpad : t.padding = none) (h : (t.encode P w b).1 = .ok e) :
    ∃ k : Nat, (k : Int) ≤ tr.maxLength ∧
      e.ids.length = match t.postProcessor with
        | none => k
        | some p => lengthAfter b p k := by
  obtain ⟨q, x, _, _, hpost⟩ := encode_ok h
  obtain ⟨e1, e2, h1, h2, h3⟩ := postProcess_ok hpost
  rw [htr] at h1; rw [hpad] at h3
  cases h3
  refine ⟨e1.ids.length, (C36_max_length_partial tr _ e1 hm hst h1).1, ?_⟩
  cases hp : t.postProcessor with
  | none => rw [hp] at h2; cases h2; rfl
  | some p => rw [hp] at h2; exact postProcessor_length b p h2

theorem noTemplate_length (add : Bool) (p : PostProcessor) (h : NoTemplate p) : ∀ n, lengthAfter add p n = n := by
  refine PostProcessor.rec
    (motive_1 := fun p => NoTemplate p → ∀ n, lengthAfter add p n = n)
    (motive_2 := fun l => (∀ p ∈ l, NoTemplate p) → ∀ n, lengthAfterList add l n = n) ?_ ?_ ?_ ?_ ?_ p h
  · intro _ _ _ h; cases h
  · intro _ _ _ _; rfl
  · intro l ih h n; cases h with | seq h => rw [lengthAfter]; exact ih h n
  · intro _ _; rfl
  · intro p l i1 i2 h n
    rw [lengthAfterList, i1 (h p (by simp)), i2 (fun q hq => h q (by simp [hq]))]

/-- **C44** (partial: positive `max_length`, a strategy that truncates, a post-processor without a template). -/
theorem C44_max_length_partial (P : Platform) (t : Tokenizer) (w : WStr) (b : Bool) (e : Encoding) (tr : Truncation)
    (htr : t.truncation = some tr) (hm : 0 < tr.maxLength) (hst : tr.strategy = .longestFirst ∨ tr.strategy = .onlyFirst)
    (hpad : t.padding = none) (hT : ∀ p, t.postProcessor = some p → NoTemplate p) (h : (t.encode P w b).1 = .ok e) :
    (e.ids.length : Int) ≤ tr.maxLength := by
  obtain ⟨k, hk, hl⟩ := C44_length P t w b e tr htr hm hst hpad h
  cases hp : t.postProcessor with
  | none => rw [hp] at hl; simp only at hl; omega
  | some p =>
    rw [hp] at hl
    simp only [noTemplate_length b p (hT p hp)] at hl
    omega

/-- A case of C44: four tokens, `max_length` 2, trimming of offsets. -/
example : ((bertLike (some (cut 2)) (some (.seq [.byteLevel true true])) none).encode ascii w!"playing go go" true).1.map
      (·.ids) = .ok [1, 2] ∧ (∀ p, (bertLike (some (cut 2)) (some (.seq [.byteLevel true true])) none).postProcessor = some p → NoTemplate p) := by
  refine ⟨by decide +kernel, ?_⟩
  intro p hp
  cases hp
  exact .seq (by intro p hp; simp at hp; subst hp; exact .byteLevel _ _)

/-- **C44 refuted**: truncation leaves no room for the special tokens of the template, which are added afterwards:
`max_length` 2 gives 4 ids. -/
theorem C44_violated :
    ((bertLike (some (cut 2)) (some sampleTemplate) none).encode ascii w!"playing go go" true).1.map (·.ids) =
      .ok [101, 1, 2, 102] := by decide +kernel

/-- **C44 refuted for every BERT-style template** (`[CLS] $A [SEP]`, one id each): as soon as truncation leaves
`max_length` entries, the result has two more. -/
theorem C44_violated_all (P : Platform) (t : Tokenizer) (w : WStr) (e : Encoding) (tr : Truncation)
    (htr : t.truncation = some tr) (hm : 0 < tr.maxLength) (hst : tr.strategy = .longestFirst ∨ tr.strategy = .onlyFirst)
    (hpad : t.padding = none) (hpp : t.postProcessor = some sampleTemplate) (h : (t.encode P w true).1 = .ok e) :
    ∃ k : Nat, (k : Int) ≤ tr.maxLength ∧ e.ids.length = k + 2 := by
  obtain ⟨k, hk, hl⟩ := C44_length P t w true e tr htr hm hst hpad h
  refine ⟨k, hk, ?_⟩
  rw [hl, hpp]
  show (List.map _ _).sum = _
  simp [pieceLength, show (b!"SpecialToken" : Str) ≠ b!"Sequence" by decide]
  omega

end Tok
