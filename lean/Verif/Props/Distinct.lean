import Verif.Props.Again
import Verif.Props.Roundtrip

set_option autoImplicit false

/-!
C137: different texts get different ids.
-/

namespace Tok
open Spec

/-- Words without spaces can be read off the words with single spaces between them. -/
theorem di_spaced {ws ws' : List WStr} (h : ∀ x ∈ ws, x ≠ [] ∧ 0x20 ∉ x) (h' : ∀ x ∈ ws', x ≠ [] ∧ 0x20 ∉ x) (e : spaced ws = spaced ws') : ws = ws' := by
  have key : ∀ {ws : List WStr}, (∀ x ∈ ws, x ≠ [] ∧ 0x20 ∉ x) → (bertPieces (· == 0x20) (fun _ => false) (spaced ws)).map (·.2) = ws := by
    intro ws h
    have hb : ∀ x ∈ ws, x ≠ [] ∧ ∀ c ∈ x, (c == 0x20) = false := fun x hx =>
      ⟨(h x hx).1, fun c hc => by
        cases hcb : c == 0x20 with
        | false => rfl
        | true => exact absurd (eq_of_beq hcb ▸ hc) (h x hx).2⟩
    rw [bk_pieces (ag_separated (by decide) hb).1]
    clear hb
    induction ws with
    | nil => rfl
    | cons x ws ih =>
      rw [List.flatMap_cons, ag_punct (h x (by simp)).1 (.inl fun _ _ => rfl), ih fun y hy => h y (by simp [hy])]
      rfl
  rw [← key h, ← key h', e]

/-- **C137** Different words get different ids: for a word-piece tokenizer, if two texts get the same ids then they have the same
words.  (The words are covered by the vocabulary, contain no space, and none but the first begins with the continuation prefix.) -/
theorem C137_words (P : Platform) (hg : GoodRegexes P) {t : Tokenizer} {m : WordPiece} {w w' : WStr} {ws ws' : List WStr} {b : Bool} {e e' : Encoding}
    (ht : WordTokenizer t m b) (hd : ∀ a, t.added = some a → PlainTables a) (h : (t.encode P w b).1 = .ok e) (h' : (t.encode P w' b).1 = .ok e')
    (hfit : Spec.Fit P t w) (hfit' : Spec.Fit P t w') (hw : AnyWords P t w ws) (hw' : AnyWords P t w' ws')
    (hok : ∀ x, x ∈ ws ∨ x ∈ ws' → x ≠ [] ∧ 0x20 ∉ x ∧ Segmented m x ∧ NoSpecialPart t m.pre x)
    (hpre : ∀ x s, x ∈ ws.drop 1 ∨ x ∈ ws'.drop 1 → Utf8Text x s → ¬ m.pre <+: s) (hids : e.ids = e'.ids) : ws = ws' := by
  obtain ⟨s, h1, h2⟩ := C126_words P hg ht hd h hfit hw (fun x hx => (hok x (.inl hx)).1) (fun x hx => (hok x (.inl hx)).2.2.1)
    (fun x hx => (hok x (.inl hx)).2.2.2) fun x s hx => hpre x s (.inl hx)
  obtain ⟨s', h1', h2'⟩ := C126_words P hg ht hd h' hfit' hw' (fun x hx => (hok x (.inr hx)).1) (fun x hx => (hok x (.inr hx)).2.2.1)
    (fun x hx => (hok x (.inr hx)).2.2.2) fun x s hx => hpre x s (.inr hx)
  rw [hids, h1'] at h1
  cases h1
  exact di_spaced (fun x hx => ⟨(hok x (.inl hx)).1, (hok x (.inl hx)).2.1⟩) (fun x hx => ⟨(hok x (.inr hx)).1, (hok x (.inr hx)).2.1⟩) (nt_utf8 h2 h2')

/-- **C137** So the ids determine the tokens, word indices, type ids and masks too. -/
theorem C137_alike (P : Platform) (hg : GoodRegexes P) {t : Tokenizer} {m : WordPiece} {w w' : WStr} {ws ws' : List WStr} {b : Bool} {e e' : Encoding}
    (ht : WordTokenizer t m b) (hd : ∀ a, t.added = some a → PlainTables a) (h : (t.encode P w b).1 = .ok e) (h' : (t.encode P w' b).1 = .ok e')
    (hfit : Spec.Fit P t w) (hfit' : Spec.Fit P t w') (hw : AnyWords P t w ws) (hw' : AnyWords P t w' ws')
    (hok : ∀ x, x ∈ ws ∨ x ∈ ws' → x ≠ [] ∧ 0x20 ∉ x ∧ Segmented m x ∧ NoSpecialPart t m.pre x)
    (hpre : ∀ x s, x ∈ ws.drop 1 ∨ x ∈ ws'.drop 1 → Utf8Text x s → ¬ m.pre <+: s) : e.ids = e'.ids ↔ AlikeEncodings e e' := by
  refine ⟨fun hids => ?_, fun k => k.1.1⟩
  obtain rfl := C137_words P hg ht hd h h' hfit hfit' hw hw' hok hpre hids
  refine al_words P hg (m := .wordPiece m) (lines := []) ht.model rfl hd (fun us us' k k' => ?_) h h'
  rw [C108_words_unique P k hw, C108_words_unique P k' hw']

/-- **C137** for byte-level byte-pair tokenizers: different texts get different ids. -/
theorem C137_texts (P : Platform) (t : Tokenizer) {lines : List Str} {m : BPE} (hm : Made lines m) (before : List PTS)
    (w w' : WStr) (hmod : t.model = some (.bpe (usedBPE P m before))) (h : ByteRoundtrip P t m w) (h' : ByteRoundtrip P t m w') (hpad : t.padding = none)
    (hlost : ∀ b ∈ utf8 w ++ utf8 w', ¬ LostByte b)
    (hr : ∀ x p, x = w ∨ x = w' → (t.preTokenized P x).1 = .ok p → ∀ s ∈ p.splits, Fits m s.normalized ∧ Readable m s.normalized)
    {e e' : Encoding} (he : (t.encode P w false).1 = .ok e) (he' : (t.encode P w' false).1 = .ok e') (hids : e.ids = e'.ids) : w = w' := by
  obtain ⟨e1, s, k1, k2, k3⟩ := C78_roundtrip_partial P t hm before w hmod h hpad (fun b hb => hlost b (by simp [hb])) fun p => hr w p (.inl rfl)
  obtain ⟨e2, s', k1', k2', k3'⟩ := C78_roundtrip_partial P t hm before w' hmod h' hpad (fun b hb => hlost b (by simp [hb])) fun p => hr w' p (.inr rfl)
  rw [he] at k1; cases k1
  rw [he'] at k1'; cases k1'
  rw [hids, k2'] at k2
  cases k2
  obtain ⟨a1, a2⟩ := utf8Text_iff.1 k3
  obtain ⟨b1, b2⟩ := utf8Text_iff.1 k3'
  exact utf8_injective a1 b1 (a2.symm.trans b2)

/-- **C137** for BERT pre-tokenization and texts in which no added token is recognized: if two texts get the same ids, their normalized
forms have the same words, with punctuation marks as words of their own. -/
theorem C137_bert (P : Platform) (hg : GoodRegexes P) (hs : P.reSpace 0x20 = true) {t : Tokenizer} {m : WordPiece} {w w' n n' : WStr} {b : Bool} {e e' : Encoding}
    (ht : WordTokenizer t m b) (hpt : t.preTokenizer = some .bert) (hd : ∀ a, t.added = some a → PlainTables a)
    (h : (t.encode P w b).1 = .ok e) (h' : (t.encode P w' b).1 = .ok e') (hfit : Spec.Fit P t w) (hfit' : Spec.Fit P t w')
    (hn : PlainAs P t w n) (hn' : PlainAs P t w' n')
    (hok : ∀ x, x ∈ (bertPieces P.reSpace P.rePunct n).map (·.2) ∨ x ∈ (bertPieces P.reSpace P.rePunct n').map (·.2) →
      Segmented m x ∧ NoSpecialPart t m.pre x ∧ ∀ s, Utf8Text x s → ¬ m.pre <+: s) (hids : e.ids = e'.ids) :
    (bertPieces P.reSpace P.rePunct n).map (·.2) = (bertPieces P.reSpace P.rePunct n').map (·.2) := by
  have ne : ∀ {w : WStr} {e : Encoding}, (t.encode P w b).1 = .ok e → t.added ≠ none → w ≠ [] := by
    rintro w e h ha rfl
    cases hq : t.added with
    | none => exact ha hq
    | some a =>
      obtain ⟨e1, k, -⟩ := C53_violated P t b a hq
      rw [k] at h
      cases h
  obtain ⟨q, y, ⟨p, hp, hq⟩, -, -⟩ := encode_ok h
  obtain ⟨q', y', ⟨p', hp', hq'⟩, -, -⟩ := encode_ok h'
  obtain ⟨ws, hw, -⟩ := at_words P hg hd hp
  obtain ⟨ws', hw', -⟩ := at_words P hg hd hp'
  have e1 := ag_words hpt hn (ne h) hw
  have e2 := ag_words hpt hn' (ne h') hw'
  subst e1; subst e2
  refine C137_words P hg ht hd h h' hfit hfit' hw hw' (fun x hx => ?_) (fun x s hx hxs => ?_) hids
  · have hx' : x ≠ [] ∧ ∀ c ∈ x, P.reSpace c = false := by
      rcases hx with hx | hx
      · exact ⟨(ag_piece hx).1, (ag_piece hx).2.1⟩
      · exact ⟨(ag_piece hx).1, (ag_piece hx).2.1⟩
    refine ⟨hx'.1, fun hc => ?_, (hok x hx).1, (hok x hx).2.1⟩
    have := hx'.2 _ hc
    rw [hs] at this
    cases this
  · exact (hok x (hx.imp List.mem_of_mem_drop List.mem_of_mem_drop)).2.2 s hxs

/-! ### The hypotheses are met -/

theorem di_word {x : WStr} (hx : x ∈ [w!"go", w!",", w!"playing"]) :
    Segmented wordsWP x ∧ NoSpecialPart againTk wordsWP.pre x ∧ ∀ s, Utf8Text x s → ¬ wordsWP.pre <+: s := by
  have all : ∀ x ∈ [w!"go", w!",", w!"playing"], (∀ c ∈ x, c < 0x80 ∧ c ≠ 0x5B) ∧ (units x : Int) ≤ wordsWP.maxChars ∧
      (wordsWP.word x).head?.map (·.value) ≠ some b!"[UNK]" ∧ ¬ wordsWP.pre <+: x := by decide +kernel
  obtain ⟨a1, a2, a3, a4⟩ := all x hx
  refine ⟨⟨.inl fun c hc => by have := (a1 c hc).1; omega, a2, fun hst => ?_⟩, fun v s _ hin hs => ?_, fun s hs => ?_⟩
  · have ht : Utf8Text x x := po_utf8 fun c hc => (a1 c hc).1
    rcases C12_C13_answer wordsWP x x ht (.inl fun c hc => by have := (a1 c hc).1; omega) with ⟨h, _⟩ | ⟨_, _, h⟩ | ⟨_, h⟩
    · omega
    · rw [h] at a3; exact a3 rfl
    · exact C13_greedy_not_stuck h hst
  · have e := utf8Text_ascii hs fun c hc => (a1 c (hin.subset hc)).1
    have no : ∀ x : Str, (0x5B : Nat) ∉ x → againTk.isSpecial x = false := by
      intro x hx
      have : againTk.isSpecial x = wordsAdded.specialSet.contains x := rfl
      rw [this, rt_wordsAdded.2]
      cases hcx : [b!"[CLS]", b!"[SEP]", b!"[PAD]"].contains x with
      | false => rfl
      | true =>
        exfalso
        rw [List.contains_iff_mem] at hcx
        simp only [List.mem_cons, List.not_mem_nil, or_false] at hcx
        rcases hcx with rfl | rfl | rfl <;> exact hx (by decide)
    rw [e]
    refine ⟨no _ fun h => (a1 _ (hin.subset h)).2 rfl, no _ fun h => ?_⟩
    rcases List.mem_append.1 h with h | h
    · revert h; decide
    · exact (a1 _ (hin.subset h)).2 rfl
  · rw [utf8Text_ascii hs fun c hc => (a1 c hc).1]
    exact a4

theorem di_fit {w : WStr} {k : Nat} (hk : k ≤ 10)
    (e : (againTk.preTokenized spacePlatform w).1.map (fun p => (textIds (wordsWP.tokenize p)).length) = .ok k) : Spec.Fit spacePlatform againTk w := by
  intro x hx; cases hx
  refine ⟨by decide, fun q hq => ?_⟩
  obtain ⟨p, hp, hq⟩ := hq
  rw [hp] at e
  simp only [Except.map, Except.ok.injEq] at e
  have : q = wordsWP.tokenize p := by cases hq; rfl
  rw [this, e]
  show (k : Int) ≤ 10
  omega

/-- What C137 assumes holds for two texts that differ in case, white space and a comma: they have different words, so they get
different ids. -/
example {e e' : Encoding} (h : (againTk.encode spacePlatform w!"GO,  Playing go" true).1 = .ok e)
    (h' : (againTk.encode spacePlatform w!"go playing GO" true).1 = .ok e') : e.ids ≠ e'.ids := by
  intro hids
  have hd : ∀ a, againTk.added = some a → PlainTables a := fun a h => by cases h; exact ag_plainTables
  have h1 : PlainAs spacePlatform againTk w!"GO,  Playing go" w!"go,  playing go" :=
    ag_plainAs (by decide +kernel) (by decide +kernel) (by decide) (by unfold Scalars isScalar; decide)
  have h2 : PlainAs spacePlatform againTk w!"go playing GO" w!"go playing go" :=
    ag_plainAs (by decide +kernel) (by decide +kernel) (by decide) (by unfold Scalars isScalar; decide)
  have e1 : (bertPieces spacePlatform.reSpace spacePlatform.rePunct w!"go,  playing go").map (·.2) = [w!"go", w!",", w!"playing", w!"go"] := by decide
  have e2 : (bertPieces spacePlatform.reSpace spacePlatform.rePunct w!"go playing go").map (·.2) = [w!"go", w!"playing", w!"go"] := by decide
  have := C137_bert spacePlatform pl_space_good (by decide) (m := wordsWP) ag_wordTokenizer rfl hd h h'
    (di_fit (k := 5) (by decide) (by decide +kernel)) (di_fit (k := 4) (by decide) (by decide +kernel)) h1 h2 (by
      rw [e1, e2]
      intro x hx
      refine di_word ?_
      simp only [List.mem_cons, List.not_mem_nil, or_false] at hx ⊢
      rcases hx with (h | h | h | h) | (h | h | h) <;> simp [h]) hids
  rw [e1, e2] at this
  exact absurd this (by decide)

/-- … and both have an encoding. -/
example : (againTk.encode spacePlatform w!"GO,  Playing go" true).1.map (·.ids) = .ok [101, 3, 4, 1, 2, 3, 102, 9, 9, 9] ∧
    (againTk.encode spacePlatform w!"go playing GO" true).1.map (·.ids) = .ok [101, 3, 1, 2, 3, 102, 9, 9, 9, 9] := by
  refine ⟨?_, ?_⟩ <;> decide +kernel

/-- **C137 is violated** by words the vocabulary does not cover: `home` and `work` get the same ids. -/
theorem C137_violated :
    (againTk.encode spacePlatform w!"go home" true).1.map (·.ids) = .ok [101, 3, 0, 102, 9, 9, 9, 9, 9, 9] ∧
    (againTk.encode spacePlatform w!"go work" true).1.map (·.ids) = .ok [101, 3, 0, 102, 9, 9, 9, 9, 9, 9] := by
  refine ⟨?_, ?_⟩ <;> decide +kernel

/-- … and by a word that begins with the continuation prefix: `play ##ing` and `playing` are different words without BERT
pre-tokenization, but get the same ids. -/
theorem C137_violated_prefix :
    (({ againTk with preTokenizer := some (.split b!" " .removed false) } : Tokenizer).encode spacePlatform w!"play ##ing" true).1.map (·.ids) =
      .ok [101, 1, 2, 102, 9, 9, 9, 9, 9, 9] ∧
    (({ againTk with preTokenizer := some (.split b!" " .removed false) } : Tokenizer).encode spacePlatform w!"playing" true).1.map (·.ids) =
      .ok [101, 1, 2, 102, 9, 9, 9, 9, 9, 9] := by
  refine ⟨?_, ?_⟩ <;> decide +kernel

end Tok
