import Verif.Props.BPE

set_option autoImplicit false

/-!
C93: when byte-pair encoding answers, in every case.
-/

namespace Tok
open Spec

/-- The model can answer the pre-token `s`: `ignore_merges` finds it, or one of its bytes has an entry, falls back or becomes the
unknown token. -/
def Answerable (m : BPE) (s : Str) : Prop :=
  Direct m s ∨ ∃ i, i < s.length ∧ Yields (tokenToId m.vocab) m.pre m.suf m.unkToken m.byteFallback s i

theorem ba_word (P : Platform) {lines : List Str} {m : BPE} (hm : Made lines m) (s : Str) (hfit : Fits m s) :
    (Answerable m s → ∃ ts, ts ≠ [] ∧ (m.word P s).1 = .ok ts) ∧ (¬ Answerable m s → (m.word P s).1 = .error (.ub .outOfBounds)) := by
  constructor
  · intro h
    by_cases hd : Direct m s
    · obtain ⟨i, h⟩ := C17_violated P hm s hd
      exact ⟨_, by simp, h⟩
    · have hy := h.resolve_left hd
      obtain ⟨ts, h1, h2, h3, _⟩ := word_spec P hm s hy hfit hd
      refine ⟨ts, ?_, h1⟩
      rintro rfl
      have hne := symList_ne_nil hy
      have gen : ∀ {a b : List (Int × Nat)}, MergeMany (Listed (tokenToId m.vocab) m.pre lines) a b → a ≠ [] → b ≠ [] := by
        intro a b h
        induction h with
        | refl => exact id
        | step _ h _ =>
          intro _ e
          cases h with
          | mk => simp at e
      exact gen h2 hne rfl
  · intro h
    exact C23_violated P hm s (fun i hi hy => h (.inr ⟨i, hi, hy⟩)) fun hd => h (.inl hd)

/-- **C93** Byte-pair tokenization of pre-tokenized text, whatever was tokenized before: if every pre-token can be answered, the
call returns, changes nothing but the tokens, gives every pre-token at least one token, and gives a pre-token the same tokens
wherever it stands; if some pre-token cannot be answered, the call reads out of bounds.  (The bound says that the number of symbols
fits an `int`.) -/
theorem C93_answers (P : Platform) {lines : List Str} {m : BPE} (hm : Made lines m) (before : List PTS) (p : PTS)
    (hfit : ∀ s ∈ p.splits, Fits m s.normalized) :
    ((∀ s ∈ p.splits, Answerable m s.normalized) → ∃ (q : PTS) (tokens : Str → List Token),
      ((usedBPE P m before).tokenize P p).1 = .ok q ∧ q.normalized = p.normalized ∧
      Each (fun s t => t.normalized = s.normalized ∧ t.offsets = s.offsets ∧ t.tokens = tokens s.normalized ∧ t.tokens ≠ [])
        p.splits q.splits) ∧
    ((∃ s ∈ p.splits, ¬ Answerable m s.normalized) →
      ((usedBPE P m before).tokenize P p).1 = .error (.ub .outOfBounds)) := by
  constructor
  · intro h
    have hall : ∃ l, Each (fun (s s' : Split) => s'.normalized = s.normalized ∧ s'.offsets = s.offsets ∧
        (m.word P s.normalized).1 = .ok s'.tokens) p.splits l := by
      generalize hl : p.splits = l0 at h hfit
      clear hl
      induction l0 with
      | nil => exact ⟨[], .nil⟩
      | cons s r ih =>
        obtain ⟨ts, _, h1⟩ := (ba_word P hm s.normalized (hfit s (by simp))).1 (h s (by simp))
        obtain ⟨l, h2⟩ := ih (fun s hs => h s (by simp [hs])) (fun s hs => hfit s (by simp [hs]))
        exact ⟨{ s with tokens := ts } :: l, .cons ⟨rfl, rfl, h1⟩ h2⟩
    obtain ⟨l, hl⟩ := hall
    refine ⟨{ p with splits := l }, fun s => match (m.word P s).1 with | .ok ts => ts | .error _ => [],
      (bpe_tokenize P hm before p _).2 ⟨rfl, hl⟩, rfl, ?_⟩
    have hm' : ∀ s ∈ p.splits, ∀ ts, (m.word P s.normalized).1 = .ok ts → ts ≠ [] := by
      intro s hs ts hts
      obtain ⟨ts', h1, h2⟩ := (ba_word P hm s.normalized (hfit s hs)).1 (h s hs)
      rw [hts] at h2; cases h2; exact h1
    simp only
    clear h hfit
    generalize p.splits = l0 at hl hm'
    induction hl with
    | nil => exact .nil
    | @cons s t _ _ hst _ ih =>
      obtain ⟨h1, h2, h3⟩ := hst
      exact .cons ⟨h1, h2, by rw [h3], hm' s (by simp) _ h3⟩ (ih fun s hs => hm' s (by simp [hs]))
  · rintro ⟨s, hs, hno⟩
    obtain ⟨hc, hf⟩ := used_cache P hm before
    have loop : ∀ (l : List Split) (m' : BPE), CacheOk P m' → m'.fresh = m → (∀ s ∈ l, Fits m s.normalized) →
        (∃ s ∈ l, ¬ Answerable m s.normalized) → (BPE.splitsLoop P m' l).1 = .error (.ub .outOfBounds) := by
      intro l
      induction l with
      | nil => rintro _ _ _ _ ⟨_, h, _⟩; cases h
      | cons s r ih =>
        rintro m' hc hf hfit ⟨x, hx, hno⟩
        obtain ⟨h1, h2, h3⟩ := word_cache P m' s.normalized hc
        rw [hf] at h1 h3
        have hih := ih (m'.word P s.normalized).2 h2 h3 fun s hs => hfit s (by simp [hs])
        obtain ⟨g1, g2⟩ := ba_word P hm s.normalized (hfit s (by simp))
        simp only [BPE.splitsLoop]
        generalize m'.word P s.normalized = R at h1 h2 h3 hih
        obtain ⟨res, m1⟩ := R
        simp only at h1 h2 h3 hih
        by_cases ha : Answerable m s.normalized
        · obtain ⟨ts, _, hts⟩ := g1 ha
          rw [hts] at h1; subst h1
          have hr : ∃ s ∈ r, ¬ Answerable m s.normalized := by
            rcases List.mem_cons.1 hx with rfl | hx
            · exact absurd ha hno
            · exact ⟨x, hx, hno⟩
          have := hih hr
          simp only
          generalize BPE.splitsLoop P m1 r = Q at this
          obtain ⟨q, m2⟩ := Q
          simp only at this; subst this
          rfl
        · rw [g2 ha] at h1; subst h1; rfl
    have := loop p.splits _ hc hf hfit ⟨s, hs, hno⟩
    unfold BPE.tokenize
    generalize BPE.splitsLoop P (usedBPE P m before) p.splits = R at this
    obtain ⟨r, m2⟩ := R
    simp only at this; subst this; rfl

-- "ab" can be answered, "zz" cannot
example : Answerable abcBPE b!"ab" ∧ ¬ Answerable abcBPE b!"zz" ∧ ¬ Answerable abcBPE [] := by
  refine ⟨.inr ⟨0, by decide, .inl ⟨0, rfl⟩⟩, ?_, ?_⟩
  · rintro (⟨_, h, _⟩ | ⟨i, hi, h | ⟨h, _⟩ | ⟨h, _⟩⟩)
    · cases h
    · have : i = 0 ∨ i = 1 := by simp at hi; omega
      rcases this with rfl | rfl <;> obtain ⟨_, h⟩ := h <;> cases h
    · cases h
    · exact h rfl
  · rintro (⟨_, h, _⟩ | ⟨i, hi, _⟩)
    · cases h
    · simp at hi

example (before : List PTS) : ∃ (q : PTS) (tokens : Str → List Token), ((usedBPE ascii abcBPE before).tokenize ascii (oneSplit b!"abc")).1 = .ok q ∧
    q.normalized = (oneSplit b!"abc").normalized ∧
    Each (fun s t => t.normalized = s.normalized ∧ t.offsets = s.offsets ∧ t.tokens = tokens s.normalized ∧ t.tokens ≠ [])
      (oneSplit b!"abc").splits q.splits :=
  (C93_answers ascii abcBPE_made before _ (by simp [oneSplit, Fits, abcBPE])).1
    (by simp only [oneSplit, List.mem_singleton, forall_eq]; exact .inr ⟨0, by decide, .inl ⟨0, rfl⟩⟩)

end Tok
