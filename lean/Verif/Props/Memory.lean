import Verif.Spec.Memory
import Verif.Props.Flag
import Verif.Props.BPEAll
import Verif.Props.AnyText

set_option autoImplicit false

/-!
C120: what a tokenizer keeps in memory between calls.
-/

namespace Tok
open Spec

theorem mm_none {κ ν : Type} [DecidableEq κ] {m : List (κ × ν)} {k : κ} (h : mapFind m k = none) : k ∉ m.map (·.1) := by
  induction m with
  | nil => simp
  | cons p m ih =>
    obtain ⟨a, b⟩ := p
    simp only [mapFind] at h
    split at h
    · cases h
    · rename_i hne
      simp only [List.map_cons, List.mem_cons, not_or]
      exact ⟨fun e => hne e.symm, ih h⟩

theorem mm_some {κ ν : Type} [DecidableEq κ] {m : List (κ × ν)} {k : κ} (h : k ∈ m.map (·.1)) : ∃ v, mapFind m k = some v := by
  cases hf : mapFind m k with
  | some v => exact ⟨v, rfl⟩
  | none => exact absurd h (mm_none hf)

/-- The keys of the cache. -/
def keys (m : BPE) : List Str := m.cache.map (·.1)

/-- One word. -/
theorem mm_word (P : Platform) (m : BPE) (s : Str) :
    ((m.word P s).2 = m ∧ (∀ ts, (m.word P s).1 = .ok ts → m.dropout.on = true ∨ Direct m s ∨ s ∈ keys m)) ∨
    (s ∉ keys m ∧ keys (m.word P s).2 = keys m ++ [s] ∧ (m.word P s).2.fresh = m.fresh ∧ ∃ ts, (m.word P s).1 = .ok ts) := by
  unfold BPE.word BPE.tokenizeWithCache
  by_cases hd : m.dropout.on = false
  · rw [if_pos hd]
    cases hi : (if m.ignoreMerges = true then mapFind m.vocab s else none) with
    | some i =>
      refine .inl ⟨rfl, fun _ _ => .inr (.inl ?_)⟩
      split at hi
      · rename_i h; exact ⟨hd, h, i, hi⟩
      · cases hi
    | none =>
      simp only
      cases hc : mapFind m.cache s with
      | some w => exact .inl ⟨rfl, fun _ _ => .inr (.inr (List.mem_map.2 ⟨_, mapFind_mem hc, rfl⟩))⟩
      | none =>
        simp only
        cases m.mergeWord P s with
        | error e => exact .inl ⟨rfl, fun _ h => by cases h⟩
        | ok w =>
          simp only
          cases m.wordToTokens 0 w with
          | error e => exact .inl ⟨rfl, fun _ h => by cases h⟩
          | ok ts => exact .inr ⟨mm_none hc, by simp [keys, mapInsert, hc], rfl, ts, rfl⟩
  · rw [if_neg hd]
    have hon : m.dropout.on = true := by simpa using hd
    cases m.mergeWord P s <;> exact .inl ⟨rfl, fun _ _ => .inl hon⟩

theorem mm_direct {m m' : BPE} (h : m'.fresh = m.fresh) (s : Str) : Direct m' s ↔ Direct m s := by
  have h1 : m'.dropout = m.dropout := (congrArg (fun x : BPE => x.dropout) h : m'.fresh.dropout = m.fresh.dropout)
  have h2 : m'.ignoreMerges = m.ignoreMerges := (congrArg (fun x : BPE => x.ignoreMerges) h : m'.fresh.ignoreMerges = m.fresh.ignoreMerges)
  have h3 : m'.vocab = m.vocab := (congrArg (fun x : BPE => x.vocab) h : m'.fresh.vocab = m.fresh.vocab)
  unfold Direct
  rw [h1, h2, h3]

/-- All words of a text. -/
theorem mm_loop (P : Platform) (l : List Split) : ∀ (m : BPE), ∃ new, keys (BPE.splitsLoop P m l).2 = keys m ++ new ∧ new.Nodup ∧
    (∀ k ∈ new, k ∉ keys m) ∧ new.Sublist (l.map (·.normalized)) ∧ (BPE.splitsLoop P m l).2.fresh = m.fresh ∧
    (∀ l', (BPE.splitsLoop P m l).1 = .ok l' → ∀ s ∈ l, m.dropout.on = true ∨ Direct m s.normalized ∨ s.normalized ∈ keys m ++ new) := by
  induction l with
  | nil => intro m; exact ⟨[], by simp [BPE.splitsLoop], .nil, by simp, .slnil, rfl, by simp⟩
  | cons s r ih =>
    intro m
    have hw := mm_word P m s.normalized
    simp only [BPE.splitsLoop]
    generalize m.word P s.normalized = R at hw
    obtain ⟨res, m1⟩ := R
    cases res with
    | error e =>
      simp only at hw ⊢
      rcases hw with ⟨rfl, -⟩ | ⟨_, _, _, ts, h⟩
      · exact ⟨[], by simp, .nil, by simp, List.nil_sublist _, rfl, by intro _ h; cases h⟩
      · cases h
    | ok ts =>
      simp only at hw ⊢
      obtain ⟨new, g1, g2, g3, g4, g5, g6⟩ := ih m1
      have key : ∃ new', keys (BPE.splitsLoop P m1 r).2 = keys m ++ new' ∧ new'.Nodup ∧ (∀ k ∈ new', k ∉ keys m) ∧
          new'.Sublist ((s :: r).map (·.normalized)) ∧ (BPE.splitsLoop P m1 r).2.fresh = m.fresh ∧
          (∀ l', (BPE.splitsLoop P m1 r).1 = .ok l' → ∀ x ∈ s :: r, m.dropout.on = true ∨ Direct m x.normalized ∨ x.normalized ∈ keys m ++ new') := by
        rcases hw with ⟨rfl, h0⟩ | ⟨h1, h2, h3, -⟩
        · refine ⟨new, g1, g2, g3, g4.cons _, g5, fun l' hl x hx => ?_⟩
          rcases List.mem_cons.1 hx with rfl | hx
          · rcases h0 ts rfl with h | h | h
            · exact .inl h
            · exact .inr (.inl h)
            · exact .inr (.inr (List.mem_append.2 (.inl h)))
          · exact g6 l' hl x hx
        · refine ⟨s.normalized :: new, by rw [g1, h2]; simp, ?_, ?_, g4.cons_cons _, g5.trans h3, fun l' hl x hx => ?_⟩
          · rw [List.nodup_cons]
            exact ⟨fun h => g3 _ h (by rw [h2]; simp), g2⟩
          · intro k hk
            rcases List.mem_cons.1 hk with rfl | hk
            · exact h1
            · intro h; exact g3 k hk (by rw [h2]; simp [h])
          · rcases List.mem_cons.1 hx with rfl | hx
            · exact .inr (.inr (by simp))
            · have hd : m1.dropout = m.dropout := (congrArg (fun x : BPE => x.dropout) h3 : m1.fresh.dropout = m.fresh.dropout)
              have := g6 l' hl x hx
              rw [mm_direct h3, hd, h2] at this
              simpa using this
      obtain ⟨new', k1, k2, k3, k4, k5, k6⟩ := key
      refine ⟨new', ?_⟩
      revert k1 k5 k6
      generalize BPE.splitsLoop P m1 r = R
      obtain ⟨res, m2⟩ := R
      intro k1 k5 k6
      cases res with
      | error e => exact ⟨k1, k2, k3, k4, k5, by intro _ h; cases h⟩
      | ok rest => exact ⟨k1, k2, k3, k4, k5, fun _ _ => k6 rest rfl⟩

/-- A word for which the answer is kept, or no answer is kept, leaves the model as it is. -/
theorem mm_hit (P : Platform) (m : BPE) (s : Str) (h : m.dropout.on = true ∨ Direct m s ∨ s ∈ keys m) : (m.word P s).2 = m := by
  rcases mm_word P m s with h1 | h1
  · exact h1.1
  · rcases h with h | h | h
    · unfold BPE.word
      rw [if_neg (by simp [h])]
      cases m.mergeWord P s <;> rfl
    · obtain ⟨h1, h2, i, h3⟩ := h
      unfold BPE.word BPE.tokenizeWithCache
      have : mapFind m.vocab s = some i := h3
      rw [if_pos h1, if_pos h2, this]
    · exact absurd h h1.1

/-- The same words a second time. -/
theorem mm_settled (P : Platform) (l : List Split) : ∀ (m : BPE), (BPE.splitsLoop P (BPE.splitsLoop P m l).2 l).2 = (BPE.splitsLoop P m l).2 := by
  induction l with
  | nil => intro m; rfl
  | cons s r ih =>
    intro m
    have hw := mm_word P m s.normalized
    cases hR : m.word P s.normalized with
    | mk res m1 =>
      rw [hR] at hw
      cases res with
      | error e =>
        simp only at hw
        have e1 : (BPE.splitsLoop P m (s :: r)).2 = m1 := by simp only [BPE.splitsLoop, hR]
        rw [e1]
        rcases hw with ⟨rfl, -⟩ | ⟨_, _, _, ts, h⟩
        · exact e1
        · cases h
      | ok ts =>
        simp only at hw
        have e1 : (BPE.splitsLoop P m (s :: r)).2 = (BPE.splitsLoop P m1 r).2 := by
          simp only [BPE.splitsLoop, hR]
          generalize BPE.splitsLoop P m1 r = R
          obtain ⟨res, m2⟩ := R
          cases res <;> rfl
        rw [e1]
        obtain ⟨new, g1, g2, g3, g4, g5, g6⟩ := mm_loop P r m1
        have hit : ((BPE.splitsLoop P m1 r).2.word P s.normalized).2 = (BPE.splitsLoop P m1 r).2 := by
          apply mm_hit
          rw [mm_direct g5, g1]
          have hd : (BPE.splitsLoop P m1 r).2.dropout = m1.dropout := (congrArg (fun x : BPE => x.dropout) g5 : (BPE.splitsLoop P m1 r).2.fresh.dropout = m1.fresh.dropout)
          rw [hd]
          rcases hw with ⟨rfl, h0⟩ | ⟨h1, h2, h3, -⟩
          · rcases h0 ts rfl with h | h | h
            · exact .inl h
            · exact .inr (.inl h)
            · exact .inr (.inr (by simp [h]))
          · exact .inr (.inr (by rw [h2]; simp))
        have hih := ih m1
        revert hit hih
        generalize (BPE.splitsLoop P m1 r).2 = m2
        intro hit hih
        simp only [BPE.splitsLoop]
        generalize hR2 : m2.word P s.normalized = R2 at hit
        obtain ⟨res2, m3⟩ := R2
        simp only at hit
        subst hit
        cases res2 with
        | error => rfl
        | ok ts2 =>
          simp only
          revert hih
          generalize BPE.splitsLoop P m3 r = R3
          obtain ⟨res3, m4⟩ := R3
          intro hih
          cases res3 <;> exact hih

theorem mm_tokenize (P : Platform) (m : BPE) (p : PTS) : (m.tokenize P p).2 = (BPE.splitsLoop P m p.splits).2 := by
  unfold BPE.tokenize
  split <;> rename_i h <;> rw [h]

/-- The model `encode` leaves. -/
theorem mm_encode (P : Platform) (t : Tokenizer) (w : WStr) (b : Bool) :
    (t.encode P w b).2.model = match (t.preTokenized P w).1 with
      | .ok p => t.model.map fun m => (m.tokenize P p).2
      | .error _ => t.model := by
  have hmod : (t.preTokenized P w).2.model = t.model := by
    rcases preTokenized_state P t w with e | ⟨a, _, e⟩ <;> rw [e]
  unfold Tokenizer.encode
  generalize t.preTokenized P w = R at hmod
  obtain ⟨r, t'⟩ := R
  cases r with
  | error x => exact hmod
  | ok p =>
    simp only at hmod ⊢
    have h3 := doTokenize_state P t' p
    generalize t'.doTokenize P p = R at h3
    obtain ⟨r, t''⟩ := R
    simp only at h3
    have : t''.model = t.model.map fun m => (m.tokenize P p).2 := by rw [h3]; simp only [hmod]
    cases r <;> exact this

/-- **C120** What one call of `encode` adds to memory: at most one entry for each word of the text, and only for words for which there is
none yet; nothing is removed. -/
theorem C120_encode (P : Platform) (t : Tokenizer) (w : WStr) (b : Bool) :
    ∃ new, remembered (t.encode P w b).2 = remembered t ++ new ∧ new.Nodup ∧ (∀ k ∈ new, k ∉ remembered t) ∧
      new.Sublist (askedWords P t w) ∧
      (∀ e, (t.encode P w b).1 = .ok e → ∀ k ∈ askedWords P t w, KeepsAnswer t k → k ∈ remembered t ++ new) := by
  have hm := mm_encode P t w b
  unfold remembered askedWords
  cases hp : (t.preTokenized P w).1 with
  | error x =>
    rw [hp] at hm
    simp only at hm
    rw [hm]
    refine ⟨[], by simp, .nil, by simp, .slnil, ?_⟩
    intro e _ k hk; cases hk
  | ok p =>
    rw [hp] at hm
    simp only at hm
    rw [hm]
    cases hx : t.model with
    | none =>
      refine ⟨[], rfl, .nil, by simp, List.nil_sublist _, ?_⟩
      intro e _ k _ ⟨m, h, _⟩; rw [hx] at h; cases h
    | some x =>
      cases x with
      | wordPiece m =>
        refine ⟨[], rfl, .nil, by simp, List.nil_sublist _, ?_⟩
        intro e _ k _ ⟨m, h, _⟩; rw [hx] at h; cases h
      | bpe m =>
        obtain ⟨new, g1, g2, g3, g4, g5, g6⟩ := mm_loop P p.splits m
        refine ⟨new, ?_, g2, g3, g4, ?_⟩
        · simp only [Option.map_some, Model.tokenize, mm_tokenize]
          exact g1
        · intro e he k hk hkeep
          obtain ⟨m', h1, h2, h3⟩ := hkeep
          rw [hx] at h1; cases h1
          obtain ⟨q, y, ⟨p', hp', hq⟩, _⟩ := encode_ok he
          rw [hp] at hp'; cases hp'
          rw [hx] at hq
          have : ∃ l', (BPE.splitsLoop P m p.splits).1 = .ok l' := by
            simp only [Model.tokenize] at hq
            unfold BPE.tokenize at hq
            generalize BPE.splitsLoop P m p.splits = R at hq
            obtain ⟨r, m2⟩ := R
            cases r with
            | error => cases hq
            | ok l' => exact ⟨l', rfl⟩
          obtain ⟨l', hl⟩ := this
          obtain ⟨s, hs, rfl⟩ := List.mem_map.1 hk
          rcases g6 l' hl s hs with h | h | h
          · rw [h2] at h; cases h
          · exact absurd ⟨h.2.1, h.2.2⟩ h3
          · exact h

/-! ### The same text again -/

/-- `a1` has an entry for every id for which `a` has one. -/
def Covers (a a1 : AddedVocab) : Prop := ∀ i, (mapFind a.mapR i).isSome → (mapFind a1.mapR i).isSome

theorem mm_covers {a b : AddedVocab} (h : Touched a b) : Covers a b := by
  intro i hi
  obtain ⟨x, hx⟩ := Option.isSome_iff_exists.1 hi
  rw [h.keeps i x hx]; rfl

theorem Covers.trans {a b c : AddedVocab} (h : Covers a b) (h' : Covers b c) : Covers a c := fun i hi => h' i (h i hi)

theorem mm_touch (ms : List (Nat × Nat × Int)) (m : List (Int × AddedToken)) (h : ∀ x ∈ ms, (mapFind m x.2.2).isSome) : touchIds ms m = m := by
  induction ms with
  | nil => rfl
  | cons x r ih =>
    obtain ⟨a, b, i⟩ := x
    obtain ⟨v, hv⟩ := Option.isSome_iff_exists.1 (h (a, b, i) (by simp))
    have : mapInsert m i {} = m := by unfold mapInsert; simp only at hv; rw [hv]
    simp only [touchIds, this]
    exact ih fun y hy => h y (by simp [hy])

theorem mm_find {a a1 : AddedVocab} {s : Str} {trie : List (Str × Int)} (h : Covers (a.findMatches s trie).2 a1) :
    (a1.findMatches s trie).2 = a1 := by
  unfold AddedVocab.findMatches at h ⊢
  simp only at h ⊢
  have : touchIds (scan (wordIds trie) (fromUTF8 s) (fromUTF8 s) 0 0) a1.mapR = a1.mapR := by
    apply mm_touch
    intro x hx
    apply h
    simp only
    rw [touchIds_find]
    cases mapFind a.mapR x.2.2 with
    | some y => rfl
    | none => simp only; rw [if_pos ⟨x, hx, rfl⟩]; rfl
  rw [this]

theorem mm_first {a a1 : AddedVocab} {w : WStr} (hs : SameA a a1) (h : Covers (a.firstSplits w).2 a1) : (a1.firstSplits w).2 = a1 := by
  unfold AddedVocab.firstSplits at h ⊢
  split
  · rfl
  · rename_i p hp
    rw [hp] at h
    simp only at h
    split
    · rfl
    · rename_i x hx
      rw [hx] at h
      simp only [hs.tries.2] at h ⊢
      exact mm_find h

theorem mm_split {P : Platform} {norm : Option Normalizer} {a a1 : AddedVocab} {ns : NS} {e : Nat} {s : Split} (hs : SameA a a1)
    (h : Covers (normalizeSplit P norm a ns e s).2 a1) : (normalizeSplit P norm a1 ns e s).2 = a1 := by
  unfold normalizeSplit at h ⊢
  simp only at h ⊢
  split
  · rfl
  · rename_i x1 x2 x3 hx
    rw [hx] at h
    simp only [hs.tries.1] at h ⊢
    exact mm_find h

theorem mm_normalize {P : Platform} {norm : Option Normalizer} (l : List Split) : ∀ {a a1 : AddedVocab} {ns : NS} {e : Nat}, SameA a a1 →
    Covers (normalizeLoop P norm a ns e l).2 a1 → (normalizeLoop P norm a1 ns e l).2 = a1 := by
  induction l with
  | nil => intros; rfl
  | cons s r ih =>
    intro a a1 ns e hs h
    simp only [normalizeLoop] at h ⊢
    split
    · rename_i hc
      rw [if_pos hc] at h
      have h' : Covers (normalizeLoop P norm a ns (e + s.normalized.length) r).2 a1 := by
        revert h
        generalize normalizeLoop P norm a ns (e + s.normalized.length) r = R
        obtain ⟨x, b⟩ := R
        intro h
        cases x <;> exact h
      have := ih hs h'
      revert this
      generalize normalizeLoop P norm a1 ns (e + s.normalized.length) r = R
      obtain ⟨x, b⟩ := R
      intro this
      cases x <;> exact this
    · rename_i hc
      rw [if_neg hc] at h
      have h1 := normalizeSplit_same P norm hs ns e s
      have t1 := normalizeSplit_touched P norm a ns e s
      have c1 := fun h => mm_split (P := P) (norm := norm) (ns := ns) (e := e) (s := s) hs h
      generalize normalizeSplit P norm a ns e s = R at h h1 t1 c1
      generalize normalizeSplit P norm a1 ns e s = R' at h1 c1
      obtain ⟨x, b⟩ := R
      obtain ⟨x', b'⟩ := R'
      simp only at h1 t1 c1
      subst h1
      cases x with
      | error => simp only at h ⊢; exact c1 h
      | ok q =>
        obtain ⟨ns', here, n⟩ := q
        simp only at h ⊢
        have h' : Covers (normalizeLoop P norm b ns' (e + n) r).2 a1 := by
          revert h
          generalize normalizeLoop P norm b ns' (e + n) r = R
          obtain ⟨x, b⟩ := R
          intro h
          cases x <;> exact h
        have hb : b' = a1 := c1 ((mm_covers (normalizeLoop_touched P norm r b ns' (e + n))).trans h')
        subst hb
        have := ih (t1.sameA.symm.trans hs) h'
        revert this
        generalize normalizeLoop P norm b' ns' (e + n) r = R
        obtain ⟨x, b⟩ := R
        intro this
        cases x <;> exact this

theorem mm_extract (P : Platform) (norm : Option Normalizer) (a : AddedVocab) (w : WStr) :
    ((a.extract P norm w).2.extract P norm w).2 = (a.extract P norm w).2 := by
  have gen : ∀ {a a1 : AddedVocab}, SameA a a1 → Covers (a.extract P norm w).2 a1 → (a1.extract P norm w).2 = a1 := by
    intro a a1 hs h
    unfold AddedVocab.extract at h ⊢
    have h1 := firstSplits_same hs w
    have t1 := firstSplits_touched a w
    have c1 := fun h => mm_first (w := w) hs h
    generalize a.firstSplits w = R at h h1 t1 c1
    generalize a1.firstSplits w = R' at h1 c1
    obtain ⟨x, b⟩ := R
    obtain ⟨x', b'⟩ := R'
    simp only at h1 t1 c1
    subst h1
    cases x with
    | error => simp only at h ⊢; exact c1 h
    | ok p =>
      simp only at h ⊢
      have h' : Covers (normalizeLoop P norm b p.normalized 0 p.splits).2 a1 := by
        revert h
        generalize normalizeLoop P norm b p.normalized 0 p.splits = R
        obtain ⟨x, b⟩ := R
        intro h
        cases x <;> exact h
      have hb : b' = a1 := c1 ((mm_covers (normalizeLoop_touched P norm p.splits b p.normalized 0)).trans h')
      subst hb
      have := mm_normalize p.splits (t1.sameA.symm.trans hs) h'
      revert this
      generalize normalizeLoop P norm b' p.normalized 0 p.splits = R
      obtain ⟨x, b⟩ := R
      intro this
      cases x <;> exact this
  exact gen (extract_touched P norm a w).sameA (fun i h => h)

/-- Pre-tokenizing does not look at the model. -/
theorem mm_noModel (P : Platform) (t : Tokenizer) (x : Option Model) (w : WStr) :
    (({ t with model := x } : Tokenizer).preTokenized P w).1 = (t.preTokenized P w).1 ∧
    (({ t with model := x } : Tokenizer).preTokenized P w).2 = { (t.preTokenized P w).2 with model := x } := by
  obtain ⟨_, _, a, _, _, _, _, _⟩ := t
  unfold Tokenizer.preTokenized
  simp only
  split
  · exact ⟨rfl, rfl⟩
  · cases a <;> exact ⟨rfl, rfl⟩

theorem mm_pre (P : Platform) (t : Tokenizer) (w : WStr) :
    ((t.preTokenized P w).2.preTokenized P w).2 = (t.preTokenized P w).2 ∧ ((t.preTokenized P w).2.preTokenized P w).1 = (t.preTokenized P w).1 := by
  unfold Tokenizer.preTokenized
  cases PTS.ofNS (NS.ofText w) with
  | error e => exact ⟨rfl, rfl⟩
  | ok p =>
    simp only
    cases h : t.added with
    | none => simp only [h, and_self]
    | some a =>
      simp only
      rw [mm_extract, ← extract_same P t.normalizer (extract_touched P t.normalizer a w).sameA w]
      exact ⟨rfl, rfl⟩

/-- **C120** To encode a text again, with or without special tokens, leaves the tokenizer exactly as it is. -/
theorem C120_again (P : Platform) (t : Tokenizer) (w : WStr) (b b' : Bool) :
    ((t.encode P w b).2.encode P w b').2 = (t.encode P w b).2 := by
  have state : ∀ (t : Tokenizer) (b : Bool), (t.encode P w b).2 = match (t.preTokenized P w).1 with
      | .ok p => { (t.preTokenized P w).2 with model := (t.preTokenized P w).2.model.map fun m => (m.tokenize P p).2 }
      | .error _ => (t.preTokenized P w).2 := by
    intro t b
    unfold Tokenizer.encode
    generalize t.preTokenized P w = R
    obtain ⟨r, t'⟩ := R
    cases r with
    | error x => rfl
    | ok p =>
      simp only
      rw [← doTokenize_state]
      generalize t'.doTokenize P p = R
      obtain ⟨r, t''⟩ := R
      cases r <;> rfl
  obtain ⟨h1, h2⟩ := mm_pre P t w
  rw [state t b]
  cases hp : (t.preTokenized P w).1 with
  | error x =>
    simp only
    rw [state, h2, hp]
    exact h1
  | ok p =>
    simp only
    rw [state]
    obtain ⟨k1, k2⟩ := mm_noModel P (t.preTokenized P w).2 ((t.preTokenized P w).2.model.map fun m => (m.tokenize P p).2) w
    rw [k1, h2, hp]
    simp only
    rw [k2, h1]
    simp only
    cases (t.preTokenized P w).2.model with
    | none => rfl
    | some x =>
      cases x with
      | wordPiece m => rfl
      | bpe m => simp only [Option.map_some, Model.tokenize, mm_tokenize, mm_settled]

/-! ### Histories -/

theorem mm_add {t t' : Tokenizer} {l : List AddedToken} {n : Nat} (h : t.addTokens l = .ok (n, t')) : t'.model = t.model := by
  unfold Tokenizer.addTokens at h
  split at h
  · cases h
  · obtain ⟨x, _, h⟩ := res_bind_ok.1 h; cases h; rfl

theorem mm_after {P : Platform} {t t' : Tokenizer} {c : Call} (h : After P t c t') :
    ∃ new, remembered t' = remembered t ++ new ∧ new.Nodup ∧ (∀ k ∈ new, k ∉ remembered t) ∧
      (new = [] ∨ ∃ w b, c = .encode w b ∧ new.Sublist (askedWords P t w)) := by
  have same : ∀ {t t' : Tokenizer}, t'.model = t.model → ∃ new, remembered t' = remembered t ++ new ∧ new.Nodup ∧ (∀ k ∈ new, k ∉ remembered t) ∧
      (new = [] ∨ ∃ w b, c = .encode w b ∧ new.Sublist (askedWords P t w)) := by
    intro t t' h
    exact ⟨[], by unfold remembered; rw [h]; simp, .nil, by simp, .inl rfl⟩
  cases h with
  | encode w b =>
    obtain ⟨new, h1, h2, h3, h4, -⟩ := C120_encode P t w b
    exact ⟨new, h1, h2, h3, .inr ⟨w, b, rfl, h4⟩⟩
  | decode => exact same rfl
  | addTokens h => exact same (mm_add h)
  | addSpecialTokens h => exact same (mm_add h)

/-- **C120** What a tokenizer keeps in memory after any calls: what it kept before, then different entries, each for a word of a text
that one of the calls has encoded. -/
theorem C120_history {P : Platform} {t t' : Tokenizer} {cs : List Call} (h : History P t cs t') :
    ∃ new, remembered t' = remembered t ++ new ∧ new.Nodup ∧ (∀ k ∈ new, k ∉ remembered t) ∧
      ∀ k ∈ new, ∃ cs1 w b cs2 t1, cs = cs1 ++ .encode w b :: cs2 ∧ History P t cs1 t1 ∧ k ∈ askedWords P t1 w := by
  induction h with
  | nil t => exact ⟨[], by simp, .nil, by simp, by simp⟩
  | @cons t t' t'' c cs h1 _ ih =>
    obtain ⟨new, g1, g2, g3, g4⟩ := mm_after h1
    obtain ⟨new', k1, k2, k3, k4⟩ := ih
    refine ⟨new ++ new', by rw [k1, g1]; simp, ?_, ?_, ?_⟩
    · rw [List.nodup_append]
      refine ⟨g2, k2, fun a ha b hb e => ?_⟩
      subst e
      exact k3 a hb (by rw [g1]; simp [ha])
    · intro k hk
      rcases List.mem_append.1 hk with hk | hk
      · exact g3 k hk
      · intro h; exact k3 k hk (by rw [g1]; simp [h])
    · intro k hk
      rcases List.mem_append.1 hk with hk | hk
      · rcases g4 with rfl | ⟨w, b, rfl, hs⟩
        · cases hk
        · exact ⟨[], w, b, cs, t, rfl, .nil t, hs.subset hk⟩
      · obtain ⟨cs1, w, b, cs2, t1, e, ht, hk'⟩ := k4 k hk
        exact ⟨c :: cs1, w, b, cs2, t1, by rw [e]; rfl, .cons h1 ht, hk'⟩

/-- **C120** A tokenizer with a WordPiece model, or without a model, keeps nothing: its model is the same after any calls. -/
theorem C120_nothing {P : Platform} {t t' : Tokenizer} {cs : List Call} (h : History P t cs t') (hm : ∀ m, t.model ≠ some (.bpe m)) :
    t'.model = t.model := by
  induction h with
  | nil => rfl
  | @cons t t' t'' c cs h1 _ ih =>
    have : t'.model = t.model := by
      cases h1 with
      | encode w b =>
        rw [mm_encode]
        split
        · cases hx : t.model with
          | none => rfl
          | some x => cases x with
            | wordPiece => rfl
            | bpe m => exact absurd hx (hm m)
        · rfl
      | decode => rfl
      | addTokens h => exact mm_add h
      | addSpecialTokens h => exact mm_add h
    rw [ih (by rw [this]; exact hm), this]

/-- **C120** In the terms of the specification of words: what a call adds to memory is for words of the text. -/
theorem C120_words (P : Platform) (hg : GoodRegexes P) {t : Tokenizer} (hd : ∀ a, t.added = some a → PlainTables a) (w : WStr) (b : Bool) :
    ∃ new, remembered (t.encode P w b).2 = remembered t ++ new ∧
      (new = [] ∨ ∃ words texts, AnyWords P t w words ∧ Each Utf8Text words texts ∧ new.Sublist texts) := by
  obtain ⟨new, h1, _, _, h4, _⟩ := C120_encode P t w b
  refine ⟨new, h1, ?_⟩
  unfold askedWords at h4
  cases hp : (t.preTokenized P w).1 with
  | error x => rw [hp] at h4; exact .inl (List.sublist_nil.1 h4)
  | ok p =>
    rw [hp] at h4
    obtain ⟨ws, g1, g2⟩ := at_words P hg hd hp
    exact .inr ⟨ws, _, g1, Each.map_right (f := fun s : Split => s.normalized) (R := Utf8Text) g2, h4⟩

/-! ### No bound -/

/-- A byte-pair tokenizer without further stages. -/
def growTk : Tokenizer := { model := some (.bpe abcBPE) }

theorem mm_grow_pre (k : Nat) (t : Tokenizer) (ha : t.added = none) (hp : t.preTokenizer = none) :
    ∃ p, (t.preTokenized ascii (List.replicate k 97)).1 = .ok p ∧ p.splits.map (·.normalized) = [List.replicate k 97] ∧
      (t.preTokenized ascii (List.replicate k 97)).2 = t := by
  have hs : Scalars (List.replicate k 97) := by
    unfold Scalars
    intro c hc
    rw [(List.mem_replicate.1 hc).2]; decide
  have hc := convertToString_scalars hs
  have hu : utf8 (List.replicate k 97) = List.replicate k 97 := by
    apply utf8_ascii
    intro c hc
    rw [(List.mem_replicate.1 hc).2]; decide
  rw [hu] at hc
  unfold Tokenizer.preTokenized
  simp only [PTS.ofNS, NS.ofText, hc, res_ok_bind, res_pure, ha, hp]
  refine ⟨_, rfl, ?_, ?_⟩ <;> simp

theorem mm_grow_step (n : Nat) (hn : n + 1 < 2 ^ 31) {m : BPE} (hf : m.fresh = abcBPE) (hc : CacheOk ascii m)
    (hk : keys m = (List.range n).map fun i => List.replicate (i + 1) 97) (t : Tokenizer) (ht : t = { model := some (.bpe m) }) :
    ∃ m', (t.encode ascii (List.replicate (n + 1) 97) false).2 = { model := some (.bpe m') } ∧ m'.fresh = abcBPE ∧ CacheOk ascii m' ∧
      keys m' = (List.range (n + 1)).map fun i => List.replicate (i + 1) 97 := by
  obtain ⟨p, h1, h2, h3⟩ := mm_grow_pre (n + 1) t (by rw [ht]) (by rw [ht])
  obtain ⟨sp, hsp, hsn⟩ : ∃ sp, p.splits = [sp] ∧ sp.normalized = List.replicate (n + 1) 97 := by
    cases hs : p.splits with
    | nil => rw [hs] at h2; cases h2
    | cons a l =>
      rw [hs] at h2
      cases l with
      | nil => exact ⟨a, rfl, by simpa using h2⟩
      | cons => simp at h2
  have hans : ∃ ts, ts ≠ [] ∧ (abcBPE.word ascii (List.replicate (n + 1) 97)).1 = .ok ts := by
    refine (ba_word ascii abcBPE_made _ ?_).1 (.inr ⟨0, by simp, ?_⟩)
    · unfold Fits
      simp [abcBPE]; omega
    · refine .inl ⟨0, ?_⟩
      have : spelling abcBPE.pre abcBPE.suf (List.replicate (n + 1) 97) (0, 0 + 1) = [97] := by
        simp [spelling, abcBPE, List.replicate_succ]
      rw [this]; decide
  obtain ⟨ts, -, hans⟩ := hans
  have hd : ¬ Direct abcBPE (List.replicate (n + 1) 97) := fun h => by cases h.2.1
  obtain ⟨c1, c2, c3⟩ := word_cache ascii m (List.replicate (n + 1) 97) hc
  rw [hf] at c1 c3
  rw [hans] at c1
  have hoff : m.dropout.on = false := by
    have : m.fresh.dropout.on = abcBPE.dropout.on := by rw [hf]
    exact this
  have hnew : keys (m.word ascii (List.replicate (n + 1) 97)).2 = keys m ++ [List.replicate (n + 1) 97] := by
    rcases mm_word ascii m (List.replicate (n + 1) 97) with ⟨_, h⟩ | ⟨_, h, _⟩
    · rcases h ts c1 with h | h | h
      · rw [hoff] at h; cases h
      · refine absurd ((mm_direct (m := abcBPE) (m' := m) ?_ _).1 h) hd
        rw [hf]; rfl
      · rw [hk] at h
        obtain ⟨i, hi, e⟩ := List.mem_map.1 h
        have := congrArg List.length e
        simp at this hi
        omega
    · exact h
  refine ⟨(m.word ascii (List.replicate (n + 1) 97)).2, ?_, c3, c2, ?_⟩
  · have hst : (t.encode ascii (List.replicate (n + 1) 97) false).2 = { t with model := some (.bpe (m.word ascii (List.replicate (n + 1) 97)).2) } := by
      unfold Tokenizer.encode
      generalize t.preTokenized ascii (List.replicate (n + 1) 97) = R at h1 h3
      obtain ⟨r, t'⟩ := R
      simp only at h1 h3
      subst h1 h3
      simp only
      have h4 := doTokenize_state ascii t' p
      generalize t'.doTokenize ascii p = R at h4
      obtain ⟨r, t''⟩ := R
      simp only at h4
      have : t'' = { t' with model := some (.bpe (m.word ascii (List.replicate (n + 1) 97)).2) } := by
        rw [h4, ht]
        simp only [Option.map_some, Model.tokenize, mm_tokenize, hsp, BPE.splitsLoop, hsn]
        generalize m.word ascii (List.replicate (n + 1) 97) = R
        obtain ⟨r, m'⟩ := R
        cases r <;> rfl
      cases r <;> exact this
    rw [hst, ht]
  · rw [hnew, hk, List.range_succ, List.map_append]; rfl

/-- **C120, no bound**: byte-pair encoding keeps an entry for every different word; for every number of words (up to the size of an `int`,
which bounds the length of the words used here) there are calls after which a tokenizer keeps that many. -/
theorem C120_unbounded (n : Nat) (hn : n < 2 ^ 31) : ∃ cs t', History ascii growTk cs t' ∧ (remembered t').length = n := by
  have gen : ∀ n, n < 2 ^ 31 → ∃ cs m, History ascii growTk cs { model := some (.bpe m) } ∧ m.fresh = abcBPE ∧ CacheOk ascii m ∧
      keys m = (List.range n).map fun i => List.replicate (i + 1) 97 := by
    intro n
    induction n with
    | zero =>
      intro _
      exact ⟨[], abcBPE, .nil _, rfl, made_cacheOk ascii abcBPE_made, rfl⟩
    | succ n ih =>
      intro hn
      obtain ⟨cs, m, h1, h2, h3, h4⟩ := ih (by omega)
      obtain ⟨m', g1, g2, g3, g4⟩ := mm_grow_step n hn h2 h3 h4 _ rfl
      refine ⟨cs ++ [.encode (List.replicate (n + 1) 97) false], m', ?_, g2, g3, g4⟩
      rw [← g1]
      have app : ∀ {t t' t'' : Tokenizer} {cs ds : List Call}, History ascii t cs t' → History ascii t' ds t'' → History ascii t (cs ++ ds) t'' := by
        intro t t' t'' cs ds h h'
        induction h with
        | nil => exact h'
        | cons a _ ih => exact .cons a (ih h')
      exact app h1 (.cons (.encode _ _ _) (.nil _))
  obtain ⟨cs, m, h1, _, _, h4⟩ := gen n hn
  refine ⟨cs, _, h1, ?_⟩
  show (m.cache.map (·.1)).length = n
  have : m.cache.map (·.1) = keys m := rfl
  rw [this, h4]
  simp

/-- A text with a word that comes twice, and its words. -/
example : remembered ((abcTk [] false .bert).encode ascii w!"ab bc ab" false).2 = [b!"ab", b!"bc"] ∧
    askedWords ascii (abcTk [] false .bert) w!"ab bc ab" = [b!"ab", b!"bc", b!"ab"] := by
  refine ⟨?_, ?_⟩ <;> decide +kernel

end Tok
