import Verif.Proofs.BPEWord

set_option autoImplicit false

/-!
Lemmas on `BPE::merge_word`: the symbols a text is cut into before merging.
-/

namespace Tok

/-- The pending unknown token as a list. -/
def pend (u : Option (Int × Nat)) : List (Int × Nat) := u.toList

/-- What one byte contributes: the symbols appended, and the pending unknown token. -/
def byteSyms (m : BPE) (b : Nat) (isFirst isLast : Bool) (unk : Option (Int × Nat)) :
    List (Int × Nat) × Option (Int × Nat) :=
  match mapFind m.vocab (m.symbolKey b isFirst isLast) with
  | some i => (pend unk ++ [(i, 1)], none)
  | none =>
    let ids := if m.byteFallback then fallbackIds m.vocab (m.symbolKey b isFirst isLast) else []
    if ids ≠ [] then (ids.map fun i => (i, 1), unk)
    else if m.unkToken.length ≠ 0 then
      match unk, m.fuseUnk with
      | some u, true => ([], some (u.1, u.2 + 1))
      | _, _ =>
        match mapFind m.vocab m.unkToken with
        | some i => (pend unk, some (i, 1))
        | none => (pend unk, unk)
    else ([], unk)

/-- The symbols of a text. -/
def symList (m : BPE) : Bool → Str → Option (Int × Nat) → List (Int × Nat)
  | _, [], unk => pend unk
  | isFirst, b :: r, unk =>
    (byteSyms m b isFirst r.isEmpty unk).1 ++ symList m false r (byteSyms m b isFirst r.isEmpty unk).2

/-- The byte tokens found for a key. -/
def fbIds (m : BPE) (key : Str) : List Int := if m.byteFallback then fallbackIds m.vocab key else []

/-- The cases of the loop body. -/
inductive ByteCase (m : BPE) (key : Str) (unk : Option (Int × Nat)) :
    List (Int × Nat) × Option (Int × Nat) → Prop
  | known (i : Int) : mapFind m.vocab key = some i → ByteCase m key unk (pend unk ++ [(i, 1)], none)
  | bytes : mapFind m.vocab key = none → fbIds m key ≠ [] →
      ByteCase m key unk ((fbIds m key).map fun i => (i, 1), unk)
  | fuse (u : Int × Nat) : mapFind m.vocab key = none → fbIds m key = [] → m.unkToken.length ≠ 0 →
      m.fuseUnk = true → unk = some u → ByteCase m key unk ([], some (u.1, u.2 + 1))
  | unk (i : Int) : mapFind m.vocab key = none → fbIds m key = [] → m.unkToken.length ≠ 0 →
      (unk = none ∨ m.fuseUnk = false) → mapFind m.vocab m.unkToken = some i →
      ByteCase m key unk (pend unk, some (i, 1))
  | noUnk : mapFind m.vocab key = none → fbIds m key = [] → m.unkToken.length ≠ 0 →
      (unk = none ∨ m.fuseUnk = false) → mapFind m.vocab m.unkToken = none →
      ByteCase m key unk (pend unk, unk)
  | skip : mapFind m.vocab key = none → fbIds m key = [] → m.unkToken.length = 0 →
      ByteCase m key unk ([], unk)

theorem byteSyms_case (m : BPE) (b : Nat) (f l : Bool) (unk : Option (Int × Nat)) :
    ByteCase m (m.symbolKey b f l) unk (byteSyms m b f l unk) := by
  unfold byteSyms
  cases hk : mapFind m.vocab (m.symbolKey b f l) with
  | some i => exact .known i hk
  | none =>
    simp only
    by_cases hf : fbIds m (m.symbolKey b f l) = []
    · rw [if_neg (by rw [fbIds] at hf; simp [hf])]
      by_cases hu : m.unkToken.length = 0
      · rw [if_neg (by simp [hu])]; exact .skip hk hf hu
      · rw [if_pos hu]
        cases unk with
        | none =>
          cases hm : mapFind m.vocab m.unkToken with
          | some i => exact .unk i hk hf hu (.inl rfl) hm
          | none => exact .noUnk hk hf hu (.inl rfl) hm
        | some u =>
          cases h2 : m.fuseUnk with
          | true => exact .fuse u hk hf hu h2 rfl
          | false =>
            cases hm : mapFind m.vocab m.unkToken with
            | some i => exact .unk i hk hf hu (.inr h2) hm
            | none => exact .noUnk hk hf hu (.inr h2) hm
    · rw [if_pos (by rw [fbIds] at hf; exact hf)]
      exact .bytes hk hf

theorem wordAdd_pend (L : List (Int × Nat)) (u : Int × Nat) :
    wordAdd (chain 0 L) u.1 u.2 = chain 0 (L ++ pend (some u)) := by
  rw [wordAdd_chain]; rfl

theorem addByte_chain (m : BPE) (b : Nat) (f l : Bool) (L : List (Int × Nat)) (unk : Option (Int × Nat)) :
    m.addByte b f l (chain 0 L) unk =
      (chain 0 (L ++ (byteSyms m b f l unk).1), (byteSyms m b f l unk).2) := by
  have h := byteSyms_case m b f l unk
  generalize byteSyms m b f l unk = R at h
  unfold BPE.addByte
  cases h with
  | known i hk =>
    simp only [hk]
    cases unk with
    | none => simp only [wordAdd_chain]; simp [pend]
    | some u => simp only [wordAdd_chain, List.append_assoc]; rfl
  | bytes hk hf =>
    have := foldl_wordAdd ((fbIds m (m.symbolKey b f l)).map fun i => (i, 1)) L
    rw [List.foldl_map] at this
    simp only [hk]
    rw [← this]
    rw [if_pos (by rw [fbIds] at hf; exact hf)]
    rfl
  | fuse u hk hf hl h1 h2 =>
    subst h2
    rw [fbIds] at hf
    simp only [hk, hf, ne_eq, not_true_eq_false, hl, not_false_eq_true, if_true, if_false, h1, List.append_nil]
  | unk i hk hf hl h1 h2 =>
    rw [fbIds] at hf
    simp only [hk, hf, ne_eq, not_true_eq_false, hl, not_false_eq_true, if_true, if_false, h2]
    cases unk with
    | none => simp [pend]
    | some u =>
      have h1 : m.fuseUnk = false := by rcases h1 with h | h; cases h; exact h
      simp only [h1, wordAdd_pend]
  | noUnk hk hf hl h1 h2 =>
    rw [fbIds] at hf
    simp only [hk, hf, ne_eq, not_true_eq_false, hl, not_false_eq_true, if_true, if_false, h2]
    cases unk with
    | none => simp [pend]
    | some u =>
      have h1 : m.fuseUnk = false := by rcases h1 with h | h; cases h; exact h
      simp only [h1, wordAdd_pend]
  | skip hk hf hl =>
    rw [fbIds] at hf
    simp only [hk, hf, ne_eq, not_true_eq_false, hl, if_false, List.append_nil]

theorem symbolsLoop_chain (m : BPE) (s : Str) : ∀ (f : Bool) (L : List (Int × Nat)) (unk : Option (Int × Nat)),
    m.symbolsLoop f s (chain 0 L) unk = chain 0 (L ++ symList m f s unk) := by
  induction s with
  | nil =>
    intro f L unk
    cases unk with
    | none => simp [BPE.symbolsLoop, symList, pend]
    | some u => simp only [BPE.symbolsLoop, wordAdd_pend, symList]
  | cons b r ih =>
    intro f L unk
    simp only [BPE.symbolsLoop, addByte_chain, symList]
    rw [ih]; simp

theorem symbols_chain (m : BPE) (s : Str) : m.symbols s = chain 0 (symList m true s none) := by
  have := symbolsLoop_chain m s true [] none
  simpa [BPE.symbols, chain] using this

/-- Pending unknown tokens have a positive length and are the unknown token. -/
def GoodPend (m : BPE) (unk : Option (Int × Nat)) : Prop :=
  ∀ u, unk = some u → 0 < u.2 ∧ m.unkToken.length ≠ 0 ∧ mapFind m.vocab m.unkToken = some u.1

theorem goodPend_none (m : BPE) : GoodPend m none := by intro u h; cases h

theorem byteSyms_spec (m : BPE) (b : Nat) (f l : Bool) (unk : Option (Int × Nat)) (hu : GoodPend m unk) :
    GoodPend m (byteSyms m b f l unk).2 ∧
    (∀ p ∈ (byteSyms m b f l unk).1, 0 < p.2 ∧ ∃ k, mapFind m.vocab k = some p.1) ∧
    (byteSyms m b f l unk).1.length + (pend (byteSyms m b f l unk).2).length ≤
      (m.pre.length + m.suf.length + 1) + (pend unk).length := by
  have hp : ∀ p ∈ pend unk, 0 < p.2 ∧ ∃ k, mapFind m.vocab k = some p.1 := by
    intro p hp
    cases unk with
    | none => simp [pend] at hp
    | some u => simp [pend] at hp; subst hp; exact ⟨(hu _ rfl).1, _, (hu _ rfl).2.2⟩
  have h := byteSyms_case m b f l unk
  generalize byteSyms m b f l unk = R at h
  cases h with
  | known i hk =>
    refine ⟨goodPend_none m, ?_, ?_⟩
    · intro p hp'
      simp only [List.mem_append, List.mem_singleton] at hp'
      rcases hp' with h' | rfl
      · exact hp p h'
      · exact ⟨by simp, _, hk⟩
    · simp only [List.length_append, List.length_singleton, pend, Option.toList, List.length_nil]; omega
  | bytes hk hf =>
    refine ⟨hu, ?_, ?_⟩
    · intro p hp'
      simp only [List.mem_map] at hp'
      obtain ⟨i, hi', rfl⟩ := hp'
      simp only [fbIds] at hi'
      split at hi'
      · simp only [fallbackIds, List.mem_filterMap] at hi'
        obtain ⟨c, _, hc⟩ := hi'
        exact ⟨by simp, _, hc⟩
      · simp at hi'
    · simp only [List.length_map]
      have : (fbIds m (m.symbolKey b f l)).length ≤ m.pre.length + m.suf.length + 1 := by
        unfold fbIds
        split
        · have h1 : (fallbackIds m.vocab (m.symbolKey b f l)).length ≤ (m.symbolKey b f l).length :=
            List.length_filterMap_le _ _
          have h2 : (m.symbolKey b f l).length ≤ m.pre.length + m.suf.length + 1 := by
            unfold BPE.symbolKey; simp only
            split <;> split <;> simp <;> omega
          omega
        · simp
      omega
  | fuse u hk hf hl h1 h2 =>
    subst h2
    refine ⟨?_, by simp, ?_⟩
    · intro v hv; cases hv
      obtain ⟨h1, h2, h3⟩ := hu _ rfl
      exact ⟨by simp, h2, h3⟩
    · simp [pend]
  | unk i hk hf hl h1 h2 =>
    refine ⟨?_, hp, ?_⟩
    · intro v hv; cases hv; exact ⟨by simp, hl, h2⟩
    · simp [pend]; omega
  | noUnk hk hf hl h1 h2 =>
    have hn : unk = none := by
      cases unk with
      | none => rfl
      | some u => rw [(hu _ rfl).2.2] at h2; cases h2
    subst hn
    exact ⟨hu, hp, by simp [pend]⟩
  | skip hk hf hl => exact ⟨hu, by simp, by simp⟩

theorem symList_spec (m : BPE) (s : Str) : ∀ (f : Bool) (unk : Option (Int × Nat)), GoodPend m unk →
    (∀ p ∈ symList m f s unk, 0 < p.2 ∧ ∃ k, mapFind m.vocab k = some p.1) ∧
    (symList m f s unk).length ≤ s.length * (m.pre.length + m.suf.length + 1) + (pend unk).length := by
  induction s with
  | nil =>
    intro f unk hu
    refine ⟨?_, by simp [symList]⟩
    intro p hp
    cases unk with
    | none => simp [symList, pend] at hp
    | some u => simp [symList, pend] at hp; subst hp; exact ⟨(hu _ rfl).1, _, (hu _ rfl).2.2⟩
  | cons b r ih =>
    intro f unk hu
    obtain ⟨h1, h2, h3⟩ := byteSyms_spec m b f r.isEmpty unk hu
    obtain ⟨g1, g2⟩ := ih false _ h1
    refine ⟨?_, ?_⟩
    · intro p hp
      simp only [symList, List.mem_append] at hp
      rcases hp with h | h
      · exact h2 p h
      · exact g1 p h
    · simp only [symList, List.length_append, List.length_cons, Nat.add_mul, Nat.one_mul] at *
      omega

end Tok
