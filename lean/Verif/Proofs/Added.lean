import Verif.Proofs.Maps
import Verif.Spec.History

set_option autoImplicit false

namespace Tok
open Spec

/-! ### `register_specials` -/

theorem registerSpecials_map (l : List AddedToken) : ∀ a : AddedVocab,
    (registerSpecials l a).map = a.map ∧ (registerSpecials l a).mapR = a.mapR ∧
    (registerSpecials l a).addedTokens = a.addedTokens := by
  induction l with
  | nil => intro a; exact ⟨rfl, rfl, rfl⟩
  | cons t r ih =>
    intro a
    simp only [registerSpecials]
    split
    · exact ih _
    · exact ih _

theorem registerSpecials_isSpecial (l : List AddedToken) : ∀ (a : AddedVocab) (c : Str),
    (registerSpecials l a).isSpecial c = true ↔
      a.isSpecial c = true ∨ ∃ t ∈ l, t.special = true ∧ t.content ≠ [] ∧ t.content = c := by
  induction l with
  | nil => intro a c; simp [registerSpecials]
  | cons t r ih =>
    intro a c
    simp only [registerSpecials]
    split
    · rename_i h
      rw [ih]
      simp only [AddedVocab.isSpecial, List.contains_eq_mem, List.mem_append,
        decide_eq_true_eq, List.mem_cons, exists_eq_or_imp, List.not_mem_nil, or_false]
      constructor
      · rintro ((h1 | h1) | h1)
        · exact .inl h1
        · exact .inr (.inl ⟨h.1, h.2.1, h1.symm⟩)
        · exact .inr (.inr h1)
      · rintro (h1 | (⟨_, _, h1⟩ | h1))
        · exact .inl (.inl h1)
        · exact .inl (.inr h1.symm)
        · exact .inr h1
    · rename_i h
      rw [ih]
      simp only [List.mem_cons, exists_eq_or_imp]
      constructor
      · rintro (h1 | h1)
        · exact .inl h1
        · exact .inr (.inr h1)
      · rintro (h1 | (⟨h2, h3, h1⟩ | h1))
        · exact .inl h1
        · subst h1
          cases hs : a.isSpecial t.content
          · exact absurd ⟨h2, h3, hs⟩ h
          · exact .inl rfl
        · exact .inr h1

/-! ### ids -/

theorem maxId_none {m : List (Str × Int)} (h : maxId m = none) : m = [] := by
  cases m with
  | nil => rfl
  | cons p r =>
    obtain ⟨k, v⟩ := p
    simp only [maxId] at h
    split at h <;> cases h

theorem maxId_some {m : List (Str × Int)} : ∀ {w : Int}, maxId m = some w →
    (∀ p ∈ m, p.2 ≤ w) ∧ ∃ p ∈ m, p.2 = w := by
  induction m with
  | nil => intro w h; cases h
  | cons p r ih =>
    intro w h
    obtain ⟨k, v⟩ := p
    simp only [maxId] at h
    split at h
    · rename_i hr
      have := maxId_none hr; subst this
      cases h
      exact ⟨by simp, by simp⟩
    · rename_i w' hr
      obtain ⟨h1, p, hp, hpw⟩ := ih hr
      simp only [Option.some.injEq] at h
      split at h
      · subst h
        exact ⟨by rintro q (_ | ⟨_, hq⟩); · simp; omega
                  exact h1 q hq, p, by simp [hp], hpw⟩
      · subst h
        refine ⟨?_, (k, v), by simp, rfl⟩
        intro q hq
        rcases List.mem_cons.1 hq with rfl | hq
        · simp
        · have := h1 q hq; omega

/-- What `newId` answers. -/
theorem newId_some (a : AddedVocab) (v : Vocab) (c : Str) {i : Int} (h : newId a (some v) c = .ok i) :
    mapFind a.map c = some i ∨
    (mapFind a.map c = none ∧ tokenToId v c = some i) ∨
    (mapFind a.map c = none ∧ tokenToId v c = none ∧ (v = [] ∨ vocabSize v ≤ i) ∧ ∀ p ∈ a.map, p.2 < i) := by
  unfold newId at h
  split at h
  · rename_i j hj; cases h; exact .inl hj
  · rename_i hn
    simp only at h
    split at h
    · rename_i j hj; cases h; exact .inr (.inl ⟨hn, hj⟩)
    · rename_i hv
      refine .inr (.inr ⟨hn, hv, ?_⟩)
      split at h
      · rename_i hm
        have := maxId_none hm
        split at h
        · cases h
        · cases h; rw [this]; simp [vocabSize]
      · rename_i w hm
        have h1 := (maxId_some hm).1
        have h0 : 0 ≤ vocabSize v := by simp [vocabSize]
        split at h
        · rename_i hc
          simp only [Except.ok.injEq] at h
          subst h
          refine ⟨?_, fun p hp => by have := h1 p hp; omega⟩
          rcases hc with hc | hc
          · refine .inl ?_
            cases v with
            | nil => rfl
            | cons p r => simp [vocabSize] at hc; omega
          · exact .inr (by omega)
        · cases h
          rename_i hc
          refine ⟨.inr (Int.le_refl _), ?_⟩
          intro p hp
          have := h1 p hp
          omega

/-! ### `assign_ids` -/

/-- One step of the loop. -/
theorem assignIds_cons {M : Option Vocab} {al : Bool} {t : AddedToken} {r : List AddedToken} {a a' : AddedVocab}
    (h : assignIds M al (t :: r) a = .ok a') :
    (t.content = [] ∧ assignIds M al r a = .ok a') ∨
    (t.content ≠ [] ∧ ∃ i a1, newId a M t.content = .ok i ∧ assignIds M al r a1 = .ok a' ∧
      a1.map = mapSet a.map t.content i ∧ a1.mapR = mapSet a.mapR i t ∧
      a1.specialTokens = a.specialTokens ∧ a1.specialSet = a.specialSet ∧
      a1.addedTokens = a.addedTokens ++ (if a.isSpecial t.content then [] else [t]) ∧
      (al = true → a.isSpecial t.content = true)) := by
  simp only [assignIds] at h
  split at h
  · rename_i hc; exact .inl ⟨hc, h⟩
  · rename_i hc
    refine .inr ⟨hc, ?_⟩
    obtain ⟨i, hi, h⟩ := res_bind_ok.1 h
    refine ⟨i, ?_⟩
    split at h
    · rename_i hs
      have hs : a.isSpecial t.content = true := hs
      exact ⟨_, hi, h, rfl, rfl, rfl, rfl, by simp [hs], fun _ => hs⟩
    · rename_i hs
      have hs : ¬ a.isSpecial t.content = true := hs
      split at h
      · cases h
      · rename_i hal
        exact ⟨_, hi, h, rfl, rfl, rfl, rfl, by simp [hs], fun hh => absurd hh hal⟩

theorem assignIds_keeps {M : Option Vocab} {al : Bool} (l : List AddedToken) : ∀ {a a' : AddedVocab},
    assignIds M al l a = .ok a' → ∀ c i, mapFind a.map c = some i → mapFind a'.map c = some i := by
  induction l with
  | nil => intro a a' h; cases h; exact fun _ _ h => h
  | cons t r ih =>
    intro a a' h c i hc
    rcases assignIds_cons h with ⟨_, h⟩ | ⟨_, j, a1, hj, h, hm, -⟩
    · exact ih h c i hc
    · refine ih h c i ?_
      rw [hm, mapFind_set]
      split
      · rename_i he
        subst he
        unfold newId at hj
        rw [hc] at hj
        exact congrArg some (Except.ok.inj hj).symm
      · exact hc

theorem assignIds_records {M : Option Vocab} {al : Bool} (l : List AddedToken) : ∀ {a a' : AddedVocab},
    assignIds M al l a = .ok a' → ∀ t ∈ l, t.content ≠ [] → ∃ i, mapFind a'.map t.content = some i := by
  induction l with
  | nil => intro a a' _ t ht; cases ht
  | cons t r ih =>
    intro a a' h x hx hne
    rcases assignIds_cons h with ⟨he, h'⟩ | ⟨_, j, a1, hj, h', hm, -⟩
    · rcases List.mem_cons.1 hx with rfl | hx
      · exact absurd he hne
      · exact ih h' x hx hne
    · rcases List.mem_cons.1 hx with rfl | hx
      · exact ⟨j, assignIds_keeps r h' _ _ (by rw [hm, mapFind_set]; simp)⟩
      · exact ih h' x hx hne

/-- Only given contents get recorded. -/
theorem assignIds_only {M : Option Vocab} {al : Bool} (l : List AddedToken) : ∀ {a a' : AddedVocab},
    assignIds M al l a = .ok a' → ∀ c i, mapFind a'.map c = some i →
      mapFind a.map c = some i ∨ ∃ t ∈ l, t.content = c ∧ c ≠ [] := by
  induction l with
  | nil => intro a a' h; cases h; exact fun _ _ h => .inl h
  | cons t r ih =>
    intro a a' h c i hc
    rcases assignIds_cons h with ⟨he, h⟩ | ⟨hne, j, a1, hj, h, hm, -⟩
    · rcases ih h c i hc with h1 | ⟨x, hx, h1⟩
      · exact .inl h1
      · exact .inr ⟨x, by simp [hx], h1⟩
    · rcases ih h c i hc with h1 | ⟨x, hx, h1⟩
      · rw [hm, mapFind_set] at h1
        split at h1
        · rename_i he; exact .inr ⟨t, by simp, he, he ▸ hne⟩
        · exact .inl h1
      · exact .inr ⟨x, by simp [hx], h1⟩

/-- What holds of the recorded ids over a dense vocabulary. -/
structure AInv (v : Vocab) (a : AddedVocab) : Prop where
  known : ∀ c i, mapFind a.map c = some i →
    tokenToId v c = some i ∨ (tokenToId v c = none ∧ (v = [] ∨ vocabSize v ≤ i))
  inj : ∀ c c' i, mapFind a.map c = some i → mapFind a.map c' = some i → c = c'
  back : ∀ c i, mapFind a.map c = some i → ∃ t, mapFind a.mapR i = some t ∧ t.content = c

theorem denseVocab_inj {v : Vocab} (h : DenseVocab v) {c c' : Str} {i : Int} (h1 : tokenToId v c = some i)
    (h2 : tokenToId v c' = some i) : c = c' := by
  have m1 := mapFind_mem h1
  have m2 := mapFind_mem h2
  have := h.2.1
  clear h h1 h2
  induction v with
  | nil => cases m1
  | cons p r ih =>
    simp only [List.map_cons, List.nodup_cons, List.mem_map, not_exists, not_and] at this
    rcases List.mem_cons.1 m1 with h1 | h1 <;> rcases List.mem_cons.1 m2 with h2 | h2
    · exact (Prod.ext_iff.1 (h1.trans h2.symm)).1
    · exact absurd (congrArg Prod.snd h1) (this.1 (c', i) h2)
    · exact absurd (congrArg Prod.snd h2) (this.1 (c, i) h1)
    · exact ih h1 h2 this.2

theorem denseVocab_lt {v : Vocab} (h : DenseVocab v) {c : Str} {i : Int} (h1 : tokenToId v c = some i) :
    i < vocabSize v ∧ v ≠ [] := by
  have m1 := mapFind_mem h1
  exact ⟨(h.2.2 _ m1).2, by rintro rfl; cases m1⟩

theorem assignIds_inv {v : Vocab} (hv : DenseVocab v) {al : Bool} (l : List AddedToken) : ∀ {a a' : AddedVocab},
    assignIds (some v) al l a = .ok a' → AInv v a → AInv v a' := by
  induction l with
  | nil => intro a a' h; cases h; exact fun h => h
  | cons t r ih =>
    intro a a' h ha
    rcases assignIds_cons h with ⟨_, h⟩ | ⟨_, j, a1, hj, h, hm, hr, -⟩
    · exact ih h ha
    · refine ih h ?_
      have hj' := newId_some a v t.content hj
      -- the id is not recorded for another content
      have fresh : ∀ c, mapFind a.map c = some j → c = t.content := by
        intro c hc
        rcases hj' with h1 | ⟨h1, h2⟩ | ⟨h1, h2, h3, h4⟩
        · exact ha.inj _ _ _ hc h1
        · rcases ha.known c j hc with h3 | ⟨h3, h4⟩
          · exact denseVocab_inj hv h3 h2
          · have := denseVocab_lt hv h2
            rcases h4 with h4 | h4
            · exact absurd h4 this.2
            · omega
        · have := h4 _ (mapFind_mem hc)
          simp at this
      refine ⟨?_, ?_, ?_⟩
      · intro c i hc
        rw [hm, mapFind_set] at hc
        split at hc
        · rename_i he; subst he
          cases hc
          rcases hj' with h1 | ⟨h1, h2⟩ | ⟨h1, h2, h3, h4⟩
          · exact ha.known _ _ h1
          · exact .inl h2
          · exact .inr ⟨h2, h3⟩
        · exact ha.known c i hc
      · intro c c' i hc hc'
        rw [hm, mapFind_set] at hc hc'
        split at hc <;> split at hc'
        · rename_i h1 h2; exact h1.symm.trans h2
        · rename_i h1 h2; cases hc; exact h1.symm.trans (fresh _ hc').symm
        · rename_i h1 h2; cases hc'; exact (fresh _ hc).trans h2
        · exact ha.inj _ _ _ hc hc'
      · intro c i hc
        rw [hm, mapFind_set] at hc
        rw [hr, mapFind_set]
        split at hc
        · rename_i he; cases hc; exact ⟨t, by simp, he⟩
        · rename_i he
          obtain ⟨x, hx, hxc⟩ := ha.back c i hc
          split
          · rename_i hji; subst hji; exact absurd (fresh c hc).symm he
          · exact ⟨x, hx, hxc⟩

/-! ### `add_tokens` -/

/-- `refresh_added_tokens` only rebuilds the two lookup tables. -/
theorem refresh_ok {a a' : AddedVocab} {M : Option Vocab} (h : a.refresh M = .ok a') :
    a'.map = a.map ∧ a'.mapR = a.mapR ∧ a'.specialSet = a.specialSet ∧ a'.specialTokens = a.specialTokens ∧
    a'.addedTokens = a.addedTokens := by
  unfold AddedVocab.refresh at h
  split at h
  · split at h
    · cases h; exact ⟨rfl, rfl, rfl, rfl, rfl⟩
    · cases h
  · cases h; exact ⟨rfl, rfl, rfl, rfl, rfl⟩

theorem addTokensCore_ok {a a' : AddedVocab} {M : Option Vocab} {al : Bool} {l : List AddedToken} {n : Nat}
    (h : a.addTokensCore M al l = .ok (n, a')) :
    n = l.length - (l.filter fun t => t.content = []).length ∧
    ∃ a1, assignIds M al l (registerSpecials l a) = .ok a1 ∧ a1.refresh M = .ok a' := by
  unfold AddedVocab.addTokensCore at h
  obtain ⟨a1, h1, h⟩ := res_bind_ok.1 h
  obtain ⟨a2, h2, h⟩ := res_bind_ok.1 h
  have := Except.ok.inj h
  cases this
  exact ⟨rfl, a1, h1, h2⟩

theorem assignIds_special {M : Option Vocab} {al : Bool} (l : List AddedToken) : ∀ {a a' : AddedVocab},
    assignIds M al l a = .ok a' → a'.specialSet = a.specialSet ∧ a'.specialTokens = a.specialTokens := by
  induction l with
  | nil => intro a a' h; cases h; exact ⟨rfl, rfl⟩
  | cons t r ih =>
    intro a a' h
    rcases assignIds_cons h with ⟨_, h⟩ | ⟨_, j, a1, hj, h, hm, hr, hs, hss, -⟩
    · exact ih h
    · have := ih h
      exact ⟨this.1.trans hss, this.2.trans hs⟩

/-! ### `find_matches`, `extract_and_normalize` -/

/-- `a'` is `a` except that default entries may have been inserted for ids of the lookup
tables. -/
structure Touched (a a' : AddedVocab) : Prop where
  same : a' = { a with mapR := a'.mapR }
  keeps : ∀ i t, mapFind a.mapR i = some t → mapFind a'.mapR i = some t
  new : ∀ i t, mapFind a'.mapR i = some t → mapFind a.mapR i = some t ∨
    (mapFind a.mapR i = none ∧ t = {} ∧ ∃ p ∈ a.nonNormTrie ++ a.normTrie, p.2 = i)

theorem Touched.refl (a : AddedVocab) : Touched a a := ⟨rfl, fun _ _ h => h, fun _ _ h => .inl h⟩

theorem Touched.trans {a b c : AddedVocab} (h : Touched a b) (h' : Touched b c) : Touched a c := by
  refine ⟨?_, fun i t x => h'.keeps i t (h.keeps i t x), ?_⟩
  · rw [h'.same, h.same]
  · intro i t x
    rcases h'.new i t x with h1 | ⟨h1, h2, h3⟩
    · exact h.new i t h1
    · refine .inr ⟨?_, h2, ?_⟩
      · cases hf : mapFind a.mapR i with
        | none => rfl
        | some y => rw [h.keeps i y hf] at h1; cases h1
      · rw [h.same] at h3; exact h3

theorem mapFind_insert' {κ ν : Type} [DecidableEq κ] (m : List (κ × ν)) (k k' : κ) (v : ν) :
    mapFind (mapInsert m k v) k' = match mapFind m k' with
      | some x => some x
      | none => if k = k' then some v else none := by
  unfold mapInsert
  cases h : mapFind m k with
  | some x =>
    simp only
    cases h' : mapFind m k' with
    | some y => rfl
    | none =>
      simp only
      split
      · rename_i he; subst he; rw [h] at h'; cases h'
      · rfl
  | none =>
    simp only
    rw [mapFind_append]
    cases h' : mapFind m k' with
    | some y => simp
    | none => simp [mapFind]

theorem touchIds_find (ms : List (Nat × Nat × Int)) : ∀ (m : List (Int × AddedToken)) (i : Int),
    mapFind (touchIds ms m) i = match mapFind m i with
      | some x => some x
      | none => if ∃ x ∈ ms, x.2.2 = i then some {} else none := by
  induction ms with
  | nil => intro m i; simp only [touchIds]; cases mapFind m i <;> simp
  | cons x r ih =>
    intro m i
    obtain ⟨s, e, id⟩ := x
    rw [touchIds, ih, mapFind_insert']
    cases h : mapFind m i with
    | some y => rfl
    | none =>
      simp only [List.mem_cons, exists_eq_or_imp]
      by_cases he : id = i
      · simp [he]
      · rw [if_neg he]; simp only [he, false_or]

theorem wordIds_mem {trie : List (Str × Int)} {k : Str} {i : Int} (h : mapFind (wordIds trie) k = some i) :
    (k, i) ∈ trie := by
  have gen : ∀ (l : List (Str × Int)) (m : List (Str × Int)),
      mapFind (l.foldl (fun m p => mapSet m p.1 p.2) m) k = some i → (k, i) ∈ l ∨ mapFind m k = some i := by
    intro l
    induction l with
    | nil => intro m h; exact .inr h
    | cons p r ih =>
      intro m h
      rcases ih _ h with h1 | h1
      · exact .inl (by simp [h1])
      · rw [mapFind_set] at h1
        split at h1
        · rename_i he; cases h1; exact .inl (by simp [← he])
        · exact .inr h1
  rcases gen trie [] h with h1 | h1
  · exact h1
  · cases h1

theorem scan_mem (trie : List (Str × Int)) (u : U16) (rest : U16) : ∀ (i cur : Nat),
    ∀ x ∈ scan (wordIds trie) u rest i cur, ∃ p ∈ trie, p.2 = x.2.2 := by
  induction rest with
  | nil =>
    intro i cur x hx
    simp only [scan] at hx
    split at hx
    · split at hx
      · rename_i k hk
        simp only [List.mem_singleton] at hx; subst hx
        exact ⟨_, wordIds_mem hk, rfl⟩
      · cases hx
    · cases hx
  | cons c r ih =>
    intro i cur x hx
    simp only [scan] at hx
    split at hx
    · rename_i k hk
      rcases List.mem_cons.1 hx with rfl | hx
      · exact ⟨_, wordIds_mem hk, rfl⟩
      · exact ih _ _ x hx
    · exact ih _ _ x hx

theorem findMatches_touched (a : AddedVocab) (s : Str) (trie : List (Str × Int))
    (ht : ∀ p ∈ trie, p ∈ a.nonNormTrie ++ a.normTrie) : Touched a (a.findMatches s trie).2 := by
  unfold AddedVocab.findMatches
  refine ⟨rfl, ?_, ?_⟩
  · intro i t h
    simp only
    rw [touchIds_find, h]
  · intro i t h
    simp only at h
    rw [touchIds_find] at h
    cases hf : mapFind a.mapR i with
    | some y => rw [hf] at h; exact .inl h
    | none =>
      rw [hf] at h
      simp only at h
      split at h
      · rename_i he
        obtain ⟨x, hx, rfl⟩ := he
        obtain ⟨p, hp, hpi⟩ := scan_mem trie _ _ _ _ x hx
        cases h
        exact .inr ⟨rfl, rfl, p, ht p hp, hpi⟩
      · cases h

theorem firstSplits_touched (a : AddedVocab) (w : WStr) : Touched a (a.firstSplits w).2 := by
  unfold AddedVocab.firstSplits
  split
  · exact Touched.refl a
  · split
    · exact Touched.refl a
    · exact findMatches_touched a _ _ (fun p hp => List.mem_append_left _ hp)

theorem normalizeSplit_touched (P : Platform) (norm : Option Normalizer) (a : AddedVocab) (ns : NS) (e : Nat)
    (s : Split) : Touched a (normalizeSplit P norm a ns e s).2 := by
  unfold normalizeSplit
  simp only
  split
  · exact Touched.refl a
  · exact findMatches_touched a _ _ (fun p hp => List.mem_append_right _ hp)

theorem normalizeLoop_touched (P : Platform) (norm : Option Normalizer) (l : List Split) :
    ∀ (a : AddedVocab) (ns : NS) (e : Nat), Touched a (normalizeLoop P norm a ns e l).2 := by
  induction l with
  | nil => intro a ns e; exact Touched.refl a
  | cons s r ih =>
    intro a ns e
    simp only [normalizeLoop]
    split
    · have := ih a ns (e + s.normalized.length)
      split
      · rename_i h; rw [h] at this; exact this
      · rename_i h; rw [h] at this; exact this
    · have h1 := normalizeSplit_touched P norm a ns e s
      split
      · rename_i h; rw [h] at h1; exact h1
      · rename_i ns' here n a' h
        rw [h] at h1
        have h2 := ih a' ns' (e + n)
        split
        · rename_i h; rw [h] at h2; exact h1.trans h2
        · rename_i h; rw [h] at h2; exact h1.trans h2

theorem extract_touched (P : Platform) (norm : Option Normalizer) (a : AddedVocab) (w : WStr) :
    Touched a (a.extract P norm w).2 := by
  unfold AddedVocab.extract
  have h1 := firstSplits_touched a w
  split
  · rename_i h; rw [h] at h1; exact h1
  · rename_i p a' h
    rw [h] at h1
    have h2 := normalizeLoop_touched P norm p.splits a' p.normalized 0
    split
    · rename_i h; rw [h] at h2; exact h1.trans h2
    · rename_i h; rw [h] at h2; exact h1.trans h2

end Tok
