import Verif.Proofs.BPEPieces
import Verif.Props.Unicode

set_option autoImplicit false

/-!
Lemmas for losslessness of BPE, for its cache, and for dropout.
-/

namespace Tok
open Spec

/-! ### Spelling -/

/-- The pieces, the first of which starts at byte `pos` of `s`, have the ids of what they cover. -/
def SpellsFrom (V : Str → Option Int) (pre suf s : Str) : Nat → List (Int × Nat) → Prop
  | pos, [] => pos = s.length
  | pos, p :: r => 0 < p.2 ∧ V (spelling pre suf s (pos, pos + p.2)) = some p.1 ∧
      SpellsFrom V pre suf s (pos + p.2) r

theorem spellsFrom_le {V : Str → Option Int} {pre suf s : Str} {l : List (Int × Nat)} : ∀ {pos : Nat},
    SpellsFrom V pre suf s pos l → pos ≤ s.length := by
  induction l with
  | nil => intro pos h; exact Nat.le_of_eq h
  | cons p r ih => intro pos h; have := ih h.2.2; omega

theorem spelling_join {pre suf s : Str} {a b c : Nat} (hab : a < b) (hbc : b < c) (hc : c ≤ s.length) :
    spelling pre suf s (a, b) ++ (spelling pre suf s (b, c)).drop pre.length = spelling pre suf s (a, c) := by
  unfold spelling
  simp only
  have h1 : ¬ b = 0 := by omega
  have h2 : ¬ b = s.length := by omega
  rw [if_neg h1, if_neg h2, List.append_nil, List.append_assoc pre, List.drop_left]
  simp only [List.append_assoc]
  congr 1
  rw [← List.append_assoc]
  congr 1
  have : s.drop b = (s.drop a).drop (b - a) := by rw [List.drop_drop]; congr 1; omega
  rw [this]
  have e : c - a = (b - a) + (c - b) := by omega
  rw [e, List.take_add]

theorem spells_merge {V : Str → Option Int} {pre suf s : Str} {T : Table}
    (hT : ∀ r a b n, T r a b n → ∃ p q, V p = some a ∧ V q = some b ∧ V (p ++ q.drop pre.length) = some n)
    (hinj : DistinctIds V) {A B : List (Int × Nat)} {a b : Int × Nat} {n : Int} {r : Nat} (ht : T r a.1 b.1 n) :
    ∀ pos, SpellsFrom V pre suf s pos (A ++ a :: b :: B) →
      SpellsFrom V pre suf s pos (A ++ (n, a.2 + b.2) :: B) := by
  induction A with
  | nil =>
    intro pos h
    simp only [List.nil_append, SpellsFrom] at h ⊢
    obtain ⟨h1, h2, h3, h4, h5⟩ := h
    obtain ⟨p, q, g1, g2, g3⟩ := hT _ _ _ _ ht
    have e1 := hinj _ _ _ g1 h2
    have e2 := hinj _ _ _ g2 h4
    refine ⟨by omega, ?_, by rw [← Nat.add_assoc]; exact h5⟩
    rw [e1, e2, spelling_join (by omega) (by omega) (spellsFrom_le h5), Nat.add_assoc] at g3
    exact g3
  | cons p A ih =>
    intro pos h
    simp only [List.cons_append, SpellsFrom] at h ⊢
    exact ⟨h.1, h.2.1, ih _ h.2.2⟩

theorem spells_many {V : Str → Option Int} {pre suf s : Str} {T : Table}
    (hT : ∀ r a b n, T r a b n → ∃ p q, V p = some a ∧ V q = some b ∧ V (p ++ q.drop pre.length) = some n)
    (hinj : DistinctIds V) {a b : List (Int × Nat)} (h : MergeMany T a b)
    (ha : SpellsFrom V pre suf s 0 a) : SpellsFrom V pre suf s 0 b := by
  induction h with
  | refl => exact ha
  | step _ h ih => cases h with | mk ht => exact spells_merge hT hinj ht 0 ih

/-- The symbols of a word all of whose bytes have entries. -/
theorem symList_spells (m : BPE) (r : Str) : ∀ (x : Str),
    (∀ i, i < r.length → ∃ id, mapFind m.vocab (spelling m.pre m.suf (x ++ r) (x.length + i, x.length + i + 1)) = some id) →
    SpellsFrom (tokenToId m.vocab) m.pre m.suf (x ++ r) x.length (symList m x.isEmpty r none) := by
  induction r with
  | nil => intro x _; simp [symList, pend, SpellsFrom]
  | cons b r ih =>
    intro x hall
    obtain ⟨id, h0⟩ := hall 0 (by simp)
    rw [Nat.add_zero] at h0
    have hih := ih (x ++ [b]) (by
      intro i hi
      obtain ⟨id, h⟩ := hall (i + 1) (by simp; omega)
      refine ⟨id, ?_⟩
      simpa [show x.length + 1 + i = x.length + (i + 1) by omega] using h)
    simp only [isEmpty_snoc, List.append_assoc, List.singleton_append, List.length_append,
      List.length_singleton] at hih
    have hs : byteSyms m b x.isEmpty r.isEmpty none = ([(id, 1)], none) := by
      unfold byteSyms
      rw [symbolKey_eq, h0]; rfl
    simp only [symList, hs]
    exact ⟨by simp, h0, hih⟩

theorem spells_tokens {V : Str → Option Int} {pre suf s : Str} {ts : List Token} : ∀ {pos e : Nat},
    SpellsFrom V pre suf s pos (piecesOf ts) → Tiles pos (ts.map (·.offsets)) e →
    e = s.length ∧ ∀ t ∈ ts, V (spelling pre suf s t.offsets) = some t.id := by
  induction ts with
  | nil => intro pos e h1 h2; simp only [piecesOf, List.map_nil, SpellsFrom, Tiles] at h1 h2; exact ⟨by omega, by simp⟩
  | cons t ts ih =>
    intro pos e h1 h2
    obtain ⟨tid, tv, ta, tb⟩ := t
    simp only [piecesOf, List.map_cons, SpellsFrom, Tiles] at h1 h2
    obtain ⟨g1, g2, g3⟩ := h2
    obtain ⟨f1, f2, f3⟩ := h1
    have e1 : pos + (tb - ta) = tb := by omega
    rw [e1] at f2 f3
    obtain ⟨i1, i2⟩ := ih f3 g3
    refine ⟨i1, ?_⟩
    intro u hu
    simp only [List.mem_cons] at hu
    rcases hu with rfl | hu
    · subst g1; exact f2
    · exact i2 u hu

/-! ### The cache -/

/-- The model with an empty cache. -/
def BPE.fresh (m : BPE) : BPE := { m with cache := [] }

theorem mergeWord_fresh (P : Platform) (m : BPE) (s : Str) (c : List (Str × List Symbol)) :
    BPE.mergeWord P { m with cache := c } s = m.mergeWord P s := by
  have hk : ∀ b f l, BPE.symbolKey { m with cache := c } b f l = m.symbolKey b f l := fun _ _ _ => rfl
  have hl : ∀ (r : Str) f w u, BPE.symbolsLoop { m with cache := c } f r w u = m.symbolsLoop f r w u := by
    intro r
    induction r with
    | nil => intro f w u; rfl
    | cons b r ih => intro f w u; simp only [BPE.symbolsLoop]; rw [ih]; rfl
  unfold BPE.mergeWord BPE.symbols
  rw [hl]

theorem wordToTokens_fresh (m : BPE) (c : List (Str × List Symbol)) (w : List Symbol) : ∀ pos,
    BPE.wordToTokens { m with cache := c } pos w = m.wordToTokens pos w := by
  induction w with
  | nil => intro pos; rfl
  | cons s r ih => intro pos; simp only [BPE.wordToTokens, ih]

/-- The cache holds what merging would give. -/
def CacheOk (P : Platform) (m : BPE) : Prop :=
  ∀ s w, mapFind m.cache s = some w → m.mergeWord P s = .ok w ∧ ∃ ts, m.wordToTokens 0 w = .ok ts

theorem word_cache (P : Platform) (m : BPE) (s : Str) (h : CacheOk P m) :
    (m.word P s).1 = (m.fresh.word P s).1 ∧ CacheOk P (m.word P s).2 ∧ (m.word P s).2.fresh = m.fresh := by
  unfold BPE.word BPE.tokenizeWithCache BPE.fresh
  simp only [mergeWord_fresh, wordToTokens_fresh]
  split
  · split
    · exact ⟨rfl, h, rfl⟩
    · simp only [mapFind]
      split
      · rename_i w hw
        obtain ⟨h1, ts, h2⟩ := h s w hw
        simp only [h1, h2]
        exact ⟨trivial, h, trivial⟩
      · rename_i hw
        split
        · exact ⟨rfl, h, rfl⟩
        · rename_i w hm
          split
          · exact ⟨rfl, h, rfl⟩
          · rename_i ts ht
            refine ⟨rfl, ?_, rfl⟩
            intro s' w' hf
            simp only [mapFind_insert] at hf
            rw [mergeWord_fresh, wordToTokens_fresh]
            split at hf
            · rename_i e; subst e
              rw [hw] at hf; cases hf
              exact ⟨hm, ts, ht⟩
            · exact h s' w' hf
  · split
    · exact ⟨rfl, h, rfl⟩
    · exact ⟨rfl, h, rfl⟩

theorem splitsLoop_cache (P : Platform) (l : List Split) : ∀ (m : BPE), CacheOk P m →
    (BPE.splitsLoop P m l).1 = (BPE.splitsLoop P m.fresh l).1 ∧ CacheOk P (BPE.splitsLoop P m l).2 ∧
      (BPE.splitsLoop P m l).2.fresh = m.fresh := by
  induction l with
  | nil => intro m h; exact ⟨rfl, h, rfl⟩
  | cons s r ih =>
    intro m h
    obtain ⟨h1, h2, h3⟩ := word_cache P m s.normalized h
    have hfr : CacheOk P m.fresh := by intro s w hw; simp [BPE.fresh, mapFind] at hw
    obtain ⟨f1, f2, f3⟩ := word_cache P m.fresh s.normalized hfr
    simp only [BPE.splitsLoop]
    generalize hw : m.word P s.normalized = R at h1 h2 h3
    generalize hw' : m.fresh.word P s.normalized = R' at h1 f1 f2 f3
    obtain ⟨res, m1⟩ := R
    obtain ⟨res', m1'⟩ := R'
    simp only at h1 h2 h3 f1 f2 f3
    subst h1
    cases res with
    | error e => exact ⟨rfl, h2, h3⟩
    | ok ts =>
      simp only
      obtain ⟨i1, i2, i3⟩ := ih m1 h2
      obtain ⟨j1, j2, j3⟩ := ih m1' f2
      have hff : m1'.fresh = m.fresh := by rw [f3]; rfl
      rw [h3] at i1 i3
      rw [hff] at j1
      generalize BPE.splitsLoop P m1 r = Q at i1 i2 i3
      generalize BPE.splitsLoop P m1' r = Q' at j1
      obtain ⟨q, m2⟩ := Q
      obtain ⟨q', m2'⟩ := Q'
      simp only at i1 i2 i3 j1
      have hqq : q = q' := i1.trans j1.symm
      subst hqq
      cases q with
      | error e => exact ⟨rfl, i2, i3⟩
      | ok rest => exact ⟨rfl, i2, i3⟩

end Tok

namespace Tok
open Spec

/-! ### Dropout -/

theorem mergeStep_off (P : Platform) (merges : Merges) (d d' : Dropout) (h : d.on = false) (h' : d'.on = false)
    (st : MState) : mergeStep P merges d st = mergeStep P merges d' st := by
  unfold mergeStep
  rw [h, h']; rfl

theorem mergeLoop_off (P : Platform) (merges : Merges) (d d' : Dropout) (h : d.on = false) (h' : d'.on = false) :
    ∀ (n : Nat) (st : MState), mergeLoop P merges d n st = mergeLoop P merges d' n st := by
  intro n
  induction n with
  | zero => intro st; rfl
  | succ n ih =>
    intro st
    simp only [mergeLoop]
    rw [mergeStep_off P merges d d' h h', funext ih]

theorem mergeAll_off (P : Platform) (merges : Merges) (d d' : Dropout) (h : d.on = false) (h' : d'.on = false)
    (w : List Symbol) : mergeAll P merges d w = mergeAll P merges d' w := by
  unfold mergeAll
  rw [funext fun n => funext fun st => mergeLoop_off P merges d d' h h' n st]

theorem mergeLoop_drop (P : Platform) (merges : Merges) (d : Dropout) (h : d.on = true) (h' : ∀ k, d.draw k = true) :
    ∀ (n : Nat) (st : MState), P.pq.inv st.queue → st.queue.length < n → mergeLoop P merges d n st = .ok st.syms := by
  intro n
  induction n with
  | zero => intro st _ hl; omega
  | succ n ih =>
    intro st hinv hl
    simp only [mergeLoop, mergeStep]
    cases hp : P.pq.pop st.queue with
    | none => rfl
    | some r =>
      obtain ⟨top, q⟩ := r
      simp only [h, h', Bool.and_self, if_true]
      have h1 := P.pq.pop_inv _ _ _ hinv hp
      have h2 := (P.pq.pop_perm _ _ _ hinv hp).length_eq
      simp only [List.length_cons] at h2
      exact ih ⟨st.syms, q, st.skip ++ [top], st.drawn + 1⟩ h1 (by simp only; omega)

theorem mergeAll_drop (P : Platform) (merges : Merges) (d : Dropout) (h : d.on = true) (h' : ∀ k, d.draw k = true)
    (w : List Symbol) (hne : w ≠ []) : mergeAll P merges d w = .ok (w.filter fun s => s.len ≠ 0) := by
  unfold mergeAll
  split
  · exact absurd rfl hne
  · have hq := initQueue_spec P merges w 0 [] P.pq.inv_nil
    rw [mergeLoop_drop P merges d h h' _ _ hq.1]
    · rfl
    · have := hq.2.1
      simp only [List.length_nil] at this
      have hpos : 0 < w.length := List.length_pos_iff.2 hne
      have : w.length ≤ mergeFuel w.length := by
        unfold mergeFuel
        have := Nat.mul_le_mul (show 1 ≤ 4 * w.length + 1 by omega) (show w.length ≤ 4 * w.length + 1 by omega)
        omega
      simp only; omega

/-- Without merges nothing is merged. -/
theorem initQueue_nil (P : Platform) (w : List Symbol) : ∀ i, initQueue P [] i w [] = [] := by
  induction w with
  | nil => intro i; rfl
  | cons a w ih =>
    intro i
    cases w with
    | nil => rfl
    | cons b r => simp only [initQueue, pushPair, mapFind]; exact ih (i + 1)

theorem mergeAll_none (P : Platform) (d : Dropout) (w : List Symbol) (hne : w ≠ []) :
    mergeAll P [] d w = .ok (w.filter fun s => s.len ≠ 0) := by
  unfold mergeAll
  split
  · exact absurd rfl hne
  · simp only [initQueue_nil, mergeFuel]
    have : (4 * w.length + 1) * (4 * w.length + 1) = ((4 * w.length + 1) * (4 * w.length + 1) - 1) + 1 := by
      have := Nat.mul_le_mul (show 1 ≤ 4 * w.length + 1 by omega) (show 1 ≤ 4 * w.length + 1 by omega)
      omega
    rw [this]
    simp only [mergeLoop, mergeStep, P.pq.pop_nil]
    rfl

end Tok
