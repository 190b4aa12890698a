import Verif.Props.Room
import Verif.Proofs.Room2
import Verif.Spec.Accents

set_option autoImplicit false

/-! Accent stripping, every case. -/

namespace Tok
open Spec

theorem ac_growIds : ∀ (o d : WStr) (i : Nat), Mismatches o d (growIds i o d).length := by
  intro o
  induction o with
  | nil => intro d i; cases d <;> exact .textEnds _
  | cons c o ih =>
    intro d i
    cases d with
    | nil => exact .decompositionEnds _
    | cons x d =>
      by_cases h : c = x
      · subst h; simp only [growIds, if_true]; exact .equal c (ih d (i + 1))
      · simp only [growIds, h, if_false, List.length_cons]
        cases d with
        | nil => cases o <;> exact .last h
        | cons y d => exact .differ h (ih d (i + 1))

theorem ac_unique {o d : WStr} {k k' : Nat} (h : Mismatches o d k) (h' : Mismatches o d k') : k = k' := by
  induction h generalizing k' with
  | textEnds d => cases h' <;> rfl
  | decompositionEnds o => cases h' <;> rfl
  | equal c _ ih =>
    cases h' with
    | equal _ h => exact ih h
    | last h => exact absurd rfl h
    | differ h _ => exact absurd rfl h
  | last hne =>
    cases h' with
    | equal _ h => exact absurd rfl hne
    | last _ => rfl
  | differ hne _ ih =>
    cases h' with
    | equal _ h => exact absurd rfl hne
    | differ _ h => rw [ih h]

theorem ac_grow_step {s : NS} {i : Nat} (h : i < s.ranges.length) :
    s.transform i .grow 0 = .ok { s with
      ranges := s.ranges.take i ++ [((s.ranges[i]).1, 1), ((s.ranges[i]).1 + 1, 1)] ++ s.ranges.drop (i + 1) } := by
  have : vecAt s.ranges i = .ok s.ranges[i] := by unfold vecAt; rw [List.getElem?_eq_getElem h]
  simp only [NS.transform, this, res_ok_bind, res_pure]

theorem ac_grow : ∀ (o r : WStr) (oi m : Nat) (s : NS), oi + m + o.length ≤ s.ranges.length →
    ∃ s', applyGrow (growIds oi o r) m s = .ok s' ∧ s'.ranges.length = s.ranges.length + (growIds oi o r).length ∧
      s'.normalized = s.normalized := by
  intro o
  induction o with
  | nil => intro r oi m s _; exact ⟨s, by cases r <;> rfl, by cases r <;> simp [growIds], rfl⟩
  | cons a o ih =>
    intro r oi m s h
    cases r with
    | nil => exact ⟨s, rfl, by simp [growIds], rfl⟩
    | cons b r =>
      simp only [List.length_cons] at h
      by_cases e : a = b
      · simp only [growIds, e, if_true]
        exact ih r (oi + 1) m s (by omega)
      · simp only [growIds, e, if_false, applyGrow]
        have hi : oi + m < s.ranges.length := by omega
        rw [ac_grow_step hi, res_ok_bind]
        obtain ⟨s', h1, h2, h3⟩ := ih (r.drop 1) (oi + 1) (m + 1)
          { s with ranges := s.ranges.take (oi + m) ++ [((s.ranges[oi + m]).1, 1), ((s.ranges[oi + m]).1 + 1, 1)] ++
                    s.ranges.drop (oi + m + 1) } (by simp; omega)
        refine ⟨s', h1, ?_, h3⟩
        rw [h2]
        simp; omega

theorem ac_shrink_step {s : NS} {i : Nat} (h : i < s.ranges.length) :
    s.transform i .shrink 0 = .ok { s with ranges := s.ranges.take i ++ s.ranges.drop (i + 1) } := by
  have : vecAt s.ranges i = .ok s.ranges[i] := by unfold vecAt; rw [List.getElem?_eq_getElem h]
  simp only [NS.transform, this, res_ok_bind, res_pure]

/-- `s'` has some of the entries of `s`, and the same vector of positions. -/
def Fewer (s s' : NS) (n : Nat) : Prop :=
  s'.ranges.Sublist s.ranges ∧ s'.ranges.length + n = s.ranges.length ∧ s'.offsets = s.offsets ∧ s'.normalized = s.normalized

theorem ac_shrink (P : Platform) : ∀ (w : WStr) (k removed : Nat) (s : NS), removed ≤ k →
    (∀ j, MarkAt P w j → k + j < s.ranges.length + removed) →
    ∃ s', applyShrink (nsmIds P k w) removed s = .ok s' ∧ Fewer s s' (nsmIds P k w).length := by
  intro w
  induction w with
  | nil => intro k removed s _ _; exact ⟨s, rfl, List.Sublist.refl _, rfl, rfl, rfl⟩
  | cons c w ih =>
    intro k removed s hk hl
    by_cases hc : P.isNSM c = true
    · simp only [nsmIds, hc, if_true, applyShrink]
      have h0 := hl 0 ⟨c, rfl, hc⟩
      have hi : k - removed < s.ranges.length := by omega
      rw [ac_shrink_step hi, res_ok_bind]
      obtain ⟨s', h1, h2, h3, h4, h5⟩ := ih (k + 1) (removed + 1)
        { s with ranges := s.ranges.take (k - removed) ++ s.ranges.drop (k - removed + 1) } (by omega) (by
          intro j hj
          have := hl (j + 1) hj
          simp; omega)
      refine ⟨s', h1, h2.trans ?_, ?_, h4, h5⟩
      · have e : s.ranges = s.ranges.take (k - removed) ++ s.ranges.drop (k - removed) := by simp
        conv => rhs; rw [e]
        refine List.Sublist.append (List.Sublist.refl _) ?_
        rw [← List.tail_drop]; exact List.tail_sublist _
      · simp at h3 ⊢; omega
    · simp only [nsmIds, hc, if_false, Bool.false_eq_true]
      exact ih (k + 1) removed s (by omega) fun j hj => by have := hl (j + 1) hj; omega

theorem ac_shrink_fails (P : Platform) : ∀ (w : WStr) (k removed : Nat) (s : NS), removed ≤ k →
    (¬ ∀ j, MarkAt P w j → k + j < s.ranges.length + removed) →
    applyShrink (nsmIds P k w) removed s = .error (.ub .outOfBounds) := by
  intro w
  induction w with
  | nil =>
    intro k removed s _ h
    exact absurd (fun j ⟨c, hc, _⟩ => by simp at hc) h
  | cons c w ih =>
    intro k removed s hk hl
    by_cases hc : P.isNSM c = true
    · simp only [nsmIds, hc, if_true, applyShrink]
      by_cases hi : k - removed < s.ranges.length
      · rw [ac_shrink_step hi, res_ok_bind]
        refine ih (k + 1) (removed + 1) _ (by omega) fun hall => hl fun j hj => ?_
        cases j with
        | zero => omega
        | succ j =>
          have := hall j hj
          simp at this; omega
      · rw [transform_outside .shrink (by omega)]; rfl
    · simp only [nsmIds, hc, if_false, Bool.false_eq_true]
      refine ih (k + 1) removed s (by omega) fun hall => hl fun j hj => ?_
      cases j with
      | zero =>
        obtain ⟨x, hx, hm⟩ := hj
        simp at hx; subst hx
        exact absurd hm hc
      | succ j => have := hall j hj; omega

theorem ac_strip (P : Platform) {s : NS} (hs : s.normalized.length ≤ s.ranges.length) {k : Nat}
    (hk : Mismatches s.normalized (P.nf .nfd (s.normalized.map sanitize)) k) :
    ((∀ j, MarkAt P (P.nf .nfd (s.normalized.map sanitize)) j → j < s.ranges.length + k) →
      ∃ s', doStripAccents P s = .ok s' ∧
        s'.normalized = (P.nf .nfd (s.normalized.map sanitize)).filter fun c => !P.isNSM c) ∧
    ((¬ ∀ j, MarkAt P (P.nf .nfd (s.normalized.map sanitize)) j → j < s.ranges.length + k) →
      doStripAccents P s = .error (.ub .outOfBounds)) := by
  obtain ⟨s1, h1, h2, -⟩ := ac_grow s.normalized (P.nf .nfd (s.normalized.map sanitize)) 0 0 s (by omega)
  have hkk := ac_unique hk (ac_growIds _ _ 0)
  unfold doStripAccents nfNormalize
  simp only [h1, res_ok_bind, res_pure]
  constructor
  · intro h
    obtain ⟨s2, h3, -⟩ := ac_shrink P (P.nf .nfd (s.normalized.map sanitize)) 0 0
      { s1 with normalized := P.nf .nfd (s.normalized.map sanitize) } (by omega) (by
        intro j hj; have := h j hj; simp only; omega)
    rw [h3]
    exact ⟨_, rfl, rfl⟩
  · intro h
    rw [ac_shrink_fails P _ 0 0 _ (by omega) fun hall => h fun j hj => by
      have := hall j hj; simp only at this; omega]
    rfl

/-- The text and the table fit: enough entries, none empty, enough positions, and two bytes at least for a character that
may have a decomposition. -/
structure Fit (s : NS) : Prop where
  entries : s.normalized.length ≤ s.ranges.length
  filled : ∀ r ∈ s.ranges, 0 < r.2
  covered : (s.ranges.map (·.2)).sum ≤ s.offsets.length
  wide : ∀ (i c : Nat) (r : Nat × Nat), s.normalized[i]? = some c → 0x80 ≤ c → s.ranges[i]? = some r → 2 ≤ r.2

theorem ac_oneMark : ∀ {o d : WStr}, OneMark o d → ∀ (oi m : Nat) (A B : List (Nat × Nat)) (s : NS), s.ranges = A ++ B →
    oi + m = A.length → o.length ≤ B.length → (∀ r ∈ A ++ B, 0 < r.2) →
    (∀ (i c : Nat) (r : Nat × Nat), o[i]? = some c → 0x80 ≤ c → B[i]? = some r → 2 ≤ r.2) →
    ∃ s', applyGrow (growIds oi o d) m s = .ok s' ∧ s'.offsets = s.offsets ∧
      s'.ranges.length + o.length = s.ranges.length + d.length ∧ (∀ r ∈ s'.ranges, 0 < r.2) ∧
      (s'.ranges.map (·.2)).sum ≤ (s.ranges.map (·.2)).sum := by
  intro o d h
  induction h with
  | nil =>
    intro oi m A B s hr _ _ hf _
    exact ⟨s, rfl, rfl, rfl, by rw [hr]; exact hf, Nat.le_refl _⟩
  | @same o d c _ ih =>
    intro oi m A B s hr hA hB hf hw
    cases B with
    | nil => simp at hB
    | cons b B =>
      simp only [growIds, if_true]
      obtain ⟨s', h1, h2, h3, h4, h5⟩ := ih (oi + 1) m (A ++ [b]) B s (by simp [hr]) (by simp; omega) (by simpa using hB)
        (by simpa using hf) fun i c r h1 h2 h3 => hw (i + 1) c r (by simpa using h1) h2 (by simpa using h3)
      exact ⟨s', h1, h2, by simp; omega, h4, h5⟩
  | @accent o d c x y hc hne _ ih =>
    intro oi m A B s hr hA hB hf hw
    cases B with
    | nil => simp at hB
    | cons b B =>
      simp only [growIds, if_neg hne, applyGrow, List.drop_succ_cons, List.drop_zero]
      have hi : oi + m < s.ranges.length := by rw [hr]; simp; omega
      have hb : 2 ≤ b.2 := hw 0 c b rfl hc rfl
      rw [ac_grow_step hi, res_ok_bind]
      have e1 : s.ranges.take (oi + m) = A := by rw [hr, hA]; simp
      have e2 : s.ranges.drop (oi + m + 1) = B := by rw [hr, hA]; simp
      rw [e1, e2]
      generalize (s.ranges[oi + m]).1 = q
      obtain ⟨s', h1, h2, h3, h4, h5⟩ := ih (oi + 1) (m + 1) (A ++ [(q, 1), (q + 1, 1)]) B
        { s with ranges := A ++ [(q, 1), (q + 1, 1)] ++ B } rfl (by simp; omega) (by simpa using hB) (by
          intro r hm
          simp only [List.mem_append, List.mem_cons, List.not_mem_nil, or_false] at hm
          rcases hm with (hm | rfl | rfl) | hm
          · exact hf r (by simp [hm])
          · simp
          · simp
          · exact hf r (by simp [hm])) fun i c r h1 h2 h3 => hw (i + 1) c r (by simpa using h1) h2 (by simpa using h3)
      refine ⟨s', h1, h2, ?_, h4, Nat.le_trans h5 ?_⟩
      · rw [hr]; simp at h3 ⊢; omega
      · rw [hr]; simp; omega

theorem ac_nsm_length (P : Platform) : ∀ (w : WStr) (k : Nat),
    (nsmIds P k w).length + (w.filter fun c => !P.isNSM c).length = w.length := by
  intro w
  induction w with
  | nil => intro k; rfl
  | cons c w ih =>
    intro k
    have := ih (k + 1)
    by_cases h : P.isNSM c = true <;> simp [nsmIds, h] <;> omega

theorem ac_sum_sublist {l m : List (Nat × Nat)} (h : l.Sublist m) : (l.map (·.2)).sum ≤ (m.map (·.2)).sum := by
  induction h with
  | slnil => simp
  | cons a _ ih => simp; omega
  | cons_cons a _ ih => simp; omega

/-- Accent stripping of a text whose characters have at most one accent returns; if a character is left, the result is
usable. -/
theorem ac_usable (P : Platform) {s : NS} (hs : Fit s)
    (h : OneMark s.normalized (P.nf .nfd (s.normalized.map sanitize))) :
    ∃ s', doStripAccents P s = .ok s' ∧
      s'.normalized = (P.nf .nfd (s.normalized.map sanitize)).filter (fun c => !P.isNSM c) ∧
      (s'.normalized ≠ [] → Usable s') := by
  obtain ⟨s1, h1, h2, h3, h4, h5⟩ := ac_oneMark h 0 0 [] s.ranges s rfl rfl hs.entries (by simpa using hs.filled) hs.wide
  have hent := hs.entries
  obtain ⟨s2, g1, g2, g3, g4, -⟩ := ac_shrink P (P.nf .nfd (s.normalized.map sanitize)) 0 0
    { s1 with normalized := P.nf .nfd (s.normalized.map sanitize) } (by omega) (by
      rintro j ⟨c, hc, -⟩
      have := (List.getElem?_eq_some_iff.1 hc).1
      simp only; omega)
  refine ⟨{ s2 with normalized := (P.nf .nfd (s.normalized.map sanitize)).filter fun c => !P.isNSM c }, ?_, rfl, ?_⟩
  · unfold doStripAccents nfNormalize
    simp only [h1, res_ok_bind, res_pure, g1]
  · intro hne
    have hl := ac_nsm_length P (P.nf .nfd (s.normalized.map sanitize)) 0
    refine ⟨hne, ?_, fun r hr => h4 r (g2.subset hr), ?_⟩
    · simp only at g3 ⊢; omega
    · have := ac_sum_sublist g2
      have := hs.covered
      simp only at *; rw [g4]; simp only [h2]; omega

end Tok
