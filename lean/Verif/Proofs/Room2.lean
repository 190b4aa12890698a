import Verif.Proofs.Room

set_option autoImplicit false

namespace Tok
open Spec

/-! ### Single steps on a table with room -/

theorem room_units (w : WStr) : Room (unitLens (fromUTF32 w)) (NS.ofText w) := by
  have h := ofText_tab w
  exact ⟨h.ranges, h.pos, by rw [h.offsets]; exact Nat.le_refl _⟩

theorem Room.usable {lens : List Nat} {s : NS} (h : Room lens s) (h0 : s.normalized ≠ []) (hl : s.normalized.length ≤ lens.length) :
    Usable s := by
  refine ⟨h0, ?_, ?_, ?_⟩
  · rw [h.ranges]; simpa using hl
  · intro r hr
    have : r.2 ∈ lens := by
      have := List.mem_map_of_mem (f := (·.2)) hr
      rwa [h.ranges, mkRanges_snd] at this
    exact h.pos _ this
  · rw [h.ranges, mkRanges_snd]; exact h.enough

theorem room_text {lens : List Nat} {s : NS} (h : Room lens s) (w : WStr) : Room lens { s with normalized := w } :=
  ⟨h.ranges, h.pos, h.enough⟩

theorem replace_step {s : NS} {A B : List Nat} {k n : Nat} (h : Room (A ++ k :: B) s) (hn : 0 < n) :
    ∃ s', s.transform A.length .replace n = .ok s' ∧ Room (A ++ n :: B) s' := by
  have hk : 0 < k := h.pos k (by simp)
  have hen := h.enough
  simp only [List.sum_append, List.sum_cons] at hen
  have hr : vecAt s.ranges A.length = .ok (A.sum, k) := by
    unfold vecAt; rw [h.ranges, mkRanges_get]; simp [List.take_left']
  obtain ⟨o, hv⟩ : ∃ o, vecAt s.offsets A.sum = .ok o := by
    unfold vecAt
    rw [List.getElem?_eq_getElem (by omega)]; exact ⟨_, rfl⟩
  have hd : (s.ranges.drop (A.length + 1)).map (·.2) = B := by
    rw [h.ranges, List.map_drop, mkRanges_snd, List.drop_append, List.drop_eq_nil_of_le (by simp)]; simp
  have ht : s.ranges.take A.length = mkRanges 0 A := by
    rw [h.ranges, mkRanges_take]; simp
  have hins : ∀ l, insertAt s.offsets A.sum l = .ok (s.offsets.take A.sum ++ l ++ s.offsets.drop A.sum) := by
    intro l; unfold insertAt; rw [if_pos (by omega)]
  refine ⟨{ s with
      offsets := s.offsets.take A.sum ++ List.replicate (n - 1) o ++ s.offsets.drop A.sum
      ranges := mkRanges 0 A ++ [(A.sum, n)] ++ mkRanges (A.sum + n) B }, ?_, ⟨?_, ?_, ?_⟩⟩
  · simp only [NS.transform, hr, res_ok_bind, hv, if_neg (show n ≠ 0 by omega), hins, res_pure, hd, ht]
  · rw [mkRanges_append]
    simp [mkRanges]
  · intro x hx
    simp only [List.mem_append, List.mem_cons] at hx
    rcases hx with hx | rfl | hx
    · exact h.pos x (by simp [hx])
    · exact hn
    · exact h.pos x (by simp [hx])
  · simp only [List.sum_append, List.sum_cons, List.length_append, List.length_take, List.length_replicate, List.length_drop]
    omega

theorem transform_outside {s : NS} {i n : Nat} (op : TOp) (h : s.ranges.length ≤ i) :
    s.transform i op n = .error (.ub .outOfBounds) := by
  unfold NS.transform vecAt
  rw [List.getElem?_eq_none h]; rfl

/-- The table update of Replace: it returns exactly if every shifted index is inside the table. -/
theorem applyReplace_exact {n : Nat} (hn : 0 < n) : ∀ (is : List Nat) (m : Nat) (lens : List Nat) (s : NS), Room lens s →
    ((∀ j i : Nat, is[j]? = some i → i + m + j < lens.length) →
      ∃ s' lens', applyReplace is m 1 n s = .ok s' ∧ Room lens' s' ∧ lens'.length = lens.length) ∧
    ((¬ ∀ j i : Nat, is[j]? = some i → i + m + j < lens.length) → applyReplace is m 1 n s = .error (.ub .outOfBounds)) := by
  intro is
  induction is with
  | nil =>
    intro m lens s h
    exact ⟨fun _ => ⟨s, lens, rfl, h, rfl⟩, fun hn => absurd (by simp) hn⟩
  | cons i is ih =>
    intro m lens s h
    by_cases hi : i + m < lens.length
    · obtain ⟨s', h1, h2⟩ := replace_step (A := lens.take (i + m)) (k := lens[i + m]) (B := lens.drop (i + m + 1)) (n := n)
        (by rw [List.getElem_cons_drop, List.take_append_drop]; exact h) hn
      have hl : (lens.take (i + m)).length = i + m := by rw [List.length_take]; omega
      rw [hl] at h1
      have hlen : (lens.take (i + m) ++ n :: lens.drop (i + m + 1)).length = lens.length := by simp; omega
      obtain ⟨g1, g2⟩ := ih (m + 1) _ s' h2
      rw [hlen] at g1 g2
      have key : (∀ j x : Nat, (i :: is)[j]? = some x → x + m + j < lens.length) ↔
          ∀ j x : Nat, is[j]? = some x → x + (m + 1) + j < lens.length := by
        constructor
        · intro hh j x hx
          have := hh (j + 1) x (by simpa using hx)
          omega
        · intro hh j x hx
          cases j with
          | zero => simp at hx; subst hx; omega
          | succ j =>
            have := hh j x (by simpa using hx)
            omega
      rw [key]
      simp only [applyReplace, h1, res_ok_bind]
      exact ⟨g1, g2⟩
    · refine ⟨fun hh => absurd (hh 0 i rfl) (by simpa using hi), fun _ => ?_⟩
      simp only [applyReplace]
      rw [transform_outside .replace (by rw [h.ranges]; simp; omega)]
      rfl

theorem overwriteAll_returns {c : Nat} : ∀ (ms : List (Nat × Nat)) (w : WStr), (∀ m ∈ ms, m.1 < w.length) →
    ∃ r, overwriteAll ms c w = .ok r := by
  intro ms
  induction ms with
  | nil => intro w _; exact ⟨w, rfl⟩
  | cons m ms ih =>
    intro w h
    obtain ⟨p, q⟩ := m
    simp only [overwriteAll]
    rw [if_pos (h (p, q) (by simp))]
    exact ih _ fun m hm => by rw [List.length_set]; exact h m (by simp [hm])

theorem overwriteAll_fails {c : Nat} : ∀ (ms : List (Nat × Nat)) (w : WStr), (¬ ∀ m ∈ ms, m.1 < w.length) →
    overwriteAll ms c w = .error (.ub .outOfBounds) := by
  intro ms
  induction ms with
  | nil => intro w h; exact absurd (by simp) h
  | cons m ms ih =>
    intro w h
    obtain ⟨p, q⟩ := m
    simp only [overwriteAll]
    split
    · rename_i hp
      refine ih _ fun hh => h ?_
      intro m hm
      rcases List.mem_cons.1 hm with rfl | hm
      · exact hp
      · have := hh m hm; rwa [List.length_set] at this
    · rfl

/-- Replace by one character, on a table with room. -/
theorem replace_room (P : Platform) {pattern content : Str} {pw : WStr} {c : Nat} {find : WStr → List (Nat × Nat)}
    (hp : Utf8Text pw pattern) (hc : Utf8Text [c] content) (hf : P.wregex pw = some find) {lens : List Nat} {s : NS}
    (h : Room lens s) :
    ((∀ j m, (find s.normalized)[j]? = some m → m.1 < s.normalized.length ∧ m.1 + j < lens.length) →
      ∃ s' lens', (Normalizer.replace pattern content).run P s = .ok s' ∧ Room lens' s' ∧ lens'.length = lens.length) ∧
    ((¬ ∀ j m, (find s.normalized)[j]? = some m → m.1 < s.normalized.length ∧ m.1 + j < lens.length) →
      (Normalizer.replace pattern content).run P s = .error (.ub .outOfBounds)) := by
  obtain ⟨hs, rfl⟩ := utf8Text_iff.1 hp
  obtain ⟨hs', rfl⟩ := utf8Text_iff.1 hc
  have hn : 0 < (utf8 [c]).length := by simpa [utf8] using utf8Enc1_length_pos c
  simp only [Normalizer.run, replaceNormalize, convertFromString_utf8 hs, convertFromString_utf8 hs', res_ok_bind, hf]
  cases hm : find s.normalized with
  | nil => exact ⟨fun _ => ⟨s, lens, rfl, h, rfl⟩, fun hh => absurd (by simp) hh⟩
  | cons m ms =>
    simp only
    have hone : ∀ w, ((∀ j i : Nat, ((m :: ms).map (·.1))[j]? = some i → i + 0 + j < lens.length) →
        ∃ s' lens', applyReplace ((m :: ms).map (·.1)) 0 1 (utf8 [c]).length { s with normalized := w } = .ok s' ∧ Room lens' s' ∧ lens'.length = lens.length) ∧
        ((¬ ∀ j i : Nat, ((m :: ms).map (·.1))[j]? = some i → i + 0 + j < lens.length) →
          applyReplace ((m :: ms).map (·.1)) 0 1 (utf8 [c]).length { s with normalized := w } = .error (.ub .outOfBounds)) :=
      fun w => applyReplace_exact hn _ 0 lens _ (room_text h w)
    by_cases hw : ∀ x ∈ m :: ms, x.1 < s.normalized.length
    · obtain ⟨w, hw'⟩ := overwriteAll_returns (c := c) _ _ hw
      rw [hw']
      simp only [res_ok_bind]
      have key : (∀ j x, (m :: ms)[j]? = some x → x.1 < s.normalized.length ∧ x.1 + j < lens.length) ↔
          ∀ j i : Nat, ((m :: ms).map (·.1))[j]? = some i → i + 0 + j < lens.length := by
        constructor
        · intro hh j i hi
          rw [List.getElem?_map, Option.map_eq_some_iff] at hi
          obtain ⟨x, hx, rfl⟩ := hi
          exact (hh j x hx).2
        · intro hh j x hx
          exact ⟨hw x (List.mem_of_getElem? hx), hh j x.1 (by rw [List.getElem?_map, hx]; rfl)⟩
      rw [key]
      refine ⟨fun hh => ?_, fun hh => ?_⟩
      · obtain ⟨s', lens', e, r1, r2⟩ := (hone w).1 hh
        exact ⟨s', lens', by rw [e], r1, r2⟩
      · rw [(hone w).2 hh]
    · refine ⟨fun hh => absurd (fun x hx => ?_) hw, fun _ => ?_⟩
      · obtain ⟨j, hj⟩ := List.getElem?_of_mem hx
        exact (hh j x hj).1
      · rw [overwriteAll_fails _ _ hw]; rfl

/-- Prepend one character, on a table with room. -/
theorem prepend_room (P : Platform) {pre : Str} {c : Nat} (hc : Utf8Text [c] pre) {lens : List Nat} {s : NS} (h : Room lens s)
    (h0 : lens ≠ []) :
    ∃ s', (Normalizer.prepend pre).run P s = .ok s' ∧ s'.normalized = c :: s.normalized ∧ Room (pre.length :: lens) s' := by
  obtain ⟨hs, rfl⟩ := utf8Text_iff.1 hc
  have hn : 0 < (utf8 [c]).length := by simpa [utf8] using utf8Enc1_length_pos c
  cases lens with
  | nil => exact absurd rfl h0
  | cons k B =>
    have hk : 0 < k := h.pos k (by simp)
    have hen := h.enough
    simp only [List.sum_cons] at hen
    have hr : vecAt s.ranges 0 = .ok (0, k) := by unfold vecAt; rw [h.ranges]; rfl
    obtain ⟨o, hv⟩ : ∃ o, vecAt s.offsets 0 = .ok o := by
      unfold vecAt
      rw [List.getElem?_eq_getElem (by omega)]; exact ⟨_, rfl⟩
    have hd : (s.ranges.drop 1).map (·.2) = B := by rw [h.ranges, List.map_drop, mkRanges_snd]; rfl
    refine ⟨{ normalized := c :: s.normalized
              offsets := List.replicate (utf8 [c]).length o ++ s.offsets
              ranges := [(0, (utf8 [c]).length), (0 + (utf8 [c]).length, k)] ++ mkRanges (0 + (utf8 [c]).length + k) B }, ?_, rfl, ?_, ?_, ?_⟩
    · simp only [Normalizer.run, prependNormalize, convertFromString_utf8 hs, res_ok_bind, NS.transform, hr, hv,
        insertAt, Nat.zero_le, if_true, res_pure, List.take_zero, List.nil_append, List.drop_zero, Nat.zero_add, hd]
      rfl
    · simp [mkRanges]
    · intro x hx
      rcases List.mem_cons.1 hx with rfl | hx
      · exact hn
      · exact h.pos x hx
    · simp only [List.sum_cons, List.length_append, List.length_replicate]; omega

end Tok
