import Verif.Spec.Clean
import Verif.Proofs.Normalizer

set_option autoImplicit false

/-!
BERT text cleaning on arbitrary text.
-/

namespace Tok
open Spec

/-! ### The table made for a text -/

theorem cl_at (A B : U16) (c : Nat) (hc : isLead c = false) (ht : isTrail c = false) :
    char32At (A ++ c :: B) A.length = c := by
  unfold char32At
  rw [List.getElem?_append_right (Nat.le_refl _)]
  simp [hc, ht]

theorem cl_lead (A B : U16) (h l : Nat) (hh : isLead h = true) (hl : isTrail l = true) :
    char32At (A ++ h :: l :: B) A.length = pairCode h l := by
  unfold char32At
  rw [List.getElem?_append_right (Nat.le_refl _), List.getElem?_append_right (by omega)]
  simp [hh, hl]

theorem cl_trail (A B : U16) (h l : Nat) (hh : isLead h = true) (hl : isTrail l = true) :
    char32At (A ++ h :: l :: B) (A.length + 1) = pairCode h l := by
  have hn : isLead l = false := by
    unfold isTrail at hl
    simp at hl
    unfold isLead
    simp
    omega
  unfold char32At
  rw [List.getElem?_append_right (by omega), show A.length + 1 - A.length = 1 by omega]
  simp [hh, hl, hn]

theorem cl_char (A B : U16) (c : Nat) :
    (∀ i, i < (utf16Enc1 (sanitize c)).length →
      char32At (A ++ utf16Enc1 (sanitize c) ++ B) (A.length + i) = sanitize c) ∧
    sizesOf c = List.replicate (utf16Enc1 (sanitize c)).length (utf8Enc1 (sanitize c)).length := by
  by_cases hs : isScalar c = true
  · have hv : sanitize c = c := by simp [sanitize, hs]
    rw [hv]
    have hs' : c < 0xD800 ∨ (0xE000 ≤ c ∧ c < 0x110000) := by
      unfold isScalar at hs; simpa using hs
    by_cases hb : c < 0x10000
    · refine ⟨?_, ?_⟩
      · intro i hi
        simp only [utf16Enc1, if_pos hb, List.length_singleton] at hi
        rw [show i = 0 by omega, Nat.add_zero]
        simp only [utf16Enc1, if_pos hb, List.append_assoc, List.singleton_append]
        apply cl_at
        · unfold isLead; simp; omega
        · unfold isTrail; simp; omega
      · unfold sizesOf utf8Enc1
        rw [if_neg (by omega)]
        simp only [utf16Enc1, if_pos hb, List.length_singleton, List.replicate_one]
        by_cases h1 : c < 0x80
        · simp [h1]
        · by_cases h2 : c < 0x800
          · simp [h1, h2]
          · simp [h1, h2]
    · have hh : isLead (0xD800 + (c - 0x10000) / 1024) = true := by unfold isLead; simp; omega
      have hl : isTrail (0xDC00 + (c - 0x10000) % 1024) = true := by unfold isTrail; simp; omega
      have hp : pairCode (0xD800 + (c - 0x10000) / 1024) (0xDC00 + (c - 0x10000) % 1024) = c := by
        unfold pairCode; omega
      refine ⟨?_, ?_⟩
      · intro i hi
        simp only [utf16Enc1, if_neg hb, List.length_cons, List.length_nil] at hi
        simp only [utf16Enc1, if_neg hb, List.append_assoc, List.cons_append, List.nil_append]
        rcases (show i = 0 ∨ i = 1 by omega) with rfl | rfl
        · rw [Nat.add_zero, cl_lead _ _ _ _ hh hl, hp]
        · rw [cl_trail _ _ _ _ hh hl, hp]
      · unfold sizesOf utf8Enc1
        rw [if_pos (by omega)]
        simp [utf16Enc1, hb, show ¬ c < 0x80 by omega, show ¬ c < 0x800 by omega]
  · have hv : sanitize c = 0xFFFD := by simp [sanitize, hs]
    rw [hv]
    have hs' : ¬ (c < 0xD800 ∨ (0xE000 ≤ c ∧ c < 0x110000)) := by
      unfold isScalar at hs; simpa using hs
    refine ⟨?_, ?_⟩
    · intro i hi
      simp [utf16Enc1] at hi
      subst hi
      simp only [utf16Enc1, Nat.add_zero, List.append_assoc]
      exact cl_at A B 0xFFFD (by decide) (by decide)
    · unfold sizesOf
      rw [if_neg (by omega), if_neg (by omega), if_neg (by omega)]
      decide

/-- The table made for a text, for every text. -/
theorem cl_sizes_at (A : U16) (w : WStr) :
    (List.range (fromUTF32 w).length).map
      (fun i => (utf8Enc1 (sanitize (char32At (A ++ fromUTF32 w) (A.length + i)))).length) = sizes w := by
  induction w generalizing A with
  | nil => rfl
  | cons c w ih =>
    have hf : fromUTF32 (c :: w) = utf16Enc1 (sanitize c) ++ fromUTF32 w := by simp [fromUTF32, utf16]
    obtain ⟨h1, h2⟩ := cl_char A (fromUTF32 w) c
    have hss : sanitize (sanitize c) = sanitize c := by
      unfold sanitize
      by_cases h : isScalar c = true
      · simp [h]
      · simp [h]
    rw [hf, List.length_append, List.range_add, List.map_append]
    simp only [sizes, List.flatMap_cons]
    congr 1
    · rw [h2, List.eq_replicate_iff]
      refine ⟨by simp, ?_⟩
      intro x hx
      obtain ⟨i, hi, rfl⟩ := List.mem_map.1 hx
      rw [List.mem_range] at hi
      have := h1 i hi
      rw [List.append_assoc] at this
      rw [this, hss]
    · have := ih (A ++ utf16Enc1 (sanitize c))
      rw [List.map_map, ← show sizes w = w.flatMap sizesOf from rfl, ← this]
      apply List.map_congr_left
      intro i _
      simp only [Function.comp, List.append_assoc, List.length_append]
      rw [Nat.add_assoc]

theorem cl_sizes (w : WStr) : unitLens (fromUTF32 w) = sizes w := by
  have := cl_sizes_at [] w
  simp only [List.nil_append, List.length_nil, Nat.zero_add] at this
  exact this

/-! ### Cleaning -/

/-- The table during cleaning: `m` entries of total size `F` are gone, the entries from position `i` on are those of
the original table from `i + m` on. -/
structure CleanTabX (L : List Nat) (i m F : Nat) (A : List (Nat × Nat)) (s : NS) : Prop where
  bytes : s.offsets.length + F = L.sum
  ranges : s.ranges = A ++ (mkRanges 0 L).drop (i + m)
  before : A.length = i ∨ L.length ≤ i + m

/-- `Enough`, step by step. -/
def EnoughFrom (L : List Nat) : Nat → List Nat → Prop
  | _, [] => True
  | F, e :: r => e < L.length ∧ F ≤ (L.drop (e + 1)).sum ∧ EnoughFrom L (F + L.getD e 0) r

theorem cl_enough (L : List Nat) : ∀ (l : List Nat) (F : Nat), EnoughFrom L F l ↔
    ∀ (k e : Nat), l[k]? = some e → e < L.length ∧ F + ((l.take k).map fun x => L.getD x 0).sum ≤ (L.drop (e + 1)).sum
  | [], F => by simp [EnoughFrom]
  | e :: r, F => by
    simp only [EnoughFrom, cl_enough L r]
    constructor
    · rintro ⟨h1, h2, h3⟩ k x hk
      cases k with
      | zero => simp at hk; subst hk; exact ⟨h1, by simpa using h2⟩
      | succ k =>
        obtain ⟨h4, h5⟩ := h3 k x (by simpa using hk)
        refine ⟨h4, ?_⟩
        simp only [List.take_succ_cons, List.map_cons, List.sum_cons]
        omega
    · intro h
      obtain ⟨h1, h2⟩ := h 0 e rfl
      refine ⟨h1, by simpa using h2, fun k x hk => ?_⟩
      obtain ⟨h4, h5⟩ := h (k + 1) x (by simpa using hk)
      refine ⟨h4, ?_⟩
      simp only [List.take_succ_cons, List.map_cons, List.sum_cons] at h5
      omega

theorem cl_split (L : List Nat) {e : Nat} (he : e < L.length) :
    L.sum = (L.take e).sum + L.getD e 0 + (L.drop (e + 1)).sum := by
  have h1 : L = L.take e ++ L[e] :: L.drop (e + 1) := by
    rw [List.getElem_cons_drop, List.take_append_drop]
  have h2 := congrArg List.sum h1
  rw [List.sum_append, List.sum_cons] at h2
  rw [List.getD_eq_getElem?_getD, List.getElem?_eq_getElem he]
  simp only [Option.getD_some]
  omega

theorem cl_next {α : Type} (l : List α) (e : Nat) : (l.drop e).take 1 ++ l.drop (e + 1) = l.drop e := by
  rw [← List.drop_drop, List.take_append_drop]

theorem cl_entry {L : List Nat} {e : Nat} (he : e < L.length) :
    (mkRanges 0 L).drop e = ((L.take e).sum, L.getD e 0) :: (mkRanges 0 L).drop (e + 1) := by
  have hl : e < (mkRanges 0 L).length := by simpa using he
  have hg : (mkRanges 0 L)[e] = ((L.take e).sum, L.getD e 0) := by
    have := mkRanges_get L 0 e
    rw [List.getElem?_eq_getElem hl, List.getElem?_eq_getElem he] at this
    simp only [Option.map_some, Option.some.injEq, Nat.zero_add] at this
    rw [this, List.getD_eq_getElem?_getD, List.getElem?_eq_getElem he]; rfl
  rw [List.drop_eq_getElem_cons hl, hg]

theorem cl_erase {L : List Nat} {i m F : Nat} {A : List (Nat × Nat)} {s : NS} (h : CleanTabX L i m F A s)
    (h1 : i + m < L.length) (h2 : F ≤ (L.drop (i + m + 1)).sum) :
    ∃ s', s.transform i .erase 0 = .ok s' ∧
      CleanTabX L (i + 1) (m + 1) (F + L.getD (i + m) 0) (A ++ ((mkRanges 0 L).drop (i + m + 1)).take 1) s' := by
  obtain ⟨h3, h4, h5⟩ := h
  have hA : A.length = i := by omega
  have hsum := cl_split L h1
  rw [cl_entry h1] at h4
  have hr : s.ranges[i]? = some ((L.take (i + m)).sum, L.getD (i + m) 0) := by
    rw [h4, ← hA, List.getElem?_append_right (Nat.le_refl _)]; simp
  have hlen : i < s.ranges.length := (List.getElem?_eq_some_iff.1 hr).1
  generalize L.getD (i + m) 0 = b at *
  refine ⟨{ s with offsets := s.offsets.take (L.take (i + m)).sum ++ s.offsets.drop ((L.take (i + m)).sum + b),
                   ranges := s.ranges.take i ++ s.ranges.drop (i + 1) }, ?_, ?_, ?_, ?_⟩
  · have e1 : eraseRange s.offsets (L.take (i + m)).sum ((L.take (i + m)).sum + b)
        = .ok (s.offsets.take (L.take (i + m)).sum ++ s.offsets.drop ((L.take (i + m)).sum + b)) := by
      unfold eraseRange; rw [if_pos (by omega)]
    have e2 : eraseRange s.ranges i (i + 1) = .ok (s.ranges.take i ++ s.ranges.drop (i + 1)) := by
      unfold eraseRange; rw [if_pos (by omega)]
    simp [NS.transform, vecAt, hr, e1, e2]
  · simp; omega
  · have t1 : s.ranges.take i = A := by rw [h4, ← hA]; simp
    have t2 : s.ranges.drop (i + 1) = (mkRanges 0 L).drop (i + m + 1) := by
      rw [h4, ← List.drop_drop, ← hA]; simp
    simp only [t1, t2]
    rw [show i + 1 + (m + 1) = i + m + 1 + 1 by omega, List.append_assoc, cl_next]
  · by_cases hq : i + m + 1 < L.length
    · left
      simp only [List.length_append, List.length_take, List.length_drop, mkRanges_length]
      omega
    · right; omega

theorem cl_fails {L : List Nat} {i m F : Nat} {A : List (Nat × Nat)} {s : NS} (hpos : ∀ k ∈ L, 0 < k)
    (h : CleanTabX L i m F A s) (hA : A.length ≤ i)
    (h2 : ¬ (i + m < L.length ∧ F ≤ (L.drop (i + m + 1)).sum)) :
    s.transform i .erase 0 = .error (.ub .outOfBounds) := by
  obtain ⟨h3, h4, h5⟩ := h
  by_cases hc : i + m < L.length
  · have hA : A.length = i := by omega
    have hsum := cl_split L hc
    have hp : 0 < L.getD (i + m) 0 := by
      rw [List.getD_eq_getElem?_getD, List.getElem?_eq_getElem hc]; exact hpos _ (List.getElem_mem hc)
    rw [cl_entry hc] at h4
    have hr : s.ranges[i]? = some ((L.take (i + m)).sum, L.getD (i + m) 0) := by
      rw [h4, ← hA, List.getElem?_append_right (Nat.le_refl _)]; simp
    generalize L.getD (i + m) 0 = b at *
    have e1 : eraseRange s.offsets (L.take (i + m)).sum ((L.take (i + m)).sum + b)
        = .error (.ub .outOfBounds) := by
      unfold eraseRange; rw [if_neg (by omega)]
    simp [NS.transform, vecAt, hr, e1]
  · have hd : (mkRanges 0 L).drop (i + m) = [] := List.drop_eq_nil_iff.2 (by simp; omega)
    rw [hd, List.append_nil] at h4
    have hr : s.ranges[i]? = none := by rw [h4]; exact List.getElem?_eq_none hA
    simp [NS.transform, vecAt, hr]

theorem cl_loop (P : Platform) (L : List Nat) (hpos : ∀ k ∈ L, 0 < k) :
    ∀ (w : WStr) (i m F : Nat) (acc : WStr) (A : List (Nat × Nat)) (s : NS), CleanTabX L i m F A s → A.length ≤ i →
    (EnoughFrom L F (slots P true (i + m) w) →
      ∃ r s', cleanLoop P w i acc s = .ok (r, s') ∧
        s'.ranges = A ++ leftOver P true w ((mkRanges 0 L).drop (i + m)) ∧
        s'.offsets.length + F + ((slots P true (i + m) w).map fun x => L.getD x 0).sum = L.sum) ∧
    (¬ EnoughFrom L F (slots P true (i + m) w) → cleanLoop P w i acc s = .error (.ub .outOfBounds))
  | [], i, m, F, acc, A, s, h, hA =>
    ⟨fun _ => ⟨_, _, rfl, by simpa [leftOver] using h.ranges, by simpa [slots] using h.bytes⟩, fun h => absurd trivial h⟩
  | c :: w, i, m, F, acc, A, s, h, hA => by
    by_cases hc : Dropped P c
    · have hc' := dropped_iff.1 hc
      have hD : Drops P true c := ⟨rfl, hc⟩
      have hsl : slots P true (i + m) (c :: w) = (i + m) :: slots P true (i + m + 2) w := by
        simp only [slots, if_pos hD]
      rw [hsl]
      simp only [EnoughFrom, leftOver, if_pos hD]
      by_cases hm : i + m < L.length ∧ F ≤ (L.drop (i + m + 1)).sum
      · obtain ⟨s', hs', ht⟩ := cl_erase h hm.1 hm.2
        have hl : cleanLoop P (c :: w) i acc s = cleanLoop P w (i + 1) acc s' := by
          simp only [cleanLoop, if_neg hc', hs', res_ok_bind]
        rw [hl]
        obtain ⟨ih1, ih2⟩ := cl_loop P L hpos w (i + 1) (m + 1) _ acc _ s' ht (by
          simp only [List.length_append, List.length_take]; omega)
        rw [show i + 1 + (m + 1) = i + m + 2 by omega] at ih1 ih2
        refine ⟨?_, fun hn => ih2 fun hx => hn ⟨hm.1, hm.2, hx⟩⟩
        rintro ⟨-, -, hx⟩
        obtain ⟨r, t, g1, g2, g3⟩ := ih1 hx
        refine ⟨r, t, g1, ?_, ?_⟩
        · rw [g2, List.append_assoc, List.drop_drop, List.drop_drop]
        · simp only [List.map_cons, List.sum_cons]; omega
      · have hl : cleanLoop P (c :: w) i acc s = .error (.ub .outOfBounds) := by
          simp only [cleanLoop, if_neg hc', cl_fails hpos h hA hm, res_error_bind]
        rw [hl]
        exact ⟨fun H => absurd ⟨H.1, H.2.1⟩ hm, fun _ => rfl⟩
    · have hc' : c ≠ 0 ∧ c ≠ 0xFFFD ∧ isControlW P c = false := by
        exact Decidable.byContradiction fun h' => hc (dropped_iff.2 h')
      have hD : ¬ Drops P true c := fun h' => hc h'.2
      have hl : cleanLoop P (c :: w) i acc s
          = cleanLoop P w (i + 1) (acc ++ [if isWhitespaceW P c then 0x20 else c]) s := by
        simp only [cleanLoop, if_pos hc']
      have hsl : slots P true (i + m) (c :: w) = slots P true (i + m + 1) w := by
        simp only [slots, if_neg hD]
      rw [hl, hsl]
      simp only [leftOver, if_neg hD]
      have ht : CleanTabX L (i + 1) m F (A ++ ((mkRanges 0 L).drop (i + m)).take 1) s := by
        refine ⟨h.bytes, ?_, ?_⟩
        · rw [h.ranges, show i + 1 + m = i + m + 1 by omega, List.append_assoc, cl_next]
        · rcases h.before with hb | hb
          · by_cases hq : i + m < L.length
            · left
              simp only [List.length_append, List.length_take, List.length_drop, mkRanges_length]
              omega
            · right; omega
          · right; omega
      obtain ⟨ih1, ih2⟩ := cl_loop P L hpos w (i + 1) m F (acc ++ [if isWhitespaceW P c then 0x20 else c]) _ s ht (by
          simp only [List.length_append, List.length_take]; omega)
      rw [show i + 1 + m = i + m + 1 by omega] at ih1 ih2
      refine ⟨?_, ih2⟩
      intro hx
      obtain ⟨r, t, g1, g2, g3⟩ := ih1 hx
      refine ⟨r, t, g1, ?_, g3⟩
      rw [g2, List.append_assoc, List.drop_drop]

theorem cl_slots_false (P : Platform) : ∀ (w : WStr) (e : Nat), slots P false e w = []
  | [], _ => rfl
  | c :: w, e => by
    have : ¬ Drops P false c := fun h => nomatch h.1
    simp only [slots, if_neg this, cl_slots_false P w]

theorem cl_left_false {α : Type} (P : Platform) : ∀ (w : WStr) (R : List α), leftOver P false w R = R
  | [], _ => rfl
  | c :: w, R => by
    have : ¬ Drops P false c := fun h => nomatch h.1
    simp only [leftOver, if_neg this, cl_left_false P w, List.take_append_drop]

theorem cl_left_count {α : Type} (P : Platform) (clean : Bool) : ∀ (w : WStr) (R : List α),
    R.length + (remaining P clean w).length ≤ (leftOver P clean w R).length + w.length
  | [], R => by simp [remaining, leftOver]
  | c :: w, R => by
    simp only [leftOver]
    by_cases hD : Drops P clean c
    · have hr : remaining P clean (c :: w) = remaining P clean w := by simp [remaining, hD]
      rw [if_pos hD, hr]
      have := cl_left_count P clean w (R.drop 2)
      simp only [List.length_append, List.length_take, List.length_drop, List.length_cons] at this ⊢
      omega
    · have hr : remaining P clean (c :: w) = c :: remaining P clean w := by simp [remaining, hD]
      rw [if_neg hD, hr]
      have := cl_left_count P clean w (R.drop 1)
      simp only [List.length_append, List.length_take, List.length_drop, List.length_cons] at this ⊢
      omega

theorem cl_sizeTable (L : List Nat) : sizeTable L = mkRanges 0 L := by
  apply List.ext_getElem?
  intro i
  rw [mkRanges_get]
  unfold sizeTable
  by_cases h : i < L.length
  · rw [List.getElem?_map, List.getElem?_range h, List.getElem?_eq_getElem h]
    simp [List.getD_eq_getElem?_getD, List.getElem?_eq_getElem h]
  · rw [List.getElem?_eq_none (by simpa using h), List.getElem?_eq_none (by omega)]; rfl

/-! ### Padding on any table -/

theorem cl_cjkAt_zero {c : Nat} {w : WStr} : CjkAt (c :: w) 0 ↔ Cjk c := by
  unfold CjkAt; simp

theorem cl_cjkAt_succ {c t : Nat} {w : WStr} : CjkAt (c :: w) (t + 1) ↔ CjkAt w t := by
  unfold CjkAt; simp

theorem cl_pad {s : NS} {i x b : Nat} {A B : List (Nat × Nat)} (hr : s.ranges = A ++ (x, b) :: B) (hA : A.length = i) :
    (x < s.offsets.length → ∃ s', s.transform i .pad 0 = .ok s' ∧ s'.offsets.length = s.offsets.length + 2 ∧
      s'.ranges = (A ++ [(x, 1), (x + 1, b), (x + b + 1, 1)]) ++ mkRanges (x + b + 2) (B.map (·.2))) ∧
    (¬ x < s.offsets.length → s.transform i .pad 0 = .error (.ub .outOfBounds)) := by
  have hg : vecAt s.ranges i = .ok (x, b) := by
    unfold vecAt
    rw [hr, ← hA, List.getElem?_append_right (Nat.le_refl _)]; simp
  constructor
  · intro h
    have hv : vecAt s.offsets x = .ok s.offsets[x] := by unfold vecAt; rw [List.getElem?_eq_getElem h]
    have hins : ∀ o, insertAt s.offsets x [o, o] = .ok (s.offsets.take x ++ [o, o] ++ s.offsets.drop x) := by
      intro o; unfold insertAt; rw [if_pos (by omega)]
    refine ⟨_, by simp only [NS.transform, hg, res_ok_bind, hv, hins, res_pure]; rfl, ?_, ?_⟩
    · simp; omega
    · have t1 : s.ranges.take i = A := by rw [hr, ← hA]; simp
      have t2 : s.ranges.drop (i + 1) = B := by rw [hr, ← hA]; simp
      simp only [t1, t2]
  · intro h
    have hv : vecAt s.offsets x = .error (.ub .outOfBounds) := by
      unfold vecAt; rw [List.getElem?_eq_none (by omega)]
    simp only [NS.transform, hg, res_ok_bind, hv, res_error_bind]

/-- After the first ideograph the entries are numbered from `x` on. -/
theorem cl_pads_numbered : ∀ (w : WStr) (k m x : Nat) (A : List (Nat × Nat)) (B : List Nat) (s : NS),
    s.ranges = A ++ mkRanges x B → A.length = k + m → w.length ≤ B.length →
    ((∀ t, CjkAt w t → x + (B.take t).sum < s.offsets.length) →
      ∃ s', applyPad (chineseIds k w) m s = .ok s' ∧ s'.ranges.length + w.length = s.ranges.length + (padText w).length) ∧
    ((¬ ∀ t, CjkAt w t → x + (B.take t).sum < s.offsets.length) →
      applyPad (chineseIds k w) m s = .error (.ub .outOfBounds))
  | [], k, m, x, A, B, s, hr, hA, hl => ⟨fun _ => ⟨s, rfl, rfl⟩, fun h => absurd (fun t ht => by
      obtain ⟨c, hc, -⟩ := ht; simp at hc) h⟩
  | c :: w, k, m, x, A, [], s, hr, hA, hl => absurd hl (by simp)
  | c :: w, k, m, x, A, b :: B, s, hr, hA, hl => by
    simp only [List.length_cons, Nat.add_le_add_iff_right] at hl
    have hr' : s.ranges = A ++ (x, b) :: mkRanges (x + b) B := by rw [hr]; rfl
    by_cases hc : isChineseChar c = true
    · obtain ⟨p1, p2⟩ := cl_pad hr' hA
      simp only [chineseIds, hc, if_true, applyPad, padText]
      by_cases hx : x < s.offsets.length
      · obtain ⟨s', e1, e2, e3⟩ := p1 hx
        rw [mkRanges_snd] at e3
        obtain ⟨ih1, ih2⟩ := cl_pads_numbered w (k + 1) (m + 2) (x + b + 2) _ B s' e3 (by simp; omega) hl
        rw [e1, res_ok_bind]
        constructor
        · intro h
          obtain ⟨s'', g1, g2⟩ := ih1 fun t ht => by
            have := h (t + 1) (cl_cjkAt_succ.2 ht)
            simp only [List.take_succ_cons, List.sum_cons] at this
            omega
          refine ⟨s'', g1, ?_⟩
          have h1 : s'.ranges.length = s.ranges.length + 2 := by rw [e3, hr']; simp; omega
          simp only [List.length_cons]; omega
        · intro h
          refine ih2 fun hall => h fun t ht => ?_
          cases t with
          | zero => simpa using hx
          | succ t =>
            have := hall t (cl_cjkAt_succ.1 ht)
            simp only [List.take_succ_cons, List.sum_cons]
            omega
      · rw [p2 hx, res_error_bind]
        refine ⟨fun h => ?_, fun _ => rfl⟩
        have := h 0 (cl_cjkAt_zero.2 (cjk_iff.2 hc))
        simp at this
        omega
    · simp only [chineseIds, if_neg hc, padText]
      obtain ⟨ih1, ih2⟩ := cl_pads_numbered w (k + 1) m (x + b) (A ++ [(x, b)]) B s (by rw [hr']; simp) (by simp; omega) hl
      have hiff : (∀ t, CjkAt (c :: w) t → x + ((b :: B).take t).sum < s.offsets.length) ↔
          ∀ t, CjkAt w t → x + b + (B.take t).sum < s.offsets.length := by
        constructor
        · intro h t ht
          have := h (t + 1) (cl_cjkAt_succ.2 ht)
          simp only [List.take_succ_cons, List.sum_cons] at this
          omega
        · intro h t ht
          cases t with
          | zero => exact absurd (cjk_iff.1 (cl_cjkAt_zero.1 ht)) hc
          | succ t =>
            have := h t (cl_cjkAt_succ.1 ht)
            simp only [List.take_succ_cons, List.sum_cons]
            omega
      rw [hiff]
      refine ⟨fun h => ?_, ih2⟩
      obtain ⟨s', g1, g2⟩ := ih1 h
      exact ⟨s', g1, by simp only [List.length_cons]; omega⟩

theorem cl_pads : ∀ (w : WStr) (k m : Nat) (A R : List (Nat × Nat)) (s : NS),
    s.ranges = A ++ R → A.length = k + m → w.length ≤ R.length →
    (Reaches w R s.offsets.length →
      ∃ s', applyPad (chineseIds k w) m s = .ok s' ∧ s'.ranges.length + w.length = s.ranges.length + (padText w).length) ∧
    (¬ Reaches w R s.offsets.length → applyPad (chineseIds k w) m s = .error (.ub .outOfBounds))
  | [], k, m, A, R, s, hr, hA, hl => ⟨fun _ => ⟨s, rfl, rfl⟩, fun h => absurd (fun t t' ht => by
      obtain ⟨c, hc, -⟩ := ht; simp at hc) h⟩
  | c :: w, k, m, A, [], s, hr, hA, hl => absurd hl (by simp)
  | c :: w, k, m, A, (x, b) :: R, s, hr, hA, hl => by
    simp only [List.length_cons, Nat.add_le_add_iff_right] at hl
    by_cases hc : isChineseChar c = true
    · have hz : CjkAt (c :: w) 0 := cl_cjkAt_zero.2 (cjk_iff.2 hc)
      have hiff : Reaches (c :: w) ((x, b) :: R) s.offsets.length ↔
          ∀ t, CjkAt (c :: w) t → x + (((b :: R.map (·.2))).take t).sum < s.offsets.length := by
        constructor
        · intro h t ht
          have := h 0 t hz (by simp) (by omega) ht
          simpa [List.map_take] using this
        · intro h t₁ t h1 h2 h3 h4
          have h0 : t₁ = 0 := by
            cases t₁ with
            | zero => rfl
            | succ y => exact absurd hz (h2 0 (by omega))
          subst h0
          have := h t h4
          simpa [List.map_take] using this
      rw [hiff]
      obtain ⟨p1, p2⟩ := cl_pad hr hA
      simp only [chineseIds, hc, if_true, applyPad, padText]
      by_cases hx : x < s.offsets.length
      · obtain ⟨s', e1, e2, e3⟩ := p1 hx
        obtain ⟨ih1, ih2⟩ := cl_pads_numbered w (k + 1) (m + 2) (x + b + 2) _ (R.map (·.2)) s' e3 (by simp; omega)
          (by simpa using hl)
        rw [e1, res_ok_bind]
        constructor
        · intro h
          obtain ⟨s'', g1, g2⟩ := ih1 fun t ht => by
            have := h (t + 1) (cl_cjkAt_succ.2 ht)
            simp only [List.take_succ_cons, List.sum_cons] at this
            omega
          refine ⟨s'', g1, ?_⟩
          have h1 : s'.ranges.length = s.ranges.length + 2 := by rw [e3, hr]; simp; omega
          simp only [List.length_cons]; omega
        · intro h
          refine ih2 fun hall => h fun t ht => ?_
          cases t with
          | zero => simpa using hx
          | succ t =>
            have := hall t (cl_cjkAt_succ.1 ht)
            simp only [List.take_succ_cons, List.sum_cons]
            omega
      · rw [p2 hx, res_error_bind]
        refine ⟨fun h => ?_, fun _ => rfl⟩
        have := h 0 hz
        simp at this
        omega
    · simp only [chineseIds, if_neg hc, padText]
      obtain ⟨ih1, ih2⟩ := cl_pads w (k + 1) m (A ++ [(x, b)]) R s (by rw [hr]; simp) (by simp; omega) hl
      have hn : ¬ CjkAt (c :: w) 0 := fun h => hc (cjk_iff.1 (cl_cjkAt_zero.1 h))
      have hiff : Reaches (c :: w) ((x, b) :: R) s.offsets.length ↔ Reaches w R s.offsets.length := by
        constructor
        · intro h t₁ t h1 h2 h3 h4
          have := h (t₁ + 1) (t + 1) (cl_cjkAt_succ.2 h1) (by
            intro y hy
            cases y with
            | zero => exact hn
            | succ y => exact fun hq => h2 y (by omega) (cl_cjkAt_succ.1 hq)) (by omega) (cl_cjkAt_succ.2 h4)
          simpa using this
        · intro h t₁ t h1 h2 h3 h4
          cases t₁ with
          | zero => exact absurd h1 hn
          | succ t₁ =>
            cases t with
            | zero => omega
            | succ t =>
              have := h t₁ t (cl_cjkAt_succ.1 h1) (fun y hy hq => h2 (y + 1) (by omega) (cl_cjkAt_succ.2 hq)) (by omega)
                (cl_cjkAt_succ.1 h4)
              simpa using this
      rw [hiff]
      refine ⟨fun h => ?_, ih2⟩
      obtain ⟨s', g1, g2⟩ := ih1 h
      exact ⟨s', g1, by simp only [List.length_cons]; omega⟩

theorem cl_cjk {s : NS} (hl : s.normalized.length ≤ s.ranges.length) :
    (Reaches s.normalized s.ranges s.offsets.length →
      ∃ s', doHandleChineseChars s = .ok s' ∧ s'.normalized = padText s.normalized ∧
        s'.ranges.length + s.normalized.length = s.ranges.length + (padText s.normalized).length) ∧
    (¬ Reaches s.normalized s.ranges s.offsets.length → doHandleChineseChars s = .error (.ub .outOfBounds)) := by
  obtain ⟨h1, h2⟩ := cl_pads s.normalized 0 0 [] s.ranges s rfl rfl hl
  constructor
  · intro h
    obtain ⟨s', g1, g2⟩ := h1 h
    refine ⟨{ s' with normalized := padText s.normalized }, ?_, rfl, g2⟩
    unfold doHandleChineseChars
    rw [g1]
    simp only [res_ok_bind, applyPad_text g1]
    have := replay_value s.normalized []
    simp only [List.length_nil, List.nil_append] at this
    rw [this]; rfl
  · intro h
    unfold doHandleChineseChars
    rw [h2 h]; rfl

end Tok
