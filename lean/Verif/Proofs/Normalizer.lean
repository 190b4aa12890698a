import Verif.Spec.Normalizer
import Verif.Props.Unicode
import Verif.Proofs.Extract2

set_option autoImplicit false

namespace Tok
open Spec

/-! ### Tables of consecutive ranges -/

@[simp] theorem mkRanges_length (l : List Nat) : ∀ a, (mkRanges a l).length = l.length := by
  induction l with
  | nil => intro a; rfl
  | cons k l ih => intro a; simp [mkRanges, ih]

@[simp] theorem mkRanges_snd (l : List Nat) : ∀ a, (mkRanges a l).map (·.2) = l := by
  induction l with
  | nil => intro a; rfl
  | cons k l ih => intro a; simp [mkRanges, ih]

theorem mkRanges_append (l m : List Nat) : ∀ a, mkRanges a (l ++ m) = mkRanges a l ++ mkRanges (a + l.sum) m := by
  induction l with
  | nil => intro a; simp [mkRanges]
  | cons k l ih => intro a; simp [mkRanges, ih, Nat.add_assoc]

theorem mkRanges_get (l : List Nat) : ∀ (a i : Nat),
    (mkRanges a l)[i]? = (l[i]?).map fun k => (a + (l.take i).sum, k) := by
  induction l with
  | nil => intro a i; simp [mkRanges]
  | cons k l ih =>
    intro a i
    cases i with
    | zero => simp [mkRanges]
    | succ i => simp [mkRanges, ih, Nat.add_assoc]

theorem mkRanges_take (l : List Nat) (a i : Nat) : (mkRanges a l).take i = mkRanges a (l.take i) := by
  induction l generalizing a i with
  | nil => simp [mkRanges]
  | cons k l ih => cases i with
    | zero => simp [mkRanges]
    | succ i => simp [mkRanges, ih]

theorem mkRanges_drop (l : List Nat) (a i : Nat) :
    (mkRanges a l).drop i = mkRanges (a + (l.take i).sum) (l.drop i) := by
  induction l generalizing a i with
  | nil => simp [mkRanges]
  | cons k l ih => cases i with
    | zero => simp [mkRanges]
    | succ i => simp [mkRanges, ih, Nat.add_assoc]

@[simp] theorem mkOffsets_length (l : List Nat) : ∀ a, (mkOffsets a l).length = l.sum := by
  induction l with
  | nil => intro a; rfl
  | cons k l ih => intro a; simp [mkOffsets, ih]

/-- The ranges follow each other with lengths `lens` and cover the offsets. -/
structure Tab (s : NS) (lens : List Nat) : Prop where
  ranges : s.ranges = mkRanges 0 lens
  offsets : s.offsets.length = lens.sum
  pos : ∀ k ∈ lens, 0 < k

@[simp] theorem unitLens_length (u : U16) : (unitLens u).length = u.length := by simp [unitLens]

theorem ofText_tab (w : WStr) : Tab (NS.ofText w) (unitLens (fromUTF32 w)) := by
  refine ⟨rfl, by simp [NS.ofText], ?_⟩
  intro k hk
  obtain ⟨i, _, rfl⟩ := List.mem_map.1 hk
  exact utf8Enc1_length_pos _

theorem utf16_length_ge (w : WStr) : w.length ≤ (utf16 w).length := by
  induction w with
  | nil => simp
  | cons c w ih =>
    have : 0 < (utf16Enc1 c).length := List.length_pos_iff.2 (utf16Enc1_ne_nil c)
    simp; omega

theorem fromUTF32_length_ge (w : WStr) : w.length ≤ (fromUTF32 w).length := by
  simpa [fromUTF32] using utf16_length_ge (w.map sanitize)

/-- UTF-8 length of a character. -/
def byteLen (c : Nat) : Nat := (utf8Enc1 c).length

theorem char32At_bmp {w : WStr} (h : Bmp w) {i c : Nat} (hi : w[i]? = some c) : char32At w i = c := by
  have hc : isScalar c = true := bmp_scalars h c (List.mem_of_getElem? hi)
  have h1 := not_lead_of_scalar hc
  have h2 := not_trail_of_scalar hc
  unfold char32At
  rw [hi]
  simp [h1, h2]

theorem unitLens_bmp {w : WStr} (h : Bmp w) : unitLens (fromUTF32 w) = w.map byteLen := by
  have hs := bmp_scalars h
  rw [fromUTF32_scalars hs, utf16_bmp h]
  apply List.ext_getElem?
  intro i
  simp only [unitLens, List.getElem?_map]
  by_cases hi : i < w.length
  · have hg : w[i]? = some w[i] := List.getElem?_eq_getElem hi
    rw [List.getElem?_range hi, hg]
    simp only [Option.map_some]
    rw [char32At_bmp h hg]
    have : sanitize w[i] = w[i] := by simp [sanitize, hs _ (List.getElem_mem hi)]
    rw [this]; rfl
  · rw [List.getElem?_eq_none (by simpa using hi), List.getElem?_eq_none (by simpa using hi)]; rfl

theorem consistent_iff {s : NS} : Consistent s ↔ Scalars s.normalized ∧ Tab s (s.normalized.map byteLen) := by
  constructor
  · rintro ⟨h1, h2, h3, h4⟩
    have hsc : Scalars s.normalized := by
      intro c hc
      obtain ⟨i, hi, rfl⟩ := List.getElem_of_mem hc
      obtain ⟨b, hb, _⟩ := h2 i _ s.ranges[i] (List.getElem?_eq_getElem hi) (List.getElem?_eq_getElem _)
      exact (utf8Char_iff.1 hb).1
    have hl : s.ranges.map (·.2) = s.normalized.map byteLen := by
      apply List.ext_getElem (by simpa using h1)
      intro i hi hi'
      simp at hi hi'
      obtain ⟨b, hb, hr⟩ := h2 i s.normalized[i] s.ranges[i] (List.getElem?_eq_getElem hi') (List.getElem?_eq_getElem _)
      simp only [List.getElem_map]
      rw [hr, (utf8Char_iff.1 hb).2]; rfl
    refine ⟨hsc, ⟨?_, ?_, ?_⟩⟩
    · rw [← hl]
      apply List.ext_getElem?
      intro i
      rw [mkRanges_get]
      by_cases hi : i < s.ranges.length
      · have := h3 i s.ranges[i] (List.getElem?_eq_getElem hi)
        rw [List.getElem?_eq_getElem hi]
        simp [hi]
        rw [Prod.ext_iff]
        simp
        rw [this, List.map_take]
      · rw [List.getElem?_eq_none (by omega), List.getElem?_eq_none (by simp; omega)]; rfl
    · rw [h4, hl]
    · intro k hk
      obtain ⟨c, _, rfl⟩ := List.mem_map.1 hk
      exact utf8Enc1_length_pos _
  · rintro ⟨hsc, ht⟩
    have hl : s.ranges.map (·.2) = s.normalized.map byteLen := by rw [ht.ranges]; simp
    refine ⟨by rw [ht.ranges]; simp, ?_, ?_, ?_⟩
    · intro i c r hi hr
      refine ⟨utf8Enc1 c, utf8Char_iff.2 ⟨hsc c (List.mem_of_getElem? hi), rfl⟩, ?_⟩
      rw [ht.ranges, mkRanges_get] at hr
      simp [hi] at hr
      rw [← hr]; rfl
    · intro i r hr
      rw [ht.ranges, mkRanges_get] at hr
      simp at hr
      obtain ⟨a, _, rfl⟩ := hr
      rw [List.map_take, hl]
    · rw [ht.offsets, hl]

theorem ofText_consistent {w : WStr} (h : Bmp w) : Consistent (NS.ofText w) := by
  refine consistent_iff.2 ⟨bmp_scalars h, ?_⟩
  have := ofText_tab w
  rw [unitLens_bmp h] at this
  exact this

/-! ### Text unchanged by table edits -/

theorem transform_text {s s' : NS} {i n : Nat} {op : TOp} (h : s.transform i op n = .ok s') :
    s'.normalized = s.normalized := by
  unfold NS.transform at h
  obtain ⟨⟨st, li⟩, _, h⟩ := res_bind_ok.1 h
  cases op <;> simp only at h
  · obtain ⟨_, _, h⟩ := res_bind_ok.1 h
    obtain ⟨_, _, h⟩ := res_bind_ok.1 h
    cases h; rfl
  · obtain ⟨_, _, h⟩ := res_bind_ok.1 h
    obtain ⟨_, _, h⟩ := res_bind_ok.1 h
    cases h; rfl
  · cases h; rfl
  · cases h; rfl
  · obtain ⟨_, _, h⟩ := res_bind_ok.1 h
    obtain ⟨_, _, h⟩ := res_bind_ok.1 h
    cases h; rfl
  · obtain ⟨_, _, h⟩ := res_bind_ok.1 h
    split at h
    · cases h
    · obtain ⟨_, _, h⟩ := res_bind_ok.1 h
      cases h; rfl

theorem applyPad_text {l : List Nat} : ∀ {m : Nat} {s s' : NS}, applyPad l m s = .ok s' →
    s'.normalized = s.normalized := by
  induction l with
  | nil => intro m s s' h; cases h; rfl
  | cons i l ih =>
    intro m s s' h
    obtain ⟨t, ht, h⟩ := res_bind_ok.1 h
    rw [ih h, transform_text ht]

theorem applyReplace_text {l : List Nat} : ∀ {m st n : Nat} {s s' : NS}, applyReplace l m st n s = .ok s' →
    s'.normalized = s.normalized := by
  induction l with
  | nil => intro m st n s s' h; cases h; rfl
  | cons i l ih =>
    intro m st n s s' h
    obtain ⟨t, ht, h⟩ := res_bind_ok.1 h
    rw [ih h, transform_text ht]

/-! ### Cleaning -/

theorem dropped_iff {P : Platform} {c : Nat} :
    Dropped P c ↔ ¬ (c ≠ 0 ∧ c ≠ 0xFFFD ∧ isControlW P c = false) := by
  unfold Dropped isControlW
  constructor
  · rintro (h | h | ⟨h, h1, h2, h3⟩)
    · simp [h]
    · simp [h]
    · simp [h, h1, h2, h3]
  · intro h
    by_cases h0 : c = 0
    · exact .inl h0
    by_cases h1 : c = 0xFFFD
    · exact .inr (.inl h1)
    refine .inr (.inr ?_)
    simp only [h0, h1, ne_eq, not_false_eq_true, true_and, Bool.not_eq_false] at h
    split at h
    · cases h
    · rename_i h'; simp only [not_or] at h'; exact ⟨h, h'⟩

theorem blank_iff {P : Platform} {c : Nat} : Blank P c ↔ isWhitespaceW P c = true := by
  unfold Blank isWhitespaceW
  split
  · rename_i h
    refine ⟨fun _ => rfl, fun _ => ?_⟩
    rcases h with h | h | h
    · exact .inl h
    · exact .inr (.inl h)
    · exact .inr (.inr (.inl h))
  · rename_i h
    refine ⟨fun h' => ?_, fun h' => .inr (.inr (.inr h'))⟩
    rcases h' with h' | h' | h' | h'
    · exact absurd (.inl h') h
    · exact absurd (.inr (.inl h')) h
    · exact absurd (.inr (.inr h')) h
    · exact h'

theorem cleanLoop_value (P : Platform) : ∀ (w : WStr) (i : Nat) (acc : WStr) (s : NS) (r : WStr × NS),
    cleanLoop P w i acc s = .ok r →
      r.2.normalized = s.normalized ∧ ∃ w', r.1 = acc ++ w' ∧ Cleaned (Dropped P) (Blank P) w w' := by
  intro w
  induction w with
  | nil => intro i acc s r h; cases h; exact ⟨rfl, [], by simp, .nil⟩
  | cons c w ih =>
    intro i acc s r h
    simp only [cleanLoop] at h
    split at h
    · rename_i hc
      obtain ⟨h1, w', h2, h3⟩ := ih _ _ _ _ h
      have hd : ¬ Dropped P c := fun hd => dropped_iff.1 hd hc
      by_cases hb : isWhitespaceW P c = true
      · exact ⟨h1, 0x20 :: w', by rw [h2]; simp [hb], .spaced hd (blank_iff.2 hb) h3⟩
      · exact ⟨h1, c :: w', by rw [h2]; simp [hb], .kept hd (fun h => hb (blank_iff.1 h)) h3⟩
    · rename_i hc
      obtain ⟨s1, hs1, h⟩ := res_bind_ok.1 h
      obtain ⟨h1, w', h2, h3⟩ := ih _ _ _ _ h
      exact ⟨by rw [h1, transform_text hs1], w', h2, .dropped (dropped_iff.2 hc) h3⟩

theorem cleaned_unique {d b : Nat → Prop} {w x y : WStr} (h1 : Cleaned d b w x) (h2 : Cleaned d b w y) : x = y := by
  induction h1 generalizing y with
  | nil => cases h2; rfl
  | dropped h _ ih => cases h2 with
    | dropped _ h' => exact ih h'
    | spaced h' => exact absurd h h'
    | kept h' => exact absurd h h'
  | spaced h hb _ ih => cases h2 with
    | dropped h' => exact absurd h' h
    | spaced _ _ h' => rw [ih h']
    | kept _ h' => exact absurd hb h'
  | kept h hb _ ih => cases h2 with
    | dropped h' => exact absurd h' h
    | spaced _ h' => exact absurd h' hb
    | kept _ _ h' => rw [ih h']

instance (P : Platform) : DecidablePred (Dropped P) := fun c => by unfold Dropped; infer_instance

/-- Number of characters cleaning drops. -/
def numDropped (P : Platform) (w : WStr) : Nat := (w.filter fun c => decide (Dropped P c)).length

/-- The table during cleaning of a text with one byte per character, `m` characters dropped before
position `i` of `n`. -/
def CleanTab (n i m : Nat) (s : NS) : Prop :=
  s.offsets.length = n - m ∧ ∀ j, i ≤ j → s.ranges[j]? = if j + m < n then some (j + m, 1) else none

theorem erase_step {n i m : Nat} {s : NS} (h : CleanTab n i m s) (hm : i + 2 * m < n) :
    ∃ s', s.transform i .erase 0 = .ok s' ∧ CleanTab n (i + 1) (m + 1) s' := by
  obtain ⟨h1, h2⟩ := h
  have hr := h2 i (Nat.le_refl _)
  rw [if_pos (by omega)] at hr
  have hlen : i < s.ranges.length := by
    exact (List.getElem?_eq_some_iff.1 hr).1
  refine ⟨{ s with offsets := s.offsets.take (i + m) ++ s.offsets.drop (i + m + 1),
                   ranges := s.ranges.take i ++ s.ranges.drop (i + 1) }, ?_, ?_, ?_⟩
  · have e1 : eraseRange s.offsets (i + m) (i + m + 1)
        = .ok (s.offsets.take (i + m) ++ s.offsets.drop (i + m + 1)) := by
      unfold eraseRange; rw [if_pos (by omega)]
    have e2 : eraseRange s.ranges i (i + 1) = .ok (s.ranges.take i ++ s.ranges.drop (i + 1)) := by
      unfold eraseRange; rw [if_pos (by omega)]
    simp [NS.transform, vecAt, hr, e1, e2]
  · simp; omega
  · intro j hj
    have hl : (s.ranges.take i).length = i := by simp; omega
    simp only
    rw [List.getElem?_append_right (by omega), hl, List.getElem?_drop,
      show i + 1 + (j - i) = j + 1 by omega, h2 (j + 1) (by omega),
      show j + 1 + m = j + (m + 1) by omega]

theorem erase_fails {n i m : Nat} {s : NS} (h : CleanTab n i m s) (hm : ¬ i + 2 * m < n) :
    s.transform i .erase 0 = .error (.ub .outOfBounds) := by
  obtain ⟨h1, h2⟩ := h
  have hr := h2 i (Nat.le_refl _)
  by_cases hc : i + m < n
  · rw [if_pos hc] at hr
    have e1 : eraseRange s.offsets (i + m) (i + m + 1) = .error (.ub .outOfBounds) := by
      unfold eraseRange; rw [if_neg (by omega)]
    simp [NS.transform, vecAt, hr, e1]
  · rw [if_neg hc] at hr
    simp [NS.transform, vecAt, hr]

theorem CleanTab.next {n i m : Nat} {s : NS} (h : CleanTab n i m s) : CleanTab n (i + 1) m s :=
  ⟨h.1, fun j hj => h.2 j (by omega)⟩

theorem cleanLoop_returns (P : Platform) (n : Nat) : ∀ (w : WStr) (i m : Nat) (acc : WStr) (s : NS),
    CleanTab n i m s →
    ((∃ r, cleanLoop P w i acc s = .ok r) ↔
      ∀ (A B : WStr) (c : Nat), w = A ++ c :: B → Dropped P c →
        i + A.length + 2 * (m + numDropped P A) < n) ∧
    ((∃ r, cleanLoop P w i acc s = .ok r) ∨ cleanLoop P w i acc s = .error (.ub .outOfBounds)) := by
  intro w
  induction w with
  | nil =>
    intro i m acc s h
    refine ⟨⟨fun _ A B c hw => ?_, fun _ => ⟨_, rfl⟩⟩, .inl ⟨_, rfl⟩⟩
    simp at hw
  | cons c w ih =>
    intro i m acc s h
    by_cases hc : Dropped P c
    · have hc' := dropped_iff.1 hc
      by_cases hm : i + 2 * m < n
      · obtain ⟨s', hs', ht⟩ := erase_step h hm
        have hl : cleanLoop P (c :: w) i acc s = cleanLoop P w (i + 1) acc s' := by
          simp only [cleanLoop, if_neg hc', hs', res_ok_bind]
        rw [hl]
        obtain ⟨ih1, ih2⟩ := ih (i + 1) (m + 1) acc s' ht
        refine ⟨?_, ih2⟩
        rw [ih1]
        constructor
        · intro H A B d hw hd
          cases A with
          | nil => simpa [numDropped] using hm
          | cons a A =>
            simp only [List.cons_append, List.cons.injEq] at hw
            obtain ⟨rfl, hw⟩ := hw
            have := H A B d hw hd
            simp [numDropped, hc] at this ⊢
            omega
        · intro H A B d hw hd
          have := H (c :: A) B d (by simp [hw]) hd
          simp [numDropped, hc] at this ⊢
          omega
      · have hl : cleanLoop P (c :: w) i acc s = .error (.ub .outOfBounds) := by
          simp only [cleanLoop, if_neg hc', erase_fails h hm, res_error_bind]
        rw [hl]
        refine ⟨⟨(fun ⟨r, hr⟩ => nomatch hr), fun H => ?_⟩, .inr rfl⟩
        have := H [] w c rfl hc
        simp [numDropped] at this
        omega
    · have hc' : c ≠ 0 ∧ c ≠ 0xFFFD ∧ isControlW P c = false := by
        exact Decidable.byContradiction fun h' => hc (dropped_iff.2 h')
      have hl : cleanLoop P (c :: w) i acc s
          = cleanLoop P w (i + 1) (acc ++ [if isWhitespaceW P c then 0x20 else c]) s := by
        simp only [cleanLoop, if_pos hc']
      rw [hl]
      obtain ⟨ih1, ih2⟩ := ih (i + 1) m (acc ++ [if isWhitespaceW P c then 0x20 else c]) s h.next
      refine ⟨?_, ih2⟩
      rw [ih1]
      constructor
      · intro H A B d hw hd
        cases A with
        | nil =>
          simp only [List.nil_append, List.cons.injEq] at hw
          exact absurd hd (hw.1 ▸ hc)
        | cons a A =>
          simp only [List.cons_append, List.cons.injEq] at hw
          obtain ⟨rfl, hw⟩ := hw
          have := H A B d hw hd
          simp [numDropped, hc] at this ⊢
          omega
      · intro H A B d hw hd
        have := H (c :: A) B d (by simp [hw]) hd
        simp [numDropped, hc] at this ⊢
        omega

theorem ascii_bmp {w : WStr} (h : Ascii w) : Bmp w := by
  intro c hc
  have := h c hc
  exact ⟨⟨by omega, by omega⟩, by omega⟩

theorem byteLen_ascii {c : Nat} (h : c < 0x80) : byteLen c = 1 := by
  unfold byteLen utf8Enc1; simp [h]

theorem ofText_cleanTab {w : WStr} (h : Ascii w) : CleanTab w.length 0 0 (NS.ofText w) := by
  have ht := ofText_tab w
  rw [unitLens_bmp (ascii_bmp h)] at ht
  have hl : w.map byteLen = List.replicate w.length 1 := by
    apply List.ext_getElem (by simp)
    intro i hi hi'
    simp at hi ⊢
    exact byteLen_ascii (h _ (List.getElem_mem hi))
  rw [hl] at ht
  refine ⟨by rw [ht.offsets]; simp, ?_⟩
  intro j _
  rw [ht.ranges, mkRanges_get]
  simp only [List.getElem?_replicate, List.take_replicate, Nat.add_zero]
  split
  · simp; omega
  · rfl

/-! ### CJK padding -/

theorem cjk_iff {c : Nat} : Cjk c ↔ isChineseChar c = true := by
  unfold Cjk isChineseChar
  simp only [Bool.or_eq_true, Bool.and_eq_true, decide_eq_true_eq]
  omega

/-- The padded text. -/
def padText : WStr → WStr
  | [] => []
  | c :: w => if isChineseChar c then 0x20 :: c :: 0x20 :: padText w else c :: padText w

theorem padText_spec : ∀ w, CjkPadded w (padText w) := by
  intro w
  induction w with
  | nil => exact .nil
  | cons c w ih =>
    unfold padText
    by_cases h : isChineseChar c = true
    · simp only [h, if_true]; exact .cjk (cjk_iff.2 h) ih
    · simp only [if_neg h]; exact .other (fun hc => h (cjk_iff.1 hc)) ih

theorem cjkPadded_unique {w x y : WStr} (h1 : CjkPadded w x) (h2 : CjkPadded w y) : x = y := by
  induction h1 generalizing y with
  | nil => cases h2; rfl
  | cjk h _ ih => cases h2 with
    | cjk _ h' => rw [ih h']
    | other h' => exact absurd h h'
  | other h _ ih => cases h2 with
    | cjk h' => exact absurd h' h
    | other _ h' => rw [ih h']

theorem replay_value : ∀ (w A : WStr), replayChanges (chineseChanges w) A.length (A ++ w) = .ok (A ++ padText w) := by
  intro w
  induction w with
  | nil => intro A; simp [chineseChanges, replayChanges, padText]
  | cons c w ih =>
    intro A
    by_cases h : isChineseChar c = true
    · simp only [chineseChanges, padText, h, if_true, replayChanges]
      have h1 : (A ++ c :: w).set A.length 0x20 = A ++ 0x20 :: w := by
        rw [List.set_append_right _ _ (by omega)]; simp
      have h2 : (A ++ 0x20 :: w).take (A.length + 1) ++ c :: (A ++ 0x20 :: w).drop (A.length + 1)
          = A ++ 0x20 :: c :: w := by
        simp [List.take_append, List.drop_append, List.take_of_length_le]
      have h3 : (A ++ 0x20 :: c :: w).take (A.length + 1 + 1) ++ 0x20 :: (A ++ 0x20 :: c :: w).drop (A.length + 1 + 1)
          = A ++ 0x20 :: c :: 0x20 :: w := by
        simp [List.take_append, List.drop_append, List.take_of_length_le, Nat.add_assoc]
      rw [if_neg (by omega), if_pos (by simp), h1, if_pos (by omega), if_pos (by simp), h2,
        if_pos (by omega), if_pos (by simp; omega), h3]
      have := ih (A ++ [0x20, c, 0x20])
      simpa [Nat.add_assoc] using this
    · simp only [chineseChanges, padText, if_neg h, replayChanges]
      rw [if_neg (by omega), if_pos (by simp)]
      have h1 : (A ++ c :: w).set A.length c = A ++ c :: w := by
        rw [List.set_append_right _ _ (by omega)]; simp
      rw [h1]
      have := ih (A ++ [c])
      simpa using this

theorem pad_step {s : NS} {A B : List Nat} {k : Nat} (h : Tab s (A ++ k :: B)) :
    ∃ s', s.transform A.length .pad 0 = .ok s' ∧ Tab s' (A ++ 1 :: k :: 1 :: B) ∧ s'.normalized = s.normalized := by
  have hr : s.ranges[A.length]? = some (A.sum, k) := by
    rw [h.ranges, mkRanges_get]; simp
  have hk : 0 < k := h.pos k (by simp)
  have ho : A.sum < s.offsets.length := by rw [h.offsets]; simp; omega
  have hd : (s.ranges.drop (A.length + 1)).map (·.2) = B := by
    rw [h.ranges, List.map_drop, mkRanges_snd]; simp
  have ht : s.ranges.take A.length = mkRanges 0 A := by
    rw [h.ranges, mkRanges_take]; simp
  have hins : ∀ o, insertAt s.offsets A.sum [o, o] = .ok (s.offsets.take A.sum ++ [o, o] ++ s.offsets.drop A.sum) := by
    intro o; unfold insertAt; rw [if_pos (by omega)]
  have hv : vecAt s.offsets A.sum = .ok s.offsets[A.sum] := by
    unfold vecAt; rw [List.getElem?_eq_getElem ho]
  refine ⟨{ s with
      offsets := s.offsets.take A.sum ++ [s.offsets[A.sum], s.offsets[A.sum]] ++ s.offsets.drop A.sum
      ranges := mkRanges 0 A ++ [(A.sum, 1), (A.sum + 1, k), (A.sum + k + 1, 1)]
                ++ mkRanges (A.sum + k + 2) B }, ?_, ⟨?_, ?_, ?_⟩, rfl⟩
  · simp only [NS.transform]
    have : vecAt s.ranges A.length = .ok (A.sum, k) := by unfold vecAt; rw [hr]
    rw [this]
    simp only [res_ok_bind, hv, hins, res_pure, hd, ht]
  · rw [mkRanges_append]
    simp [mkRanges, Nat.add_assoc, Nat.add_comm k 1, Nat.add_left_comm]
    congr 1; omega
  · have := h.offsets
    simp at this ⊢
    omega
  · intro x hx
    have := h.pos
    simp at hx this
    rcases hx with hx | rfl | rfl | rfl | hx
    · exact this x (.inl hx)
    · omega
    · exact hk
    · omega
    · exact this x (.inr (.inr hx))

/-- Range lengths after padding. -/
def padLens : WStr → List Nat → List Nat
  | [], B => B
  | _ :: _, [] => []
  | c :: w, b :: B => if isChineseChar c then 1 :: b :: 1 :: padLens w B else b :: padLens w B

theorem applyPad_returns : ∀ (w : WStr) (k m : Nat) (A B : List Nat) (s : NS), Tab s (A ++ B) →
    A.length = k + m → w.length ≤ B.length →
    ∃ s', applyPad (chineseIds k w) m s = .ok s' ∧ Tab s' (A ++ padLens w B) := by
  intro w
  induction w with
  | nil => intro k m A B s h _ _; exact ⟨s, rfl, by simpa [padLens] using h⟩
  | cons c w ih =>
    intro k m A B s h hk hl
    cases B with
    | nil => simp at hl
    | cons b B =>
      simp at hl
      by_cases hc : isChineseChar c = true
      · obtain ⟨s', hs', ht, _⟩ := pad_step h
        have ht' : Tab s' ((A ++ [1, b, 1]) ++ B) := by simpa using ht
        obtain ⟨s'', h1, h2⟩ := ih (k + 1) (m + 2) _ B s' ht' (by simp; omega) hl
        refine ⟨s'', ?_, ?_⟩
        · simp only [chineseIds, hc, if_true, applyPad]
          rw [← hk, hs']; exact h1
        · simpa [padLens, hc] using h2
      · have ht' : Tab s ((A ++ [b]) ++ B) := by simpa using h
        obtain ⟨s'', h1, h2⟩ := ih (k + 1) m _ B s ht' (by simp; omega) hl
        refine ⟨s'', ?_, ?_⟩
        · simp only [chineseIds, if_neg hc]; exact h1
        · simpa [padLens, hc] using h2

theorem padLens_map : ∀ w : WStr, padLens w (w.map byteLen) = (padText w).map byteLen := by
  intro w
  induction w with
  | nil => rfl
  | cons c w ih =>
    have h20 : byteLen 0x20 = 1 := by decide
    by_cases h : isChineseChar c = true
    · simp [padLens, padText, h, ih, h20]
    · simp [padLens, padText, h, ih]

theorem cjk_returns {s : NS} {lens : List Nat} (h : Tab s lens) (hl : s.normalized.length ≤ lens.length) :
    ∃ s', doHandleChineseChars s = .ok s' ∧ Tab s' (padLens s.normalized lens) ∧
      s'.normalized = padText s.normalized := by
  obtain ⟨s', h1, h2⟩ := applyPad_returns s.normalized 0 0 [] lens s (by simpa using h) rfl hl
  refine ⟨{ s' with normalized := padText s.normalized }, ?_, ?_, rfl⟩
  · unfold doHandleChineseChars
    rw [h1]
    simp only [res_ok_bind, applyPad_text h1]
    have := replay_value s.normalized []
    simp only [List.length_nil, List.nil_append] at this
    rw [this]; rfl
  · have h2' : Tab s' (padLens s.normalized lens) := by simpa using h2
    exact ⟨h2'.ranges, h2'.offsets, h2'.pos⟩

theorem cjk_value {s s' : NS} (h : doHandleChineseChars s = .ok s') : s'.normalized = padText s.normalized := by
  unfold doHandleChineseChars at h
  obtain ⟨s1, h1, h⟩ := res_bind_ok.1 h
  obtain ⟨r, hr, h⟩ := res_bind_ok.1 h
  rw [applyPad_text h1] at hr
  have := replay_value s.normalized []
  simp only [List.length_nil, List.nil_append] at this
  rw [this] at hr
  cases hr; cases h; rfl

theorem padText_scalars {w : WStr} (h : Scalars w) : Scalars (padText w) := by
  induction w with
  | nil => exact h
  | cons c w ih =>
    have := Scalars.cons.1 h
    unfold padText
    split
    · exact Scalars.cons.2 ⟨by decide, Scalars.cons.2 ⟨this.1, Scalars.cons.2 ⟨by decide, ih this.2⟩⟩⟩
    · exact Scalars.cons.2 ⟨this.1, ih this.2⟩

/-! ### NF -/

theorem grow_step {s : NS} {i : Nat} (h : i < s.ranges.length) :
    ∃ s', s.transform i .grow 0 = .ok s' ∧ s'.ranges.length = s.ranges.length + 1 := by
  have : vecAt s.ranges i = .ok s.ranges[i] := by unfold vecAt; rw [List.getElem?_eq_getElem h]
  refine ⟨_, by simp only [NS.transform, this, res_ok_bind, res_pure]; rfl, ?_⟩
  simp; omega

theorem applyGrow_returns : ∀ (o r : WStr) (oi m : Nat) (s : NS),
    oi + m + o.length ≤ s.ranges.length → ∃ s', applyGrow (growIds oi o r) m s = .ok s' := by
  intro o
  induction o with
  | nil => intro r oi m s _; exact ⟨s, by unfold growIds; rfl⟩
  | cons a o ih =>
    intro r oi m s h
    cases r with
    | nil => exact ⟨s, by unfold growIds; rfl⟩
    | cons b r =>
      simp at h
      unfold growIds
      split
      · exact ih r (oi + 1) m s (by omega)
      · obtain ⟨s', h1, h2⟩ := grow_step (s := s) (i := oi + m) (by omega)
        obtain ⟨s'', h3⟩ := ih (r.drop 1) (oi + 1) (m + 1) s' (by omega)
        exact ⟨s'', by simp only [applyGrow, h1, res_ok_bind]; exact h3⟩

theorem nf_returns (P : Platform) (k : NFKind) {s : NS} (h : s.normalized.length ≤ s.ranges.length) :
    ∃ s', nfNormalize P k s = .ok s' := by
  obtain ⟨s', hs⟩ := applyGrow_returns s.normalized (P.nf k (s.normalized.map sanitize)) 0 0 s (by omega)
  exact ⟨_, by unfold nfNormalize; simp only [hs]; rfl⟩

theorem ofText_ranges (w : WStr) : (NS.ofText w).ranges.length = (fromUTF32 w).length := by
  simp [NS.ofText]

end Tok
