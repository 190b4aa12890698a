import Verif.Unicode

set_option autoImplicit false

/-! Lemmas on UTF-8 / UTF-16 conversions. -/

namespace Tok

theorem isScalar_iff {c : Nat} : isScalar c = true ↔ c < 0xD800 ∨ (0xE000 ≤ c ∧ c < 0x110000) := by
  simp [isScalar]

/-- All code values are scalar values. -/
def Scalars (w : WStr) : Prop := ∀ c ∈ w, isScalar c = true

theorem Scalars.nil : Scalars [] := by simp [Scalars]
theorem Scalars.cons {c : Nat} {w : WStr} : Scalars (c :: w) ↔ isScalar c = true ∧ Scalars w := by
  simp [Scalars]
theorem Scalars.append {v w : WStr} : Scalars (v ++ w) ↔ Scalars v ∧ Scalars w := by
  simp only [Scalars, List.mem_append]
  constructor
  · intro h; exact ⟨fun c hc => h c (.inl hc), fun c hc => h c (.inr hc)⟩
  · rintro ⟨h1, h2⟩ c (hc | hc)
    · exact h1 c hc
    · exact h2 c hc

theorem Scalars.sub {v w : WStr} (h : Scalars w) (hs : ∀ c ∈ v, c ∈ w) : Scalars v :=
  fun c hc => h c (hs c hc)

theorem utf8Enc1_length_pos (c : Nat) : 0 < (utf8Enc1 c).length := by
  unfold utf8Enc1; split
  · simp
  · split
    · simp
    · split <;> simp

theorem utf8Enc1_ne_nil (c : Nat) : utf8Enc1 c ≠ [] := by
  intro h; have := utf8Enc1_length_pos c; simp [h] at this

/-- Decoding one step at the start of an encoded code point. -/
theorem utf8Step_enc {c : Nat} (hc : isScalar c = true) (r : Str) :
    utf8Step (utf8Enc1 c ++ r) = some (c, (utf8Enc1 c).length) := by
  rw [isScalar_iff] at hc
  unfold utf8Enc1
  split
  · rename_i h; simp [utf8Step, h]
  · split
    · rename_i h1 h2
      have e1 : ¬ (0xC0 + c / 64 < 0x80) := by omega
      have e2 : ¬ (0xC0 + c / 64 < 0xC2) := by omega
      have e3 : 0xC0 + c / 64 < 0xE0 := by omega
      have e4 : c % 64 < 64 := by omega
      simp only [List.cons_append, List.nil_append, utf8Step, e1, e2, e3, if_true, if_false]
      have : isCont (0x80 + c % 64) = true := by simp [isCont]; omega
      have hv : (0xC0 + c / 64 - 0xC0) * 64 + (0x80 + c % 64 - 0x80) = c := by omega
      simp only [this, if_true, List.length_cons, List.length_nil, hv]
    · split
      · rename_i h1 h2 h3
        have e1 : ¬ (0xE0 + c / 4096 < 0x80) := by omega
        have e2 : ¬ (0xE0 + c / 4096 < 0xC2) := by omega
        have e3 : ¬ (0xE0 + c / 4096 < 0xE0) := by omega
        have e4 : 0xE0 + c / 4096 < 0xF0 := by omega
        simp only [List.cons_append, List.nil_append, utf8Step, e1, e2, e3, e4, if_true, if_false]
        have k1 : isCont (0x80 + c % 64) = true := by simp [isCont]; omega
        have k2 : isCont (0x80 + c / 64 % 64) = true := by simp [isCont]; omega
        have hv : (0xE0 + c / 4096 - 0xE0) * 4096 + (0x80 + c / 64 % 64 - 0x80) * 64 +
            (0x80 + c % 64 - 0x80) = c := by omega
        rw [hv]
        have k3 : isScalar c = true := isScalar_iff.2 hc
        have k4 : 0x800 ≤ c := by omega
        simp [k1, k2, k3, k4]
      · rename_i h1 h2 h3
        have e1 : ¬ (0xF0 + c / 262144 < 0x80) := by omega
        have e2 : ¬ (0xF0 + c / 262144 < 0xC2) := by omega
        have e3 : ¬ (0xF0 + c / 262144 < 0xE0) := by omega
        have e4 : ¬ (0xF0 + c / 262144 < 0xF0) := by omega
        have e5 : 0xF0 + c / 262144 < 0xF5 := by omega
        simp only [List.cons_append, List.nil_append, utf8Step, e1, e2, e3, e4, e5, if_true, if_false]
        have k1 : isCont (0x80 + c % 64) = true := by simp [isCont]; omega
        have k2 : isCont (0x80 + c / 64 % 64) = true := by simp [isCont]; omega
        have k3 : isCont (0x80 + c / 4096 % 64) = true := by simp [isCont]; omega
        have hv : (0xF0 + c / 262144 - 0xF0) * 262144 + (0x80 + c / 4096 % 64 - 0x80) * 4096 +
            (0x80 + c / 64 % 64 - 0x80) * 64 + (0x80 + c % 64 - 0x80) = c := by omega
        rw [hv]
        have k4 : isScalar c = true := isScalar_iff.2 hc
        have k5 : 0x10000 ≤ c := by omega
        simp [k1, k2, k3, k4, k5]

/-- A successful step has read the encoding of a scalar value. -/
theorem utf8Step_sound {s : Str} {c k : Nat} (h : utf8Step s = some (c, k)) :
    isScalar c = true ∧ k = (utf8Enc1 c).length ∧ s = utf8Enc1 c ++ s.drop k := by
  cases s with
  | nil => simp [utf8Step] at h
  | cons b0 r =>
    simp only [utf8Step] at h
    split at h
    · rename_i hb
      simp at h; obtain ⟨rfl, rfl⟩ := h
      simp [isScalar_iff, utf8Enc1, hb]; omega
    · split at h
      · simp at h
      · split at h
        · cases r with
          | nil => simp at h
          | cons b1 r =>
            simp only at h
            split at h
            · rename_i h1 h2 h3 hc1
              simp only [isCont, Bool.and_eq_true, decide_eq_true_eq] at hc1
              simp only [Option.some.injEq, Prod.mk.injEq] at h
              obtain ⟨rfl, rfl⟩ := h
              have a1 : ¬ ((b0 - 0xC0) * 64 + (b1 - 0x80) < 0x80) := by omega
              have a2 : (b0 - 0xC0) * 64 + (b1 - 0x80) < 0x800 := by omega
              refine ⟨isScalar_iff.2 (by omega), ?_, ?_⟩
              · simp [utf8Enc1, a1, a2]
              · simp only [utf8Enc1, a1, a2, if_true, if_false, List.drop_succ_cons, List.drop_zero,
                  List.cons_append, List.nil_append, List.cons.injEq, and_true]
                omega
            · simp at h
        · split at h
          · cases r with
            | nil => simp at h
            | cons b1 r =>
              cases r with
              | nil => simp at h
              | cons b2 r =>
                simp only at h
                split at h
                · rename_i h1 h2 h3 h4 hc1
                  simp only [isCont, Bool.and_eq_true, decide_eq_true_eq] at hc1
                  simp only [Option.some.injEq, Prod.mk.injEq] at h
                  obtain ⟨rfl, rfl⟩ := h
                  obtain ⟨⟨⟨hb1, hb2⟩, hge⟩, hsc⟩ := hc1
                  refine ⟨hsc, ?_⟩
                  generalize hcc : (b0 - 0xE0) * 4096 + (b1 - 0x80) * 64 + (b2 - 0x80) = c at *
                  have a1 : ¬ (c < 0x80) := by omega
                  have a2 : ¬ (c < 0x800) := by omega
                  have a3 : c < 0x10000 := by omega
                  refine ⟨by simp [utf8Enc1, a1, a2, a3], ?_⟩
                  simp only [utf8Enc1, a1, a2, a3, if_true, if_false, List.drop_succ_cons,
                    List.drop_zero, List.cons_append, List.nil_append, List.cons.injEq, and_true]
                  omega
                · simp at h
          · split at h
            · cases r with
              | nil => simp at h
              | cons b1 r =>
                cases r with
                | nil => simp at h
                | cons b2 r =>
                  cases r with
                  | nil => simp at h
                  | cons b3 r =>
                    simp only at h
                    split at h
                    · rename_i h1 h2 h3 h4 h5 hc1
                      simp only [isCont, Bool.and_eq_true, decide_eq_true_eq] at hc1
                      simp only [Option.some.injEq, Prod.mk.injEq] at h
                      obtain ⟨rfl, rfl⟩ := h
                      obtain ⟨⟨⟨⟨hb1, hb2⟩, hb3⟩, hge⟩, hsc⟩ := hc1
                      refine ⟨hsc, ?_⟩
                      generalize hcc : (b0 - 0xF0) * 262144 + (b1 - 0x80) * 4096 + (b2 - 0x80) * 64
                        + (b3 - 0x80) = c at *
                      have a1 : ¬ (c < 0x80) := by omega
                      have a2 : ¬ (c < 0x800) := by omega
                      have a3 : ¬ (c < 0x10000) := by omega
                      refine ⟨by simp [utf8Enc1, a1, a2, a3], ?_⟩
                      simp only [utf8Enc1, a1, a2, a3, if_false, List.drop_succ_cons,
                        List.drop_zero, List.cons_append, List.nil_append, List.cons.injEq, and_true]
                      omega
                    · simp at h
            · simp at h

@[simp] theorem utf8_nil : utf8 [] = [] := rfl
@[simp] theorem utf8_cons (c : Nat) (w : WStr) : utf8 (c :: w) = utf8Enc1 c ++ utf8 w := rfl
@[simp] theorem utf8_append (v w : WStr) : utf8 (v ++ w) = utf8 v ++ utf8 w := by
  simp [utf8]

theorem utf8_length_ge (w : WStr) : w.length ≤ (utf8 w).length := by
  induction w with
  | nil => simp
  | cons c w ih =>
    have := utf8Enc1_length_pos c
    simp only [utf8_cons, List.length_append, List.length_cons]; omega

/-- Strict decoding of encoded text, with enough fuel. -/
theorem utf8DecFuel_utf8 {w : WStr} (hw : Scalars w) : ∀ n, (utf8 w).length ≤ n →
    utf8DecFuel n (utf8 w) = some w := by
  induction w with
  | nil => intro n _; cases n <;> rfl
  | cons c w ih =>
    intro n hn
    rw [Scalars.cons] at hw
    have hpos := utf8Enc1_length_pos c
    simp only [utf8_cons, List.length_append] at hn
    obtain ⟨n, rfl⟩ : ∃ m, n = m + 1 := ⟨n - 1, by omega⟩
    have hne : utf8Enc1 c ++ utf8 w ≠ [] := by simp [utf8Enc1_ne_nil]
    obtain ⟨b, r, hbr⟩ : ∃ b r, utf8Enc1 c ++ utf8 w = b :: r := by
      cases h : utf8Enc1 c ++ utf8 w with
      | nil => exact absurd h hne
      | cons b r => exact ⟨b, r, rfl⟩
    have hstep := utf8Step_enc hw.1 (utf8 w)
    rw [utf8_cons, hbr, utf8DecFuel, ← hbr, hstep]
    simp only [List.drop_left]
    rw [ih hw.2 n (by omega)]; rfl

/-- Whatever strict decoding returns, its encoding is the input. -/
theorem utf8DecFuel_sound : ∀ (n : Nat) (s : Str) (w : WStr), utf8DecFuel n s = some w →
    Scalars w ∧ utf8 w = s := by
  intro n
  induction n with
  | zero =>
    intro s w h
    cases s with
    | nil => simp [utf8DecFuel] at h; subst h; exact ⟨Scalars.nil, rfl⟩
    | cons b r => simp [utf8DecFuel] at h
  | succ n ih =>
    intro s w h
    cases s with
    | nil => simp [utf8DecFuel] at h; subst h; exact ⟨Scalars.nil, rfl⟩
    | cons b r =>
      rw [utf8DecFuel] at h
      split at h
      · simp at h
      · rename_i c k hstep
        simp only [Option.map_eq_some_iff] at h
        obtain ⟨w', hw', rfl⟩ := h
        obtain ⟨hc, hk, hs⟩ := utf8Step_sound hstep
        obtain ⟨h1, h2⟩ := ih _ _ hw'
        refine ⟨Scalars.cons.2 ⟨hc, h1⟩, ?_⟩
        rw [utf8_cons, h2, ← hs]

theorem convertFromString_utf8 {w : WStr} (hw : Scalars w) : convertFromString (utf8 w) = .ok w := by
  simp [convertFromString, utf8DecFuel_utf8 hw _ (Nat.le_refl _)]

theorem convertFromString_ok {s : Str} {w : WStr} (h : convertFromString s = .ok w) :
    Scalars w ∧ utf8 w = s := by
  unfold convertFromString at h
  split at h
  · rename_i w' h'; simp at h; subst h; exact utf8DecFuel_sound _ _ _ h'
  · simp at h

theorem convertFromString_error {s : Str} {e : Err} (h : convertFromString s = .error e) :
    e = .throws .rangeError := by
  unfold convertFromString at h
  split at h <;> simp at h
  exact h.symm

theorem convertToString_ok_iff {w : WStr} {s : Str} :
    convertToString w = .ok s ↔ Scalars w ∧ s = utf8 w := by
  induction w generalizing s with
  | nil => simp [convertToString, Scalars.nil, eq_comm]
  | cons c w ih =>
    simp only [convertToString, Scalars.cons]
    split
    · rename_i hc
      cases h : convertToString w with
      | ok t =>
        have := (ih (s := t)).1 h
        simp [hc, this.1, this.2, eq_comm]
      | error e =>
        simp only [reduceCtorEq, false_iff, not_and]
        intro hs _
        have := (ih (s := utf8 w)).2 ⟨hs.2, rfl⟩
        rw [h] at this; cases this
    · rename_i hc; simp [hc]

theorem convertToString_scalars {w : WStr} (hw : Scalars w) : convertToString w = .ok (utf8 w) :=
  convertToString_ok_iff.2 ⟨hw, rfl⟩

theorem convertToString_error {w : WStr} {e : Err} (h : convertToString w = .error e) :
    e = .throws .rangeError ∧ ¬ Scalars w := by
  refine ⟨?_, fun hs => by rw [convertToString_scalars hs] at h; cases h⟩
  induction w with
  | nil => simp [convertToString] at h
  | cons c w ih =>
    simp only [convertToString] at h
    split at h
    · split at h
      · simp at h
      · rename_i e' h'; simp at h; subst h; exact ih h'
    · simp at h; exact h.symm

theorem utf8_injective {v w : WStr} (hv : Scalars v) (hw : Scalars w) (h : utf8 v = utf8 w) : v = w := by
  have h1 := convertFromString_utf8 hv
  rw [h, convertFromString_utf8 hw] at h1
  exact (Except.ok.inj h1).symm

/-! ### UTF-16 -/

@[simp] theorem utf16_nil : utf16 [] = [] := rfl
@[simp] theorem utf16_cons (c : Nat) (w : WStr) : utf16 (c :: w) = utf16Enc1 c ++ utf16 w := rfl
@[simp] theorem utf16_append (v w : WStr) : utf16 (v ++ w) = utf16 v ++ utf16 w := by simp [utf16]

theorem utf16Enc1_ne_nil (c : Nat) : utf16Enc1 c ≠ [] := by
  unfold utf16Enc1; split <;> simp

theorem utf16_eq_nil {w : WStr} : utf16 w = [] ↔ w = [] := by
  cases w with
  | nil => simp
  | cons c w => simp [utf16Enc1_ne_nil]

/-- A scalar value below U+10000 is not a surrogate. -/
theorem not_lead_of_scalar {c : Nat} (hc : isScalar c = true) : isLead c = false := by
  rw [isScalar_iff] at hc
  simp only [isLead, Bool.and_eq_false_imp, decide_eq_true_eq, decide_eq_false_iff_not]; omega
theorem not_trail_of_scalar {c : Nat} (hc : isScalar c = true) : isTrail c = false := by
  rw [isScalar_iff] at hc
  simp only [isTrail, Bool.and_eq_false_imp, decide_eq_true_eq, decide_eq_false_iff_not]; omega

theorem u16Points_utf16_append {w : WStr} (hw : Scalars w) (u : U16) :
    u16Points (utf16 w ++ u) = w ++ u16Points u := by
  induction w with
  | nil => simp
  | cons c w ih =>
    rw [Scalars.cons] at hw
    simp only [utf16_cons, List.append_assoc, List.cons_append]
    unfold utf16Enc1
    split
    · have hl := not_lead_of_scalar hw.1
      simp only [List.cons_append, List.nil_append]
      cases h : utf16 w ++ u with
      | nil =>
        have := ih hw.2; rw [h] at this; rw [← this]; rfl
      | cons x r =>
        rw [u16Points, ← h, ih hw.2]; simp [hl]
    · rename_i hlt
      have hc := isScalar_iff.1 hw.1
      have key : ∀ a b : Nat, isLead a = true → isTrail b = true → pairCode a b = c →
          u16Points (a :: b :: (utf16 w ++ u)) = c :: (w ++ u16Points u) := by
        intro a b ha hb hab
        rw [u16Points, ih hw.2]; simp [ha, hb, hab]
      refine key _ _ ?_ ?_ ?_
      · simp only [isLead, Bool.and_eq_true, decide_eq_true_eq]; omega
      · simp only [isTrail, Bool.and_eq_true, decide_eq_true_eq]; omega
      · unfold pairCode; have := Nat.div_add_mod (c - 0x10000) 1024; omega

theorem u16Points_utf16 {w : WStr} (hw : Scalars w) : u16Points (utf16 w) = w := by
  have := u16Points_utf16_append hw []
  simpa [u16Points] using this

theorem map_sanitize {w : WStr} (hw : Scalars w) : w.map sanitize = w := by
  induction w with
  | nil => rfl
  | cons c w ih => rw [Scalars.cons] at hw; simp [sanitize, hw.1, ih hw.2]

theorem sanitize_scalar (c : Nat) : isScalar (sanitize c) = true := by
  unfold sanitize
  cases h : isScalar c with
  | true => simpa using h
  | false => exact isScalar_iff.2 (by simp)

theorem fromUTF32_scalars {w : WStr} (hw : Scalars w) : fromUTF32 w = utf16 w := by
  simp [fromUTF32, map_sanitize hw]

theorem toUTF8String_utf16 {w : WStr} (hw : Scalars w) : toUTF8String (utf16 w) = utf8 w := by
  simp [toUTF8String, u16Points_utf16 hw, map_sanitize hw]

theorem utf8LossyFuel_utf8 {w : WStr} (hw : Scalars w) : ∀ n, (utf8 w).length ≤ n →
    utf8LossyFuel n (utf8 w) = w := by
  induction w with
  | nil => intro n _; cases n <;> rfl
  | cons c w ih =>
    intro n hn
    rw [Scalars.cons] at hw
    have hpos := utf8Enc1_length_pos c
    simp only [utf8_cons, List.length_append] at hn
    obtain ⟨n, rfl⟩ : ∃ m, n = m + 1 := ⟨n - 1, by omega⟩
    have hstep := utf8Step_enc hw.1 (utf8 w)
    cases hbr : utf8Enc1 c ++ utf8 w with
    | nil => simp [utf8Enc1_ne_nil] at hbr
    | cons b r =>
      rw [utf8_cons, hbr, utf8LossyFuel, ← hbr, hstep]
      simp only [List.drop_left]
      rw [ih hw.2 n (by omega)]

theorem fromUTF8_utf8 {w : WStr} (hw : Scalars w) : fromUTF8 (utf8 w) = utf16 w := by
  simp [fromUTF8, utf8LossyFuel_utf8 hw _ (Nat.le_refl _)]

/-- Lossy decoding always yields scalar values. -/
theorem utf8LossyFuel_scalars : ∀ (n : Nat) (s : Str), Scalars (utf8LossyFuel n s) := by
  intro n
  induction n with
  | zero => intro s; cases s <;> simp [utf8LossyFuel, Scalars]
  | succ n ih =>
    intro s
    cases s with
    | nil => simp [utf8LossyFuel, Scalars]
    | cons b r =>
      rw [utf8LossyFuel]
      split
      · exact Scalars.cons.2 ⟨isScalar_iff.2 (by omega), ih _⟩
      · rename_i h; exact Scalars.cons.2 ⟨(utf8Step_sound h).1, ih _⟩

end Tok
