import Verif.Spec.Failing
import Verif.Props.Settings

set_option autoImplicit false

/-!
C130: how `encode` ends, given how it ends without truncation, post-processor and padding.
-/

namespace Tok

open Spec

theorem oc_truncated {t : Tokenizer} {tr : Truncation} (ht : t.truncation = some tr) {e0 : Encoding} {x : Err} (h : tr.run e0 = .error x) (b : Bool) :
    t.doPostProcess e0 b = .error x := by
  unfold Tokenizer.doPostProcess
  rw [ht]
  simp only [h]
  rfl

/-- **C130** What fails without truncation, post-processor and padding fails with them, in the same way. -/
theorem C130_text {P : Platform} {t : Tokenizer} {w : WStr} {x : Err} (b : Bool) (h : ((bareOf t).encode P w b).1 = .error x) :
    (t.encode P w b).1 = .error x := by
  rw [ha_bare] at h
  rw [ha_encode, h]
  rfl

/-- **C130** A truncation whose windows do not advance loops for ever, and one that does not know its direction is undefined behaviour, if
there is something to cut; nothing else in the configuration matters. -/
theorem C130_truncation {P : Platform} {t : Tokenizer} {w : WStr} {b : Bool} {e0 : Encoding} {tr : Truncation} (ht : t.truncation = some tr)
    (h : ((bareOf t).encode P w b).1 = .ok e0) (hn : IsInt e0.ids.length) (hi : IsInt tr.maxLength ∧ IsInt tr.stride) :
    (Stalls tr e0.ids.length → (t.encode P w b).1 = .error .diverges) ∧
    (Misdirected tr e0.ids.length → (t.encode P w b).1 = .error (.ub .outOfBounds)) := by
  have htext : textPart P t w = .ok e0 := by rw [← ha_bare P t w b]; exact h
  obtain ⟨_, rows, hrows, _⟩ := st_text h
  have hal := hasRows_aligned hrows
  have hlen : e0.ids.length = rows.length := by rw [hrows.1, List.length_map]
  rw [hlen] at hn ⊢
  obtain ⟨_, c2⟩ := C92_truncation tr e0 rows.length hal hn hi
  rw [ha_encode, htext, res_ok_bind]
  constructor
  · rintro ⟨hl, ⟨hd, hs⟩ | ⟨hd, hs⟩⟩
    · exact oc_truncated ht (((c2 hl).2.1 hd).2.1 hs) b
    · exact oc_truncated ht (((c2 hl).2.2 hd).2 hs) b
  · rintro ⟨hl, hd⟩
    exact oc_truncated ht ((c2 hl).1 hd) b

theorem oc_split {t : Tokenizer} {p : Padding} (hp : t.padding = some p) {e0 : Encoding} {b : Bool} :
    t.doPostProcess e0 b = (do let e ← ({ t with padding := none } : Tokenizer).doPostProcess e0 b; p.run e) := by
  have key : ∀ (r : Res Encoding), (do let e ← r; p.run e) = (do let e ← (do let e ← r; .ok e); p.run e) := fun r => by cases r <;> rfl
  unfold Tokenizer.doPostProcess
  simp only [hp]
  cases t.truncation with
  | none =>
    cases t.postProcessor with
    | none => rfl
    | some pp => exact key (pp.run b e0)
  | some tr =>
    simp only
    cases tr.run e0 with
    | error x => rfl
    | ok y =>
      cases t.postProcessor with
      | none => rfl
      | some pp => exact key (pp.run b y)

theorem oc_target {p : Padding} (hp : Negative p) (n : Nat) : p.target n = p.fixedSize := by
  unfold Padding.target
  rw [if_pos hp.1]
  have : ¬ (p.padToMultipleOf > 0 ∧ p.fixedSize.tmod p.padToMultipleOf > 0) := by
    rintro ⟨h1, h2⟩
    have h3 := Int.tmod_nonneg (a := -p.fixedSize) p.padToMultipleOf (by have := hp.2.1; omega)
    rw [Int.neg_tmod] at h3
    omega
  simp only [this, if_false]

theorem oc_padEnc {p : Padding} (hp : Negative p) (hi : IsInt p.fixedSize) {x : Enc} (hx : x.ids.length < 2 ^ 63) :
    padEnc p p.fixedSize x = .error (.throws .lengthError) := by
  unfold padEnc
  obtain ⟨h1, h2, h3⟩ := hp
  obtain ⟨h4, h5⟩ := hi
  have hn : ¬ toSizeT p.fixedSize ≤ x.ids.length := by
    unfold toSizeT
    have : ¬ 0 ≤ p.fixedSize := by omega
    simp only [this, if_false]
    omega
  rw [if_neg hn]
  have hneg : p.fixedSize - (x.ids.length : Int) < 0 := by omega
  cases hd : p.direction with
  | unknown => exact absurd hd h3
  | left => simp only [hneg, if_true]
  | right => simp only [hneg, if_true]

theorem oc_padAll {p : Padding} (hp : Negative p) : ∀ (l : List Enc),
    padAll p p.fixedSize l = .error (.throws .lengthError) ∨ ∃ l', padAll p p.fixedSize l = .ok l' := by
  intro l
  induction l with
  | nil => exact .inr ⟨_, rfl⟩
  | cons x r ih =>
    have : padEnc p p.fixedSize x = .error (.throws .lengthError) ∨ padEnc p p.fixedSize x = .ok x := by
      unfold padEnc
      split
      · exact .inr rfl
      · have hneg : p.fixedSize - (x.ids.length : Int) < 0 := by have := hp.2.1; omega
        cases hd : p.direction with
        | unknown => exact .inr rfl
        | left => exact .inl (by simp only [hneg, if_true])
        | right => exact .inl (by simp only [hneg, if_true])
    simp only [padAll]
    rcases this with h | h
    · rw [h]; exact .inl rfl
    · rw [h]
      rcases ih with h' | ⟨l', h'⟩
      · rw [h']; exact .inl rfl
      · rw [h']; exact .inr ⟨_, rfl⟩

/-- **C130** A negative fixed padding length: `encode` throws `std::length_error` (unless the encoding has 2^63 tokens or more), if the
truncation succeeds. -/
theorem C130_padding {P : Platform} {t : Tokenizer} {w : WStr} {b : Bool} {e0 : Encoding} {p : Padding} (hS : ∀ s ∈ Specials t, s.ids.length = s.tokens.length)
    (h : ((bareOf t).encode P w b).1 = .ok e0) (hn : IsInt e0.ids.length)
    (hi : ∀ tr, t.truncation = some tr → IsInt tr.maxLength ∧ IsInt tr.stride ∧ ¬ Stalls tr e0.ids.length ∧ ¬ Misdirected tr e0.ids.length)
    (hp : t.padding = some p) (hneg : Negative p) (hp' : IsInt p.fixedSize) :
    (t.encode P w b).1 = .error (.throws .lengthError) ∨ ∃ e, (({ t with padding := none } : Tokenizer).encode P w b).1 = .ok e ∧ 2 ^ 63 ≤ e.ids.length := by
  obtain ⟨e, he⟩ : ∃ e, (({ t with padding := none } : Tokenizer).encode P w b).1 = .ok e := by
    refine C128_returns (t := { t with padding := none }) (e0 := e0) hS h hn (fun tr htr => ?_) (fun p hp => by cases hp)
    obtain ⟨i1, i2, i3, i4⟩ := hi tr htr
    refine ⟨i1, i2, i3, ?_⟩
    by_cases hl : LeftAsIs tr e0.ids.length
    · exact .inl hl
    · exact .inr fun hd => i4 ⟨hl, hd⟩
  by_cases hlen : 2 ^ 63 ≤ e.ids.length
  · exact .inr ⟨e, he, hlen⟩
  · left
    have htext : textPart P t w = .ok e0 := by rw [← ha_bare P t w b]; exact h
    have htext' : textPart P { t with padding := none } w = .ok e0 := by
      rw [← ha_bare P { t with padding := none } w b]; exact h
    rw [ha_encode, htext', res_ok_bind] at he
    rw [ha_encode, htext, res_ok_bind]
    have hrun : p.run e = .error (.throws .lengthError) := by
      unfold Padding.run pad
      rw [oc_target hneg]
      rcases oc_padAll hneg e.overflowing with g | ⟨l', g⟩
      · rw [g]; rfl
      · rw [g, res_ok_bind, oc_padEnc hneg hp' (by omega)]; rfl
    have hsplit := oc_split (b := b) (e0 := e0) hp
    rw [hsplit, he, res_ok_bind, hrun]

/-- **C130** And in all other cases `encode` returns. -/
theorem C130_returns {P : Platform} {t : Tokenizer} {w : WStr} {b : Bool} {e0 : Encoding} (hS : ∀ s ∈ Specials t, s.ids.length = s.tokens.length)
    (h : ((bareOf t).encode P w b).1 = .ok e0) (hn : IsInt e0.ids.length)
    (hi : ∀ tr, t.truncation = some tr → IsInt tr.maxLength ∧ IsInt tr.stride ∧ ¬ Stalls tr e0.ids.length ∧ ¬ Misdirected tr e0.ids.length)
    (hp : ∀ p, t.padding = some p → ¬ Negative p) : ∃ e, (t.encode P w b).1 = .ok e := by
  obtain ⟨e, he⟩ : ∃ e, (({ t with padding := none } : Tokenizer).encode P w b).1 = .ok e := by
    refine C128_returns (t := { t with padding := none }) (e0 := e0) hS h hn (fun tr htr => ?_) (fun p hp => by cases hp)
    obtain ⟨i1, i2, i3, i4⟩ := hi tr htr
    refine ⟨i1, i2, i3, ?_⟩
    by_cases hl : LeftAsIs tr e0.ids.length
    · exact .inl hl
    · exact .inr fun hd => i4 ⟨hl, hd⟩
  have htext : textPart P t w = .ok e0 := by rw [← ha_bare P t w b]; exact h
  have htext' : textPart P { t with padding := none } w = .ok e0 := by
    rw [← ha_bare P { t with padding := none } w b]; exact h
  rw [ha_encode, htext', res_ok_bind] at he
  rw [ha_encode, htext, res_ok_bind]
  cases hpad : t.padding with
  | none => exact ⟨e, by rw [← he]; cases t; cases hpad; rfl⟩
  | some p =>
    have hsplit := oc_split (b := b) (e0 := e0) hpad
    rw [hsplit, he, res_ok_bind]
    by_cases hd : p.direction = .unknown
    · have hpe : ∀ n x, padEnc p n x = .ok x := fun n x => by unfold padEnc; rw [hd]; split <;> rfl
      have hpa : ∀ n l, padAll p n l = .ok l := by
        intro n l
        induction l with
        | nil => rfl
        | cons x r ih => simp only [padAll, hpe, ih]; rfl
      exact ⟨e, by unfold Padding.run pad; simp only [hpe, hpa]; rfl⟩
    · obtain ⟨_, r, hr, _⟩ := C37_C38_padding p e fun hf => by
        apply Classical.byContradiction
        intro hneg
        exact hp p hpad ⟨hf, by omega, hd⟩
      exact ⟨r, hr⟩

/-- The hypotheses are met: a truncation that stalls, one that is misdirected, a negative padding. -/
example : (∃ e0, ((bareOf (bertLike (some ⟨.right, .longestFirst, 1, 1⟩) none none)).encode ascii w!"go go" true).1 = .ok e0 ∧ Stalls ⟨.right, .longestFirst, 1, 1⟩ e0.ids.length) ∧
    (∃ e0, ((bareOf (bertLike (some ⟨.unknown, .longestFirst, 1, 1⟩) none none)).encode ascii w!"go go" true).1 = .ok e0 ∧
      Misdirected ⟨.unknown, .longestFirst, 1, 1⟩ e0.ids.length) ∧
    (Negative ⟨.right, .fixed, -1, 0, 0, b!"[PAD]", 0⟩ ∧ ((bertLike none none (some ⟨.right, .fixed, -1, 0, 0, b!"[PAD]", 0⟩)).encode ascii w!"go" true).1.map (·.ids) =
      .error (.throws .lengthError)) := by
  refine ⟨⟨_, rfl, ?_⟩, ⟨_, rfl, ?_⟩, ⟨by decide, by decide, by decide⟩, by decide +kernel⟩
  · unfold Stalls LeftAsIs; decide +kernel
  · unfold Misdirected LeftAsIs; decide +kernel

end Tok
