import Verif.Proofs.Unicode
import Verif.Spec.Text

set_option autoImplicit false

/-!
C01, C02: `convert_to_string` / `convert_from_string`.
-/

namespace Tok
open Spec

theorem scalar_iff {c : Nat} : Scalar c ↔ isScalar c = true := by
  rw [isScalar_iff]; unfold Scalar; omega

theorem utf8Char_iff {c : Nat} {s : Str} : Utf8Char c s ↔ isScalar c = true ∧ s = utf8Enc1 c := by
  constructor
  · intro h
    cases h with
    | one _ h1 =>
      refine ⟨isScalar_iff.2 (by omega), ?_⟩
      have : c < 0x80 := by omega
      simp [utf8Enc1, this]
    | two x y h1 h2 h3 =>
      refine ⟨isScalar_iff.2 (by omega), ?_⟩
      have a1 : ¬ (x * 64 + y < 0x80) := by omega
      have a2 : x * 64 + y < 0x800 := by omega
      simp only [utf8Enc1, a1, a2, if_true, if_false, List.cons.injEq, and_true]
      omega
    | three x y z h1 h2 h3 h4 h5 =>
      refine ⟨isScalar_iff.2 (by omega), ?_⟩
      have a1 : ¬ (x * 4096 + y * 64 + z < 0x80) := by omega
      have a2 : ¬ (x * 4096 + y * 64 + z < 0x800) := by omega
      have a3 : x * 4096 + y * 64 + z < 0x10000 := by omega
      simp only [utf8Enc1, a1, a2, a3, if_true, if_false, List.cons.injEq, and_true]
      omega
    | four x y z t h1 h2 h3 h4 h5 h6 =>
      refine ⟨isScalar_iff.2 (by omega), ?_⟩
      have a1 : ¬ (x * 262144 + y * 4096 + z * 64 + t < 0x80) := by omega
      have a2 : ¬ (x * 262144 + y * 4096 + z * 64 + t < 0x800) := by omega
      have a3 : ¬ (x * 262144 + y * 4096 + z * 64 + t < 0x10000) := by omega
      simp only [utf8Enc1, a1, a2, a3, if_false, List.cons.injEq, and_true]
      omega
  · rintro ⟨hc, rfl⟩
    rw [isScalar_iff] at hc
    unfold utf8Enc1
    split
    · exact .one c (by omega)
    · split
      · have := Utf8Char.two (c / 64) (c % 64) (by omega) (by omega) (by omega)
        rwa [show c / 64 * 64 + c % 64 = c by omega] at this
      · split
        · have := Utf8Char.three (c / 4096) (c / 64 % 64) (c % 64) (by omega) (by omega) (by omega)
            (by omega) (by omega)
          rwa [show c / 4096 * 4096 + c / 64 % 64 * 64 + c % 64 = c by omega] at this
        · have := Utf8Char.four (c / 262144) (c / 4096 % 64) (c / 64 % 64) (c % 64) (by omega)
            (by omega) (by omega) (by omega) (by omega) (by omega)
          rwa [show c / 262144 * 262144 + c / 4096 % 64 * 4096 + c / 64 % 64 * 64 + c % 64 = c
            by omega] at this

theorem utf8Text_iff {w : WStr} {s : Str} : Utf8Text w s ↔ Scalars w ∧ s = utf8 w := by
  induction w generalizing s with
  | nil =>
    constructor
    · intro h; cases h; exact ⟨Scalars.nil, rfl⟩
    · rintro ⟨_, rfl⟩; exact .nil
  | cons c w ih =>
    constructor
    · intro h
      cases h with
      | cons h1 h2 =>
        obtain ⟨hc, rfl⟩ := utf8Char_iff.1 h1
        obtain ⟨hw, rfl⟩ := ih.1 h2
        exact ⟨Scalars.cons.2 ⟨hc, hw⟩, rfl⟩
    · rintro ⟨hw, rfl⟩
      rw [Scalars.cons] at hw
      exact .cons (utf8Char_iff.2 ⟨hw.1, rfl⟩) (ih.2 ⟨hw.2, rfl⟩)

theorem scalars_iff {w : WStr} : (∀ c ∈ w, Scalar c) ↔ Scalars w := by
  simp only [Scalars, scalar_iff]

/-- **C01** Every sequence of scalar values survives the conversion to UTF-8 and back. -/
theorem C01_roundtrip (w : WStr) (hw : ∀ c ∈ w, Scalar c) :
    ∃ s, convertToString w = .ok s ∧ convertFromString s = .ok w := by
  rw [scalars_iff] at hw
  exact ⟨utf8 w, convertToString_scalars hw, convertFromString_utf8 hw⟩

/-- **C01** Distinct wide strings have distinct images. -/
theorem C01_injective (v w : WStr) (s : Str) (hv : convertToString v = .ok s)
    (hw : convertToString w = .ok s) : v = w := by
  rw [convertToString_ok_iff] at hv hw
  exact utf8_injective hv.1 hw.1 (hv.2.symm.trans hw.2)

example : ∃ s, convertToString w!"aé漢😀" = .ok s ∧ convertFromString s = .ok w!"aé漢😀" :=
  C01_roundtrip _ (by simp [Scalar])
example : convertToString w!"é" = .ok b!"é" := by decide

/-- **C02** `convert_to_string` returns the UTF-8 representation of its argument, and
nothing else. -/
theorem C02_to_string_iff (w : WStr) (s : Str) : convertToString w = .ok s ↔ Utf8Text w s := by
  rw [convertToString_ok_iff, utf8Text_iff]

/-- **C02** `convert_to_string` throws `range_error` exactly on values that are not
scalar values; it fails in no other way. -/
theorem C02_to_string_throws_iff (w : WStr) :
    (convertToString w = .error (.throws .rangeError) ↔ ∃ c ∈ w, ¬ Scalar c) ∧
    ∀ e, convertToString w = .error e → e = .throws .rangeError := by
  refine ⟨⟨fun h => ?_, fun h => ?_⟩, fun e h => (convertToString_error h).1⟩
  · have := (convertToString_error h).2
    rw [← scalars_iff] at this
    simpa using this
  · obtain ⟨c, hc, hn⟩ := h
    cases h : convertToString w with
    | ok s => exact absurd (scalars_iff.2 (convertToString_ok_iff.1 h).1 c hc) hn
    | error e => rw [(convertToString_error h).1]

/-- **C02** `convert_from_string` returns the code points its argument represents. -/
theorem C02_from_string_iff (s : Str) (w : WStr) : convertFromString s = .ok w ↔ Utf8Text w s := by
  rw [utf8Text_iff]
  constructor
  · intro h; have := convertFromString_ok h; exact ⟨this.1, this.2.symm⟩
  · rintro ⟨hw, rfl⟩; exact convertFromString_utf8 hw

/-- **C02** `convert_from_string` throws `range_error` exactly on ill-formed data. -/
theorem C02_from_string_throws_iff (s : Str) :
    (convertFromString s = .error (.throws .rangeError) ↔ ¬ ∃ w, Utf8Text w s) ∧
    ∀ e, convertFromString s = .error e → e = .throws .rangeError := by
  refine ⟨⟨fun h => ?_, fun h => ?_⟩, fun e h => convertFromString_error h⟩
  · rintro ⟨w, hw⟩
    rw [(C02_from_string_iff s w).2 hw] at h; cases h
  · cases h' : convertFromString s with
    | ok w => exact absurd ⟨w, (C02_from_string_iff s w).1 h'⟩ h
    | error e => rw [convertFromString_error h']

/-- **C02** What `convert_from_string` accepts, `convert_to_string` gives back. -/
theorem C02_from_to (s : Str) (w : WStr) (h : convertFromString s = .ok w) :
    convertToString w = .ok s :=
  (C02_to_string_iff w s).2 ((C02_from_string_iff s w).1 h)

-- both outcomes occur: a lone surrogate, an overlong form, a truncated sequence
example : convertToString [0x41, 0xD83D] = .error (.throws .rangeError) := by decide
example : convertFromString [0xC0, 0x80] = .error (.throws .rangeError) := by decide
example : convertFromString [0x41, 0xE2, 0x96] = .error (.throws .rangeError) := by decide
example : convertFromString b!"▁a" = .ok w!"▁a" := by decide

end Tok
