import Verif.Props.Settings
import Verif.Spec.Limits

set_option autoImplicit false

/-!
C134: a larger `max_length` only adds tokens; the stride, and everything that is inserted, makes no difference for the main encoding.
-/

namespace Tok
open Spec

theorem lm_left {x : Truncation} {n : Nat} (h : Limits x) : LeftAsIs x n ↔ (n : Int) ≤ x.maxLength := by
  unfold LeftAsIs
  constructor
  · rintro (h1 | h1 | h1 | h1)
    · have := h.1; omega
    · exact h1
    · rcases h.2 with h2 | h2 <;> rw [h2] at h1 <;> cases h1
    · rcases h.2 with h2 | h2 <;> rw [h2] at h1 <;> cases h1
  · exact fun h1 => .inr (.inl h1)

theorem lm_off {x : Truncation} {n : Nat} (h : ¬ Limits x) : LeftAsIs x n := by
  unfold LeftAsIs
  unfold Limits at h
  by_cases h1 : 0 < x.maxLength
  · cases hs : x.strategy with
    | longestFirst => exact absurd ⟨h1, .inl hs⟩ h
    | onlyFirst => exact absurd ⟨h1, .inr hs⟩ h
    | onlySecond => exact .inr (.inr (.inl rfl))
    | unknown => exact .inr (.inr (.inr rfl))
  · exact .inl (by omega)

theorem lm_own {α : Type} {tr : Option Truncation} {d : TDir} (hd : ∀ x, tr = some x → x.direction = d) (l : List α) :
    PartOn d (mainPart tr l) l := by
  cases tr with
  | none => cases d <;> simp [PartOn, mainPart]
  | some x =>
    have := hd x rfl
    unfold mainPart
    simp only
    split
    · cases d <;> simp [PartOn]
    · rw [this]
      cases d
      all_goals simp only [PartOn]
      · exact List.take_prefix _ _
      · exact List.drop_suffix _ _

theorem lm_part {α : Type} {tr tr' : Option Truncation} {d : TDir} (hd : ∀ x, tr = some x → x.direction = d) (hk : KeepsMore tr tr') (l : List α) :
    PartOn d (mainPart tr l) (mainPart tr' l) := by
  cases tr' with
  | none => exact lm_own hd l
  | some x' =>
    rcases hk x' rfl with h | ⟨x, rfl, h1, h2, h3⟩
    · have e : mainPart (some x') l = l := by unfold mainPart; simp only; rw [if_pos (lm_off h)]
      rw [e]; exact lm_own hd l
    · by_cases h4 : LeftAsIs x' l.length
      · have e : mainPart (some x') l = l := by unfold mainPart; simp only; rw [if_pos h4]
        rw [e]; exact lm_own hd l
      · have h5 : Limits x' := Classical.byContradiction fun h => h4 (lm_off h)
        have h6 : ¬ LeftAsIs x l.length := by
          rw [lm_left h1]; rw [lm_left h5] at h4; omega
        have h7 := hd x rfl
        unfold mainPart
        simp only
        rw [if_neg h4, if_neg h6, ← h2, h7]
        cases d
        all_goals simp only [PartOn]
        · have : l.take x.maxLength.toNat = (l.take x'.maxLength.toNat).take x.maxLength.toNat := by
            rw [List.take_take]; congr 1; omega
          rw [this]; exact List.take_prefix _ _
        · have : l.drop (l.length - x.maxLength.toNat) = (l.drop (l.length - x'.maxLength.toNat)).drop (x'.maxLength.toNat - x.maxLength.toNat) := by
            rw [List.drop_drop]; congr 1; rw [lm_left h5] at h4; omega
          rw [this]; exact List.drop_suffix _ _

/-- **C134** Two tokenizers that differ only in truncation, post-processor and padding, the second of which keeps at least as much: the tokens
of the text in the first encoding are the beginning (with `Right`) or the end (with `Left`) of those in the second, whatever strides,
special tokens, padding and flags are used. -/
theorem C134_more {P : Platform} {t t' : Tokenizer} {w : WStr} {b b' : Bool} {e e' : Encoding} {d : TDir} (hb : bareOf t = bareOf t')
    (hS : ∀ s ∈ Specials t, s.ids.length = s.tokens.length) (hS' : ∀ s ∈ Specials t', s.ids.length = s.tokens.length)
    (hi : ∀ tr, t.truncation = some tr → IsInt tr.maxLength ∧ IsInt tr.stride) (hi' : ∀ tr, t'.truncation = some tr → IsInt tr.maxLength ∧ IsInt tr.stride)
    (hp : ∀ pp, t.postProcessor = some pp → TextOnce pp) (hp' : ∀ pp, t'.postProcessor = some pp → TextOnce pp)
    (hd : ∀ x, t.truncation = some x → x.direction = d) (hk : KeepsMore t.truncation t'.truncation)
    (hn : ∀ e0, ((bareOf t).encode P w b).1 = .ok e0 → IsInt e0.ids.length)
    (h : (t.encode P w b).1 = .ok e) (h' : (t'.encode P w b').1 = .ok e') :
    TextPart d e e' ∧ ((∀ pp, t.postProcessor = some pp → TrimsNothing pp) → (∀ pp, t'.postProcessor = some pp → TrimsNothing pp) →
      PartOn d (textEntries e.toEnc e.offsets) (textEntries e'.toEnc e'.offsets)) := by
  obtain ⟨e0, rows, h0, -⟩ := C128_rows hS hi h
  have n0 := hn e0 (h0 b)
  obtain ⟨g1, g2, g3, g4⟩ := C128_content hS hi hp h (h0 b) n0
  obtain ⟨k1, k2, k3, k4⟩ := C128_content hS' hi' hp' h' (hb ▸ h0 b') n0
  refine ⟨⟨?_, ?_, ?_⟩, fun q q' => ?_⟩
  · rw [g1, k1]; exact lm_part hd hk _
  · rw [g2, k2]; exact lm_part hd hk _
  · rw [g3, k3]; exact lm_part hd hk _
  · rw [g4 q, k4 q']; exact lm_part hd hk _

theorem lm_partOn_antisymm {α : Type} {d d' : TDir} {l l' : List α} (h : PartOn d l l') (h' : PartOn d' l' l) : l = l' := by
  have length : ∀ {d : TDir} {l l' : List α}, PartOn d l l' → l.length ≤ l'.length := by
    intro d l l' h
    cases d with
    | right => exact h.length_le
    | left => exact h.length_le
    | unknown => exact Nat.le_of_eq (congrArg _ h)
  have := length h'
  cases d with
  | right => exact h.eq_of_length_le this
  | left => exact h.eq_of_length_le this
  | unknown => exact h

/-- **C134** In particular the tokens of the text in the main encoding do not depend on the stride, on which of the two strategies for a
single text is used, on the special tokens or on the padding. -/
theorem C134_same {P : Platform} {t t' : Tokenizer} {w : WStr} {b b' : Bool} {e e' : Encoding} {d : TDir} (hb : bareOf t = bareOf t')
    (hS : ∀ s ∈ Specials t, s.ids.length = s.tokens.length) (hS' : ∀ s ∈ Specials t', s.ids.length = s.tokens.length)
    (hi : ∀ tr, t.truncation = some tr → IsInt tr.maxLength ∧ IsInt tr.stride) (hi' : ∀ tr, t'.truncation = some tr → IsInt tr.maxLength ∧ IsInt tr.stride)
    (hp : ∀ pp, t.postProcessor = some pp → TextOnce pp) (hp' : ∀ pp, t'.postProcessor = some pp → TextOnce pp)
    (hd : ∀ x, t.truncation = some x → x.direction = d) (hd' : ∀ x, t'.truncation = some x → x.direction = d)
    (hk : KeepsMore t.truncation t'.truncation) (hk' : KeepsMore t'.truncation t.truncation)
    (hn : ∀ e0, ((bareOf t).encode P w b).1 = .ok e0 → IsInt e0.ids.length)
    (h : (t.encode P w b).1 = .ok e) (h' : (t'.encode P w b').1 = .ok e') :
    textEntries e.toEnc e.ids = textEntries e'.toEnc e'.ids ∧ textEntries e.toEnc e.tokens = textEntries e'.toEnc e'.tokens ∧
    textEntries e.toEnc e.words = textEntries e'.toEnc e'.words := by
  obtain ⟨⟨g1, g2, g3⟩, -⟩ := C134_more hb hS hS' hi hi' hp hp' hd hk hn h h'
  obtain ⟨e0, rows, h0, -⟩ := C128_rows hS hi h
  have hn' : ∀ e0, ((bareOf t').encode P w b').1 = .ok e0 → IsInt e0.ids.length := by
    intro e1 h1
    rw [← hb, h0 b'] at h1
    cases h1
    exact hn e0 (h0 b)
  obtain ⟨⟨k1, k2, k3⟩, -⟩ := C134_more hb.symm hS' hS hi' hi hp' hp hd' hk' hn' h' h
  exact ⟨lm_partOn_antisymm g1 k1, lm_partOn_antisymm g2 k2, lm_partOn_antisymm g3 k3⟩

/-! ### The hypotheses are met -/

/-- The hypotheses of `C134_more`: two entries kept, and three. -/
example : bareOf (bertLike (some (cut 2)) (some sampleTemplate) (some (padTo 6))) = bareOf (bertLike (some ⟨.right, .onlyFirst, 3, 0⟩) none none) ∧
    KeepsMore (some (cut 2)) (some ⟨.right, .onlyFirst, 3, 0⟩) ∧ (cut 2).direction = .right := by
  refine ⟨rfl, ?_, rfl⟩
  intro x' hx
  cases hx
  exact .inr ⟨_, rfl, ⟨by decide, .inl rfl⟩, rfl, by decide⟩

example : ((bertLike (some (cut 2)) (some sampleTemplate) (some (padTo 6))).encode ascii w!"playing go" true).1.map (fun e => textEntries e.toEnc e.ids) = .ok [1, 2] ∧
    ((bertLike (some ⟨.right, .onlyFirst, 3, 0⟩) none none).encode ascii w!"playing go" false).1.map (fun e => textEntries e.toEnc e.ids) = .ok [1, 2, 3] := by
  refine ⟨?_, ?_⟩ <;> decide +kernel

/-- Other sides do not compare: two from the left, three from the right. -/
example : ((bertLike (some ⟨.left, .longestFirst, 2, 0⟩) none none).encode ascii w!"playing go" true).1.map (·.ids) = .ok [2, 3] ∧
    ((bertLike (some ⟨.right, .longestFirst, 2, 0⟩) none none).encode ascii w!"playing go" true).1.map (·.ids) = .ok [1, 2] := by
  refine ⟨?_, ?_⟩ <;> decide +kernel

end Tok
