import Verif.Props.Utils
import Verif.Spec.Truncation

set_option autoImplicit false

/-!
C92: truncation in every case.
-/

namespace Tok
open Spec

theorem ta_right (len maxLen offset : Nat) (hoff : 0 < offset) (fuel : Nat) : ∀ (s : Nat) (acc : List (Int × Int)),
    len < s + fuel ∨ len ≤ s →
    ∃ rs, WindowsFrom len maxLen offset s rs ∧ rightRanges len maxLen offset fuel s false acc = .ok (acc ++ rs.map toI) := by
  induction fuel with
  | zero =>
    intro s acc h
    refine ⟨[], .over (by omega), ?_⟩
    unfold rightRanges
    rw [toSizeT_nat, if_neg (by omega)]; simp
  | succ fuel ih =>
    intro s acc h
    by_cases h1 : s < len
    · unfold rightRanges
      rw [toSizeT_nat]
      simp only [h1, if_true, Bool.false_eq_true, if_false]
      by_cases hlast : len ≤ s + maxLen
      · have hmin : min ((s : Int) + maxLen) len = len := by omega
        have hfin : (((len : Nat) : Int) == (len : Int)) = true := by simp
        rw [hmin, hfin]
        refine ⟨[(s, len)], .last h1 hlast, ?_⟩
        have := rightRanges_fin len maxLen offset fuel (s + offset) (acc ++ [((s : Int), (len : Int))]) (by
          left
          have : fuel ≤ fuel * offset := Nat.le_mul_of_pos_right _ hoff
          omega)
        simpa [toI] using this
      · have hmin : min ((s : Int) + maxLen) len = ((s + maxLen : Nat) : Int) := by omega
        have hfin : ((((s + maxLen : Nat) : Int)) == (len : Int)) = false := by
          simp only [beq_eq_false_iff_ne]; omega
        rw [hmin, hfin]
        obtain ⟨rs, h3, h4⟩ := ih (s + offset) (acc ++ [((s : Int), ((s + maxLen : Nat) : Int))]) (by omega)
        refine ⟨(s, s + maxLen) :: rs, .more (by omega) h3, ?_⟩
        have e : (s : Int) + offset = ((s + offset : Nat) : Int) := by omega
        rw [e, h4]; simp [toI]
    · refine ⟨[], .over (by omega), ?_⟩
      unfold rightRanges
      rw [toSizeT_nat, if_neg h1]; simp

theorem ta_right_bounds {len max step s : Nat} {rs : List (Nat × Nat)} (h : WindowsFrom len max step s rs) :
    ∀ r ∈ rs, r.1 ≤ r.2 ∧ r.2 ≤ len := by
  induction h with
  | over => simp
  | last h1 h2 => intro r hr; simp at hr; subst hr; simp; omega
  | more h1 _ ih =>
    intro r hr; simp at hr; rcases hr with rfl | hr
    · simp; omega
    · exact ih r hr

theorem ta_left (maxLen offset : Nat) (hm : 0 < maxLen) (hoff : 2 ≤ offset) (fuel : Nat) : ∀ (e : Nat) (acc : List (Int × Int)) (x : Int),
    e < fuel + 1 → (0 < e → x = (e : Int) - 1) → (e = 0 → x < 0) →
    ∃ rs, WindowsTo maxLen (offset - 1) e rs ∧ leftRanges maxLen offset fuel x false acc = .ok (acc ++ rs.map toI) := by
  induction fuel with
  | zero =>
    intro e acc x h1 h2 h3
    have he : e = 0 := by omega
    subst he
    refine ⟨[], .over, ?_⟩
    unfold leftRanges
    rw [if_neg (by have := h3 rfl; omega)]; simp
  | succ fuel ih =>
    intro e acc x h1 h2 h3
    by_cases h0' : e = 0
    · subst h0'
      refine ⟨[], .over, ?_⟩
      unfold leftRanges
      rw [if_neg (by have := h3 rfl; omega)]; simp
    rw [h2 (by omega)]
    unfold leftRanges
    have h0 : (0 : Int) ≤ (e : Int) - 1 := by omega
    have hstop : (e : Int) - 1 + 1 = e := by omega
    simp only [h0, if_true, hstop]
    by_cases hlast : e ≤ maxLen
    · have hst : (if (e : Int) < maxLen then (0 : Int) else (e : Int) - maxLen) = 0 := by split <;> omega
      rw [hst]
      simp only [and_true]
      rw [if_pos (by omega)]
      refine ⟨[(0, e)], .last (by omega) hlast, ?_⟩
      have := leftRanges_fin maxLen offset hoff fuel ((e : Int) - offset) (acc ++ [(0, (e : Int))]) (by omega)
      simpa [toI] using this
    · have hst : (if (e : Int) < maxLen then (0 : Int) else (e : Int) - maxLen) = ((e - maxLen : Nat) : Int) := by
        split <;> omega
      rw [hst]
      have hne : ((((e - maxLen : Nat) : Int)) == 0) = false := by simp only [beq_eq_false_iff_ne]; omega
      simp only [and_true]
      rw [if_pos (by omega), hne]
      obtain ⟨rs, h3, h4⟩ := ih (e - (offset - 1)) (acc ++ [(((e - maxLen : Nat) : Int), (e : Int))]) ((e : Int) - offset)
        (by omega) (by omega) (by omega)
      exact ⟨(e - maxLen, e) :: rs, .more (by omega) h3, by rw [h4]; simp [toI]⟩

theorem ta_left_bounds {max step e : Nat} {rs : List (Nat × Nat)} (h : WindowsTo max step e rs) :
    ∀ r ∈ rs, r.1 ≤ r.2 ∧ r.2 ≤ e := by
  induction h with
  | over => simp
  | last h1 h2 => intro r hr; simp at hr; subst hr; simp
  | more h1 _ ih =>
    intro r hr; simp at hr; rcases hr with rfl | hr
    · simp
    · have := ih r hr; omega

/-- The direction Left with a step of 1 or less: the loop variable never gets below 0. -/
theorem ta_left_diverges (maxLen offset : Int) (ho : offset ≤ 1) : ∀ (fuel : Nat) (stop : Int) (fin : Bool) (acc : List (Int × Int)),
    0 ≤ stop → leftRanges maxLen offset fuel stop fin acc = .error .diverges := by
  intro fuel
  induction fuel with
  | zero => intro stop fin acc h; unfold leftRanges; simp [h]
  | succ fuel ih =>
    intro stop fin acc h
    unfold leftRanges
    simp only [h, if_true]
    generalize (if stop + 1 < maxLen then (0 : Int) else stop + 1 - maxLen) = st
    split
    · exact ih _ _ _ (by omega)
    · exact ih _ _ _ (by omega)

/-- The direction Right with a step of 0. -/
theorem ta_right_diverges (len : Nat) (hl : 0 < len) (maxLen : Int) : ∀ (fuel : Nat) (fin : Bool) (acc : List (Int × Int)),
    rightRanges len maxLen 0 fuel 0 fin acc = .error .diverges := by
  intro fuel
  have h0 : toSizeT 0 < len := by simpa [toSizeT] using hl
  induction fuel with
  | zero => intro fin acc; unfold rightRanges; simp [h0]
  | succ fuel ih =>
    intro fin acc
    unfold rightRanges
    rw [if_pos h0]
    cases fin with
    | true => exact ih _ _
    | false => exact ih _ _

/-- **C92** Truncation of an encoding of `n` entries, for all values of the four parameters.  Where it has nothing to do it
returns the encoding (without its overflow, if `max_length` is 0).  Otherwise: an unknown direction is undefined behaviour.  Direction Right: with a stride below
`max_length` the windows start at 0, `max_length - stride`, …; a stride of `max_length` loops for ever; with a larger one only the
first window is returned.  Direction Left: with a stride below `max_length - 1` the windows end at `n`,
`n - (max_length - stride - 1)`, …; with any other stride the call loops for ever. -/
theorem C92_truncation (t : Truncation) (e : Encoding) (n : Nat) (hal : Aligned e.toEnc n) (hn : IsInt n)
    (hi : IsInt t.maxLength ∧ IsInt t.stride) :
    (LeftAsIs t n → t.run e = .ok (if t.maxLength = 0 ∧ 0 < n then { e with overflowing := [] } else e)) ∧
    (¬ LeftAsIs t n →
      (t.direction = .unknown → t.run e = .error (.ub .outOfBounds)) ∧
      (t.direction = .right →
        (t.stride < t.maxLength → ∃ r ws, t.run e = .ok r ∧ CutAt e ws r ∧
          WindowsFrom n t.maxLength.toNat (t.maxLength - t.stride).toNat 0 ws) ∧
        (t.stride = t.maxLength → t.run e = .error .diverges) ∧
        (t.maxLength < t.stride → ∃ r, t.run e = .ok r ∧ CutAt e [(0, t.maxLength.toNat)] r)) ∧
      (t.direction = .left →
        (t.stride < t.maxLength - 1 → ∃ r ws, t.run e = .ok r ∧ CutAt e ws r ∧
          WindowsTo t.maxLength.toNat (t.maxLength - t.stride - 1).toNat n ws) ∧
        (t.maxLength - 1 ≤ t.stride → t.run e = .error .diverges))) := by
  have hlen : e.ids.length = n := hal.1
  unfold IsInt at hn hi
  constructor
  · intro h
    by_cases h0 : t.maxLength = 0
    · unfold Truncation.run truncate
      rw [if_pos h0]
      by_cases hp : 0 < n
      · rw [if_neg (by omega), if_pos rfl, if_pos ⟨h0, hp⟩]
      · rw [if_pos (by omega), if_neg (by omega)]
    · by_cases hfit : e.ids.length ≤ toSizeT t.maxLength
      · unfold Truncation.run
        rw [if_neg h0, if_pos hfit, if_neg (by omega)]
      · have hst : t.strategy = .onlySecond ∨ t.strategy = .unknown := by
          rcases h with h | h | h
          · exfalso; apply hfit
            simp only [toSizeT]
            split <;> omega
          · exfalso; apply hfit
            simp only [toSizeT]
            split <;> omega
          · exact h
        rw [if_neg (by omega)]
        exact C36_violated_strategy t e h0 hst
  · intro h
    simp only [LeftAsIs, not_or] at h
    obtain ⟨h1, h2, h3, h4⟩ := h
    have hst : t.strategy = .longestFirst ∨ t.strategy = .onlyFirst := by
      cases hs : t.strategy <;> simp_all
    obtain ⟨m, hm⟩ : ∃ m : Nat, t.maxLength = m := ⟨t.maxLength.toNat, by omega⟩
    have hm0 : 0 < m := by omega
    have hmn : m < n := by omega
    rw [run_truncates hst (by omega) (by omega), hm]
    have cutAt : ∀ {d : TDir} {w : Nat × Nat} {ws : List (Nat × Nat)}, partsRanges n m t.stride d = .ok ((w :: ws).map toI) →
        (∀ r ∈ w :: ws, r.1 ≤ r.2 ∧ r.2 ≤ n) → ∃ r, truncate e m t.stride d = .ok r ∧ CutAt e (w :: ws) r := by
      intro d w ws hp hb
      exact ⟨_, truncate_windows hal hm0 hmn hp hb, .cons (partEnc_isPart _ _) (each_partEnc _ _)⟩
    have hdiv : ∀ {d : TDir}, partsRanges n m t.stride d = .error .diverges → truncate e m t.stride d = .error .diverges := by
      intro d hd
      unfold truncate
      rw [hlen, if_neg (by omega), if_neg (by omega), hd]; rfl
    refine ⟨?_, ?_, ?_⟩
    · intro hd
      unfold truncate
      rw [hd, hlen, if_neg (by omega), if_neg (by omega)]; rfl
    · intro hd
      rw [hd]
      refine ⟨fun hs => ?_, fun hs => hdiv ?_, fun hs => ?_⟩
      · obtain ⟨k, hk⟩ : ∃ k : Nat, (m : Int) - t.stride = k := ⟨((m : Int) - t.stride).toNat, by omega⟩
        obtain ⟨rs, w1, w2⟩ := ta_right n m k (by omega) (n + 1) 0 [] (by omega)
        have hhead : ∃ rest, rs = (0, m) :: rest := by
          cases w1 with
          | over h => omega
          | last h1 h2 => omega
          | more h1 h2 => exact ⟨_, by rw [Nat.zero_add]⟩
        obtain ⟨rest, rfl⟩ := hhead
        obtain ⟨r, e1, e2⟩ := cutAt (d := .right) (by
          simp only [partsRanges]; rw [hk, show (0 : Int) = ((0 : Nat) : Int) from rfl, w2]; simp) (ta_right_bounds w1)
        refine ⟨r, _, e1, e2, ?_⟩
        rw [hk]; simpa using w1
      · simp only [partsRanges]
        rw [show (m : Int) - t.stride = 0 by omega]
        exact ta_right_diverges n (by omega) _ _ _ _
      · refine cutAt (d := .right) ?_ (by simp; omega)
        have hneg : ¬ toSizeT ((m : Int) - t.stride) < n := by
          simp only [toSizeT]
          split <;> omega
        simp only [partsRanges]
        unfold rightRanges
        have h0 : toSizeT 0 < n := by simp [toSizeT]; omega
        simp only [h0, if_true, Bool.false_eq_true, if_false]
        unfold rightRanges
        have hz : (0 : Int) + ((m : Int) - t.stride) = (m : Int) - t.stride := by omega
        rw [hz, if_neg hneg]
        have hmin : min ((0 : Int) + m) n = m := by omega
        rw [hmin]; rfl
    · intro hd
      rw [hd]
      refine ⟨fun hs => ?_, fun hs => hdiv ?_⟩
      · obtain ⟨k, hk⟩ : ∃ k : Nat, (m : Int) - t.stride = k := ⟨((m : Int) - t.stride).toNat, by omega⟩
        obtain ⟨rs, w1, w2⟩ := ta_left m k hm0 (by omega) (n + 1) n [] ((n : Int) - 1) (by omega) (fun _ => rfl) (by omega)
        have hhead : ∃ w rest, rs = w :: rest := by
          cases w1 with
          | over => omega
          | last h1 h2 => exact ⟨_, _, rfl⟩
          | more h1 h2 => exact ⟨_, _, rfl⟩
        obtain ⟨w, rest, rfl⟩ := hhead
        obtain ⟨r, e1, e2⟩ := cutAt (d := .left) (by simp only [partsRanges]; rw [hk, w2]; simp) (ta_left_bounds w1)
        refine ⟨r, _, e1, e2, ?_⟩
        have : ((m : Int) - t.stride - 1).toNat = k - 1 := by omega
        rw [this]; simpa using w1
      · simp only [partsRanges]
        exact ta_left_diverges _ _ (by omega) _ _ _ _ (by omega)

-- a negative stride leaves entries out; a stride above `max_length` drops the rest; Left with stride 2 of 4 overlaps by 3
example : (Truncation.run ⟨.right, .longestFirst, 2, -1⟩ (sampleEnc 6)).map (fun r => (r.ids, r.overflowing.map (·.ids))) =
      .ok ([0, 1], [[3, 4]]) ∧
    (Truncation.run ⟨.right, .longestFirst, 2, 3⟩ (sampleEnc 6)).map (fun r => (r.ids, r.overflowing.map (·.ids))) =
      .ok ([0, 1], []) ∧
    (Truncation.run ⟨.left, .onlyFirst, 4, 2⟩ (sampleEnc 6)).map (fun r => (r.ids, r.overflowing.map (·.ids))) =
      .ok ([2, 3, 4, 5], [[1, 2, 3, 4], [0, 1, 2, 3]]) ∧
    (Truncation.run ⟨.right, .longestFirst, 2, 2⟩ (sampleEnc 6)).map (·.ids) = .error .diverges := by
  refine ⟨?_, ?_, ?_, ?_⟩ <;> decide +kernel

end Tok
