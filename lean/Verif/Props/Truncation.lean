import Verif.Props.Utils

set_option autoImplicit false

/-!
C80: for which settings truncation comes to an end.
-/

namespace Tok
open Spec

theorem tr_right_zero (len : Nat) (maxLen : Int) (h : 0 < len) : ∀ (fuel : Nat) (fin : Bool) (acc : List (Int × Int)),
    rightRanges len maxLen 0 fuel 0 fin acc = .error .diverges := by
  intro fuel
  induction fuel with
  | zero => intro fin acc; unfold rightRanges; simp [toSizeT, h]
  | succ fuel ih =>
    intro fin acc
    unfold rightRanges
    have : toSizeT 0 < len := by simpa [toSizeT] using h
    simp only [this, if_true, Int.add_zero]
    split
    · exact ih _ _
    · exact ih _ _

theorem tr_left_up (maxLen offset : Int) (ho : offset ≤ 1) : ∀ (fuel : Nat) (stop : Int) (fin : Bool) (acc : List (Int × Int)),
    0 ≤ stop → leftRanges maxLen offset fuel stop fin acc = .error .diverges := by
  intro fuel
  induction fuel with
  | zero => intro stop fin acc h; unfold leftRanges; simp [h]
  | succ fuel ih =>
    intro stop fin acc h
    unfold leftRanges
    simp only [h, if_true]
    generalize (if stop + 1 < (maxLen : Int) then (0 : Int) else stop + 1 - maxLen) = st
    split
    · exact ih _ _ _ (by omega)
    · exact ih _ _ _ (by omega)

/-- Positions inside an encoding of `len` entries. -/
def TrInside (len : Nat) (r : Int × Int) : Prop := 0 ≤ r.1 ∧ r.1 ≤ r.2 ∧ r.2 ≤ len

theorem tr_right_returns (len maxLen offset : Nat) (ho : 0 < offset) : ∀ (fuel s : Nat) (fin : Bool)
    (acc : List (Int × Int)), (∀ r ∈ acc, TrInside len r) → len < s + fuel →
    ∃ out, rightRanges len maxLen offset fuel s fin acc = .ok (acc ++ out) ∧ (∀ r ∈ acc ++ out, TrInside len r) ∧
      (fin = false → s < len → out ≠ []) := by
  intro fuel
  induction fuel with
  | zero =>
    intro s fin acc hacc h
    refine ⟨[], ?_, by simpa using hacc, fun _ h' => by omega⟩
    unfold rightRanges
    rw [toSizeT_nat, if_neg (by omega), List.append_nil]
  | succ fuel ih =>
    intro s fin acc hacc h
    unfold rightRanges
    rw [toSizeT_nat]
    by_cases hs : s < len
    · rw [if_pos hs]
      have e : (s : Int) + offset = ((s + offset : Nat) : Int) := by omega
      cases fin with
      | true =>
        simp only [if_true, e]
        obtain ⟨out, h1, h2, _⟩ := ih (s + offset) true acc hacc (by omega)
        exact ⟨out, h1, h2, fun h => by cases h⟩
      | false =>
        simp only [Bool.false_eq_true, if_false, e]
        obtain ⟨out, h1, h2, _⟩ := ih (s + offset) (min ((s : Int) + maxLen) len == (len : Int))
          (acc ++ [((s : Int), min ((s : Int) + maxLen) len)]) (by
            intro r hr
            rcases List.mem_append.1 hr with hr | hr
            · exact hacc r hr
            · simp at hr; subst hr; unfold TrInside; simp only; omega) (by omega)
        refine ⟨((s : Int), min ((s : Int) + maxLen) len) :: out, ?_, ?_, fun _ _ => by simp⟩
        · rw [h1, List.append_assoc]; rfl
        · simpa using h2
    · rw [if_neg hs]
      exact ⟨[], by simp, by simpa using hacc, fun _ h' => absurd h' hs⟩

theorem tr_right_jump (len : Nat) (maxLen offset : Int) (hm : 0 < maxLen) (hlen : maxLen < len) (hl : len < 2 ^ 31) (ho : offset < 0)
    (ho' : -(2 : Int) ^ 31 ≤ offset) (fuel : Nat) :
    rightRanges len maxLen offset (fuel + 1) 0 false [] = .ok [(0, maxLen)] := by
  unfold rightRanges
  have h0 : toSizeT 0 < len := by simp [toSizeT]; omega
  simp only [h0, if_true, Bool.false_eq_true, if_false, Int.zero_add, List.nil_append]
  have hmin : min maxLen (len : Int) = maxLen := by omega
  rw [hmin]
  unfold rightRanges
  have : ¬ toSizeT offset < len := by
    unfold toSizeT
    rw [if_neg (by omega)]
    omega
  rw [if_neg this]

theorem tr_left_returns (len : Nat) (maxLen offset : Int) (hm : 0 < maxLen) (ho : 2 ≤ offset) : ∀ (fuel : Nat) (stop : Int) (fin : Bool)
    (acc : List (Int × Int)), (∀ r ∈ acc, TrInside len r) → stop < fuel → stop < len →
    ∃ out, leftRanges maxLen offset fuel stop fin acc = .ok (acc ++ out) ∧ (∀ r ∈ acc ++ out, TrInside len r) ∧
      (fin = false → 0 ≤ stop → out ≠ []) := by
  intro fuel
  induction fuel with
  | zero =>
    intro stop fin acc hacc h _
    refine ⟨[], ?_, by simpa using hacc, fun _ h' => by omega⟩
    unfold leftRanges
    rw [if_neg (by omega), List.append_nil]
  | succ fuel ih =>
    intro stop fin acc hacc h hl
    unfold leftRanges
    by_cases hs : 0 ≤ stop
    · rw [if_pos hs]
      simp only
      generalize hst : (if stop + 1 < maxLen then (0 : Int) else stop + 1 - maxLen) = st
      have hb : 0 ≤ st ∧ st < stop + 1 := by
        by_cases hc : stop + 1 < maxLen
        · rw [if_pos hc] at hst; omega
        · rw [if_neg hc] at hst; omega
      by_cases hc : st < stop + 1 ∧ fin = false
      · rw [if_pos hc]
        obtain ⟨out, h1, h2, _⟩ := ih (stop + 1 - offset) (st == 0) (acc ++ [(st, stop + 1)]) (by
            intro r hr
            rcases List.mem_append.1 hr with hr | hr
            · exact hacc r hr
            · simp at hr; subst hr; unfold TrInside; simp only; omega) (by omega) (by omega)
        refine ⟨(st, stop + 1) :: out, ?_, ?_, fun _ _ => by simp⟩
        · rw [h1, List.append_assoc]; rfl
        · simpa using h2
      · rw [if_neg hc]
        obtain ⟨out, h1, h2, _⟩ := ih (stop + 1 - offset) fin acc hacc (by omega) (by omega)
        exact ⟨out, h1, h2, fun hf => absurd ⟨hb.2, hf⟩ hc⟩
    · rw [if_neg hs]
      exact ⟨[], by simp, by simpa using hacc, fun _ h' => absurd h' hs⟩

theorem tr_truncate {e : Encoding} {n : Nat} (hal : Aligned e.toEnc n) {m stride : Int} {d : TDir} (hm : 0 < m) (hfit : m < n)
    {out : List (Int × Int)} (hp : partsRanges n m stride d = .ok out) (hne : out ≠ []) (hb : ∀ r ∈ out, TrInside n r) :
    ∃ r, truncate e m stride d = .ok r := by
  have hlen : e.ids.length = n := hal.1
  obtain ⟨w, ws, rfl⟩ : ∃ w ws, out = w :: ws := by cases out with | nil => exact absurd rfl hne | cons w ws => exact ⟨w, ws, rfl⟩
  obtain ⟨l, hl⟩ : ∃ l : List (Nat × Nat), w :: ws = l.map toI := by
    generalize w :: ws = o at hb
    clear hp hne
    induction o with
    | nil => exact ⟨[], rfl⟩
    | cons r o ih =>
      obtain ⟨l, hl⟩ := ih fun r hr => hb r (by simp [hr])
      have := hb r (by simp)
      refine ⟨(r.1.toNat, r.2.toNat) :: l, ?_⟩
      rw [List.map_cons, ← hl]
      congr 1
      obtain ⟨a, b⟩ := r
      unfold TrInside at this
      simp only [toI] at this ⊢
      rw [Int.toNat_of_nonneg this.1, Int.toNat_of_nonneg (by omega)]
  cases l with
  | nil => cases hl
  | cons x xs =>
    rw [hl] at hp hb
    obtain ⟨k, rfl⟩ : ∃ k : Nat, m = k := ⟨m.toNat, by omega⟩
    refine ⟨_, truncate_windows hal (by omega) (by omega) hp ?_⟩
    intro r hr
    have := hb (toI r) (List.mem_map.2 ⟨r, hr, rfl⟩)
    unfold TrInside toI at this
    simp only at this
    omega

/-- **C80.** An encoding that is too long, a strategy that truncates: the call returns exactly if the direction is Right and
the stride is not `max_length`, or the direction is Left and the stride is at most `max_length - 2`.  (The numbers are such
that no sum overflows an `int`.) -/
theorem C80_returns_iff (t : Truncation) (e : Encoding) (n : Nat) (hal : Aligned e.toEnc n)
    (hst : t.strategy = .longestFirst ∨ t.strategy = .onlyFirst) (hm : 0 < t.maxLength) (hfit : t.maxLength < n)
    (hlow : -(2 : Int) ^ 31 ≤ t.maxLength - t.stride) (_hhigh : n + (t.maxLength - t.stride) < (2 : Int) ^ 31) (hn : n < 2 ^ 31) :
    (∃ r, t.run e = .ok r) ↔
      (t.direction = .right ∧ t.stride ≠ t.maxLength) ∨ (t.direction = .left ∧ t.stride + 2 ≤ t.maxLength) := by
  have hlen : e.ids.length = n := hal.1
  rw [run_truncates hst hm (by rw [hlen]; exact hfit)]
  cases hd : t.direction with
  | right =>
    simp only [true_and, reduceCtorEq, false_and, or_false]
    constructor
    · rintro ⟨r, h⟩ heq
      unfold truncate at h
      rw [hlen, if_neg (by omega), if_neg (by omega)] at h
      simp only [partsRanges] at h
      rw [heq, Int.sub_self, tr_right_zero n _ (by omega)] at h
      cases h
    · intro hne
      by_cases hpos : t.stride < t.maxLength
      · obtain ⟨k, hk⟩ : ∃ k : Nat, t.maxLength = k := ⟨t.maxLength.toNat, by omega⟩
        obtain ⟨o, ho⟩ : ∃ o : Nat, t.maxLength - t.stride = o := ⟨(t.maxLength - t.stride).toNat, by omega⟩
        obtain ⟨out, h1, h2, h3⟩ := tr_right_returns n k o (by omega) (n + 1) 0 false [] (by simp) (by omega)
        refine tr_truncate hal hm hfit (out := out) ?_ (h3 rfl (by omega)) (by simpa using h2)
        simp only [partsRanges]
        rw [ho, hk]
        simpa using h1
      · refine tr_truncate hal hm hfit (out := [(0, t.maxLength)]) ?_ (by simp) ?_
        · simp only [partsRanges]
          exact tr_right_jump n _ _ hm hfit hn (by omega) hlow n
        · intro r hr; simp at hr; subst hr; unfold TrInside; simp only; omega
  | left =>
    simp only [true_and, reduceCtorEq, false_and, false_or]
    constructor
    · rintro ⟨r, h⟩
      by_cases ho : t.stride + 2 ≤ t.maxLength
      · exact ho
      · exfalso
        unfold truncate at h
        rw [hlen, if_neg (by omega), if_neg (by omega)] at h
        simp only [partsRanges] at h
        rw [tr_left_up _ _ (by omega) _ _ _ _ (by omega)] at h
        cases h
    · intro ho
      obtain ⟨out, h1, h2, h3⟩ := tr_left_returns n t.maxLength (t.maxLength - t.stride) hm (by omega) (n + 1) ((n : Int) - 1)
        false [] (by simp) (by omega) (by omega)
      refine tr_truncate hal hm hfit (out := out) ?_ (h3 rfl (by omega)) (by simpa using h2)
      simp only [partsRanges]
      simpa using h1
  | unknown =>
    simp only [reduceCtorEq, false_and, or_self, iff_false]
    rintro ⟨r, h⟩
    unfold truncate at h
    rw [hlen, if_neg (by omega), if_neg (by omega)] at h
    cases h

/-- **C80**, the other cases: a call that does not return runs for ever, or, when the direction is misspelt, reads an element
that does not exist. -/
theorem C80_otherwise (t : Truncation) (e : Encoding) (n : Nat) (hal : Aligned e.toEnc n)
    (hst : t.strategy = .longestFirst ∨ t.strategy = .onlyFirst) (hm : 0 < t.maxLength) (hfit : t.maxLength < n) :
    (t.direction = .right → t.stride = t.maxLength → t.run e = .error .diverges) ∧
    (t.direction = .left → t.maxLength < t.stride + 2 → t.run e = .error .diverges) ∧
    (t.direction = .unknown → t.run e = .error (.ub .outOfBounds)) := by
  have hlen : e.ids.length = n := hal.1
  rw [run_truncates hst hm (by rw [hlen]; exact hfit)]
  unfold truncate
  rw [hlen, if_neg (by omega), if_neg (by omega)]
  refine ⟨?_, ?_, ?_⟩
  · intro hd heq
    rw [hd]; simp only [partsRanges]
    rw [heq, Int.sub_self, tr_right_zero n _ (by omega)]
    rfl
  · intro hd ho
    rw [hd]; simp only [partsRanges]
    rw [tr_left_up _ _ (by omega) _ _ _ _ (by omega)]
    rfl
  · intro hd
    rw [hd]; rfl

/-- **C80**, Right with a stride above `max_length`: the result is the first `max_length` entries and there are no overflow
windows: what was cut off is lost. -/
theorem C80_overshoot (t : Truncation) (e : Encoding) (n : Nat) (hal : Aligned e.toEnc n)
    (hst : t.strategy = .longestFirst ∨ t.strategy = .onlyFirst) (hm : 0 < t.maxLength) (hfit : t.maxLength < n)
    (hd : t.direction = .right) (hs : t.maxLength < t.stride) (hlow : -(2 : Int) ^ 31 ≤ t.maxLength - t.stride) (hn : n < 2 ^ 31) :
    ∃ r, t.run e = .ok r ∧ IsPart e.toEnc (0, t.maxLength.toNat) r.toEnc ∧ r.overflowing = [] := by
  have hlen : e.ids.length = n := hal.1
  rw [run_truncates hst hm (by rw [hlen]; exact hfit), hd]
  obtain ⟨k, hk⟩ : ∃ k : Nat, t.maxLength = k := ⟨t.maxLength.toNat, by omega⟩
  have hp : partsRanges n t.maxLength t.stride .right = .ok (([(0, k)] : List (Nat × Nat)).map toI) := by
    simp only [partsRanges]
    rw [tr_right_jump n _ _ hm hfit hn (by omega) hlow n, hk]
    rfl
  rw [hk] at hp ⊢
  rw [truncate_windows hal (by omega) (by omega) hp (by intro r hr; simp at hr; subst hr; simp; omega)]
  exact ⟨_, rfl, by simpa using partEnc_isPart _ _, rfl⟩

-- the cases occur
example : Truncation.run ⟨.right, .longestFirst, 3, 3⟩ (sampleEnc 6) = .error .diverges :=
  (C80_otherwise ⟨.right, .longestFirst, 3, 3⟩ _ 6 (sampleEnc_aligned 6) (.inl rfl) (by decide) (by decide)).1 rfl rfl
example : ∃ r, Truncation.run ⟨.right, .longestFirst, 3, -2⟩ (sampleEnc 12) = .ok r ∧ r.ids = [0, 1, 2] ∧
    r.overflowing.map (·.ids) = [[5, 6, 7], [10, 11]] := ⟨_, rfl, by decide, by decide⟩
example : ∃ r, Truncation.run ⟨.right, .longestFirst, 3, 4⟩ (sampleEnc 12) = .ok r ∧ r.ids = [0, 1, 2] ∧ r.overflowing = [] :=
  ⟨_, rfl, by decide, rfl⟩
example : ∃ r, Truncation.run ⟨.left, .onlyFirst, 3, -1⟩ (sampleEnc 12) = .ok r :=
  (C80_returns_iff ⟨.left, .onlyFirst, 3, -1⟩ _ 12 (sampleEnc_aligned 12) (.inr rfl) (by decide) (by decide) (by decide) (by decide)
    (by decide)).2 (.inr ⟨rfl, by decide⟩)

end Tok
