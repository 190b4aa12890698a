import Verif.Proofs.Utils
import Verif.Props.ByteLevel

set_option autoImplicit false

/-!
# Truncation and padding (C34 – C38)
-/

namespace Tok
open Spec

theorem each_partEnc (e : Enc) (rs : List (Nat × Nat)) : Each (IsPart e) rs (rs.map (partEnc e)) := by
  induction rs with
  | nil => exact .nil
  | cons r rs ih => exact .cons (partEnc_isPart e r) ih

/-- A strategy that truncates, on an encoding that does not fit. -/
theorem run_truncates {t : Truncation} {e : Encoding}
    (hst : t.strategy = .longestFirst ∨ t.strategy = .onlyFirst)
    (hm : 0 < t.maxLength) (hfit : t.maxLength < e.ids.length) :
    t.run e = truncate e t.maxLength t.stride t.direction := by
  unfold Truncation.run
  rw [if_neg (by omega)]
  obtain ⟨m, hm'⟩ : ∃ m : Nat, t.maxLength = m := ⟨t.maxLength.toNat, by omega⟩
  rw [hm', toSizeT_nat, if_neg (by omega)]
  rcases hst with h | h <;> rw [h] <;> simp only
  · congr 1; omega
  · rw [if_pos (by omega)]

/-- The windows of a truncation whose positions are known. -/
theorem truncate_windows {e : Encoding} {n : Nat} (hal : Aligned e.toEnc n) {m : Nat} {stride : Int} {d : TDir}
    (hm : 0 < m) (hfit : m < n) {w : Nat × Nat} {ws : List (Nat × Nat)}
    (hp : partsRanges n m stride d = .ok ((w :: ws).map toI))
    (hb : ∀ r ∈ w :: ws, r.1 ≤ r.2 ∧ r.2 ≤ n) :
    truncate e m stride d = .ok { toEnc := partEnc e.toEnc w, overflowing := ws.map (partEnc e.toEnc) } := by
  have hlen : e.ids.length = n := hal.1
  unfold truncate
  rw [hlen, if_neg (by omega), if_neg (by omega), hp]
  have hw : e.window (toI w) = .ok (partEnc e.toEnc w) :=
    window_nat hal (hb w (by simp)).1 (hb w (by simp)).2
  have hws := windows_nat hal ws (fun r hr => hb r (by simp [hr]))
  simp only [res_ok_bind, List.map_cons, hw, hws, res_pure]

/-- **C34.** Direction Right, a stride below `max_length`, an encoding longer than
`max_length`: the call returns; the result is the first `max_length` entries of every
vector; the overflow windows start `max_length - stride` after the previous one, hold at
most `max_length` entries, overlap by `stride`, and together with the result cover every
entry. -/
theorem C34_right_truncation (t : Truncation) (e : Encoding) (n : Nat)
    (hdir : t.direction = .right) (hst : t.strategy = .longestFirst ∨ t.strategy = .onlyFirst)
    (hal : Aligned e.toEnc n) (hfit : t.maxLength < n) (hs : 0 ≤ t.stride) (hlt : t.stride < t.maxLength) :
    ∃ r ws, t.run e = .ok r ∧
      RightWindows n t.maxLength.toNat (t.maxLength - t.stride).toNat 0 ((0, t.maxLength.toNat) :: ws) ∧
      IsPart e.toEnc (0, t.maxLength.toNat) r.toEnc ∧ Each (IsPart e.toEnc) ws r.overflowing ∧
      (∀ w ∈ ws, w.2 - w.1 ≤ t.maxLength.toNat) ∧
      Overlap t.stride.toNat ((0, t.maxLength.toNat) :: ws) ∧
      Cover n ((0, t.maxLength.toNat) :: ws) := by
  obtain ⟨m, hm⟩ : ∃ m : Nat, t.maxLength = m := ⟨t.maxLength.toNat, by omega⟩
  obtain ⟨s, hs'⟩ : ∃ s : Nat, t.stride = s := ⟨t.stride.toNat, by omega⟩
  have hlen : e.ids.length = n := hal.1
  rw [run_truncates hst (by omega) (by omega)]
  have hmn : m < n := by omega
  have hsm : s < m := by omega
  rw [hm, hs']
  have hsub : (m : Int) - (s : Int) = ((m - s : Nat) : Int) := by omega
  obtain ⟨rs, h1, h2⟩ := rightRanges_spec n m (m - s) (by omega) (by omega) (n + 1) 0 [] (by omega) (by omega)
  obtain ⟨ws, rfl⟩ := rightWindows_head h1
  have hmin : min (0 + m) n = m := by omega
  rw [hmin] at h1 h2
  have hb := rightWindows_bounds h1
  have hp : partsRanges n m s t.direction = .ok (((0, m) :: ws).map toI) := by
    rw [hdir]; simp only [partsRanges]; rw [hsub, show (0 : Int) = ((0 : Nat) : Int) from rfl, h2]; simp
  refine ⟨_, ws, truncate_windows hal (by omega) (by omega) hp (fun r hr => ⟨(hb r hr).2.1, (hb r hr).2.2.1⟩), ?_,
    partEnc_isPart _ _, each_partEnc _ _, fun w hw => (hb w (by simp [hw])).2.2.2, ?_,
    fun i hi => rightWindows_cover (by omega) h1 i (by omega) hi⟩
  · rw [hsub]; simpa using h1
  · have := rightWindows_overlap (by omega) h1
    have e1 : m - (m - s) = s := by omega
    rw [e1] at this; simpa using this

/-- **C35** (partial: the overlap is one more than asked, and a stride of `max_length - 1`
is excluded).  Direction Left: the call returns; the result is the last `max_length`
entries of every vector; every further window ends `max_length - stride - 1` before the
previous one, holds at most `max_length` entries, and the windows cover every entry. -/
theorem C35_left_truncation_partial (t : Truncation) (e : Encoding) (n : Nat)
    (hdir : t.direction = .left) (hst : t.strategy = .longestFirst ∨ t.strategy = .onlyFirst)
    (hal : Aligned e.toEnc n) (hfit : t.maxLength < n) (hs : 0 ≤ t.stride) (hlt : t.stride + 2 ≤ t.maxLength) :
    ∃ r ws, t.run e = .ok r ∧
      LeftWindows t.maxLength.toNat (t.maxLength - t.stride - 1).toNat n ((n - t.maxLength.toNat, n) :: ws) ∧
      IsPart e.toEnc (n - t.maxLength.toNat, n) r.toEnc ∧ Each (IsPart e.toEnc) ws r.overflowing ∧
      (∀ w ∈ ws, w.2 - w.1 ≤ t.maxLength.toNat) ∧
      Overlap (t.stride.toNat + 1) ((n - t.maxLength.toNat, n) :: ws) ∧
      Cover n ((n - t.maxLength.toNat, n) :: ws) := by
  obtain ⟨m, hm⟩ : ∃ m : Nat, t.maxLength = m := ⟨t.maxLength.toNat, by omega⟩
  obtain ⟨s, hs'⟩ : ∃ s : Nat, t.stride = s := ⟨t.stride.toNat, by omega⟩
  have hlen : e.ids.length = n := hal.1
  rw [run_truncates hst (by omega) (by omega)]
  have hmn : m < n := by omega
  have hsm : s + 2 ≤ m := by omega
  rw [hm, hs']
  have hsub : (m : Int) - (s : Int) = ((m - s : Nat) : Int) := by omega
  obtain ⟨rs, h1, h2⟩ := leftRanges_spec m (m - s) (by omega) (by omega) (n + 1) n [] (by omega) (by omega)
  obtain ⟨ws, rfl⟩ := leftWindows_head h1
  have hb := leftWindows_bounds h1
  have hp : partsRanges n m s t.direction = .ok (((n - m, n) :: ws).map toI) := by
    rw [hdir]; simp only [partsRanges]; rw [hsub, h2]; simp
  refine ⟨_, ws, truncate_windows hal (by omega) (by omega) hp (fun r hr => ⟨(hb r hr).1, (hb r hr).2.1⟩), ?_,
    partEnc_isPart _ _, each_partEnc _ _, fun w hw => (hb w (by simp [hw])).2.2, ?_,
    fun i hi => leftWindows_cover (by omega) h1 i hi⟩
  · have e1 : ((m : Int) - s - 1).toNat = m - s - 1 := by omega
    rw [e1]; simpa using h1
  · have := leftWindows_overlap (by omega) h1
    have e1 : m - (m - s - 1) = s + 1 := by omega
    rw [e1] at this; simpa using this

/-- **C35, termination refuted.** With a stride of `max_length - 1` the loop of the
direction Left never ends, for every encoding longer than `max_length`. -/
theorem C35_left_diverges (t : Truncation) (e : Encoding)
    (hdir : t.direction = .left) (hst : t.strategy = .longestFirst ∨ t.strategy = .onlyFirst)
    (hm : 0 < t.maxLength) (hfit : t.maxLength < e.ids.length) (hs : t.stride = t.maxLength - 1) :
    t.run e = .error .diverges := by
  obtain ⟨m, hm'⟩ : ∃ m : Nat, t.maxLength = m := ⟨t.maxLength.toNat, by omega⟩
  rw [run_truncates hst hm hfit]
  unfold truncate
  rw [if_neg (by omega), if_neg (by omega), hdir]
  simp only [partsRanges]
  have e1 : t.maxLength - t.stride = 1 := by omega
  rw [e1, hm', leftRanges_diverges _ _ _ _ _ (by omega)]
  rfl

/-- An encoding of `n` entries with the ids `0 … n-1`. -/
def sampleEnc (n : Nat) : Encoding :=
  { ids := (List.range n).map Int.ofNat, typeIds := List.replicate n 0, tokens := List.replicate n b!"a",
    words := List.replicate n (some 0), offsets := (List.range n).map fun (i : Nat) => ((i : Int), (i + 1 : Int)),
    specialTokensMask := List.replicate n 0, attentionMask := List.replicate n 1 }

theorem sampleEnc_aligned (n : Nat) : Aligned (sampleEnc n).toEnc n := by
  refine ⟨?_, ?_, ?_, ?_, ?_, ?_, ?_⟩ <;> simp [sampleEnc]

/-- A case of C34: `max_length = 3`, `stride = 1`, 6 entries. -/
example : ∃ r, Truncation.run ⟨.right, .longestFirst, 3, 1⟩ (sampleEnc 6) = .ok r ∧ r.ids = [0, 1, 2] ∧
    r.overflowing.map (·.ids) = [[2, 3, 4], [4, 5]] :=
  ⟨_, rfl, by decide, by decide⟩

/-- **C35, overlap refuted.** 6 entries, `max_length = 4`, `stride = 1`: the two windows
overlap by 2 entries, not 1. -/
theorem C35_violated : ∃ r, Truncation.run ⟨.left, .longestFirst, 4, 1⟩ (sampleEnc 6) = .ok r ∧
    r.ids = [2, 3, 4, 5] ∧ r.overflowing.map (·.ids) = [[0, 1, 2, 3]] ∧
    ¬ Overlap 1 [(2, 6), (0, 4)] := by
  refine ⟨_, rfl, ?_, ?_, ?_⟩ <;> simp [Overlap, sampleEnc] <;> decide

/-- **C36** (partial: a positive `max_length` and one of the two strategies that
truncate).  Whatever the direction and the stride, a call that returns gives at most
`max_length` entries, in the overflow windows too when it truncated; an encoding that
fits is returned unchanged. -/
theorem C36_max_length_partial (t : Truncation) (e r : Encoding) (hm : 0 < t.maxLength)
    (hst : t.strategy = .longestFirst ∨ t.strategy = .onlyFirst) (h : t.run e = .ok r) :
    (r.ids.length : Int) ≤ t.maxLength ∧
    ((e.ids.length : Int) ≤ t.maxLength → r = e) ∧
    ((e.ids.length : Int) > t.maxLength → ∀ w ∈ r.overflowing, (w.ids.length : Int) ≤ t.maxLength) := by
  obtain ⟨m, hm'⟩ : ∃ m : Nat, t.maxLength = m := ⟨t.maxLength.toNat, by omega⟩
  by_cases hfit : t.maxLength < e.ids.length
  · rw [run_truncates hst hm hfit] at h
    have := truncate_length hm h
    refine ⟨this.1, fun h' => by omega, fun _ => ?_⟩
    rcases this.2 with rfl | h'
    · exact absurd this.1 (by omega)
    · exact h'
  · unfold Truncation.run at h
    rw [if_neg (by omega), hm', toSizeT_nat, if_pos (by omega)] at h
    simp at h; subst h
    exact ⟨by omega, fun _ => rfl, fun h' => by omega⟩

/-- **C36, an encoding that fits is unchanged** whatever the strategy, for every
`max_length` but 0. -/
theorem C36_fits_unchanged (t : Truncation) (e : Encoding) (hm : 0 < t.maxLength)
    (h : (e.ids.length : Int) ≤ t.maxLength) : t.run e = .ok e := by
  obtain ⟨m, hm'⟩ : ∃ m : Nat, t.maxLength = m := ⟨t.maxLength.toNat, by omega⟩
  unfold Truncation.run
  rw [if_neg (by omega), hm', toSizeT_nat, if_pos (by omega)]

/-- **C36, refuted for `max_length = 0`**: nothing is cut off, for every encoding; only
the overflow windows are dropped. -/
theorem C36_violated_zero (t : Truncation) (e : Encoding) (hm : t.maxLength = 0) (hne : e.ids ≠ []) :
    t.run e = .ok { e with overflowing := [] } := by
  unfold Truncation.run truncate
  have : 0 < e.ids.length := List.length_pos_iff.2 hne
  rw [if_pos hm, if_neg (by omega), if_pos rfl]

/-- **C36, refuted for the strategy OnlySecond** (and for a misspelt one): nothing is cut
off, for every encoding and every `max_length` but 0. -/
theorem C36_violated_strategy (t : Truncation) (e : Encoding) (hm : t.maxLength ≠ 0)
    (hst : t.strategy = .onlySecond ∨ t.strategy = .unknown) : t.run e = .ok e := by
  unfold Truncation.run
  rw [if_neg hm]
  split
  · rfl
  · rcases hst with h | h <;> rw [h]

/-- **C36, refuted for negative `max_length`**: nothing is cut off from any encoding
shorter than 2^31. -/
theorem C36_violated_negative (t : Truncation) (e : Encoding) (hm : t.maxLength < 0)
    (hm' : -(2:Int)^31 ≤ t.maxLength) (hl : e.ids.length < 2^31) : t.run e = .ok e := by
  unfold Truncation.run
  rw [if_neg (by omega), if_pos]
  simp only [toSizeT]
  split <;> omega

/-- A case of C36: `max_length = 2`, Left, 5 entries. -/
example : ∃ r, Truncation.run ⟨.left, .onlyFirst, 2, 0⟩ (sampleEnc 5) = .ok r ∧ r.ids = [3, 4] ∧
    r.overflowing.map (·.ids) = [[2, 3], [1, 2], [0, 1]] :=
  ⟨_, rfl, by decide, by decide⟩

/-! ### Padding -/

/-- The rounding of the target length. -/
theorem target_rounded (p : Padding) (len n : Nat)
    (hn : (n : Int) = if p.strategy = .fixed then p.fixedSize else (len : Int)) :
    ∃ t : Nat, p.target len = t ∧ RoundedUp n p.padToMultipleOf t := by
  unfold Padding.target RoundedUp
  rw [← hn]
  clear hn
  by_cases hm : 0 < p.padToMultipleOf
  · obtain ⟨m, hm'⟩ : ∃ m : Nat, p.padToMultipleOf = m := ⟨p.padToMultipleOf.toNat, by omega⟩
    have hmod : (n : Int).tmod p.padToMultipleOf = ((n % m : Nat) : Int) := by
      rw [hm', Int.tmod_eq_emod_of_nonneg (by omega)]; simp
    have hmpos : 0 < m := by omega
    have hlt : n % m < m := Nat.mod_lt _ hmpos
    have hdiv := Nat.div_add_mod n m
    simp only [hm, if_true]
    rw [hmod, hm']
    by_cases hz : 0 < n % m
    · refine ⟨n + (m - n % m), ?_, by omega, by omega, n / m + 1, ?_⟩
      · rw [if_pos ⟨trivial, by omega⟩]; omega
      · have : (n / m + 1) * m = m * (n / m) + m := by rw [Nat.add_mul, Nat.mul_comm]; omega
        have h2 : n + (m - n % m) = (n / m + 1) * m := by omega
        rw [h2]; simp
    · refine ⟨n, ?_, by omega, by omega, n / m, ?_⟩
      · rw [if_neg (by omega)]
      · have h2 : n = n / m * m := by rw [Nat.mul_comm]; omega
        have : ((n : Nat) : Int) = ((n / m * m : Nat) : Int) := by rw [← h2]
        rw [this]; simp
  · simp only [hm, if_false]
    exact ⟨n, by rw [if_neg (fun h => h.1.elim)], rfl⟩

/-- What padding to the length `t` does to one encoding. -/
theorem padEnc_spec (p : Padding) (t : Nat) (e : Enc) :
    padEnc p t e = .ok (
      if t ≤ e.ids.length then e
      else match p.direction with
        | .left => joined (filler (t - e.ids.length) p.padId p.padTypeId p.padToken) e
        | .right => joined e (filler (t - e.ids.length) p.padId p.padTypeId p.padToken)
        | .unknown => e) := by
  unfold padEnc
  rw [toSizeT_nat]
  by_cases h : t ≤ e.ids.length
  · rw [if_pos h, if_pos h]
  · rw [if_neg h, if_neg h]
    have hn : ¬ ((t : Int) - e.ids.length < 0) := by omega
    have hk : ((t : Int) - e.ids.length).toNat = t - e.ids.length := by omega
    cases hd : p.direction <;> simp only [hn, if_false, hk] <;> rfl

theorem padAll_spec (p : Padding) (t : Nat) (es : List Enc) :
    ∃ rs, padAll p t es = .ok rs ∧ Each (fun e r => padEnc p t e = .ok r) es rs := by
  induction es with
  | nil => exact ⟨[], rfl, .nil⟩
  | cons e es ih =>
    obtain ⟨rs, h1, h2⟩ := ih
    refine ⟨_, ?_, .cons (padEnc_spec p t e) h2⟩
    simp only [padAll, padEnc_spec, h1, res_ok_bind, res_pure]

/-- What C37 and C38 say of one encoding `e` padded to the length `t`, giving `r`. -/
def Padded (p : Padding) (t : Nat) (e r : Enc) : Prop :=
  (t ≤ e.ids.length → r = e) ∧
  (e.ids.length < t →
    (p.direction = .left → r = joined (filler (t - e.ids.length) p.padId p.padTypeId p.padToken) e) ∧
    (p.direction = .right → r = joined e (filler (t - e.ids.length) p.padId p.padTypeId p.padToken)) ∧
    (p.direction = .unknown → r = e))

theorem padEnc_padded {p : Padding} {t : Nat} {e r : Enc} (h : padEnc p t e = .ok r) : Padded p t e r := by
  rw [padEnc_spec] at h
  simp only [Except.ok.injEq] at h
  subst h
  refine ⟨fun h' => by rw [if_pos h'], fun h' => ?_⟩
  rw [if_neg (by omega)]
  refine ⟨fun hd => by rw [hd], fun hd => by rw [hd], fun hd => by rw [hd]⟩

/-- **C37, C38.** Padding returns; the target `t` is the fixed size (not negative), or
the length of the encoding, rounded up to the multiple; the encoding and every overflow
window that is shorter gets filler entries on the configured side only, and longer ones
are unchanged. -/
theorem C37_C38_padding (p : Padding) (e : Encoding)
    (hfix : p.strategy = .fixed → 0 ≤ p.fixedSize) :
    ∃ t r, p.run e = .ok r ∧
      RoundedUp (if p.strategy = .fixed then p.fixedSize.toNat else e.ids.length) p.padToMultipleOf t ∧
      Padded p t e.toEnc r.toEnc ∧ Each (Padded p t) e.overflowing r.overflowing := by
  obtain ⟨t, h1, h2⟩ := target_rounded p e.ids.length
    (if p.strategy = .fixed then p.fixedSize.toNat else e.ids.length) (by
      by_cases h : p.strategy = .fixed
      · have := hfix h; simp only [h, if_true]; omega
      · simp only [h, if_false])
  obtain ⟨rs, h3, h4⟩ := padAll_spec p t e.overflowing
  obtain ⟨r, h5⟩ : ∃ r, padEnc p t e.toEnc = .ok r := ⟨_, padEnc_spec p t e.toEnc⟩
  refine ⟨t, { toEnc := r, overflowing := rs }, ?_, h2, padEnc_padded h5,
    Each.imp (fun _ _ => padEnc_padded) h4⟩
  simp only [Padding.run, h1, pad, h3, h5, res_ok_bind, res_pure]

/-- The length after padding: exactly the target for an aligned encoding that is
shorter, and never less. -/
theorem C37_padded_length (p : Padding) (t n : Nat) (e r : Enc) (hd : p.direction ≠ .unknown)
    (hal : Aligned e n) (h : Padded p t e r) : Aligned r (max n t) := by
  obtain ⟨h1, h2⟩ := h
  have hlen : e.ids.length = n := hal.1
  by_cases hle : t ≤ n
  · rw [h1 (by omega), Nat.max_eq_left hle]; exact hal
  · rw [Nat.max_eq_right (by omega)]
    obtain ⟨hl, hr, -⟩ := h2 (by omega)
    obtain ⟨a1, a2, a3, a4, a5, a6, a7⟩ := hal
    cases hdir : p.direction with
    | unknown => exact absurd hdir hd
    | left => rw [hl hdir]; refine ⟨?_, ?_, ?_, ?_, ?_, ?_, ?_⟩ <;> simp [joined, filler] <;> omega
    | right => rw [hr hdir]; refine ⟨?_, ?_, ?_, ?_, ?_, ?_, ?_⟩ <;> simp [joined, filler] <;> omega

theorem tmod_nonpos' {a b : Int} (ha : a ≤ 0) (_hb : 0 < b) : a.tmod b ≤ 0 := by
  have h := Int.neg_tmod (a := -a) (b := b)
  rw [Int.neg_neg] at h
  rw [h]
  have : 0 ≤ (-a).tmod b := Int.tmod_nonneg _ (by omega)
  omega

/-- **C37, negative fixed size**: padding throws `std::length_error`, for every encoding
shorter than 2^31. -/
theorem C37_negative_throws (p : Padding) (e : Encoding) (hst : p.strategy = .fixed)
    (hneg : p.fixedSize < 0) (hmin : -(2:Int)^31 ≤ p.fixedSize) (hl : e.ids.length < 2^31)
    (hno : e.overflowing = []) (hd : p.direction ≠ .unknown) :
    p.run e = .error (.throws .lengthError) := by
  have ht : p.target e.ids.length = p.fixedSize := by
    unfold Padding.target
    rw [if_pos hst]
    by_cases hm : 0 < p.padToMultipleOf
    · have : p.fixedSize.tmod p.padToMultipleOf ≤ 0 := tmod_nonpos' (by omega) hm
      rw [if_neg (by omega)]
    · rw [if_neg (by omega)]
  have hs : ¬ toSizeT p.fixedSize ≤ e.ids.length := by simp only [toSizeT]; split <;> omega
  simp only [Padding.run, pad, hno, padAll, ht, padEnc, hs, if_false, res_ok_bind]
  have hn : p.fixedSize - (e.ids.length : Int) < 0 := by omega
  cases h : p.direction with
  | unknown => exact absurd h hd
  | left => simp [hn]
  | right => simp [hn]

/-- A case of C37: 3 entries padded on the right to a multiple of 5. -/
example : ∃ r, Padding.run ⟨.right, .batchLongest, 0, 9, 0, b!"[PAD]", 5⟩ (sampleEnc 3) = .ok r ∧
    r.ids = [0, 1, 2, 9, 9] ∧ r.attentionMask = [1, 1, 1, 0, 0] :=
  ⟨_, rfl, by decide, by decide⟩

end Tok
