import Verif.Proofs.Base
import Verif.Spec.Utils
import Verif.Utils

set_option autoImplicit false

/-! Lemmas on truncation and padding. -/

namespace Tok
open Spec

theorem toSizeT_nat (n : Nat) : toSizeT (n : Int) = n := by simp [toSizeT]

theorem sliceI_nat {α : Type} (l : List α) {a b : Nat} (h : a ≤ b) (hb : b ≤ l.length) :
    sliceI l (a : Int) (b : Int) = .ok (part l (a, b)) := by
  simp only [sliceI, slice, part]
  rw [if_pos ⟨by omega, by omega⟩]
  simp only [Int.toNat_natCast]
  rw [if_pos ⟨h, hb⟩, List.drop_take]

theorem part_length {α : Type} (l : List α) {a b : Nat} (h : a ≤ b) (hb : b ≤ l.length) :
    (part l (a, b)).length = b - a := by
  simp only [part, List.length_drop, List.length_take]; omega

/-- The part of an aligned encoding. -/
def partEnc (e : Enc) (r : Nat × Nat) : Enc :=
  { ids := part e.ids r, typeIds := part e.typeIds r, tokens := part e.tokens r, words := part e.words r,
    offsets := part e.offsets r, specialTokensMask := part e.specialTokensMask r,
    attentionMask := part e.attentionMask r }

theorem partEnc_isPart (e : Enc) (r : Nat × Nat) : IsPart e r (partEnc e r) :=
  ⟨rfl, rfl, rfl, rfl, rfl, rfl, rfl⟩

theorem isPart_iff {e w : Enc} {r : Nat × Nat} : IsPart e r w ↔ w = partEnc e r := by
  constructor
  · rintro ⟨h1, h2, h3, h4, h5, h6, h7⟩
    cases w; simp only at h1 h2 h3 h4 h5 h6 h7; subst h1 h2 h3 h4 h5 h6 h7; rfl
  · rintro rfl; exact partEnc_isPart e r

theorem partEnc_aligned {e : Enc} {n a b : Nat} (h : Aligned e n) (hab : a ≤ b) (hb : b ≤ n) :
    Aligned (partEnc e (a, b)) (b - a) := by
  obtain ⟨h1, h2, h3, h4, h5, h6, h7⟩ := h
  exact ⟨part_length _ hab (by omega), part_length _ hab (by omega), part_length _ hab (by omega),
    part_length _ hab (by omega), part_length _ hab (by omega), part_length _ hab (by omega),
    part_length _ hab (by omega)⟩

theorem window_nat {e : Enc} {n a b : Nat} (h : Aligned e n) (hab : a ≤ b) (hb : b ≤ n) :
    e.window ((a : Int), (b : Int)) = .ok (partEnc e (a, b)) := by
  obtain ⟨h1, h2, h3, h4, h5, h6, h7⟩ := h
  simp only [Enc.window]
  rw [sliceI_nat _ hab (by omega), sliceI_nat _ hab (by omega), sliceI_nat _ hab (by omega),
    sliceI_nat _ hab (by omega), sliceI_nat _ hab (by omega), sliceI_nat _ hab (by omega),
    sliceI_nat _ hab (by omega)]
  rfl

/-- Positions as C++ integers. -/
def toI (r : Nat × Nat) : Int × Int := ((r.1 : Int), (r.2 : Int))

theorem windows_nat {e : Enc} {n : Nat} (h : Aligned e n) (rs : List (Nat × Nat))
    (hrs : ∀ r ∈ rs, r.1 ≤ r.2 ∧ r.2 ≤ n) : windows e (rs.map toI) = .ok (rs.map (partEnc e)) := by
  induction rs with
  | nil => rfl
  | cons r rs ih =>
    have hr := hrs r (by simp)
    have hw : e.window (toI r) = .ok (partEnc e r) := window_nat h hr.1 hr.2
    simp only [List.map_cons, windows, hw, ih (fun r hr => hrs r (by simp [hr])), res_ok_bind, res_pure]

/-! ### Right -/

theorem rightRanges_fin (len maxLen offset : Nat) : ∀ (fuel s : Nat) (acc : List (Int × Int)),
    len < s + fuel * offset ∨ len ≤ s →
    rightRanges len maxLen offset fuel s true acc = .ok acc := by
  intro fuel
  induction fuel with
  | zero =>
    intro s acc h
    unfold rightRanges
    have : ¬ toSizeT (s : Int) < len := by rw [toSizeT_nat]; simp at h; omega
    simp only [this, if_false]
  | succ fuel ih =>
    intro s acc h
    unfold rightRanges
    rw [toSizeT_nat]
    split
    · simp only [if_true]
      have := ih (s + offset) acc (by
        rcases h with h | h
        · left; rw [Nat.add_mul] at h; omega
        · right; omega)
      simpa using this
    · rfl

theorem rightRanges_spec (len maxLen offset : Nat) (hoff : 0 < offset) (hle : offset ≤ maxLen)
    (fuel : Nat) : ∀ (s : Nat) (acc : List (Int × Int)), s < len → len < s + fuel →
    ∃ rs, RightWindows len maxLen offset s rs ∧
      rightRanges len maxLen offset fuel s false acc = .ok (acc ++ rs.map toI) := by
  induction fuel with
  | zero => intro s acc h1 h2; omega
  | succ fuel ih =>
    intro s acc h1 h2
    unfold rightRanges
    rw [toSizeT_nat]
    simp only [h1, if_true, Bool.false_eq_true, if_false]
    by_cases hlast : len ≤ s + maxLen
    · have hmin : min ((s : Int) + maxLen) len = len := by omega
      have hfin : (((len : Nat) : Int) == (len : Int)) = true := by simp
      rw [hmin, hfin]
      refine ⟨[(s, len)], .last h1 hlast, ?_⟩
      have := rightRanges_fin len maxLen offset fuel (s + offset) (acc ++ [((s : Int), (len : Int))]) (by
        left
        have : fuel ≤ fuel * offset := Nat.le_mul_of_pos_right _ hoff
        omega)
      simpa [toI] using this
    · have hmin : min ((s : Int) + maxLen) len = ((s + maxLen : Nat) : Int) := by omega
      have hfin : ((((s + maxLen : Nat) : Int)) == (len : Int)) = false := by
        simp only [beq_eq_false_iff_ne]; omega
      rw [hmin, hfin]
      obtain ⟨rs, h3, h4⟩ := ih (s + offset) (acc ++ [((s : Int), ((s + maxLen : Nat) : Int))])
        (by omega) (by omega)
      refine ⟨(s, s + maxLen) :: rs, .more (by omega) h3, ?_⟩
      have e : (s : Int) + offset = ((s + offset : Nat) : Int) := by omega
      rw [e, h4]; simp [toI]

theorem rightWindows_bounds {len max step s : Nat} {rs : List (Nat × Nat)} (h : RightWindows len max step s rs) :
    ∀ r ∈ rs, s ≤ r.1 ∧ r.1 ≤ r.2 ∧ r.2 ≤ len ∧ r.2 - r.1 ≤ max := by
  induction h with
  | last h1 h2 => intro r hr; simp at hr; subst hr; simp; omega
  | more h1 _ ih =>
    intro r hr; simp at hr; rcases hr with rfl | hr
    · simp; omega
    · have := ih r hr; omega

theorem rightWindows_cover {len max step s : Nat} {rs : List (Nat × Nat)} (hstep : step ≤ max)
    (h : RightWindows len max step s rs) : ∀ i, s ≤ i → i < len → ∃ r ∈ rs, r.1 ≤ i ∧ i < r.2 := by
  induction h with
  | last h1 h2 => rename_i s; intro i h3 h4; exact ⟨(s, len), by simp, h3, h4⟩
  | more h1 _ ih =>
    rename_i s r _
    intro i h3 h4
    by_cases hi : i < s + max
    · exact ⟨(s, s + max), by simp, h3, hi⟩
    · obtain ⟨r, hr, h5⟩ := ih i (by omega) h4
      exact ⟨r, by simp [hr], h5⟩

theorem rightWindows_head {len max step s : Nat} {rs : List (Nat × Nat)} (h : RightWindows len max step s rs) :
    ∃ rest, rs = (s, min (s + max) len) :: rest := by
  cases h with
  | last h1 h2 => rw [Nat.min_eq_right h2]; exact ⟨[], rfl⟩
  | more h1 h2 => rw [Nat.min_eq_left (by omega)]; exact ⟨_, rfl⟩

theorem rightWindows_overlap {len max step s : Nat} {rs : List (Nat × Nat)} (hstep : step ≤ max)
    (h : RightWindows len max step s rs) : Overlap (max - step) rs := by
  induction h with
  | last h1 h2 => trivial
  | more h1 h2 ih =>
    rename_i s r
    obtain ⟨rest, rfl⟩ := rightWindows_head h2
    refine ⟨?_, ih⟩
    show min (s + max) (min (s + step + max) len) = Nat.max s (s + step) + (max - step)
    have : Nat.max s (s + step) = s + step := Nat.max_eq_right (by omega)
    rw [this]; omega

/-! ### Left -/

theorem leftRanges_fin (maxLen offset : Nat) (hoff : 2 ≤ offset) : ∀ (fuel : Nat) (stop : Int)
    (acc : List (Int × Int)), stop < fuel →
    leftRanges maxLen offset fuel stop true acc = .ok acc := by
  intro fuel
  induction fuel with
  | zero =>
    intro stop acc h
    unfold leftRanges
    have : ¬ 0 ≤ stop := by simp at h; omega
    simp [this]
  | succ fuel ih =>
    intro stop acc h
    unfold leftRanges
    split
    · simp only [Bool.true_eq_false, and_false, if_false]
      exact ih _ _ (by omega)
    · rfl

theorem leftRanges_spec (maxLen offset : Nat) (hoff : 2 ≤ offset) (hle : offset ≤ maxLen)
    (fuel : Nat) : ∀ (e : Nat) (acc : List (Int × Int)), 0 < e → e < fuel + 1 →
    ∃ rs, LeftWindows maxLen (offset - 1) e rs ∧
      leftRanges maxLen offset fuel ((e : Int) - 1) false acc = .ok (acc ++ rs.map toI) := by
  induction fuel with
  | zero => intro e acc h1 h2; omega
  | succ fuel ih =>
    intro e acc h1 h2
    unfold leftRanges
    have h0 : (0 : Int) ≤ (e : Int) - 1 := by omega
    have hstop : (e : Int) - 1 + 1 = e := by omega
    simp only [h0, if_true, hstop]
    by_cases hlast : e ≤ maxLen
    · have hst : (if (e : Int) < maxLen then (0 : Int) else (e : Int) - maxLen) = 0 := by split <;> omega
      rw [hst]
      have hc : (0 : Int) < e ∧ False = False := ⟨by omega, rfl⟩
      simp only [and_true]
      rw [if_pos (by omega)]
      refine ⟨[(0, e)], .last h1 hlast, ?_⟩
      have := leftRanges_fin maxLen offset hoff fuel ((e : Int) - offset) (acc ++ [(0, (e : Int))]) (by omega)
      simpa [toI] using this
    · have hst : (if (e : Int) < maxLen then (0 : Int) else (e : Int) - maxLen) = ((e - maxLen : Nat) : Int) := by
        split <;> omega
      rw [hst]
      have hne : ((((e - maxLen : Nat) : Int)) == 0) = false := by simp only [beq_eq_false_iff_ne]; omega
      simp only [and_true]
      rw [if_pos (by omega), hne]
      obtain ⟨rs, h3, h4⟩ := ih (e - (offset - 1)) (acc ++ [(((e - maxLen : Nat) : Int), (e : Int))])
        (by omega) (by omega)
      refine ⟨(e - maxLen, e) :: rs, .more (by omega) h3, ?_⟩
      have e' : (e : Int) - offset = ((e - (offset - 1) : Nat) : Int) - 1 := by omega
      rw [e', h4]; simp [toI]

theorem leftWindows_bounds {max step e : Nat} {rs : List (Nat × Nat)} (h : LeftWindows max step e rs) :
    ∀ r ∈ rs, r.1 ≤ r.2 ∧ r.2 ≤ e ∧ r.2 - r.1 ≤ max := by
  induction h with
  | last h1 h2 => intro r hr; simp at hr; subst hr; simp; omega
  | more h1 _ ih =>
    intro r hr; simp at hr; rcases hr with rfl | hr
    · simp; omega
    · have := ih r hr; omega

theorem leftWindows_cover {max step e : Nat} {rs : List (Nat × Nat)} (hstep : step ≤ max)
    (h : LeftWindows max step e rs) : ∀ i, i < e → ∃ r ∈ rs, r.1 ≤ i ∧ i < r.2 := by
  induction h with
  | last h1 h2 => rename_i e; intro i h3; exact ⟨(0, e), by simp, Nat.zero_le _, h3⟩
  | more h1 _ ih =>
    rename_i e r _
    intro i h3
    by_cases hi : e - max ≤ i
    · exact ⟨(e - max, e), by simp, hi, h3⟩
    · obtain ⟨r, hr, h5⟩ := ih i (by omega)
      exact ⟨r, by simp [hr], h5⟩

theorem leftWindows_head {max step e : Nat} {rs : List (Nat × Nat)} (h : LeftWindows max step e rs) :
    ∃ rest, rs = (e - max, e) :: rest := by
  cases h with
  | last h1 h2 => exact ⟨[], by rw [Nat.sub_eq_zero_of_le h2]⟩
  | more h1 h2 => exact ⟨_, rfl⟩

theorem leftWindows_overlap {max step e : Nat} {rs : List (Nat × Nat)} (hstep : step ≤ max)
    (h : LeftWindows max step e rs) : Overlap (max - step) rs := by
  induction h with
  | last h1 h2 => trivial
  | more h1 h2 ih =>
    rename_i e r
    obtain ⟨rest, rfl⟩ := leftWindows_head h2
    refine ⟨?_, ih⟩
    show min e (e - step) = Nat.max (e - max) (e - step - max) + (max - step)
    have : Nat.max (e - max) (e - step - max) = e - max := Nat.max_eq_left (by omega)
    rw [this]; omega

/-- With a step of 0 the loop of the direction Left never ends. -/
theorem leftRanges_diverges (maxLen : Nat) : ∀ (fuel : Nat) (stop : Int) (fin : Bool) (acc : List (Int × Int)),
    0 ≤ stop → leftRanges maxLen 1 fuel stop fin acc = .error .diverges := by
  intro fuel
  induction fuel with
  | zero => intro stop fin acc h; unfold leftRanges; simp [h]
  | succ fuel ih =>
    intro stop fin acc h
    unfold leftRanges
    simp only [h, if_true]
    have e : stop + 1 - 1 = stop := by omega
    rw [e]
    generalize (if stop + 1 < (maxLen : Int) then (0 : Int) else stop + 1 - maxLen) = st
    split
    · exact ih _ _ _ h
    · exact ih _ _ _ h

/-! ### Lengths, for every stride -/

theorem rightRanges_len (len : Nat) (maxLen offset : Int) : ∀ (fuel : Nat) (s : Int) (fin : Bool)
    (acc out : List (Int × Int)), (∀ r ∈ acc, r.2 - r.1 ≤ maxLen) →
    rightRanges len maxLen offset fuel s fin acc = .ok out → ∀ r ∈ out, r.2 - r.1 ≤ maxLen := by
  intro fuel
  induction fuel with
  | zero =>
    intro s fin acc out hacc h
    unfold rightRanges at h
    split at h
    · simp at h
    · simp at h; subst h; exact hacc
  | succ fuel ih =>
    intro s fin acc out hacc h
    unfold rightRanges at h
    split at h
    · simp only at h
      split at h
      · exact ih _ _ _ _ hacc h
      · refine ih _ _ _ _ ?_ h
        intro r hr; simp at hr; rcases hr with hr | rfl
        · exact hacc r hr
        · show min (s + maxLen) len - s ≤ maxLen; omega
    · simp at h; subst h; exact hacc

theorem leftRanges_len (maxLen offset : Int) : ∀ (fuel : Nat) (s : Int) (fin : Bool)
    (acc out : List (Int × Int)), (∀ r ∈ acc, r.2 - r.1 ≤ maxLen) →
    leftRanges maxLen offset fuel s fin acc = .ok out → ∀ r ∈ out, r.2 - r.1 ≤ maxLen := by
  intro fuel
  induction fuel with
  | zero =>
    intro s fin acc out hacc h
    unfold leftRanges at h
    split at h
    · simp at h
    · simp at h; subst h; exact hacc
  | succ fuel ih =>
    intro s fin acc out hacc h
    unfold leftRanges at h
    split at h
    · simp only at h
      have hst : s + 1 - (if s + 1 < maxLen then 0 else s + 1 - maxLen) ≤ maxLen := by split <;> omega
      generalize (if s + 1 < maxLen then (0 : Int) else s + 1 - maxLen) = st at h hst
      split at h
      · refine ih _ _ _ _ ?_ h
        intro r hr; simp at hr; rcases hr with hr | rfl
        · exact hacc r hr
        · exact hst
      · exact ih _ _ _ _ hacc h
    · simp at h; subst h; exact hacc

theorem sliceI_length {α : Type} {l out : List α} {a b : Int} (h : sliceI l a b = .ok out) :
    (out.length : Int) = b - a := by
  unfold sliceI slice at h
  split at h
  · split at h
    · rename_i h1 h2
      simp at h; subst h
      simp only [List.length_take, List.length_drop]; omega
    · simp at h
  · simp at h

theorem window_length {e w : Enc} {r : Int × Int} (h : e.window r = .ok w) : (w.ids.length : Int) = r.2 - r.1 := by
  unfold Enc.window at h
  obtain ⟨ids, h1, h⟩ := res_bind_ok.1 h
  obtain ⟨_, _, h⟩ := res_bind_ok.1 h
  obtain ⟨_, _, h⟩ := res_bind_ok.1 h
  obtain ⟨_, _, h⟩ := res_bind_ok.1 h
  obtain ⟨_, _, h⟩ := res_bind_ok.1 h
  obtain ⟨_, _, h⟩ := res_bind_ok.1 h
  obtain ⟨_, _, h⟩ := res_bind_ok.1 h
  simp at h; subst h
  exact sliceI_length h1

/-- Every window has the same length in all vectors. -/
theorem window_aligned {e w : Enc} {r : Int × Int} (h : e.window r = .ok w) : Aligned w (r.2 - r.1).toNat := by
  unfold Enc.window at h
  obtain ⟨_, h1, h⟩ := res_bind_ok.1 h
  obtain ⟨_, h2, h⟩ := res_bind_ok.1 h
  obtain ⟨_, h3, h⟩ := res_bind_ok.1 h
  obtain ⟨_, h4, h⟩ := res_bind_ok.1 h
  obtain ⟨_, h5, h⟩ := res_bind_ok.1 h
  obtain ⟨_, h6, h⟩ := res_bind_ok.1 h
  obtain ⟨_, h7, h⟩ := res_bind_ok.1 h
  simp at h; subst h
  have := sliceI_length h1; have := sliceI_length h2; have := sliceI_length h3; have := sliceI_length h4
  have := sliceI_length h5; have := sliceI_length h6; have := sliceI_length h7
  refine ⟨?_, ?_, ?_, ?_, ?_, ?_, ?_⟩ <;> simp only <;> omega

theorem windows_mem {e : Enc} {rs : List (Int × Int)} {ws : List Enc} (h : windows e rs = .ok ws) :
    ∀ w ∈ ws, ∃ r ∈ rs, e.window r = .ok w := by
  induction rs generalizing ws with
  | nil => simp [windows] at h; subst h; simp
  | cons r rs ih =>
    simp only [windows] at h
    obtain ⟨w, h1, h⟩ := res_bind_ok.1 h
    obtain ⟨ws', h2, h⟩ := res_bind_ok.1 h
    simp at h; subst h
    intro x hx; simp at hx; rcases hx with rfl | hx
    · exact ⟨r, by simp, h1⟩
    · obtain ⟨r', hr', h3⟩ := ih h2 x hx; exact ⟨r', by simp [hr'], h3⟩

theorem partsRanges_len {len : Nat} {maxLen stride : Int} {d : TDir} {out : List (Int × Int)}
    (h : partsRanges len maxLen stride d = .ok out) : ∀ r ∈ out, r.2 - r.1 ≤ maxLen := by
  cases d with
  | right => exact rightRanges_len len maxLen _ _ _ _ _ _ (by simp) h
  | left => exact leftRanges_len maxLen _ _ _ _ _ _ (by simp) h
  | unknown => simp [partsRanges] at h; subst h; simp

theorem truncate_length {e r : Encoding} {maxLen stride : Int} {d : TDir} (hm : 0 < maxLen)
    (h : truncate e maxLen stride d = .ok r) :
    (r.ids.length : Int) ≤ maxLen ∧ (r = e ∨ ∀ w ∈ r.overflowing, (w.ids.length : Int) ≤ maxLen) := by
  unfold truncate at h
  split at h
  · rename_i hle; simp at h; subst h; exact ⟨hle, .inl rfl⟩
  · rw [if_neg (by omega)] at h
    obtain ⟨ps, h1, h⟩ := res_bind_ok.1 h
    have hlen := partsRanges_len h1
    cases ps with
    | nil => simp at h
    | cons p ps =>
      simp only at h
      obtain ⟨w, h2, h⟩ := res_bind_ok.1 h
      obtain ⟨ws, h3, h⟩ := res_bind_ok.1 h
      simp at h; subst h
      refine ⟨?_, .inr ?_⟩
      · have := window_length h2; have := hlen p (by simp)
        show (w.ids.length : Int) ≤ maxLen
        omega
      · intro x hx
        obtain ⟨q, hq, h4⟩ := windows_mem h3 x hx
        have := window_length h4; have := hlen q (by simp [hq]); omega

end Tok
