import Verif.Spec.AnyText
import Verif.Proofs.Recognized
import Verif.Props.WordPieceAll

set_option autoImplicit false

namespace Tok
open Spec

/-! ### The occurrences -/

theorem at_entry {T : List (Str × Int)} {u : U16} (hu : ∀ c ∈ u, c < 0x10000) (hf : ∀ k i j, (k, i) ∈ T → (k, j) ∈ T → i = j)
    {a b : Nat} (hb : b ≤ u.length) {i : Int} : EntryIn T u a b i ↔ keyAt (wordIds T) u a b = some i := by
  have e : tempSubString u a (b - a) = between u a b := rfl
  unfold keyAt
  rw [e]
  constructor
  · rintro ⟨_, x, k, hx, hk, hin⟩
    obtain ⟨-, rfl⟩ := utf8Text_iff.1 hk
    rw [wu_read hx] at hin
    exact wordIds_find hin fun j hj => hf _ _ _ hj hin
  · intro h
    have hv : ∀ c ∈ between u a b, c < 0x10000 := fun c hc => hu c (part_mem hc)
    obtain ⟨x, hx⟩ := wu_reads _ _ (Nat.le_refl _) hv
    have ex := wu_read hx
    refine ⟨hb, x, _, hx, utf8Text_iff.2 ⟨?_, rfl⟩, ?_⟩
    · intro c hc
      rw [ex, List.mem_map] at hc
      obtain ⟨d, _, rfl⟩ := hc
      exact sanitize_scalar d
    · rw [ex]; exact wordIds_mem h

theorem at_shortest {T : List (Str × Int)} {u : U16} (hu : ∀ c ∈ u, c < 0x10000)
    (hf : ∀ k i j, (k, i) ∈ T → (k, j) ∈ T → i = j) {a b : Nat} {i : Int} :
    ShortestIn T u a b i ↔ ShortK (wordIds T) u a b i := by
  constructor
  · rintro ⟨h1, h2, h3, h4⟩
    have hb := h2.1
    refine ⟨h1, hb, (at_entry hu hf hb).1 h2, ?_, ?_⟩
    · intro j hj1 hj2 hc
      refine h3 0x20 ?_ rfl
      refine List.mem_iff_getElem?.2 ⟨j - a, ?_⟩
      unfold between
      rw [List.getElem?_take, if_pos (by omega), List.getElem?_drop]
      have : a + (j - a) = j := by omega
      rw [this]; exact hc
    · intro c hc1 hc2
      cases hk : keyAt (wordIds T) u a c with
      | none => rfl
      | some j => exact absurd ((at_entry hu hf (by omega)).2 hk) (h4 c j hc1 hc2)
  · rintro ⟨h1, hb, h2, h3, h4⟩
    refine ⟨h1, (at_entry hu hf hb).2 h2, ?_, ?_⟩
    · rintro c hc rfl
      obtain ⟨j, hj⟩ := List.mem_iff_getElem?.1 hc
      obtain ⟨hj1, hj2⟩ := part_get hj
      exact h3 (a + j) (by omega) hj2 hj1
    · intro c j hc1 hc2 he
      have := (at_entry hu hf he.1).1 he
      rw [h4 c hc1 hc2] at this; cases this

theorem at_recognized {T : List (Str × Int)} {u : U16} (hu : ∀ c ∈ u, c < 0x10000)
    (hf : ∀ k i j, (k, i) ∈ T → (k, j) ∈ T → i = j) {a b : Nat} {i : Int} :
    RecognizedIn T u a b i ↔ RecK (wordIds T) u a b i := by
  constructor
  · intro h
    induction h with
    | first h => exact .first ((at_shortest hu hf).1 h)
    | word h h' => exact .word h ((at_shortest hu hf).1 h')
    | next _ h' ih => exact .next ih ((at_shortest hu hf).1 h')
  · intro h
    induction h with
    | first h => exact .first ((at_shortest hu hf).2 h)
    | word h h' => exact .word h ((at_shortest hu hf).2 h')
    | next _ h' ih => exact .next ih ((at_shortest hu hf).2 h')

theorem at_le {T : List (Str × Int)} {u : U16} {x y : Nat} {i : Int} (h : RecognizedIn T u x y i) : x < y ∧ y ≤ u.length := by
  cases h with
  | first h => exact ⟨h.1, h.2.1.1⟩
  | word _ h => exact ⟨h.1, h.2.1.1⟩
  | next _ h => exact ⟨h.1, h.2.1.1⟩

theorem at_pairwise {total : Nat} (ms : List (Nat × Nat × Int)) :
    ∀ start, Ordered total start (ms.map fun m => (m.1, m.2.1)) →
    (∀ m ∈ ms, start ≤ m.1) ∧ ms.Pairwise (fun o o' : Nat × Nat × Int => o.2.1 ≤ o'.1) := by
  induction ms with
  | nil => intro start _; exact ⟨by simp, .nil⟩
  | cons m r ih =>
    intro start h
    simp only [List.map_cons, Ordered] at h
    obtain ⟨h1, h2, h3⟩ := h
    obtain ⟨q1, q2⟩ := ih _ h3
    refine ⟨?_, List.pairwise_cons.2 ⟨q1, q2⟩⟩
    intro m' hm'
    rcases List.mem_cons.1 hm' with rfl | hm'
    · exact h1
    · have := q1 m' hm'; omega

theorem at_units_le {w : WStr} (hw : Scalars w) : (utf16 w).length ≤ (utf8 w).length := by
  induction w with
  | nil => simp [utf16]
  | cons d w ih =>
    rw [Scalars.cons] at hw
    rw [utf16_cons, utf8_cons, List.length_append, List.length_append]
    have := ih hw.2
    have hd := isScalar_iff.1 hw.1
    have : (utf16Enc1 d).length ≤ (utf8Enc1 d).length := by
      unfold utf16Enc1 utf8Enc1
      repeat' split
      all_goals simp
      all_goals omega
    omega

/-! ### Cutting -/

theorem at_counts {a : AddedVocab} {s : Str} {x y : Nat} {i : Int} :
    CountsB ((mapFind a.mapR i).getD {}) s x y ↔ CountsIn a s x y i := by
  unfold CountsIn CountsB flagsOf
  simp only [notWord_iff]

theorem at_left {a : AddedVocab} {s : Str} {i : Int} {x : Nat} (hx : x ≤ s.length) (p : Nat) :
    LeftEnd a s p i x (if ((mapFind a.mapR i).getD {}).lstrip = true then max (spaceLeftmostAtEnd (s.take x)) p else x) := by
  unfold LeftEnd flagsOf
  split
  · have h1 := spaceLeftmost_le (s.take x)
    have h2 : (s.take x).length = x := by simp; omega
    refine ⟨spaceLeftmostAtEnd (s.take x), by omega, ?_, ?_, rfl⟩
    · rw [between_blank hx]
      intro j hj1 hj2
      obtain ⟨c, hc1, hc2⟩ := takeWhile_get isspaceC (s.take x).reverse (x - 1 - j) (by
        unfold spaceLeftmostAtEnd at hj1; rw [h2] at hj1; omega)
      refine ⟨c, ?_, hc2⟩
      rw [List.getElem?_reverse (by omega), h2] at hc1
      have e : x - 1 - (x - 1 - j) = j := by omega
      rw [e, List.getElem?_take] at hc1
      simpa [hj2] using hc1
    · by_cases h0 : spaceLeftmostAtEnd (s.take x) = 0
      · exact .inl h0
      · right
        unfold spaceLeftmostAtEnd at h0 ⊢
        rw [h2] at h0 ⊢
        have hn : ((s.take x).reverse.takeWhile isspaceC).length < (s.take x).reverse.length := by
          rw [List.length_reverse, h2]; omega
        have hstop := takeWhile_stop isspaceC (s.take x).reverse _ (List.getElem?_eq_getElem hn)
        refine ⟨_, ?_, (notBlank_iff _).1 hstop⟩
        have hg := List.getElem?_eq_getElem hn
        rw [List.getElem?_reverse (by omega), h2] at hg
        rw [← hg, List.getElem?_take, if_pos (by omega)]
        congr 1
        omega
  · rfl

theorem at_right {a : AddedVocab} {s : Str} {i : Int} {y : Nat} (hy : y ≤ s.length) :
    RightEnd a s i y (if ((mapFind a.mapR i).getD {}).rstrip = true then y + spaceRightmostAtStart (s.drop y) else y) := by
  unfold RightEnd flagsOf
  split
  · have hlen : spaceRightmostAtStart (s.drop y) ≤ s.length - y := by
      unfold spaceRightmostAtStart
      have := takeWhile_length_le' isspaceC (s.drop y)
      simpa using this
    refine ⟨by omega, by omega, ?_, ?_⟩
    · rw [between_blank (by omega)]
      intro j hj1 hj2
      obtain ⟨c, hc1, hc2⟩ := takeWhile_get isspaceC (s.drop y) (j - y) (by
        unfold spaceRightmostAtStart at hj2; omega)
      rw [List.getElem?_drop] at hc1
      have e : y + (j - y) = j := by omega
      rw [e] at hc1
      exact ⟨c, hc1, hc2⟩
    · intro c hcs
      unfold spaceRightmostAtStart at hcs
      rw [← List.getElem?_drop] at hcs
      exact (notBlank_iff _).1 (takeWhile_stop isspaceC (s.drop y) c hcs)
  · rfl

theorem at_matchSegs (a : AddedVocab) (s : Str) (total : Nat) (ms : List (Nat × Nat × Int)) :
    ∀ start, (∀ m ∈ ms, m.1 ≤ s.length ∧ m.2.1 ≤ s.length) →
    ∃ segs, matchSegs a.mapR s total ms start = .ok segs ∧ CutFrom a s total start ms segs := by
  induction ms with
  | nil =>
    intro start _
    refine ⟨_, rfl, ?_⟩
    split
    · rename_i h; exact .rest h
    · rename_i h; have : start = total := by omega
      subst this; exact .done
  | cons m r ih =>
    intro start hm
    obtain ⟨x, y, i⟩ := m
    obtain ⟨hx, hy⟩ := hm (x, y, i) (by simp)
    have hr : ∀ m ∈ r, m.1 ≤ s.length ∧ m.2.1 ≤ s.length := fun m h => hm m (by simp [h])
    obtain ⟨ok, hok, hcnt⟩ := wordOk_iff ((mapFind a.mapR i).getD {}) s x y hx hy
    rw [at_counts] at hcnt
    simp only [matchSegs, hok, res_ok_bind]
    cases ok with
    | false =>
      simp only [Bool.false_eq_true, if_false]
      obtain ⟨segs, h1, h2⟩ := ih start hr
      exact ⟨segs, h1, .skip (fun h => by have := hcnt.2 h; cases this) h2⟩
    | true =>
      simp only [if_true]
      have hL := at_left (a := a) (i := i) hx start
      have hR := at_right (a := a) (i := i) hy
      obtain ⟨segs, h1, h2⟩ := ih (if ((mapFind a.mapR i).getD {}).rstrip = true then y + spaceRightmostAtStart (s.drop y) else y) hr
      refine ⟨_, ?_, .take (hcnt.1 rfl) hL hR h2⟩
      by_cases hrs : ((mapFind a.mapR i).getD {}).rstrip = true
      · rw [if_pos hrs] at h1 ⊢
        simp only [if_pos hrs, substrFrom, if_pos hy, res_ok_bind, res_pure, h1]
      · rw [if_neg hrs] at h1 ⊢
        simp only [if_neg hrs, res_ok_bind, res_pure, h1]

/-- `find_matches` always returns, and its pieces are those of the specification. -/
theorem at_findMatches {a : AddedVocab} {T : List (Str × Int)} {w : WStr} (hw : Scalars w) (hT : ∀ p ∈ T, p.1 ≠ [])
    (hf : ∀ k i j, (k, i) ∈ T → (k, j) ∈ T → i = j) :
    ∃ cuts, (a.findMatches (utf8 w) T).1 = .ok cuts ∧ CutUp a T w cuts := by
  have hu := wu_lt hw
  unfold AddedVocab.findMatches
  simp only [fromUTF8_utf8 hw]
  have ho := scan_ordered (wordIds T) (utf16 w) (utf16 w) 0 0 (Nat.le_refl _) (by simp) 0 (Nat.le_refl _)
  have hrec : ∀ x y i, (x, y, i) ∈ scan (wordIds T) (utf16 w) (utf16 w) 0 0 ↔ RecognizedIn T (utf16 w) x y i := by
    intro x y i
    rw [scan_iff (keyAt_empty hT _), at_recognized hu hf]
  generalize scan (wordIds T) (utf16 w) (utf16 w) 0 0 = ms at ho hrec
  have hl := at_units_le hw
  obtain ⟨segs, h1, h2⟩ := at_matchSegs a (utf8 w) (utf16 w).length ms 0 (by
    rintro ⟨x, y, i⟩ hm
    have := at_le ((hrec x y i).1 hm)
    simp only
    omega)
  exact ⟨segs, h1, utf16 w, utf8 w, ms, utf16Text_iff.2 ⟨hw, rfl⟩, utf8Text_iff.2 ⟨hw, rfl⟩, (at_pairwise ms 0 ho).2, hrec, h2⟩

end Tok
