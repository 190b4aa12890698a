import Verif.Props.Alike
import Verif.Props.Roundtrip2
import Verif.Props.Places
import Verif.Spec.Chunks

set_option autoImplicit false

/-!
C112: a text is encoded part by part, where parts are separated by a space.
-/

namespace Tok
open Spec

/-! ### Recognition starts afresh after a space -/

theorem ck_between_left {x y : WStr} {i j : Nat} (h : j ≤ x.length) : between (x ++ y) i j = between x i j := by
  unfold between
  by_cases hi : i ≤ j
  · rw [List.drop_append_of_le_length (by omega), List.take_append_of_le_length (by simp; omega)]
  · rw [show j - i = 0 by omega, List.take_zero, List.take_zero]

theorem ck_between_right {x y : WStr} {k i j : Nat} (hk : k = x.length) : between (x ++ y) (k + i) (k + j) = between y i j := by
  subst hk
  unfold between
  rw [List.drop_append, List.drop_eq_nil_of_le (by omega), show x.length + i - x.length = i by omega,
    show x.length + j - (x.length + i) = j - i by omega, List.nil_append]

theorem ck_between_mem {x y : WStr} {c i j : Nat} (hi : i ≤ x.length) (hj : x.length < j) : c ∈ between (x ++ c :: y) i j := by
  unfold between
  rw [List.drop_append_of_le_length hi, List.mem_iff_getElem?]
  refine ⟨x.length - i, ?_⟩
  rw [List.getElem?_take, if_pos (by omega), List.getElem?_append_right (by simp)]
  simp

theorem ck_entry_left {T : List (Str × Int)} {x y : U16} {i j : Nat} {k : Int} (hj : j ≤ x.length) :
    EntryIn T (x ++ y) i j k ↔ EntryIn T x i j k := by
  unfold EntryIn
  rw [ck_between_left hj]
  constructor
  · rintro ⟨-, h⟩; exact ⟨hj, h⟩
  · rintro ⟨-, h⟩; exact ⟨by simp; omega, h⟩

theorem ck_shortest_left {T : List (Str × Int)} {x y : U16} {i j : Nat} {k : Int} (hi : i ≤ x.length) :
    ShortestIn T (x ++ 0x20 :: y) i j k ↔ ShortestIn T x i j k := by
  unfold ShortestIn
  constructor
  · rintro ⟨h1, h2, h3, h4⟩
    have hj : j ≤ x.length := by
      rcases Nat.lt_or_ge x.length j with h | h
      · exact absurd rfl (h3 _ (ck_between_mem hi h))
      · exact h
    rw [ck_between_left hj] at h3
    exact ⟨h1, (ck_entry_left hj).1 h2, h3, fun c l hc hc' h => h4 c l hc hc' ((ck_entry_left (by omega)).2 h)⟩
  · rintro ⟨h1, h2, h3, h4⟩
    have hj := h2.1
    rw [ck_between_left hj]
    exact ⟨h1, (ck_entry_left hj).2 h2, h3, fun c l hc hc' h => h4 c l hc hc' ((ck_entry_left (by omega)).1 h)⟩

theorem ck_entry_right {T : List (Str × Int)} {x y : U16} {n i j : Nat} {k : Int} (hn : n = x.length) :
    EntryIn T (x ++ y) (n + i) (n + j) k ↔ EntryIn T y i j k := by
  unfold EntryIn
  rw [ck_between_right hn, List.length_append]
  constructor
  · rintro ⟨h0, h⟩; exact ⟨by omega, h⟩
  · rintro ⟨h0, h⟩; exact ⟨by omega, h⟩

theorem ck_shortest_right {T : List (Str × Int)} {x y : U16} {n i j : Nat} {k : Int} (hn : n = x.length) :
    ShortestIn T (x ++ y) (n + i) (n + j) k ↔ ShortestIn T y i j k := by
  unfold ShortestIn
  rw [ck_between_right hn, ck_entry_right hn]
  constructor
  · rintro ⟨h1, h2, h3, h4⟩
    exact ⟨by omega, h2, h3, fun c l hc hc' h => h4 (n + c) l (by omega) (by omega) ((ck_entry_right hn).2 h)⟩
  · rintro ⟨h1, h2, h3, h4⟩
    refine ⟨by omega, h2, h3, fun c l hc hc' h => ?_⟩
    obtain ⟨d, rfl⟩ : ∃ d, c = n + d := ⟨c - n, by omega⟩
    exact h4 d l (by omega) (by omega) ((ck_entry_right hn).1 h)

theorem ck_recognized {T : List (Str × Int)} {x y : U16} {i j : Nat} {k : Int} :
    RecognizedIn T (x ++ 0x20 :: y) i j k ↔
      RecognizedIn T x i j k ∨ ∃ i' j', i = x.length + 1 + i' ∧ j = x.length + 1 + j' ∧ RecognizedIn T y i' j' k := by
  have e : x ++ 0x20 :: y = (x ++ [0x20]) ++ y := by simp
  have hn : x.length + 1 = (x ++ [0x20]).length := by simp
  constructor
  · intro h
    have right : ∀ {i j k}, ShortestIn T (x ++ 0x20 :: y) (x.length + 1 + i) j k →
        ∃ j', j = x.length + 1 + j' ∧ ShortestIn T y i j' k := by
      intro i j k h
      obtain ⟨d, rfl⟩ : ∃ d, j = x.length + 1 + d := ⟨j - (x.length + 1), by have := h.1; omega⟩
      rw [e] at h
      exact ⟨d, rfl, (ck_shortest_right hn).1 h⟩
    induction h with
    | first h => exact .inl (.first ((ck_shortest_left (Nat.zero_le _)).1 h))
    | @word a b i hs h =>
      rcases Nat.lt_trichotomy a x.length with ha | ha | ha
      · rw [List.getElem?_append_left ha] at hs
        exact .inl (.word hs ((ck_shortest_left (by omega)).1 h))
      · subst ha
        obtain ⟨j', rfl, h'⟩ := right (i := 0) h
        exact .inr ⟨0, j', rfl, rfl, .first h'⟩
      · obtain ⟨d, rfl⟩ : ∃ d, a = x.length + 1 + d := ⟨a - (x.length + 1), by omega⟩
        obtain ⟨j', rfl, h'⟩ := right (i := d + 1) h
        refine .inr ⟨d + 1, j', rfl, rfl, .word ?_ h'⟩
        rw [e, List.getElem?_append_right (by simp)] at hs
        simpa using hs
    | @next a b c i j hr h ih =>
      rcases ih with ih | ⟨a', b', rfl, rfl, ih⟩
      · have hb := (at_le ih).2
        exact .inl (.next ih ((ck_shortest_left hb).1 h))
      · obtain ⟨c', rfl, h'⟩ := right h
        exact .inr ⟨b', c', rfl, rfl, .next ih h'⟩
  · rintro (h | ⟨i', j', rfl, rfl, h⟩)
    · induction h with
      | first h => exact .first ((ck_shortest_left (Nat.zero_le _)).2 h)
      | @word a b i hs h =>
        have ha : a < x.length := (List.getElem?_eq_some_iff.1 hs).1
        exact .word (by rw [List.getElem?_append_left ha]; exact hs) ((ck_shortest_left (by omega)).2 h)
      | next hr h ih => exact .next ih ((ck_shortest_left (at_le hr).2).2 h)
    · rw [e]
      induction h with
      | first h =>
        refine .word (a := x.length) ?_ ((ck_shortest_right (i := 0) hn).2 h)
        rw [← e, List.getElem?_append_right (Nat.le_refl _)]
        simp
      | @word a b i hs h =>
        refine .word (a := x.length + 1 + a) ?_ ((ck_shortest_right (i := a + 1) hn).2 h)
        rw [List.getElem?_append_right (by simp), ← hs]
        simp
      | next hr h ih => exact .next ih ((ck_shortest_right hn).2 h)

/-! ### Cutting -/

theorem ck_take {a : AddedVocab} (hf : FlagFree a) {s : Str} {total p x y : Nat} {i : Int} {r : List (Nat × Nat × Int)} {cuts : List Cut}
    (h : CutFrom a s total y r cuts) : CutFrom a s total p ((x, y, i) :: r) ((if p < x then [(none, (p, x))] else []) ++ (some i, (x, y)) :: cuts) := by
  obtain ⟨f1, f2, f3⟩ := flagFree_of hf i
  exact .take (by unfold CountsIn; rw [f1]; simp) (by unfold LeftEnd; rw [f2]; simp) (by unfold RightEnd; rw [f3]; simp) h

theorem ck_take_inv {a : AddedVocab} (hf : FlagFree a) {s : Str} {total p x y : Nat} {i : Int} {r : List (Nat × Nat × Int)} {cuts : List Cut}
    (h : CutFrom a s total p ((x, y, i) :: r) cuts) :
    ∃ cuts', CutFrom a s total y r cuts' ∧ cuts = (if p < x then [(none, (p, x))] else []) ++ (some i, (x, y)) :: cuts' := by
  obtain ⟨f1, f2, f3⟩ := flagFree_of hf i
  cases h with
  | skip h => exact absurd (by unfold CountsIn; rw [f1]; simp) h
  | take _ h2 h3 h4 =>
    unfold LeftEnd at h2; rw [f2] at h2
    unfold RightEnd at h3; rw [f3] at h3
    simp only [Bool.false_eq_true, if_false] at h2 h3
    subst h2 h3
    exact ⟨_, h4, rfl⟩

/-- A piece of ordinary text, unless it is empty. -/
def ckGap (a b : Nat) : List Cut := if a < b then [(none, (a, b))] else []

theorem ck_left {a : AddedVocab} (hf : FlagFree a) {s : Str} {L : Nat} : ∀ (occ : List (Nat × Nat × Int)) {p : Nat} {cuts : List Cut}, p ≤ L →
    (∀ o ∈ occ, o.1 < o.2.1 ∧ o.2.1 ≤ L) → CutFrom a s L p occ cuts →
    ∃ A q, q ≤ L ∧ cuts = A ++ ckGap q L ∧ (∀ c ∈ A, c.2.1 ≤ c.2.2 ∧ c.2.2 ≤ L) ∧
      ∀ (s' : Str) (total : Nat) (r : List (Nat × Nat × Int)) (cr : List Cut), CutFrom a s' total q r cr → CutFrom a s' total p (occ ++ r) (A ++ cr)
  | [], p, cuts, hp, _, h => by
    refine ⟨[], p, hp, ?_, by simp, fun _ _ _ _ h => h⟩
    generalize ho : ([] : List (Nat × Nat × Int)) = o at h
    cases h with
    | rest hne => simp [ckGap, show p < L by omega]
    | done => simp [ckGap]
    | skip => cases ho
    | take => cases ho
  | (x, y, i) :: occ, p, cuts, hp, hl, h => by
    obtain ⟨cuts', h1, rfl⟩ := ck_take_inv hf h
    have hy := hl (x, y, i) (by simp)
    simp only at hy
    obtain ⟨A, q, hq, rfl, hA, hr⟩ := ck_left hf occ hy.2 (fun o ho => hl o (by simp [ho])) h1
    refine ⟨(if p < x then [(none, (p, x))] else []) ++ (some i, (x, y)) :: A, q, hq, by simp, ?_, ?_⟩
    · intro c hc
      simp only [List.mem_append, List.mem_cons] at hc
      rcases hc with hc | rfl | hc
      · split at hc
        · simp only [List.mem_singleton] at hc; subst hc; exact ⟨Nat.le_of_lt ‹_›, by show x ≤ L; omega⟩
        · cases hc
      · exact ⟨Nat.le_of_lt hy.1, hy.2⟩
      · exact hA c hc
    · intro s' total r cr h
      have := ck_take hf (p := p) (x := x) (i := i) (hr s' total r cr h)
      simpa using this

/-- Moved to the right by `k`. -/
def ckShift (k : Nat) (c : Cut) : Cut := (c.1, (k + c.2.1, k + c.2.2))

theorem ck_shift {a : AddedVocab} (hf : FlagFree a) {s s' : Str} {k n : Nat} : ∀ (occ : List (Nat × Nat × Int)) {p : Nat} {cuts : List Cut},
    CutFrom a s n p occ cuts → CutFrom a s' (k + n) (k + p) (occ.map fun o => (k + o.1, k + o.2.1, o.2.2)) (cuts.map (ckShift k))
  | [], p, cuts, h => by
    generalize ho : ([] : List (Nat × Nat × Int)) = o at h
    cases h with
    | rest hne => exact .rest (by omega)
    | done => exact .done
    | skip => cases ho
    | take => cases ho
  | (x, y, i) :: occ, p, cuts, h => by
    obtain ⟨cuts', h1, rfl⟩ := ck_take_inv hf h
    have := ck_take hf (p := k + p) (x := k + x) (i := i) (ck_shift (s' := s') (k := k) hf occ h1)
    simp only [List.map_append, List.map_cons]
    have e : (if k + p < k + x then [((none : Option Int), (k + p, k + x))] else []) =
        (if p < x then [((none : Option Int), (p, x))] else []).map (ckShift k) := by
      by_cases hpx : p < x
      · rw [if_pos hpx, if_pos (by omega)]; rfl
      · rw [if_neg hpx, if_neg (by omega)]; rfl
    rw [e] at this
    exact this

theorem ck_right {a : AddedVocab} (hf : FlagFree a) {s s' : Str} {k n q : Nat} {occ : List (Nat × Nat × Int)} {cuts : List Cut} (hq : q < k)
    (hl : ∀ o ∈ occ, o.1 < o.2.1 ∧ o.2.1 ≤ n) (h : CutFrom a s n 0 occ cuts) :
    ∃ B z, z ≤ n ∧ cuts = ckGap 0 z ++ B ∧
      CutFrom a s' (k + n) q (occ.map fun o => (k + o.1, k + o.2.1, o.2.2)) ((none, (q, k + z)) :: B.map (ckShift k)) := by
  cases occ with
  | nil =>
    refine ⟨[], n, Nat.le_refl _, ?_, .rest (by omega)⟩
    generalize ho : ([] : List (Nat × Nat × Int)) = o at h
    generalize hz : (0 : Nat) = z at h
    cases h with
    | rest hne => subst hz; simp [ckGap, show 0 < n by omega]
    | done => subst hz; simp [ckGap]
    | skip => cases ho
    | take => cases ho
  | cons o occ =>
    obtain ⟨x, y, i⟩ := o
    obtain ⟨cuts', h1, rfl⟩ := ck_take_inv hf h
    refine ⟨(some i, (x, y)) :: cuts', x, ?_, rfl, ?_⟩
    · have := hl (x, y, i) (by simp)
      simp only at this
      omega
    · have := ck_take hf (p := q) (x := k + x) (i := i) (ck_shift (s' := s') (k := k) hf occ h1)
      rw [if_pos (by omega)] at this
      exact this

theorem ck_bmp_units {w : WStr} (h : Bmp w) : (utf16 w).length = w.length := by
  rw [← units_eq, units_bmp h]

theorem ck_occ {T : List (Str × Int)} {u : U16} {occ : List (Nat × Nat × Int)} (h : ∀ x y i, (x, y, i) ∈ occ ↔ RecognizedIn T u x y i) :
    ∀ o ∈ occ, o.1 < o.2.1 ∧ o.2.1 ≤ u.length := by
  rintro ⟨x, y, i⟩ ho
  exact at_le ((h x y i).1 ho)

/-- How a text is cut follows from how its two sides are cut. -/
theorem ck_cutUp {a : AddedVocab} (hf : FlagFree a) {T : List (Str × Int)} {x y : WStr} (hx : Bmp x) {cx cy : List Cut}
    (h : CutUp a T x cx) (h' : CutUp a T y cy) :
    ∃ A q z B, q ≤ x.length ∧ z ≤ units y ∧ cx = A ++ ckGap q x.length ∧ cy = ckGap 0 z ++ B ∧ (∀ c ∈ A, c.2.1 ≤ c.2.2 ∧ c.2.2 ≤ x.length) ∧
      CutUp a T (x ++ 0x20 :: y) (A ++ (none, (q, x.length + 1 + z)) :: B.map (ckShift (x.length + 1))) := by
  obtain ⟨u, s, occ, h1, h2, h3, h4, h5⟩ := h
  obtain ⟨u', s', occ', h1', h2', h3', h4', h5'⟩ := h'
  have hl := ck_occ h4
  have hl' := ck_occ h4'
  obtain ⟨hs, rfl⟩ := utf16Text_iff.1 h1
  obtain ⟨hs', rfl⟩ := utf16Text_iff.1 h1'
  have hsc : Scalars (x ++ 0x20 :: y) := by
    intro c hc
    simp only [List.mem_append, List.mem_cons] at hc
    rcases hc with hc | rfl | hc
    · exact hs c hc
    · decide
    · exact hs' c hc
  have hu : utf16 (x ++ 0x20 :: y) = utf16 x ++ 0x20 :: utf16 y := by
    rw [utf16_append, utf16_cons]; rfl
  have hlen := ck_bmp_units hx
  rw [hlen] at h5 hl
  obtain ⟨A, q, k1, k2, k3, k4⟩ := ck_left hf occ (Nat.zero_le _) hl h5
  obtain ⟨B, z, m1, m2, m3⟩ := ck_right (s' := utf8 (x ++ 0x20 :: y)) (k := x.length + 1) (q := q) hf (by omega) hl' h5'
  refine ⟨A, q, z, B, k1, by rw [units_eq]; exact m1, k2, m2, k3, utf16 (x ++ 0x20 :: y), utf8 (x ++ 0x20 :: y),
    occ ++ occ'.map fun o => (x.length + 1 + o.1, x.length + 1 + o.2.1, o.2.2),
    utf16Text_iff.2 ⟨hsc, rfl⟩, utf8Text_iff.2 ⟨hsc, rfl⟩, ?_, ?_, ?_⟩
  · rw [List.pairwise_append]
    refine ⟨h3, ?_, ?_⟩
    · rw [List.pairwise_map]
      exact h3'.imp fun h => by simp only; omega
    · intro o ho o' ho'
      rw [List.mem_map] at ho'
      obtain ⟨r, _, rfl⟩ := ho'
      have := (hl o ho).2
      simp only
      omega
  · intro i j k
    rw [hu, ck_recognized, hlen, List.mem_append, List.mem_map, h4]
    constructor
    · rintro (h | ⟨⟨i', j', k'⟩, ho, e⟩)
      · exact .inl h
      · simp only [Prod.mk.injEq] at e
        obtain ⟨rfl, rfl, rfl⟩ := e
        exact .inr ⟨i', j', rfl, rfl, (h4' _ _ _).1 ho⟩
    · rintro (h | ⟨i', j', rfl, rfl, h⟩)
      · exact .inl h
      · exact .inr ⟨(i', j', k), (h4' _ _ _).2 h, rfl⟩
  · have := k4 _ _ _ _ m3
    rw [hu]
    simp only [List.length_append, List.length_cons, hlen]
    rw [show x.length + ((utf16 y).length + 1) = x.length + 1 + (utf16 y).length by omega]
    exact this

/-- An ordinary piece, which may be missing if it is empty. -/
def OptText (v : WStr) (l : List (WStr × Bool)) : Prop := l = [(v, false)] ∨ (v = [] ∧ l = [])

theorem ck_optText (v : WStr) : OptText v (if v = [] then [] else [(v, false)]) := by
  split
  · exact .inr ⟨‹_›, rfl⟩
  · exact .inl rfl

/-- The pieces of a text follow from those of its two sides: the last ordinary text of the one, a space, and the first ordinary
text of the other make one piece. -/
def Glued (l1 l2 l : List (WStr × Bool)) : Prop :=
  ∃ p v v' q m m', OptText v m ∧ OptText v' m' ∧ l1 = p ++ m ∧ l2 = m' ++ q ∧ l = p ++ (v ++ 0x20 :: v', false) :: q

theorem ck_textAt_left {x y : WStr} {i j : Nat} (hij : i ≤ j) (h : j ≤ x.length) : textAt (x ++ y) i j = textAt x i j := by
  unfold textAt
  rw [if_pos hij, if_pos hij, ck_between_left h]

theorem ck_textAt_right {x y : WStr} {k i j : Nat} (hk : k = x.length) : textAt (x ++ y) (k + i) (k + j) = textAt y i j := by
  unfold textAt
  rw [ck_between_right hk]
  by_cases h : i ≤ j
  · rw [if_pos h, if_pos (by omega)]
  · rw [if_neg h, if_neg (by omega), List.drop_append, List.drop_eq_nil_of_le (by omega), show k + i - x.length = i by omega,
      List.nil_append]

theorem ck_textAt_mid {x y : WStr} {q z : Nat} (hq : q ≤ x.length) :
    textAt (x ++ 0x20 :: y) q (x.length + 1 + z) = x.drop q ++ 0x20 :: y.take z := by
  unfold textAt between
  rw [if_pos (by omega), List.drop_append_of_le_length hq, List.take_append, List.take_of_length_le (by simp; omega)]
  rw [show x.length + 1 + z - q - (x.drop q).length = z + 1 by simp; omega]
  simp

theorem ck_gap_left {x : WStr} {q : Nat} (hq : q ≤ x.length) :
    itemsAt x (ckGap q x.length) = if x.drop q = [] then [] else [(x.drop q, false)] := by
  unfold ckGap
  by_cases h : q < x.length
  · rw [if_pos h, if_neg (by rw [List.drop_eq_nil_iff]; omega)]
    simp [itemsAt, textAt, between, hq, List.take_of_length_le]
  · rw [if_neg h, if_pos (by rw [List.drop_eq_nil_iff]; omega)]
    rfl

theorem ck_gap_right {y : WStr} {z : Nat} (hz : z ≤ units y) :
    itemsAt y (ckGap 0 z) = if y.take z = [] then [] else [(y.take z, false)] := by
  unfold ckGap
  by_cases h : 0 < z
  · have hy : y ≠ [] := by rintro rfl; simp [units] at hz; omega
    rw [if_pos h, if_neg (by rw [List.take_eq_nil_iff]; rintro (h0 | h0); omega; exact hy h0)]
    simp [itemsAt, textAt, between]
  · rw [if_neg h, if_pos (by rw [show z = 0 by omega]; rfl)]
    rfl

theorem ck_items_left {x y : WStr} {A : List Cut} (h : ∀ c ∈ A, c.2.1 ≤ c.2.2 ∧ c.2.2 ≤ x.length) : itemsAt (x ++ y) A = itemsAt x A := by
  unfold itemsAt
  refine List.map_congr_left fun c hc => ?_
  rw [ck_textAt_left (h c hc).1 (h c hc).2]

theorem ck_items_right {x y : WStr} (B : List Cut) : itemsAt (x ++ 0x20 :: y) (B.map (ckShift (x.length + 1))) = itemsAt y B := by
  unfold itemsAt
  rw [List.map_map]
  refine List.map_congr_left fun c hc => ?_
  have : textAt ((x ++ [0x20]) ++ y) (x.length + 1 + c.2.1) (x.length + 1 + c.2.2) = textAt y c.2.1 c.2.2 := ck_textAt_right (by simp)
  simp only [List.append_assoc, List.singleton_append] at this
  simp only [Function.comp, ckShift, this]

theorem ck_glue {a : AddedVocab} (hf : FlagFree a) {T : List (Str × Int)} {x y : WStr} (hx : Bmp x) {cx cy : List Cut}
    (h : CutUp a T x cx) (h' : CutUp a T y cy) :
    ∃ c, CutUp a T (x ++ 0x20 :: y) c ∧ Glued (itemsAt x cx) (itemsAt y cy) (itemsAt (x ++ 0x20 :: y) c) := by
  obtain ⟨A, q, z, B, h1, h2, rfl, rfl, h3, h4⟩ := ck_cutUp hf hx h h'
  refine ⟨_, h4, itemsAt x A, x.drop q, y.take z, itemsAt y B, _, _, ck_optText _, ck_optText _, ?_, ?_, ?_⟩
  · rw [← ck_gap_left h1]; simp [itemsAt]
  · rw [← ck_gap_right h2]; simp [itemsAt]
  · have : itemsAt (x ++ 0x20 :: y) (A ++ (none, (q, x.length + 1 + z)) :: B.map (ckShift (x.length + 1))) =
        itemsAt (x ++ 0x20 :: y) A ++ (textAt (x ++ 0x20 :: y) q (x.length + 1 + z), false) ::
          itemsAt (x ++ 0x20 :: y) (B.map (ckShift (x.length + 1))) := by
      simp [itemsAt]
    rw [this, ck_items_left h3, ck_items_right, ck_textAt_mid h1]

theorem ck_cut_nil (a : AddedVocab) (T : List (Str × Int)) : CutUp a T [] [] := by
  refine ⟨[], [], [], utf16Text_iff.2 ⟨(by intro c hc; cases hc), rfl⟩, utf8Text_iff.2 ⟨(by intro c hc; cases hc), rfl⟩, .nil, ?_, .done⟩
  intro x y i
  constructor
  · intro h; cases h
  · intro h
    have := at_le h
    simp at this
    omega

theorem ck_glued_append {g1 g2 l1 l2 l : List (WStr × Bool)} (h : Glued l1 l2 l) : Glued (g1 ++ l1) (l2 ++ g2) (g1 ++ l ++ g2) := by
  obtain ⟨p, v, v', q, m, m', o, o', rfl, rfl, rfl⟩ := h
  exact ⟨g1 ++ p, v, v', q ++ g2, m, m', o, o', by simp, by simp, by simp⟩

theorem ck_each_left {α β : Type} {R : α → β → Prop} : ∀ {a b : List α} {l : List β}, Each R (a ++ b) l →
    ∃ l1 l2, l = l1 ++ l2 ∧ Each R a l1 ∧ Each R b l2
  | [], _, l, h => ⟨[], l, rfl, .nil, h⟩
  | _ :: _, _, _, .cons h1 h2 => by
    obtain ⟨l1, l2, rfl, h3, h4⟩ := ck_each_left h2
    exact ⟨_ :: l1, l2, rfl, .cons h1 h3, h4⟩

/-! ### The pieces after normalization -/

/-- What becomes of a piece that has been cut out. -/
def ckGroup (a : AddedVocab) (N : WStr → WStr → Prop) (w : WStr) (c : Cut) (g : List (WStr × Bool)) : Prop :=
  match c.1 with
  | some _ => g = [(textAt w c.2.1 c.2.2, true)]
  | none => ∃ n cuts', N (textAt w c.2.1 c.2.2) n ∧ CutUp a a.normTrie n cuts' ∧ g = itemsAt n cuts'

theorem ck_group_congr {a : AddedVocab} {N : WStr → WStr → Prop} {w w' : WStr} {c c' : Cut} {g : List (WStr × Bool)} (h : c.1 = c'.1)
    (ht : textAt w c.2.1 c.2.2 = textAt w' c'.2.1 c'.2.2) (hg : ckGroup a N w c g) : ckGroup a N w' c' g := by
  unfold ckGroup at hg ⊢
  rw [← h, ← ht]
  exact hg

theorem ck_bounds {a : AddedVocab} (hf : FlagFree a) {s : Str} {total : Nat} : ∀ (occ : List (Nat × Nat × Int)) {p : Nat} {cuts : List Cut}, p ≤ total →
    (∀ o ∈ occ, o.1 < o.2.1 ∧ o.2.1 ≤ total) → CutFrom a s total p occ cuts → ∀ c ∈ cuts, c.2.1 < c.2.2 ∧ c.2.2 ≤ total
  | [], p, cuts, hp, _, h => by
    generalize ho : ([] : List (Nat × Nat × Int)) = o at h
    cases h with
    | rest hne =>
      intro c hc
      simp only [List.mem_singleton] at hc
      subst hc
      exact ⟨by show p < total; omega, Nat.le_refl _⟩
    | done => intro c hc; cases hc
    | skip => cases ho
    | take => cases ho
  | (x, y, i) :: occ, p, cuts, hp, hl, h => by
    obtain ⟨cuts', h1, rfl⟩ := ck_take_inv hf h
    have hy := hl (x, y, i) (by simp)
    simp only at hy
    intro c hc
    simp only [List.mem_append, List.mem_cons] at hc
    rcases hc with hc | rfl | hc
    · split at hc
      · simp only [List.mem_singleton] at hc
        subst hc
        exact ⟨‹_›, by show x ≤ total; omega⟩
      · cases hc
    · exact hy
    · exact ck_bounds hf occ hy.2 (fun o ho => hl o (by simp [ho])) h1 c hc

/-- When normalization leaves something of every piece, the pieces are the normalized ones. -/
theorem ck_items_eq {a : AddedVocab} (hf : FlagFree a) {N : WStr → WStr → Prop} {w : WStr} (hw : Bmp w) (hN : LeavesSome N w) {cuts : List Cut}
    {groups : List (List (WStr × Bool))} (h : CutUp a a.nonNormTrie w cuts) (hg : Each (ckGroup a N w) cuts groups) :
    (if groups.flatten = [] then itemsAt w cuts else groups.flatten) = groups.flatten := by
  split
  · rename_i he
    rw [he]
    cases hg with
    | nil => rfl
    | @cons c g cuts groups h1 h2 =>
      exfalso
      have hg0 : g = [] := by
        rw [List.flatten_cons, List.append_eq_nil_iff] at he
        exact he.1
      subst hg0
      obtain ⟨u, s, occ, k1, k2, k3, k4, k5⟩ := h
      have hl := ck_occ k4
      obtain ⟨-, rfl⟩ := utf16Text_iff.1 k1
      rw [ck_bmp_units hw] at k5 hl
      obtain ⟨b1, b2⟩ := ck_bounds hf occ (Nat.zero_le _) hl k5 c (by simp)
      unfold ckGroup at h1
      cases hc : c.1 with
      | some i => rw [hc] at h1; cases h1
      | none =>
        rw [hc] at h1
        obtain ⟨n, cuts', g1, g2, g3⟩ := h1
        have hv : textAt w c.2.1 c.2.2 ≠ [] := by
          unfold textAt between
          rw [if_pos (by omega)]
          intro h0
          have := congrArg List.length h0
          simp at this
          omega
        have hn : n ≠ [] := by
          refine hN (w.take c.2.1) _ (w.drop c.2.2) n ?_ hv g1
          unfold textAt between
          rw [if_pos (by omega)]
          conv => lhs; rw [← List.take_append_drop c.2.1 w]
          rw [List.append_assoc]
          congr 1
          conv => lhs; rw [← List.take_append_drop (c.2.2 - c.2.1) (w.drop c.2.1)]
          rw [List.drop_drop, show c.2.1 + (c.2.2 - c.2.1) = c.2.2 by omega]
        obtain ⟨u, s, occ, c1, -, -, -, c5⟩ := g2
        obtain ⟨-, rfl⟩ := utf16Text_iff.1 c1
        have : cuts' = [] := by
          unfold itemsAt at g3
          simpa using g3.symm
        exact at_cuts_ne c5 (at_units_ne hn) this
  · rfl

/-- The group of an ordinary piece that may be empty. -/
theorem ck_gap_group {a : AddedVocab} {N : WStr → WStr → Prop} (hN : N [] []) {w : WStr} {p q : Nat} {v : WStr} {l : List (List (WStr × Bool))}
    (hv : textAt w p q = v) (h0 : ¬ p < q → v = []) (h : Each (ckGroup a N w) (ckGap p q) l) :
    ∃ n cuts, N v n ∧ CutUp a a.normTrie n cuts ∧ l.flatten = itemsAt n cuts := by
  unfold ckGap at h
  split at h
  · cases h with
    | cons h1 h2 =>
      cases h2
      obtain ⟨n, cuts, g1, g2, rfl⟩ := h1
      simp only [hv] at g1
      exact ⟨n, cuts, g1, g2, by simp⟩
  · cases h
    rename_i hlt
    rw [h0 hlt]
    exact ⟨[], [], hN, ck_cut_nil _ _, rfl⟩

theorem ck_anyItems {a : AddedVocab} (hf : FlagFree a) {N : WStr → WStr → Prop} (hN : ApartAtSpaces N) {x y : WStr} (hx : Bmp x) (hy : Bmp y)
    (hlx : LeavesSome N x) (hly : LeavesSome N y) (hsx : StaysBmp N x) {ix iy : List (WStr × Bool)}
    (h : AnyItems a N x ix) (h' : AnyItems a N y iy) : ∃ i, AnyItems a N (x ++ 0x20 :: y) i ∧ Glued ix iy i := by
  obtain ⟨cx, gx, h1, h2, h3⟩ := h
  obtain ⟨cy, gy, h1', h2', h3'⟩ := h'
  rw [ck_items_eq hf hx hlx h1 h2] at h3
  rw [ck_items_eq hf hy hly h1' h2'] at h3'
  subst h3 h3'
  obtain ⟨A, q, z, B, k1, k2, rfl, rfl, k3, k4⟩ := ck_cutUp hf hx h1 h1'
  obtain ⟨gA, gm, rfl, a1, a2⟩ := ck_each_left h2
  obtain ⟨gm', gB, rfl, b1, b2⟩ := ck_each_left h2'
  have hq : textAt x q x.length = x.drop q := by
    simp [textAt, between, k1, List.take_of_length_le]
  obtain ⟨n, c, n1, n2, n3⟩ := ck_gap_group hN.1 hq (fun h => by rw [List.drop_eq_nil_iff]; omega) a2
  have hz : textAt y 0 z = y.take z := by simp [textAt, between]
  obtain ⟨n', c', n1', n2', n3'⟩ := ck_gap_group hN.1 hz (fun h => by rw [show z = 0 by omega]; rfl) b1
  have hbmp : Bmp n := hsx (x.take q) (x.drop q) [] n (by simp) n1
  obtain ⟨cm, m1, m2⟩ := ck_glue hf hbmp n2 n2'
  have hne : (gA ++ [itemsAt (n ++ 0x20 :: n') cm] ++ gB).flatten ≠ [] := by
    obtain ⟨p, v, v', q', _, _, -, -, -, -, e⟩ := m2
    rw [e]
    simp
  refine ⟨(gA ++ [itemsAt (n ++ 0x20 :: n') cm] ++ gB).flatten,
    ⟨_, gA ++ [itemsAt (n ++ 0x20 :: n') cm] ++ gB, k4, ?_, by rw [if_neg hne]⟩, ?_⟩
  · rw [List.append_assoc]
    refine rf_append ?_ (.cons ?_ ?_)
    · refine Each.imp_mem ?_ a1
      intro c g hc _ hg
      exact ck_group_congr rfl (ck_textAt_left (k3 c hc).1 (k3 c hc).2).symm hg
    · refine ⟨n ++ 0x20 :: n', cm, ?_, m1, rfl⟩
      simp only [ck_textAt_mid k1]
      exact hN.2 _ _ _ _ n1 n1'
    · clear b1 h1' h2' k4 hne
      induction b2 with
      | nil => exact .nil
      | @cons c g _ _ hg _ ih =>
        have : textAt ((x ++ [0x20]) ++ y) (x.length + 1 + c.2.1) (x.length + 1 + c.2.2) = textAt y c.2.1 c.2.2 := ck_textAt_right (by simp)
        simp only [List.append_assoc, List.singleton_append] at this
        exact .cons (ck_group_congr (c := c) (c' := ckShift (x.length + 1) c) rfl this.symm hg) ih
  · have := ck_glued_append (g1 := gA.flatten) (g2 := gB.flatten) m2
    rw [← n3, ← n3'] at this
    simpa using this

/-! ### Pre-tokenization -/

/-- The text is first split at white space and punctuation, as for BERT; whatever other steps come afterwards put no space in
front of it. -/
inductive BertFirst : PreTokenizer → Prop
  | bert : BertFirst .bert
  | seq {t : PreTokenizer} {l : List PreTokenizer} : BertFirst t → NoPrefixSpaceList l → BertFirst (.seq (t :: l))

theorem ck_cutItems_append {R : WStr → List WStr → Prop} {l1 l2 l1' l2' : List (WStr × Bool)} (h : CutItems R l1 l1') (h' : CutItems R l2 l2') :
    CutItems R (l1 ++ l2) (l1' ++ l2') := by
  obtain ⟨g, h1, rfl⟩ := h
  obtain ⟨g', h1', rfl⟩ := h'
  exact ⟨g ++ g', rf_append h1 h1', by simp⟩

mutual
theorem ck_pre_append (P : Platform) : (t : PreTokenizer) → t.NoPrefixSpace → {s s1 s' s1' : Stage} → PreTokenizes P t s s1 →
    PreTokenizes P t s' s1' → ∀ v, PreTokenizes P t (v, s.2 ++ s'.2) (v, s1.2 ++ s1'.2)
  | .bert, _, _, _, _, _, .bert h, .bert h', _ => .bert (ck_cutItems_append h h')
  | .split .., _, _, _, _, _, .split h, .split h', _ => .split (ck_cutItems_append h h')
  | .byteLevel a u, ha, _, _, _, _, .byteLevel h1 h2 h3, .byteLevel h1' h2' h3', v => by
    have ha : a = false := by simpa [PreTokenizer.NoPrefixSpace] using ha
    subst ha
    cases h1
    cases h1'
    exact .byteLevel .off (ck_cutItems_append h2 h2') (rf_append h3 h3')
  | .seq l, hl, _, _, _, _, .seq h, .seq h', v => .seq (ck_pres_append P l (by simpa [PreTokenizer.NoPrefixSpace] using hl) h h' v)
theorem ck_pres_append (P : Platform) : (ts : List PreTokenizer) → NoPrefixSpaceList ts → {s s1 s' s1' : Stage} → PreTokenizesAll P ts s s1 →
    PreTokenizesAll P ts s' s1' → ∀ v, PreTokenizesAll P ts (v, s.2 ++ s'.2) (v, s1.2 ++ s1'.2)
  | [], _, _, _, _, _, .nil, .nil, _ => .nil
  | t :: ts, h, _, _, _, _, .cons h1 h2, .cons h1' h2', v => by
    simp only [NoPrefixSpaceList] at h
    exact .cons (ck_pre_append P t h.1 h1 h1' v) (ck_pres_append P ts h.2 h2 h2' v)
end

theorem ck_wsWords {space : Nat → Bool} (hs : space 0x20 = true) : ∀ (x y cur : WStr) (i : Nat),
    (wsWords space i cur (x ++ 0x20 :: y)).map (·.2) = (wsWords space i cur x).map (·.2) ++ (wsWords space 0 [] y).map (·.2) := by
  have start : ∀ (y cur : WStr) (i j : Nat), (wsWords space i cur y).map (·.2) = (wsWords space j cur y).map (·.2) := by
    intro y
    induction y with
    | nil =>
      intro cur i j
      simp only [wsWords, flush]
      split <;> rfl
    | cons c y ih =>
      intro cur i j
      simp only [wsWords]
      split
      · rw [List.map_append, List.map_append, ih [] _ (j + units cur + units [c])]
        congr 1
        simp only [flush]
        split <;> rfl
      · exact ih _ _ _
  intro x
  induction x with
  | nil =>
    intro y cur i
    simp only [List.nil_append, wsWords, hs, if_true, List.map_append]
    rw [start y [] _ 0]
  | cons c x ih =>
    intro y cur i
    simp only [List.cons_append, wsWords]
    split
    · rw [List.map_append, List.map_append, ih, List.append_assoc]
    · exact ih _ _ _

theorem ck_bertPieces {space punct : Nat → Bool} (hs : space 0x20 = true) (x y : WStr) :
    (bertPieces space punct (x ++ 0x20 :: y)).map (·.2) = (bertPieces space punct x).map (·.2) ++ (bertPieces space punct y).map (·.2) := by
  have key : ∀ l : List (Nat × WStr), (l.flatMap fun (a, x) => (punctWords punct 0 [] x).map fun (b, y) => (a + b, y)).map (·.2) =
      (l.map (·.2)).flatMap fun x => (punctWords punct 0 [] x).map (·.2) := by
    intro l
    rw [List.map_flatMap, List.flatMap_map]
    congr 1
    funext ⟨a, x⟩
    rw [List.map_map]
    rfl
  unfold bertPieces
  rw [key, key, key, ck_wsWords hs, List.flatMap_append]

theorem ck_bert {P : Platform} (hs : P.reSpace 0x20 = true) {ix iy i jx jy : List (WStr × Bool)} (hg : Glued ix iy i)
    (h : CutItems (fun v vs => vs = (bertPieces P.reSpace P.rePunct v).map (·.2)) ix jx)
    (h' : CutItems (fun v vs => vs = (bertPieces P.reSpace P.rePunct v).map (·.2)) iy jy) :
    CutItems (fun v vs => vs = (bertPieces P.reSpace P.rePunct v).map (·.2)) i (jx ++ jy) := by
  obtain ⟨p, v, v', q, m, m', o, o', rfl, rfl, rfl⟩ := hg
  obtain ⟨g, h1, rfl⟩ := h
  obtain ⟨g', h1', rfl⟩ := h'
  obtain ⟨gp, gv, rfl, a1, a2⟩ := ck_each_left h1
  obtain ⟨gv', gq, rfl, b1, b2⟩ := ck_each_left h1'
  have one : ∀ {v : WStr} {m : List (WStr × Bool)} {g : List (List (WStr × Bool))}, OptText v m →
      Each (fun (x : WStr × Bool) g => if x.2 = true then g = [x] else ∃ l, l = (bertPieces P.reSpace P.rePunct x.1).map (·.2) ∧ g = l.map fun v => (v, false))
        m g →
      g.flatten = ((bertPieces P.reSpace P.rePunct v).map (·.2)).map fun v => (v, false) := by
    intro v m g ho hg
    rcases ho with rfl | ⟨rfl, rfl⟩
    · cases hg with
      | cons h1 h2 =>
        cases h2
        simp only [Bool.false_eq_true, if_false] at h1
        obtain ⟨l, rfl, rfl⟩ := h1
        simp
    · cases hg
      rfl
  refine ⟨gp ++ (((bertPieces P.reSpace P.rePunct (v ++ 0x20 :: v')).map (·.2)).map fun v => (v, false)) :: gq,
    rf_append a1 (.cons ?_ b2), ?_⟩
  · simp only [Bool.false_eq_true, if_false]
    exact ⟨_, rfl, rfl⟩
  · rw [ck_bertPieces hs]
    have e1 := one o a2
    have e2 := one o' b1
    simp only [List.flatten_append, List.flatten_cons, e1, e2, List.map_append, List.append_assoc]

theorem ck_pre {P : Platform} (hs : P.reSpace 0x20 = true) {t : PreTokenizer} (ht : BertFirst t) : ∀ {w w1 w' w1' : WStr} {ix iy i jx jy : List (WStr × Bool)},
    Glued ix iy i → PreTokenizes P t (w, ix) (w1, jx) → PreTokenizes P t (w', iy) (w1', jy) → ∀ v, PreTokenizes P t (v, i) (v, jx ++ jy) := by
  induction ht with
  | bert =>
    intro w w1 w' w1' ix iy i jx jy hg h h' v
    cases h with
    | bert h => cases h' with
      | bert h' => exact .bert (ck_bert hs hg h h')
  | @seq t l _ hl ih =>
    intro w w1 w' w1' ix iy i jx jy hg h h' v
    cases h with
    | seq h => cases h' with
      | seq h' =>
        cases h with
        | @cons _ _ _ s _ h1 h2 => cases h' with
          | @cons _ _ _ s' _ h1' h2' =>
            exact .seq (.cons (ih hg (w1 := s.1) (jx := s.2) (w1' := s'.1) (jy := s'.2) h1 h1' v) (ck_pres_append P l hl h2 h2' v))

/-! ### The words and the tokens -/

/-- What is assumed about the added tokens and the normalizer: no flags; the normalizer treats the two sides of a space
separately, leaves something of every piece of the text, and makes no characters above U+FFFF.  (Without an added vocabulary
nothing is normalized.) -/
def ChunkSafe (P : Platform) (t : Tokenizer) (w : WStr) : Prop :=
  ∀ a, t.added = some a → FlagFree a ∧ ApartAtSpaces (Normalizes P t.normalizer) ∧ Bmp w ∧ LeavesSome (Normalizes P t.normalizer) w ∧
    StaysBmp (Normalizes P t.normalizer) w

theorem ck_safe_part {P : Platform} {t : Tokenizer} {l v r : WStr} (h : ChunkSafe P t (l ++ v ++ r)) : ChunkSafe P t v := by
  intro a ha
  obtain ⟨h1, h2, h3, h4, h5⟩ := h a ha
  refine ⟨h1, h2, fun c hc => h3 c (by simp [hc]), ?_, ?_⟩
  · intro l' v' r' n e
    exact h4 (l ++ l') v' (r' ++ r) n (by rw [e]; simp)
  · intro l' v' r' n e
    exact h5 (l ++ l') v' (r' ++ r) n (by rw [e]; simp)

/-- The words of a text are those of its two sides. -/
theorem ck_words {P : Platform} (hs : P.reSpace 0x20 = true) {t : Tokenizer} {pt : PreTokenizer} (hpt : t.preTokenizer = some pt) (hb : BertFirst pt)
    {x y : WStr} (hc : ChunkSafe P t (x ++ 0x20 :: y)) {wx wy : List WStr} (h : AnyWords P t x wx) (h' : AnyWords P t y wy) :
    AnyWords P t (x ++ 0x20 :: y) (wx ++ wy) := by
  obtain ⟨ix, vx, jx, h1, rfl, h2⟩ := h
  obtain ⟨iy, vy, jy, h1', rfl, h2'⟩ := h'
  rw [hpt] at h2 h2'
  have hi : ∃ i, AnyFirst P t (x ++ 0x20 :: y) i ∧ Glued ix iy i := by
    unfold AnyFirst at h1 h1' ⊢
    cases ha : t.added with
    | none =>
      rw [ha] at h1 h1'
      refine ⟨_, rfl, ?_⟩
      simp only at h1 h1'
      subst h1 h1'
      exact ⟨[], x, y, [], _, _, .inl rfl, .inl rfl, rfl, rfl, rfl⟩
    | some a =>
      rw [ha] at h1 h1'
      obtain ⟨c1, c2, c3, c4, c5⟩ := hc a ha
      have hx := ck_safe_part (l := []) (r := 0x20 :: y) (by simpa using hc) a ha
      have hy := ck_safe_part (l := x ++ [0x20]) (r := []) (by simpa using hc) a ha
      exact ck_anyItems c1 c2 hx.2.2.1 hy.2.2.1 hx.2.2.2.1 hy.2.2.2.1 hx.2.2.2.2 h1 h1'
  obtain ⟨i, i1, i2⟩ := hi
  refine ⟨i, x ++ 0x20 :: y, jx ++ jy, i1, by simp, ?_⟩
  rw [hpt]
  exact ck_pre hs hb i2 h2 h2' _

/-- The model answers word by word. -/
theorem ck_model (P : Platform) {lines : List Str} {m x : Model} (hm : ModelIs P lines m x) :
    ∃ R : WStr → List Token → Prop, (∀ v l l', R v l → R v l' → l = l') ∧
      ∀ {ws : List WStr} {p q : PTS}, Each (fun v s => HasText s v) ws p.splits → (x.tokenize P p).1 = .ok q →
        Each R ws (q.splits.map (·.tokens)) := by
  cases m with
  | wordPiece m =>
    exact ⟨ModelTokens lines (.wordPiece m), fun v x y hx hy => rf_answer_unique (m := m) hx hy, fun hw h => pl_model P hm hw h⟩
  | bpe m =>
    obtain ⟨hmade, hkeys, before, rfl⟩ := hm
    refine ⟨fun v l => (m.word P (utf8 v)).1 = .ok l, fun v l l' h h' => Except.ok.inj (Eq.trans (Eq.symm h) h'), ?_⟩
    intro ws p q hw h
    have h : ((usedBPE P m before).tokenize P p).1 = .ok q := h
    obtain ⟨-, he⟩ := (bpe_tokenize P hmade before p q).1 h
    clear h
    generalize p.splits = l at hw he
    generalize q.splits = l' at he
    induction hw generalizing l' with
    | nil => cases he; exact .nil
    | cons hv _ ih =>
      cases he with
      | cons hs he =>
        have e1 := (utf8Text_iff.1 hv).2
        have h1 := hs.2.2
        rw [e1] at h1
        exact .cons h1 (ih _ he)

/-- The ids and tokens of an encoding without truncation and padding. -/
theorem ck_entries {t : Tokenizer} {b : Bool} {e : Encoding} {q : PTS} {y : Enc} (hy : intoLoop q.normalized none 0 0 q.splits = .ok y)
    (hpost : t.doPostProcess { toEnc := y, overflowing := [] } b = .ok e) (ht : t.truncation = none) (hp : t.padding = none) :
    e.ids = laidOutBy t.postProcessor b (·.ids) ((q.splits.map (·.tokens)).flatten.map (·.id)) ∧
    e.tokens = laidOutBy t.postProcessor b (·.tokens) ((q.splits.map (·.tokens)).flatten.map (·.value)) := by
  have hids : y.ids = ((q.splits.map (·.tokens)).flatten).map (·.id) := by
    rw [rt_intoLoop_ids _ _ _ _ _ _ hy]
    simp [List.flatMap, List.map_flatten]
    rfl
  have htok : y.tokens = ((q.splits.map (·.tokens)).flatten).map (·.value) := by
    rw [rf_intoLoop_tokens _ _ _ _ _ _ hy]
    simp [List.flatMap, List.map_flatten]
    rfl
  obtain ⟨e1, e2, h1, h2, h3⟩ := postProcess_ok hpost
  rw [ht] at h1; cases h1
  rw [hp] at h3; cases h3
  rw [← hids, ← htok]
  unfold laidOutBy
  cases hpp : t.postProcessor with
  | none => rw [hpp] at h2; cases h2; exact ⟨rfl, rfl⟩
  | some pp => rw [hpp] at h2; exact pl_arranged b pp h2

theorem ck_spaced_words {P : Platform} (hs : P.reSpace 0x20 = true) {t : Tokenizer} {pt : PreTokenizer} (hpt : t.preTokenizer = some pt) (hb : BertFirst pt) :
    ∀ {cs : List WStr} {ws : List (List WStr)}, cs ≠ [] → ChunkSafe P t (spaced cs) → Each (AnyWords P t) cs ws → AnyWords P t (spaced cs) ws.flatten
  | [], _, h, _, _ => absurd rfl h
  | [c], _, _, _, .cons h .nil => by simpa [spaced] using h
  | c :: d :: r, w :: ws, _, hc, .cons h h' => by
    simp only [spaced] at hc ⊢
    rw [List.flatten_cons]
    refine ck_words hs hpt hb hc h (ck_spaced_words hs hpt hb (by simp) ?_ h')
    exact ck_safe_part (l := c ++ [0x20]) (r := []) (by simpa using hc)

/-- **C112** Texts joined by spaces are encoded one by one: without truncation and padding, the ids and tokens of the whole are
those of the parts in a row, laid out by the post-processor (which see `C112_append` below). -/
theorem C112_chunks (P : Platform) (hg : GoodRegexes P) (hs : P.reSpace 0x20 = true) {t : Tokenizer} {m x : Model} {lines : List Str} {pt : PreTokenizer}
    {cs : List WStr} {b : Bool} {e : Encoding} (hx : t.model = some x) (hm : ModelIs P lines m x) (hd : ∀ a, t.added = some a → PlainTables a)
    (hpt : t.preTokenizer = some pt) (hb : BertFirst pt) (htr : t.truncation = none) (hpad : t.padding = none)
    (hc : ChunkSafe P t (spaced cs)) (hcs : cs ≠ []) (hparts : ∀ c ∈ cs, ∃ ec, (t.encode P c b).1 = .ok ec)
    (h : (t.encode P (spaced cs) b).1 = .ok e) :
    ∃ (ids : List (List Int)) (tokens : List (List Str)),
      Each (fun c l => ∃ ec, (t.encode P c b).1 = .ok ec ∧ ec.ids = laidOutBy t.postProcessor b (·.ids) l) cs ids ∧
      Each (fun c l => ∃ ec, (t.encode P c b).1 = .ok ec ∧ ec.tokens = laidOutBy t.postProcessor b (·.tokens) l) cs tokens ∧
      e.ids = laidOutBy t.postProcessor b (·.ids) ids.flatten ∧ e.tokens = laidOutBy t.postProcessor b (·.tokens) tokens.flatten := by
  obtain ⟨R, hR, hM⟩ := ck_model P hm
  have one : ∀ {w : WStr} {e : Encoding}, (t.encode P w b).1 = .ok e → ∃ ws parts, AnyWords P t w ws ∧ Each R ws parts ∧
      e.ids = laidOutBy t.postProcessor b (·.ids) (parts.flatten.map (·.id)) ∧
      e.tokens = laidOutBy t.postProcessor b (·.tokens) (parts.flatten.map (·.value)) := by
    intro w e h
    obtain ⟨q, y, ⟨p, hp, hq⟩, hy, hpost⟩ := encode_ok h
    rw [hx] at hq
    obtain ⟨ws, k1, k2⟩ := at_words P hg hd hp
    exact ⟨ws, _, k1, hM k2 hq, ck_entries hy hpost htr hpad⟩
  have all : ∀ cs : List WStr, (∀ c ∈ cs, ∃ ec, (t.encode P c b).1 = .ok ec) → ∃ (ws : List (List WStr)) (parts : List (List (List Token))),
      Each (AnyWords P t) cs ws ∧ Each (Each R) ws parts ∧
      Each (fun c l => ∃ ec, (t.encode P c b).1 = .ok ec ∧ ec.ids = laidOutBy t.postProcessor b (·.ids) l) cs (parts.map fun p => p.flatten.map (·.id)) ∧
      Each (fun c l => ∃ ec, (t.encode P c b).1 = .ok ec ∧ ec.tokens = laidOutBy t.postProcessor b (·.tokens) l) cs
        (parts.map fun p => p.flatten.map (·.value)) := by
    intro cs
    induction cs with
    | nil => intro _; exact ⟨[], [], .nil, .nil, .nil, .nil⟩
    | cons c cs ih =>
      intro h
      obtain ⟨ec, hec⟩ := h c (by simp)
      obtain ⟨ws, parts, a1, a2, a3, a4⟩ := one hec
      obtain ⟨ws', parts', b1, b2, b3, b4⟩ := ih fun c hc => h c (by simp [hc])
      exact ⟨ws :: ws', parts :: parts', .cons a1 b1, .cons a2 b2, .cons ⟨ec, hec, a3⟩ b3, .cons ⟨ec, hec, a4⟩ b4⟩
  obtain ⟨ws, parts, a1, a2, a3, a4⟩ := all cs hparts
  obtain ⟨ws', parts', b1, b2, b3, b4⟩ := one h
  have e1 := C108_words_unique P b1 (ck_spaced_words hs hpt hb hcs hc a1)
  subst e1
  have flat : ∀ {l : List (List WStr)} {r : List (List (List Token))}, Each (Each R) l r → Each R l.flatten r.flatten := by
    intro l r h
    induction h with
    | nil => exact .nil
    | cons h _ ih => exact rf_append h ih
  have e2 := rf_each_unique hR b2 (flat a2)
  subst e2
  refine ⟨_, _, a3, a4, ?_, ?_⟩
  · rw [b3]
    congr 1
    simp [List.map_flatten, Function.comp_def, List.flatten_flatten]
  · rw [b4]
    congr 1
    simp [List.map_flatten, Function.comp_def, List.flatten_flatten]

/-- **C112** Without a post-processor: the ids of the whole are the ids of the parts in a row. -/
theorem C112_append (P : Platform) (hg : GoodRegexes P) (hs : P.reSpace 0x20 = true) {t : Tokenizer} {m x : Model} {lines : List Str} {pt : PreTokenizer}
    {w w' : WStr} {b : Bool} {e e1 e2 : Encoding} (hx : t.model = some x) (hm : ModelIs P lines m x) (hd : ∀ a, t.added = some a → PlainTables a)
    (hpt : t.preTokenizer = some pt) (hb : BertFirst pt) (htr : t.truncation = none) (hpad : t.padding = none) (hpp : t.postProcessor = none)
    (hc : ChunkSafe P t (w ++ 0x20 :: w')) (h1 : (t.encode P w b).1 = .ok e1) (h2 : (t.encode P w' b).1 = .ok e2)
    (h : (t.encode P (w ++ 0x20 :: w') b).1 = .ok e) : e.ids = e1.ids ++ e2.ids ∧ e.tokens = e1.tokens ++ e2.tokens := by
  obtain ⟨ids, tokens, a1, a2, a3, a4⟩ := C112_chunks P hg hs (cs := [w, w']) hx hm hd hpt hb htr hpad hc (by simp)
    (by simp only [List.mem_cons, List.not_mem_nil, or_false]; rintro c (rfl | rfl); exact ⟨_, h1⟩; exact ⟨_, h2⟩) h
  rw [hpp] at a1 a2 a3 a4
  simp only [laidOutBy] at a1 a2 a3 a4
  cases a1 with
  | cons k1 a1 => cases a1 with
    | cons k2 a1 =>
      cases a1
      cases a2 with
      | cons l1 a2 => cases a2 with
        | cons l2 a2 =>
          cases a2
          obtain ⟨_, g1, rfl⟩ := k1
          obtain ⟨_, g2, rfl⟩ := k2
          obtain ⟨_, g3, rfl⟩ := l1
          obtain ⟨_, g4, rfl⟩ := l2
          rw [h1] at g1 g3
          rw [h2] at g2 g4
          cases g1; cases g2; cases g3; cases g4
          exact ⟨by rw [a3]; simp, by rw [a4]; simp⟩

/-! ### Normalizers that treat the two sides of a space separately -/

theorem ck_cleaned {drop space : Nat → Prop} {x y nx ny : WStr} (h : Cleaned drop space x nx) (h' : Cleaned drop space y ny) :
    Cleaned drop space (x ++ y) (nx ++ ny) := by
  induction h with
  | nil => exact h'
  | dropped h1 _ ih => exact .dropped h1 ih
  | spaced h1 h2 _ ih => exact .spaced h1 h2 ih
  | kept h1 h2 _ ih => exact .kept h1 h2 ih

theorem ck_cleaned_space {drop space : Nat → Prop} (hd : ¬ drop 0x20) {y ny : WStr} (h : Cleaned drop space y ny) :
    Cleaned drop space (0x20 :: y) (0x20 :: ny) := by
  by_cases hs : space 0x20
  · exact .spaced hd hs h
  · exact .kept hd hs h

theorem ck_cjk {x y nx ny : WStr} (h : CjkPadded x nx) (h' : CjkPadded y ny) : CjkPadded (x ++ y) (nx ++ ny) := by
  induction h with
  | nil => exact h'
  | cjk h1 _ ih => exact .cjk h1 ih
  | other h1 _ ih => exact .other h1 ih

mutual
theorem ck_normalizer {P : Platform} (hP : SpaceSafe P) : (n : Normalizer) → SpaceWise n →
    NormalizesTo P n [] [] ∧ ∀ x y nx ny, NormalizesTo P n x nx → NormalizesTo P n y ny → NormalizesTo P n (x ++ 0x20 :: y) (nx ++ 0x20 :: ny)
  | .bert clean cjk strip lower, _ => by
    have hdrop : ¬ Dropped P 0x20 := by
      unfold Dropped
      rw [hP.control]
      simp
    refine ⟨.bert ⟨[], [], [], ?_, ?_, ?_, ?_⟩, ?_⟩
    · split
      · exact .nil
      · rfl
    · split
      · exact .nil
      · rfl
    · split
      · simp [hP.empty]
      · rfl
    · split <;> rfl
    · rintro x y nx ny (⟨a, b, c, h1, h2, h3, h4⟩) (⟨a', b', c', h1', h2', h3', h4'⟩)
      refine .bert ⟨a ++ 0x20 :: a', b ++ 0x20 :: b', c ++ 0x20 :: c', ?_, ?_, ?_, ?_⟩
      · cases clean with
        | true => exact ck_cleaned h1 (ck_cleaned_space hdrop h1')
        | false => simp only [Bool.false_eq_true, if_false] at h1 h1' ⊢; rw [h1, h1']
      · cases cjk with
        | true =>
          simp only [if_true] at h2 h2' ⊢
          exact ck_cjk h2 (.other (by unfold Cjk; omega) h2')
        | false => simp only [Bool.false_eq_true, if_false] at h2 h2' ⊢; rw [h2, h2']
      · by_cases hs : (strip || lower) = true
        · rw [if_pos hs] at h3 h3' ⊢
          rw [h3, h3', List.map_append, List.map_cons, show sanitize 0x20 = 0x20 by decide, hP.forms, List.filter_append,
            List.filter_cons, hP.accent]
          rfl
        · rw [if_neg hs] at h3 h3' ⊢
          rw [h3, h3']
      · cases lower with
        | true => simp only [if_true] at h4 h4' ⊢; rw [h4, h4', List.map_append, List.map_cons, hP.lower]
        | false => simp only [Bool.false_eq_true, if_false] at h4 h4' ⊢; rw [h4, h4']
  | .prepend _, h => by cases h
  | .replace _ _, h => by cases h
  | .nf k, _ => by
    refine ⟨?_, ?_⟩
    · have := NormalizesTo.nf (P := P) (k := k) (w := [])
      rwa [List.map_nil, hP.empty] at this
    · rintro x y nx ny (_ | _) (_ | _)
      have := NormalizesTo.nf (P := P) (k := k) (w := x ++ 0x20 :: y)
      rw [List.map_append, List.map_cons, show sanitize 0x20 = 0x20 by decide, hP.forms] at this
      exact this
  | .strip _ _, h => by cases h
  | .stripAccents, _ => by
    refine ⟨.stripAccents .nil, ?_⟩
    intro x y nx ny h h'
    cases h with
    | stripAccents h => cases h' with
      | stripAccents h' => exact .stripAccents (ck_cleaned h (ck_cleaned_space (by omega) h'))
  | .seq l, h => by
    have hl : ∀ n ∈ l, SpaceWise n := by cases h; assumption
    obtain ⟨h1, h2⟩ := ck_normalizers hP l hl
    refine ⟨.seq h1, ?_⟩
    intro x y nx ny h h'
    cases h with
    | seq h => cases h' with
      | seq h' => exact .seq (h2 _ _ _ _ h h')
theorem ck_normalizers {P : Platform} (hP : SpaceSafe P) : (l : List Normalizer) → (∀ n ∈ l, SpaceWise n) →
    NormalizesAll P l [] [] ∧ ∀ x y nx ny, NormalizesAll P l x nx → NormalizesAll P l y ny → NormalizesAll P l (x ++ 0x20 :: y) (nx ++ 0x20 :: ny)
  | [], _ => by
    refine ⟨.nil, ?_⟩
    rintro x y nx ny (_ | _) (_ | _)
    exact .nil
  | n :: l, h => by
    obtain ⟨h1, h2⟩ := ck_normalizer hP n (h n (by simp))
    obtain ⟨h3, h4⟩ := ck_normalizers hP l fun n hn => h n (by simp [hn])
    refine ⟨.cons h1 h3, ?_⟩
    intro x y nx ny ha hb
    cases ha with
    | cons a1 a2 => cases hb with
      | cons b1 b2 => exact .cons (h2 _ _ _ _ a1 b1) (h4 _ _ _ _ a2 b2)
end

/-- **C112** BERT normalization, the Unicode normal forms, accent stripping, sequences of them, and no normalizer at all treat
the two sides of a space separately. -/
theorem C112_normalizers {P : Platform} (hP : SpaceSafe P) (norm : Option Normalizer) (h : ∀ n, norm = some n → SpaceWise n) :
    ApartAtSpaces (Normalizes P norm) := by
  cases norm with
  | none =>
    refine ⟨rfl, ?_⟩
    intro x y nx ny hx hy
    unfold Normalizes at hx hy ⊢
    simp only at hx hy ⊢
    rw [hx, hy]
  | some n => exact ck_normalizer hP n (h n rfl)

/-- Characters BERT normalization deals with one by one: up to U+FFFF, in lower case too, none of them dropped or an accent, and nothing
to decompose. -/
structure PlainFor (P : Platform) (w : WStr) : Prop where
  chars : ∀ c ∈ w, Scalar c ∧ c < 0x10000 ∧ ¬ Dropped P c ∧ P.isNSM c = false ∧ Scalar (P.towlower c) ∧ P.towlower c < 0x10000
  nfd : ∀ v, (∀ c ∈ v, c ∈ w ∨ c = 0x20) → P.nf .nfd v = v

theorem ck_plain {P : Platform} (hP : SpaceSafe P) {clean cjk strip lower : Bool} {w : WStr} (hw : PlainFor P w) {v n : WStr} (hv : ∀ c ∈ v, c ∈ w)
    (h : BertNormalized P clean cjk strip lower v n) : (v ≠ [] → n ≠ []) ∧ Bmp n := by
  obtain ⟨a, b, c, h1, h2, h3, rfl⟩ := h
  have s1 : (v ≠ [] → a ≠ []) ∧ ∀ c ∈ a, c ∈ w ∨ c = 0x20 := by
    cases clean with
    | false => simp only [Bool.false_eq_true, if_false] at h1; subst h1; exact ⟨id, fun c hc => .inl (hv c hc)⟩
    | true =>
      simp only [if_true] at h1
      clear h2
      induction h1 with
      | nil => exact ⟨id, fun c hc => by cases hc⟩
      | dropped hd _ _ => exact absurd hd (hw.chars _ (hv _ (by simp))).2.2.1
      | spaced _ _ _ ih =>
        refine ⟨fun _ => by simp, fun c hc => ?_⟩
        simp only [List.mem_cons] at hc
        rcases hc with rfl | hc
        · exact .inr rfl
        · exact (ih fun c hc => hv c (by simp [hc])).2 c hc
      | kept _ _ _ ih =>
        refine ⟨fun _ => by simp, fun c hc => ?_⟩
        simp only [List.mem_cons] at hc
        rcases hc with rfl | hc
        · exact .inl (hv _ (by simp))
        · exact (ih fun c hc => hv c (by simp [hc])).2 c hc
  have s0 := s1
  have s2 : (a ≠ [] → b ≠ []) ∧ ∀ c ∈ b, c ∈ w ∨ c = 0x20 := by
    clear s0
    obtain ⟨-, s1⟩ := s1
    cases cjk with
    | false => simp only [Bool.false_eq_true, if_false] at h2; subst h2; exact ⟨id, s1⟩
    | true =>
      simp only [if_true] at h2
      clear h1 h3
      induction h2 with
      | nil => exact ⟨id, fun c hc => by cases hc⟩
      | cjk _ _ ih =>
        refine ⟨fun _ => by simp, fun c hc => ?_⟩
        simp only [List.mem_cons] at hc
        rcases hc with rfl | rfl | rfl | hc
        · exact .inr rfl
        · exact s1 _ (by simp)
        · exact .inr rfl
        · exact (ih fun c hc => s1 c (by simp [hc])).2 c hc
      | other _ _ ih =>
        refine ⟨fun _ => by simp, fun c hc => ?_⟩
        simp only [List.mem_cons] at hc
        rcases hc with rfl | hc
        · exact s1 _ (by simp)
        · exact (ih fun c hc => s1 c (by simp [hc])).2 c hc
  have e : c = b := by
    by_cases hs : (strip || lower) = true
    · rw [if_pos hs] at h3
      have hsan : b.map sanitize = b := by
        conv => rhs; rw [← List.map_id b]
        refine List.map_congr_left fun x hx => ?_
        have : Scalar x := by
          rcases s2.2 x hx with h | rfl
          · exact (hw.chars x h).1
          · unfold Scalar; decide
        unfold sanitize
        rw [if_pos]
        · rfl
        · unfold Scalar at this; unfold isScalar; simp; omega
      rw [h3, hsan, hw.nfd b s2.2, List.filter_eq_self]
      intro x hx
      rcases s2.2 x hx with h | rfl
      · rw [(hw.chars x h).2.2.2.1]; rfl
      · rw [hP.accent]; rfl
    · rw [if_neg hs] at h3
      exact h3
  subst e
  refine ⟨fun h => ?_, ?_⟩
  · have := s2.1 (s0.1 h)
    split
    · simpa using this
    · exact this
  · intro x hx
    have sp : Scalar 0x20 ∧ 0x20 < 0x10000 := by unfold Scalar; decide
    split at hx
    · rw [List.mem_map] at hx
      obtain ⟨y, hy, rfl⟩ := hx
      rcases s2.2 y hy with h | rfl
      · exact (hw.chars y h).2.2.2.2
      · rw [hP.lower]; exact sp
    · rcases s2.2 x hx with h | rfl
      · exact ⟨(hw.chars x h).1, (hw.chars x h).2.1⟩
      · exact sp

/-- What C112 assumes holds for BERT normalization, any options, of texts of plain characters. -/
theorem C112_bert {P : Platform} (hP : SpaceSafe P) {t : Tokenizer} {clean cjk strip lower : Bool} (hn : t.normalizer = some (.bert clean cjk strip lower))
    (hf : ∀ a, t.added = some a → FlagFree a) {w : WStr} (hw : PlainFor P w) : ChunkSafe P t w := by
  intro a ha
  rw [hn]
  have part : ∀ {l v r n : WStr}, w = l ++ v ++ r → Normalizes P (some (.bert clean cjk strip lower)) v n → (v ≠ [] → n ≠ []) ∧ Bmp n := by
    intro l v r n e h
    cases h with
    | bert h => exact ck_plain hP hw (fun c hc => by rw [e]; simp [hc]) h
  exact ⟨hf a ha, C112_normalizers hP _ (by rintro n ⟨⟩; exact .bert), fun c hc => ⟨(hw.chars c hc).1, (hw.chars c hc).2.1⟩,
    fun l v r n e hv h => (part e h).1 hv, fun l v r n e h => (part e h).2⟩

/-- The same without a normalizer, for every text up to U+FFFF. -/
theorem C112_plain {P : Platform} {t : Tokenizer} (hn : t.normalizer = none) (hf : ∀ a, t.added = some a → FlagFree a) {w : WStr} (hw : Bmp w) :
    ChunkSafe P t w := by
  intro a ha
  rw [hn]
  refine ⟨hf a ha, ⟨rfl, ?_⟩, hw, ?_, ?_⟩
  · intro x y nx ny hx hy
    unfold Normalizes at hx hy ⊢
    simp only at hx hy ⊢
    rw [hx, hy]
  · intro l v r n _ hv h
    unfold Normalizes at h
    simp only at h
    rw [h]; exact hv
  · intro l v r n e h
    unfold Normalizes at h
    simp only at h
    subst h
    intro c hc
    exact hw c (by rw [e]; simp [hc])

/-! ### The hypotheses are met -/

theorem ck_ascii_space : SpaceSafe spacePlatform where
  control := rfl
  space := rfl
  accent := rfl
  lower := rfl
  empty := fun _ => rfl
  forms := fun _ _ _ => rfl

theorem ck_ascii_plain : PlainFor spacePlatform w!"HELLOs [X] B \u4e2d!" where
  chars := by unfold Scalar Dropped; decide +kernel
  nfd := fun _ _ => rfl

/-- What C112 assumes holds for a BERT tokenizer and a text with an added token, capital letters and an ideograph. -/
example : ChunkSafe spacePlatform (uncasedTk true true true true) (spaced [w!"HELLOs [X]", w!"B \u4e2d!"]) ∧ BertFirst .bert ∧ GoodRegexes spacePlatform ∧
    (∀ a, (uncasedTk true true true true).added = some a → PlainTables a) :=
  ⟨C112_bert ck_ascii_space rfl (fun a h => by cases h; intro i t h; cases h) ck_ascii_plain, .bert, pl_space_good, fun a h => by cases h; exact ps_plain⟩

example : ((uncasedTk true true true true).encode spacePlatform w!"HELLOs [X]" true).1.map (·.ids) = .ok [1, 2, 4] ∧
    ((uncasedTk true true true true).encode spacePlatform w!"B \u4e2d!" true).1.map (·.ids) = .ok [5, 3, 0] ∧
    ((uncasedTk true true true true).encode spacePlatform w!"HELLOs [X] B \u4e2d!" true).1.map (·.ids) = .ok [1, 2, 4, 5, 3, 0] := by
  refine ⟨?_, ?_, ?_⟩ <;> decide +kernel

/-- Without pre-tokenization texts are not encoded part by part. -/
theorem C112_violated : ∃ (t : Tokenizer) (w w' : WStr), t.preTokenizer = none ∧
    (t.encode ascii w true).1.map (·.ids) = .ok [3] ∧ (t.encode ascii w' true).1.map (·.ids) = .ok [1] ∧
    (t.encode ascii (w ++ 0x20 :: w') true).1.map (·.ids) = .ok [0] := by
  refine ⟨tkOf [(b!"[UNK]", 0), (b!"hi", 3), (b!"ho", 1)], w!"hi", w!"ho", rfl, ?_, ?_, ?_⟩ <;> decide +kernel

/-- Nor are they when the text is cut to a length. -/
theorem C112_violated_length : ∃ (t : Tokenizer) (w w' : WStr), t.truncation ≠ none ∧ t.preTokenizer = some .bert ∧
    (t.encode ascii w true).1.map (·.ids) = .ok [3] ∧ (t.encode ascii w' true).1.map (·.ids) = .ok [1] ∧
    (t.encode ascii (w ++ 0x20 :: w') true).1.map (·.ids) = .ok [3] := by
  refine ⟨{ tkOf [(b!"[UNK]", 0), (b!"hi", 3), (b!"ho", 1)] with preTokenizer := some .bert, truncation := some ⟨.right, .longestFirst, 1, 0⟩ }, w!"hi", w!"ho", by simp, rfl, ?_, ?_, ?_⟩ <;> decide +kernel

end Tok
