import Verif.Proofs.Added
import Verif.Proofs.Split
import Verif.Proofs.BPETable

set_option autoImplicit false

namespace Tok
open Spec

/-! ### The scan -/

theorem scan_ordered (ids : List (Str × Int)) (u : U16) (rest : U16) : ∀ (i cur : Nat), cur ≤ i →
    i + rest.length = u.length → ∀ c ≤ cur,
    Ordered u.length c ((scan ids u rest i cur).map fun m => (m.1, m.2.1)) := by
  induction rest with
  | nil =>
    intro i cur hci hl c hc
    simp only [List.length_nil, Nat.add_zero] at hl
    simp only [scan]
    split
    · split
      · simp only [List.map_cons, List.map_nil, Ordered]; omega
      · simp only [List.map_nil, Ordered]; omega
    · simp only [List.map_nil, Ordered]; omega
  | cons x r ih =>
    intro i cur hci hl c hc
    simp only [List.length_cons] at hl
    simp only [scan]
    split
    · simp only [List.map_cons, Ordered]
      refine ⟨hc, hci, ?_⟩
      refine ih _ _ ?_ (by omega) i ?_ <;> split <;> omega
    · refine ih _ _ ?_ (by omega) c ?_ <;> split <;> omega

/-- The text of every match is an entry of the table. -/
theorem scan_text (ids : List (Str × Int)) (u : U16) (rest : U16) : ∀ (i cur : Nat),
    ∀ m ∈ scan ids u rest i cur,
      mapFind ids (toUTF8String (tempSubString u m.1 (m.2.1 - m.1))) = some m.2.2 := by
  induction rest with
  | nil =>
    intro i cur m hm
    simp only [scan] at hm
    split at hm
    · split at hm
      · rename_i h
        simp only [List.mem_singleton] at hm
        subst hm; exact h
      · cases hm
    · cases hm
  | cons x r ih =>
    intro i cur m hm
    simp only [scan] at hm
    split at hm
    · rename_i h
      rcases List.mem_cons.1 hm with rfl | hm
      · exact h
      · exact ih _ _ m hm
    · exact ih _ _ m hm

/-- No match contains a space. -/
theorem scan_space (ids : List (Str × Int)) (u : U16) (rest : U16) : ∀ (i cur : Nat), cur ≤ i →
    u.drop i = rest → (∀ j, cur ≤ j → j < i → u[j]? ≠ some 0x20) →
    ∀ m ∈ scan ids u rest i cur, ∀ j, m.1 ≤ j → j < m.2.1 → u[j]? ≠ some 0x20 := by
  induction rest with
  | nil =>
    intro i cur hci hd hns m hm
    simp only [scan] at hm
    split at hm
    · split at hm
      · simp only [List.mem_singleton] at hm
        subst hm; exact hns
      · cases hm
    · cases hm
  | cons x r ih =>
    intro i cur hci hd hns m hm
    have hx : u[i]? = some x := by
      have := congrArg (·[0]?) hd
      simpa [List.getElem?_drop] using this
    have hd' : u.drop (i + 1) = r := by
      have := congrArg (List.drop 1) hd
      simpa [List.drop_drop] using this
    simp only [scan] at hm
    split at hm
    · rcases List.mem_cons.1 hm with rfl | hm
      · exact hns
      · refine ih _ _ ?_ hd' ?_ m hm
        · split <;> omega
        · intro j h1 h2
          by_cases hsp : x = 0x20
          · rw [if_pos hsp] at h1; omega
          · rw [if_neg hsp] at h1
            have : j = i := by omega
            subst this; rw [hx]; simpa using hsp
    · refine ih _ _ ?_ hd' ?_ m hm
      · split <;> omega
      · intro j h1 h2
        by_cases hsp : x = 0x20
        · rw [if_pos hsp] at h1; omega
        · rw [if_neg hsp] at h1
          by_cases hji : j = i
          · subst hji; rw [hx]; simpa using hsp
          · exact hns j h1 (by omega)

/-! ### Segments -/

theorem spaceLeftmost_le (s : Str) : spaceLeftmostAtEnd s ≤ s.length := by
  unfold spaceLeftmostAtEnd; omega

theorem takeWhile_length_le' {α : Type} (p : α → Bool) (l : List α) : (l.takeWhile p).length ≤ l.length := by
  induction l with
  | nil => simp
  | cons x r ih =>
    simp only [List.takeWhile_cons]
    split
    · simp; exact ih
    · simp

theorem takeWhile_get {α : Type} (p : α → Bool) (l : List α) : ∀ j, j < (l.takeWhile p).length →
    ∃ x, l[j]? = some x ∧ p x = true := by
  induction l with
  | nil => intro j h; simp at h
  | cons x r ih =>
    intro j h
    simp only [List.takeWhile_cons] at h
    split at h
    · rename_i hx
      cases j with
      | zero => exact ⟨x, by simp, hx⟩
      | succ j =>
        simp only [List.length_cons] at h
        simpa using ih j (by omega)
    · simp at h

/-- The condition under which the segments tile the text. -/
def SegCond (mapR : List (Int × AddedToken)) (sentence : Str) (total : Nat) (ms : List (Nat × Nat × Int)) : Prop :=
  total ≤ sentence.length ∧
  ((∀ i, ((mapFind mapR i).getD {}).lstrip = false ∧ ((mapFind mapR i).getD {}).rstrip = false) ∨
   (total = sentence.length ∧ ∀ m ∈ ms, m.1 < m.2.1 ∧ ∀ c, sentence[m.1]? = some c → isspaceC c = false))

theorem wordOk_ok (t : AddedToken) (s : Str) (start stop : Nat) (h : stop ≤ s.length) :
    ∃ b, wordOk t s start stop = .ok b := by
  unfold wordOk
  split
  · simp only [substrFrom, if_pos h]
    split
    · exact ⟨_, rfl⟩
    · exact ⟨_, rfl⟩
  · exact ⟨_, rfl⟩

/-- What a segment made of a match is. -/
def SegOf (mapR : List (Int × AddedToken)) (s : Str) (ms : List (Nat × Nat × Int)) (g : TSeg) : Prop :=
  g.1 = none ∨ ∃ m ∈ ms, g.1 = some m.2.2 ∧ g.2.1 ≤ m.1 ∧ m.2.1 ≤ g.2.2 ∧
    (((mapFind mapR m.2.2).getD {}).lstrip = false → g.2.1 = m.1) ∧
    (((mapFind mapR m.2.2).getD {}).rstrip = false → g.2.2 = m.2.1) ∧
    (∀ j, g.2.1 ≤ j → j < m.1 → ∃ c, s[j]? = some c ∧ isspaceC c = true) ∧
    (∀ j, m.2.1 ≤ j → j < g.2.2 → ∃ c, s[j]? = some c ∧ isspaceC c = true)

theorem matchSegs_tiles (mapR : List (Int × AddedToken)) (s : Str) (total : Nat) (ms : List (Nat × Nat × Int)) :
    ∀ start, SegCond mapR s total ms → Ordered total start (ms.map fun m => (m.1, m.2.1)) →
    ∃ segs, matchSegs mapR s total ms start = .ok segs ∧ Tiles start (segs.map (·.2)) total ∧
      ∀ g ∈ segs, SegOf mapR s ms g := by
  induction ms with
  | nil =>
    intro start _ ho
    simp only [List.map_nil, Ordered] at ho
    refine ⟨_, rfl, ?_, ?_⟩
    · split
      · simp [Tiles]; exact ho
      · rename_i h; simp only [List.map_nil, Tiles]; omega
    · intro g hg
      split at hg
      · simp only [List.mem_singleton] at hg; subst hg; exact .inl rfl
      · cases hg
  | cons m r ih =>
    intro start hc ho
    obtain ⟨a, b, id⟩ := m
    simp only [List.map_cons, Ordered] at ho
    obtain ⟨hsa, hab, ho⟩ := ho
    have hb : b ≤ total := Ordered.le ho
    have hcr : SegCond mapR s total r := by
      refine ⟨hc.1, ?_⟩
      rcases hc.2 with h | ⟨h1, h2⟩
      · exact .inl h
      · exact .inr ⟨h1, fun m hm => h2 m (by simp [hm])⟩
    have lift : ∀ {g}, SegOf mapR s r g → SegOf mapR s ((a, b, id) :: r) g := by
      rintro g (h | ⟨m, hm, h⟩)
      · exact .inl h
      · exact .inr ⟨m, by simp [hm], h⟩
    obtain ⟨ok, hok⟩ := wordOk_ok ((mapFind mapR id).getD {}) s a b (by have := hc.1; omega)
    simp only [matchSegs, hok, res_ok_bind]
    cases ok with
    | false =>
      simp only [Bool.false_eq_true, if_false]
      obtain ⟨segs, h1, h2, h3⟩ := ih start hcr (by
        cases r with
        | nil => simp only [List.map_nil, Ordered] at ho ⊢; omega
        | cons x r => simp only [List.map_cons, Ordered] at ho ⊢; exact ⟨by omega, ho.2⟩)
      exact ⟨segs, h1, h2, fun g hg => lift (h3 g hg)⟩
    | true =>
      simp only [if_true]
      generalize hT : (mapFind mapR id).getD {} = t
      -- the new start
      have hstart : ∃ a', (if t.lstrip = true then max (spaceLeftmostAtEnd (s.take a)) start else a) = a' ∧
          start ≤ a' ∧ a' ≤ a ∧ (t.lstrip = false → a' = a) ∧
          (∀ j, a' ≤ j → j < a → ∃ c, s[j]? = some c ∧ isspaceC c = true) := by
        refine ⟨_, rfl, ?_⟩
        have h1 := spaceLeftmost_le (s.take a)
        have h2 : (s.take a).length = a := by have := hc.1; simp; omega
        split
        · rename_i h
          refine ⟨by omega, by omega, by simp [h], ?_⟩
          intro j hj1 hj2
          obtain ⟨c, hc1, hc2⟩ := takeWhile_get isspaceC (s.take a).reverse (a - 1 - j) (by
            unfold spaceLeftmostAtEnd at hj1; rw [h2] at hj1; omega)
          refine ⟨c, ?_, hc2⟩
          rw [List.getElem?_reverse (by omega), h2] at hc1
          have e : a - 1 - (a - 1 - j) = j := by omega
          rw [e, List.getElem?_take] at hc1
          simpa [hj2] using hc1
        · exact ⟨hsa, Nat.le_refl _, fun _ => rfl, fun j _ _ => by omega⟩
      obtain ⟨a', ha', hsa', haa', hal, hbl⟩ := hstart
      -- the new stop
      have hstop : ∃ b', (t.rstrip = true → substrFrom s b = .ok (s.drop b) ∧
            b + spaceRightmostAtStart (s.drop b) = b') ∧ b ≤ b' ∧
          (t.rstrip = false → b' = b) ∧ Ordered total b' (r.map fun m => (m.1, m.2.1)) ∧
          (∀ j, b ≤ j → j < b' → ∃ c, s[j]? = some c ∧ isspaceC c = true) := by
        by_cases hr : t.rstrip = true
        · rcases hc.2 with h | ⟨h1, h2⟩
          · have := (h id).2; rw [hT, hr] at this; cases this
          · refine ⟨_, fun _ => ⟨by simp only [substrFrom, if_pos (show b ≤ s.length by omega)], rfl⟩, by omega,
              by simp [hr], ?_, ?_⟩
            rotate_left
            · intro j hj1 hj2
              obtain ⟨c, hc1, hc2⟩ := takeWhile_get isspaceC (s.drop b) (j - b) (by
                unfold spaceRightmostAtStart at hj2; omega)
              rw [List.getElem?_drop] at hc1
              have e : b + (j - b) = j := by omega
              rw [e] at hc1
              exact ⟨c, hc1, hc2⟩
            have hlen : spaceRightmostAtStart (s.drop b) ≤ s.length - b := by
              unfold spaceRightmostAtStart
              have := takeWhile_length_le' isspaceC (s.drop b)
              simpa using this
            cases r with
            | nil => simp only [List.map_nil, Ordered]; omega
            | cons x r =>
              simp only [List.map_cons, Ordered] at ho ⊢
              refine ⟨?_, ho.2⟩
              have hx := h2 x (by simp)
              have hxl : x.2.1 ≤ total := Ordered.le ho.2.2
              -- the start of the next match is not blank
              refine Nat.le_of_not_lt fun hlt => ?_
              obtain ⟨c, hc1, hc2⟩ := takeWhile_get isspaceC (s.drop b) (x.1 - b) (by
                unfold spaceRightmostAtStart at hlt; omega)
              rw [List.getElem?_drop] at hc1
              have : b + (x.1 - b) = x.1 := by omega
              rw [this] at hc1
              rw [hx.2 c hc1] at hc2; cases hc2
        · exact ⟨b, fun h => absurd h hr, Nat.le_refl _, fun _ => rfl, ho, fun j _ _ => by omega⟩
      obtain ⟨b', hb', hbb', hbr, ho', hbb⟩ := hstop
      obtain ⟨segs, h1, h2, h3⟩ := ih b' hcr ho'
      refine ⟨(if start < a' then [(none, (start, a'))] else []) ++ (some id, (a', b')) :: segs, ?_, ?_, ?_⟩
      · rw [ha']
        by_cases hr : t.rstrip = true
        · rw [if_pos hr, (hb' hr).1, res_ok_bind, res_pure, res_ok_bind, (hb' hr).2, h1]; rfl
        · have := hbr (by simpa using hr)
          subst this
          rw [if_neg hr, res_pure, res_ok_bind, h1]; rfl
      · split
        · simp only [List.cons_append, List.nil_append, List.map_cons, Tiles]
          exact ⟨trivial, by omega, trivial, by omega, h2⟩
        · simp only [List.nil_append, List.map_cons, Tiles]
          exact ⟨by omega, by omega, h2⟩
      · intro g hg
        rcases List.mem_append.1 hg with hg | hg
        · split at hg
          · simp only [List.mem_singleton] at hg; subst hg; exact .inl rfl
          · cases hg
        · rcases List.mem_cons.1 hg with rfl | hg
          · exact .inr ⟨(a, b, id), by simp, rfl, haa', hbb', by simpa [hT] using hal, by simpa [hT] using hbr, hbl, hbb⟩
          · exact lift (h3 g hg)

end Tok
