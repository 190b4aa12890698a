import Verif.Proofs.BPE

set_option autoImplicit false

/-!
From the loop to words: the symbols of a text, the initial state of the loop, and what
`merge_all` returns.
-/

namespace Tok

/-- The vector that `Word::add` builds for a list of (id, length), from index `i`. -/
def chain : Nat → List (Int × Nat) → List Symbol
  | _, [] => []
  | i, [p] => [⟨p.1, (i : Int) - 1, -1, p.2⟩]
  | i, p :: q :: r => ⟨p.1, (i : Int) - 1, (i : Int) + 1, p.2⟩ :: chain (i + 1) (q :: r)

/-- The cells of a list of (id, length), from position `i`. -/
def cells : Nat → List (Int × Nat) → List Cell
  | _, [] => []
  | i, p :: r => ⟨i, p.1, p.2⟩ :: cells (i + 1) r

theorem chain_length (i : Nat) (l : List (Int × Nat)) : (chain i l).length = l.length := by
  induction l generalizing i with
  | nil => rfl
  | cons p r ih => cases r with
    | nil => rfl
    | cons q r => simp [chain, ih]

theorem cells_length (i : Nat) (l : List (Int × Nat)) : (cells i l).length = l.length := by
  induction l generalizing i with
  | nil => rfl
  | cons p r ih => simp [cells, ih]

theorem chain_snoc (l : List (Int × Nat)) (hl : l ≠ []) : ∀ (i : Nat) (c : Int) (n : Nat),
    chain i (l ++ [(c, n)]) =
      (chain i l).modify (l.length - 1) (fun s => { s with next := ((i + l.length : Nat) : Int) }) ++
        [⟨c, ((i + l.length : Nat) : Int) - 1, -1, n⟩] := by
  induction l with
  | nil => exact absurd rfl hl
  | cons p r ih =>
    intro i c n
    cases r with
    | nil => simp [chain]
    | cons q r =>
      have := ih (by simp) (i + 1) c n
      simp only [List.cons_append, chain] at this ⊢
      rw [this]
      simp only [List.length_cons, Nat.add_sub_cancel, List.modify_succ_cons, List.cons_append]
      have e1 : i + 1 + (r.length + 1) = i + (r.length + 1 + 1) := by omega
      rw [e1]

theorem wordAdd_chain (l : List (Int × Nat)) (c : Int) (n : Nat) :
    wordAdd (chain 0 l) c n = chain 0 (l ++ [(c, n)]) := by
  by_cases hl : l = []
  · subst hl; rfl
  · rw [chain_snoc l hl 0 c n]
    have hne : chain 0 l ≠ [] := by
      intro h; have := chain_length 0 l; rw [h] at this; simp at this; exact hl (List.length_eq_zero_iff.1 this.symm)
    unfold wordAdd
    split
    · rename_i h; exact absurd h hne
    · simp only [chain_length, Nat.zero_add]

theorem foldl_wordAdd (xs l : List (Int × Nat)) :
    xs.foldl (fun w p => wordAdd w p.1 p.2) (chain 0 l) = chain 0 (l ++ xs) := by
  induction xs generalizing l with
  | nil => simp
  | cons x xs ih => simp only [List.foldl_cons, wordAdd_chain]; rw [ih]; simp

theorem chain_linked (l : List (Int × Nat)) : ∀ (i : Nat) (syms : List Symbol),
    (∀ j, j < l.length → syms[i + j]? = (chain i l)[j]?) → Linked syms ((i : Int) - 1) (cells i l) (-1) := by
  induction l with
  | nil => intro i syms _; trivial
  | cons p r ih =>
    intro i syms h
    simp only [cells, Linked]
    have h0 := h 0 (by simp)
    cases r with
    | nil => exact ⟨by simpa [chain, headPos, cells] using h0, trivial⟩
    | cons q r =>
      refine ⟨by simpa [chain, headPos, cells] using h0, ?_⟩
      have := ih (i + 1) syms (by
        intro j hj
        have := h (j + 1) (by simp at hj ⊢; omega)
        simp only [chain, List.getElem?_cons_succ] at this
        rw [← this]; congr 1; omega)
      have e : (((i + 1 : Nat) : Int) - 1) = (i : Int) := by omega
      rw [e] at this; exact this

theorem cells_pos (l : List (Int × Nat)) : ∀ (i : Nat) (x : Cell), x ∈ cells i l ↔
    ∃ j, ∃ p, l[j]? = some p ∧ x = ⟨i + j, p.1, p.2⟩ := by
  induction l with
  | nil => intro i x; simp [cells]
  | cons p r ih =>
    intro i x
    simp only [cells, List.mem_cons, ih]
    constructor
    · rintro (rfl | ⟨j, q, h1, rfl⟩)
      · exact ⟨0, p, rfl, rfl⟩
      · exact ⟨j + 1, q, by simpa using h1, by congr 1; omega⟩
    · rintro ⟨j, q, h1, rfl⟩
      cases j with
      | zero => simp at h1; subst h1; exact .inl rfl
      | succ j => exact .inr ⟨j, q, by simpa using h1, by congr 1; omega⟩

theorem cells_sorted (l : List (Int × Nat)) : ∀ i, (cells i l).Pairwise fun x y => x.pos < y.pos := by
  induction l with
  | nil => intro i; exact List.Pairwise.nil
  | cons p r ih =>
    intro i
    simp only [cells, List.pairwise_cons]
    refine ⟨?_, ih (i + 1)⟩
    intro x hx
    obtain ⟨j, q, _, rfl⟩ := (cells_pos r (i + 1) x).1 hx
    simp only; omega

theorem chain_rep (l : List (Int × Nat)) (hpos : ∀ p ∈ l, 0 < p.2) : Rep (chain 0 l) (cells 0 l) := by
  refine ⟨?_, cells_sorted l 0, ?_, ?_⟩
  · have := chain_linked l 0 (chain 0 l) (by intro j _; rw [Nat.zero_add])
    simpa using this
  · intro x hx
    obtain ⟨j, p, h1, rfl⟩ := (cells_pos l 0 x).1 hx
    exact hpos p (List.mem_of_getElem? h1)
  · intro i s hs _
    have hi : i < l.length := by
      rcases Nat.lt_or_ge i l.length with h | h
      · exact h
      · rw [List.getElem?_eq_none (by rw [chain_length]; exact h)] at hs; cases hs
    exact ⟨_, (cells_pos l 0 _).2 ⟨i, l[i], List.getElem?_eq_getElem hi, rfl⟩, by simp⟩

/-! ### The initial queue -/

theorem chain_c (l : List (Int × Nat)) : ∀ i, (chain i l).map (fun s => (s.c, s.len)) = l := by
  induction l with
  | nil => intro i; rfl
  | cons p r ih => intro i; cases r with
    | nil => rfl
    | cons q r => simp only [chain, List.map_cons, ih]

theorem initQueue_spec (P : Platform) (merges : Merges) (w : List Symbol) : ∀ (i : Nat) (q : List Merge),
    P.pq.inv q → P.pq.inv (initQueue P merges i w q) ∧
    (initQueue P merges i w q).length ≤ q.length + (w.length - 1) ∧
    ∀ m, m ∈ initQueue P merges i w q ↔ m ∈ q ∨ ∃ A a b B, w = A ++ a :: b :: B ∧ m.pos = i + A.length ∧
      mapFind merges (a.c, b.c) = some (m.rank, m.newId) := by
  induction w with
  | nil => intro i q hq; refine ⟨hq, by simp [initQueue], fun m => ?_⟩; simp [initQueue]
  | cons a w ih =>
    intro i q hq
    cases w with
    | nil =>
      refine ⟨hq, by simp [initQueue], fun m => ?_⟩
      simp only [initQueue]
      constructor
      · exact .inl
      · rintro (h | ⟨A, a', b', B, h, _⟩)
        · exact h
        · cases A <;> simp at h
    | cons b r =>
      obtain ⟨p1, p2⟩ := pushPair_spec P merges q i a.c b.c hq
      obtain ⟨h1, h2, h3⟩ := ih (i + 1) (pushPair P merges q i a.c b.c) p1
      have hl := p2.length_eq
      have hc := cand_length merges i a.c b.c
      rw [List.length_append] at hl
      refine ⟨h1, by simp only [initQueue, List.length_cons] at h2 ⊢; omega, fun m => ?_⟩
      simp only [initQueue]
      rw [h3, p2.mem_iff, List.mem_append]
      constructor
      · rintro ((h | h) | ⟨A, a', b', B, e, hp, hm⟩)
        · obtain ⟨g1, g2⟩ := cand_mem h
          exact .inr ⟨[], a, b, r, rfl, by simp [g1], g2⟩
        · exact .inl h
        · exact .inr ⟨a :: A, a', b', B, by rw [e]; rfl, by simp; omega, hm⟩
      · rintro (h | ⟨A, a', b', B, e, hp, hm⟩)
        · exact .inl (.inr h)
        · cases A with
          | nil =>
            simp at e hp
            obtain ⟨rfl, rfl, rfl⟩ := e
            left; left
            rw [cand_of hm, ← hp]; simp
          | cons x A =>
            simp at e hp
            exact .inr ⟨A, a', b', B, e.2, by omega, hm⟩

theorem cells_split {l : List (Int × Nat)} : ∀ {i : Nat} {A B : List Cell} {x y : Cell},
    cells i l = A ++ x :: y :: B →
    ∃ L R p q, l = L ++ p :: q :: R ∧ A = cells i L ∧ x = ⟨i + L.length, p.1, p.2⟩ ∧
      y = ⟨i + L.length + 1, q.1, q.2⟩ ∧ B = cells (i + L.length + 2) R := by
  induction l with
  | nil => intro i A B x y h; cases A <;> simp [cells] at h
  | cons p r ih =>
    intro i A B x y h
    cases A with
    | nil =>
      simp only [cells, List.nil_append, List.cons.injEq] at h
      obtain ⟨rfl, h⟩ := h
      cases r with
      | nil => simp [cells] at h
      | cons q r =>
        simp only [cells, List.cons.injEq] at h
        obtain ⟨rfl, rfl⟩ := h
        exact ⟨[], r, p, q, rfl, rfl, rfl, rfl, rfl⟩
    | cons a A =>
      simp only [cells, List.cons_append, List.cons.injEq] at h
      obtain ⟨rfl, h⟩ := h
      obtain ⟨L, R, u, v, e1, e2, e3, e4, e5⟩ := ih h
      refine ⟨p :: L, R, u, v, by rw [e1]; rfl, by rw [e2]; rfl, ?_, ?_, ?_⟩
      · rw [e3]; congr 1; simp; omega
      · rw [e4]; congr 1; simp; omega
      · rw [e5]; congr 1; simp; omega

/-- The ids and lengths of cells. -/
def bare (l : List Cell) : List (Int × Nat) := l.map fun x => (x.c, x.len)

theorem bare_cells (i : Nat) (l : List (Int × Nat)) : bare (cells i l) = l := by
  induction l generalizing i with
  | nil => rfl
  | cons p r ih => simp only [cells, bare, List.map_cons]; exact congrArg _ (ih (i + 1))

/-- The state in which the loop starts. -/
theorem pr_inv (P : Platform) (merges : Merges) (d : Dropout) (l : List (Int × Nat)) (hne : l ≠ []) (hpos : ∀ p ∈ l, 0 < p.2) :
    LoopInv P merges d l.length (3 * l.length) (cells 0 l)
      { syms := chain 0 l, queue := initQueue P merges 0 (chain 0 l) [], skip := [], drawn := 0 } (cells 0 l) := by
  have hlen := chain_length 0 l
  obtain ⟨q1, q2, q3⟩ := initQueue_spec P merges (chain 0 l) 0 [] P.pq.inv_nil
  have hlpos : 0 < l.length := List.length_pos_iff.2 hne
  refine ⟨chain_rep l hpos, hlen, q1, ?_, ?_, ?_, fun _ => rfl, ?_, .refl _⟩
  · intro m hm
    simp only [List.append_nil] at hm
    rcases (q3 m).1 hm with h | ⟨A, a, b, B, e, hp, _⟩
    · simp at h
    · have : (chain 0 l).length = A.length + B.length + 2 := by rw [e]; simp; omega
      omega
  · intro m hm
    simp only [List.append_nil] at hm
    rcases (q3 m).1 hm with h | ⟨A, a, b, B, e, hp, hm⟩
    · simp at h
    · exact ⟨_, hm⟩
  · intro pos newId A x y B rank hm
    simp only [List.append_nil]
    rw [q3]
    right
    obtain ⟨L, R, p, q, e1, e2, e3, e4, e5⟩ := cells_split hm.eq
    -- the corresponding symbols
    have hc := chain_c l 0
    rw [e1, List.map_eq_append_iff] at hc
    obtain ⟨W1, W2, g1, g2, g3⟩ := hc
    rw [List.map_eq_cons_iff] at g3
    obtain ⟨a, W3, rfl, g4, g5⟩ := g3
    rw [List.map_eq_cons_iff] at g5
    obtain ⟨b, W4, rfl, g6, g7⟩ := g5
    refine ⟨W1, a, b, W4, by rw [e1]; exact g1, ?_, ?_⟩
    · have hL : W1.length = L.length := by rw [← g2]; simp
      rw [← hm.at_pos, e3]; simp [hL]
    · have h1 := hm.listed
      have ha : a.c = x.c := by rw [e3, ← g4]
      have hb : b.c = y.c := by rw [e4, ← g6]
      rw [ha, hb]; exact h1
  · simp only [cells_length, List.length_nil]
    simp only [List.length_nil, hlen] at q2
    omega

/-- What `merge_all` returns. -/
theorem mergeAll_spec (P : Platform) (merges : Merges) (d : Dropout) (l : List (Int × Nat)) (hne : l ≠ [])
    (hpos : ∀ p ∈ l, 0 < p.2) (hn : l.length < 2 ^ 31) :
    ∃ out live, mergeAll P merges d (chain 0 l) = .ok out ∧ out.map (fun s => (s.c, s.len)) = bare live ∧
      Trace merges d (cells 0 l) live ∧ (∀ x ∈ live, 0 < x.len) ∧
      (d.on = false → ∀ r, ¬ Applicable merges live r) := by
  have hlen := chain_length 0 l
  obtain ⟨q1, q2, q3⟩ := initQueue_spec P merges (chain 0 l) 0 [] P.pq.inv_nil
  have hlpos : 0 < l.length := List.length_pos_iff.2 hne
  have hinv := pr_inv P merges d l hne hpos
  obtain ⟨st', live', h1, h2, h3⟩ := mergeLoop_spec hn (mergeFuel l.length) hinv (by
    simp only [loopMeasure, cells_length, List.length_nil, mergeFuel]
    simp only [List.length_nil, hlen] at q2
    have h1 : 2 * l.length + (initQueue P merges 0 (chain 0 l) []).length + 0 ≤ 3 * l.length := by omega
    have h2 := Nat.mul_le_mul_right (3 * l.length + 1) h1
    have h3 : (4 * l.length + 1) * (4 * l.length + 1) =
        3 * l.length * (3 * l.length + 1) + (7 * (l.length * l.length) + 5 * l.length + 1) := by
      generalize l.length = k
      have e1 : (4 * k + 1) * (4 * k + 1) = 16 * (k * k) + 8 * k + 1 := by
        rw [Nat.add_mul, Nat.mul_add, Nat.mul_assoc, Nat.mul_left_comm k 4 k]; omega
      have e2 : 3 * k * (3 * k + 1) = 9 * (k * k) + 3 * k := by
        rw [Nat.mul_add, Nat.mul_assoc, Nat.mul_left_comm k 3 k]; omega
      omega
    omega)
  refine ⟨st'.syms.filter fun s => s.len ≠ 0, live', ?_, ?_, h2.trace, h2.rep.pos, ?_⟩
  · have : chain 0 l ≠ [] := by
      intro h; rw [h] at hlen; simp at hlen; omega
    unfold mergeAll
    split
    · rename_i h; exact absurd h this
    · rw [hlen, h1]; rfl
  · exact rep_filter h2.rep
  · intro hoff r happ
    obtain ⟨pos, newId, A, x, y, B, hm⟩ := happ
    have := h2.complete _ _ _ _ _ _ _ hm
    rw [h3, h2.noSkip hoff] at this
    simp at this

end Tok
