import Verif.Proofs.BPETokens
import Verif.Spec.Lengthens

set_option autoImplicit false

/-!
The loop of `merge_all` applies the merge of greatest rank at every step, if merges make pieces longer: an entry of the queue that is out of date is
never mistaken for a merge of another pair with the same result.
-/

namespace Tok
open Spec

/-- What the proof needs of the table. -/
def AddsTo (merges : Merges) (f : Int → Int) : Prop :=
  ∀ a b r n, mapFind merges (a, b) = some (r, n) → f n = f a + f b ∧ 0 < f b

/-- An entry of the queue is up to date, or can not be applied any more. -/
def Entry (merges : Merges) (f : Int → Int) (live : List Cell) (m : Merge) : Prop :=
  ∃ a b, mapFind merges (a, b) = some (m.rank, m.newId) ∧ ∀ A x y B, live = A ++ x :: y :: B → x.pos = m.pos →
    (x.c = a ∧ y.c = b) ∨ (x.c = a ∧ f b < f y.c) ∨ f m.newId ≤ f x.c

theorem le_split {live A A' B B' : List Cell} {x y u v : Cell} (hs : live.Pairwise fun x y => x.pos < y.pos)
    (e : live = A ++ x :: y :: B) (e' : live = A' ++ u :: v :: B') (hp : x.pos = u.pos) : x = u ∧ y = v := by
  subst e
  induction A generalizing A' with
  | nil =>
    cases A' with
    | nil => simp at e'; exact ⟨e'.1, e'.2.1⟩
    | cons c A' =>
      simp only [List.nil_append, List.cons_append, List.cons.injEq] at e'
      obtain ⟨rfl, e'⟩ := e'
      simp only [List.nil_append, List.pairwise_cons] at hs
      have := hs.1 u (by rw [e']; simp)
      omega
  | cons c A ih =>
    cases A' with
    | nil =>
      simp only [List.nil_append, List.cons_append, List.cons.injEq] at e'
      obtain ⟨rfl, e'⟩ := e'
      simp only [List.cons_append, List.pairwise_cons] at hs
      have := hs.1 x (by simp)
      omega
    | cons c' A' =>
      simp only [List.cons_append, List.cons.injEq] at e'
      simp only [List.cons_append, List.pairwise_cons] at hs
      exact ih hs.2 e'.2

/-- The entry that is applied has the rank of the pair it is applied to. -/
theorem le_rank {merges : Merges} {f : Int → Int} (hf : AddsTo merges f) {live : List Cell} {m : Merge} (h : Entry merges f live m)
    {A B : List Cell} {x y : Cell} {rank : Int} (hm : MergeAt merges live m.pos m.newId A x y B rank) : rank = m.rank := by
  obtain ⟨a, b, h1, h2⟩ := h
  have h3 := hf _ _ _ _ h1
  have h4 := hf _ _ _ _ hm.listed
  rcases h2 A x y B hm.eq hm.at_pos with ⟨e1, e2⟩ | ⟨e1, e2⟩ | e
  · have := hm.listed
    rw [e1, e2, h1] at this
    simpa using (Prod.mk.inj (Option.some.inj this)).1.symm
  · rw [e1] at h4; omega
  · omega

/-- Entries stay so when a merge is applied. -/
theorem le_old {merges : Merges} {f : Int → Int} (hf : AddsTo merges f) {live : List Cell} {m : Merge} (h : Entry merges f live m)
    {pos : Nat} {newId : Int} {A B : List Cell} {x y : Cell} {rank : Int} {len : Nat} (hm : MergeAt merges live pos newId A x y B rank) :
    Entry merges f (A ++ ⟨x.pos, newId, len⟩ :: B) m := by
  obtain ⟨a, b, h1, h2⟩ := h
  refine ⟨a, b, h1, fun A' u v B' e hp => ?_⟩
  have h3 := hf _ _ _ _ h1
  have h4 := hf _ _ _ _ hm.listed
  have he := hm.eq
  rcases merged_neighbours e with ⟨C, g⟩ | ⟨g, g'⟩ | ⟨g, g'⟩ | ⟨C, g⟩
  · exact h2 A' u v (C ++ x :: y :: B) (by rw [he, g]; simp) hp
  · have := h2 A' u x (y :: B) (by rw [he, g]; simp) hp
    rw [g']
    simp only
    rcases this with ⟨q1, q2⟩ | ⟨q1, q2⟩ | q
    · right; left; rw [q2] at h4; exact ⟨q1, by omega⟩
    · right; left; exact ⟨q1, by omega⟩
    · exact .inr (.inr q)
  · have := h2 A x y B he (by rw [g] at hp; exact hp)
    right; right
    rw [g]
    simp only
    rcases this with ⟨q1, q2⟩ | ⟨q1, q2⟩ | q
    · rw [q1, q2] at h4; omega
    · rw [q1] at h4; omega
    · omega
  · exact h2 (A ++ x :: y :: C) u v B' (by rw [he, g]; simp) hp

theorem le_cand {merges : Merges} {f : Int → Int} {live A B : List Cell} {x y : Cell} (hs : live.Pairwise fun x y => x.pos < y.pos)
    (e : live = A ++ x :: y :: B) {m : Merge} (h : m ∈ cand merges x.pos x.c y.c) : Entry merges f live m := by
  obtain ⟨h1, h2⟩ := cand_mem h
  refine ⟨_, _, h2, fun A' u v B' e' hp => .inl ?_⟩
  obtain ⟨rfl, rfl⟩ := le_split hs e e' (by rw [hp, h1])
  exact ⟨rfl, rfl⟩

theorem le_new {merges : Merges} {f : Int → Int} {A B : List Cell} {x : Cell} (hs : (A ++ x :: B).Pairwise fun x y => x.pos < y.pos) {m : Merge}
    (h : m ∈ newCands merges A x B) : Entry merges f (A ++ x :: B) m := by
  unfold newCands at h
  rw [List.mem_append] at h
  rcases h with h | h
  · cases hl : A.getLast? with
    | none => rw [hl] at h; simp at h
    | some z =>
      rw [hl] at h
      obtain ⟨C, rfl⟩ : ∃ C, A = C ++ [z] := by
        have hne : A ≠ [] := by intro h; rw [h] at hl; cases hl
        refine ⟨A.dropLast, ?_⟩
        rw [List.getLast?_eq_some_getLast hne] at hl
        have := List.dropLast_concat_getLast hne
        rw [Option.some.inj hl] at this
        exact this.symm
      exact le_cand (A := C) (B := B) hs (by simp) h
  · cases B with
    | nil => simp at h
    | cons y r => exact le_cand hs rfl h

theorem le_cell {syms : List Symbol} {live : List Cell} (h : Rep syms live) {x : Cell} (hx : x ∈ live) :
    ∃ pv nx, syms[x.pos]? = some ⟨x.c, pv, nx, x.len⟩ := by
  obtain ⟨A, B, rfl⟩ := List.append_of_mem hx
  exact ⟨_, _, linked_at h.linked⟩

theorem le_sub {syms : List Symbol} {live live' : List Cell} (h : Rep syms live) (h' : Rep syms live') {x : Cell} (hx : x ∈ live) : x ∈ live' := by
  obtain ⟨pv, nx, h1⟩ := le_cell h hx
  have := h.pos x hx
  obtain ⟨y, hy, e⟩ := h'.dead _ _ h1 (by simp only; omega)
  obtain ⟨pv', nx', h2⟩ := le_cell h' hy
  rw [e, h1] at h2
  simp only [Option.some.injEq, Symbol.mk.injEq] at h2
  have : x = y := by
    obtain ⟨a, b, c⟩ := x
    obtain ⟨a', b', c'⟩ := y
    simp only [Cell.mk.injEq] at *
    exact ⟨e.symm, h2.1, h2.2.2.2⟩
  rw [this]; exact hy

theorem le_sorted : ∀ {l l' : List Cell}, l.Pairwise (fun x y => x.pos < y.pos) → l'.Pairwise (fun x y => x.pos < y.pos) →
    (∀ x, x ∈ l ↔ x ∈ l') → l = l' := by
  intro l
  induction l with
  | nil =>
    intro l' _ _ h
    cases l' with
    | nil => rfl
    | cons y r => exact absurd ((h y).2 (by simp)) (by simp)
  | cons x l ih =>
    intro l' h1 h2 h
    cases l' with
    | nil => exact absurd ((h x).1 (by simp)) (by simp)
    | cons y r =>
      rw [List.pairwise_cons] at h1 h2
      have e : x = y := by
        rcases List.mem_cons.1 ((h x).1 (by simp)) with e | hx
        · exact e
        · rcases List.mem_cons.1 ((h y).2 (by simp)) with e | hy
          · exact e.symm
          · have := h1.1 y hy; have := h2.1 x hx; omega
      subst e
      rw [ih h1.2 h2.2 fun z => ?_]
      constructor
      · intro hz
        rcases List.mem_cons.1 ((h z).1 (by simp [hz])) with rfl | hz'
        · have := h1.1 z hz; omega
        · exact hz'
      · intro hz
        rcases List.mem_cons.1 ((h z).2 (by simp [hz])) with rfl | hz'
        · have := h2.1 z hz; omega
        · exact hz'

theorem le_unique {syms : List Symbol} {live live' : List Cell} (h : Rep syms live) (h' : Rep syms live') : live = live' :=
  le_sorted h.sorted h'.sorted fun _ => ⟨le_sub h h', le_sub h' h⟩

/-- One round of the loop. -/
theorem le_step {P : Platform} {merges : Merges} {d : Dropout} {n M : Nat} {live0 : List Cell} {f : Int → Int} (hf : AddsTo merges f)
    (hN : NatRanks merges) (hoff : d.on = false) {st : MState} {live : List Cell} (h : LoopInv P merges d n M live0 st live) (hn : n < 2 ^ 31)
    (he : ∀ m ∈ st.queue, Entry merges f live m) {l0 : List (Int × Nat)} (hw : WorstFirst (tableOf merges) l0 (bare live)) :
    (mergeStep P merges d st = .ok none ∧ st.queue = []) ∨
    ∃ st' live', mergeStep P merges d st = .ok (some st') ∧ LoopInv P merges d n M live0 st' live' ∧
      loopMeasure M st' live' < loopMeasure M st live ∧ (∀ m ∈ st'.queue, Entry merges f live' m) ∧
      WorstFirst (tableOf merges) l0 (bare live') := by
  rcases mergeStep_spec h hn with h1 | ⟨st', live', h1, h2, h3⟩
  · exact .inl h1
  · refine .inr ⟨st', live', h1, h2, h3, ?_⟩
    cases hp : P.pq.pop st.queue with
    | none => simp only [mergeStep, hp, res_pure] at h1; cases h1
    | some tq =>
      obtain ⟨top, q⟩ := tq
      have hperm := P.pq.pop_perm _ _ _ h.qinv hp
      have hmax := P.pq.pop_max _ _ _ h.qinv hp
      have hqi := P.pq.pop_inv _ _ _ h.qinv hp
      have hmem : ∀ m, m ∈ st.queue ↔ m = top ∨ m ∈ q := fun m => by rw [hperm.mem_iff]; simp
      have htop : top.pos < n := h.inside top (by rw [List.mem_append, hmem]; simp)
      have hstep : mergeStep P merges d st = (applyTop P merges st.syms q top >>= fun r =>
          .ok (some { syms := r.1, queue := r.2, skip := [], drawn := st.drawn + 1 })) := by
        simp only [mergeStep, hp, hoff, Bool.false_and, Bool.false_eq_true, if_false, h.noSkip hoff, List.foldl_nil]
        rfl
      rcases applyTop_spec P merges h.rep (by rw [h.size]; exact hn) (by rw [h.size]; exact htop) hqi with
        ⟨g1, g2⟩ | ⟨syms', q', A, x, y, B, rank, g1, g2, g3, g4, g5, g6⟩
      · rw [hstep, g1] at h1
        simp only [res_ok_bind, Except.ok.injEq, Option.some.injEq] at h1
        subst h1
        have e := le_unique h.rep h2.rep
        subst e
        exact ⟨fun m hm => he m ((hmem m).2 (.inr hm)), hw⟩
      · rw [hstep, g1] at h1
        simp only [res_ok_bind, Except.ok.injEq, Option.some.injEq] at h1
        subst h1
        have e := le_unique g5 h2.rep
        subst e
        have hr := le_rank hf (he top ((hmem top).2 (.inl rfl))) g4
        refine ⟨?_, ?_⟩
        · intro m hm
          simp only at hm
          rw [g6.mem_iff, List.mem_append] at hm
          rcases hm with hm | hm
          · exact le_new g5.sorted hm
          · exact le_old hf (he m ((hmem m).2 (.inr hm))) g4
        · obtain ⟨q1, q2⟩ := merged_once hN ⟨_, _, A, x, y, B, g4, rfl⟩
          refine hw.step q2 ?_
          intro r c' hr'
          obtain ⟨pos', newId', A', x', y', B', hm'⟩ := once_applicable hr'
          have k1 := h.complete _ _ _ _ _ _ _ hm'
          rw [h.noSkip hoff, List.append_nil] at k1
          have k2 := hmax _ k1
          simp only at k2
          omega

theorem le_loop {P : Platform} {merges : Merges} {d : Dropout} {n M : Nat} {live0 : List Cell} {f : Int → Int} (hf : AddsTo merges f)
    (hN : NatRanks merges) (hoff : d.on = false) (hn : n < 2 ^ 31) {l0 : List (Int × Nat)} (fuel : Nat) :
    ∀ {st : MState} {live : List Cell}, LoopInv P merges d n M live0 st live → loopMeasure M st live < fuel →
    (∀ m ∈ st.queue, Entry merges f live m) → WorstFirst (tableOf merges) l0 (bare live) →
    ∃ st' live', mergeLoop P merges d fuel st = .ok st'.syms ∧ LoopInv P merges d n M live0 st' live' ∧
      WorstFirst (tableOf merges) l0 (bare live') := by
  induction fuel with
  | zero => intro st live _ h; omega
  | succ fuel ih =>
    intro st live h hm he hw
    rcases le_step hf hN hoff h hn he hw with ⟨h1, h2⟩ | ⟨st', live', h1, h2, h3, h4, h5⟩
    · exact ⟨st, live, by simp only [mergeLoop, h1, res_ok_bind, res_pure], h, hw⟩
    · obtain ⟨st'', live'', g1, g2, g3⟩ := ih h2 (by omega) h4 h5
      exact ⟨st'', live'', by simp only [mergeLoop, h1, res_ok_bind]; exact g1, g2, g3⟩

/-- `merge_all` applies the merge of greatest rank at every step. -/
theorem le_merge (P : Platform) {merges : Merges} {d : Dropout} {f : Int → Int} (hf : AddsTo merges f) (hN : NatRanks merges) (hoff : d.on = false)
    (l : List (Int × Nat)) (hne : l ≠ []) (hpos : ∀ p ∈ l, 0 < p.2) (hn : l.length < 2 ^ 31) {out : List Symbol}
    (h : mergeAll P merges d (chain 0 l) = .ok out) : WorstFirst (tableOf merges) l (out.map fun s => (s.c, s.len)) := by
  have hlen := chain_length 0 l
  obtain ⟨q1, q2, q3⟩ := initQueue_spec P merges (chain 0 l) 0 [] P.pq.inv_nil
  simp only [List.length_nil, hlen] at q2
  have hlpos : 0 < l.length := List.length_pos_iff.2 hne
  have hinv := pr_inv P merges d l hne hpos
  have hfuel : loopMeasure (3 * l.length) { syms := chain 0 l, queue := initQueue P merges 0 (chain 0 l) [], skip := [], drawn := 0 }
      (cells 0 l) < mergeFuel l.length := by
    simp only [loopMeasure, cells_length, List.length_nil, mergeFuel]
    have h1 : 2 * l.length + (initQueue P merges 0 (chain 0 l) []).length + 0 ≤ 3 * l.length := by omega
    have h2 := Nat.mul_le_mul_right (3 * l.length + 1) h1
    have h3 : (4 * l.length + 1) * (4 * l.length + 1) =
        3 * l.length * (3 * l.length + 1) + (7 * (l.length * l.length) + 5 * l.length + 1) := by
      generalize l.length = k
      have e1 : (4 * k + 1) * (4 * k + 1) = 16 * (k * k) + 8 * k + 1 := by
        rw [Nat.add_mul, Nat.mul_add, Nat.mul_assoc, Nat.mul_left_comm k 4 k]; omega
      have e2 : 3 * k * (3 * k + 1) = 9 * (k * k) + 3 * k := by
        rw [Nat.mul_add, Nat.mul_assoc, Nat.mul_left_comm k 3 k]; omega
      omega
    omega
  have hentry : ∀ m ∈ initQueue P merges 0 (chain 0 l) [], Entry merges f (cells 0 l) m := by
    intro m hm
    rcases (q3 m).1 hm with h | ⟨A, a, b, B, e, hp, hk⟩
    · simp at h
    · refine ⟨_, _, hk, fun A' x y B' e' hp' => .inl ?_⟩
      obtain ⟨L, R, u, v, e1, e2, e3, e4, e5⟩ := cells_split e'
      have hL : L.length = A.length := by
        rw [e3] at hp'; simp only at hp'; omega
      have hc := chain_c l 0
      rw [e, e1] at hc
      simp only [List.map_append, List.map_cons] at hc
      have hc := List.append_inj_right hc (by simp [hL])
      simp only [List.cons.injEq] at hc
      rw [e3, e4]
      exact ⟨congrArg Prod.fst hc.1.symm, congrArg Prod.fst hc.2.1.symm⟩
  obtain ⟨st', live', h1, h2, h3⟩ := le_loop hf hN hoff hn (l0 := l) (mergeFuel l.length) hinv hfuel hentry
    (by rw [bare_cells]; exact .refl _)
  have hm : mergeAll P merges d (chain 0 l) = .ok (st'.syms.filter fun s => s.len ≠ 0) := by
    unfold mergeAll
    cases hc : chain 0 l with
    | nil => rw [hc] at hlen; simp at hlen; omega
    | cons a r =>
      simp only
      rw [← hc, hlen, h1]; rfl
  rw [hm] at h
  injection h with h
  subst h
  rw [rep_filter h2.rep]
  exact h3

end Tok
