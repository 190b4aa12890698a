import Verif.Proofs.ByteLevel
import Verif.BPE

set_option autoImplicit false

/-!
Lemmas on `Word::merge_all`: the linked list of symbols represents a list of live cells,
each round either leaves it alone or merges two neighbours, and the loop ends.
-/

namespace Tok

theorem getElem?_modify' {α : Type} (l : List α) (i j : Nat) (f : α → α) :
    (l.modify i f)[j]? = if i = j then l[j]?.map f else l[j]? := by
  rw [List.getElem?_modify]
  split
  · rfl
  · simp

theorem vecAt_some {α : Type} {l : List α} {i : Nat} {a : α} (h : l[i]? = some a) : vecAt l i = .ok a := by
  rw [vecAt, h]

/-- A live symbol: its position in the vector, its id and its length. -/
structure Cell where
  pos : Nat
  c : Int
  len : Nat

/-- Position of the first cell, or `nx`. -/
def headPos : List Cell → Int → Int
  | [], nx => nx
  | x :: _, _ => x.pos

/-- Position of the last cell, or `pv`. -/
def lastPos : Int → List Cell → Int
  | pv, [] => pv
  | _, x :: r => lastPos x.pos r

/-- The symbols at the positions of the cells are linked to each other. -/
def Linked (syms : List Symbol) : Int → List Cell → Int → Prop
  | _, [], _ => True
  | pv, x :: r, nx => syms[x.pos]? = some ⟨x.c, pv, headPos r nx, x.len⟩ ∧ Linked syms x.pos r nx

/-- The vector of symbols represents the list of live cells. -/
structure Rep (syms : List Symbol) (live : List Cell) : Prop where
  linked : Linked syms (-1) live (-1)
  sorted : live.Pairwise fun x y => x.pos < y.pos
  pos : ∀ x ∈ live, 0 < x.len
  dead : ∀ (i : Nat) (s : Symbol), syms[i]? = some s → s.len ≠ 0 → ∃ x ∈ live, x.pos = i

theorem linked_append {syms : List Symbol} {A B : List Cell} {pv nx : Int} :
    Linked syms pv (A ++ B) nx ↔ Linked syms pv A (headPos B nx) ∧ Linked syms (lastPos pv A) B nx := by
  induction A generalizing pv with
  | nil => simp [Linked, lastPos]
  | cons x r ih =>
    have : headPos (r ++ B) nx = headPos r (headPos B nx) := by cases r <;> rfl
    simp only [List.cons_append, Linked, ih, lastPos, this, and_assoc]

theorem linked_frame {syms syms' : List Symbol} {l : List Cell} {pv nx : Int}
    (h : ∀ x ∈ l, syms'[x.pos]? = syms[x.pos]?) (hl : Linked syms pv l nx) : Linked syms' pv l nx := by
  induction l generalizing pv with
  | nil => trivial
  | cons x r ih =>
    simp only [Linked] at hl ⊢
    exact ⟨by rw [h x (by simp)]; exact hl.1, ih (fun y hy => h y (by simp [hy])) hl.2⟩

theorem linked_lt {syms : List Symbol} {l : List Cell} {pv nx : Int} (hl : Linked syms pv l nx) :
    ∀ x ∈ l, x.pos < syms.length := by
  induction l generalizing pv with
  | nil => simp
  | cons x r ih =>
    simp only [Linked] at hl
    intro y hy; simp at hy; rcases hy with rfl | hy
    · rcases Nat.lt_or_ge y.pos syms.length with h | h
      · exact h
      · rw [List.getElem?_eq_none h] at hl; simp at hl
    · exact ih hl.2 y hy

theorem linked_at {syms : List Symbol} {A B : List Cell} {x : Cell} {pv nx : Int}
    (hl : Linked syms pv (A ++ x :: B) nx) :
    syms[x.pos]? = some ⟨x.c, lastPos pv A, headPos B nx, x.len⟩ := by
  rw [linked_append] at hl
  exact hl.2.1

theorem lastPos_eq (pv : Int) (A : List Cell) : lastPos pv A = match A.getLast? with
    | some z => (z.pos : Int)
    | none => pv := by
  induction A generalizing pv with
  | nil => rfl
  | cons x r ih =>
    simp only [lastPos]
    rw [ih]
    cases r with
    | nil => rfl
    | cons y r =>
      rw [List.getLast?_cons_cons]
      cases h : (y :: r).getLast? with
      | none => simp at h
      | some z => rfl

/-- The result of `merge_all`: dropping the dead symbols leaves the live cells. -/
theorem filter_live (l : List Symbol) : ∀ (k : Nat) (live : List Cell),
    (live.Pairwise fun x y => x.pos < y.pos) →
    (∀ x ∈ live, k ≤ x.pos ∧ 0 < x.len ∧ ∃ s, l[x.pos - k]? = some s ∧ s.c = x.c ∧ s.len = x.len) →
    (∀ (i : Nat) (s : Symbol), l[i]? = some s → s.len ≠ 0 → ∃ x ∈ live, x.pos = i + k) →
    (l.filter fun s => s.len ≠ 0).map (fun s => (s.c, s.len)) = live.map fun x => (x.c, x.len) := by
  induction l with
  | nil =>
    intro k live _ h _
    cases live with
    | nil => rfl
    | cons x r => obtain ⟨_, _, s, hs, _⟩ := h x (by simp); simp at hs
  | cons s l ih =>
    intro k live hsort hlive hdead
    by_cases hz : s.len = 0
    · have hne : ∀ x ∈ live, k + 1 ≤ x.pos := by
        intro x hx
        obtain ⟨h1, h2, s', hs', hc, hl⟩ := hlive x hx
        rcases Nat.lt_or_ge k x.pos with h | h
        · exact h
        · have : x.pos - k = 0 := by omega
          rw [this] at hs'; simp at hs'; subst hs'; omega
      have := ih (k + 1) live hsort (by
        intro x hx
        obtain ⟨h1, h2, s', hs', hc, hl⟩ := hlive x hx
        refine ⟨hne x hx, h2, s', ?_, hc, hl⟩
        have e : x.pos - k = (x.pos - (k + 1)) + 1 := by have := hne x hx; omega
        rw [e] at hs'; simpa using hs') (by
        intro i s' hi hs'
        obtain ⟨x, hx, e⟩ := hdead (i + 1) s' (by simpa using hi) hs'
        exact ⟨x, hx, by omega⟩)
      rw [← this, List.filter_cons_of_neg (by simp [hz])]
    · obtain ⟨x, hx, hxk⟩ := hdead 0 s rfl hz
      cases live with
      | nil => simp at hx
      | cons y r =>
        have hyx : y = x := by
          simp at hx; rcases hx with rfl | hx
          · rfl
          · have h1 := (List.pairwise_cons.1 hsort).1 x hx
            have h2 := (hlive y (by simp)).1
            omega
        subst hyx
        obtain ⟨h1, h2, s', hs', hc, hl⟩ := hlive y (by simp)
        have e0 : y.pos - k = 0 := by omega
        rw [e0] at hs'; simp at hs'; subst hs'
        have := ih (k + 1) r (List.pairwise_cons.1 hsort).2 (by
          intro z hz'
          obtain ⟨g1, g2, s', hs', gc, gl⟩ := hlive z (by simp [hz'])
          have h3 := (List.pairwise_cons.1 hsort).1 z hz'
          refine ⟨by omega, g2, s', ?_, gc, gl⟩
          have e : z.pos - k = (z.pos - (k + 1)) + 1 := by omega
          rw [e] at hs'; simpa using hs') (by
          intro i s' hi hs'
          obtain ⟨z, hz', e⟩ := hdead (i + 1) s' (by simpa using hi) hs'
          simp at hz'; rcases hz' with rfl | hz'
          · omega
          · exact ⟨z, hz', by omega⟩)
        rw [List.filter_cons_of_pos (by simpa using hz)]
        simp only [List.map_cons, this, hc, hl]

theorem rep_filter {syms : List Symbol} {live : List Cell} (h : Rep syms live) :
    (syms.filter fun s => s.len ≠ 0).map (fun s => (s.c, s.len)) = live.map fun x => (x.c, x.len) := by
  refine filter_live syms 0 live h.sorted ?_ (fun i s h1 h2 => ?_)
  · intro x hx
    obtain ⟨A, B, rfl⟩ := List.append_of_mem hx
    exact ⟨Nat.zero_le _, h.pos x hx, _, linked_at h.linked, rfl, rfl⟩
  · obtain ⟨x, hx, e⟩ := h.dead i s h1 h2; exact ⟨x, hx, by omega⟩

/-! ### The queue -/

/-- The merge of the neighbours `a`, `b` at `pos`, if listed. -/
def cand (merges : Merges) (pos : Nat) (a b : Int) : List Merge :=
  match mapFind merges (a, b) with
  | some (rank, newId) => [{ pos, rank, newId }]
  | none => []

theorem pushPair_spec (P : Platform) (merges : Merges) (q : List Merge) (pos : Nat) (a b : Int)
    (hq : P.pq.inv q) : P.pq.inv (pushPair P merges q pos a b) ∧
      (pushPair P merges q pos a b).Perm (cand merges pos a b ++ q) := by
  unfold pushPair cand
  cases mapFind merges (a, b) with
  | some v => exact ⟨P.pq.push_inv _ _ hq, P.pq.push_perm _ _ hq⟩
  | none => exact ⟨hq, List.Perm.refl _⟩

theorem cand_length (merges : Merges) (pos : Nat) (a b : Int) : (cand merges pos a b).length ≤ 1 := by
  unfold cand; split <;> simp

theorem cand_mem {merges : Merges} {pos : Nat} {a b : Int} {m : Merge} (h : m ∈ cand merges pos a b) :
    m.pos = pos ∧ mapFind merges (a, b) = some (m.rank, m.newId) := by
  unfold cand at h
  split at h
  · rename_i r n hf; simp at h; subst h; exact ⟨rfl, hf⟩
  · simp at h

theorem cand_of {merges : Merges} {pos : Nat} {a b rank newId : Int} (h : mapFind merges (a, b) = some (rank, newId)) :
    cand merges pos a b = [⟨pos, rank, newId⟩] := by
  unfold cand; rw [h]

/-- The merges between neighbours of a list of cells. -/
def cands (merges : Merges) : List Cell → List Merge
  | x :: y :: r => cand merges x.pos x.c y.c ++ cands merges (y :: r)
  | _ => []

/-- The merges pushed after a cell `x` with new neighbours. -/
def newCands (merges : Merges) (A : List Cell) (x : Cell) (B : List Cell) : List Merge :=
  (match A.getLast? with
   | some z => cand merges z.pos z.c x.c
   | none => []) ++
  (match B with
   | y :: _ => cand merges x.pos x.c y.c
   | [] => [])

theorem foldl_push (P : Platform) (l : List Merge) : ∀ q, P.pq.inv q →
    P.pq.inv (l.foldl P.pq.push q) ∧ (l.foldl P.pq.push q).Perm (l ++ q) := by
  induction l with
  | nil => intro q hq; exact ⟨hq, List.Perm.refl _⟩
  | cons m l ih =>
    intro q hq
    obtain ⟨h1, h2⟩ := ih (P.pq.push q m) (P.pq.push_inv _ _ hq)
    refine ⟨h1, h2.trans ?_⟩
    refine (List.Perm.append_left l (P.pq.push_perm q m hq)).trans ?_
    simp

/-! ### One merge -/

/-- The symbols after merging the cell `x` with its right neighbour `y`. -/
def mergedSyms (syms : List Symbol) (x y : Cell) (right : Symbol) (newId : Int) : List Symbol :=
  let s1 := syms.modify x.pos fun s => s.mergeWith right newId
  let s2 := s1.modify y.pos fun s => { s with len := 0 }
  if 0 ≤ right.next ∧ toSizeT right.next < s2.length then
    s2.modify right.next.toNat fun s => { s with prev := x.pos } else s2

theorem mergedSyms_rep {syms : List Symbol} {A B : List Cell} {x y : Cell} {newId : Int}
    (h : Rep syms (A ++ x :: y :: B)) :
    (mergedSyms syms x y ⟨y.c, x.pos, headPos B (-1), y.len⟩ newId).length = syms.length ∧
    Rep (mergedSyms syms x y ⟨y.c, x.pos, headPos B (-1), y.len⟩ newId)
      (A ++ ⟨x.pos, newId, x.len + y.len⟩ :: B) := by
  have hx := linked_at h.linked
  have hy : syms[y.pos]? = some ⟨y.c, x.pos, headPos B (-1), y.len⟩ := by
    have := linked_at (A := A ++ [x]) (x := y) (B := B) (by simpa using h.linked)
    rw [this]
    congr 2
    rw [lastPos_eq]; simp
  have hxl : x.pos < syms.length := linked_lt h.linked x (by simp)
  have hyl : y.pos < syms.length := linked_lt h.linked y (by simp)
  have hBl : ∀ z ∈ B, z.pos < syms.length := fun z hz => linked_lt h.linked z (by simp [hz])
  have hsort := h.sorted
  rw [List.pairwise_append] at hsort
  obtain ⟨hA, hxyB, hcross⟩ := hsort
  rw [List.pairwise_cons, List.pairwise_cons] at hxyB
  obtain ⟨hx1, hy1, hB⟩ := hxyB
  have hxy : x.pos < y.pos := hx1 y (by simp)
  have hnext : 0 ≤ headPos B (-1) ∧ toSizeT (headPos B (-1)) < syms.length ↔ B ≠ [] := by
    cases B with
    | nil => simp [headPos]
    | cons z r => simp only [headPos, toSizeT]; have := hBl z (by simp); simp; omega
  -- the new vector, position by position
  have kx : (mergedSyms syms x y ⟨y.c, x.pos, headPos B (-1), y.len⟩ newId)[x.pos]? =
      some ⟨newId, lastPos (-1) A, headPos B (-1), x.len + y.len⟩ := by
    unfold mergedSyms
    simp only [List.length_modify, hnext]
    cases B with
    | nil => rw [if_neg (by simp), getElem?_modify', getElem?_modify', if_neg (by omega), if_pos rfl, hx]; rfl
    | cons z r =>
      have hxz : x.pos < z.pos := hx1 z (by simp)
      simp only [headPos, Int.toNat_natCast]
      rw [if_pos (by simp), getElem?_modify', getElem?_modify', getElem?_modify',
        if_neg (by omega), if_neg (by omega), if_pos rfl, hx]; rfl
  have ky : (mergedSyms syms x y ⟨y.c, x.pos, headPos B (-1), y.len⟩ newId)[y.pos]? =
      some ⟨y.c, x.pos, headPos B (-1), 0⟩ := by
    unfold mergedSyms
    simp only [List.length_modify, hnext]
    cases B with
    | nil => rw [if_neg (by simp), getElem?_modify', getElem?_modify', if_pos rfl, if_neg (by omega), hy]; rfl
    | cons z r =>
      have hyz : y.pos < z.pos := hy1 z (by simp)
      simp only [headPos, Int.toNat_natCast]
      rw [if_pos (by simp), getElem?_modify', getElem?_modify', getElem?_modify',
        if_neg (by omega), if_pos rfl, if_neg (by omega), hy]; rfl
  have kz : ∀ z r, B = z :: r → (mergedSyms syms x y ⟨y.c, x.pos, headPos B (-1), y.len⟩ newId)[z.pos]? =
      syms[z.pos]?.map fun s => { s with prev := (x.pos : Int) } := by
    rintro z r rfl
    have hyz : y.pos < z.pos := hy1 z (by simp)
    unfold mergedSyms
    simp only [List.length_modify, hnext]
    simp only [headPos, Int.toNat_natCast]
    rw [if_pos (by simp), getElem?_modify', getElem?_modify', getElem?_modify',
        if_pos rfl, if_neg (by omega), if_neg (by omega)]
  have ko : ∀ i, i ≠ x.pos → i ≠ y.pos → (∀ z r, B = z :: r → i ≠ z.pos) →
      (mergedSyms syms x y ⟨y.c, x.pos, headPos B (-1), y.len⟩ newId)[i]? = syms[i]? := by
    intro i h1 h2 h3
    unfold mergedSyms
    simp only [List.length_modify, hnext]
    cases B with
    | nil => rw [if_neg (by simp), getElem?_modify', getElem?_modify', if_neg (by omega), if_neg (by omega)]
    | cons z r =>
      have h4 := h3 z r rfl
      simp only [headPos, Int.toNat_natCast]
      rw [if_pos (by simp), getElem?_modify', getElem?_modify', getElem?_modify',
        if_neg (by omega), if_neg (by omega), if_neg (by omega)]
  constructor
  · unfold mergedSyms; simp only; split <;> simp
  · have hAx : ∀ a ∈ A, a.pos < x.pos := fun a ha => hcross a ha x (by simp)
    have hAB : ∀ a ∈ A, ∀ z ∈ B, a.pos < z.pos := fun a ha z hz => hcross a ha z (by simp [hz])
    refine ⟨?_, ?_, ?_, ?_⟩
    · have hl := h.linked
      rw [linked_append] at hl ⊢
      obtain ⟨hlA, hlx, hly, hlB⟩ := hl
      refine ⟨linked_frame ?_ hlA, ?_, ?_⟩
      · intro a ha
        have h1 := hAx a ha
        refine ko _ (by omega) (by omega) ?_
        rintro z r rfl
        have := hAB a ha z (by simp); omega
      · exact kx
      · cases B with
        | nil => trivial
        | cons z r =>
          have hxz : x.pos < z.pos := hx1 z (by simp)
          have hyz : y.pos < z.pos := hy1 z (by simp)
          simp only [Linked] at hlB ⊢
          refine ⟨?_, linked_frame ?_ hlB.2⟩
          · rw [kz z r rfl, hlB.1]; rfl
          · intro b hb
            have h1 : z.pos < b.pos := (List.pairwise_cons.1 hB).1 b hb
            refine ko _ (by omega) (by omega) ?_
            intro z' r' e; cases e; omega
    · rw [List.pairwise_append, List.pairwise_cons]
      refine ⟨hA, ⟨fun z hz => hx1 z (by simp [hz]), hB⟩, ?_⟩
      intro a ha b hb; simp at hb; rcases hb with rfl | hb
      · exact hAx a ha
      · exact hAB a ha b hb
    · intro z hz
      simp at hz; rcases hz with hz | rfl | hz
      · exact h.pos z (by simp [hz])
      · have := h.pos x (by simp); simp; omega
      · exact h.pos z (by simp [hz])
    · intro i s hi hs
      by_cases h1 : i = x.pos
      · exact ⟨⟨x.pos, newId, x.len + y.len⟩, by simp, h1.symm⟩
      by_cases h2 : i = y.pos
      · rw [h2, ky] at hi; simp at hi; subst hi; simp at hs
      by_cases h3 : ∃ z r, B = z :: r ∧ i = z.pos
      · obtain ⟨z, r, rfl, h3⟩ := h3
        exact ⟨z, by simp, h3.symm⟩
      · rw [ko i h1 h2 (fun z r e h4 => h3 ⟨z, r, e, h4⟩)] at hi
        obtain ⟨z, hz, e⟩ := h.dead i s hi hs
        simp at hz
        rcases hz with hz | rfl | rfl | hz
        · exact ⟨z, by simp [hz], e⟩
        · omega
        · omega
        · exact ⟨z, by simp [hz], e⟩

/-- The cells `x`, `y` are neighbours and their merge, listed, yields `newId`. -/
structure MergeAt (merges : Merges) (live : List Cell) (pos : Nat) (newId : Int)
    (A : List Cell) (x y : Cell) (B : List Cell) (rank : Int) : Prop where
  eq : live = A ++ x :: y :: B
  at_pos : x.pos = pos
  listed : mapFind merges (x.c, y.c) = some (rank, newId)

theorem leftPush_spec (P : Platform) (merges : Merges) {syms : List Symbol} {A B : List Cell} {x : Cell}
    {q : List Merge} (hr : Rep syms (A ++ x :: B)) (hq : P.pq.inv q) :
    ∃ q1, pushLeft P merges syms q ⟨x.c, lastPos (-1) A, headPos B (-1), x.len⟩ = .ok q1 ∧ P.pq.inv q1 ∧
      q1.Perm ((match A.getLast? with
        | some z => cand merges z.pos z.c x.c
        | none => []) ++ q) := by
  unfold pushLeft
  simp only
  rcases List.eq_nil_or_concat A with rfl | ⟨A', z, rfl⟩
  · exact ⟨q, by simp [lastPos], hq, List.Perm.refl _⟩
  · have hl : lastPos (-1) (A' ++ [z]) = z.pos := by rw [lastPos_eq]; simp
    have hz : z.pos < syms.length := linked_lt hr.linked z (by simp)
    have hs := linked_at (A := A') (x := z) (B := x :: B) (by simpa using hr.linked)
    obtain ⟨h1, h2⟩ := pushPair_spec P merges q z.pos z.c x.c hq
    refine ⟨pushPair P merges q z.pos z.c x.c, ?_, h1, by simpa using h2⟩
    simp only [List.concat_eq_append] at *
    rw [hl, if_pos ⟨by omega, by simpa [toSizeT] using hz⟩]
    simp only [Int.toNat_natCast, vecAt_some hs, res_ok_bind, res_pure]

theorem rightPush_spec (P : Platform) (merges : Merges) {syms : List Symbol} {A B : List Cell} {x : Cell}
    {q : List Merge} (hr : Rep syms (A ++ x :: B)) (hsz : syms.length < 2 ^ 31) (hq : P.pq.inv q) :
    ∃ q1, pushRight P merges syms q x.pos ⟨x.c, lastPos (-1) A, headPos B (-1), x.len⟩ = .ok q1 ∧ P.pq.inv q1 ∧
      q1.Perm ((match B with
        | y :: _ => cand merges x.pos x.c y.c
        | [] => []) ++ q) := by
  unfold pushRight
  simp only
  cases B with
  | nil =>
    refine ⟨q, ?_, hq, List.Perm.refl _⟩
    have : ¬ toSizeT (headPos [] (-1)) < syms.length := by
      have e : toSizeT (headPos [] (-1)) = 2 ^ 64 - 1 := by decide
      rw [e]; omega
    rw [if_neg this]; rfl
  | cons z B =>
    have hz : z.pos < syms.length := linked_lt hr.linked z (by simp)
    have hs := linked_at (A := A ++ [x]) (x := z) (B := B) (by simpa using hr.linked)
    obtain ⟨h1, h2⟩ := pushPair_spec P merges q x.pos x.c z.c hq
    refine ⟨pushPair P merges q x.pos x.c z.c, ?_, h1, h2⟩
    rw [if_pos (by simpa [toSizeT, headPos] using hz)]
    simp only [headPos, Int.toNat_natCast, vecAt_some hs, res_ok_bind, res_pure]

/-- What the body of the loop does with a merge that is not skipped. -/
theorem applyTop_spec (P : Platform) (merges : Merges) {syms : List Symbol} {live : List Cell} {q : List Merge}
    {top : Merge} (hr : Rep syms live) (hlen : syms.length < 2 ^ 31) (hlt : top.pos < syms.length) (hq : P.pq.inv q) :
    (applyTop P merges syms q top = .ok (syms, q) ∧
      ∀ A x y B rank, ¬ MergeAt merges live top.pos top.newId A x y B rank) ∨
    (∃ syms' q' A x y B rank, applyTop P merges syms q top = .ok (syms', q') ∧ syms'.length = syms.length ∧
      P.pq.inv q' ∧ MergeAt merges live top.pos top.newId A x y B rank ∧
      Rep syms' (A ++ ⟨x.pos, top.newId, x.len + y.len⟩ :: B) ∧
      q'.Perm (newCands merges A ⟨x.pos, top.newId, x.len + y.len⟩ B ++ q)) := by
  obtain ⟨s, hs⟩ : ∃ s, syms[top.pos]? = some s := ⟨_, List.getElem?_eq_getElem hlt⟩
  have hat : ∀ A x B, live = A ++ x :: B → x.pos = top.pos →
      s = ⟨x.c, lastPos (-1) A, headPos B (-1), x.len⟩ ∧ 0 < x.len := by
    intro A x B e hp
    have h1 := hr.linked; rw [e] at h1
    have := linked_at h1
    rw [hp, hs] at this
    exact ⟨Option.some.inj this, hr.pos x (by simp [e])⟩
  unfold applyTop
  rw [vecAt_some hs]
  simp only [res_ok_bind]
  by_cases h0 : s.len = 0
  · left
    rw [if_pos h0]
    refine ⟨rfl, ?_⟩
    rintro A x y B rank ⟨e, hp, _⟩
    obtain ⟨e1, e2⟩ := hat A x (y :: B) e hp
    rw [e1] at h0; simp at h0; omega
  · rw [if_neg h0]
    obtain ⟨x, hx, hxp⟩ := hr.dead _ _ hs h0
    obtain ⟨A, B', e⟩ := List.append_of_mem hx
    obtain ⟨e1, _⟩ := hat A x B' e hxp
    cases B' with
    | nil =>
      left
      have : s.next = -1 := by rw [e1]; rfl
      rw [if_pos this]
      refine ⟨rfl, ?_⟩
      rintro A' x' y' B'' rank ⟨e', hp', _⟩
      obtain ⟨e1', _⟩ := hat A' x' (y' :: B'') e' hp'
      rw [e1'] at this; simp [headPos] at this
    | cons y B =>
      have hnx : s.next = (y.pos : Int) := by rw [e1]; rfl
      have hyl : y.pos < syms.length := linked_lt hr.linked y (by simp [e])
      have hy : syms[y.pos]? = some ⟨y.c, x.pos, headPos B (-1), y.len⟩ := by
        have h1 := hr.linked; rw [e] at h1
        have := linked_at (A := A ++ [x]) (x := y) (B := B) (by simpa using h1)
        rw [this]
        congr 2
        rw [lastPos_eq]; simp
      have hsz : toSizeT s.next = y.pos := by rw [hnx]; simp [toSizeT]
      have htn : s.next.toNat = y.pos := by rw [hnx]; simp
      rw [if_neg (by omega), if_neg (by omega)]
      rw [htn, vecAt_some hy]
      simp only [res_ok_bind]
      have hsc : s.c = x.c := by rw [e1]
      rw [hsc]
      have hunique : ∀ A' x' y' B'' rank, MergeAt merges live top.pos top.newId A' x' y' B'' rank →
          x'.c = x.c ∧ y'.c = y.c := by
        rintro A' x' y' B'' rank ⟨e', hp', _⟩
        obtain ⟨e1', _⟩ := hat A' x' (y' :: B'') e' hp'
        have hh := e1.symm.trans e1'
        simp only [Symbol.mk.injEq, headPos] at hh
        refine ⟨hh.1.symm, ?_⟩
        have hy' : syms[y'.pos]? = some ⟨y'.c, x'.pos, headPos B'' (-1), y'.len⟩ := by
          have h1 := hr.linked; rw [e'] at h1
          have := linked_at (A := A' ++ [x']) (x := y') (B := B'') (by simpa using h1)
          rw [this]
          congr 2
          rw [lastPos_eq]; simp
        have hpp : y.pos = y'.pos := by omega
        rw [← hpp, hy] at hy'
        simp at hy'; exact hy'.1.symm
      cases hf : mapFind merges (x.c, y.c) with
      | none =>
        left
        refine ⟨rfl, ?_⟩
        intro A' x' y' B'' rank hm
        obtain ⟨c1, c2⟩ := hunique _ _ _ _ _ hm
        have := hm.listed
        rw [c1, c2, hf] at this; cases this
      | some rn =>
        obtain ⟨rank, newId⟩ := rn
        simp only
        by_cases hid : newId = top.newId
        · right
          rw [if_neg (by simpa using hid), ← hxp]
          have hmA : MergeAt merges live x.pos top.newId A x y B rank := ⟨e, rfl, by rw [hf, hid]⟩
          rw [e] at hr
          obtain ⟨g1, g2⟩ := mergedSyms_rep (newId := top.newId) hr
          generalize hms : mergedSyms syms x y ⟨y.c, x.pos, headPos B (-1), y.len⟩ top.newId = syms' at g1 g2
          have hdef := hms
          unfold mergedSyms at hdef
          simp only at hdef
          rw [hdef]
          have hcur := linked_at g2.linked
          simp only at hcur
          rw [vecAt_some hcur]
          simp only [res_ok_bind]
          obtain ⟨q1, hq1, hq1i, hq1p⟩ := leftPush_spec P merges g2 hq
          simp only at hq1 hq1p
          rw [hq1]
          simp only [res_ok_bind]
          obtain ⟨q2, hq2, hq2i, hq2p⟩ := rightPush_spec P merges g2 (by omega) hq1i
          simp only at hq2 hq2p
          rw [hq2]
          refine ⟨syms', q2, A, x, y, B, rank, rfl, g1, hq2i, hmA, g2, ?_⟩
          refine hq2p.trans ((List.Perm.append_left _ hq1p).trans ?_)
          unfold newCands
          rw [← List.append_assoc]
          exact List.Perm.append_right _ List.perm_append_comm
        · left
          rw [if_pos (by simpa using hid)]
          refine ⟨rfl, ?_⟩
          intro A' x' y' B'' rank' hm
          obtain ⟨c1, c2⟩ := hunique _ _ _ _ _ hm
          have := hm.listed
          rw [c1, c2, hf] at this
          simp at this; exact hid this.2

/-! ### The loop -/

/-- `live'` is `live` with two neighbours merged by a listed merge of rank `rank`. -/
def Merged (merges : Merges) (live live' : List Cell) (rank : Int) : Prop :=
  ∃ pos newId A x y B, MergeAt merges live pos newId A x y B rank ∧
    live' = A ++ ⟨x.pos, newId, x.len + y.len⟩ :: B

/-- Some listed merge of rank `rank` applies to neighbours. -/
def Applicable (merges : Merges) (live : List Cell) (rank : Int) : Prop :=
  ∃ pos newId A x y B, MergeAt merges live pos newId A x y B rank

/-- Different pairs merge into different ids. -/
def DistinctNew (merges : Merges) : Prop :=
  ∀ k k' r r' n, mapFind merges k = some (r, n) → mapFind merges k' = some (r', n) → k = k'

/-- The chosen merge has the greatest rank (without dropout). -/
def Greatest (merges : Merges) (d : Dropout) (live : List Cell) (rank : Int) : Prop :=
  d.on = false → DistinctNew merges → ∀ r, Applicable merges live r → r ≤ rank

/-- A history of merges. -/
inductive Trace (merges : Merges) (d : Dropout) : List Cell → List Cell → Prop
  | refl (a : List Cell) : Trace merges d a a
  | step {a b c : List Cell} {rank : Int} : Trace merges d a b → Merged merges b c rank →
      Greatest merges d b rank → Trace merges d a c

/-- Invariant of the loop. -/
structure LoopInv (P : Platform) (merges : Merges) (d : Dropout) (n M : Nat) (live0 : List Cell)
    (st : MState) (live : List Cell) : Prop where
  rep : Rep st.syms live
  size : st.syms.length = n
  qinv : P.pq.inv st.queue
  inside : ∀ m ∈ st.queue ++ st.skip, m.pos < n
  sound : ∀ m ∈ st.queue ++ st.skip, ∃ k, mapFind merges k = some (m.rank, m.newId)
  complete : ∀ pos newId A x y B rank, MergeAt merges live pos newId A x y B rank →
    ⟨pos, rank, newId⟩ ∈ st.queue ++ st.skip
  noSkip : d.on = false → st.skip = []
  bound : 2 * live.length + st.queue.length + st.skip.length ≤ M
  trace : Trace merges d live0 live

/-- Measure of the loop. -/
def loopMeasure (M : Nat) (st : MState) (live : List Cell) : Nat :=
  (2 * live.length + st.queue.length + st.skip.length) * (M + 1) + st.queue.length

theorem newCands_mem {merges : Merges} {A B : List Cell} {x : Cell} {m : Merge}
    (h : m ∈ newCands merges A x B) :
    (∃ z ∈ A, m.pos = z.pos ∨ m.pos = x.pos) ∨ m.pos = x.pos := by
  unfold newCands at h
  simp only [List.mem_append] at h
  rcases h with h | h
  · cases hl : A.getLast? with
    | none => rw [hl] at h; simp at h
    | some z =>
      rw [hl] at h
      exact .inl ⟨z, List.mem_of_getLast? hl, .inl (cand_mem h).1⟩
  · cases B with
    | nil => simp at h
    | cons y r => exact .inr (cand_mem h).1

theorem newCands_sound {merges : Merges} {A B : List Cell} {x : Cell} {m : Merge}
    (h : m ∈ newCands merges A x B) : ∃ k, mapFind merges k = some (m.rank, m.newId) := by
  unfold newCands at h
  simp only [List.mem_append] at h
  rcases h with h | h
  · cases hl : A.getLast? with
    | none => rw [hl] at h; simp at h
    | some z => rw [hl] at h; exact ⟨_, (cand_mem h).2⟩
  · cases B with
    | nil => simp at h
    | cons y r => exact ⟨_, (cand_mem h).2⟩

theorem newCands_length (merges : Merges) (A B : List Cell) (x : Cell) : (newCands merges A x B).length ≤ 2 := by
  unfold newCands
  rw [List.length_append]
  have h1 : (match A.getLast? with
    | some z => cand merges z.pos z.c x.c
    | none => []).length ≤ 1 := by
    cases A.getLast? with
    | none => simp
    | some z => exact cand_length _ _ _ _
  have h2 : (match B with
    | y :: _ => cand merges x.pos x.c y.c
    | [] => []).length ≤ 1 := by
    cases B with
    | nil => simp
    | cons y r => exact cand_length _ _ _ _
  omega

/-- Neighbours after a merge: the ones that existed, or a pair with the new cell. -/
theorem merged_neighbours {A B A' B' : List Cell} {x' u v : Cell}
    (h : A ++ x' :: B = A' ++ u :: v :: B') :
    (∃ B'', A = A' ++ u :: v :: B'') ∨ (A = A' ++ [u] ∧ v = x') ∨ (u = x' ∧ B = v :: B') ∨
    (∃ A'', B = A'' ++ u :: v :: B') := by
  rcases List.append_eq_append_iff.1 h with ⟨C, h1, h2⟩ | ⟨C, h1, h2⟩
  · -- A' = A ++ C, x' :: B = C ++ u :: v :: B'
    cases C with
    | nil => simp at h2; exact .inr (.inr (.inl ⟨h2.1.symm, h2.2⟩))
    | cons c C => simp at h2; exact .inr (.inr (.inr ⟨C, h2.2⟩))
  · -- A = A' ++ C, u :: v :: B' = C ++ x' :: B
    cases C with
    | nil => simp at h2; exact .inr (.inr (.inl ⟨h2.1, h2.2.symm⟩))
    | cons c C =>
      simp at h2
      obtain ⟨rfl, h2⟩ := h2
      cases C with
      | nil => simp at h2; exact .inr (.inl ⟨h1, h2.1⟩)
      | cons c' C => simp at h2; obtain ⟨rfl, _⟩ := h2; exact .inl ⟨C, h1⟩

theorem trace_length {merges : Merges} {d : Dropout} {a b : List Cell} (h : Trace merges d a b) :
    b.length ≤ a.length := by
  induction h with
  | refl => exact Nat.le_refl _
  | step _ hm _ ih =>
    obtain ⟨_, _, A, x, y, B, ⟨e, _, _⟩, rfl⟩ := hm
    subst e; simp at ih ⊢; omega

theorem lex_lt {T T' Q Q' M : Nat} (h : T' < T) (hQ : Q' ≤ M) : T' * (M + 1) + Q' < T * (M + 1) + Q := by
  have := Nat.mul_le_mul_right (M + 1) h
  rw [Nat.succ_mul] at this
  omega

/-- One round of the loop. -/
theorem mergeStep_spec {P : Platform} {merges : Merges} {d : Dropout} {n M : Nat} {live0 : List Cell}
    {st : MState} {live : List Cell} (h : LoopInv P merges d n M live0 st live) (hn : n < 2 ^ 31) :
    (mergeStep P merges d st = .ok none ∧ st.queue = []) ∨
    ∃ st' live', mergeStep P merges d st = .ok (some st') ∧ LoopInv P merges d n M live0 st' live' ∧
      loopMeasure M st' live' < loopMeasure M st live := by
  cases hp : P.pq.pop st.queue with
  | none =>
    left
    refine ⟨by simp only [mergeStep, hp, res_pure], ?_⟩
    by_cases hq : st.queue = []
    · exact hq
    · obtain ⟨m, r, e⟩ := P.pq.pop_some _ h.qinv hq; rw [hp] at e; cases e
  | some tq =>
    right
    obtain ⟨top, q⟩ := tq
    have hperm := P.pq.pop_perm _ _ _ h.qinv hp
    have hqi := P.pq.pop_inv _ _ _ h.qinv hp
    have hmax := P.pq.pop_max _ _ _ h.qinv hp
    have hqlen : st.queue.length = q.length + 1 := by simpa using hperm.length_eq
    have hmem : ∀ m, m ∈ st.queue ↔ m = top ∨ m ∈ q := fun m => by
      rw [hperm.mem_iff]; simp
    have hb := h.bound
    by_cases hd : (d.on && d.draw st.drawn) = true
    · -- skipped
      refine ⟨{ st with queue := q, skip := st.skip ++ [top], drawn := st.drawn + 1 }, live, ?_, ?_, ?_⟩
      · simp only [mergeStep, hp, hd, if_true, res_pure]
      · have hall : ∀ m, m ∈ q ++ (st.skip ++ [top]) ↔ m ∈ st.queue ++ st.skip := by
          intro m
          simp only [List.mem_append, hmem, List.mem_singleton]
          constructor
          · rintro (h | h | h)
            · exact .inl (.inr h)
            · exact .inr h
            · exact .inl (.inl h)
          · rintro ((h | h) | h)
            · exact .inr (.inr h)
            · exact .inl h
            · exact .inr (.inl h)
        refine ⟨h.rep, h.size, hqi, fun m hm => h.inside m ((hall m).1 hm), fun m hm => h.sound m ((hall m).1 hm),
          fun pos newId A x y B rank hm => (hall _).2 (h.complete _ _ _ _ _ _ _ hm), ?_, ?_, h.trace⟩
        · intro hoff; rw [hoff] at hd; simp at hd
        · simp only [List.length_append, List.length_singleton]; omega
      · simp only [loopMeasure, List.length_append, List.length_singleton]
        have e : 2 * live.length + q.length + (st.skip.length + 1) =
            2 * live.length + st.queue.length + st.skip.length := by omega
        rw [e]; omega
    · obtain ⟨fi, fp⟩ := foldl_push P st.skip q hqi
      generalize hq2 : st.skip.foldl P.pq.push q = q2 at fi fp
      have hq2len : q2.length = st.skip.length + q.length := by simpa using fp.length_eq
      have hmem2 : ∀ m, m ∈ st.queue ++ st.skip ↔ m = top ∨ m ∈ q2 := by
        intro m
        rw [List.mem_append, hmem, fp.mem_iff, List.mem_append]
        constructor
        · rintro ((h | h) | h)
          · exact .inl h
          · exact .inr (.inr h)
          · exact .inr (.inl h)
        · rintro (h | h | h)
          · exact .inl (.inl h)
          · exact .inr h
          · exact .inl (.inr h)
      have htop : top.pos < n := h.inside top ((hmem2 top).2 (.inl rfl))
      have hd' : (d.on && d.draw st.drawn) = false := by simpa using hd
      have hstep : mergeStep P merges d st = (applyTop P merges st.syms q2 top >>= fun r =>
          .ok (some { syms := r.1, queue := r.2, skip := [], drawn := st.drawn + 1 })) := by
        simp only [mergeStep, hp, hd', Bool.false_eq_true, if_false, hq2]
        rfl
      rcases applyTop_spec P merges h.rep (by rw [h.size]; exact hn) (by rw [h.size]; exact htop) fi with
        ⟨g1, g2⟩ | ⟨syms', q', A, x, y, B, rank, g1, g2, g3, g4, g5, g6⟩
      · -- stale entry
        refine ⟨{ syms := st.syms, queue := q2, skip := [], drawn := st.drawn + 1 }, live, ?_, ?_, ?_⟩
        · rw [hstep, g1]; rfl
        · refine ⟨h.rep, h.size, fi, ?_, ?_, ?_, fun _ => rfl, ?_, h.trace⟩
          · intro m hm; simp at hm; exact h.inside m ((hmem2 m).2 (.inr hm))
          · intro m hm; simp at hm; exact h.sound m ((hmem2 m).2 (.inr hm))
          · intro pos newId A x y B rank hm
            rcases (hmem2 _).1 (h.complete _ _ _ _ _ _ _ hm) with e | e
            · subst e; exact absurd hm (g2 A x y B rank)
            · simpa using e
          · simp only [List.length_nil]; omega
        · refine lex_lt ?_ ?_
          · simp only [List.length_nil]; omega
          · simp only; omega
      · -- a merge
        have hq'len : q'.length ≤ 2 + q2.length := by
          have := g6.length_eq
          rw [List.length_append] at this
          have := newCands_length merges A B ⟨x.pos, top.newId, x.len + y.len⟩
          omega
        have hlive : live.length = A.length + B.length + 2 := by rw [g4.eq]; simp; omega
        have hlive' : (A ++ ⟨x.pos, top.newId, x.len + y.len⟩ :: B).length = A.length + B.length + 1 := by
          simp; omega
        have hposlt : ∀ z ∈ live, z.pos < n := fun z hz => by
          have := linked_lt h.rep.linked z hz; rw [h.size] at this; exact this
        have hxm : x ∈ live := by rw [g4.eq]; simp
        refine ⟨{ syms := syms', queue := q', skip := [], drawn := st.drawn + 1 },
          A ++ ⟨x.pos, top.newId, x.len + y.len⟩ :: B, ?_, ?_, ?_⟩
        · rw [hstep, g1]; rfl
        · refine ⟨g5, by rw [g2, h.size], g3, ?_, ?_, ?_, fun _ => rfl, ?_, ?_⟩
          · intro m hm; simp at hm
            rw [g6.mem_iff, List.mem_append] at hm
            rcases hm with hm | hm
            · rcases newCands_mem hm with ⟨z, hz, e | e⟩ | e
              · rw [e]; exact hposlt z (by rw [g4.eq]; simp [hz])
              · rw [e]; exact hposlt x hxm
              · rw [e]; exact hposlt x hxm
            · exact h.inside m ((hmem2 m).2 (.inr hm))
          · intro m hm; simp at hm
            rw [g6.mem_iff, List.mem_append] at hm
            rcases hm with hm | hm
            · exact newCands_sound hm
            · exact h.sound m ((hmem2 m).2 (.inr hm))
          · intro pos newId A' u v B' rank' hm
            rw [List.append_nil, g6.mem_iff, List.mem_append]
            have hsort := h.rep.sorted
            rw [g4.eq] at hsort
            -- an old pair away from the merge
            have old : ∀ A2 B2, live = A2 ++ u :: v :: B2 → u.pos ≠ x.pos →
                (⟨pos, rank', newId⟩ : Merge) ∈ q2 := by
              intro A2 B2 e hne
              rcases (hmem2 _).1 (h.complete pos newId A2 u v B2 rank' ⟨e, hm.at_pos, hm.listed⟩) with e' | e'
              · exfalso
                have e2 : pos = top.pos := by rw [← e']
                exact hne (by rw [hm.at_pos, e2, ← g4.at_pos])
              · exact e'
            rcases merged_neighbours hm.eq with ⟨C, e⟩ | ⟨e, e'⟩ | ⟨e, e'⟩ | ⟨C, e⟩
            · right
              refine old A' (C ++ x :: y :: B) (by rw [g4.eq, e]; simp) ?_
              have : u.pos < x.pos := by
                rw [List.pairwise_append] at hsort
                exact hsort.2.2 u (by simp [e]) x (by simp)
              omega
            · left
              unfold newCands
              rw [List.mem_append]; left
              have hl : A.getLast? = some u := by rw [e]; simp
              rw [hl]
              have h3 := hm.listed
              rw [e'] at h3
              simp only at h3 ⊢
              rw [cand_of h3, ← hm.at_pos]; simp
            · left
              unfold newCands
              rw [List.mem_append]; right
              rw [e']
              have h3 := hm.listed
              have h4 := hm.at_pos
              rw [e] at h3 h4
              simp only at h3 h4 ⊢
              rw [cand_of h3, h4]; simp
            · right
              refine old (A ++ x :: y :: C) B' (by rw [g4.eq, e]; simp) ?_
              have : x.pos < u.pos := by
                rw [List.pairwise_append, List.pairwise_cons] at hsort
                exact hsort.2.1.1 u (by simp [e])
              omega
          · simp only [List.length_nil]; omega
          · refine .step h.trace ⟨_, _, A, x, y, B, g4, rfl⟩ ?_
            intro hoff hdist r happ
            obtain ⟨pos', newId', A', x', y', B', hm'⟩ := happ
            have h1 := h.complete _ _ _ _ _ _ _ hm'
            rw [h.noSkip hoff, List.append_nil] at h1
            have h2 := hmax _ h1
            simp only at h2
            obtain ⟨k, hk⟩ := h.sound top ((hmem2 top).2 (.inl rfl))
            have h3 := hdist _ _ _ _ _ hk g4.listed
            rw [h3, g4.listed] at hk
            simp at hk
            omega
        · refine lex_lt ?_ ?_
          · simp only [List.length_nil]; omega
          · simp only; omega

theorem mergeLoop_spec {P : Platform} {merges : Merges} {d : Dropout} {n M : Nat} {live0 : List Cell}
    (hn : n < 2 ^ 31) (fuel : Nat) : ∀ {st : MState} {live : List Cell},
    LoopInv P merges d n M live0 st live → loopMeasure M st live < fuel →
    ∃ st' live', mergeLoop P merges d fuel st = .ok st'.syms ∧ LoopInv P merges d n M live0 st' live' ∧
      st'.queue = [] := by
  induction fuel with
  | zero => intro st live _ h; omega
  | succ fuel ih =>
    intro st live h hm
    rcases mergeStep_spec h hn with ⟨h1, h2⟩ | ⟨st', live', h1, h2, h3⟩
    · exact ⟨st, live, by simp only [mergeLoop, h1, res_ok_bind, res_pure], h, h2⟩
    · obtain ⟨st'', live'', g1, g2, g3⟩ := ih h2 (by omega)
      exact ⟨st'', live'', by simp only [mergeLoop, h1, res_ok_bind]; exact g1, g2, g3⟩

end Tok
