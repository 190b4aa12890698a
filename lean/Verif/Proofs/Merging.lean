import Verif.Props.BPE
import Verif.Spec.Merging

set_option autoImplicit false

namespace Tok
open Spec

/-! ### One pair has one line, one line has one pair -/

/-- A table in which the rank determines the merge. -/
def OneEach (T : Table) : Prop := ∀ r a b n a' b' n', T r a b n → T r a' b' n' → a = a' ∧ b = b' ∧ n = n'

theorem listed_oneEach (V : Str → Option Int) (pre : Str) (lines : List Str) : OneEach (Listed V pre lines) := by
  rintro r a b n a' b' n' ⟨⟨line, p, q, h1, h2, h3, h4, h5⟩, -⟩ ⟨⟨line', p', q', h1', h2', h3', h4', h5'⟩, -⟩
  rw [h1] at h1'
  cases h1'
  obtain ⟨rfl, rfl⟩ := fields_unique h2 h2'
  rw [h3] at h3'; rw [h4] at h4'; rw [h5] at h5'
  cases h3'; cases h4'; cases h5'
  exact ⟨rfl, rfl, rfl⟩

/-! ### Where two merges can happen -/

theorem two_places {α : Type} {A B A' B' : List α} {a b a' b' : α}
    (h : A ++ a :: b :: B = A' ++ a' :: b' :: B') :
    (A = A' ∧ a = a' ∧ b = b' ∧ B = B') ∨
    (∃ C, A' = A ++ a :: b :: C ∧ B = C ++ a' :: b' :: B') ∨
    (∃ C, A = A' ++ a' :: b' :: C ∧ B' = C ++ a :: b :: B) ∨
    (A' = A ++ [a] ∧ a' = b) ∨ (A = A' ++ [a'] ∧ a = b') := by
  rcases List.append_eq_append_iff.1 h with ⟨C, h1, h2⟩ | ⟨C, h1, h2⟩
  · match C, h1, h2 with
    | [], h1, h2 =>
      simp only [List.append_nil, List.nil_append, List.cons.injEq] at h1 h2
      exact .inl ⟨h1.symm, h2.1, h2.2.1, h2.2.2⟩
    | [c], h1, h2 =>
      simp only [List.cons_append, List.nil_append, List.cons.injEq] at h2
      obtain ⟨rfl, h2, -⟩ := h2
      exact .inr (.inr (.inr (.inl ⟨h1, h2.symm⟩)))
    | c :: d :: C, h1, h2 =>
      simp only [List.cons_append, List.cons.injEq] at h2
      obtain ⟨rfl, rfl, h2⟩ := h2
      exact .inr (.inl ⟨C, h1, h2⟩)
  · match C, h1, h2 with
    | [], h1, h2 =>
      simp only [List.append_nil, List.nil_append, List.cons.injEq] at h1 h2
      exact .inl ⟨h1, h2.1.symm, h2.2.1.symm, h2.2.2.symm⟩
    | [c], h1, h2 =>
      simp only [List.cons_append, List.nil_append, List.cons.injEq] at h2
      obtain ⟨rfl, h2, -⟩ := h2
      exact .inr (.inr (.inr (.inr ⟨h1, h2.symm⟩)))
    | c :: d :: C, h1, h2 =>
      simp only [List.cons_append, List.cons.injEq] at h2
      obtain ⟨rfl, rfl, h2⟩ := h2
      exact .inr (.inr (.inl ⟨C, h1, h2⟩))

/-- Merges at the same rank commute when no entry merges with itself. -/
theorem merge_diamond {T : Table} (h1 : OneEach T) (hs : NoSelf T) {r : Nat} {l x y : List (Int × Nat)}
    (hx : MergeOnce T r l x) (hy : MergeOnce T r l y) :
    x = y ∨ ∃ z, MergeOnce T r x z ∧ MergeOnce T r y z := by
  cases hx with
  | @mk A B a b n ht =>
    generalize hl : A ++ a :: b :: B = l at hy
    cases hy with
    | @mk A' B' a' b' n' ht' =>
      obtain ⟨e1, e2, rfl⟩ := h1 _ _ _ _ _ _ _ ht ht'
      rcases two_places hl with ⟨rfl, rfl, rfl, rfl⟩ | ⟨C, rfl, rfl⟩ | ⟨C, rfl, rfl⟩ | ⟨rfl, rfl⟩ | ⟨rfl, rfl⟩
      · exact .inl rfl
      · right
        have m1 := MergeOnce.mk (A := A ++ (n, a.2 + b.2) :: C) (B := B') ht'
        have m2 := MergeOnce.mk (A := A) (B := C ++ (n, a'.2 + b'.2) :: B') ht
        simp only [List.append_assoc, List.cons_append] at m1 m2 ⊢
        exact ⟨_, m1, m2⟩
      · right
        have m1 := MergeOnce.mk (A := A') (B := C ++ (n, a.2 + b.2) :: B) ht'
        have m2 := MergeOnce.mk (A := A' ++ (n, a'.2 + b'.2) :: C) (B := B) ht
        simp only [List.append_assoc, List.cons_append] at m1 m2 ⊢
        exact ⟨_, m1, m2⟩
      · exfalso
        rw [e1] at ht
        exact hs r _ n ht
      · exfalso
        rw [← e2] at ht
        exact hs r _ n ht

/-- What can be merged after a merge: what could be merged before, or something with the new entry. -/
theorem merge_after {T : Table} {r r' : Nat} {l x y : List (Int × Nat)} (hx : MergeOnce T r l x) (hy : MergeOnce T r' x y) :
    (∃ z, MergeOnce T r' l z) ∨ ∃ a b n c d e, T r a b n ∧ T r' c d e ∧ (c = n ∨ d = n) := by
  cases hx with
  | @mk A B a b n ht =>
    generalize hl : A ++ (n, a.2 + b.2) :: B = x at hy
    cases hy with
    | @mk A' B' c d e ht' =>
      rcases List.append_eq_append_iff.1 hl with ⟨C, h1, h2⟩ | ⟨C, h1, h2⟩
      · cases C with
        | nil =>
          simp only [List.nil_append, List.cons.injEq] at h2
          refine .inr ⟨_, _, _, _, _, _, ht, ht', .inl ?_⟩
          rw [← h2.1]
        | cons p C =>
          simp only [List.cons_append, List.cons.injEq] at h2
          obtain ⟨rfl, rfl⟩ := h2
          subst h1
          left
          have := MergeOnce.mk (T := T) (A := A ++ a :: b :: C) (B := B') ht'
          simp only [List.append_assoc, List.cons_append] at this
          exact ⟨_, this⟩
      · match C, h1, h2 with
        | [], h1, h2 =>
          simp only [List.nil_append, List.cons.injEq] at h2
          refine .inr ⟨_, _, _, _, _, _, ht, ht', .inl ?_⟩
          rw [h2.1]
        | [p], h1, h2 =>
          simp only [List.cons_append, List.nil_append, List.cons.injEq] at h2
          refine .inr ⟨_, _, _, _, _, _, ht, ht', .inr ?_⟩
          rw [h2.2.1]
        | p :: q :: C, h1, h2 =>
          simp only [List.cons_append, List.cons.injEq] at h2
          obtain ⟨rfl, rfl, rfl⟩ := h2
          subst h1
          left
          have := MergeOnce.mk (T := T) (A := A') (B := C ++ a :: b :: B) ht'
          simp only [List.append_assoc, List.cons_append] at this ⊢
          exact ⟨_, this⟩

/-! ### Uniqueness -/

/-- A step of the strategy that always applies a merge whose rank is first in the order `le`. -/
def StepBy (le : Nat → Nat → Prop) (T : Table) (x y : List (Int × Nat)) : Prop :=
  ∃ r, MergeOnce T r x y ∧ ∀ r' z, MergeOnce T r' x z → le r r'

inductive ManyBy (le : Nat → Nat → Prop) (T : Table) : List (Int × Nat) → List (Int × Nat) → Prop
  | refl (l : List (Int × Nat)) : ManyBy le T l l
  | step {a b c : List (Int × Nat)} : StepBy le T a b → ManyBy le T b c → ManyBy le T a c

theorem manyBy_snoc {le : Nat → Nat → Prop} {T : Table} {a b c : List (Int × Nat)} (h : ManyBy le T a b)
    (hs : StepBy le T b c) : ManyBy le T a c := by
  induction h with
  | refl => exact .step hs (.refl _)
  | step h1 _ ih => exact .step h1 (ih hs)

theorem stepBy_diamond {le : Nat → Nat → Prop} {T : Table} (hanti : ∀ a b, le a b → le b a → a = b)
    (h1 : OneEach T) (hs : NoSelf T)
    (hm : ∀ r a b n r' c d e, T r a b n → T r' c d e → c = n ∨ d = n → le r r')
    {l x y : List (Int × Nat)} (hx : StepBy le T l x) (hy : StepBy le T l y) :
    x = y ∨ ∃ z, StepBy le T x z ∧ StepBy le T y z := by
  obtain ⟨r, hx, hxm⟩ := hx
  obtain ⟨r', hy, hym⟩ := hy
  obtain rfl : r = r' := hanti _ _ (hxm _ _ hy) (hym _ _ hx)
  rcases merge_diamond h1 hs hx hy with h | ⟨z, hz1, hz2⟩
  · exact .inl h
  · right
    have keep : ∀ {u}, MergeOnce T r l u → ∀ r' z, MergeOnce T r' u z → le r r' := by
      intro u hu r' z hz
      rcases merge_after hu hz with ⟨z', h⟩ | ⟨a, b, n, c, d, e, g1, g2, g3⟩
      · exact hxm _ _ h
      · exact hm _ _ _ _ _ _ _ _ g1 g2 g3
    exact ⟨z, ⟨r, hz1, keep hx⟩, ⟨r, hz2, keep hy⟩⟩

/-- One step against many. -/
theorem manyBy_strip {le : Nat → Nat → Prop} {T : Table}
    (hd : ∀ {l x y : List (Int × Nat)}, StepBy le T l x → StepBy le T l y → x = y ∨ ∃ z, StepBy le T x z ∧ StepBy le T y z)
    {l y : List (Int × Nat)} (hy : ManyBy le T l y) : ∀ {x}, StepBy le T l x → Final T y → ManyBy le T x y := by
  induction hy with
  | refl l => rintro x ⟨r, hx, -⟩ hf; exact absurd hx (hf r x)
  | @step l b y hb hby ih =>
    intro x hx hf
    rcases hd hx hb with rfl | ⟨z, hz1, hz2⟩
    · exact hby
    · exact .step hz1 (ih hz2 hf)

theorem manyBy_unique {le : Nat → Nat → Prop} {T : Table}
    (hd : ∀ {l x y : List (Int × Nat)}, StepBy le T l x → StepBy le T l y → x = y ∨ ∃ z, StepBy le T x z ∧ StepBy le T y z)
    {l x : List (Int × Nat)} (hx : ManyBy le T l x) : ∀ {y}, ManyBy le T l y → Final T x → Final T y → x = y := by
  induction hx with
  | refl l =>
    intro y hy hf _
    cases hy with
    | refl => rfl
    | step h _ => obtain ⟨r, h, -⟩ := h; exact absurd h (hf r _)
  | @step l b x hb _ ih =>
    intro y hy hfx hfy
    exact ih (manyBy_strip hd hy hb hfy) hfx hfy

theorem worst_many {T : Table} {a b : List (Int × Nat)} (h : WorstFirst T a b) : ManyBy (fun x y => y ≤ x) T a b := by
  induction h with
  | refl => exact .refl _
  | step _ h1 h2 ih => exact manyBy_snoc ih ⟨_, h1, h2⟩

theorem best_many {T : Table} {a b : List (Int × Nat)} (h : BestFirst T a b) : ManyBy (fun x y => x ≤ y) T a b := by
  induction h with
  | refl => exact .refl _
  | step _ h1 h2 ih => exact manyBy_snoc ih ⟨_, h1, h2⟩

theorem worst_unique {T : Table} (h1 : OneEach T) (hs : NoSelf T) (hm : MadeAfter T) {l x y : List (Int × Nat)}
    (hx : WorstFirst T l x) (hy : WorstFirst T l y) (fx : Final T x) (fy : Final T y) : x = y :=
  manyBy_unique (le := fun x y => y ≤ x)
    (fun hx hy => stepBy_diamond (fun _ _ h h' => Nat.le_antisymm h' h) h1 hs
      (fun r a b n r' c d e g1 g2 g3 => Nat.le_of_lt (hm r a b n r' c d e g1 g2 g3)) hx hy)
    (worst_many hx) (worst_many hy) fx fy

theorem best_unique {T : Table} (h1 : OneEach T) (hs : NoSelf T) (hm : MadeBefore T) {l x y : List (Int × Nat)}
    (hx : BestFirst T l x) (hy : BestFirst T l y) (fx : Final T x) (fy : Final T y) : x = y :=
  manyBy_unique (le := fun x y => x ≤ y)
    (fun hx hy => stepBy_diamond (fun _ _ h h' => Nat.le_antisymm h h') h1 hs
      (fun r a b n r' c d e g1 g2 g3 => Nat.le_of_lt (hm r a b n r' c d e g1 g2 g3)) hx hy)
    (best_many hx) (best_many hy) fx fy

/-! ### The tokens follow from the pieces -/

theorem tokens_of_pieces {R : List (Int × Str)} : ∀ {ts ts' : List Token} {pos e e' : Nat},
    piecesOf ts = piecesOf ts' → Tiles pos (ts.map (·.offsets)) e → Tiles pos (ts'.map (·.offsets)) e' →
    (∀ t ∈ ts, mapFind R t.id = some t.value) → (∀ t ∈ ts', mapFind R t.id = some t.value) → ts = ts' := by
  intro ts
  induction ts with
  | nil =>
    intro ts' pos e e' h _ _ _ _
    cases ts' with
    | nil => rfl
    | cons => simp [piecesOf] at h
  | cons t ts ih =>
    intro ts' pos e e' h h1 h2 h3 h4
    cases ts' with
    | nil => simp [piecesOf] at h
    | cons t' ts' =>
      simp only [piecesOf, List.map_cons, List.cons.injEq, Prod.mk.injEq] at h
      obtain ⟨⟨hid, hlen⟩, hr⟩ := h
      obtain ⟨i, v, o1, o2⟩ := t
      obtain ⟨i', v', o1', o2'⟩ := t'
      simp only [List.map_cons, Tiles] at h1 h2 hid hlen
      obtain ⟨rfl, h1, h1'⟩ := h1
      obtain ⟨rfl, h2, h2'⟩ := h2
      subst hid
      obtain rfl : o2 = o2' := by omega
      have e1 := h3 _ (List.mem_cons_self ..)
      have e2 := h4 _ (List.mem_cons_self ..)
      simp only at e1 e2
      rw [e1] at e2
      cases e2
      rw [ih hr h1' h2' (fun t ht => h3 t (by simp [ht])) (fun t ht => h4 t (by simp [ht]))]

/-! ### The reversed list -/

theorem says_reverse {V : Str → Option Int} {pre : Str} {lines : List Str} {r : Nat} {a b n : Int} :
    Says V pre lines.reverse r a b n ↔ r < lines.length ∧ Says V pre lines (lines.length - 1 - r) a b n := by
  constructor
  · rintro ⟨line, p, q, h, hr⟩
    have hlt : r < lines.length := by
      rcases Nat.lt_or_ge r lines.length with h' | h'
      · exact h'
      · rw [List.getElem?_eq_none (by simpa using h')] at h; cases h
    rw [List.getElem?_reverse hlt] at h
    exact ⟨hlt, line, p, q, h, hr⟩
  · rintro ⟨hlt, line, p, q, h, hr⟩
    rw [← List.getElem?_reverse hlt] at h
    exact ⟨line, p, q, h, hr⟩

end Tok
