import Verif.Proofs.Total
import Verif.Spec.Traced

set_option autoImplicit false

namespace Tok
open Spec

/-! ### Tables that lead back to positions of another text -/

/-- For each entry (byte count, position) that many copies of the position. -/
def tblOffs : List (Nat × Nat) → List (Nat × Nat)
  | [] => []
  | e :: r => List.replicate e.1 (e.2, e.2 + 1) ++ tblOffs r

theorem tblOffs_append (A B : List (Nat × Nat)) : tblOffs (A ++ B) = tblOffs A ++ tblOffs B := by
  induction A with
  | nil => rfl
  | cons e A ih => simp [tblOffs, ih]

@[simp] theorem tblOffs_length (A : List (Nat × Nat)) : (tblOffs A).length = (A.map (·.1)).sum := by
  induction A with
  | nil => rfl
  | cons e A ih => simp [tblOffs, ih]

/-- The table has for each unit of the text the entry (byte count, original position). -/
structure Tbl (es : List (Nat × Nat)) (ns : NS) : Prop where
  ranges : ns.ranges = mkRanges 0 (es.map (·.1))
  offsets : ∃ tail, ns.offsets = tblOffs es ++ tail
  pos : ∀ e ∈ es, 0 < e.1

/-- The positions go on from `o` without jumps. -/
def Steps : Nat → List (Nat × Nat) → Prop
  | _, [] => True
  | o, e :: r => (e.2 = o ∨ e.2 = o + 1) ∧ Steps e.2 r

theorem regroup_steps (a : Nat) : ∀ (l : List (Nat × Nat)), (∀ e ∈ l, 0 < e.1) → ∀ (m i : Nat), Steps i l →
    regroup (i, i + 1) (a + i, a + i + 1) (List.replicate m (i, i + 1) ++ tblOffs l) =
      List.replicate m (a + i, a + i + 1) ++ tblOffs (l.map fun e => (e.1, a + e.2)) := by
  intro l
  induction l with
  | nil =>
    intro _ m i _
    simp only [tblOffs, List.append_nil, List.map_nil]
    induction m with
    | zero => rfl
    | succ m ih => rw [List.replicate_succ, regroup, if_pos rfl, ih]; rfl
  | cons e l ih =>
    intro hp m i hs
    obtain ⟨k, o⟩ := e
    have hp' : ∀ e ∈ l, 0 < e.1 := fun e he => hp e (by simp [he])
    induction m with
    | succ m ih' => rw [List.replicate_succ, List.cons_append, regroup, if_pos rfl, ih']; rfl
    | zero =>
      obtain ⟨k', rfl⟩ : ∃ k', k = k' + 1 := ⟨k - 1, by have := hp (k, o) (by simp); simp only at this; omega⟩
      simp only [List.replicate_zero, List.nil_append, tblOffs, List.map_cons]
      simp only [Steps] at hs
      rcases hs.1 with rfl | rfl
      · have := ih hp' (k' + 1) o hs.2
        exact this
      · rw [List.replicate_succ, List.cons_append, regroup, if_neg (by simp)]
        have := ih hp' k' (i + 1) hs.2
        simp only [← Nat.add_assoc] at this ⊢
        rw [this, List.replicate_succ]; rfl

/-- Replacing the entries of a stretch by the table of its normalized text. -/
theorem transformRange_tbl {A B C es' : List (Nat × Nat)} {base k0 : Nat} {ns sub : NS} {r : List (Nat × Nat)}
    (h : Tbl (A ++ B ++ C) ns) (hB : ∃ k B', B = (k, base) :: B') (hes : es' = (k0, 0) :: r) (hst : Steps 0 r)
    (hpos : ∀ e ∈ es', 0 < e.1) (hsr : sub.ranges = mkRanges 0 (es'.map (·.1))) (hso : sub.offsets = tblOffs es') :
    ∃ ns', ns.transformRange A.length (A.length + B.length) sub = .ok ns' ∧
      Tbl (A ++ es'.map (fun e => (e.1, base + e.2)) ++ C) ns' := by
  obtain ⟨tail, hoff⟩ := h.offsets
  have hrl : ns.ranges.length = A.length + B.length + C.length := by rw [h.ranges]; simp; omega
  obtain ⟨k, B', rfl⟩ := hB
  have hkpos : 0 < k := h.pos (k, base) (by simp)
  have h1 : vecAt ns.ranges A.length = .ok ((A.map (·.1)).sum, k) := by
    unfold vecAt
    rw [h.ranges, List.append_assoc, List.map_append, mkRanges_append, List.getElem?_append_right (by simp)]
    simp [mkRanges]
  have hol : ns.offsets.length = ((A ++ (k, base) :: B' ++ C).map (·.1)).sum + tail.length := by rw [hoff]; simp
  obtain ⟨k0', rfl⟩ : ∃ k', k0 = k' + 1 := ⟨k0 - 1, by have := hpos (k0, 0) (by rw [hes]; simp); simp only at this; omega⟩
  have hend : ∃ o y tail', (if A.length + ((k, base) :: B').length = ns.ranges.length then
      vecAt ns.ranges (A.length + ((k, base) :: B').length - 1)
      else vecAt ns.ranges (A.length + ((k, base) :: B').length)) = .ok (o, y) ∧ (A.map (·.1)).sum ≤ o ∧ o ≤ ns.offsets.length ∧
        ns.offsets.drop o = tblOffs C ++ tail' := by
    by_cases hC : A.length + ((k, base) :: B').length = ns.ranges.length
    · rw [if_pos hC]
      have : C = [] := by rw [hrl] at hC; exact List.length_eq_zero_iff.1 (by omega)
      subst this
      obtain ⟨D, d, hD⟩ : ∃ D d, (k, base) :: B' = D ++ [d] :=
        ⟨((k, base) :: B').dropLast, ((k, base) :: B').getLast (by simp), (List.dropLast_concat_getLast (by simp)).symm⟩
      refine ⟨((A ++ D).map (·.1)).sum, d.1, _, ?_, ?_, ?_, rfl⟩
      · unfold vecAt
        rw [h.ranges, hD, List.append_nil, ← List.append_assoc, List.map_append, mkRanges_append,
          List.getElem?_append_right (by simp)]
        have : A.length + (D ++ [d]).length - 1 - (mkRanges 0 ((A ++ D).map (·.1))).length = 0 := by simp
        rw [this]; simp [mkRanges]
      · simp
      · rw [hol, hD]; simp; omega
    · rw [if_neg hC]
      have hC' : C ≠ [] := by rintro rfl; exact hC (by rw [hrl]; simp)
      obtain ⟨c, C', rfl⟩ : ∃ c C', C = c :: C' := by cases C with | nil => exact absurd rfl hC' | cons c C' => exact ⟨c, C', rfl⟩
      refine ⟨((A ++ (k, base) :: B').map (·.1)).sum, c.1, tail, ?_, by simp, by rw [hol]; simp; omega, ?_⟩
      · unfold vecAt
        rw [h.ranges, List.map_append, mkRanges_append, List.getElem?_append_right (by simp)]
        simp [mkRanges]
      · rw [hoff, tblOffs_append _ (c :: C'), List.append_assoc, List.drop_left' (by simp)]
  obtain ⟨o, y, tail', h2, ho1, ho2, hdrop⟩ := hend
  have hf : vecAt ns.offsets (A.map (·.1)).sum = .ok (base, base + 1) := by
    unfold vecAt
    obtain ⟨k', rfl⟩ : ∃ k', k = k' + 1 := ⟨k - 1, by omega⟩
    rw [hoff, List.append_assoc A, tblOffs_append, List.append_assoc, List.getElem?_append_right (by simp)]
    simp [tblOffs, List.replicate_succ]
  have hnew : ∃ q, sub.offsets = (0, 1) :: q ∧ (base, base + 1) :: regroup (0, 1) (base, base + 1) q =
      tblOffs (es'.map fun e => (e.1, base + e.2)) := by
    refine ⟨List.replicate k0' (0, 1) ++ tblOffs r, ?_, ?_⟩
    · rw [hso, hes]; simp [tblOffs, List.replicate_succ]
    · have := regroup_steps base r (fun e he => hpos e (by rw [hes]; simp [he])) k0' 0 hst
      simp only [Nat.zero_add, Nat.add_zero] at this
      rw [this, hes]
      simp [tblOffs, List.replicate_succ]
  obtain ⟨q, h3, hq⟩ := hnew
  have hne : ¬ (mkRanges (A.map (·.1)).sum (sub.ranges.map (·.2)) = [] ∧ ns.ranges.drop (A.length + ((k, base) :: B').length) ≠ []) := by
    rw [hsr, hes]; simp [mkRanges]
  have htake : ns.offsets.take (A.map (·.1)).sum = tblOffs A := by
    rw [hoff, List.append_assoc A, tblOffs_append, List.append_assoc, List.take_left' (by simp)]
  have h4 : eraseRange ns.offsets (A.map (·.1)).sum o = .ok (tblOffs A ++ (tblOffs C ++ tail')) := by
    unfold eraseRange; rw [if_pos ⟨ho1, ho2⟩, htake, hdrop]
  have h5 : ∀ x, insertAt (tblOffs A ++ (tblOffs C ++ tail')) (A.map (·.1)).sum x = .ok (tblOffs A ++ x ++ (tblOffs C ++ tail')) := by
    intro x
    unfold insertAt
    rw [if_pos (by simp), List.take_left' (by simp), List.drop_left' (by simp)]
  have hrt : ns.ranges.take A.length = mkRanges 0 (A.map (·.1)) := by
    rw [h.ranges, mkRanges_take, List.append_assoc, List.map_append, List.take_left' (by simp)]
  have hrd : (ns.ranges.drop (A.length + ((k, base) :: B').length)).map (·.2) = C.map (·.1) := by
    rw [h.ranges, mkRanges_drop, mkRanges_snd, List.map_append, List.drop_left' (by simp)]
  refine ⟨{ ns with offsets := tblOffs A ++ tblOffs (es'.map fun e => (e.1, base + e.2)) ++ (tblOffs C ++ tail'),
                    ranges := mkRanges 0 ((A ++ es'.map (fun e => (e.1, base + e.2)) ++ C).map (·.1)) }, ?_, ?_⟩
  · have hrng : mkRanges 0 ((A ++ es'.map (fun e => (e.1, base + e.2)) ++ C).map (·.1)) =
        mkRanges 0 (A.map (·.1)) ++ (mkRanges (A.map (·.1)).sum (es'.map (·.1)) ++
          mkRanges ((A.map (·.1)).sum + (es'.map (·.1)).sum) (C.map (·.1))) := by
      simp only [List.map_append, List.map_map]
      rw [mkRanges_append, mkRanges_append, List.append_assoc]
      simp only [Nat.zero_add, List.sum_append]
      rfl
    rw [hrng]
    rw [hsr, mkRanges_snd] at hne
    unfold NS.transformRange
    rw [h1]
    simp only [res_ok_bind]
    split at h2
    all_goals
      rename_i hb
      first
      | rw [if_pos hb]
      | rw [if_neg hb]
      rw [h2]
      simp only [res_ok_bind, hsr, mkRanges_snd, if_neg hne, h3, hf, h4, h5, hq, hrt, hrd, res_pure]
  · refine ⟨rfl, ⟨tail', by simp [tblOffs_append]⟩, ?_⟩
    intro e he
    simp only [List.mem_append, List.mem_map] at he
    rcases he with (he | ⟨e', he, rfl⟩) | he
    · exact h.pos e (by simp [he])
    · exact hpos e' he
    · exact h.pos e (by simp [he])

/-! ### Normalizers that act character by character -/

/-- The normalized text, character by character. -/
def img (G : Nat → List (Nat × Nat)) (v : WStr) : WStr := v.flatMap fun c => (G c).map (·.1)

/-- The entries of the table of the normalized text. -/
def ents (G : Nat → List (Nat × Nat)) : Nat → WStr → List (Nat × Nat)
  | _, [] => []
  | i, c :: v => (G c).map (fun x => (x.2, i)) ++ ents G (i + 1) v

/-- The entries of the table of a text as it is. -/
def asIs (i : Nat) (v : WStr) : List (Nat × Nat) := ents (fun c => [(c, byteLen c)]) i v

theorem img_append (G : Nat → List (Nat × Nat)) (v w : WStr) : img G (v ++ w) = img G v ++ img G w := by simp [img]

theorem img_mem {G : Nat → List (Nat × Nat)} {v w : WStr} (h : ∀ c ∈ v, c ∈ w) : ∀ c ∈ img G v, c ∈ img G w := by
  intro c hc
  obtain ⟨x, hx, hc⟩ := List.mem_flatMap.1 hc
  exact List.mem_flatMap.2 ⟨x, h x hx, hc⟩

theorem ents_append (G : Nat → List (Nat × Nat)) (v w : WStr) : ∀ i, ents G i (v ++ w) = ents G i v ++ ents G (i + v.length) w := by
  induction v with
  | nil => intro i; simp [ents]
  | cons c v ih => intro i; simp [ents, ih, Nat.add_assoc, Nat.add_comm 1]

theorem ents_shift (G : Nat → List (Nat × Nat)) (b : Nat) (v : WStr) : ∀ i,
    (ents G i v).map (fun e => (e.1, b + e.2)) = ents G (b + i) v := by
  induction v with
  | nil => intro i; rfl
  | cons c v ih =>
    intro i
    have := ih (i + 1)
    simp only [ents, List.map_append, List.map_map, this, Nat.add_assoc]
    rfl

theorem ents_steps (G : Nat → List (Nat × Nat)) : ∀ (v : WStr), (∀ c ∈ v, G c ≠ []) → ∀ (o i : Nat), i = o ∨ i = o + 1 →
    Steps o (ents G i v) := by
  intro v
  induction v with
  | nil => intro _ _ _ _; exact True.intro
  | cons c v ih =>
    intro h o i hi
    have hc := h c (by simp)
    have rest := ih (fun c hc => h c (by simp [hc])) i (i + 1) (.inr rfl)
    simp only [ents]
    generalize ents G (i + 1) v = R at rest
    have go : ∀ (l : List (Nat × Nat)), Steps i (l.map (fun x => (x.2, i)) ++ R) := by
      intro l
      induction l with
      | nil => exact rest
      | cons x l ih => exact ⟨.inl rfl, ih⟩
    generalize G c = l at hc
    cases l with
    | nil => exact absurd rfl hc
    | cons x l => exact ⟨hi, go l⟩

theorem ents_pos {G : Nat → List (Nat × Nat)} : ∀ {v : WStr}, (∀ c ∈ v, ∀ x ∈ G c, 0 < x.2) → ∀ i, ∀ e ∈ ents G i v, 0 < e.1 := by
  intro v
  induction v with
  | nil => intro _ i e he; cases he
  | cons c v ih =>
    intro h i e he
    simp only [ents, List.mem_append, List.mem_map] at he
    rcases he with ⟨x, hx, rfl⟩ | he
    · exact h c (by simp) x hx
    · exact ih (fun c hc => h c (by simp [hc])) _ e he

theorem ents_length (G : Nat → List (Nat × Nat)) : ∀ (v : WStr) (i : Nat), (ents G i v).length = (img G v).length := by
  intro v
  induction v with
  | nil => intro i; rfl
  | cons c v ih => intro i; simp [ents, ih, img]

theorem asIs_length (i : Nat) (v : WStr) : (asIs i v).length = v.length := by
  unfold asIs
  rw [ents_length]
  unfold img
  induction v with
  | nil => rfl
  | cons c v ih => simp

theorem asIs_map (v : WStr) : ∀ i, (asIs i v).map (·.1) = v.map byteLen := by
  induction v with
  | nil => intro i; rfl
  | cons c v ih => intro i; have := ih (i + 1); unfold asIs at this ⊢; simp [ents, this]

theorem tblOffs_asIs (v : WStr) : ∀ i, tblOffs (asIs i v) = mkOffsets i (v.map byteLen) := by
  induction v with
  | nil => intro i; rfl
  | cons c v ih => intro i; have := ih (i + 1); unfold asIs at this ⊢; simp [ents, tblOffs, mkOffsets, this]

theorem ofText_asIs {w : WStr} (h : Bmp w) : Tbl (asIs 0 w) (NS.ofText w) := by
  refine ⟨?_, ⟨[], ?_⟩, ?_⟩
  · rw [(ofText_bmp h).1, asIs_map]
  · rw [(ofText_bmp h).2, List.append_nil, tblOffs_asIs]
  · refine ents_pos (G := fun c => [(c, byteLen c)]) (v := w) ?_ 0
    intro c _ x hx
    simp at hx; subst hx
    exact utf8Enc1_length_pos _

/-- The normalizer acts on every part of `w` character by character: `c` becomes the characters of `G c`, which occupy
the given numbers of bytes in the table and lead back to `c`. -/
structure ActsAs (P : Platform) (n : Option Normalizer) (G : Nat → List (Nat × Nat)) (w : WStr) : Prop where
  ne : ∀ c ∈ w, G c ≠ []
  pos : ∀ c ∈ w, ∀ x ∈ G c, 0 < x.2
  run : ∀ v, v ≠ [] → (∀ c ∈ v, c ∈ w) → ∃ s, normalizeOpt P n (NS.ofText v) = .ok s ∧ s.normalized = img G v ∧
    s.ranges = mkRanges 0 ((ents G 0 v).map (·.1)) ∧ s.offsets = tblOffs (ents G 0 v)

/-- As `Traced`, with the entries of the table. -/
inductive TracedE (G : Nat → List (Nat × Nat)) : Nat → WStr → WStr → List (Nat × Nat) → Prop
  | nil (i : Nat) : TracedE G i [] [] []
  | kept {i c : Nat} {w w' : WStr} {es : List (Nat × Nat)} : TracedE G (i + 1) w w' es →
      TracedE G i (c :: w) (c :: w') ((byteLen c, i) :: es)
  | changed {i c : Nat} {w w' : WStr} {es : List (Nat × Nat)} : TracedE G (i + 1) w w' es →
      TracedE G i (c :: w) ((G c).map (·.1) ++ w') ((G c).map (fun x => (x.2, i)) ++ es)

theorem TracedE.traced {G : Nat → List (Nat × Nat)} {i : Nat} {w w' : WStr} {es : List (Nat × Nat)} (h : TracedE G i w w' es) :
    Traced (fun c => (G c).map (·.1)) i w w' (es.map (·.2)) := by
  induction h with
  | nil i => exact .nil i
  | kept _ ih => exact .kept ih
  | @changed i c w w' es _ ih =>
    have := Traced.changed (g := fun c => (G c).map (·.1)) (c := c) ih
    rw [List.map_append, List.map_map]
    rw [List.map_map] at this
    exact this

theorem TracedE.length {G : Nat → List (Nat × Nat)} {i : Nat} {w w' : WStr} {es : List (Nat × Nat)} (h : TracedE G i w w' es) :
    es.length = w'.length := by
  induction h with
  | nil => rfl
  | kept _ ih => simp [ih]
  | changed _ ih => simp [ih]

theorem TracedE.mem {G : Nat → List (Nat × Nat)} {i : Nat} {w w' : WStr} {es : List (Nat × Nat)} (h : TracedE G i w w' es) :
    ∀ c ∈ w', c ∈ w ++ img G w := by
  induction h with
  | nil => simp
  | @kept i c w w' es _ ih =>
    intro x hx
    rcases List.mem_cons.1 hx with rfl | hx
    · simp
    · have := ih x hx
      simp only [List.mem_append, img, List.flatMap_cons, List.mem_cons] at this ⊢
      rcases this with h | h
      · exact .inl (.inr h)
      · exact .inr (.inr h)
  | @changed i c w w' es _ ih =>
    intro x hx
    rcases List.mem_append.1 hx with hx | hx
    · simp only [List.mem_append, img, List.flatMap_cons, List.mem_cons]
      exact .inr (.inl hx)
    · have := ih x hx
      simp only [List.mem_append, img, List.flatMap_cons, List.mem_cons] at this ⊢
      rcases this with h | h
      · exact .inl (.inr h)
      · exact .inr (.inr h)

theorem tracedE_kept (G : Nat → List (Nat × Nat)) {r r' : WStr} {es : List (Nat × Nat)} : ∀ (v : WStr) (i : Nat),
    TracedE G (i + v.length) r r' es → TracedE G i (v ++ r) (v ++ r') (asIs i v ++ es) := by
  intro v
  induction v with
  | nil => intro i h; simpa [asIs, ents] using h
  | cons c v ih =>
    intro i h
    exact .kept (ih (i + 1) (by rw [List.length_cons] at h; rw [show i + 1 + v.length = i + (v.length + 1) by omega]; exact h))

theorem tracedE_changed (G : Nat → List (Nat × Nat)) {r r' : WStr} {es : List (Nat × Nat)} : ∀ (v : WStr) (i : Nat),
    TracedE G (i + v.length) r r' es → TracedE G i (v ++ r) (img G v ++ r') (ents G i v ++ es) := by
  intro v
  induction v with
  | nil => intro i h; simpa [img, ents] using h
  | cons c v ih =>
    intro i h
    have := TracedE.changed (G := G) (c := c) (ih (i + 1) (by rw [List.length_cons] at h; rw [show i + 1 + v.length = i + (v.length + 1) by omega]; exact h))
    simpa [img, ents] using this

/-! ### Extraction -/

/-- The entries of the table of a text made of pieces: added tokens (`true`) are kept as they are. -/
def entsAll (G : Nat → List (Nat × Nat)) : Nat → List (WStr × Bool) → List (Nat × Nat)
  | _, [] => []
  | i, (v, true) :: r => asIs i v ++ entsAll G (i + v.length) r
  | i, (v, false) :: r => ents G i v ++ entsAll G (i + v.length) r

/-- The splits of these pieces. -/
def TPieces (pieces : List (WStr × Bool)) (l : List Split) : Prop :=
  Each (fun (x : WStr × Bool) (s : Split) => Scalars x.1 ∧ s.normalized = utf8 x.1 ∧ (s.tokens ≠ [] ↔ x.2 = true)) pieces l

theorem normalizeLoop_traced (P : Platform) {n : Option Normalizer} {G : Nat → List (Nat × Nat)} {w : WStr} {a0 : AddedVocab}
    (hA : ActsAs P n G w) : ∀ (l : List Split) (a : AddedVocab) (ns : NS) (A : List (Nat × Nat)) (i : Nat) (r : WStr),
    (∀ c ∈ r, c ∈ w) → Placed r i l → Cuttable a w → Cuttable a (img G w) → Tbl (A ++ asIs i r) ns → TokensAscii l →
    (∀ s ∈ l, s.normalized ≠ []) → (∀ p ∈ a.normTrie, p.1 ≠ []) → Touched a0 a →
    (∀ s ∈ l, s.tokens = [] ∨ IsToken a0 (a0.nonNormTrie ++ a0.normTrie) s) →
    ∃ ns' out r' es, (normalizeLoop P n a ns A.length l).1 = .ok (ns', out) ∧ TracedE G i r r' es ∧ Tbl (A ++ es) ns' ∧
      Placed r' A.length out ∧ (∀ s ∈ out, s.normalized ≠ []) ∧ (l ≠ [] → out ≠ []) ∧
      (∀ s ∈ out, s.tokens = [] ∨ IsToken a0 (a0.nonNormTrie ++ a0.normTrie) s) ∧
      ∀ pieces, TPieces pieces l → es = entsAll G i pieces := by
  intro l
  induction l with
  | nil =>
    intro a ns A i r _ hp _ _ hg _ _ _ _ _
    cases hp
    exact ⟨ns, [], [], [], rfl, .nil _, hg, .nil _, by simp, by simp, by simp, fun _ h => by cases h; rfl⟩
  | cons s l ih =>
    intro a ns A i r hm hp hc hc' hg hta hne hkeys hT0 htok0
    have htok0' : ∀ s ∈ l, s.tokens = [] ∨ IsToken a0 (a0.nonNormTrie ++ a0.normTrie) s := fun s hs => htok0 s (by simp [hs])
    have hta' : TokensAscii l := fun s hs => hta s (by simp [hs])
    cases hp with
    | @cons v r' _ _ _ h1 h2 h3 =>
    have hmv : ∀ c ∈ v, c ∈ w := fun c hcv => hm c (by simp [hcv])
    have hmr : ∀ c ∈ r', c ∈ w := fun c hcv => hm c (by simp [hcv])
    have hbv : Bmp v := bmp_sub hc.1 hmv
    have hv0 : v ≠ [] := by
      rintro rfl
      exact hne s (by simp) (by rw [h1]; rfl)
    have hpl : asIs i (v ++ r') = asIs i v ++ asIs (i + v.length) r' := ents_append _ v r' i
    rw [hpl, ← List.append_assoc] at hg
    unfold normalizeLoop
    by_cases ht : s.tokens ≠ []
    · rw [if_pos ht]
      have hlen : s.normalized.length = v.length := by
        rw [h1]
        exact utf8_ascii_rev (by rw [← h1]; exact hta s (by simp) ht)
      have hl' : A.length + v.length = (A ++ asIs i v).length := by rw [List.length_append, asIs_length]
      rw [hlen, hl']
      obtain ⟨ns', out, r2, es, e, t1, t2, t3, t4, _, t6, t7⟩ := ih a ns (A ++ asIs i v) (i + v.length) r' hmr h3 hc hc' hg hta'
        (fun s hs => hne s (by simp [hs])) hkeys hT0 htok0'
      generalize normalizeLoop P n a ns (A ++ asIs i v).length l = R at e
      obtain ⟨rr, a'⟩ := R
      simp only at e
      subst e
      refine ⟨ns', _, v ++ r2, asIs i v ++ es, rfl, tracedE_kept G v i t1, by rw [← List.append_assoc]; exact t2, ?_, ?_, by simp, ?_, ?_⟩
      case refine_4 =>
        intro pieces hpc
        cases hpc with
        | @cons x _ pieces _ hx hpc =>
          obtain ⟨v', b⟩ := x
          obtain ⟨x1, x2, x3⟩ := hx
          have hv' : v' = v := utf8_injective x1 (bmp_scalars hbv) (x2.symm.trans h1)
          have hb : b = true := x3.1 ht
          subst hv' hb
          rw [t7 pieces hpc]; rfl
      · exact .cons h1 (by rw [← hl']) (by rw [hl']; exact t3)
      · intro q hq
        rcases List.mem_cons.1 hq with rfl | hq
        · exact hne s (by simp)
        · exact t4 q hq
      · intro q hq
        rcases List.mem_cons.1 hq with rfl | hq
        · exact htok0 s (by simp)
        · exact t6 q hq
    · rw [if_neg ht]
      have hT := normalizeSplit_touched P n a ns A.length s
      have hcv := cuttable_sub hc' (img_mem (G := G) hmv)
      have hGv : ∀ c ∈ v, G c ≠ [] := fun c hcv => hA.ne c (hmv c hcv)
      have himg0 : img G v ≠ [] := by
        cases v with
        | nil => exact absurd rfl hv0
        | cons c v =>
          intro h
          simp only [img, List.flatMap_cons, List.append_eq_nil_iff, List.map_eq_nil_iff] at h
          exact hGv c (by simp) h.1
      have key : ∃ ns1 here, (normalizeSplit P n a ns A.length s).1 = .ok (ns1, here, (img G v).length) ∧
          Tbl (A ++ ents G i v ++ asIs (i + v.length) r') ns1 ∧ Placed (img G v) A.length here ∧ (∀ s ∈ here, s.normalized ≠ []) ∧
          here ≠ [] ∧ (∀ s ∈ here, s.tokens = [] ∨ IsToken a a.normTrie s) := by
        unfold normalizeSplit
        have hsv := bmp_scalars hbv
        have hcf : convertFromString s.normalized = .ok v := by
          rw [h1]; exact (C02_from_string_iff _ _).2 (utf8Text_iff.2 ⟨hsv, rfl⟩)
        obtain ⟨sub, n1, n2, n3, n4⟩ := hA.run v hv0 hmv
        have htr : ∃ ns', ns.transformRange A.length (A.length + (asIs i v).length) sub = .ok ns' ∧
            Tbl (A ++ (ents G 0 v).map (fun e => (e.1, i + e.2)) ++ asIs (i + v.length) r') ns' := by
          cases v with
          | nil => exact absurd rfl hv0
          | cons c v' =>
            obtain ⟨x, l0, hx⟩ : ∃ x l0, G c = x :: l0 := by
              have := hGv c (by simp)
              cases hgc : G c with
              | nil => exact absurd hgc this
              | cons x l0 => exact ⟨x, l0, rfl⟩
            have hes : ents G 0 (c :: v') = (x.2, 0) :: (l0.map (fun x => (x.2, 0)) ++ ents G 1 v') := by simp [ents, hx]
            refine transformRange_tbl hg (base := i) ⟨byteLen c, _, rfl⟩ hes ?_ (ents_pos (fun c hc => hA.pos c (hmv c hc)) 0) n3 n4
            have := ents_steps G (c :: v') hGv 0 0 (.inl rfl)
            rw [hes] at this
            exact this.2
        obtain ⟨ns2, htr, ht2⟩ := htr
        rw [ents_shift, Nat.add_zero] at ht2
        rw [asIs_length] at htr
        have hsi := bmp_scalars hcv.1
        simp only [hcf, res_ok_bind, n1, h2]
        rw [if_neg (by omega), show A.length + (i + v.length) - i = A.length + v.length by omega, htr]
        have htxt : convertToString sub.normalized = .ok (utf8 (img G v)) := by rw [n2]; exact convertToString_scalars hsi
        simp only [res_ok_bind, htxt, res_pure]
        obtain ⟨segs, out, f1, f2, f3, f4, f5, f6⟩ := segSplits_filled (T := a.normTrie) hcv
          (fun p hp => List.mem_append_right _ hp) hkeys A.length
        rw [f1, res_ok_bind]
        refine ⟨ns2, out, ?_, ht2, f3, f4, f6 himg0, f5⟩
        rw [n2, f2]; rfl
      obtain ⟨ns1, here, e1, hg1, hpl1, hh, hh0, hht⟩ := key
      generalize normalizeSplit P n a ns A.length s = R at e1 hT
      obtain ⟨rr, a1⟩ := R
      simp only at e1 hT
      subst e1
      have hk1 : a1.normTrie = a.normTrie := by rw [hT.same]
      have hl' : A.length + (img G v).length = (A ++ ents G i v).length := by rw [List.length_append, ents_length]
      obtain ⟨ns', out, r2, es, e, t1, t2, t3, t4, _, t6, t7⟩ := ih a1 ns1 (A ++ ents G i v) (i + v.length) r' hmr h3 (touched_cuttable hT hc)
        (touched_cuttable hT hc') hg1 hta' (fun s hs => hne s (by simp [hs])) (by rw [hk1]; exact hkeys) (hT0.trans hT) htok0'
      simp only [hl']
      generalize normalizeLoop P n a1 ns1 (A ++ ents G i v).length l = R at e
      obtain ⟨rr, a'⟩ := R
      simp only at e
      subst e
      refine ⟨ns', _, img G v ++ r2, ents G i v ++ es, rfl, tracedE_changed G v i t1, by rw [← List.append_assoc]; exact t2, ?_, ?_, ?_, ?_, ?_⟩
      case refine_5 =>
        intro pieces hpc
        cases hpc with
        | @cons x _ pieces _ hx hpc =>
          obtain ⟨v', b⟩ := x
          obtain ⟨x1, x2, x3⟩ := hx
          have hv' : v' = v := utf8_injective x1 (bmp_scalars hbv) (x2.symm.trans h1)
          have hb : b = false := by
            cases b with
            | false => rfl
            | true => exact absurd (x3.2 rfl) ht
          subst hv' hb
          rw [t7 pieces hpc]; rfl
      · exact hpl1.append (by rw [hl']; exact t3)
      · intro q hq
        rcases List.mem_append.1 hq with hq | hq
        · exact hh q hq
        · exact t4 q hq
      · intro _ h
        exact hh0 (List.append_eq_nil_iff.1 h).1
      · intro q hq
        rcases List.mem_append.1 hq with hq | hq
        · rcases hht q hq with h | h
          · exact .inl h
          · have e2 : a.normTrie = a0.normTrie := by rw [hT0.same]
            obtain ⟨i, k, l, r, hk, rest⟩ := touched_isToken hT0 h
            rw [e2] at hk
            exact .inr ⟨i, k, l, r, List.mem_append_right _ hk, rest⟩
        · exact t6 q hq

theorem extract_traced (P : Platform) {n : Option Normalizer} {G : Nat → List (Nat × Nat)} {a : AddedVocab} {w : WStr}
    (hA : ActsAs P n G w) (hw : Cuttable a w) (hw' : Cuttable a (img G w)) (hw0 : w ≠ [])
    (hT : ∀ p ∈ a.nonNormTrie, Ascii p.1) (hne : ∀ p ∈ a.nonNormTrie ++ a.normTrie, p.1 ≠ []) :
    ∃ p w' es, (a.extract P n w).1 = .ok p ∧ TracedE G 0 w w' es ∧ Tbl es p.normalized ∧ Placed w' 0 p.splits ∧
      (∀ s ∈ p.splits, s.normalized ≠ []) ∧ (∀ s ∈ p.splits, s.tokens = [] ∨ IsToken a (a.nonNormTrie ++ a.normTrie) s) ∧
      ∃ first, (a.firstSplits w).1 = .ok first ∧ ∀ pieces, TPieces pieces first.splits → es = entsAll G 0 pieces := by
  have hs := bmp_scalars hw.1
  have htouch := firstSplits_touched a w
  have hfirst : ∃ p0, (a.firstSplits w).1 = .ok p0 ∧ p0.normalized = NS.ofText w ∧ Placed w 0 p0.splits ∧
      p0.splits ≠ [] ∧ TokensAscii p0.splits ∧ (∀ s ∈ p0.splits, s.normalized ≠ []) ∧
      (∀ s ∈ p0.splits, s.tokens = [] ∨ IsToken a a.nonNormTrie s) := by
    obtain ⟨segs, out, f1, f2, f3, f4, f5, f6⟩ := segSplits_filled (T := a.nonNormTrie) hw
      (fun p hp => List.mem_append_left _ hp) (fun p hp => hne p (List.mem_append_left _ hp)) 0
    unfold AddedVocab.firstSplits PTS.ofNS
    simp only [NS.ofText, convertToString_scalars hs, res_ok_bind, res_pure, f1, f2, if_neg (f6 hw0)]
    refine ⟨_, rfl, rfl, f3, f6 hw0, ?_, f4, f5⟩
    intro s hs' htok
    rcases f5 s hs' with h | h
    · exact absurd h htok
    · exact isToken_ascii h hT
  obtain ⟨p0, e0, h1, h2, h3, h4, h5, h6⟩ := hfirst
  unfold AddedVocab.extract
  generalize a.firstSplits w = R at e0 htouch
  obtain ⟨r, a'⟩ := R
  simp only at e0 htouch
  subst e0
  have hk : a'.normTrie = a.normTrie := by rw [htouch.same]
  obtain ⟨ns, out, w', es, e, t1, t2, t3, t4, t5, t6, t7⟩ := normalizeLoop_traced P (a0 := a) hA p0.splits a' p0.normalized [] 0 w (fun _ h => h) h2
    (touched_cuttable htouch hw) (touched_cuttable htouch hw') (by rw [h1, List.nil_append]; exact ofText_asIs hw.1) h4 h5
    (by rw [hk]; exact fun p hp => hne p (List.mem_append_right _ hp)) htouch (fun s hs => by
      rcases h6 s hs with h | ⟨i, k, l, r, hk, rest⟩
      · exact .inl h
      · exact .inr ⟨i, k, l, r, List.mem_append_left _ hk, rest⟩)
  simp only [List.length_nil] at e t3
  simp only
  generalize normalizeLoop P n a' p0.normalized 0 p0.splits = R at e
  obtain ⟨r, a2⟩ := R
  simp only at e
  subst e
  simp only [if_neg (t5 h3)]
  exact ⟨_, w', es, rfl, t1, by simpa using t2, t3, t4, t6, p0, rfl, t7⟩

end Tok
