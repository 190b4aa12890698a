import Verif.Proofs.BPETokens

set_option autoImplicit false

/-!
Lemmas on the symbols of a word, by position.
-/

namespace Tok
open Spec

theorem fallbackCode_eq (b : Nat) : fallbackCode b = fallbackKey b := rfl

theorem symbolKey_eq (m : BPE) (x : Str) (b : Nat) (r : Str) :
    m.symbolKey b x.isEmpty r.isEmpty = spelling m.pre m.suf (x ++ b :: r) (x.length, x.length + 1) := by
  have e1 : ((x ++ b :: r).drop x.length).take (x.length + 1 - x.length) = [b] := by
    rw [List.drop_left]; simp
  unfold spelling BPE.symbolKey
  simp only [e1]
  have hpre : (if !x.isEmpty && decide (m.pre.length ≠ 0) then m.pre ++ [b] else [b]) =
      (if x.length = 0 then [] else m.pre) ++ [b] := by
    cases x with
    | nil => simp
    | cons y x =>
      cases hp : m.pre with
      | nil => simp
      | cons z p => simp
  have hsuf : ∀ t : Str, (if r.isEmpty && decide (m.suf.length ≠ 0) then t ++ m.suf else t) =
      t ++ (if x.length + 1 = (x ++ b :: r).length then m.suf else []) := by
    intro t
    cases r with
    | nil =>
      cases hp : m.suf with
      | nil => simp
      | cons z p => simp
    | cons y r => simp
  rw [hpre, hsuf]

/-- What there is for a key. -/
def foundKey (m : BPE) (key : Str) : Found :=
  match mapFind m.vocab key with
  | some id => .entry id
  | none =>
    match fallbackIds m.vocab key with
    | [] => .nothing
    | id :: ids => if m.byteFallback then .bytes (id :: ids) else .nothing

/-- What there is for the bytes of `r` in the word `x ++ r`. -/
def foundFrom (m : BPE) (x : Str) : Str → List Found
  | [] => []
  | b :: r => foundKey m (m.symbolKey b x.isEmpty r.isEmpty) :: foundFrom m (x ++ [b]) r

theorem foundFrom_eq (m : BPE) (r : Str) : ∀ x : Str, foundFrom m x r =
    (List.range r.length).map fun i => found (tokenToId m.vocab) m.pre m.suf m.byteFallback (x ++ r) (x.length + i) := by
  induction r with
  | nil => intro x; rfl
  | cons b r ih =>
    intro x
    simp only [foundFrom, ih, List.length_cons, List.range_succ_eq_map, List.map_cons, List.map_map]
    congr 1
    · rw [symbolKey_eq]; rfl
    · apply List.map_congr_left
      intro i _
      simp only [Function.comp, List.length_append, List.length_singleton, List.append_assoc, List.singleton_append]
      have e : x.length + 1 + i = x.length + i.succ := by omega
      rw [e]

theorem foundFrom_nil (m : BPE) (s : Str) :
    foundFrom m [] s = foundAll (tokenToId m.vocab) m.pre m.suf m.byteFallback s := by
  rw [foundFrom_eq]
  simp only [foundAll, List.nil_append, List.length_nil, Nat.zero_add]

/-- The unknown token's id. -/
def unkId (m : BPE) : Option Int := if m.unkToken.length = 0 then none else mapFind m.vocab m.unkToken

theorem isEmpty_snoc (x : Str) (b : Nat) : (x ++ [b]).isEmpty = false := by cases x <;> rfl

theorem goodPend_byteSyms {m : BPE} {b : Nat} {f l : Bool} {unk : Option (Int × Nat)} (hu : GoodPend m unk) :
    GoodPend m (byteSyms m b f l unk).2 := (byteSyms_spec m b f l unk hu).1

/-- The symbols, from what there is for each byte. -/
def machine (unk : Option Int) (fuse : Bool) : List Found → Option (Int × Nat) → List (Int × Nat)
  | [], p => pend p
  | .entry i :: r, p => pend p ++ (i, 1) :: machine unk fuse r none
  | .bytes ids :: r, p => byteTokens [.bytes ids] ++ machine unk fuse r p
  | .nothing :: r, p =>
    match unk with
    | none => machine unk fuse r p
    | some u =>
      match p, fuse with
      | some q, true => machine unk fuse r (some (q.1, q.2 + 1))
      | _, _ => pend p ++ machine unk fuse r (some (u, 1))

theorem byteTokens_one (ids : List Int) : byteTokens [.bytes ids] = ids.map fun i => (i, 1) := by
  simp [byteTokens]

theorem byteTokens_cons (f : Found) (fs : List Found) : byteTokens (f :: fs) = byteTokens [f] ++ byteTokens fs := by
  simp [byteTokens]

theorem symList_machine (m : BPE) (r : Str) : ∀ (x : Str) (unk : Option (Int × Nat)), GoodPend m unk →
    symList m x.isEmpty r unk = machine (unkId m) m.fuseUnk (foundFrom m x r) unk := by
  induction r with
  | nil => intro x unk _; rfl
  | cons b r ih =>
    intro x unk hg
    have hih := fun unk h => ih (x ++ [b]) unk h
    simp only [isEmpty_snoc] at hih
    simp only [symList, foundFrom]
    have hgr := goodPend_byteSyms (b := b) (f := x.isEmpty) (l := r.isEmpty) hg
    rw [hih _ hgr]
    have hc := byteSyms_case m b x.isEmpty r.isEmpty unk
    generalize byteSyms m b x.isEmpty r.isEmpty unk = R at hc hgr
    have hno : fbIds m (m.symbolKey b x.isEmpty r.isEmpty) = [] → mapFind m.vocab (m.symbolKey b x.isEmpty r.isEmpty) = none →
        foundKey m (m.symbolKey b x.isEmpty r.isEmpty) = .nothing := by
      intro h1 h2
      unfold foundKey
      rw [h2]
      simp only
      unfold fbIds at h1
      split
      · rfl
      · rename_i id ids h
        split
        · rename_i hb; rw [if_pos hb, h] at h1; cases h1
        · rfl
    cases hc with
    | known i hk => simp [foundKey, hk, machine]
    | bytes hk hb =>
      have : foundKey m (m.symbolKey b x.isEmpty r.isEmpty) = .bytes (fbIds m (m.symbolKey b x.isEmpty r.isEmpty)) := by
        unfold foundKey
        rw [hk]
        unfold fbIds at hb ⊢
        by_cases h : m.byteFallback = true
        · rw [if_pos h] at hb ⊢
          cases hf : fallbackIds m.vocab (m.symbolKey b x.isEmpty r.isEmpty) with
          | nil => exact absurd hf hb
          | cons id ids => simp [h]
        · rw [if_neg h] at hb; exact absurd rfl hb
      rw [this]
      simp only [machine, byteTokens_one]
    | fuse u hk hb hl h1 h2 =>
      subst h2
      rw [hno hb hk]
      have hu : unkId m = some u.1 := by
        obtain ⟨_, h2, h3⟩ := hg _ rfl
        simp only [unkId, h2, if_false]; exact h3
      simp only [machine, hu, h1, List.nil_append]
    | unk i hk hb hl h1 h2 =>
      rw [hno hb hk]
      have hu : unkId m = some i := by simp only [unkId, hl, if_false]; exact h2
      cases unk with
      | none => simp only [machine, hu]
      | some q =>
        have h1 : m.fuseUnk = false := by rcases h1 with h | h; cases h; exact h
        simp only [machine, hu, h1]
    | noUnk hk hb hl h1 h2 =>
      rw [hno hb hk]
      have hu : unkId m = none := by simp only [unkId, hl, if_false]; exact h2
      cases unk with
      | none => simp only [machine, hu, pend, Option.toList, List.nil_append]
      | some u => rw [(hg _ rfl).2.2] at h2; cases h2
    | skip hk hb hl =>
      rw [hno hb hk]
      have hu : unkId m = none := by simp [unkId, hl]
      simp only [machine, hu, List.nil_append]

theorem machine_bytes {unk : Option Int} {fuse : Bool} {fs r : List Found} (h : ∀ f ∈ fs, ∃ ids, f = .bytes ids)
    (p : Option (Int × Nat)) : machine unk fuse (fs ++ r) p = byteTokens fs ++ machine unk fuse r p := by
  induction fs with
  | nil => rfl
  | cons f fs ih =>
    obtain ⟨ids, rfl⟩ := h f (by simp)
    rw [List.cons_append, machine, ih fun f hf => h f (by simp [hf]), byteTokens_cons _ fs, List.append_assoc]

theorem machine_run {u : Int} {fs r : List Found} (h : ∀ f ∈ fs, ∀ i, f ≠ .entry i) : ∀ (q : Int × Nat),
    machine (some u) true (fs ++ r) (some q) =
      byteTokens fs ++ machine (some u) true r (some (q.1, q.2 + fs.count .nothing)) := by
  induction fs with
  | nil => intro q; rfl
  | cons f fs ih =>
    intro q
    have hih := ih fun f hf => h f (by simp [hf])
    cases f with
    | entry i => exact absurd rfl (h _ (by simp) i)
    | bytes ids =>
      rw [List.cons_append, machine, hih, byteTokens_cons _ fs, List.append_assoc]
      simp
    | nothing =>
      rw [List.cons_append, machine, hih, byteTokens_cons _ fs]
      simp only [List.count_cons_self]
      rw [Nat.add_right_comm, Nat.add_assoc]
      rfl

theorem machine_flush {u : Int} {fuse : Bool} {r : List Found} {p : Int × Nat}
    (h : ∀ f, r.head? = some f → (∃ i, f = .entry i) ∨ (fuse = false ∧ f = .nothing)) :
    machine (some u) fuse r (some p) = p :: machine (some u) fuse r none := by
  cases r with
  | nil => rfl
  | cons f r =>
    rcases h f rfl with ⟨i, rfl⟩ | ⟨rfl, rfl⟩
    · rfl
    · rfl

theorem machine_start (u : Int) (fuse : Bool) (r : List Found) :
    machine (some u) fuse (.nothing :: r) none = machine (some u) fuse r (some (u, 1)) := by
  rw [machine]
  · rfl
  · simp

theorem pieces_machine {unk : Option Int} {fuse : Bool} {es : List Found} {l : List (Int × Nat)} :
    Pieces unk fuse es l ↔ l = machine unk fuse es none := by
  constructor
  · intro h
    induction h with
    | nil => rfl
    | known _ ih => rw [ih]; rfl
    | bytes _ ih => rw [ih]; rfl
    | dropped hu _ ih => rw [ih, hu]; rfl
    | @single u fs r l hu hf h1 h2 _ ih =>
      subst hu hf
      rw [ih, List.cons_append, machine_start, machine_bytes h1, machine_flush]
      · intro f hf
        cases f with
        | entry i => exact .inl ⟨i, rfl⟩
        | bytes ids => exact absurd hf (h2 ids)
        | nothing => exact .inr ⟨rfl, rfl⟩
    | @run u fs r l hu hf h1 h2 _ ih =>
      subst hu hf
      rw [ih, List.cons_append, machine_start, machine_run h1, machine_flush fun f hf => .inl (h2 f hf)]
  · rintro rfl
    have gen : ∀ (n : Nat) (es : List Found), es.length ≤ n → Pieces unk fuse es (machine unk fuse es none) := by
      intro n
      induction n with
      | zero => intro es h; have := List.length_eq_zero_iff.1 (Nat.le_zero.1 h); subst this; exact .nil
      | succ n ih =>
        intro es h
        cases es with
        | nil => exact .nil
        | cons f r =>
          simp only [List.length_cons] at h
          cases f with
          | entry i => exact .known (ih r (by omega))
          | bytes ids => exact .bytes (ih r (by omega))
          | nothing =>
            cases unk with
            | none => exact .dropped rfl (ih r (by omega))
            | some u =>
              cases fuse with
              | false =>
                let isB : Found → Bool := fun f => match f with | .bytes _ => true | _ => false
                have e : r = r.takeWhile isB ++ r.dropWhile isB := List.takeWhile_append_dropWhile.symm
                have h1 : ∀ f ∈ r.takeWhile isB, ∃ ids, f = .bytes ids := by
                  intro f hf
                  have := List.all_takeWhile (p := isB) (l := r)
                  have := List.all_eq_true.1 this f hf
                  cases f with
                  | bytes ids => exact ⟨ids, rfl⟩
                  | entry _ => cases this
                  | nothing => cases this
                have h2 : ∀ ids, (r.dropWhile isB).head? ≠ some (.bytes ids) := by
                  intro ids hh
                  have := List.head?_dropWhile_not isB r
                  rw [hh] at this
                  simp [isB] at this
                have h3 : (r.dropWhile isB).length ≤ n := by
                  have : r.length = (r.takeWhile isB ++ r.dropWhile isB).length := by rw [← e]
                  rw [List.length_append] at this; omega
                generalize r.takeWhile isB = fs at e h1
                generalize r.dropWhile isB = r' at e h2 h3
                subst e
                have := Pieces.single (unk := some u) rfl rfl h1 h2 (ih r' h3)
                have e2 : machine (some u) false (.nothing :: (fs ++ r')) none =
                    byteTokens fs ++ (u, 1) :: machine (some u) false r' none := by
                  rw [machine_start, machine_bytes h1, machine_flush]
                  · intro f hf
                    cases f with
                    | entry i => exact .inl ⟨i, rfl⟩
                    | bytes ids => exact absurd hf (h2 ids)
                    | nothing => exact .inr ⟨rfl, rfl⟩
                rw [e2]; exact this
              | true =>
                let isB : Found → Bool := fun f => match f with | .entry _ => false | _ => true
                have e : r = r.takeWhile isB ++ r.dropWhile isB := List.takeWhile_append_dropWhile.symm
                have h1 : ∀ f ∈ r.takeWhile isB, ∀ i, f ≠ .entry i := by
                  rintro f hf i rfl
                  have := List.all_takeWhile (p := isB) (l := r)
                  have := List.all_eq_true.1 this _ hf
                  cases this
                have h2 : ∀ f, (r.dropWhile isB).head? = some f → ∃ i, f = .entry i := by
                  intro f hh
                  have := List.head?_dropWhile_not isB r
                  rw [hh] at this
                  cases f with
                  | entry i => exact ⟨i, rfl⟩
                  | bytes _ => simp [isB] at this
                  | nothing => simp [isB] at this
                have h3 : (r.dropWhile isB).length ≤ n := by
                  have : r.length = (r.takeWhile isB ++ r.dropWhile isB).length := by rw [← e]
                  rw [List.length_append] at this; omega
                generalize r.takeWhile isB = fs at e h1
                generalize r.dropWhile isB = r' at e h2 h3
                subst e
                have := Pieces.run (unk := some u) rfl rfl h1 h2 (ih r' h3)
                have e2 : machine (some u) true (.nothing :: (fs ++ r')) none =
                    byteTokens fs ++ (u, 1 + fs.count .nothing) :: machine (some u) true r' none := by
                  rw [machine_start, machine_run h1, machine_flush fun f hf => .inl (h2 f hf)]
                rw [e2]; exact this
    exact gen _ es (Nat.le_refl _)

/-- The symbols are the specified pieces. -/
theorem symList_pieces (m : BPE) (s : Str) :
    Pieces (unkId m) m.fuseUnk (foundFrom m [] s) (symList m true s none) :=
  pieces_machine.2 (symList_machine m s [] none (goodPend_none m))

theorem byteTokens_sum (fs : List Found) (u : Int) :
    ((byteTokens fs).map (·.2)).sum + (fs.count .nothing) + (fs.countP fun f => match f with | .entry _ => true | _ => false) =
      (fs.map (counted (some u))).sum := by
  induction fs with
  | nil => rfl
  | cons f fs ih =>
    rw [byteTokens_cons, List.map_append, List.sum_append, List.map_cons, List.sum_cons, ← ih]
    cases f with
    | entry i => simp [byteTokens, counted]; omega
    | bytes ids =>
      have : ((byteTokens [.bytes ids]).map (·.2)).sum = ids.length := by
        rw [byteTokens_one, List.map_map]
        clear ih
        induction ids with
        | nil => rfl
        | cons i ids ih => simp only [List.map_cons, List.sum_cons, ih, Function.comp, List.length_cons]; omega
      rw [this]; simp [counted]; omega
    | nothing => simp [byteTokens, counted]; omega

/-- What the pieces add up to. -/
theorem pieces_sum {unk : Option Int} {fuse : Bool} {es : List Found} {l : List (Int × Nat)}
    (h : Pieces unk fuse es l) : (l.map (·.2)).sum = (es.map (counted unk)).sum := by
  induction h with
  | nil => rfl
  | known _ ih => simp only [List.map_cons, List.sum_cons, ih, counted]
  | @bytes ids r l _ ih =>
    rw [List.map_append, List.sum_append, ih, List.map_cons, List.sum_cons]
    have := byteTokens_sum [.bytes ids] 0
    simp at this
    simp only [counted] at this ⊢
    rw [this]
  | dropped hu _ ih => rw [List.map_cons, List.sum_cons, ih]; simp [counted, hu]
  | @single u fs r l hu hf h1 _ _ ih =>
    have h0 := byteTokens_sum fs u
    have c1 : fs.count .nothing = 0 := List.count_eq_zero.2 (by intro h; obtain ⟨_, h⟩ := h1 _ h; cases h)
    have c2 : (fs.countP fun f => match f with | .entry _ => true | _ => false) = 0 := by
      rw [List.countP_eq_zero]; intro f hf; obtain ⟨_, rfl⟩ := h1 f hf; simp
    rw [List.map_append, List.sum_append, List.map_cons, List.sum_cons, ih, List.cons_append, List.map_cons, List.sum_cons,
      List.map_append, List.sum_append]
    subst hu
    have : counted (some u) .nothing = 1 := rfl
    rw [this]; simp only; omega
  | @run u fs r l hu hf h1 _ _ ih =>
    have h0 := byteTokens_sum fs u
    have c2 : (fs.countP fun f => match f with | .entry _ => true | _ => false) = 0 := by
      rw [List.countP_eq_zero]; intro f hf
      cases f with
      | entry i => exact absurd rfl (h1 _ hf i)
      | bytes _ => simp
      | nothing => simp
    rw [List.map_append, List.sum_append, List.map_cons, List.sum_cons, ih, List.cons_append, List.map_cons, List.sum_cons,
      List.map_append, List.sum_append]
    subst hu
    have : counted (some u) .nothing = 1 := rfl
    rw [this]; simp only; omega

/-- A byte for which byte fallback can find one byte token at most is counted once at most. -/
theorem counted_le (V : Str → Option Int) (pre suf : Str) (fb : Bool) (s : Str) (unk : Option Int)
    (h1 : fb = false ∨ (pre = [] ∧ suf = [])) (i : Nat) : counted unk (found V pre suf fb s i) ≤ 1 := by
  unfold found
  split
  · exact Nat.le_refl _
  · split
    · simp only [counted]; split <;> omega
    · rename_i id ids h
      split
      · rename_i hb
        rcases h1 with h1 | ⟨rfl, rfl⟩
        · rw [hb] at h1; cases h1
        · have : (id :: ids).length ≤ (spelling [] [] s (i, i + 1)).length := by rw [← h]; exact List.length_filterMap_le _ _
          have h2 : (spelling [] [] s (i, i + 1)).length ≤ 1 := by
            unfold spelling; simp; omega
          simp only [counted]; omega
      · simp only [counted]; split <;> omega

theorem counted_pos (V : Str → Option Int) (pre suf u : Str) (fb : Bool) (s : Str) (i : Nat) (h : Yields V pre suf u fb s i)
    {k : Option Int} (hk : k = if u = [] then none else V u) : 0 < counted k (found V pre suf fb s i) := by
  unfold found
  split
  · simp [counted]
  · rename_i h0
    have hn : (unk : Option Int) → unk ≠ none → 0 < counted unk .nothing := by
      intro unk h; simp [counted, h]
    split
    · rename_i hf
      rcases h with ⟨_, h⟩ | ⟨_, b, hb, id, h⟩ | ⟨h1, id, h⟩
      · rw [h0] at h; cases h
      · have : id ∈ (spelling pre suf s (i, i + 1)).filterMap fun b => V (fallbackKey b) := List.mem_filterMap.2 ⟨b, hb, h⟩
        rw [hf] at this; cases this
      · exact hn _ (by rw [hk, if_neg h1, h]; simp)
    · split
      · simp [counted]
      · rename_i hb
        rcases h with ⟨_, h⟩ | ⟨h, _⟩ | ⟨h1, id, h⟩
        · rw [h0] at h; cases h
        · exact absurd h hb
        · exact hn _ (by rw [hk, if_neg h1, h]; simp)

theorem sum_ones {l : List Nat} (h : ∀ n ∈ l, n = 1) : l.sum = l.length := by
  induction l with
  | nil => rfl
  | cons n l ih =>
    rw [List.sum_cons, List.length_cons, ih fun n hn => h n (by simp [hn]), h n (by simp)]; omega

theorem sum_le_ones {l : List Nat} (h : ∀ n ∈ l, n ≤ 1) : l.sum ≤ l.length := by
  induction l with
  | nil => exact Nat.le_refl _
  | cons n l ih =>
    rw [List.sum_cons, List.length_cons]
    have := ih fun n hn => h n (by simp [hn])
    have := h n (by simp)
    omega

/-! ### Which words have symbols -/

theorem fbIds_ne_nil (m : BPE) (x : Str) (b : Nat) (r : Str) :
    fbIds m (m.symbolKey b x.isEmpty r.isEmpty) ≠ [] ↔
      m.byteFallback = true ∧ Fallback (tokenToId m.vocab) m.pre m.suf (x ++ b :: r) x.length := by
  unfold fbIds Fallback
  rw [symbolKey_eq]
  cases m.byteFallback with
  | false => simp
  | true =>
    simp only [if_true, true_and]
    rw [← List.length_pos_iff, List.length_pos_iff_exists_mem]
    constructor
    · rintro ⟨a, ha⟩
      simp only [fallbackIds, List.mem_filterMap] at ha
      obtain ⟨c, hc, h⟩ := ha
      exact ⟨c, hc, a, h⟩
    · rintro ⟨c, hc, a, h⟩
      exact ⟨a, List.mem_filterMap.2 ⟨c, hc, h⟩⟩

/-- The word `x ++ r` yields no symbol at or after position `x.length`. -/
theorem symList_nil_iff (m : BPE) (r : Str) : ∀ (x : Str) (unk : Option (Int × Nat)), GoodPend m unk →
    (symList m x.isEmpty r unk = [] ↔ unk = none ∧
      ∀ i, i < r.length → ¬ Yields (tokenToId m.vocab) m.pre m.suf m.unkToken m.byteFallback (x ++ r) (x.length + i)) := by
  induction r with
  | nil => intro x unk _; cases unk <;> simp [symList, pend]
  | cons b r ih =>
    intro x unk hg
    have hih := ih (x ++ [b]) (byteSyms m b x.isEmpty r.isEmpty unk).2 (goodPend_byteSyms hg)
    rw [isEmpty_snoc] at hih
    simp only [List.append_assoc, List.singleton_append, List.length_append, List.length_singleton] at hih
    -- positions of the rest
    have hrest : (∀ i, i < (b :: r).length →
          ¬ Yields (tokenToId m.vocab) m.pre m.suf m.unkToken m.byteFallback (x ++ b :: r) (x.length + i)) ↔
        ¬ Yields (tokenToId m.vocab) m.pre m.suf m.unkToken m.byteFallback (x ++ b :: r) x.length ∧
        ∀ i, i < r.length →
          ¬ Yields (tokenToId m.vocab) m.pre m.suf m.unkToken m.byteFallback (x ++ b :: r) (x.length + 1 + i) := by
      constructor
      · intro h
        refine ⟨by have := h 0 (by simp); simpa using this, ?_⟩
        intro i hi
        have := h (i + 1) (by simp; omega)
        rwa [show x.length + 1 + i = x.length + (i + 1) by omega]
      · rintro ⟨h1, h2⟩ i hi
        cases i with
        | zero => simpa using h1
        | succ i =>
          have := h2 i (by simp at hi; omega)
          rwa [show x.length + 1 + i = x.length + (i + 1) by omega] at this
    rw [hrest]
    simp only [symList, List.append_eq_nil_iff, hih]
    have hk := symbolKey_eq m x b r
    have hfb := fbIds_ne_nil m x b r
    have hc := byteSyms_case m b x.isEmpty r.isEmpty unk
    generalize byteSyms m b x.isEmpty r.isEmpty unk = R at hc
    cases hc with
    | known i h =>
      rw [hk] at h
      constructor
      · rintro ⟨h1, _⟩; simp at h1
      · rintro ⟨_, h1, _⟩; exact absurd (.inl ⟨i, h⟩) h1
    | bytes h hb =>
      constructor
      · rintro ⟨h1, _⟩; simp at h1; exact absurd h1 hb
      · rintro ⟨_, h1, _⟩; exact absurd (.inr (.inl (hfb.1 hb))) h1
    | fuse u h hb hl h1 h2 =>
      subst h2
      constructor
      · rintro ⟨_, h1, _⟩; cases h1
      · rintro ⟨h1, _⟩; cases h1
    | unk i h hb hl h1 h2 =>
      constructor
      · rintro ⟨_, h1, _⟩; cases h1
      · rintro ⟨_, h1, _⟩
        refine absurd (.inr (.inr ⟨?_, i, h2⟩)) h1
        intro e; rw [e] at hl; exact hl rfl
    | noUnk h hb hl h1 h2 =>
      have hn : ¬ Yields (tokenToId m.vocab) m.pre m.suf m.unkToken m.byteFallback (x ++ b :: r) x.length := by
        rintro (⟨i, h'⟩ | h' | ⟨_, i, h'⟩)
        · rw [← hk, tokenToId, h] at h'; cases h'
        · exact absurd hb (hfb.2 h')
        · rw [tokenToId, h2] at h'; cases h'
      constructor
      · rintro ⟨_, h3, h4⟩; exact ⟨h3, hn, h4⟩
      · rintro ⟨rfl, _, h4⟩; exact ⟨rfl, rfl, h4⟩
    | skip h hb hl =>
      have hn : ¬ Yields (tokenToId m.vocab) m.pre m.suf m.unkToken m.byteFallback (x ++ b :: r) x.length := by
        rintro (⟨i, h'⟩ | h' | ⟨h', _⟩)
        · rw [← hk, tokenToId, h] at h'; cases h'
        · exact absurd hb (hfb.2 h')
        · exact absurd (List.length_eq_zero_iff.1 hl) h'
      constructor
      · rintro ⟨_, h3, h4⟩; exact ⟨h3, hn, h4⟩
      · rintro ⟨rfl, _, h4⟩; exact ⟨rfl, rfl, h4⟩

/-! ### Unknown tokens -/

/-- No two neighbours have the id `u`. -/
def NoAdj (u : Int) (l : List (Int × Nat)) : Prop :=
  ∀ A x y B, l = A ++ x :: y :: B → ¬ (x.1 = u ∧ y.1 = u)

theorem noAdj_cons {u : Int} {p : Int × Nat} {l : List (Int × Nat)} :
    NoAdj u (p :: l) ↔ NoAdj u l ∧ ∀ q, l.head? = some q → ¬ (p.1 = u ∧ q.1 = u) := by
  constructor
  · intro h
    refine ⟨fun A x y B e => h (p :: A) x y B (by rw [e]; rfl), ?_⟩
    intro q hq
    cases l with
    | nil => simp at hq
    | cons x l => simp at hq; subst hq; exact h [] p x l rfl
  · rintro ⟨h1, h2⟩ A x y B e
    cases A with
    | nil => simp at e; obtain ⟨rfl, rfl⟩ := e; exact h2 y rfl
    | cons a A => simp at e; exact h1 A x y B e.2

theorem noAdj_cons_ne {u : Int} {p : Int × Nat} {l : List (Int × Nat)} (hp : p.1 ≠ u) (hl : NoAdj u l) :
    NoAdj u (p :: l) := noAdj_cons.2 ⟨hl, fun _ _ h => hp h.1⟩

theorem noAdj_append_ne {u : Int} {l' l : List (Int × Nat)} (hp : ∀ p ∈ l', p.1 ≠ u) (hl : NoAdj u l) :
    NoAdj u (l' ++ l) := by
  induction l' with
  | nil => exact hl
  | cons p r ih => exact noAdj_cons_ne (hp p (by simp)) (ih fun q hq => hp q (by simp [hq]))

theorem noAdj_tail {u : Int} {l' l : List (Int × Nat)} (hl : NoAdj u (l' ++ l)) : NoAdj u l := by
  induction l' with
  | nil => exact hl
  | cons p r ih => exact ih (noAdj_cons.1 hl).1

theorem noAdj_merge {u : Int} {A B : List (Int × Nat)} {a b c : Int × Nat} (hc : c.1 ≠ u)
    (h : NoAdj u (A ++ a :: b :: B)) : NoAdj u (A ++ c :: B) := by
  induction A with
  | nil => exact noAdj_cons_ne hc (noAdj_cons.1 (noAdj_cons.1 h).1).1
  | cons x A ih =>
    rw [List.cons_append, noAdj_cons] at h ⊢
    refine ⟨ih h.1, ?_⟩
    intro q hq
    cases A with
    | nil => simp at hq; subst hq; exact fun h => hc h.2
    | cons y A => exact h.2 q hq

/-- The symbols at the byte positions of `r` are not the unknown token. -/
def NotUnk (m : BPE) (u : Int) (k : Str) : Prop :=
  mapFind m.vocab k ≠ some u ∧ ∀ b ∈ k, mapFind m.vocab (fallbackCode b) ≠ some u

theorem symList_noAdj (m : BPE) (u : Int) (hf : m.fuseUnk = true) (r : Str) : ∀ (x : Str) (unk : Option (Int × Nat)),
    (∀ i, i < r.length → NotUnk m u (spelling m.pre m.suf (x ++ r) (x.length + i, x.length + i + 1))) →
    NoAdj u (symList m x.isEmpty r unk) := by
  induction r with
  | nil => intro x unk _ A a b B h; cases unk <;> cases A <;> simp [symList, pend] at h
  | cons b r ih =>
    intro x unk hall
    have h0 := hall 0 (by simp)
    rw [Nat.add_zero, ← symbolKey_eq] at h0
    have hih := fun unk => ih (x ++ [b]) unk (by
      intro i hi
      have := hall (i + 1) (by simp; omega)
      simpa [show x.length + 1 + i = x.length + (i + 1) by omega] using this)
    simp only [isEmpty_snoc] at hih
    simp only [symList]
    have hc := byteSyms_case m b x.isEmpty r.isEmpty unk
    generalize byteSyms m b x.isEmpty r.isEmpty unk = R at hc
    cases hc with
    | known i h =>
      have hi : i ≠ u := by intro e; subst e; exact h0.1 h
      have h1 : NoAdj u ([(i, 1)] ++ symList m false r none) := noAdj_cons_ne hi (hih none)
      cases unk with
      | none => exact h1
      | some v =>
        show NoAdj u (v :: ((i, 1) :: symList m false r none))
        rw [noAdj_cons]
        refine ⟨h1, ?_⟩
        intro q hq; simp at hq; subst hq; exact fun h => hi h.2
    | bytes h hb =>
      refine noAdj_append_ne ?_ (hih unk)
      intro p hp
      simp only [List.mem_map, fbIds] at hp
      obtain ⟨i, hi, rfl⟩ := hp
      split at hi
      · simp only [fallbackIds, List.mem_filterMap] at hi
        obtain ⟨c, hc, hci⟩ := hi
        intro e; simp only at e; subst e; exact h0.2 c hc hci
      · simp at hi
    | fuse v h hb hl h1 h2 => exact hih _
    | unk i h hb hl h1 h2 =>
      have hn : unk = none := by rcases h1 with h | h; exact h; rw [hf] at h; cases h
      subst hn; exact hih _
    | noUnk h hb hl h1 h2 =>
      have hn : unk = none := by rcases h1 with h | h; exact h; rw [hf] at h; cases h
      subst hn; exact hih _
    | skip h hb hl => exact hih _

/-- The pieces with id `u`. -/
def withId (u : Int) (l : List (Int × Nat)) : List (Int × Nat) := l.filter fun p => p.1 = u

theorem withId_append (u : Int) (a b : List (Int × Nat)) : withId u (a ++ b) = withId u a ++ withId u b :=
  List.filter_append ..

theorem withId_merge {u : Int} {A B : List (Int × Nat)} {a b c : Int × Nat} (ha : a.1 ≠ u) (hb : b.1 ≠ u)
    (hc : c.1 ≠ u) : withId u (A ++ c :: B) = withId u (A ++ a :: b :: B) := by
  simp [withId, ha, hb, hc]

/-- Whether the byte at a position is unknown. -/
noncomputable def unknownAt (m : BPE) (s : Str) (i : Nat) : Bool :=
  open Classical in decide (Unknown (tokenToId m.vocab) m.pre m.suf m.byteFallback s i)

theorem symList_withId (m : BPE) (u : Int) (hf : m.fuseUnk = false) (hl : m.unkToken.length ≠ 0)
    (hu : mapFind m.vocab m.unkToken = some u) (r : Str) : ∀ (x : Str) (unk : Option (Int × Nat)),
    (∀ v, unk = some v → v = (u, 1)) →
    (∀ i, i < r.length → NotUnk m u (spelling m.pre m.suf (x ++ r) (x.length + i, x.length + i + 1))) →
    withId u (symList m x.isEmpty r unk) =
      pend unk ++ List.replicate ((List.range r.length).countP fun i => unknownAt m (x ++ r) (x.length + i)) (u, 1) := by
  induction r with
  | nil =>
    intro x unk hp _
    cases unk with
    | none => simp [symList, pend, withId]
    | some v => have := hp v rfl; subst this; simp [symList, pend, withId]
  | cons b r ih =>
    intro x unk hp hall
    have h0 := hall 0 (by simp)
    rw [Nat.add_zero, ← symbolKey_eq] at h0
    have hih := fun unk hp => ih (x ++ [b]) unk hp (by
      intro i hi
      have := hall (i + 1) (by simp; omega)
      simpa [show x.length + 1 + i = x.length + (i + 1) by omega] using this)
    simp only [isEmpty_snoc, List.append_assoc, List.singleton_append, List.length_append,
      List.length_singleton] at hih
    have hcount : ((List.range (b :: r).length).countP fun i => unknownAt m (x ++ b :: r) (x.length + i)) =
        (if unknownAt m (x ++ b :: r) x.length then 1 else 0) +
        (List.range r.length).countP fun i => unknownAt m (x ++ b :: r) (x.length + 1 + i) := by
      rw [List.length_cons, List.range_succ_eq_map, List.countP_cons, List.countP_map, Nat.add_comm]
      simp only [Nat.add_zero]
      congr 1
      apply List.countP_congr
      intro i _
      simp only [Function.comp]
      rw [show x.length + 1 + i = x.length + i.succ by omega]
    rw [hcount]
    simp only [symList, withId_append]
    have hk := symbolKey_eq m x b r
    have hfb := fbIds_ne_nil m x b r
    have hwp : withId u (pend unk) = pend unk := by
      cases unk with
      | none => rfl
      | some v => have := hp v rfl; subst this; simp [pend, withId]
    have hunk : mapFind m.vocab (m.symbolKey b x.isEmpty r.isEmpty) = none →
        fbIds m (m.symbolKey b x.isEmpty r.isEmpty) = [] → unknownAt m (x ++ b :: r) x.length = true := by
      intro h hb
      simp only [unknownAt, decide_eq_true_eq]
      exact ⟨by rw [← hk]; exact h, fun h' => hfb.2 h' hb⟩
    have hc := byteSyms_case m b x.isEmpty r.isEmpty unk
    generalize byteSyms m b x.isEmpty r.isEmpty unk = R at hc
    cases hc with
    | known i h =>
      have hi : i ≠ u := by intro e; subst e; exact h0.1 h
      have hno : unknownAt m (x ++ b :: r) x.length = false := by
        simp only [unknownAt, decide_eq_false_iff_not]
        rintro ⟨h', _⟩
        rw [← hk, tokenToId, h] at h'; cases h'
      rw [hih none (by simp), withId_append, hwp, hno]
      simp [withId, hi, pend]
    | bytes h hb =>
      have hno : unknownAt m (x ++ b :: r) x.length = false := by
        simp only [unknownAt, decide_eq_false_iff_not]
        rintro ⟨_, h'⟩
        exact h' (hfb.1 hb)
      have hw : withId u ((fbIds m (m.symbolKey b x.isEmpty r.isEmpty)).map fun i => (i, 1)) = [] := by
        simp only [withId, List.filter_eq_nil_iff, List.mem_map]
        rintro p ⟨i, hi, rfl⟩
        simp only [fbIds] at hi
        split at hi
        · simp only [fallbackIds, List.mem_filterMap] at hi
          obtain ⟨c, hc, hci⟩ := hi
          simp only [decide_eq_true_eq]
          intro e; subst e; exact h0.2 c hc hci
        · simp at hi
      rw [hih unk hp, hw, hno]; simp
    | fuse v h hb hl h1 h2 => rw [hf] at h1; cases h1
    | unk i h hb hl h1 h2 =>
      rw [hu] at h2; cases h2
      rw [hih (some (u, 1)) (by simp), hwp, hunk h hb]
      simp only [pend, Option.toList, if_true]
      rw [Nat.add_comm 1, List.replicate_succ]
      rfl
    | noUnk h hb hl h1 h2 => rw [hu] at h2; cases h2
    | skip h hb hl' => exact absurd hl' hl

end Tok
