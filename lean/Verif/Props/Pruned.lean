import Verif.Spec.Pruned
import Verif.Props.Count
import Verif.Props.Absent
import Verif.Proofs.Order
import Verif.Props.Hangs

set_option autoImplicit false

/-!
C121: vocabulary entries that a text does not need.
-/

namespace Tok
open Spec

/-! ### Merging in step -/

/-- The pieces of the word stay in `G`, and neighbours in `G` are listed alike. -/
structure InStep (merges merges' : Merges) (G : List (Int × Nat) → Prop) : Prop where
  keep : ∀ A x y B r n, G (A ++ x :: y :: B) → mapFind merges (x.1, y.1) = some (r, n) → G (A ++ (n, x.2 + y.2) :: B)
  same : ∀ A x y B, G (A ++ x :: y :: B) → mapFind merges (x.1, y.1) = mapFind merges' (x.1, y.1)

theorem pr_bare_split (A : List Cell) (x y : Cell) (B : List Cell) :
    bare (A ++ x :: y :: B) = bare A ++ (x.c, x.len) :: (y.c, y.len) :: bare B := by simp [bare]

theorem InStep.cells {merges merges' : Merges} {G : List (Int × Nat) → Prop} (h : InStep merges merges' G) {A : List Cell}
    {x y : Cell} {B : List Cell} (hg : G (bare (A ++ x :: y :: B))) : mapFind merges (x.c, y.c) = mapFind merges' (x.c, y.c) := by
  rw [pr_bare_split] at hg
  exact h.same _ _ _ _ hg

theorem pr_left {P : Platform} {merges merges' : Merges} {G : List (Int × Nat) → Prop} (hi : InStep merges merges' G)
    {syms : List Symbol} {A B : List Cell} {x : Cell} {q : List Merge} (hr : Rep syms (A ++ x :: B)) (hg : G (bare (A ++ x :: B))) :
    pushLeft P merges syms q ⟨x.c, lastPos (-1) A, headPos B (-1), x.len⟩ =
      pushLeft P merges' syms q ⟨x.c, lastPos (-1) A, headPos B (-1), x.len⟩ := by
  unfold pushLeft
  simp only
  rcases List.eq_nil_or_concat A with rfl | ⟨A', z, rfl⟩
  · simp [lastPos]
  · have hl : lastPos (-1) (A' ++ [z]) = z.pos := by rw [lastPos_eq]; simp
    have hz : z.pos < syms.length := linked_lt hr.linked z (by simp)
    have hs := linked_at (A := A') (x := z) (B := x :: B) (by simpa using hr.linked)
    simp only [List.concat_eq_append] at *
    rw [hl, if_pos ⟨by omega, by simpa [toSizeT] using hz⟩, if_pos ⟨by omega, by simpa [toSizeT] using hz⟩]
    have := hi.cells (A := A') (x := z) (y := x) (B := B) (by simpa using hg)
    simp only [Int.toNat_natCast, vecAt_some hs, res_ok_bind, res_pure, pushPair, this]

theorem pr_right {P : Platform} {merges merges' : Merges} {G : List (Int × Nat) → Prop} (hi : InStep merges merges' G)
    {syms : List Symbol} {A B : List Cell} {x : Cell} {q : List Merge} (hr : Rep syms (A ++ x :: B)) (hsz : syms.length < 2 ^ 31)
    (hg : G (bare (A ++ x :: B))) :
    pushRight P merges syms q x.pos ⟨x.c, lastPos (-1) A, headPos B (-1), x.len⟩ =
      pushRight P merges' syms q x.pos ⟨x.c, lastPos (-1) A, headPos B (-1), x.len⟩ := by
  unfold pushRight
  simp only
  cases B with
  | nil =>
    have : ¬ toSizeT (headPos [] (-1)) < syms.length := by
      have e : toSizeT (headPos [] (-1)) = 2 ^ 64 - 1 := by decide
      rw [e]; omega
    rw [if_neg this, if_neg this]
  | cons z B =>
    have hz : z.pos < syms.length := linked_lt hr.linked z (by simp)
    have hs := linked_at (A := A ++ [x]) (x := z) (B := B) (by simpa using hr.linked)
    rw [if_pos (by simpa [toSizeT, headPos] using hz), if_pos (by simpa [toSizeT, headPos] using hz)]
    have := hi.cells hg
    simp only [headPos, Int.toNat_natCast, vecAt_some hs, res_ok_bind, res_pure, pushPair, this]

theorem pr_applyTop {P : Platform} {merges merges' : Merges} {G : List (Int × Nat) → Prop} (hi : InStep merges merges' G)
    {syms : List Symbol} {live : List Cell} {q : List Merge} {top : Merge} (hr : Rep syms live) (hlen : syms.length < 2 ^ 31)
    (hlt : top.pos < syms.length) (hg : G (bare live)) :
    applyTop P merges syms q top = applyTop P merges' syms q top := by
  obtain ⟨s, hs⟩ : ∃ s, syms[top.pos]? = some s := ⟨_, List.getElem?_eq_getElem hlt⟩
  have hat : ∀ A x B, live = A ++ x :: B → x.pos = top.pos →
      s = ⟨x.c, lastPos (-1) A, headPos B (-1), x.len⟩ := by
    intro A x B e hp
    have h1 := hr.linked; rw [e] at h1
    have := linked_at h1
    rw [hp, hs] at this
    exact Option.some.inj this
  unfold applyTop
  rw [vecAt_some hs]
  simp only [res_ok_bind]
  by_cases h0 : s.len = 0
  · rw [if_pos h0, if_pos h0]
  · rw [if_neg h0, if_neg h0]
    obtain ⟨x, hx, hxp⟩ := hr.dead _ _ hs h0
    obtain ⟨A, B', e⟩ := List.append_of_mem hx
    have e1 := hat A x B' e hxp
    cases B' with
    | nil =>
      have : s.next = -1 := by rw [e1]; rfl
      rw [if_pos this, if_pos this]
    | cons y B =>
      have hnx : s.next = (y.pos : Int) := by rw [e1]; rfl
      have hyl : y.pos < syms.length := linked_lt hr.linked y (by simp [e])
      have hy : syms[y.pos]? = some ⟨y.c, x.pos, headPos B (-1), y.len⟩ := by
        have h1 := hr.linked; rw [e] at h1
        have := linked_at (A := A ++ [x]) (x := y) (B := B) (by simpa using h1)
        rw [this]
        congr 2
        rw [lastPos_eq]; simp
      have hsz : toSizeT s.next = y.pos := by rw [hnx]; simp [toSizeT]
      have htn : s.next.toNat = y.pos := by rw [hnx]; simp
      rw [if_neg (by omega), if_neg (by omega), if_neg (by omega), if_neg (by omega)]
      rw [htn, vecAt_some hy]
      simp only [res_ok_bind]
      have hsc : s.c = x.c := by rw [e1]
      rw [hsc]
      rw [e] at hg
      have hsame := hi.cells hg
      rw [← hsame]
      cases hf : mapFind merges (x.c, y.c) with
      | none => rfl
      | some rn =>
        obtain ⟨rank, newId⟩ := rn
        simp only
        by_cases hid : newId = top.newId
        · have hnn : ¬ newId ≠ top.newId := by simpa using hid
          rw [if_neg hnn, if_neg hnn, ← hxp]
          rw [e] at hr
          obtain ⟨g1, g2⟩ := mergedSyms_rep (newId := top.newId) hr
          have hg2 : G (bare (A ++ ⟨x.pos, top.newId, x.len + y.len⟩ :: B)) := by
            rw [pr_bare_split] at hg
            rw [hid] at hf
            have := hi.keep _ _ _ _ _ _ hg hf
            simpa [bare] using this
          generalize hms : mergedSyms syms x y ⟨y.c, x.pos, headPos B (-1), y.len⟩ top.newId = syms' at g1 g2
          have hdef := hms
          unfold mergedSyms at hdef
          simp only at hdef
          rw [hdef]
          have hcur := linked_at g2.linked
          simp only at hcur
          rw [vecAt_some hcur]
          simp only [res_ok_bind]
          have hl := pr_left (P := P) (q := q) hi g2 hg2
          simp only at hl
          rw [hl]
          congr 1
          funext q1
          have hr' := pr_right (P := P) (q := q1) hi g2 (by omega) hg2
          simp only at hr'
          rw [hr']
        · rw [if_pos (by simpa using hid), if_pos (by simpa using hid)]

theorem pr_trace {merges merges' : Merges} {d : Dropout} {G : List (Int × Nat) → Prop} (hi : InStep merges merges' G)
    {a b : List Cell} (h : Trace merges d a b) (hg : G (bare a)) : G (bare b) := by
  induction h with
  | refl => exact hg
  | step _ hm _ ih =>
    obtain ⟨pos, newId, A, x, y, B, hm, rfl⟩ := hm
    rw [hm.eq, pr_bare_split] at ih
    have := hi.keep _ _ _ _ _ _ ih hm.listed
    simpa [bare] using this

theorem pr_step {P : Platform} {merges merges' : Merges} {d : Dropout} {G : List (Int × Nat) → Prop} (hi : InStep merges merges' G)
    {n M : Nat} {live0 : List Cell} {st : MState} {live : List Cell} (h : LoopInv P merges d n M live0 st live) (hn : n < 2 ^ 31)
    (hg : G (bare live0)) : mergeStep P merges d st = mergeStep P merges' d st := by
  unfold mergeStep
  cases hp : P.pq.pop st.queue with
  | none => rfl
  | some tq =>
    obtain ⟨top, q⟩ := tq
    simp only
    split
    · rfl
    · have hperm := P.pq.pop_perm _ _ _ h.qinv hp
      have ht : top.pos < n := h.inside top (by rw [List.mem_append, hperm.mem_iff]; simp)
      rw [pr_applyTop hi h.rep (by rw [h.size]; exact hn) (by rw [h.size]; exact ht) (pr_trace hi h.trace hg)]

theorem pr_loop {P : Platform} {merges merges' : Merges} {d : Dropout} {G : List (Int × Nat) → Prop} (hi : InStep merges merges' G)
    {n M : Nat} {live0 : List Cell} (hn : n < 2 ^ 31) (hg : G (bare live0)) (fuel : Nat) : ∀ {st : MState} {live : List Cell},
    LoopInv P merges d n M live0 st live → mergeLoop P merges d fuel st = mergeLoop P merges' d fuel st := by
  induction fuel with
  | zero => intro st live _; rfl
  | succ fuel ih =>
    intro st live h
    simp only [mergeLoop]
    rw [← pr_step hi h hn hg]
    rcases mergeStep_spec h hn with ⟨h1, h2⟩ | ⟨st', live', h1, h2, h3⟩
    · rw [h1]; rfl
    · rw [h1]
      simp only [res_ok_bind]
      exact ih h2

theorem pr_init {P : Platform} {merges merges' : Merges} {G : List (Int × Nat) → Prop} (hi : InStep merges merges' G) (l : List Symbol) :
    ∀ (A : List (Int × Nat)) (i : Nat) (q : List Merge), G (A ++ l.map fun s => (s.c, s.len)) →
    initQueue P merges i l q = initQueue P merges' i l q := by
  induction l with
  | nil => intros; rfl
  | cons a r ih =>
    intro A i q hg
    cases r with
    | nil => rfl
    | cons b r =>
      simp only [initQueue]
      have e : pushPair P merges q i a.c b.c = pushPair P merges' q i a.c b.c := by
        unfold pushPair
        rw [hi.same A (a.c, a.len) (b.c, b.len) _ (by simpa using hg)]
      rw [e]
      exact ih (A ++ [(a.c, a.len)]) _ _ (by simpa using hg)

theorem pr_mergeAll {P : Platform} {merges merges' : Merges} {d : Dropout} {G : List (Int × Nat) → Prop} (hi : InStep merges merges' G)
    {l : List (Int × Nat)} (hpos : ∀ p ∈ l, 0 < p.2) (hn : l.length < 2 ^ 31) (hg : G l) :
    mergeAll P merges d (chain 0 l) = mergeAll P merges' d (chain 0 l) := by
  by_cases hne : l = []
  · subst hne; rfl
  · have hlen := chain_length 0 l
    have hlpos : 0 < l.length := List.length_pos_iff.2 hne
    have hinit := pr_init (P := P) hi (chain 0 l) [] 0 [] (by rw [chain_c, List.nil_append]; exact hg)
    unfold mergeAll
    have hc : chain 0 l ≠ [] := by intro h; rw [h] at hlen; simp at hlen; omega
    split
    · rfl
    · rw [hinit]
      have hinv := pr_inv P merges d l hne hpos
      rw [hinit] at hinv
      rw [pr_loop hi hn (by rw [bare_cells]; exact hg) _ hinv]

/-! ### The pieces of a word -/

/-- The same parameters, another vocabulary and another merge table. -/
def pr_other (m : BPE) (v : Vocab) (ms : Merges) : BPE := { m with vocab := v, merges := ms }

theorem pr_filterMap {α β : Type} {f g : α → Option β} {l : List α} (h : ∀ a ∈ l, f a = g a) : l.filterMap f = l.filterMap g := by
  induction l with
  | nil => rfl
  | cons a l ih =>
    simp only [List.filterMap_cons, h a (by simp), ih fun x hx => h x (by simp [hx])]

theorem pr_symList {m : BPE} {v : Vocab} {ms : Merges} {S : Str}
    (hb : ∀ i, i < S.length → mapFind m.vocab (spelling m.pre m.suf S (i, i + 1)) = mapFind v (spelling m.pre m.suf S (i, i + 1)))
    (hf : m.byteFallback = true → ∀ i b, i < S.length → mapFind m.vocab (spelling m.pre m.suf S (i, i + 1)) = none → b ∈ spelling m.pre m.suf S (i, i + 1) →
      mapFind m.vocab (fallbackKey b) = mapFind v (fallbackKey b))
    (hu : ∀ i, i < S.length → Unknown (tokenToId m.vocab) m.pre m.suf m.byteFallback S i → mapFind m.vocab m.unkToken = mapFind v m.unkToken)
    (s : Str) : ∀ (x : Str) (u : Option (Int × Nat)), S = x ++ s →
    symList (pr_other m v ms) x.isEmpty s u = symList m x.isEmpty s u := by
  induction s with
  | nil => intro x u _; rfl
  | cons b r ih =>
    intro x u hS
    have hl : x.length < S.length := by rw [hS]; simp
    have hk := symbolKey_eq m x b r
    rw [← hS] at hk
    have hk' : (pr_other m v ms).symbolKey b x.isEmpty r.isEmpty = m.symbolKey b x.isEmpty r.isEmpty := rfl
    have h1 := hb _ hl
    rw [← hk] at h1
    have e : byteSyms (pr_other m v ms) b x.isEmpty r.isEmpty u = byteSyms m b x.isEmpty r.isEmpty u := by
      unfold byteSyms
      simp only [hk']
      have p1 : (pr_other m v ms).vocab = v := rfl
      have p2 : (pr_other m v ms).byteFallback = m.byteFallback := rfl
      have p3 : (pr_other m v ms).unkToken = m.unkToken := rfl
      have p4 : (pr_other m v ms).fuseUnk = m.fuseUnk := rfl
      simp only [p1, p2, p3, p4, ← h1]
      cases hc : mapFind m.vocab (m.symbolKey b x.isEmpty r.isEmpty) with
      | some i => rfl
      | none =>
        have hn : mapFind m.vocab (spelling m.pre m.suf S (x.length, x.length + 1)) = none := by rw [← hk]; exact hc
        have h2 : (if m.byteFallback then fallbackIds m.vocab (m.symbolKey b x.isEmpty r.isEmpty) else []) =
            (if m.byteFallback then fallbackIds v (m.symbolKey b x.isEmpty r.isEmpty) else []) := by
          split
          · rename_i hbf
            exact pr_filterMap fun c hc => hf hbf _ c hl hn (by rw [← hk]; exact hc)
          · rfl
        simp only [← h2]
        by_cases hids : (if m.byteFallback then fallbackIds m.vocab (m.symbolKey b x.isEmpty r.isEmpty) else []) = []
        · have hun : Unknown (tokenToId m.vocab) m.pre m.suf m.byteFallback S x.length := by
            refine ⟨hn, ?_⟩
            rintro ⟨hbf, c, hc1, id, hc2⟩
            rw [if_pos hbf, hk] at hids
            have : id ∈ fallbackIds m.vocab (spelling m.pre m.suf S (x.length, x.length + 1)) :=
              List.mem_filterMap.2 ⟨c, hc1, hc2⟩
            rw [hids] at this; cases this
          simp only [hids, hu _ hl hun]
        · simp only [hids, ne_eq, not_false_eq_true, if_true]
    have hne : (x ++ [b]).isEmpty = false := by cases x <;> rfl
    simp only [symList, e]
    have := ih (x ++ [b]) (byteSyms m b x.isEmpty r.isEmpty u).2 (by rw [hS]; simp)
    rw [hne] at this
    rw [this]

/-! ### The keys of pieces -/

/-- The pieces `l` come from neighbouring pieces `ids`, and each has an entry named after them. -/
def pr_named (V : Str → Option Int) (pre : Str) (ids : List Int) (l : List (Int × Nat)) : Prop :=
  ∃ gs : List (List Int), gs.flatten = ids ∧ Each (fun g p => ∃ k, MergedKey V pre g k ∧ V k = some p.1) gs l

theorem pr_start {V : Str → Option Int} {pre : Str} {l : List (Int × Nat)} (h : ∀ p ∈ l, ∃ k, V k = some p.1) :
    pr_named V pre (l.map (·.1)) l := by
  refine ⟨l.map fun p => [p.1], ?_, ?_⟩
  · clear h; induction l with
    | nil => rfl
    | cons p l ih => simp [ih]
  · induction l with
    | nil => exact .nil
    | cons p l ih =>
      obtain ⟨k, hk⟩ := h p (by simp)
      exact .cons ⟨k, .one hk, hk⟩ (ih fun q hq => h q (by simp [hq]))

theorem pr_each_split {α β : Type} {R : α → β → Prop} {gs : List α} {A B : List β} (h : Each R gs (A ++ B)) :
    ∃ X Y, gs = X ++ Y ∧ Each R X A ∧ Each R Y B := by
  induction A generalizing gs with
  | nil => exact ⟨[], gs, rfl, .nil, h⟩
  | cons a A ih =>
    cases h with
    | cons h1 h2 =>
      obtain ⟨X, Y, rfl, hX, hY⟩ := ih h2
      exact ⟨_ :: X, Y, rfl, .cons h1 hX, hY⟩

theorem pr_each_join {α β : Type} {R : α → β → Prop} {X Y : List α} {A B : List β} (h : Each R X A) (h' : Each R Y B) :
    Each R (X ++ Y) (A ++ B) := by
  induction h with
  | nil => exact h'
  | cons h1 _ ih => exact .cons h1 ih

/-- The entries named after neighbouring pieces are the same. -/
def pr_agree (V V' : Str → Option Int) (pre : Str) (ids : List Int) : Prop :=
  ∀ x g y k, ids = x ++ g ++ y → MergedKey V pre g k → V k = V' k

theorem pr_says {V V' : Str → Option Int} {pre : Str} {lines lines' : List Str} (hd : DistinctIds V) (hd' : DistinctIds V') {a b : Int} {p q : Str}
    (ha : V p = some a) (hb : V q = some b) (ha' : V' p = some a) (hb' : V' q = some b)
    (he : V (p ++ q.drop pre.length) = V' (p ++ q.drop pre.length)) (hl : ∀ r, AboutPair lines r p q ↔ AboutPair lines' r p q) (r : Nat) (n : Int) :
    Says V pre lines r a b n ↔ Says V' pre lines' r a b n := by
  constructor
  · rintro ⟨line, p', q', h1, h2, h3, h4, h5⟩
    have e1 := hd _ _ _ h3 ha
    have e2 := hd _ _ _ h4 hb
    subst e1; subst e2
    obtain ⟨line', k1, k2⟩ := (hl r).1 ⟨line, h1, h2⟩
    exact ⟨line', _, _, k1, k2, ha', hb', by rw [← he]; exact h5⟩
  · rintro ⟨line, p', q', h1, h2, h3, h4, h5⟩
    have e1 := hd' _ _ _ h3 ha'
    have e2 := hd' _ _ _ h4 hb'
    subst e1; subst e2
    obtain ⟨line', k1, k2⟩ := (hl r).2 ⟨line, h1, h2⟩
    exact ⟨line', _, _, k1, k2, ha, hb, by rw [he]; exact h5⟩

/-- The lines about neighbouring pieces are the same. -/
def pr_rules (V : Str → Option Int) (pre : Str) (lines lines' : List Str) (ids : List Int) : Prop :=
  ∀ x g h y p q, ids = x ++ g ++ h ++ y → MergedKey V pre g p → MergedKey V pre h q → ∀ r, AboutPair lines r p q ↔ AboutPair lines' r p q

theorem pr_inStep {lines lines' : List Str} {m m' : BPE} (hm : Made lines m) (hm' : Made lines' m') (hp : m'.pre = m.pre)
    (hd : DistinctIds (tokenToId m.vocab)) (hd' : DistinctIds (tokenToId m'.vocab)) {ids : List Int}
    (ha : pr_agree (tokenToId m.vocab) (tokenToId m'.vocab) m.pre ids) (hl : pr_rules (tokenToId m.vocab) m.pre lines lines' ids) :
    InStep m.merges m'.merges (pr_named (tokenToId m.vocab) m.pre ids) := by
  constructor
  · rintro A x y B r n ⟨gs, hf, he⟩ hl
    obtain ⟨X, Y, rfl, hX, hY⟩ := pr_each_split he
    cases hY with
    | @cons gx _ Y _ h1 hY =>
      cases hY with
      | @cons gy _ Y _ h2 hY =>
        obtain ⟨p, p1, p2⟩ := h1
        obtain ⟨q, q1, q2⟩ := h2
        obtain ⟨k, rfl, ⟨line, p', q', g1, g2, g3, g4, g5⟩, g6⟩ := (make_merges hm _ _ _ _).1 hl
        have e1 := hd _ _ _ g3 p2
        have e2 := hd _ _ _ g4 q2
        subst e1; subst e2
        exact ⟨X ++ (gx ++ gy) :: Y, by rw [← hf]; simp, pr_each_join hX (.cons ⟨_, .join p1 q1, g5⟩ hY)⟩
  · rintro A x y B ⟨gs, hf, he⟩
    obtain ⟨X, Y, rfl, hX, hY⟩ := pr_each_split he
    cases hY with
    | @cons gx _ Y _ h1 hY =>
      cases hY with
      | @cons gy _ Y _ h2 hY =>
        obtain ⟨p, p1, p2⟩ := h1
        obtain ⟨q, q1, q2⟩ := h2
        have a1 := ha X.flatten gx (gy ++ Y.flatten) p (by rw [← hf]; simp) p1
        have a2 := ha (X.flatten ++ gx) gy Y.flatten q (by rw [← hf]; simp) q1
        have a3 := ha X.flatten (gx ++ gy) Y.flatten _ (by rw [← hf]; simp) (.join p1 q1)
        have hs := pr_says (lines := lines) (lines' := lines') hd hd' p2 q2 (by rw [← a1]; exact p2) (by rw [← a2]; exact q2) a3
          (hl X.flatten gx gy Y.flatten p q (by rw [← hf]; simp) p1 q1)
        have key : ∀ r n, mapFind m.merges (x.1, y.1) = some (r, n) ↔ mapFind m'.merges (x.1, y.1) = some (r, n) := by
          intro r n
          rw [make_merges hm, make_merges hm', hp]
          unfold Listed
          simp only [hs]
        cases h : mapFind m.merges (x.1, y.1) with
        | some rn => exact ((key rn.1 rn.2).1 h).symm
        | none =>
          cases h' : mapFind m'.merges (x.1, y.1) with
          | none => rfl
          | some rn =>
            have := (key rn.1 rn.2).2 h'
            rw [h] at this; cases this

theorem pr_tokens {m m' : BPE} (hi : OneTokenPerId m.vocab) (hi' : OneTokenPerId m'.vocab) (w : List Symbol) : ∀ p,
    (∀ s ∈ w, ∃ k, mapFind m.vocab k = some s.c ∧ mapFind m'.vocab k = some s.c) → m.wordToTokens p w = m'.wordToTokens p w := by
  induction w with
  | nil => intro p _; rfl
  | cons s r ih =>
    intro p h
    obtain ⟨k, h1, h2⟩ := h s (by simp)
    simp only [BPE.wordToTokens, (or_back hi s.c k).2 (mapFind_mem h1), (or_back hi' s.c k).2 (mapFind_mem h2),
      ih _ fun x hx => h x (by simp [hx])]

/-- The entries looked up for the word are the same. -/
def pr_same (m : BPE) (v : Vocab) (s : Str) : Prop := ∀ k, BPEKey m s k → mapFind m.vocab k = mapFind v k

/-- The lines looked for are the same. -/
def pr_alike (m : BPE) (lines lines' : List Str) (s : Str) : Prop :=
  ∀ p q, BPEPair m s p q → ∀ r, AboutPair lines r p q ↔ AboutPair lines' r p q

theorem pr_merge (P : Platform) {lines lines' : List Str} {m : BPE} {v : Vocab} {ms : Merges} (hm : Made lines m)
    (hm' : Made lines' (pr_other m v ms)) (hi : OneTokenPerId m.vocab) (hi' : OneTokenPerId v) {s : Str} (hfit : Fits m s)
    (h : pr_same m v s) (hl : pr_alike m lines lines' s) : m.mergeWord P s = (pr_other m v ms).mergeWord P s ∧
      ∀ w, m.mergeWord P s = .ok w → m.wordToTokens 0 w = (pr_other m v ms).wordToTokens 0 w := by
  have hsym := pr_symList (m := m) (v := v) (ms := ms) (S := s) (fun i hi => h _ (.byte hi)) (fun hf i b hi hn hb => h _ (.fallback hf hi hn hb))
    (fun i hi hn => h _ (.unknown hi hn)) s [] none rfl
  simp only [List.isEmpty_nil] at hsym
  obtain ⟨g1, g2⟩ := symList_spec m s true none (goodPend_none m)
  have hag : pr_agree (tokenToId m.vocab) (tokenToId v) m.pre ((symList m true s none).map (·.1)) := by
    intro x g y k hx hk
    exact h k (.merged (initial_symList m s) hx hk)
  have hst := pr_start (pre := m.pre) (V := tokenToId m.vocab) (fun p hp => (g1 p hp).2)
  have hru : pr_rules (tokenToId m.vocab) m.pre lines lines' ((symList m true s none).map (·.1)) := by
    intro x g g' y p q hx hg hg'
    exact hl p q ⟨_, x, g, g', y, initial_symList m s, hx, hg, hg'⟩
  have hin := pr_inStep hm hm' rfl (distinctIds_of_nodup hi) (distinctIds_of_nodup hi') hag hru
  have hlen : (symList m true s none).length < 2 ^ 31 := by
    simp only [pend, Option.toList, List.length_nil] at g2
    unfold Fits at hfit
    omega
  refine ⟨?_, ?_⟩
  · unfold BPE.mergeWord
    rw [symbols_chain, symbols_chain, hsym]
    exact pr_mergeAll (d := m.dropout) hin (fun p hp => (g1 p hp).1) hlen hst
  · intro w hw
    by_cases hne : symList m true s none = []
    · rw [BPE.mergeWord, symbols_chain, hne] at hw
      cases hw
    · obtain ⟨out, live, k1, k2, k3, -, -⟩ := mergeAll_spec P m.merges m.dropout (symList m true s none) hne
        (fun p hp => (g1 p hp).1) hlen
      rw [BPE.mergeWord, symbols_chain, k1] at hw
      cases hw
      have hg := pr_trace hin k3 (by rw [bare_cells]; exact hst)
      obtain ⟨gs, hf, he⟩ := hg
      refine pr_tokens hi hi' _ 0 fun x hx => ?_
      have hmem : (x.c, x.len) ∈ bare live := by rw [← k2]; exact List.mem_map.2 ⟨x, hx, rfl⟩
      obtain ⟨g, hgm, k, hk1, hk2⟩ := each_mem_right he _ hmem
      obtain ⟨X, Y, hXY⟩ := List.append_of_mem hgm
      refine ⟨k, hk2, ?_⟩
      have := hag X.flatten g Y.flatten k (by rw [← hf, hXY]; simp) hk1
      exact this.symm.trans hk2

theorem pr_word (P : Platform) {lines lines' : List Str} {m : BPE} {v : Vocab} {ms : Merges} (hm : Made lines m)
    (hm' : Made lines' (pr_other m v ms)) (hi : OneTokenPerId m.vocab) (hi' : OneTokenPerId v) {s : Str} (hfit : Fits m s)
    (h : pr_same m v s) (hl : pr_alike m lines lines' s) : (m.word P s).1 = ((pr_other m v ms).word P s).1 := by
  obtain ⟨h1, h2⟩ := pr_merge P hm hm' hi hi' hfit h hl
  have hdir : Direct m s → tokenToId m.vocab s = tokenToId v s := fun hd => h _ (.whole hd.2.1)
  have hdi : Direct m s ↔ Direct (pr_other m v ms) s := by
    constructor
    · rintro hd
      have e := hdir hd
      obtain ⟨d1, d2, i, d3⟩ := hd
      exact ⟨d1, d2, i, by rw [e] at d3; exact d3⟩
    · rintro ⟨d1, d2, i, d3⟩
      exact ⟨d1, d2, i, (h _ (.whole d2)).trans d3⟩
  rcases word_answer P (made_cache hm) s with ⟨i, a1, a2, a3⟩ | ⟨a1, a2⟩
  · rcases word_answer P (made_cache hm') s with ⟨j, b1, b2, b3⟩ | ⟨b1, b2⟩
    · rw [a3, b3]
      have : some i = some j := a2.symm.trans ((hdir a1).trans b2)
      cases this; rfl
    · exact absurd (hdi.1 a1) b1
  · rcases word_answer P (made_cache hm') s with ⟨j, b1, b2, b3⟩ | ⟨b1, b2⟩
    · exact absurd (hdi.2 b1) a1
    · rcases a2 with ⟨e, a2, a3⟩ | ⟨w, a2, a3⟩ <;> rcases b2 with ⟨e', b2, b3⟩ | ⟨w', b2, b3⟩
      · rw [a3, b3]; rw [h1, b2] at a2; cases a2; rfl
      · rw [h1, b2] at a2; cases a2
      · rw [h1, b2] at a2; cases a2
      · rw [a3, b3]
        have hww := h2 w a2
        rw [h1, b2] at a2; cases a2
        exact hww

theorem pr_splits (P : Platform) {m m' : BPE} (l : List Split)
    (h : ∀ s ∈ l, (m.word P s.normalized).1 = (m'.word P s.normalized).1) : ∀ (x x' : BPE), CacheOk P x → x.fresh = m →
    CacheOk P x' → x'.fresh = m' → (x.splitsLoop P l).1 = (x'.splitsLoop P l).1 := by
  induction l with
  | nil => intros; rfl
  | cons s r ih =>
    intro x x' hx ex hx' ex'
    obtain ⟨h1, h2, h3⟩ := word_cache P x s.normalized hx
    obtain ⟨f1, f2, f3⟩ := word_cache P x' s.normalized hx'
    rw [ex] at h1 h3
    rw [ex'] at f1 f3
    have e := h s (by simp)
    rw [← h1, ← f1] at e
    simp only [BPE.splitsLoop]
    generalize x.word P s.normalized = R at e h2 h3
    generalize x'.word P s.normalized = R' at e f2 f3
    obtain ⟨res, y⟩ := R
    obtain ⟨res', y'⟩ := R'
    simp only at e h2 h3 f2 f3
    subst e
    cases res with
    | error e => rfl
    | ok ts =>
      simp only
      have := ih (fun s hs => h s (by simp [hs])) y y' h2 h3 f2 f3
      generalize y.splitsLoop P r = Q at this
      generalize y'.splitsLoop P r = Q' at this
      obtain ⟨q, z⟩ := Q
      obtain ⟨q', z'⟩ := Q'
      simp only at this
      subst this
      cases q <;> rfl

/-! ### WordPiece -/

theorem pr_piece {m : WordPiece} {y : WStr} (hy : Scalars y) {a b : Nat} (hab : a < b) (hb : b ≤ (utf16 y).length) :
    WordPieceKey m.pre y (m.piece (utf16 y) a b) := by
  have e : between (utf16 y) a b = tempSubString (utf16 y) a (b - a) := rfl
  have hv : ∀ c ∈ tempSubString (utf16 y) a (b - a), c < 0x10000 := fun c hc =>
    wu_lt hy c (List.mem_of_mem_drop (List.mem_of_mem_take hc))
  obtain ⟨x, hx⟩ := wu_reads _ _ (Nat.le_refl _) hv
  have ex := wu_read hx
  refine ⟨utf16 y, a, b, x, toUTF8String (tempSubString (utf16 y) a (b - a)), utf16Text_iff.2 ⟨hy, rfl⟩, hab, hb,
    by rw [e]; exact hx, utf8Text_iff.2 ⟨?_, ?_⟩, ?_⟩
  · intro c hc
    rw [ex, List.mem_map] at hc
    obtain ⟨d, _, rfl⟩ := hc
    exact sanitize_scalar d
  · rw [ex]; rfl
  · unfold WordPiece.piece
    by_cases h : a = 0
    · subst h; simp
    · simp only [gt_iff_lt, Nat.pos_of_ne_zero h, if_true, if_neg h]

theorem pr_wp_longest {m : WordPiece} {v : Vocab} {y : WStr} (hy : Scalars y)
    (h : ∀ k, WordPieceKey m.pre y k → mapFind m.vocab k = mapFind v k) (a : Nat) :
    ∀ k, a + k ≤ (utf16 y).length → WordPiece.longest { m with vocab := v } (utf16 y) a k = m.longest (utf16 y) a k := by
  intro k
  induction k with
  | zero => intro _; rfl
  | succ k ih =>
    intro hk
    rw [WordPiece.longest, WordPiece.longest, ih (by omega)]
    have := h _ (pr_piece (m := m) hy (a := a) (b := a + (k + 1)) (by omega) hk)
    have e : WordPiece.piece { m with vocab := v } (utf16 y) a (a + (k + 1)) = m.piece (utf16 y) a (a + (k + 1)) := rfl
    simp only [e, this]

theorem pr_wp_loop {m : WordPiece} {v : Vocab} {y : WStr} (hy : Scalars y)
    (h : ∀ k, WordPieceKey m.pre y k → mapFind m.vocab k = mapFind v k) :
    ∀ f a, WordPiece.loop { m with vocab := v } (utf16 y) f a = m.loop (utf16 y) f a := by
  intro f
  induction f with
  | zero => intro a; rw [WordPiece.loop, WordPiece.loop]
  | succ f ih =>
    intro a
    rw [WordPiece.loop, WordPiece.loop]
    split
    · rw [pr_wp_longest hy h a _ (by omega)]
      cases m.longest (utf16 y) a ((utf16 y).length - a) with
      | none => rfl
      | some t => simp only [ih]
    · rfl

theorem pr_wp_word {m : WordPiece} {v : Vocab} {y : WStr} (hy : Scalars y)
    (h : ∀ k, k = m.unkToken ∨ WordPieceKey m.pre y k → mapFind m.vocab k = mapFind v k) :
    WordPiece.word { m with vocab := v } (utf8 y) = m.word (utf8 y) := by
  simp only [WordPiece.word, fromUTF8_utf8 hy, pr_wp_loop hy fun k hk => h k (.inr hk), WordPiece.unk, h m.unkToken (.inl rfl)]

/-! ### The model -/

theorem pr_model (P : Platform) {lines lines' : List Str} {v : Vocab} {m m' x x' : Model} (hm : ModelIs P lines m x) (hm' : ModelIs P lines' m' x')
    (hv : WithVocab v m m') (hi : ∀ n, m = .bpe n → OneTokenPerId n.vocab ∧ OneTokenPerId v) {ws : List WStr} {p : PTS}
    (hw : Each (fun y s => HasText s y) ws p.splits) (hs : ∀ y ∈ ws, ShortEnough m y)
    (h : ∀ y ∈ ws, ∀ k, LookedUp m y k → tokenToId m.vocab k = tokenToId v k)
    (hl : ∀ y ∈ ws, ∀ p q, MergesFor m y p q → ∀ r, AboutPair lines r p q ↔ AboutPair lines' r p q) : (x.tokenize P p).1 = (x'.tokenize P p).1 := by
  cases m with
  | wordPiece m =>
    cases hm; cases hv; cases hm'
    simp only [Model.tokenize, WordPiece.tokenize, Except.ok.injEq, PTS.mk.injEq, true_and]
    apply List.map_congr_left
    intro s hsm
    obtain ⟨y, hy, ht⟩ := each_mem_right hw s hsm
    obtain ⟨hys, e⟩ := utf8Text_iff.1 ht
    rw [e, ← pr_wp_word hys fun k hk => h y hy k hk]
  | bpe m =>
    obtain ⟨ms, rfl⟩ := hv
    obtain ⟨hmade, -, before, rfl⟩ := hm
    obtain ⟨hmade', -, before', rfl⟩ := hm'
    obtain ⟨i1, i2⟩ := hi m rfl
    obtain ⟨c1, f1⟩ := used_cache P hmade before
    obtain ⟨c2, f2⟩ := used_cache P hmade' before'
    have key := pr_splits P p.splits (m := m) (m' := pr_other m v ms) (by
      intro s hsm
      obtain ⟨y, hy, ht⟩ := each_mem_right hw s hsm
      refine pr_word P hmade hmade' i1 i2 ?_ (fun k hk => h y hy k ⟨_, ht, hk⟩) fun p q hk => hl y hy p q ⟨_, ht, hk⟩
      have := hs y hy
      unfold Fits
      rw [cn_octets ht]; exact this) _ _ c1 f1 c2 f2
    simp only [Model.tokenize, BPE.tokenize]
    generalize BPE.splitsLoop P _ p.splits = R at key
    generalize BPE.splitsLoop P _ p.splits = R' at key
    obtain ⟨q, z⟩ := R
    obtain ⟨q', z'⟩ := R'
    simp only at key
    subst key
    cases q <;> rfl

theorem pr_encode (P : Platform) {t : Tokenizer} {m m' x x' : Model} {lines lines' : List Str} {v : Vocab} {w : WStr}
    {b : Bool} (hx : t.model = some x) (hm : ModelIs P lines m x) (hm' : ModelIs P lines' m' x') (hv : WithVocab v m m')
    (hi : ∀ n, m = .bpe n → OneTokenPerId n.vocab ∧ OneTokenPerId v)
    (h : ∀ p, (t.preTokenized P w).1 = .ok p → ∃ ws, Each (fun y s => HasText s y) ws p.splits ∧
      ∀ y ∈ ws, ShortEnough m y ∧ (∀ k, LookedUp m y k → tokenToId m.vocab k = tokenToId v k) ∧
        ∀ p q, MergesFor m y p q → ∀ r, AboutPair lines r p q ↔ AboutPair lines' r p q) :
    (t.encode P w b).1 = (({ t with model := some x' } : Tokenizer).encode P w b).1 := by
  have hpre : (({ t with model := some x' } : Tokenizer).preTokenized P w).1 = (t.preTokenized P w).1 := by
    unfold Tokenizer.preTokenized
    cases PTS.ofNS (NS.ofText w) with
    | error e => rfl
    | ok p =>
      cases e : t.added with
      | none => simp only
      | some a => rfl
  rw [ha_encode, ha_encode]
  have ht : textPart P { t with model := some x' } w = textPart P t w := by
    unfold textPart
    rw [hpre]
    cases hp : (t.preTokenized P w).1 with
    | error e => rfl
    | ok p =>
      simp only [res_ok_bind]
      obtain ⟨ws, k2, k1⟩ := h p hp
      have := pr_model P hm hm' hv hi k2 (fun y hy => (k1 y hy).1) (fun y hy => (k1 y hy).2.1) fun y hy => (k1 y hy).2.2
      simp only [Tokenizer.doTokenize, hx, this]
  rw [ht]
  rfl

/-- **C121** Vocabulary entries that the words of a text do not need make no difference: if two models differ in their vocabularies
only, and agree on every entry that is looked up for a word of the text, then `encode` returns the same - the same
encoding or the same failure.  (BPE: no two entries with the same id, and words short enough for an `int`.) -/
theorem C121_encode (P : Platform) (hg : GoodRegexes P) {t : Tokenizer} {m m' x x' : Model} {lines : List Str} {v : Vocab} {w : WStr}
    {b : Bool} (hx : t.model = some x) (hm : ModelIs P lines m x) (hm' : ModelIs P lines m' x') (hv : WithVocab v m m')
    (hd : ∀ a, t.added = some a → PlainTables a) (hi : ∀ n, m = .bpe n → OneTokenPerId n.vocab ∧ OneTokenPerId v)
    (h : ∀ ws, AnyWords P t w ws → ∀ y ∈ ws, ShortEnough m y ∧ ∀ k, LookedUp m y k → tokenToId m.vocab k = tokenToId v k) :
    (t.encode P w b).1 = (({ t with model := some x' } : Tokenizer).encode P w b).1 :=
  pr_encode P hx hm hm' hv hi fun _ hp => by
    obtain ⟨ws, k1, k2⟩ := at_words P hg hd hp
    exact ⟨ws, k2, fun y hy => ⟨(h ws k1 y hy).1, (h ws k1 y hy).2, fun _ _ _ _ => Iff.rfl⟩⟩

/-! ### Texts that are only cut -/

theorem pr_laid {w : WStr} {a e : Nat} {l : List Split} (h : Laid w a e l) :
    ∃ ws, Each (fun y s => HasText s y) ws l ∧ ∀ y ∈ ws, ∃ p q, w = p ++ y ++ q := by
  induction h with
  | nil => exact ⟨[], .nil, by simp⟩
  | @cons a b e s v l _ h2 h3 _ ih =>
    obtain ⟨ws, h4, h5⟩ := ih
    obtain ⟨p, q, h2, _⟩ := h2
    exact ⟨v :: ws, .cons h3 h4, fun y hy => by
      rcases List.mem_cons.1 hy with rfl | hy
      · exact ⟨p, q, h2⟩
      · exact h5 y hy⟩

/-- **C121** When the text is only cut (no normalizer, pre-tokenizers that only cut), it is enough that the vocabularies agree
on the entries that are looked up for parts of the text. -/
theorem C121_text (P : Platform) {t : Tokenizer} {m m' x x' : Model} {lines : List Str} {v : Vocab} {w : WStr}
    {b : Bool} (hx : t.model = some x) (hm : ModelIs P lines m x) (hm' : ModelIs P lines m' x') (hv : WithVocab v m m')
    (hi : ∀ n, m = .bpe n → OneTokenPerId n.vocab ∧ OneTokenPerId v)
    (hw : Positioned t w) (hpt : ∀ pt, t.preTokenizer = some pt → OnlyCuts P pt) (hs : ShortEnough m w)
    (h : ∀ p y q, w = p ++ y ++ q → ∀ k, LookedUp m y k → tokenToId m.vocab k = tokenToId v k) :
    (t.encode P w b).1 = (({ t with model := some x' } : Tokenizer).encode P w b).1 :=
  pr_encode P hx hm hm' hv hi fun p hp => by
    obtain ⟨ws, k1, k2⟩ := pr_laid (preTokenized_laid P t w p hw hpt hp)
    refine ⟨ws, k1, fun y hy => ?_⟩
    obtain ⟨a, c, e⟩ := k2 y hy
    exact ⟨cn_short m (by rw [e, List.append_assoc]; exact (List.sublist_append_left _ _).trans (List.sublist_append_right _ _)) hs, h a y c e, fun _ _ _ _ => Iff.rfl⟩

theorem pr_written {p y q : WStr} {u : U16} {a b : Nat} {x : WStr} {s : Str} (hw : ∀ c ∈ p ++ y ++ q, Scalar c) (hu : Utf16Text y u)
    (hb : b ≤ u.length) (hr : ReadAs (between u a b) x) (hs : Utf8Text x s) : WrittenIn s (p ++ y ++ q) := by
  obtain ⟨_, rfl⟩ := utf16Text_iff.1 hu
  refine ⟨utf16 (p ++ y ++ q), (utf16 p).length + a, (utf16 p).length + b, x, utf16Text_iff.2 ⟨scalars_iff.1 hw, rfl⟩, ?_, ?_, hs⟩
  · rw [utf16_append, utf16_append]; simp; omega
  · have : between (utf16 (p ++ y ++ q)) ((utf16 p).length + a) ((utf16 p).length + b) = between (utf16 y) a b := by
      unfold between
      rw [utf16_append, utf16_append, List.append_assoc, Nat.add_sub_add_left, ← List.drop_drop, List.drop_left]
      by_cases ha : a ≤ (utf16 y).length
      · rw [List.drop_append_of_le_length ha, List.take_append_of_le_length (by simp; omega)]
      · have : b - a = 0 := by omega
        rw [this]; rfl
    rw [this]; exact hr

/-- **C121** A WordPiece vocabulary can be reduced to the entries that are written in the text - as they stand, or after the
continuation prefix - and the unknown token. -/
theorem C121_wordPiece (P : Platform) {t : Tokenizer} {m : WordPiece} {v : Vocab} {w : WStr} {b : Bool}
    (hx : t.model = some (.wordPiece m)) (hw : Positioned t w) (hpt : ∀ pt, t.preTokenizer = some pt → OnlyCuts P pt)
    (h : ∀ k, tokenToId m.vocab k ≠ tokenToId v k → k ≠ m.unkToken ∧ ¬ WrittenIn k w ∧ ∀ s, k = m.pre ++ s → ¬ WrittenIn s w) :
    (t.encode P w b).1 = (({ t with model := some (.wordPiece { m with vocab := v }) } : Tokenizer).encode P w b).1 := by
  have hsc : ∀ c ∈ w, Scalar c := by
    unfold Positioned at hw
    cases ha : t.added with
    | none => rw [ha] at hw; exact hw
    | some a => rw [ha] at hw; exact scalars_iff.2 (bmp_scalars hw.2.1.1)
  refine C121_text P (m := .wordPiece m) (m' := .wordPiece { m with vocab := v }) (lines := []) hx rfl rfl rfl (by simp) hw hpt trivial ?_
  rintro p y q rfl k hk
  refine Classical.byContradiction fun hne => ?_
  obtain ⟨h1, h2, h3⟩ := h k hne
  rcases hk with rfl | ⟨u, i, j, x, s, hu, hij, hj, hr, hs, e⟩
  · exact h1 rfl
  · split at e
    · subst e; exact h2 (pr_written hsc hu hj hr hs)
    · exact h3 s e (pr_written hsc hu hj hr hs)

theorem pr_pieces {unk : Option Int} {fuse : Bool} {fs : List Found} {l : List (Int × Nat)} (h : Pieces unk fuse fs l) :
    (∀ f ∈ fs, ∃ i, f = .entry i) → Each (fun f p => f = .entry p.1) fs l := by
  induction h with
  | nil => intro _; exact .nil
  | known _ ih => intro h; exact .cons rfl (ih fun f hf => h f (by simp [hf]))
  | bytes _ _ => intro h; obtain ⟨i, hi⟩ := h _ (List.mem_cons_self ..); cases hi
  | dropped _ _ _ => intro h; obtain ⟨i, hi⟩ := h _ (List.mem_cons_self ..); cases hi
  | single _ _ _ _ _ _ => intro h; obtain ⟨i, hi⟩ := h .nothing (by simp); cases hi
  | run _ _ _ _ _ _ => intro h; obtain ⟨i, hi⟩ := h .nothing (by simp); cases hi

theorem pr_key {V : Str → Option Int} (hd : DistinctIds V) {g : List Int} {k : Str} (h : MergedKey V [] g k) :
    ∀ {bs : Str}, Each (fun c i => V [c] = some i) bs g → k = bs := by
  induction h with
  | one hi =>
    intro bs hb
    cases hb with
    | cons h1 h2 => cases h2; exact hd _ _ _ hi h1
  | join _ _ ih1 ih2 =>
    intro bs hb
    obtain ⟨X, Y, rfl, hX, hY⟩ := pr_each_split hb
    rw [ih1 hX, ih2 hY]; rfl

theorem pr_spelling (s : Str) (i : Nat) (hi : i < s.length) : spelling [] [] s (i, i + 1) = [s[i]] := by
  unfold spelling
  simp only [ite_self, List.nil_append, List.append_nil, Nat.add_sub_cancel_left]
  rw [List.drop_eq_getElem_cons hi]; rfl

theorem pr_range_each {α : Type} (s : Str) (f : Nat → α) (R : Nat → α → Prop) (h : ∀ i (hi : i < s.length), R s[i] (f i)) :
    Each R s ((List.range s.length).map f) := by
  induction s generalizing f with
  | nil => exact .nil
  | cons c s ih =>
    rw [List.length_cons, List.range_succ_eq_map, List.map_cons, List.map_map]
    exact .cons (h 0 (by simp)) (ih _ fun i hi => h (i + 1) (by simp; omega))

/-- Every byte of the word has an entry: these are the pieces merging starts with. -/
theorem pr_bpe_ids {m : BPE} (hp : m.pre = []) (hs : m.suf = []) {z : Str} (hby : ∀ c ∈ z, tokenToId m.vocab [c] ≠ none) {l : List (Int × Nat)}
    (hl : Pieces (unknownOf (tokenToId m.vocab) m.unkToken) m.fuseUnk (foundAll (tokenToId m.vocab) m.pre m.suf m.byteFallback z) l) :
    Each (fun c i => tokenToId m.vocab [c] = some i) z (l.map (·.1)) := by
  have hsp : ∀ i (hi : i < z.length), spelling m.pre m.suf z (i, i + 1) = [z[i]] := by
    intro i hi; rw [hp, hs]; exact pr_spelling _ _ hi
  have hfound : ∀ i (hi : i < z.length), ∃ j, found (tokenToId m.vocab) m.pre m.suf m.byteFallback z i = .entry j ∧
      tokenToId m.vocab [z[i]] = some j := by
    intro i hi
    cases e : tokenToId m.vocab [z[i]] with
    | none => exact absurd e (hby _ (List.getElem_mem hi))
    | some j => exact ⟨j, by unfold found; rw [hsp i hi, e], rfl⟩
  have h1 := pr_pieces hl (by
    intro f hf
    unfold foundAll at hf
    obtain ⟨i, hi, rfl⟩ := List.mem_map.1 hf
    obtain ⟨j, hj, _⟩ := hfound i (List.mem_range.1 hi)
    exact ⟨j, hj⟩)
  have h2 : Each (fun c f => ∃ j, f = Found.entry j ∧ tokenToId m.vocab [c] = some j) z
      (foundAll (tokenToId m.vocab) m.pre m.suf m.byteFallback z) := pr_range_each _ _ _ hfound
  refine Each.map_right (f := fun p : Int × Nat => p.1) (R := fun c i => tokenToId m.vocab [c] = some i) (each_comp ?_ h2 h1)
  rintro c f p ⟨j, rfl, hj⟩ hf
  cases hf; exact hj

/-- What byte-level BPE looks up is written in the word. -/
theorem pr_bpe_key {m : BPE} (hp : m.pre = []) (hs : m.suf = []) (hi : OneTokenPerId m.vocab) {z : Str}
    (hby : ∀ c ∈ z, tokenToId m.vocab [c] ≠ none) {k : Str} (hkey : BPEKey m z k) : ∃ a c, z = a ++ k ++ c := by
  have hsp : ∀ i (hi : i < z.length), spelling m.pre m.suf z (i, i + 1) = [z[i]] := by
    intro i hi; rw [hp, hs]; exact pr_spelling _ _ hi
  have hent : ∀ i (hi : i < z.length), tokenToId m.vocab (spelling m.pre m.suf z (i, i + 1)) ≠ none := by
    intro i hi; rw [hsp i hi]; exact hby _ (List.getElem_mem hi)
  cases hkey with
  | @byte i h1 =>
    rw [hsp i h1]
    exact ⟨z.take i, z.drop (i + 1), by
      rw [List.append_assoc, List.singleton_append, ← List.drop_eq_getElem_cons h1, List.take_append_drop]⟩
  | fallback _ h1 h2 _ => exact absurd h2 (hent _ h1)
  | unknown h1 h2 => exact absurd h2.1 (hent _ h1)
  | whole _ => exact ⟨[], [], by simp⟩
  | @merged l x g z' _ hl hx hg =>
    rw [hp] at hg
    have h3 := pr_bpe_ids hp hs hby hl
    rw [hx] at h3
    obtain ⟨X, Y, e, hX, hY⟩ := pr_each_split h3
    obtain ⟨X1, X2, rfl, hX1, hX2⟩ := pr_each_split hX
    have := pr_key (distinctIds_of_nodup hi) hg hX2
    exact ⟨X1, Y, by rw [this]; exact e⟩

/-- The pairs byte-level BPE looks for are written in the word. -/
theorem pr_bpe_pair {m : BPE} (hp : m.pre = []) (hs : m.suf = []) (hi : OneTokenPerId m.vocab) {z : Str}
    (hby : ∀ c ∈ z, tokenToId m.vocab [c] ≠ none) {p q : Str} (h : BPEPair m z p q) : ∃ a c, z = a ++ (p ++ q) ++ c := by
  obtain ⟨l, x, g, g', y, hl, hx, hg, hg'⟩ := h
  rw [hp] at hg hg'
  have h3 := pr_bpe_ids hp hs hby hl
  rw [hx] at h3
  obtain ⟨X, Y, e, hX, hY⟩ := pr_each_split h3
  obtain ⟨X1, X2, rfl, hX1, hX2⟩ := pr_each_split hX
  obtain ⟨X3, X4, rfl, hX3, hX4⟩ := pr_each_split hX1
  have e1 := pr_key (distinctIds_of_nodup hi) hg hX4
  have e2 := pr_key (distinctIds_of_nodup hi) hg' hX2
  exact ⟨X3, Y, by rw [e1, e2, e]; simp⟩

/-- **C121** A byte-level BPE vocabulary (no prefix, no suffix, an entry for each byte of the text) can be reduced to the entries
whose text is written in the text. -/
theorem C121_bpe (P : Platform) {t : Tokenizer} {m m' : BPE} {before before' : List PTS} {lines : List Str} {v : Vocab} {w : WStr} {s : Str} {b : Bool}
    (hx : t.model = some (.bpe (usedBPE P m before))) (hm : Made lines m) (hm' : Made lines m')
    (hv : ∃ ms, m' = { m with vocab := v, merges := ms }) (hk : (m.vocab.map (·.1)).Nodup) (hk' : (v.map (·.1)).Nodup)
    (hi : OneTokenPerId m.vocab) (hi' : OneTokenPerId v) (hp : m.pre = []) (hs : m.suf = [])
    (hw : Positioned t w) (hpt : ∀ pt, t.preTokenizer = some pt → OnlyCuts P pt) (hu : Utf8Text w s) (hlen : s.length < 2 ^ 31)
    (hb : ∀ c ∈ s, tokenToId m.vocab [c] ≠ none)
    (h : ∀ k, (∃ p q, s = p ++ k ++ q) → tokenToId m.vocab k = tokenToId v k) :
    (t.encode P w b).1 = (({ t with model := some (.bpe (usedBPE P m' before')) } : Tokenizer).encode P w b).1 := by
  obtain ⟨ms, rfl⟩ := hv
  refine C121_text P (m := .bpe m) (m' := .bpe { m with vocab := v, merges := ms }) hx ⟨hm, hk, before, rfl⟩ ⟨hm', hk', before', rfl⟩ ⟨ms, rfl⟩
    (by rintro n hn; cases hn; exact ⟨hi, hi'⟩) hw hpt (by show octets w * _ < _; rw [hp, hs, ← cn_octets hu]; simpa using hlen) ?_
  rintro p y q rfl k ⟨sy, hy, hkey⟩
  obtain ⟨hsc, rfl⟩ := utf8Text_iff.1 hu
  obtain ⟨-, rfl⟩ := utf8Text_iff.1 hy
  rw [utf8_append, utf8_append] at hb h
  obtain ⟨a, c, e⟩ := pr_bpe_key hp hs hi (fun c hc => hb c (by simp [hc])) hkey
  exact h k ⟨utf8 p ++ a, c ++ utf8 q, by rw [e]; simp⟩

/-! ### The hypotheses are met -/

theorem pr_infix {l k : List Nat} (h : ¬ k <:+: l) : ¬ ∃ p q, l = p ++ k ++ q := fun ⟨p, q, e⟩ => h ⟨p, q, e.symm⟩

/-- Without the entry `go`, this text is encoded alike … -/
example : (orderTk.encode ascii w!"playing, 😀" true).1 =
    (({ orderTk with model := some (wpOf [(b!"[UNK]", 0), (b!"play", 1), (b!"##ing", 2)]) } : Tokenizer).encode ascii w!"playing, 😀" true).1 := by
  refine C121_wordPiece ascii (t := orderTk) (m := ⟨[(b!"[UNK]", 0), (b!"play", 1), (b!"##ing", 2), (b!"go", 3)], b!"[UNK]", 100, b!"##"⟩)
    (v := [(b!"[UNK]", 0), (b!"play", 1), (b!"##ing", 2)]) rfl ?_ ?_ ?_
  · show ∀ c ∈ _, Scalar c
    unfold Scalar; decide
  · intro p h; cases h; exact True.intro
  · intro k hk
    have : k = b!"go" := by
      refine Classical.byContradiction fun hne => hk ?_
      have h : b!"go" ≠ k := fun e => hne e.symm
      simp only [tokenToId, mapFind, if_neg h]
    subst this
    refine ⟨by decide, ?_, ?_⟩
    · rw [C116_written (c := b!"go") (x := w!"go") (w := w!"playing, 😀") ((C02_to_string_iff _ _).1 rfl) (by decide) (by unfold Scalar; decide)]
      exact pr_infix (by decide)
    · intro s e; cases e

/-- … and without `##ing` it is not. -/
example : (orderTk.encode ascii w!"playing, 😀" true).1.map (·.ids) ≠
    (({ orderTk with model := some (wpOf [(b!"[UNK]", 0), (b!"play", 1), (b!"go", 3)]) } : Tokenizer).encode ascii w!"playing, 😀" true).1.map (·.ids) := by
  decide +kernel

/-- Vocabulary a, b, ab; merge list "a b", "b c". -/
def prunedBPE : BPE := { abcBPE with vocab := [(b!"a", 0), (b!"b", 1), (b!"ab", 3)], merges := [((0, 1), (0, 3))] }

/-- Without the entries `c` and `bc`, this text is encoded alike … -/
example : ((abcTk [] false .bert).encode ascii w!"aabab" true).1 =
    (({ abcTk [] false .bert with model := some (.bpe (usedBPE ascii prunedBPE [])) } : Tokenizer).encode ascii w!"aabab" true).1 := by
  refine C121_bpe ascii (t := abcTk [] false .bert) (m := abcBPE) (before := []) (lines := [b!"a b", b!"b c"]) (m' := prunedBPE)
    (v := prunedBPE.vocab) (s := b!"aabab") rfl abcBPE_made rfl ⟨_, rfl⟩ (by decide) (by decide) (by unfold OneTokenPerId; decide)
    (by unfold OneTokenPerId; decide) rfl rfl ?_ ?_ ((C02_to_string_iff _ _).1 rfl) (by decide) (by decide) ?_
  · show ∀ c ∈ _, Scalar c
    unfold Scalar; decide
  · intro p h; cases h; exact True.intro
  · intro k hk
    refine Classical.byContradiction fun hne => ?_
    have : k = b!"c" ∨ k = b!"bc" := by
      refine Classical.byContradiction fun h => hne ?_
      have h1 : b!"c" ≠ k := fun e => h (.inl e.symm)
      have h2 : b!"bc" ≠ k := fun e => h (.inr e.symm)
      simp only [tokenToId, mapFind, abcBPE, prunedBPE, if_neg h1, if_neg h2]
    rcases this with rfl | rfl
    · exact pr_infix (by decide) hk
    · exact pr_infix (by decide) hk

/-- … as three tokens. -/
example : ((abcTk [] false .bert).encode ascii w!"aabab" true).1.map (·.tokens) = .ok [b!"a", b!"ab", b!"ab"] := by decide +kernel

end Tok
