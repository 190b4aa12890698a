import Verif.Spec.Ranks
import Verif.Props.Options
import Verif.Props.Renumber

set_option autoImplicit false

/-!
C142: only the order of the merges matters.
-/

namespace Tok
open Spec

/-! ### The loop of merges under other ranks -/

/-- A proper queue whose ranks are in `R`. -/
def RanksIn (P : Platform) (R : Int → Prop) (q : List Merge) : Prop := P.pq.inv q ∧ ∀ x ∈ q, R x.rank

/-- Two tables that differ in the ranks only. -/
structure ReRanked (g : Int → Int) (R : Int → Prop) (merges merges' : Merges) : Prop where
  find : ∀ k, mapFind merges' k = (mapFind merges k).map fun p => (g p.1, p.2)
  ranks : ∀ k p, mapFind merges k = some p → R p.1

theorem rk_push {P : Platform} {g : Int → Int} {R : Int → Prop} (hg : KeepsOrder g R) (hq : ComparesRanks P.pq) {q : List Merge} {m : Merge}
    (h : RanksIn P R q) (hm : R m.rank) : P.pq.push (q.map (reRank g)) (reRank g m) = (P.pq.push q m).map (reRank g) ∧ RanksIn P R (P.pq.push q m) := by
  have hall : ∀ x ∈ m :: q, R x.rank := by
    intro x hx
    rcases List.mem_cons.1 hx with rfl | hx
    · exact hm
    · exact h.2 x hx
  exact ⟨(hq g R hg).1 q m hall, P.pq.push_inv _ _ h.1, fun x hx => hall x ((P.pq.push_perm _ _ h.1).mem_iff.1 hx)⟩

theorem rk_pushPair {P : Platform} {g : Int → Int} {R : Int → Prop} (hg : KeepsOrder g R) (hq : ComparesRanks P.pq) {merges merges' : Merges}
    (hm : ReRanked g R merges merges') {q : List Merge} (h : RanksIn P R q) (pos : Nat) (a b : Int) :
    pushPair P merges' (q.map (reRank g)) pos a b = (pushPair P merges q pos a b).map (reRank g) ∧ RanksIn P R (pushPair P merges q pos a b) := by
  unfold pushPair
  rw [hm.find]
  cases e : mapFind merges (a, b) with
  | none => exact ⟨rfl, h⟩
  | some p => exact rk_push hg hq (m := { pos, rank := p.1, newId := p.2 }) h (hm.ranks _ _ e)

theorem rk_initQueue {P : Platform} {g : Int → Int} {R : Int → Prop} (hg : KeepsOrder g R) (hq : ComparesRanks P.pq) {merges merges' : Merges}
    (hm : ReRanked g R merges merges') : ∀ (w : List Symbol) (i : Nat) (q : List Merge), RanksIn P R q →
    initQueue P merges' i w (q.map (reRank g)) = (initQueue P merges i w q).map (reRank g) ∧ RanksIn P R (initQueue P merges i w q)
  | [], i, q, h => by simpa [initQueue] using h
  | [a], i, q, h => by simpa [initQueue] using h
  | a :: b :: r, i, q, h => by
    obtain ⟨h1, h2⟩ := rk_pushPair hg hq hm h i a.c b.c
    simp only [initQueue]
    rw [h1]
    exact rk_initQueue hg hq hm (b :: r) (i + 1) _ h2

theorem rk_pushLeft {P : Platform} {g : Int → Int} {R : Int → Prop} (hg : KeepsOrder g R) (hq : ComparesRanks P.pq) {merges merges' : Merges}
    (hm : ReRanked g R merges merges') (w : List Symbol) {q : List Merge} (h : RanksIn P R q) (c : Symbol) :
    pushLeft P merges' w (q.map (reRank g)) c = (pushLeft P merges w q c).map (List.map (reRank g)) ∧
      ∀ r, pushLeft P merges w q c = .ok r → RanksIn P R r := by
  unfold pushLeft
  split
  · cases vecAt w c.prev.toNat with
    | error e => exact ⟨rfl, fun r k => by cases k⟩
    | ok s =>
      obtain ⟨h1, h2⟩ := rk_pushPair hg hq hm h c.prev.toNat s.c c.c
      exact ⟨congrArg Except.ok h1, fun r k => by cases k; exact h2⟩
  · exact ⟨rfl, fun r k => by cases k; exact h⟩

theorem rk_pushRight {P : Platform} {g : Int → Int} {R : Int → Prop} (hg : KeepsOrder g R) (hq : ComparesRanks P.pq) {merges merges' : Merges}
    (hm : ReRanked g R merges merges') (w : List Symbol) {q : List Merge} (h : RanksIn P R q) (pos : Nat) (c : Symbol) :
    pushRight P merges' w (q.map (reRank g)) pos c = (pushRight P merges w q pos c).map (List.map (reRank g)) ∧
      ∀ r, pushRight P merges w q pos c = .ok r → RanksIn P R r := by
  unfold pushRight
  split
  · cases vecAt w c.next.toNat with
    | error e => exact ⟨rfl, fun r k => by cases k⟩
    | ok s =>
      obtain ⟨h1, h2⟩ := rk_pushPair hg hq hm h pos c.c s.c
      exact ⟨congrArg Except.ok h1, fun r k => by cases k; exact h2⟩
  · exact ⟨rfl, fun r k => by cases k; exact h⟩

theorem rk_applyTop {P : Platform} {g : Int → Int} {R : Int → Prop} (hg : KeepsOrder g R) (hq : ComparesRanks P.pq) {merges merges' : Merges}
    (hm : ReRanked g R merges merges') (w : List Symbol) {q : List Merge} (h : RanksIn P R q) (top : Merge) :
    applyTop P merges' w (q.map (reRank g)) (reRank g top) = (applyTop P merges w q top).map (fun r => (r.1, r.2.map (reRank g))) ∧
      ∀ r, applyTop P merges w q top = .ok r → RanksIn P R r.2 := by
  unfold applyTop
  simp only [show (reRank g top).pos = top.pos from rfl, show (reRank g top).newId = top.newId from rfl]
  cases vecAt w top.pos with
  | error e => exact ⟨rfl, fun r k => by cases k⟩
  | ok s =>
    simp only [res_ok_bind]
    split
    · exact ⟨rfl, fun r k => by cases k; exact h⟩
    split
    · exact ⟨rfl, fun r k => by cases k; exact h⟩
    split
    · exact ⟨rfl, fun r k => by cases k; exact h⟩
    cases vecAt w s.next.toNat with
    | error e => exact ⟨rfl, fun r k => by cases k⟩
    | ok right =>
      simp only [res_ok_bind, hm.find]
      cases mapFind merges (s.c, right.c) with
      | none => exact ⟨rfl, fun r k => by cases k; exact h⟩
      | some p =>
        simp only [Option.map_some]
        split
        · exact ⟨rfl, fun r k => by cases k; exact h⟩
        · generalize (if 0 ≤ right.next ∧ toSizeT right.next < ((w.modify top.pos fun x => x.mergeWith right top.newId).modify s.next.toNat fun x => { x with len := 0 }).length then
              ((w.modify top.pos fun x => x.mergeWith right top.newId).modify s.next.toNat fun x => { x with len := 0 }).modify right.next.toNat fun x => { x with prev := (top.pos : Int) }
            else ((w.modify top.pos fun x => x.mergeWith right top.newId).modify s.next.toNat fun x => { x with len := 0 })) = w'
          cases vecAt w' top.pos with
          | error e => exact ⟨rfl, fun r k => by cases k⟩
          | ok c =>
            simp only [res_ok_bind]
            obtain ⟨h1, h2⟩ := rk_pushLeft hg hq hm w' h c
            rw [h1]
            cases e : pushLeft P merges w' q c with
            | error e => exact ⟨rfl, fun r k => by cases k⟩
            | ok q1 =>
              simp only [Except.map, res_ok_bind]
              obtain ⟨h3, h4⟩ := rk_pushRight hg hq hm w' (h2 _ e) top.pos c
              rw [h3]
              cases e' : pushRight P merges w' q1 top.pos c with
              | error e => exact ⟨rfl, fun r k => by cases k⟩
              | ok q2 => exact ⟨rfl, fun r k => by cases k; exact h4 _ e'⟩

/-- The same state with other ranks. -/
def reState (g : Int → Int) (st : MState) : MState := { st with queue := st.queue.map (reRank g), skip := st.skip.map (reRank g) }

theorem rk_fold {P : Platform} {g : Int → Int} {R : Int → Prop} (hg : KeepsOrder g R) (hq : ComparesRanks P.pq) : ∀ (l q : List Merge), (∀ x ∈ l, R x.rank) →
    RanksIn P R q → (l.map (reRank g)).foldl P.pq.push (q.map (reRank g)) = (l.foldl P.pq.push q).map (reRank g) ∧ RanksIn P R (l.foldl P.pq.push q)
  | [], q, _, h => ⟨rfl, h⟩
  | x :: l, q, hl, h => by
    obtain ⟨h1, h2⟩ := rk_push hg hq h (hl x (by simp))
    simp only [List.map_cons, List.foldl_cons]
    rw [h1]
    exact rk_fold hg hq l _ (fun y hy => hl y (by simp [hy])) h2

theorem rk_step {P : Platform} {g : Int → Int} {R : Int → Prop} (hg : KeepsOrder g R) (hq : ComparesRanks P.pq) {merges merges' : Merges}
    (hm : ReRanked g R merges merges') (d : Dropout) {st : MState} (h : RanksIn P R st.queue) (hs : ∀ x ∈ st.skip, R x.rank) :
    mergeStep P merges' d (reState g st) = (mergeStep P merges d st).map (Option.map (reState g)) ∧
      ∀ st', mergeStep P merges d st = .ok (some st') → RanksIn P R st'.queue ∧ ∀ x ∈ st'.skip, R x.rank := by
  unfold mergeStep
  rw [show (reState g st).queue = st.queue.map (reRank g) from rfl, (hq g R hg).2 _ h.2]
  cases e : P.pq.pop st.queue with
  | none => exact ⟨rfl, fun r k => by cases k⟩
  | some r =>
    obtain ⟨top, q⟩ := r
    have hp := P.pq.pop_perm _ _ _ h.1 e
    have ht : R top.rank := h.2 top (hp.mem_iff.2 (by simp))
    have hq' : RanksIn P R q := ⟨P.pq.pop_inv _ _ _ h.1 e, fun x hx => h.2 x (hp.mem_iff.2 (by simp [hx]))⟩
    simp only [Option.map_some, show (reState g st).drawn = st.drawn from rfl, show (reState g st).syms = st.syms from rfl]
    split
    · refine ⟨by simp [reState, Except.map, pure, Except.pure], fun st' k => ?_⟩
      cases k
      refine ⟨hq', fun x hx => ?_⟩
      rcases List.mem_append.1 hx with hx | hx
      · exact hs x hx
      · rw [List.mem_singleton.1 hx]; exact ht
    · obtain ⟨h1, h2⟩ := rk_fold hg hq st.skip q hs hq'
      rw [show (reState g st).skip = st.skip.map (reRank g) from rfl, h1]
      obtain ⟨h3, h4⟩ := rk_applyTop hg hq hm st.syms h2 top
      rw [h3]
      cases e' : applyTop P merges st.syms (st.skip.foldl P.pq.push q) top with
      | error e => exact ⟨rfl, fun r k => by cases k⟩
      | ok r => exact ⟨rfl, fun st' k => by cases k; exact ⟨h4 _ e', fun x hx => by cases hx⟩⟩

theorem rk_mergeLoop {P : Platform} {g : Int → Int} {R : Int → Prop} (hg : KeepsOrder g R) (hq : ComparesRanks P.pq) {merges merges' : Merges}
    (hm : ReRanked g R merges merges') (d : Dropout) : ∀ (n : Nat) (st : MState), RanksIn P R st.queue → (∀ x ∈ st.skip, R x.rank) →
    mergeLoop P merges' d n (reState g st) = mergeLoop P merges d n st
  | 0, st, _, _ => rfl
  | n + 1, st, h, hs => by
    obtain ⟨h1, h2⟩ := rk_step hg hq hm d h hs
    simp only [mergeLoop]
    rw [h1]
    cases e : mergeStep P merges d st with
    | error e => rfl
    | ok x =>
      cases x with
      | none => rfl
      | some st' => exact rk_mergeLoop hg hq hm d n st' (h2 _ e).1 (h2 _ e).2

theorem rk_mergeAll {P : Platform} {g : Int → Int} {R : Int → Prop} (hg : KeepsOrder g R) (hq : ComparesRanks P.pq) {merges merges' : Merges}
    (hm : ReRanked g R merges merges') (d : Dropout) (w : List Symbol) : mergeAll P merges' d w = mergeAll P merges d w := by
  cases w with
  | nil => rfl
  | cons x w =>
    unfold mergeAll
    obtain ⟨h1, h2⟩ := rk_initQueue hg hq hm (x :: w) 0 [] ⟨P.pq.inv_nil, fun x hx => by cases hx⟩
    have := rk_mergeLoop hg hq hm d (mergeFuel (x :: w).length)
      { syms := x :: w, queue := initQueue P merges 0 (x :: w) [], skip := [], drawn := 0 } h2 (fun x hx => by cases hx)
    simp only [reState, List.map_nil] at this h1
    rw [← h1] at this
    simp only [this]

/-! ### Tables with the same rules in the same order -/

theorem rk_order {V : Str → Option Int} {pre : Str} {lines lines' : List Str} (h : SameOrder (Listed V pre lines) (Listed V pre lines')) :
    ∃ g : Int → Int, ∀ r a b n, Listed V pre lines r a b n → ∃ s : Nat, g r = s ∧ Listed V pre lines' s a b n := by
  classical
  have key : ∀ r : Int, ∃ s : Int, ∀ k a b n, r = (k : Nat) → Listed V pre lines k a b n → ∃ t : Nat, s = t ∧ Listed V pre lines' t a b n := by
    intro r
    by_cases hr : ∃ (k : Nat) (a b n : Int), r = k ∧ Listed V pre lines k a b n
    · obtain ⟨k, a, b, n, hk, hl⟩ := hr
      obtain ⟨t, ht⟩ := (h.rules a b n).1 ⟨k, hl⟩
      refine ⟨t, fun k' a' b' n' hk' hl' => ⟨t, rfl, ?_⟩⟩
      have : k' = k := by omega
      subst this
      obtain ⟨t', ht'⟩ := (h.rules a' b' n').1 ⟨k', hl'⟩
      have h1 := h.order _ _ _ _ _ _ _ _ _ _ hl hl' ht ht'
      have h2 := h.order _ _ _ _ _ _ _ _ _ _ hl' hl ht' ht
      have : t' = t := by omega
      subst this
      exact ht'
    · exact ⟨0, fun k a b n hk hl => absurd ⟨k, a, b, n, hk, hl⟩ hr⟩
  exact ⟨fun r => (key r).choose, fun r a b n hl => (key r).choose_spec r a b n rfl hl⟩

theorem rk_make {v : Vocab} {lines lines' : List Str} {d : Dropout} {unk pre suf : Str} {fuse fb ig : Bool} {m m' : BPE}
    (hm : BPE.make v lines d unk pre suf fuse fb ig = .ok m) (hm' : BPE.make v lines' d unk pre suf fuse fb ig = .ok m') :
    m' = { m with merges := m'.merges } := by
  unfold BPE.make at hm hm'
  obtain ⟨a, a1, a2⟩ := res_bind_ok.1 hm
  obtain ⟨b, b1, b2⟩ := res_bind_ok.1 hm'
  cases a2; cases b2; rfl

theorem rk_word (P : Platform) (hq : ComparesRanks P.pq) {v : Vocab} {lines lines' : List Str} {d : Dropout} {unk pre suf : Str} {fuse fb ig : Bool} {m m' : BPE}
    (hm : BPE.make v lines d unk pre suf fuse fb ig = .ok m) (hm' : BPE.make v lines' d unk pre suf fuse fb ig = .ok m')
    (h : SameOrder (Listed (tokenToId v) pre lines) (Listed (tokenToId v) pre lines')) (s : Str) : (m.word P s).1 = (m'.word P s).1 := by
  obtain ⟨g, hg⟩ := rk_order h
  have e := rk_make hm hm'
  have hv : m.vocab = v ∧ m.pre = pre := by
    have := make_fields hm
    exact ⟨this.1, this.2.2.2.1⟩
  have hv' : m'.vocab = v ∧ m'.pre = pre := by rw [e]; exact hv
  have t := make_merges hm
  have t' := make_merges hm'
  rw [hv.1, hv.2] at t
  rw [hv'.1, hv'.2] at t'
  have hr : ReRanked g (fun i => ∃ (k : Nat) (a b n : Int), i = k ∧ Listed (tokenToId v) pre lines k a b n) m.merges m'.merges := by
    refine ⟨fun k => ?_, fun k p hp => ?_⟩
    · obtain ⟨a, b⟩ := k
      cases e1 : mapFind m.merges (a, b) with
      | some p =>
        obtain ⟨r, n⟩ := p
        obtain ⟨k, rfl, hl⟩ := (t a b r n).1 e1
        obtain ⟨s, h1, h2⟩ := hg k a b n hl
        exact (t' a b _ n).2 ⟨s, h1, h2⟩
      | none =>
        cases e2 : mapFind m'.merges (a, b) with
        | none => rfl
        | some p =>
          obtain ⟨r, n⟩ := p
          obtain ⟨k, rfl, hl⟩ := (t' a b r n).1 e2
          obtain ⟨s, hs⟩ := (h.rules a b n).2 ⟨k, hl⟩
          have := (t a b s n).2 ⟨s, rfl, hs⟩
          rw [e1] at this; cases this
    · obtain ⟨a, b⟩ := k
      obtain ⟨r, n⟩ := p
      obtain ⟨k, rfl, hl⟩ := (t a b r n).1 hp
      exact ⟨k, a, b, n, rfl, hl⟩
  have hk : KeepsOrder g (fun i => ∃ (k : Nat) (a b n : Int), i = k ∧ Listed (tokenToId v) pre lines k a b n) := by
    rintro _ _ ⟨i, a, b, n, rfl, h1⟩ ⟨j, c, d, k, rfl, h2⟩
    obtain ⟨s, e1, l1⟩ := hg _ _ _ _ h1
    obtain ⟨s', e2, l2⟩ := hg _ _ _ _ h2
    have := h.order _ _ _ _ _ _ _ _ _ _ h1 h2 l1 l2
    rw [e1, e2]
    omega
  have hall : ∀ w, mergeAll P m'.merges m.dropout w = mergeAll P m.merges m.dropout w := fun w => rk_mergeAll hk hq hr _ w
  have sl : ∀ (s : Str) (x : Bool) (w : List Symbol) (u : Option (Int × Nat)), m'.symbolsLoop x s w u = m.symbolsLoop x s w u := by
    intro s
    induction s with
    | nil => intro x w u; rfl
    | cons b s ih =>
      intro x w u
      simp only [BPE.symbolsLoop, ih]
      rw [e]
      rfl
  have hw : m'.mergeWord P s = m.mergeWord P s := by
    unfold BPE.mergeWord BPE.symbols
    rw [sl, show m'.dropout = m.dropout by rw [e], hall]
  have hvv : m'.vocab = m.vocab := by rw [e]
  have hdi : Direct m s ↔ Direct m' s := by
    unfold Direct
    rw [e]
  have c1 : m.cache = [] := (make_fields hm).2.2.2.2.2.2.2.2
  have c2 : m'.cache = [] := (make_fields hm').2.2.2.2.2.2.2.2
  rcases word_answer P c1 s with ⟨i, a1, a2, a3⟩ | ⟨a1, a2⟩
  · rcases word_answer P c2 s with ⟨j, b1, b2, b3⟩ | ⟨b1, b2⟩
    · rw [a3, b3]
      rw [hvv, a2] at b2
      cases b2; rfl
    · exact absurd (hdi.1 a1) b1
  · rcases word_answer P c2 s with ⟨j, b1, b2, b3⟩ | ⟨b1, b2⟩
    · exact absurd (hdi.2 b1) a1
    · rw [hw] at b2
      rcases a2 with ⟨e, a2, a3⟩ | ⟨w, a2, a3⟩ <;> rcases b2 with ⟨e', b2, b3⟩ | ⟨w', b2, b3⟩
      · rw [a3, b3]; rw [b2] at a2; cases a2; rfl
      · rw [b2] at a2; cases a2
      · rw [b2] at a2; cases a2
      · rw [a3, b3]; rw [b2] at a2; cases a2
        exact (op_wordToTokens hvv _ _).symm

/-- **C142** Of the list of merges only the rules and their order matter: two BPE models that are built from the same values, but for lists of merges
that list the same rules in the same relative order, make `encode` return the same - for every text, whatever texts were encoded before. -/
theorem C142_encode (P : Platform) (hq : ComparesRanks P.pq) {t : Tokenizer} {v : Vocab} {lines lines' : List Str} {d : Dropout} {unk pre suf : Str}
    {fuse fb ig : Bool} {m m' : BPE} (hm : BPE.make v lines d unk pre suf fuse fb ig = .ok m) (hm' : BPE.make v lines' d unk pre suf fuse fb ig = .ok m')
    (h : SameOrder (Listed (tokenToId v) pre lines) (Listed (tokenToId v) pre lines')) {before before' : List PTS}
    (hx : t.model = some (.bpe (usedBPE P m before))) (w : WStr) (b : Bool) :
    (t.encode P w b).1 = (({ t with model := some (.bpe (usedBPE P m' before')) } : Tokenizer).encode P w b).1 := by
  refine op_encode P hx fun p _ => ?_
  have mk : ∀ {l : List Str} {k : BPE}, BPE.make v l d unk pre suf fuse fb ig = .ok k → Made l k := by
    intro l k hk
    unfold Made
    have := make_fields hk
    simp_all
  obtain ⟨c1, f1⟩ := used_cache P (mk hm) before
  obtain ⟨c2, f2⟩ := used_cache P (mk hm') before'
  have key := pr_splits P p.splits (m := m) (m' := m') (fun s _ => rk_word P hq hm hm' h s.normalized) _ _ c1 f1 c2 f2
  simp only [Model.tokenize, BPE.tokenize]
  generalize BPE.splitsLoop P _ p.splits = S at key
  generalize BPE.splitsLoop P _ p.splits = S' at key
  obtain ⟨q, z⟩ := S
  obtain ⟨q', z'⟩ := S'
  simp only at key
  subst key
  cases q <;> rfl

/-! ### Lines that give no rule -/

theorem rk_take {V : Str → Option Int} {pre : Str} {l : List Str} {j r : Nat} {a b n : Int} (h : Says V pre (l.take j) r a b n) : r < j ∧ Says V pre l r a b n := by
  obtain ⟨line, p, q, h1, h2⟩ := h
  rw [List.getElem?_take] at h1
  split at h1
  · exact ⟨by assumption, line, p, q, h1, h2⟩
  · cases h1

theorem rk_padded {V : Str → Option Int} {pre : Str} {before l l' : List Str} (h : PaddedWith V pre before l l') :
    ∃ f : Nat → Nat, (∀ i j, i < j → f i < f j) ∧ (∀ i line, l[i]? = some line → l'[f i]? = some line) ∧
      ∀ j line, l'[j]? = some line → (∃ i, j = f i ∧ l[i]? = some line) ∨ NoRule V pre (before ++ l'.take j) line := by
  induction h with
  | nil before => exact ⟨id, fun _ _ h => h, fun i line h => by simp at h, fun j line h => by simp at h⟩
  | line before x l l' _ ih =>
    obtain ⟨f, h1, h2, h3⟩ := ih
    refine ⟨fun i => match i with | 0 => 0 | i + 1 => f i + 1, ?_, ?_, ?_⟩
    · intro i j hij
      cases j with
      | zero => omega
      | succ j =>
        cases i with
        | zero => show 0 < f j + 1; omega
        | succ i => have := h1 i j (by omega); show f i + 1 < f j + 1; omega
    · intro i line hi
      cases i with
      | zero => exact hi
      | succ i => exact h2 i line hi
    · intro j line hj
      cases j with
      | zero => exact .inl ⟨0, rfl, hj⟩
      | succ j =>
        rcases h3 j line hj with ⟨i, rfl, hi⟩ | hn
        · exact .inl ⟨i + 1, rfl, hi⟩
        · right; simpa using hn
  | extra before x l l' hx _ ih =>
    obtain ⟨f, h1, h2, h3⟩ := ih
    refine ⟨fun i => f i + 1, ?_, ?_, ?_⟩
    · intro i j hij
      have := h1 i j hij
      show f i + 1 < f j + 1
      omega
    · intro i line hi
      exact h2 i line hi
    · intro j line hj
      cases j with
      | zero =>
        simp only [List.getElem?_cons_zero, Option.some.injEq] at hj
        subst hj
        right; simpa using hx
      | succ j =>
        rcases h3 j line hj with ⟨i, rfl, hi⟩ | hn
        · exact .inl ⟨i, rfl, hi⟩
        · right; simpa using hn

theorem rk_same {V : Str → Option Int} {pre : Str} {l l' : List Str} (h : PaddedWith V pre [] l l') : SameOrder (Listed V pre l) (Listed V pre l') := by
  obtain ⟨f, h1, h2, h3⟩ := rk_padded h
  have mono : ∀ i j, i ≤ j → f i ≤ f j := by
    intro i j hij
    rcases Nat.lt_or_ge i j with hl | hl
    · exact Nat.le_of_lt (h1 i j hl)
    · have : i = j := by omega
      rw [this]; exact Nat.le_refl _
  have down : ∀ j a b n, Says V pre l' j a b n → ∃ i k, f i ≤ j ∧ Says V pre l i a b k := by
    intro j
    induction j using Nat.strongRecOn with
    | ind j ih =>
      rintro a b n ⟨line, p, q, k1, k2, k3, k4, k5⟩
      rcases h3 j line k1 with ⟨i, rfl, hi⟩ | hn
      · exact ⟨i, n, Nat.le_refl _, line, p, q, hi, k2, k3, k4, k5⟩
      · obtain ⟨r, k, hr⟩ := hn p q a b n k2 k3 k4 k5
        obtain ⟨hlt, hs⟩ := rk_take hr
        obtain ⟨i, k', h4, h5⟩ := ih r hlt a b k hs
        exact ⟨i, k', by omega, h5⟩
  have up : ∀ r a b n, Says V pre l r a b n → Says V pre l' (f r) a b n := by
    rintro r a b n ⟨line, p, q, k1, k2⟩
    exact ⟨line, p, q, h2 _ _ k1, k2⟩
  have fw : ∀ r a b n, Listed V pre l r a b n → Listed V pre l' (f r) a b n := by
    rintro r a b n ⟨k1, k2⟩
    refine ⟨up _ _ _ _ k1, fun j k hj => ?_⟩
    obtain ⟨i, k', h4, h5⟩ := down j a b k hj
    exact Nat.le_trans (mono _ _ (k2 i k' h5)) h4
  have bw : ∀ j a b n, Listed V pre l' j a b n → ∃ i, j = f i ∧ Listed V pre l i a b n := by
    rintro j a b n ⟨⟨line, p, q, k1, k2, k3, k4, k5⟩, k6⟩
    rcases h3 j line k1 with ⟨i, rfl, hi⟩ | hn
    · refine ⟨i, rfl, ⟨line, p, q, hi, k2, k3, k4, k5⟩, fun s k hs => ?_⟩
      have := k6 _ _ (up _ _ _ _ hs)
      rcases Nat.lt_or_ge s i with hl | hl
      · have := h1 s i hl; omega
      · exact hl
    · obtain ⟨r, k, hr⟩ := hn p q a b n k2 k3 k4 k5
      obtain ⟨hlt, hs⟩ := rk_take hr
      have := k6 _ _ hs
      omega
  refine ⟨fun a b n => ⟨fun ⟨r, hr⟩ => ⟨f r, fw _ _ _ _ hr⟩, fun ⟨j, hj⟩ => ?_⟩, ?_⟩
  · obtain ⟨i, -, hi⟩ := bw _ _ _ _ hj
    exact ⟨i, hi⟩
  · intro r s r' s' a b n c d k t1 t2 t3 t4
    have e1 : r' = f r := Nat.le_antisymm (t3.2 _ _ (fw _ _ _ _ t1).1) ((fw _ _ _ _ t1).2 _ _ t3.1)
    have e2 : s' = f s := Nat.le_antisymm (t4.2 _ _ (fw _ _ _ _ t2).1) ((fw _ _ _ _ t2).2 _ _ t4.1)
    subst e1 e2
    constructor
    · exact h1 r s
    · intro hlt
      rcases Nat.lt_or_ge r s with hl | hl
      · exact hl
      · have := mono _ _ hl; omega

/-- **C142** Lines of the list of merges that give no rule - a header, an empty line, one with a piece that is no entry, a second line about the same pair -
can be put anywhere into the list: `encode` returns the same. -/
theorem C142_padded (P : Platform) (hq : ComparesRanks P.pq) {t : Tokenizer} {v : Vocab} {lines lines' : List Str} {d : Dropout} {unk pre suf : Str}
    {fuse fb ig : Bool} {m m' : BPE} (hm : BPE.make v lines d unk pre suf fuse fb ig = .ok m) (hm' : BPE.make v lines' d unk pre suf fuse fb ig = .ok m')
    (h : PaddedWith (tokenToId v) pre [] lines lines') {before before' : List PTS}
    (hx : t.model = some (.bpe (usedBPE P m before))) (w : WStr) (b : Bool) :
    (t.encode P w b).1 = (({ t with model := some (.bpe (usedBPE P m' before')) } : Tokenizer).encode P w b).1 :=
  C142_encode P hq hm hm' (rk_same h) hx w b

/-! ### The hypotheses are met -/

theorem rk_popMax {g : Int → Int} {R : Int → Prop} (hg : KeepsOrder g R) : ∀ l : List Merge, (∀ x ∈ l, R x.rank) →
    popMax (l.map (reRank g)) = (popMax l).map fun r => (reRank g r.1, r.2.map (reRank g))
  | [], _ => rfl
  | m :: l, h => by
    simp only [List.map_cons, popMax]
    rw [rk_popMax hg l fun x hx => h x (by simp [hx])]
    cases e : popMax l with
    | none => rfl
    | some x =>
      obtain ⟨x, r⟩ := x
      have hx : R x.rank := h x (by simp [(popMax_perm e).mem_iff])
      simp only [Option.map_some, show (reRank g m).rank = g m.rank from rfl, show (reRank g x).rank = g x.rank from rfl, ← hg _ _ (h m (by simp)) hx]
      split <;> rfl

/-- The queue of the concrete platforms compares ranks only. -/
theorem rk_listPQ : ComparesRanks listPQ := fun _ _ hg => ⟨fun l m _ => by simp [listPQ], fun l h => rk_popMax hg l h⟩

/-- The list of `abcBPE` with a header, an empty line, a line with an unknown piece and a second line about a pair. -/
def rkLines : List Str := [b!"#version: 0.2", b!"a b", [], b!"z a", b!"b c", b!"a b"]

/-- The model that is built from this list: the same rules under other ranks. -/
def rkBPE : BPE := { abcBPE with merges := [((0, 1), (1, 3)), ((1, 2), (4, 4))] }

theorem rkBPE_make : BPE.make abcBPE.vocab rkLines ⟨false, fun _ => false⟩ [] [] [] false false false = .ok rkBPE := rfl

theorem rk_noEntry {V : Str → Option Int} {pre line p : Str} {before : List Str} {rest : Str} (h : readWord line = some (p, rest)) (hp : V p = none) :
    NoRule V pre before line := by
  intro p' q a b n hf h1
  obtain ⟨r, r', k, -⟩ := (fields_iff _ _ _).1 hf
  rw [h] at k
  cases k
  rw [hp] at h1
  cases h1

theorem rkLines_padded : PaddedWith (tokenToId abcBPE.vocab) [] [] [b!"a b", b!"b c"] rkLines := by
  refine .extra _ _ _ _ (rk_noEntry (rest := b!" 0.2") (p := b!"#version:") rfl rfl) (.line _ _ _ _ (.extra _ _ _ _ ?_
    (.extra _ _ _ _ (rk_noEntry (rest := b!" a") (p := b!"z") rfl rfl) (.line _ _ _ _ (.extra _ _ _ _ ?_ (.nil _))))))
  · intro p q a b n hf
    obtain ⟨r, r', k, -⟩ := (fields_iff _ _ _).1 hf
    cases k
  · intro p q a b n hf h1 h2 h3
    exact ⟨1, n, _, p, q, rfl, hf, h1, h2, h3⟩

example : ((abcTk [] false .bert).encode ascii w!"abcab" true).1 =
    (({ abcTk [] false .bert with model := some (.bpe (usedBPE ascii rkBPE [])) } : Tokenizer).encode ascii w!"abcab" true).1 :=
  C142_padded ascii rk_listPQ (m := abcBPE) (before := []) (show BPE.make abcBPE.vocab [b!"a b", b!"b c"] ⟨false, fun _ => false⟩ [] [] [] false false false = .ok abcBPE from rfl)
    rkBPE_make rkLines_padded rfl w!"abcab" true

example : (({ abcTk [] false .bert with model := some (.bpe rkBPE) } : Tokenizer).encode ascii w!"abcab" true).1.map (·.ids) = .ok [0, 4, 3] := by
  decide +kernel

/-- The order of the rules does matter: with the two lines exchanged the text has other tokens. -/
theorem C142_violated :
    (BPE.make abcBPE.vocab [b!"b c", b!"a b"] ⟨false, fun _ => false⟩ [] [] [] false false false).bind
      (fun m => (({ abcTk [] false .bert with model := some (.bpe m) } : Tokenizer).encode ascii w!"abcab" true).1.map (·.ids)) = .ok [3, 2, 3] ∧
    ((abcTk [] false .bert).encode ascii w!"abcab" true).1.map (·.ids) = .ok [0, 4, 3] := by
  refine ⟨?_, ?_⟩ <;> decide +kernel

end Tok
