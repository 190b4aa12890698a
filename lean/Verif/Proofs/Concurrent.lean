import Verif.Spec.Concurrent
import Verif.Proofs.Independent

set_option autoImplicit false

/-! Threads that use one tokenizer. -/

namespace Tok
open Spec

/-- What the reverse map may answer. -/
def Ans (R0 : List (Int × AddedToken)) (T : Int → Prop) (id : Int) (o : Option AddedToken) : Prop :=
  o = mapFind R0 id ∨ (mapFind R0 id = none ∧ o = some {} ∧ T id)

/-- The shared containers are as a run of calls leaves them. -/
structure Env (R0 : List (Int × AddedToken)) (T : Int → Prop) (G : Str → List Symbol → Prop) (S : Shared) : Prop where
  mapR : ∀ i, Ans R0 T i (mapFind S.mapR i)
  cache : ∀ s w, mapFind S.cache s = some w → G s w

/-- The computation ends with `r` after at most `n` accesses, whatever the other threads do. -/
inductive Det (R0 : List (Int × AddedToken)) (T : Int → Prop) (G : Str → List Symbol → Prop) {α : Type} :
    Nat → Prog α → α → Prop
  | ret (n : Nat) (a : α) : Det R0 T G n (.ret a) a
  | entry {n : Nat} {id : Int} {k : AddedToken → Prog α} {r : α} :
      T id → Det R0 T G n (k ((mapFind R0 id).getD {})) r → Det R0 T G (n + 1) (.entry id k) r
  | find {n : Nat} {id : Int} {k : Option AddedToken → Prog α} {r : α} :
      (∀ o, Ans R0 T id o → Det R0 T G n (k o) r) → Det R0 T G (n + 1) (.find id k) r
  | cacheFind {n : Nat} {s : Str} {k : Option (List Symbol) → Prog α} {r : α} :
      Det R0 T G n (k none) r → (∀ w, G s w → Det R0 T G n (k (some w)) r) → Det R0 T G (n + 1) (.cacheFind s k) r
  | cacheInsert {n : Nat} {s : Str} {w : List Symbol} {k : Prog α} {r : α} :
      G s w → Det R0 T G n k r → Det R0 T G (n + 1) (.cacheInsert s w k) r

section
variable {R0 : List (Int × AddedToken)} {T : Int → Prop} {G : Str → List Symbol → Prop}

theorem Det.mono {α : Type} {n : Nat} {p : Prog α} {r : α} (h : Det R0 T G n p r) : ∀ {m : Nat}, n ≤ m → Det R0 T G m p r := by
  induction h with
  | ret n a => intro m _; exact .ret m a
  | entry ht _ ih =>
    intro m hm
    obtain ⟨k, rfl⟩ : ∃ k, m = k + 1 := ⟨m - 1, by omega⟩
    exact .entry ht (ih (by omega))
  | find _ ih =>
    intro m hm
    obtain ⟨k, rfl⟩ : ∃ k, m = k + 1 := ⟨m - 1, by omega⟩
    exact .find fun o ho => ih o ho (by omega)
  | cacheFind _ _ ih1 ih2 =>
    intro m hm
    obtain ⟨k, rfl⟩ : ∃ k, m = k + 1 := ⟨m - 1, by omega⟩
    exact .cacheFind (ih1 (by omega)) fun w hw => ih2 w hw (by omega)
  | cacheInsert hg _ ih =>
    intro m hm
    obtain ⟨k, rfl⟩ : ∃ k, m = k + 1 := ⟨m - 1, by omega⟩
    exact .cacheInsert hg (ih (by omega))

theorem Det.bind {α β : Type} {n : Nat} {p : Prog α} {a : α} (h : Det R0 T G n p a) {m : Nat} {f : α → Prog β} {r : β}
    (hf : Det R0 T G m (f a) r) : Det R0 T G (n + m) (p.bind f) r := by
  induction h with
  | ret n a => exact hf.mono (by omega)
  | @entry n _ _ _ ht _ ih => rw [show n + 1 + m = (n + m) + 1 by omega]; exact .entry ht (ih hf)
  | @find n _ _ _ _ ih => rw [show n + 1 + m = (n + m) + 1 by omega]; exact .find fun o ho => ih o ho hf
  | @cacheFind n _ _ _ _ _ ih1 ih2 =>
    rw [show n + 1 + m = (n + m) + 1 by omega]; exact .cacheFind (ih1 hf) fun w hw => ih2 w hw hf
  | @cacheInsert n _ _ _ _ hg _ ih => rw [show n + 1 + m = (n + m) + 1 by omega]; exact .cacheInsert hg (ih hf)

/-- Sooner or later. -/
def DetR (R0 : List (Int × AddedToken)) (T : Int → Prop) (G : Str → List Symbol → Prop) {α : Type} (p : Prog α) (r : α) : Prop :=
  ∃ n, Det R0 T G n p r

theorem detR_ret {α : Type} (a : α) : DetR R0 T G (Prog.ret a) a := ⟨0, .ret 0 a⟩

theorem detR_lift {α : Type} (r : Res α) : DetR R0 T G (Act.lift r) r := ⟨0, .ret 0 r⟩

theorem detR_pure {α : Type} (a : α) : DetR R0 T G (pure a : Act α) (.ok a) := ⟨0, .ret 0 (Except.ok a)⟩

theorem detR_bind {α β : Type} {p : Act α} {x : Res α} (h : DetR R0 T G p x) {f : α → Act β} {g : α → Res β}
    (hf : ∀ a, x = .ok a → DetR R0 T G (f a) (g a)) : DetR R0 T G (p >>= f : Act β) (x >>= g) := by
  obtain ⟨n, h⟩ := h
  cases x with
  | error e => exact ⟨n + 0, h.bind (.ret 0 (Except.error e))⟩
  | ok a =>
    obtain ⟨m, hm⟩ := hf a rfl
    exact ⟨n + m, h.bind hm⟩

theorem detR_lift_bind {α β : Type} {x : Res α} {f : α → Act β} {g : α → Res β}
    (hf : ∀ a, x = .ok a → DetR R0 T G (f a) (g a)) : DetR R0 T G (Act.lift x >>= f : Act β) (x >>= g) :=
  detR_bind (detR_lift x) hf

/-- One access of a thread. -/
theorem det_step {α : Type} {n : Nat} {p : Prog α} {r : α} (h : Det R0 T G n p r) {S : Shared} (hS : Env R0 T G S) :
    Det R0 T G (n - 1) (p.step S).1 r ∧ Env R0 T G (p.step S).2 := by
  cases h with
  | ret n => exact ⟨.ret _ _, hS⟩
  | @entry n id k r ht hk =>
    have e : (mapFind S.mapR id).getD {} = (mapFind R0 id).getD {} := by
      rcases hS.mapR id with h | ⟨h1, h2, _⟩
      · rw [h]
      · rw [h1, h2]; rfl
    refine ⟨?_, ?_, hS.cache⟩
    · show Det R0 T G n (k _) r
      rw [e]; exact hk
    · intro i
      show Ans R0 T i (mapFind (mapInsert S.mapR id {}) i)
      rw [mapFind_insert']
      cases hi : mapFind S.mapR i with
      | some x => have := hS.mapR i; rw [hi] at this; exact this
      | none =>
        simp only
        split
        · rename_i e
          subst e
          refine .inr ⟨?_, rfl, ht⟩
          rcases hS.mapR id with h | ⟨h, _, _⟩
          · rw [← h]; exact hi
          · exact h
        · have := hS.mapR i; rw [hi] at this; exact this
  | find hk => exact ⟨hk _ (hS.mapR _), hS⟩
  | @cacheFind n s k r h1 h2 =>
    refine ⟨?_, hS⟩
    show Det R0 T G n (k (mapFind S.cache s)) r
    cases hc : mapFind S.cache s with
    | none => exact h1
    | some w => exact h2 w (hS.cache s w hc)
  | @cacheInsert n s w k r hg hk =>
    refine ⟨hk, hS.mapR, ?_⟩
    intro x y hx
    have hx : mapFind (mapInsert S.cache s w) x = some y := hx
    rw [mapFind_insert'] at hx
    cases hi : mapFind S.cache x with
    | some z => rw [hi] at hx; cases hx; exact hS.cache x _ hi
    | none =>
      rw [hi] at hx
      simp only at hx
      split at hx
      · rename_i e
        cases hx; rw [← e]; exact hg
      · cases hx

/-- Every thread ends with its answer, whatever the schedule. -/
theorem det_run {α : Type} (sched : List Nat) : ∀ {s : Sys α} (_ : Env R0 T G s.shared) {n : Nat → Nat} {r : Nat → α}
    (_ : ∀ i p, s.threads[i]? = some p → Det R0 T G (n i) p (r i)),
    Env R0 T G (s.run sched).shared ∧ (s.run sched).threads.length = s.threads.length ∧
    ∀ i p, (s.run sched).threads[i]? = some p → Det R0 T G (n i - sched.count i) p (r i) := by
  induction sched with
  | nil => intro s hS n r h; exact ⟨hS, rfl, fun i p hp => h i p hp⟩
  | cons j rest ih =>
    intro s hS n r h
    simp only [Sys.run]
    have key : Env R0 T G (s.step j).shared ∧ (s.step j).threads.length = s.threads.length ∧
        ∀ i p, (s.step j).threads[i]? = some p → Det R0 T G (n i - if i = j then 1 else 0) p (r i) := by
      unfold Sys.step
      cases hp : s.threads[j]? with
      | none => exact ⟨hS, rfl, fun i p hi => (h i p hi).mono (by
          split
          · rename_i e; subst e; rw [hp] at hi; cases hi
          · omega)⟩
      | some p =>
        obtain ⟨h1, h2⟩ := det_step (h j p hp) hS
        refine ⟨h2, by simp, ?_⟩
        intro i q hq
        simp only [List.getElem?_set] at hq
        split at hq
        · rename_i e
          subst e
          split at hq
          · cases hq
            rw [if_pos rfl]; exact h1
          · cases hq
        · rename_i e
          rw [if_neg (fun e' => e e'.symm)]
          exact h i q hq
    obtain ⟨k1, k2, k3⟩ := key
    obtain ⟨g1, g2, g3⟩ := ih k1 k3
    refine ⟨g1, g2.trans k2, fun i p hp => (g3 i p hp).mono ?_⟩
    rw [List.count_cons]
    by_cases e : i = j
    · subst e; simp; omega
    · rw [if_neg e]
      have : (j == i) = false := by simp; exact fun h => e h.symm
      rw [this]; simp

theorem det_done {α : Type} {n : Nat} {a r : α} (h : Det R0 T G n (.ret a) r) : a = r := by
  cases h; rfl

theorem det_zero {α : Type} {p : Prog α} {r : α} (h : Det R0 T G 0 p r) : p = .ret r := by
  cases h; rfl

/-! ### The calls -/

theorem matchSegsA_det (sentence : Str) (total : Nat) (l : List (Nat × Nat × Int)) (hl : ∀ x ∈ l, T x.2.2) :
    ∀ o, DetR R0 T G (matchSegsA sentence total l o) (matchSegs R0 sentence total l o) := by
  induction l with
  | nil => intro o; exact detR_pure _
  | cons x r ih =>
    intro o
    obtain ⟨start, stop, id⟩ := x
    have ih := ih fun x hx => hl x (List.mem_cons_of_mem _ hx)
    simp only [matchSegsA, matchSegs]
    have : DetR R0 T G ((do
      if (← Act.lift (wordOk ((mapFind R0 id).getD {}) sentence start stop)) then
        let start := if ((mapFind R0 id).getD {}).lstrip then max (spaceLeftmostAtEnd (sentence.take start)) o else start
        let stop ← Act.lift (if ((mapFind R0 id).getD {}).rstrip then do pure (stop + spaceRightmostAtStart (← substrFrom sentence stop))
                   else pure stop)
        let rest ← matchSegsA sentence total r stop
        return (if o < start then [(none, (o, start))] else []) ++
          (some id, (start, stop)) :: rest
      else matchSegsA sentence total r o : Act (List TSeg)))
      (matchSegs R0 sentence total ((start, stop, id) :: r) o) := by
      simp only [matchSegs]
      refine detR_lift_bind fun b _ => ?_
      split
      · have h1 : ∀ st, DetR R0 T G (do
            let rest ← matchSegsA sentence total r st
            pure ((if o < (if ((mapFind R0 id).getD {}).lstrip then max (spaceLeftmostAtEnd (sentence.take start)) o else start)
              then [(none, (o, if ((mapFind R0 id).getD {}).lstrip then max (spaceLeftmostAtEnd (sentence.take start)) o else start))]
              else []) ++
              (some id, ((if ((mapFind R0 id).getD {}).lstrip then max (spaceLeftmostAtEnd (sentence.take start)) o else start), st))
                :: rest) : Act (List TSeg))
            (do
            let rest ← matchSegs R0 sentence total r st
            pure ((if o < (if ((mapFind R0 id).getD {}).lstrip then max (spaceLeftmostAtEnd (sentence.take start)) o else start)
              then [(none, (o, if ((mapFind R0 id).getD {}).lstrip then max (spaceLeftmostAtEnd (sentence.take start)) o else start))]
              else []) ++
              (some id, ((if ((mapFind R0 id).getD {}).lstrip then max (spaceLeftmostAtEnd (sentence.take start)) o else start), st))
                :: rest) : Res (List TSeg)) := fun st =>
          detR_bind (ih st) fun rest _ => detR_pure _
        cases ((mapFind R0 id).getD {}).rstrip with
        | true =>
          cases substrFrom sentence stop with
          | ok x => exact h1 (stop + spaceRightmostAtStart x)
          | error e => exact ⟨0, .ret 0 (Except.error e)⟩
        | false => exact h1 stop
      · exact ih o
    obtain ⟨n, h⟩ := this
    exact ⟨n + 1, .entry (hl _ (List.mem_cons_self ..)) h⟩

theorem findMatchesA_det {a : AddedVocab} (sentence : Str) (trie : List (Str × Int)) (ht : ∀ p ∈ trie, T p.2) :
    DetR a.mapR T G (findMatchesA sentence trie) (a.findMatches sentence trie).1 := by
  unfold findMatchesA AddedVocab.findMatches
  simp only
  refine matchSegsA_det _ _ _ ?_ 0
  intro x hx
  obtain ⟨p, hp, e⟩ := scan_mem trie _ _ _ _ x hx
  exact e ▸ ht p hp

theorem firstSplitsA_det {a : AddedVocab} (w : WStr) (ht : ∀ p ∈ a.nonNormTrie, T p.2) :
    DetR a.mapR T G (firstSplitsA a w) (a.firstSplits w).1 := by
  have e : (a.firstSplits w).1 = (do
      let p ← PTS.ofNS (NS.ofText w)
      let text ← convertToString w
      let segs ← (a.findMatches text a.nonNormTrie).1
      let splits ← segSplits w 0 segs
      return if splits = [] then p else { p with splits }) := by
    unfold AddedVocab.firstSplits
    cases PTS.ofNS (NS.ofText w) with
    | error => rfl
    | ok p => cases convertToString w <;> rfl
  rw [e]
  unfold firstSplitsA
  refine detR_lift_bind fun p _ => ?_
  refine detR_lift_bind fun text _ => ?_
  refine detR_bind (findMatchesA_det text _ ht) fun segs _ => ?_
  refine detR_lift_bind fun splits _ => ?_
  exact detR_pure _

theorem normalizeSplitA_det (P : Platform) (norm : Option Normalizer) {a : AddedVocab} (ns : NS) (ending : Nat) (s : Split)
    (ht : ∀ p ∈ a.normTrie, T p.2) :
    DetR a.mapR T G (normalizeSplitA P norm a ns ending s) (normalizeSplit P norm a ns ending s).1 := by
  unfold normalizeSplitA normalizeSplit
  simp only
  generalize hx : (do
    let sub ← normalizeOpt P norm (NS.ofText (← convertFromString s.normalized))
    if ending + s.offsets.2 < s.offsets.1 then .error (.ub .outOfBounds)
    else do
      let ns ← ns.transformRange ending (ending + s.offsets.2 - s.offsets.1) sub
      let text ← convertToString sub.normalized
      return (ns, sub, text) : Res (NS × NS × Str)) = x
  cases x with
  | error e => exact ⟨0, .ret 0 (Except.error e)⟩
  | ok y =>
    obtain ⟨ns', sub, text⟩ := y
    have : DetR a.mapR T G (do
          let segs ← findMatchesA text a.normTrie
          let splits ← Act.lift (segSplits sub.normalized ending segs)
          return (ns', splits, sub.normalized.length) : Act (NS × List Split × Nat)) (do
          let segs ← (a.findMatches text a.normTrie).1
          let splits ← segSplits sub.normalized ending segs
          return (ns', splits, sub.normalized.length)) := by
      refine detR_bind (findMatchesA_det text _ ht) fun segs _ => ?_
      refine detR_lift_bind fun splits _ => ?_
      exact detR_pure _
    exact this

theorem normalizeLoop_result (P : Platform) (norm : Option Normalizer) (a : AddedVocab) (ns : NS) (ending : Nat) (s : Split)
    (r : List Split) : (normalizeLoop P norm a ns ending (s :: r)).1 =
      if s.tokens ≠ [] then (do
        let x ← (normalizeLoop P norm a ns (ending + s.normalized.length) r).1
        return (x.1, { s with offsets := (ending, ending + s.normalized.length) } :: x.2))
      else (do
        let x ← (normalizeSplit P norm a ns ending s).1
        let y ← (normalizeLoop P norm a x.1 (ending + x.2.2) r).1
        return (y.1, x.2.1 ++ y.2)) := by
  simp only [normalizeLoop]
  split
  · generalize normalizeLoop P norm a ns (ending + s.normalized.length) r = R
    obtain ⟨x, b⟩ := R
    cases x <;> rfl
  · have t1 := normalizeSplit_touched P norm a ns ending s
    generalize normalizeSplit P norm a ns ending s = R at t1
    obtain ⟨x, b⟩ := R
    cases x with
    | error => rfl
    | ok q =>
      obtain ⟨ns', here, n⟩ := q
      simp only [res_ok_bind]
      have := normalizeLoop_same P norm r t1.sameA ns' (ending + n)
      simp only at this
      rw [this]
      generalize normalizeLoop P norm b ns' (ending + n) r = R
      obtain ⟨x, b⟩ := R
      cases x <;> rfl

theorem normalizeLoopA_det (P : Platform) (norm : Option Normalizer) {a : AddedVocab} (ht : ∀ p ∈ a.normTrie, T p.2)
    (l : List Split) : ∀ (ns : NS) (ending : Nat),
    DetR a.mapR T G (normalizeLoopA P norm a ns ending l) (normalizeLoop P norm a ns ending l).1 := by
  induction l with
  | nil => intro ns e; exact detR_pure _
  | cons s r ih =>
    intro ns e
    rw [normalizeLoop_result]
    simp only [normalizeLoopA]
    split
    · refine detR_bind (ih _ _) fun x _ => ?_
      exact detR_pure _
    · refine detR_bind (normalizeSplitA_det P norm ns e s ht) fun x _ => ?_
      refine detR_bind (ih _ _) fun y _ => ?_
      exact detR_pure _

theorem extractA_det (P : Platform) (norm : Option Normalizer) {a : AddedVocab} (w : WStr)
    (ht : ∀ p ∈ a.nonNormTrie ++ a.normTrie, T p.2) :
    DetR a.mapR T G (extractA P norm a w) (a.extract P norm w).1 := by
  have e : (a.extract P norm w).1 = (do
      let p ← (a.firstSplits w).1
      let x ← (normalizeLoop P norm a p.normalized 0 p.splits).1
      return { normalized := x.1, splits := if x.2 = [] then p.splits else x.2 }) := by
    unfold AddedVocab.extract
    have t1 := firstSplits_touched a w
    generalize a.firstSplits w = R at t1
    obtain ⟨x, b⟩ := R
    cases x with
    | error => rfl
    | ok p =>
      simp only [res_ok_bind]
      rw [normalizeLoop_same P norm p.splits t1.sameA]
      generalize normalizeLoop P norm b p.normalized 0 p.splits = R
      obtain ⟨x, b⟩ := R
      cases x <;> rfl
  rw [e]
  unfold extractA
  refine detR_bind (firstSplitsA_det w fun p hp => ht p (List.mem_append_left _ hp)) fun p _ => ?_
  refine detR_bind (normalizeLoopA_det P norm (fun p hp => ht p (List.mem_append_right _ hp)) _ _ _) fun x _ => ?_
  exact detR_pure _

/-! ### BPE -/

/-- A right cache entry. -/
def GoodEntry (P : Platform) (m : BPE) (s : Str) (w : List Symbol) : Prop :=
  m.mergeWord P s = .ok w ∧ ∃ ts, m.wordToTokens 0 w = .ok ts

theorem wordA_det (P : Platform) {m : BPE} (hm : m.cache = []) (s : Str) :
    DetR R0 T (GoodEntry P m) (wordA P m s) (m.word P s).1 := by
  unfold wordA BPE.word
  split
  · unfold tokenizeWithCacheA BPE.tokenizeWithCache
    generalize (if m.ignoreMerges then mapFind m.vocab s else none) = direct
    cases direct with
    | some i => exact detR_pure _
    | none =>
      rw [hm]
      simp only [mapFind]
      have key : ∀ (x : Res (List Symbol)), m.mergeWord P s = x →
          DetR R0 T (GoodEntry P m) (Prog.cacheFind s fun
            | some w => Act.lift (m.wordToTokens 0 w)
            | none => (do
              let w ← Act.lift x
              let ts ← Act.lift (m.wordToTokens 0 w)
              Prog.cacheInsert s w (Prog.ret (.ok ts)) : Act (List Token))) (x >>= m.wordToTokens 0) := by
        intro x hw
        refine Exists.imp (fun n h => h) ?_
        cases x with
        | error e =>
          refine ⟨0 + 1, .cacheFind (.ret 0 (Except.error e)) ?_⟩
          intro w h
          rw [h.1] at hw; cases hw
        | ok w =>
          have h2 : DetR R0 T (GoodEntry P m) (do
              let ts ← Act.lift (m.wordToTokens 0 w)
              Prog.cacheInsert s w (Prog.ret (.ok ts)) : Act (List Token)) (m.wordToTokens 0 w >>= pure) :=
            detR_lift_bind fun ts hts => ⟨0 + 1, .cacheInsert ⟨hw, ts, hts⟩ (.ret 0 _)⟩
          have e2 : (m.wordToTokens 0 w >>= pure) = m.wordToTokens 0 w := by cases m.wordToTokens 0 w <;> rfl
          rw [e2] at h2
          obtain ⟨n, h2⟩ := h2
          refine ⟨n + 1, .cacheFind h2 ?_⟩
          intro w' h
          rw [h.1] at hw; cases hw
          exact .ret n _
      have := key _ rfl
      have e : (match m.mergeWord P s with
          | .error e => ((.error e, m) : Res (List Token) × BPE)
          | .ok w =>
            match m.wordToTokens 0 w with
            | .error e => (.error e, m)
            | .ok ts => (.ok ts, { m with cache := mapInsert [] s w })).1 = m.mergeWord P s >>= m.wordToTokens 0 := by
        cases m.mergeWord P s with
        | error => rfl
        | ok w =>
          simp only [res_ok_bind]
          cases m.wordToTokens 0 w <;> rfl
      exact e ▸ this
  · cases m.mergeWord P s with
    | error e => exact detR_lift _
    | ok w => exact detR_lift _

theorem splitsLoop_result (P : Platform) {m : BPE} (hm : m.cache = []) (s : Split) (r : List Split) :
    (BPE.splitsLoop P m (s :: r)).1 = (do
      let ts ← (m.word P s.normalized).1
      let rest ← (BPE.splitsLoop P m r).1
      return { s with tokens := ts } :: rest) := by
  have hc : CacheOk P m := by intro s w hw; rw [hm] at hw; cases hw
  have hf : m.fresh = m := by
    unfold BPE.fresh; cases m; simp only at hm; subst hm; rfl
  obtain ⟨_, h2, h3⟩ := word_cache P m s.normalized hc
  simp only [BPE.splitsLoop]
  generalize m.word P s.normalized = R at h2 h3
  obtain ⟨x, m1⟩ := R
  simp only at h2 h3
  cases x with
  | error => rfl
  | ok ts =>
    simp only [res_ok_bind]
    have := (splitsLoop_cache P r m1 h2).1
    rw [h3, hf] at this
    rw [← this]
    generalize BPE.splitsLoop P m1 r = R
    obtain ⟨y, m2⟩ := R
    cases y <;> rfl

theorem splitsLoopA_det (P : Platform) {m : BPE} (hm : m.cache = []) (l : List Split) :
    DetR R0 T (GoodEntry P m) (splitsLoopA P m l) (BPE.splitsLoop P m l).1 := by
  induction l with
  | nil => exact detR_pure _
  | cons s r ih =>
    rw [splitsLoop_result P hm]
    simp only [splitsLoopA]
    refine detR_bind (wordA_det P hm _) fun ts _ => ?_
    refine detR_bind ih fun rest _ => ?_
    exact detR_pure _

/-- The right cache entries of a tokenizer. -/
def GoodOf (P : Platform) (t : Tokenizer) (s : Str) (w : List Symbol) : Prop :=
  ∀ m, t.model = some (.bpe m) → GoodEntry P m s w

/-- The ids of the lookup tables. -/
def TrieId (t : Tokenizer) (i : Int) : Prop := ∃ a, t.added = some a ∧ ∃ p ∈ a.nonNormTrie ++ a.normTrie, p.2 = i

theorem Det.good {G' : Str → List Symbol → Prop} (hG : ∀ s w, G s w ↔ G' s w) {α : Type} {n : Nat} {p : Prog α} {r : α}
    (h : Det R0 T G n p r) : Det R0 T G' n p r := by
  induction h with
  | ret n a => exact .ret n a
  | entry ht _ ih => exact .entry ht ih
  | find _ ih => exact .find ih
  | cacheFind _ _ ih1 ih2 => exact .cacheFind ih1 fun w hw => ih2 w ((hG _ _).2 hw)
  | cacheInsert hg _ ih => exact .cacheInsert ((hG _ _).1 hg) ih

theorem preTokenizedA_det (P : Platform) (t : Tokenizer) (w : WStr) :
    DetR t.shared.mapR (TrieId t) G (preTokenizedA P t w) (t.preTokenized P w).1 := by
  have e : (t.preTokenized P w).1 = (do
      let p ← PTS.ofNS (NS.ofText w)
      let p ← match t.added with
        | none => .ok p
        | some a => (a.extract P t.normalizer w).1
      match t.preTokenizer with
      | none => .ok p
      | some pt => pt.run P p) := by
    unfold Tokenizer.preTokenized
    cases PTS.ofNS (NS.ofText w) with
    | error => rfl
    | ok p => cases t.added <;> rfl
  rw [e]
  unfold preTokenizedA
  refine detR_lift_bind fun p _ => ?_
  cases ha : t.added with
  | none => exact detR_bind (x := .ok p) (detR_pure _) fun q _ => detR_lift _
  | some a =>
    have : t.shared.mapR = a.mapR := by unfold Tokenizer.shared; rw [ha]
    rw [this]
    exact detR_bind (extractA_det P t.normalizer w fun p hp => ⟨a, ha, p, hp, rfl⟩) fun q _ => detR_lift _

theorem doTokenizeA_det (P : Platform) {t : Tokenizer} (hnew : ∀ m, t.model = some (.bpe m) → m.cache = []) (p : PTS) :
    DetR R0 T (GoodOf P t) (doTokenizeA P t p) (t.doTokenize P p).1 := by
  unfold doTokenizeA Tokenizer.doTokenize
  cases hm : t.model with
  | none => exact detR_lift _
  | some m =>
    refine detR_bind (x := (m.tokenize P p).1) ?_ fun q _ => detR_lift _
    cases m with
    | wordPiece m => exact detR_pure _
    | bpe m =>
      have e : (Model.tokenize P (.bpe m) p).1 = (do return { p with splits := ← (BPE.splitsLoop P m p.splits).1 }) := by
        show (m.tokenize P p).1 = _
        unfold BPE.tokenize
        generalize BPE.splitsLoop P m p.splits = R
        obtain ⟨x, m2⟩ := R
        cases x <;> rfl
      rw [e]
      simp only [tokenizeA]
      refine detR_bind ?_ fun l _ => detR_pure _
      obtain ⟨n, h⟩ := splitsLoopA_det (R0 := R0) (T := T) P (hnew m hm) p.splits
      refine ⟨n, h.good fun s w => ⟨fun h m' hm' => ?_, fun h => h m hm⟩⟩
      rw [hm] at hm'; cases hm'; exact h

theorem encodeA_det (P : Platform) {t : Tokenizer} (hnew : ∀ m, t.model = some (.bpe m) → m.cache = []) (w : WStr) (b : Bool) :
    DetR t.shared.mapR (TrieId t) (GoodOf P t) (encodeA P t w b) (t.encode P w b).1 := by
  have e : (t.encode P w b).1 = (do
      let p ← (t.preTokenized P w).1
      let e ← (t.doTokenize P p).1
      t.doPostProcess e b) := by
    have hs := (preTokenized_same (Same.refl P t hnew) w).2
    unfold Tokenizer.encode
    generalize t.preTokenized P w = R at hs
    obtain ⟨x, t'⟩ := R
    cases x with
    | error => rfl
    | ok p =>
      simp only [res_ok_bind] at hs ⊢
      rw [(doTokenize_same hs p).1]
      have hs2 := (doTokenize_same hs.symm p).2
      generalize t'.doTokenize P p = R at hs2
      obtain ⟨x, t''⟩ := R
      cases x with
      | error => rfl
      | ok e =>
        show t''.doPostProcess e b = t.doPostProcess e b
        have : t'' = { t with added := t''.added, model := t''.model } := (hs.trans hs2).same
        unfold Tokenizer.doPostProcess
        rw [this]
  rw [e]
  unfold encodeA
  refine detR_bind (preTokenizedA_det P t w) fun p _ => ?_
  refine detR_bind (doTokenizeA_det P hnew p) fun e _ => ?_
  exact detR_lift _

/-! ### decode -/

theorem idTokenA_det {t : Tokenizer} (hT : ∀ i, TrieId t i → mapFind t.shared.mapR i ≠ none) (i : Int) :
    DetR t.shared.mapR (TrieId t) G (idTokenA t i) (t.idToken i) := by
  unfold idTokenA Tokenizer.idToken
  cases ha : t.added with
  | none => exact detR_lift _
  | some a =>
    have hr : t.shared.mapR = a.mapR := by unfold Tokenizer.shared; rw [ha]
    refine ⟨0 + 1, .find ?_⟩
    intro o ho
    have : o = mapFind a.mapR i := by
      rcases ho with h | ⟨h1, h2, h3⟩
      · rw [h, hr]
      · exact absurd h1 (hT i h3)
    subst this
    simp only [AddedVocab.idToToken]
    cases mapFind a.mapR i with
    | some e => exact .ret 0 _
    | none => exact .ret 0 _

theorem decodeA_det {t : Tokenizer} (hT : ∀ i, TrieId t i → mapFind t.shared.mapR i ≠ none) (ids : List Int) (skip : Bool) :
    DetR t.shared.mapR (TrieId t) G (decodeA t ids skip) (t.decode ids skip) := by
  have h : DetR t.shared.mapR (TrieId t) G (idTokensA t skip ids) (t.idTokens skip ids) := by
    induction ids with
    | nil => exact detR_pure _
    | cons i r ih =>
      simp only [idTokensA, Tokenizer.idTokens]
      refine detR_bind (idTokenA_det hT i) fun s _ => ?_
      refine detR_bind ih fun rest _ => ?_
      exact detR_pure _
  unfold decodeA Tokenizer.decode
  refine detR_bind h fun tokens _ => ?_
  exact detR_lift _

end

/-- The call of a thread. -/
theorem request_det (P : Platform) {t : Tokenizer} (hnew : ∀ m, t.model = some (.bpe m) → m.cache = []) (q : Request)
    (hq : q.isEncode = true ∨ ∀ i, TrieId t i → mapFind t.shared.mapR i ≠ none) :
    DetR t.shared.mapR (TrieId t) (GoodOf P t) (q.prog P t) (q.alone P t) := by
  cases q with
  | encode w b =>
    obtain ⟨n, h⟩ := encodeA_det P hnew w b
    exact ⟨n + 0, h.bind (.ret 0 _)⟩
  | decode ids skip =>
    obtain ⟨n, h⟩ := decodeA_det (G := GoodOf P t) (hq.resolve_left (by simp [Request.isEncode])) ids skip
    exact ⟨n + 0, h.bind (.ret 0 _)⟩

theorem env_start (P : Platform) {t : Tokenizer} (hnew : ∀ m, t.model = some (.bpe m) → m.cache = []) :
    Env t.shared.mapR (TrieId t) (GoodOf P t) t.shared := by
  refine ⟨fun i => .inl rfl, ?_⟩
  intro s w h m hm
  have : t.shared.cache = [] := by
    unfold Tokenizer.shared; rw [hm]; exact hnew m hm
  rw [this] at h; cases h

/-- Threads on one tokenizer. -/
theorem start_run (P : Platform) {t : Tokenizer} (hnew : ∀ m, t.model = some (.bpe m) → m.cache = []) (rs : List Request)
    (hq : ∀ q ∈ rs, q.isEncode = true ∨ ∀ i, TrieId t i → mapFind t.shared.mapR i ≠ none) :
    ∃ n : Nat → Nat, ∀ (sched : List Nat) (i : Nat) (q : Request), rs[i]? = some q →
      ∃ p, ((start P t rs).run sched).threads[i]? = some p ∧
        Det t.shared.mapR (TrieId t) (GoodOf P t) (n i - sched.count i) p (q.alone P t) := by
  have hex : ∀ i : Nat, ∃ k, ∀ q : Request, rs[i]? = some q → Det t.shared.mapR (TrieId t) (GoodOf P t) k (q.prog P t) (q.alone P t) := by
    intro i
    cases hi : rs[i]? with
    | none => exact ⟨0, fun q hq => by cases hq⟩
    | some q =>
      obtain ⟨k, hk⟩ := request_det P hnew q (hq q (List.mem_of_getElem? hi))
      exact ⟨k, fun q' e => by cases e; exact hk⟩
  obtain ⟨n, hn⟩ : ∃ n : Nat → Nat, ∀ i q, rs[i]? = some q →
      Det t.shared.mapR (TrieId t) (GoodOf P t) (n i) (Request.prog P t q) (Request.alone P t q) :=
    ⟨fun i => Classical.choose (hex i), fun i => Classical.choose_spec (hex i)⟩
  refine ⟨n, ?_⟩
  intro sched i q hi
  have := det_run sched (s := start P t rs) (env_start P hnew) (n := n)
    (r := fun i => ((rs[i]?).getD q).alone P t) (by
      intro j p hp
      simp only [start, List.getElem?_map, Option.map_eq_some_iff] at hp
      obtain ⟨q', hq', rfl⟩ := hp
      rw [hq']
      exact hn j q' hq')
  obtain ⟨_, h2, h3⟩ := this
  have hlt : i < ((start P t rs).run sched).threads.length := by
    rw [h2]; simp only [start, List.length_map]
    exact (List.getElem?_eq_some_iff.1 hi).1
  refine ⟨_, List.getElem?_eq_getElem hlt, ?_⟩
  have := h3 i _ (List.getElem?_eq_getElem hlt)
  rw [hi] at this
  exact this

end Tok
