import Verif.Spec.Access
import Verif.Props.Warm

set_option autoImplicit false

/-!
C129: threads that add tokens beside threads that encode and decode.
-/

namespace Tok
open Spec

/-! ### Members -/

theorem ax_set_self (s : Store) (m : Member) (v : m.Held) : s.set m v m = v := by simp [Store.set]

theorem ax_set_other (s : Store) {m n : Member} (h : n ≠ m) (v : m.Held) : s.set m v n = s n := by simp [Store.set, h]

theorem ax_set_comm (s : Store) {m n : Member} (h : n ≠ m) (v : m.Held) (u : n.Held) : (s.set m v).set n u = (s.set n u).set m v := by
  funext k
  by_cases h1 : k = n
  · subst h1
    rw [ax_set_self, ax_set_other _ h, ax_set_self]
  · by_cases h2 : k = m
    · subst h2
      rw [ax_set_other _ h1, ax_set_self, ax_set_self]
    · rw [ax_set_other _ h1, ax_set_other _ h2, ax_set_other _ h2, ax_set_other _ h1]

theorem ax_after_other (s : Store) {m n : Member} (h : n ≠ m) (w : Bool) (f : m.Held → m.Held) : s.after m w f n = s n := by
  unfold Store.after
  cases w with
  | false => rfl
  | true => exact ax_set_other s h _

theorem ax_after_comm (s : Store) {m n : Member} (h : n ≠ m) (v : m.Held) (w : Bool) (f : n.Held → n.Held) :
    (s.set m v).after n w f = (s.after n w f).set m v := by
  unfold Store.after
  cases w with
  | false => rfl
  | true => simp only [if_true]; rw [ax_set_other _ h]; exact ax_set_comm s h _ _

/-- A computation that does not access a member does not notice its value. -/
theorem ax_frame {α : Type} : ∀ (p : Code α) (s : Store) (m : Member) (v : m.Held), (∀ x, (m, x) ∉ accesses p s) →
    accesses p (s.set m v) = accesses p s ∧ (runAlone p (s.set m v)).1 = (runAlone p s).1 := by
  intro p
  induction p with
  | ret a => intro s m v _; exact ⟨rfl, rfl⟩
  | access n w f k ih =>
    intro s m v h
    have hne : n ≠ m := by
      intro e; subst e
      exact h w (by simp [accesses])
    simp only [accesses, runAlone]
    rw [ax_set_other s hne, ax_after_comm s hne]
    have := ih (s n) (s.after n w f) m v fun x hx => h x (by simp [accesses, hx])
    exact ⟨by rw [this.1], this.2⟩

/-- An access that does not clash with a computation makes no difference to it. -/
theorem ax_frame_after {α : Type} (p : Code α) (s : Store) (m : Member) (w : Bool) (f : m.Held → m.Held)
    (h : ¬ Clash [(m, w)] (accesses p s)) :
    accesses p (s.after m w f) = accesses p s ∧ (runAlone p (s.after m w f)).1 = (runAlone p s).1 := by
  unfold Store.after
  cases w with
  | false => exact ⟨rfl, rfl⟩
  | true =>
    refine ax_frame p s m _ fun x hx => h ⟨m, true, x, by simp, hx, rfl⟩

/-! ### Schedules -/

/-- The invariant of schedules of calls that do not clash: what is left of the calls does not clash either, and each will return what it returns
alone after the remaining number of accesses. -/
structure Calm {α : Type} (s : Threads α) (rs : List α) (ns : Nat → Nat) : Prop where
  size : s.codes.length = rs.length
  apart : ∀ (i j : Nat) (p q : Code α), i ≠ j → s.codes[i]? = some p → s.codes[j]? = some q → ¬ Clash (accesses p s.store) (accesses q s.store)
  value : ∀ (i : Nat) (p : Code α) (r : α), s.codes[i]? = some p → rs[i]? = some r →
    (runAlone p s.store).1 = r ∧ (accesses p s.store).length = ns i

theorem ax_clash_tail {a : Member × Bool} {l l' : List (Member × Bool)} (h : ¬ Clash (a :: l) l') : ¬ Clash l l' := by
  rintro ⟨m, x, y, h1, h2, h3⟩
  exact h ⟨m, x, y, List.mem_cons_of_mem _ h1, h2, h3⟩

theorem ax_clash_head {a : Member × Bool} {l l' : List (Member × Bool)} (h : ¬ Clash (a :: l) l') : ¬ Clash [a] l' := by
  rintro ⟨m, x, y, h1, h2, h3⟩
  rw [List.mem_singleton] at h1
  exact h ⟨m, x, y, by simp [h1], h2, h3⟩

theorem ax_clash_symm {l l' : List (Member × Bool)} (h : Clash l l') : Clash l' l := by
  obtain ⟨m, x, y, h1, h2, h3⟩ := h
  exact ⟨m, y, x, h2, h1, by rw [Bool.or_comm]; exact h3⟩

theorem ax_calm_step {α : Type} {s : Threads α} {rs : List α} {ns : Nat → Nat} (h : Calm s rs ns) (i : Nat) :
    Calm (s.step i) rs (fun j => if j = i then ns j - 1 else ns j) := by
  unfold Threads.step
  cases hp : s.codes[i]? with
  | none =>
    refine ⟨h.size, h.apart, fun j p r hj hr => ?_⟩
    have : j ≠ i := by rintro rfl; rw [hp] at hj; cases hj
    simp only [this, if_false]
    exact h.value j p r hj hr
  | some p =>
    have hi : i < s.codes.length := by
      rcases Nat.lt_or_ge i s.codes.length with h | h
      · exact h
      · rw [List.getElem?_eq_none h] at hp; cases hp
    cases p with
    | ret a =>
      have e : s.codes.set i ((Code.ret a).step s.store).1 = s.codes := by
        apply List.ext_getElem?
        intro j
        by_cases hj : j = i
        · subst hj; rw [List.getElem?_set_self hi, hp]; rfl
        · rw [List.getElem?_set_ne (Ne.symm hj)]
      simp only [e]
      refine ⟨h.size, h.apart, fun j p r hj hr => ?_⟩
      obtain ⟨h1, h2⟩ := h.value j p r hj hr
      refine ⟨h1, ?_⟩
      by_cases hji : j = i
      · subst hji
        rw [hp] at hj; cases hj
        simp only [if_true]
        have h2' : 0 = ns j := h2
        have : (accesses (Code.ret a : Code α) ((Code.ret a : Code α).step s.store).2).length = 0 := rfl
        rw [this]; omega
      · simp only [hji, if_false]; exact h2
    | access m w f k =>
      simp only [Code.step]
      have other : ∀ (j : Nat) (q : Code α), j ≠ i → s.codes[j]? = some q →
          accesses q (s.store.after m w f) = accesses q s.store ∧ (runAlone q (s.store.after m w f)).1 = (runAlone q s.store).1 := by
        intro j q hj hq
        exact ax_frame_after q s.store m w f (ax_clash_head (h.apart i j _ q (Ne.symm hj) hp hq))
      have mine : accesses (Code.access m w f k) s.store = (m, w) :: accesses (k (s.store m)) (s.store.after m w f) := rfl
      refine ⟨by simp [h.size], fun j1 j2 p q hne h1 h2 => ?_, fun j q r hj hr => ?_⟩
      · simp only at h1 h2 ⊢
        by_cases e1 : j1 = i
        · subst e1
          rw [List.getElem?_set_self hi] at h1; cases h1
          rw [List.getElem?_set_ne hne] at h2
          rw [(other j2 q (Ne.symm hne) h2).1]
          have := h.apart j1 j2 _ q hne hp h2
          rw [mine] at this
          exact ax_clash_tail this
        · rw [List.getElem?_set_ne (Ne.symm e1)] at h1
          rw [(other j1 p e1 h1).1]
          by_cases e2 : j2 = i
          · subst e2
            rw [List.getElem?_set_self hi] at h2; cases h2
            have := h.apart j2 j1 _ p (Ne.symm hne) hp h1
            rw [mine] at this
            exact fun hc => ax_clash_tail this (ax_clash_symm hc)
          · rw [List.getElem?_set_ne (Ne.symm e2)] at h2
            rw [(other j2 q e2 h2).1]
            exact h.apart j1 j2 p q hne h1 h2
      · simp only at hj ⊢
        by_cases e1 : j = i
        · subst e1
          rw [List.getElem?_set_self hi] at hj; cases hj
          obtain ⟨g1, g2⟩ := h.value j _ r hp hr
          rw [mine, List.length_cons] at g2
          simp only [if_true]
          exact ⟨g1, by omega⟩
        · rw [List.getElem?_set_ne (Ne.symm e1)] at hj
          obtain ⟨g1, g2⟩ := h.value j q r hj hr
          simp only [e1, if_false]
          rw [(other j q e1 hj).1, (other j q e1 hj).2]
          exact ⟨g1, g2⟩

theorem ax_calm_run {α : Type} (sched : List Nat) : ∀ {s : Threads α} {rs : List α} {ns : Nat → Nat}, Calm s rs ns →
    Calm (s.run sched) rs (fun j => ns j - sched.count j) := by
  induction sched with
  | nil => intro s rs ns h; simpa [Threads.run] using h
  | cons i sched ih =>
    intro s rs ns h
    have := ih (ax_calm_step h i)
    simp only [Threads.run]
    refine ⟨this.size, this.apart, fun j p r hj hr => ?_⟩
    obtain ⟨h1, h2⟩ := this.value j p r hj hr
    refine ⟨h1, ?_⟩
    rw [h2]
    by_cases e : j = i
    · subst e; simp; omega
    · simp [e, Ne.symm e]

theorem ax_calm_race {α : Type} {s : Threads α} {rs : List α} {ns : Nat → Nat} (h : Calm s rs ns) : ¬ s.Race := by
  rintro ⟨i, j, p, q, m, x, y, hne, hp, hq, h1, h2, h3⟩
  refine h.apart i j p q hne hp hq ⟨m, x, y, ?_, ?_, h3⟩
  · cases p with
    | ret a => cases h1
    | access n w f k =>
      simp only [Code.next, Option.some.injEq, Prod.mk.injEq] at h1
      obtain ⟨rfl, rfl⟩ := h1
      simp [accesses]
  · cases q with
    | ret a => cases h2
    | access n w f k =>
      simp only [Code.next, Option.some.injEq, Prod.mk.injEq] at h2
      obtain ⟨rfl, rfl⟩ := h2
      simp [accesses]

theorem ax_run_append {α : Type} (l l' : List Nat) : ∀ (s : Threads α), s.run (l ++ l') = (s.run l).run l' := by
  induction l with
  | nil => intro s; rfl
  | cons i l ih => intro s; exact ih (s.step i)

theorem ax_step_some {α : Type} {s : Threads α} {i : Nat} {p : Code α} (hp : s.codes[i]? = some p) :
    (s.step i).codes[i]? = some (p.step s.store).1 ∧ (s.step i).store = (p.step s.store).2 ∧
    ∀ j, j ≠ i → (s.step i).codes[j]? = s.codes[j]? := by
  have hi : i < s.codes.length := by
    rcases Nat.lt_or_ge i s.codes.length with h | h
    · exact h
    · rw [List.getElem?_eq_none h] at hp; cases hp
  unfold Threads.step
  rw [hp]
  exact ⟨List.getElem?_set_self hi, rfl, fun j hj => List.getElem?_set_ne (Ne.symm hj)⟩

/-- A thread that runs alone reaches each of its accesses. -/
theorem ax_reach {α : Type} : ∀ (q : Code α) {s : Threads α} {j : Nat}, s.codes[j]? = some q → ∀ {a : Member × Bool}, a ∈ accesses q s.store →
    ∃ sched q', (s.run sched).codes[j]? = some q' ∧ q'.next = some a ∧ ∀ i, i ≠ j → (s.run sched).codes[i]? = s.codes[i]? := by
  intro q
  induction q with
  | ret b => intro s j _ a ha; cases ha
  | access m w f k ih =>
    intro s j hj a ha
    rcases List.mem_cons.1 ha with rfl | ha
    · exact ⟨[], _, hj, rfl, fun _ _ => rfl⟩
    · obtain ⟨h1, h2, h3⟩ := ax_step_some hj
      obtain ⟨sched, q', g1, g2, g3⟩ := ih (s.store m) (s := s.step j) h1 (a := a) (by rw [h2]; exact ha)
      exact ⟨j :: sched, q', g1, g2, fun i hi => (g3 i hi).trans (h3 i hi)⟩

theorem ax_race {α : Type} : ∀ (p : Code α) {s : Threads α} {i j : Nat} {q : Code α}, i ≠ j → s.codes[i]? = some p → s.codes[j]? = some q →
    Clash (accesses p s.store) (accesses q s.store) → ∃ sched, (s.run sched).Race := by
  intro p
  induction p with
  | ret a => intro s i j q _ _ _ h; obtain ⟨_, _, _, h, _⟩ := h; cases h
  | access m w f k ih =>
    intro s i j q hne hi hj h
    by_cases hc : Clash [(m, w)] (accesses q s.store)
    · obtain ⟨m', x, y, h1, h2, h3⟩ := hc
      rw [List.mem_singleton, Prod.mk.injEq] at h1
      obtain ⟨rfl, rfl⟩ := h1
      obtain ⟨sched, q', g1, g2, g3⟩ := ax_reach q hj h2
      exact ⟨sched, i, j, _, q', m', x, y, hne, (g3 i hne).trans hi, g1, rfl, g2, h3⟩
    · obtain ⟨h1, h2, h3⟩ := ax_step_some hi
      have hq := (ax_frame_after q s.store m w f hc).1
      obtain ⟨sched, hr⟩ := ih (s.store m) (s := s.step i) hne h1 ((h3 j (Ne.symm hne)).trans hj) (by
        rw [h2]
        simp only [Code.step]
        rw [hq]
        obtain ⟨m', x, y, k1, k2, k3⟩ := h
        rcases List.mem_cons.1 k1 with e | k1
        · exact absurd ⟨m', x, y, by rw [e]; simp, k2, k3⟩ hc
        · exact ⟨m', x, y, k1, k2, k3⟩)
      exact ⟨i :: sched, hr⟩

/-! ### Running alone -/

theorem ax_bind {α β : Type} (f : α → Code β) : ∀ (p : Code α) (s : Store),
    runAlone (p.bind f) s = runAlone (f (runAlone p s).1) (runAlone p s).2 ∧
    accesses (p.bind f) s = accesses p s ++ accesses (f (runAlone p s).1) (runAlone p s).2 := by
  intro p
  induction p with
  | ret a => intro s; exact ⟨rfl, rfl⟩
  | access m w g k ih =>
    intro s
    obtain ⟨h1, h2⟩ := ih (s m) (s.after m w g)
    exact ⟨h1, by simp only [Code.bind, accesses, runAlone, h2, List.cons_append]⟩

theorem ax_ok {α β : Type} {p : Op α} {f : α → Op β} {s s1 : Store} {x : α} (h : runAlone p s = (.ok x, s1)) :
    runAlone (p >>= f : Op β) s = runAlone (f x) s1 ∧ accesses (p >>= f : Op β) s = accesses p s ++ accesses (f x) s1 := by
  have := ax_bind (fun r : Res α => match r with | .ok a => f a | .error e => Code.ret (.error e)) p s
  rw [h] at this
  exact this

theorem ax_err {α β : Type} {p : Op α} {f : α → Op β} {s s1 : Store} {e : Err} (h : runAlone p s = (.error e, s1)) :
    runAlone (p >>= f : Op β) s = (.error e, s1) ∧ accesses (p >>= f : Op β) s = accesses p s := by
  have := ax_bind (fun r : Res α => match r with | .ok a => f a | .error e => Code.ret (.error e)) p s
  rw [h] at this
  exact ⟨this.1, this.2.trans (List.append_nil _)⟩

theorem ax_lift {α β : Type} (r : Res α) (f : α → Op β) (s : Store) : runAlone (Op.lift r >>= f : Op β) s =
    (match r with | .ok a => runAlone (f a) s | .error e => (.error e, s)) := by
  cases r <;> rfl

/-- The computation returns `r`, and if it succeeds it leaves `s`. -/
def Agree {α : Type} (R : Res α × Store) (r : Res α) (s : Store) : Prop := R.1 = r ∧ ∀ x, r = .ok x → R.2 = s

theorem ax_agree_ok {α : Type} {R : Res α × Store} {x : α} {s : Store} (h : Agree R (.ok x) s) : R = (.ok x, s) := by
  obtain ⟨a, b⟩ := R
  obtain ⟨h1, h2⟩ := h
  exact Prod.ext h1 (h2 x rfl)

theorem ax_agree_of {α : Type} {R : Res α × Store} {x : α} {s : Store} (h : R = (.ok x, s)) : Agree R (.ok x) s := by
  subst h; exact ⟨rfl, fun _ _ => rfl⟩

theorem ax_agree_err {α : Type} {R : Res α × Store} {e : Err} {s : Store} (h : R.1 = .error e) : Agree R (.error e) s :=
  ⟨h, fun x hx => by cases hx⟩

theorem ax_agree_bind {α β : Type} {p : Op α} {f : α → Op β} {s s1 s2 : Store} {r : Res α} {g : α → Res β} (h : Agree (runAlone p s) r s1)
    (hf : ∀ x, r = .ok x → Agree (runAlone (f x) s1) (g x) s2) : Agree (runAlone (p >>= f : Op β) s) (r >>= g) s2 := by
  cases r with
  | error e =>
    have : runAlone p s = (.error e, (runAlone p s).2) := Prod.ext h.1 rfl
    rw [(ax_err (f := f) this).1]
    exact ⟨rfl, fun x hx => by cases hx⟩
  | ok x =>
    rw [(ax_ok (f := f) (ax_agree_ok h)).1]
    exact hf x rfl

theorem ax_agree_lift {α : Type} (r : Res α) (s : Store) : Agree (runAlone (Op.lift r) s) r s := ⟨rfl, fun _ _ => rfl⟩

theorem ax_mapR (a : AddedVocab) (c : List (Str × List Symbol)) (f : List (Int × AddedToken) → List (Int × AddedToken)) :
    (storeOf a c).after .mapR true f = storeOf { a with mapR := f a.mapR } c := by funext m; cases m <;> rfl

theorem ax_matchSegs (sentence : Str) (total : Nat) (m0 : List (Int × AddedToken)) (c : List (Str × List Symbol)) :
    ∀ (ms : List (Nat × Nat × Int)) (off : Nat) (a : AddedVocab), (∀ i, (mapFind a.mapR i).getD {} = (mapFind m0 i).getD {}) →
    Agree (runAlone (matchSegsC sentence total ms off) (storeOf a c)) (matchSegs m0 sentence total ms off)
      (storeOf { a with mapR := touchIds ms a.mapR } c) := by
  intro ms
  induction ms with
  | nil => intro off a _; exact ⟨rfl, fun _ _ => rfl⟩
  | cons x r ih =>
    obtain ⟨start, stop, id⟩ := x
    intro off a ha
    have ha' : ∀ i, (mapFind (mapInsert a.mapR id {}) i).getD {} = (mapFind m0 i).getD {} := by
      intro i
      rw [mapFind_insert', ← ha i]
      cases mapFind a.mapR i with
      | some y => rfl
      | none => simp only; split <;> rfl
    simp only [matchSegsC, matchSegs, touchIds, runAlone]
    rw [ax_mapR]
    have e : (mapFind (storeOf a c .mapR : List (Int × AddedToken)) id).getD {} = (mapFind m0 id).getD {} := ha id
    rw [e]
    refine ax_agree_bind (ax_agree_lift _ _) fun ok _ => ?_
    have step := fun off => ih off { a with mapR := mapInsert a.mapR id {} } ha'
    cases ok with
    | false => exact step off
    | true =>
      simp only [if_true]
      cases ((mapFind m0 id).getD {}).rstrip with
      | false =>
        refine ax_agree_bind (r := pure stop) (ax_agree_lift _ _) fun st hst => ?_
        cases hst
        exact ax_agree_bind (step stop) fun rest _ => ⟨rfl, fun _ _ => rfl⟩
      | true =>
        simp only [if_true]
        cases substrFrom sentence stop with
        | error e => exact ax_agree_err rfl
        | ok x => exact ax_agree_bind (step _) fun rest _ => ⟨rfl, fun _ _ => rfl⟩

theorem ax_findMatches (a : AddedVocab) (c : List (Str × List Symbol)) (sentence : Str) (trie : List (Str × Int)) :
    Agree (runAlone (findMatchesC sentence trie) (storeOf a c)) (a.findMatches sentence trie).1 (storeOf (a.findMatches sentence trie).2 c) :=
  ax_matchSegs _ _ _ _ _ _ _ fun _ => rfl

theorem ax_firstSplits (a : AddedVocab) (c : List (Str × List Symbol)) (w : WStr) :
    Agree (runAlone (firstSplitsC w) (storeOf a c)) (a.firstSplits w).1 (storeOf (a.firstSplits w).2 c) := by
  unfold firstSplitsC AddedVocab.firstSplits
  cases PTS.ofNS (NS.ofText w) with
  | error e => exact ax_agree_err rfl
  | ok p =>
    cases convertToString w with
    | error e => exact ax_agree_err rfl
    | ok text =>
      simp only
      rw [ax_lift]; simp only
      rw [ax_lift]; simp only
      rw [(ax_ok (p := Op.read .nonNormTrie) (s := storeOf a c) (s1 := storeOf a c) (x := a.nonNormTrie) rfl).1]
      refine ax_agree_bind (ax_findMatches a c text _) fun segs _ => ?_
      refine ax_agree_bind (ax_agree_lift _ _) fun st _ => ⟨rfl, fun _ _ => rfl⟩

theorem ax_normalizeSplit (P : Platform) (norm : Option Normalizer) (a : AddedVocab) (c : List (Str × List Symbol)) (ns : NS) (ending : Nat) (s : Split) :
    Agree (runAlone (normalizeSplitC P norm ns ending s) (storeOf a c)) (normalizeSplit P norm a ns ending s).1
      (storeOf (normalizeSplit P norm a ns ending s).2 c) := by
  unfold normalizeSplitC normalizeSplit
  simp only
  generalize hpre : (do
      let sub ← normalizeOpt P norm (NS.ofText (← convertFromString s.normalized))
      if ending + s.offsets.2 < s.offsets.1 then .error (.ub .outOfBounds)
      else do
        let ns ← ns.transformRange ending (ending + s.offsets.2 - s.offsets.1) sub
        let text ← convertToString sub.normalized
        return (ns, sub, text) : Res (NS × NS × Str)) = pre
  rw [ax_lift]
  cases pre with
  | error e => exact ax_agree_err rfl
  | ok x =>
    obtain ⟨ns', sub, text⟩ := x
    simp only
    rw [(ax_ok (p := Op.read .normTrie) (s := storeOf a c) (s1 := storeOf a c) (x := a.normTrie) rfl).1]
    refine ax_agree_bind (ax_findMatches a c text _) fun segs _ => ?_
    refine ax_agree_bind (ax_agree_lift _ _) fun st _ => ⟨rfl, fun _ _ => rfl⟩

theorem ax_normalizeLoop (P : Platform) (norm : Option Normalizer) (c : List (Str × List Symbol)) : ∀ (l : List Split) (a : AddedVocab) (ns : NS) (ending : Nat),
    Agree (runAlone (normalizeLoopC P norm ns ending l) (storeOf a c)) (normalizeLoop P norm a ns ending l).1
      (storeOf (normalizeLoop P norm a ns ending l).2 c) := by
  intro l
  induction l with
  | nil => intro a ns ending; exact ⟨rfl, fun _ _ => rfl⟩
  | cons s l ih =>
    intro a ns ending
    simp only [normalizeLoopC, normalizeLoop]
    by_cases ht : s.tokens ≠ []
    · rw [if_pos ht, if_pos ht]
      have h := ih a ns (ending + s.normalized.length)
      generalize hR : normalizeLoop P norm a ns (ending + s.normalized.length) l = R at h
      obtain ⟨r, a'⟩ := R
      cases r with
      | error e =>
        have : runAlone (normalizeLoopC P norm ns (ending + s.normalized.length) l) (storeOf a c) = (.error e, _) := Prod.ext h.1 rfl
        rw [(ax_err this).1]
        exact ax_agree_err rfl
      | ok x =>
        rw [(ax_ok (ax_agree_ok h)).1]
        exact ⟨rfl, fun _ _ => rfl⟩
    · rw [if_neg ht, if_neg ht]
      have h := ax_normalizeSplit P norm a c ns ending s
      generalize hR : normalizeSplit P norm a ns ending s = R at h
      obtain ⟨r, a'⟩ := R
      cases r with
      | error e =>
        have : runAlone (normalizeSplitC P norm ns ending s) (storeOf a c) = (.error e, _) := Prod.ext h.1 rfl
        rw [(ax_err this).1]
        exact ax_agree_err rfl
      | ok x =>
        obtain ⟨ns', here, n⟩ := x
        rw [(ax_ok (ax_agree_ok h)).1]
        simp only
        have h := ih a' ns' (ending + n)
        generalize hR : normalizeLoop P norm a' ns' (ending + n) l = R at h
        obtain ⟨r, a''⟩ := R
        cases r with
        | error e =>
          have : runAlone (normalizeLoopC P norm ns' (ending + n) l) (storeOf a' c) = (.error e, _) := Prod.ext h.1 rfl
          rw [(ax_err this).1]
          exact ax_agree_err rfl
        | ok x =>
          rw [(ax_ok (ax_agree_ok h)).1]
          exact ⟨rfl, fun _ _ => rfl⟩

theorem ax_extract (P : Platform) (norm : Option Normalizer) (a : AddedVocab) (c : List (Str × List Symbol)) (w : WStr) :
    Agree (runAlone (extractC P norm w) (storeOf a c)) (a.extract P norm w).1 (storeOf (a.extract P norm w).2 c) := by
  unfold extractC AddedVocab.extract
  have h := ax_firstSplits a c w
  generalize hR : a.firstSplits w = R at h
  obtain ⟨r, a'⟩ := R
  cases r with
  | error e =>
    have : runAlone (firstSplitsC w) (storeOf a c) = (.error e, _) := Prod.ext h.1 rfl
    rw [(ax_err this).1]
    exact ax_agree_err rfl
  | ok p =>
    rw [(ax_ok (ax_agree_ok h)).1]
    simp only
    have h := ax_normalizeLoop P norm c p.splits a' p.normalized 0
    generalize hR : normalizeLoop P norm a' p.normalized 0 p.splits = R at h
    obtain ⟨r, a''⟩ := R
    cases r with
    | error e =>
      have : runAlone (normalizeLoopC P norm p.normalized 0 p.splits) (storeOf a' c) = (.error e, _) := Prod.ext h.1 rfl
      rw [(ax_err this).1]
      exact ax_agree_err rfl
    | ok x =>
      rw [(ax_ok (ax_agree_ok h)).1]
      exact ⟨rfl, fun _ _ => rfl⟩

theorem ax_cache (a : AddedVocab) (c : List (Str × List Symbol)) (f : List (Str × List Symbol) → List (Str × List Symbol)) :
    (storeOf a c).after .cache true f = storeOf a (f c) := by funext m; cases m <;> rfl

theorem ax_word (P : Platform) (m : BPE) (a : AddedVocab) (c : List (Str × List Symbol)) (s : Str) :
    Agree (runAlone (wordC P m s) (storeOf a c)) (BPE.word P { m with cache := c } s).1 (storeOf a (BPE.word P { m with cache := c } s).2.cache) ∧
    ∃ c', (BPE.word P { m with cache := c } s).2 = { m with cache := c' } := by
  unfold wordC BPE.word
  have hD : ({ m with cache := c } : BPE).dropout.on = m.dropout.on := rfl
  rw [hD]
  by_cases hd : m.dropout.on = false
  · rw [if_pos hd, if_pos hd]
    unfold tokenizeWithCacheC BPE.tokenizeWithCache
    have hv : (if ({ m with cache := c } : BPE).ignoreMerges then mapFind ({ m with cache := c } : BPE).vocab s else none) =
      (if m.ignoreMerges then mapFind m.vocab s else none) := rfl
    rw [hv]
    cases (if m.ignoreMerges then mapFind m.vocab s else none) with
    | some i => exact ⟨⟨rfl, fun _ _ => rfl⟩, c, rfl⟩
    | none =>
      simp only
      rw [(ax_ok (p := Op.read .cache) (s := storeOf a c) (s1 := storeOf a c) (x := c) rfl).1]
      cases mapFind c s with
      | some w =>
        simp only
        rw [wordToTokens_fresh m c w 0]
        exact ⟨ax_agree_lift _ _, c, rfl⟩
      | none =>
        simp only
        rw [mergeWord_fresh P m s c, ax_lift]
        cases m.mergeWord P s with
        | error e => exact ⟨ax_agree_err rfl, c, rfl⟩
        | ok w =>
          simp only
          rw [wordToTokens_fresh m c w 0, ax_lift]
          cases m.wordToTokens 0 w with
          | error e => exact ⟨ax_agree_err rfl, c, rfl⟩
          | ok ts =>
            refine ⟨⟨rfl, fun _ _ => ?_⟩, _, rfl⟩
            exact ax_cache a c fun c => mapInsert c s w
  · rw [if_neg hd, if_neg hd]
    rw [mergeWord_fresh P m s c]
    cases m.mergeWord P s with
    | error e => exact ⟨ax_agree_err rfl, c, rfl⟩
    | ok w =>
      simp only
      rw [wordToTokens_fresh m c w 0]
      exact ⟨ax_agree_lift _ _, c, rfl⟩

theorem ax_splitsLoop (P : Platform) (m : BPE) (a : AddedVocab) : ∀ (l : List Split) (c : List (Str × List Symbol)),
    Agree (runAlone (splitsLoopC P m l) (storeOf a c)) (BPE.splitsLoop P { m with cache := c } l).1
      (storeOf a (BPE.splitsLoop P { m with cache := c } l).2.cache) := by
  intro l
  induction l with
  | nil => intro c; exact ⟨rfl, fun _ _ => rfl⟩
  | cons s l ih =>
    intro c
    simp only [splitsLoopC, BPE.splitsLoop]
    obtain ⟨h, c', hc'⟩ := ax_word P m a c s.normalized
    generalize hR : BPE.word P { m with cache := c } s.normalized = R at h hc'
    obtain ⟨r, m'⟩ := R
    simp only at hc'
    subst hc'
    cases r with
    | error e =>
      have : runAlone (wordC P m s.normalized) (storeOf a c) = (.error e, _) := Prod.ext h.1 rfl
      rw [(ax_err this).1]
      exact ax_agree_err rfl
    | ok ts =>
      rw [(ax_ok (ax_agree_ok h)).1]
      simp only
      have h := ih c'
      generalize hR : BPE.splitsLoop P { m with cache := c' } l = R at h
      obtain ⟨r, m''⟩ := R
      cases r with
      | error e =>
        have : runAlone (splitsLoopC P m l) (storeOf a c') = (.error e, _) := Prod.ext h.1 rfl
        rw [(ax_err this).1]
        exact ax_agree_err rfl
      | ok rest =>
        rw [(ax_ok (ax_agree_ok h)).1]
        exact ⟨rfl, fun _ _ => rfl⟩

/-- The cache of a model. -/
def cacheOf : Option Model → List (Str × List Symbol)
  | some (.bpe m) => m.cache
  | _ => []

theorem ax_store (t : Tokenizer) : t.store = storeOf (t.added.getD { addedTokens := [] }) (cacheOf t.model) := by
  unfold Tokenizer.store cacheOf
  rcases t.model with _ | m
  · rfl
  · cases m <;> rfl

theorem ax_tokenize (P : Platform) (a : AddedVocab) (m : Model) (p : PTS) :
    Agree (runAlone (tokenizeC P m p) (storeOf a (cacheOf (some m)))) (m.tokenize P p).1 (storeOf a (cacheOf (some (m.tokenize P p).2))) := by
  cases m with
  | wordPiece m => exact ⟨rfl, fun _ _ => rfl⟩
  | bpe m =>
    have h := ax_splitsLoop P m a p.splits m.cache
    have e : ({ m with cache := m.cache } : BPE) = m := rfl
    rw [e] at h
    simp only [tokenizeC, Model.tokenize, BPE.tokenize, cacheOf]
    generalize hR : BPE.splitsLoop P m p.splits = R at h
    obtain ⟨r, m'⟩ := R
    cases r with
    | error e =>
      have : runAlone (splitsLoopC P m p.splits) (storeOf a m.cache) = (.error e, _) := Prod.ext h.1 rfl
      rw [(ax_err this).1]
      exact ax_agree_err rfl
    | ok l =>
      rw [(ax_ok (ax_agree_ok h)).1]
      exact ⟨rfl, fun _ _ => rfl⟩

theorem ax_preTokenized (P : Platform) (t : Tokenizer) (w : WStr) :
    Agree (runAlone (preTokenizedC P t w) t.store) (t.preTokenized P w).1 (t.preTokenized P w).2.store := by
  unfold preTokenizedC Tokenizer.preTokenized
  cases PTS.ofNS (NS.ofText w) with
  | error e => exact ax_agree_err rfl
  | ok p =>
    rw [ax_lift]
    simp only
    cases ha : t.added with
    | none => exact ⟨rfl, fun _ _ => rfl⟩
    | some a =>
      simp only [Option.isSome_some, if_true]
      have h := ax_extract P t.normalizer a (cacheOf t.model) w
      have e1 : t.store = storeOf a (cacheOf t.model) := by rw [ax_store, ha]; rfl
      rw [e1]
      refine ax_agree_bind h fun q _ => ?_
      have e2 : ({ t with added := some (a.extract P t.normalizer w).2 } : Tokenizer).store =
        storeOf (a.extract P t.normalizer w).2 (cacheOf t.model) := by rw [ax_store]; rfl
      rw [e2]
      exact ax_agree_lift _ _

theorem ax_doTokenize (P : Platform) (t : Tokenizer) (p : PTS) :
    Agree (runAlone (doTokenizeC P t p) t.store) (t.doTokenize P p).1 (t.doTokenize P p).2.store := by
  unfold doTokenizeC Tokenizer.doTokenize
  cases hm : t.model with
  | none => exact ax_agree_lift _ _
  | some m =>
    simp only
    have e1 : t.store = storeOf (t.added.getD { addedTokens := [] }) (cacheOf (some m)) := by rw [ax_store, hm]
    have e2 : ({ t with model := some (m.tokenize P p).2 } : Tokenizer).store =
      storeOf (t.added.getD { addedTokens := [] }) (cacheOf (some (m.tokenize P p).2)) := by rw [ax_store]
    rw [e1, e2]
    exact ax_agree_bind (ax_tokenize P _ m p) fun q _ => ax_agree_lift _ _

/-- What depends on the code of a tokenizer and not on its members. -/
theorem ax_code_doTokenize (P : Platform) {t t' : Tokenizer} (h : t'.model = t.model) (p : PTS) : doTokenizeC P t p = doTokenizeC P t' p := by
  unfold doTokenizeC; rw [h]

theorem ax_encode (P : Platform) (t : Tokenizer) (w : WStr) (b : Bool) :
    Agree (runAlone (encodeC P t w b) t.store) (t.encode P w b).1 (t.encode P w b).2.store := by
  unfold encodeC Tokenizer.encode
  have h := ax_preTokenized P t w
  have hst := preTokenized_state P t w
  generalize hR : t.preTokenized P w = R at h hst
  obtain ⟨r, t1⟩ := R
  have hm : t1.model = t.model ∧ t1.truncation = t.truncation ∧ t1.postProcessor = t.postProcessor ∧ t1.padding = t.padding := by
    simp only at hst
    rcases hst with rfl | ⟨a, _, rfl⟩ <;> exact ⟨rfl, rfl, rfl, rfl⟩
  cases r with
  | error e =>
    have : runAlone (preTokenizedC P t w) t.store = (.error e, _) := Prod.ext h.1 rfl
    rw [(ax_err this).1]
    exact ax_agree_err rfl
  | ok p =>
    rw [(ax_ok (ax_agree_ok h)).1]
    simp only
    rw [ax_code_doTokenize P (t := t) (t' := t1) hm.1 p]
    have h := ax_doTokenize P t1 p
    have hst2 := doTokenize_state P t1 p
    generalize hR : t1.doTokenize P p = R at h hst2
    obtain ⟨r, t2⟩ := R
    cases r with
    | error e =>
      have : runAlone (doTokenizeC P t1 p) t1.store = (.error e, _) := Prod.ext h.1 rfl
      rw [(ax_err this).1]
      exact ax_agree_err rfl
    | ok e =>
      rw [(ax_ok (ax_agree_ok h)).1]
      simp only
      have hd : t2.doPostProcess e b = t.doPostProcess e b := by
        simp only at hst2
        have : t2.truncation = t1.truncation ∧ t2.postProcessor = t1.postProcessor ∧ t2.padding = t1.padding := by
          subst hst2; exact ⟨rfl, rfl, rfl⟩
        unfold Tokenizer.doPostProcess
        rw [this.1, this.2.1, this.2.2, hm.2.1, hm.2.2.1, hm.2.2.2]
      rw [hd]
      exact ax_agree_lift _ _

theorem ax_idToken (t : Tokenizer) (i : Int) : runAlone (idTokenC t i) t.store = (t.idToken i, t.store) := by
  unfold idTokenC Tokenizer.idToken
  cases ha : t.added with
  | none => rfl
  | some a =>
    have e : (t.store .mapR : List (Int × AddedToken)) = a.mapR := by rw [ax_store, ha]; rfl
    simp only [Option.isSome_some, if_true]
    rw [(ax_ok (p := Op.read .mapR) (s := t.store) (s1 := t.store) (x := a.mapR) (by rw [← e]; rfl)).1]
    unfold AddedVocab.idToToken
    cases mapFind a.mapR i with
    | some x => rfl
    | none =>
      simp only [Option.map_none]
      cases t.model with
      | none => rfl
      | some m => simp only; cases idToToken m.vocab i <;> rfl

theorem ax_idTokens (t : Tokenizer) (skip : Bool) : ∀ ids, runAlone (idTokensC t skip ids) t.store = (t.idTokens skip ids, t.store) := by
  intro ids
  induction ids with
  | nil => rfl
  | cons i r ih =>
    simp only [idTokensC, Tokenizer.idTokens]
    have h := ax_idToken t i
    cases hs : t.idToken i with
    | error e =>
      rw [hs] at h
      rw [(ax_err h).1]
      rfl
    | ok s =>
      rw [hs] at h
      rw [(ax_ok h).1, res_ok_bind]
      cases skip with
      | false =>
        simp only [Bool.false_eq_true, if_false]
        cases hr : t.idTokens false r with
        | error e => rw [hr] at ih; rw [(ax_err ih).1]; rfl
        | ok l => rw [hr] at ih; rw [(ax_ok ih).1]; rfl
      | true =>
        simp only [if_true]
        have hsp : (t.store .specialSet : List Str).contains s = t.isSpecial s := by
          rw [ax_store]
          unfold Tokenizer.isSpecial AddedVocab.isSpecial
          cases t.added <;> rfl
        rw [(ax_ok (p := Op.read .specialSet) (s := t.store) (s1 := t.store) (x := t.store .specialSet) rfl).1]
        cases hr : t.idTokens true r with
        | error e => rw [hr] at ih; rw [(ax_err ih).1]; rfl
        | ok l =>
          rw [hr] at ih
          rw [(ax_ok ih).1, res_ok_bind, hsp]
          cases t.isSpecial s <;> rfl

theorem ax_decode (t : Tokenizer) (ids : List Int) (skip : Bool) : runAlone (decodeC t ids skip) t.store = (t.decode ids skip, t.store) := by
  unfold decodeC Tokenizer.decode
  have h := ax_idTokens t skip ids
  cases hs : t.idTokens skip ids with
  | error e => rw [hs] at h; rw [(ax_err h).1]; rfl
  | ok l =>
    rw [hs] at h
    rw [(ax_ok h).1, res_ok_bind]
    cases t.decoder <;> rfl

theorem ax_member (a : AddedVocab) (c : List (Str × List Symbol)) :
    (∀ f, (storeOf a c).after .specialTokens true f = storeOf { a with specialTokens := f a.specialTokens } c) ∧
    (∀ f, (storeOf a c).after .specialSet true f = storeOf { a with specialSet := f a.specialSet } c) ∧
    (∀ f, (storeOf a c).after .map true f = storeOf { a with map := f a.map } c) ∧
    (∀ f, (storeOf a c).after .addedTokens true f = storeOf { a with addedTokens := f a.addedTokens } c) ∧
    (∀ f, (storeOf a c).after .normTrie true f = storeOf { a with normTrie := f a.normTrie } c) ∧
    (∀ f, (storeOf a c).after .nonNormTrie true f = storeOf { a with nonNormTrie := f a.nonNormTrie } c) := by
  refine ⟨?_, ?_, ?_, ?_, ?_, ?_⟩ <;> (intro f; funext m; cases m <;> rfl)

theorem ax_modify {β : Type} (m : Member) (f : m.Held → m.Held) (k : Unit → Op β) (s : Store) :
    runAlone (Op.modify m f >>= k : Op β) s = runAlone (k ()) (s.after m true f) := rfl

theorem ax_read {β : Type} (m : Member) (k : m.Held → Op β) (s : Store) : runAlone (Op.read m >>= k : Op β) s = runAlone (k (s m)) s := rfl

theorem ax_registerSpecials (c : List (Str × List Symbol)) : ∀ (l : List AddedToken) (a : AddedVocab),
    runAlone (registerSpecialsC l) (storeOf a c) = (.ok (), storeOf (registerSpecials l a) c) := by
  intro l
  induction l with
  | nil => intro a; rfl
  | cons x l ih =>
    intro a
    simp only [registerSpecialsC, registerSpecials]
    by_cases h : x.special = true ∧ x.content ≠ []
    · rw [if_pos h, ax_read]
      have e : (storeOf a c .specialSet : List Str).contains x.content = a.isSpecial x.content := rfl
      by_cases hs : a.isSpecial x.content = false
      · have hp : x.special = true ∧ x.content ≠ [] ∧ a.isSpecial x.content = false := ⟨h.1, h.2, hs⟩
        rw [if_pos hp]
        have hc : ¬ (storeOf a c .specialSet : List Str).contains x.content = true := by rw [e, hs]; decide
        rw [if_neg hc, ax_modify, ax_modify, (ax_member _ _).1, (ax_member _ _).2.1]
        exact ih _
      · have hn : ¬ (x.special = true ∧ x.content ≠ [] ∧ a.isSpecial x.content = false) := fun g => hs g.2.2
        have hc : (storeOf a c .specialSet : List Str).contains x.content = true := by rw [e]; simpa using hs
        rw [if_neg hn, if_pos hc]
        exact ih a
    · have hn : ¬ (x.special = true ∧ x.content ≠ [] ∧ a.isSpecial x.content = false) := fun g => h ⟨g.1, g.2.1⟩
      rw [if_neg h, if_neg hn]
      exact ih a

theorem ax_newId (c : List (Str × List Symbol)) (model : Option Vocab) (content : Str) (a : AddedVocab) :
    runAlone (newIdC model content) (storeOf a c) = (newId a model content, storeOf a c) := by
  unfold newIdC newId
  rw [ax_read]
  have e : (storeOf a c .map : List (Str × Int)) = a.map := rfl
  simp only [e]
  cases mapFind a.map content with
  | some i => rfl
  | none =>
    cases model with
    | none => rfl
    | some v =>
      simp only
      cases tokenToId v content with
      | some i => rfl
      | none =>
        simp only
        rw [ax_read]
        simp only [e]
        cases maxId a.map with
        | none => simp only; split <;> rfl
        | some w => simp only; split <;> rfl

theorem ax_assignIds (c : List (Str × List Symbol)) (model : Option Vocab) : ∀ (l : List AddedToken) (a : AddedVocab),
    match assignIds model false l a with
    | .ok a' => runAlone (assignIdsC model l) (storeOf a c) = (.ok (), storeOf a' c)
    | .error e => (runAlone (assignIdsC model l) (storeOf a c)).1 = .error e := by
  intro l
  induction l with
  | nil => intro a; rfl
  | cons x l ih =>
    intro a
    simp only [assignIdsC, assignIds]
    by_cases h : x.content = []
    · rw [if_pos h, if_pos h]; exact ih a
    · rw [if_neg h, if_neg h]
      have hn := ax_newId c model x.content a
      cases hi : newId a model x.content with
      | error e =>
        rw [hi] at hn
        simp only [res_error_bind]
        rw [(ax_err hn).1]
      | ok i =>
        rw [hi] at hn
        simp only [res_ok_bind]
        rw [(ax_ok hn).1, ax_modify, ax_modify, (ax_member _ _).2.2.1, ax_mapR, ax_read]
        have e : ∀ a' : AddedVocab, (storeOf a' c .specialSet : List Str).contains x.content = a'.isSpecial x.content := fun _ => rfl
        simp only [e]
        cases hs : AddedVocab.isSpecial { a with map := mapSet a.map x.content i, mapR := mapSet a.mapR i x } x.content with
        | true => simp only [if_true]; exact ih _
        | false =>
          simp only [Bool.false_eq_true, if_false]
          rw [ax_modify, (ax_member _ _).2.2.2.1]
          exact ih _

theorem ax_refresh (c : List (Str × List Symbol)) (model : Option Vocab) (a : AddedVocab) :
    match a.refresh model with
    | .ok a' => runAlone (refreshC model) (storeOf a c) = (.ok (), storeOf a' c)
    | .error e => (runAlone (refreshC model) (storeOf a c)).1 = .error e := by
  unfold AddedVocab.refresh refreshC
  rw [ax_read, ax_read]
  have e1 : (storeOf a c .specialTokens : List AddedToken) = a.specialTokens := rfl
  have e2 : (storeOf a c .addedTokens : List AddedToken) = a.addedTokens := rfl
  simp only [e1, e2]
  cases model with
  | none =>
    simp only
    by_cases h : a.specialTokens = [] ∧ a.addedTokens = []
    · rw [if_pos h, if_pos h]
      simp only
      rw [ax_modify, (ax_member _ _).2.2.2.2.1]
      exact Prod.ext rfl (by funext m; cases m <;> rfl)
    · rw [if_neg h, if_neg h]; rfl
  | some v =>
    simp only
    rw [ax_modify, (ax_member _ _).2.2.2.2.1]
    exact Prod.ext rfl (by funext m; cases m <;> rfl)

theorem ax_addTokens (t : Tokenizer) (l : List AddedToken) :
    match t.addTokens l with
    | .ok (n, t') => runAlone (addTokensC t l) t.store = (.ok n, t'.store)
    | .error e => (runAlone (addTokensC t l) t.store).1 = .error e := by
  unfold addTokensC Tokenizer.addTokens AddedVocab.addTokens AddedVocab.addTokensCore
  cases ha : t.added with
  | none => rfl
  | some a =>
    simp only [Option.isSome_some, if_true]
    have e1 : t.store = storeOf a (cacheOf t.model) := by rw [ax_store, ha]; rfl
    rw [e1]
    have h1 := ax_registerSpecials (cacheOf t.model) l a
    have h2 := ax_assignIds (cacheOf t.model) (t.model.map Model.vocab) l (registerSpecials l a)
    cases hA : assignIds (t.model.map Model.vocab) false l (registerSpecials l a) with
    | error e =>
      rw [hA] at h2
      simp only [res_error_bind]
      rw [(ax_ok h1).1]
      have : runAlone (assignIdsC (t.model.map Model.vocab) l) (storeOf (registerSpecials l a) (cacheOf t.model)) = (.error e, _) := Prod.ext h2 rfl
      rw [(ax_err this).1]
    | ok a2 =>
      rw [hA] at h2
      simp only [res_ok_bind]
      rw [(ax_ok h1).1, (ax_ok h2).1]
      have h3 := ax_refresh (cacheOf t.model) (t.model.map Model.vocab) a2
      cases hB : a2.refresh (t.model.map Model.vocab) with
      | error e =>
        rw [hB] at h3
        simp only [res_error_bind]
        have : runAlone (refreshC (t.model.map Model.vocab)) (storeOf a2 (cacheOf t.model)) = (.error e, _) := Prod.ext h3 rfl
        rw [(ax_err this).1]
      | ok a3 =>
        rw [hB] at h3
        simp only [res_ok_bind, res_pure]
        rw [(ax_ok h3).1]
        refine Prod.ext rfl ?_
        rw [ax_store]
        rfl

theorem ax_wrap {α β : Type} (p : Op α) (g : Res α → β) (s : Store) :
    runAlone (Code.bind p fun r => Code.ret (g r)) s = (g (runAlone p s).1, (runAlone p s).2) ∧
    accesses (Code.bind p fun r => Code.ret (g r)) s = accesses p s := by
  have h := ax_bind (fun r : Res α => (Code.ret (g r) : Code β)) p s
  exact ⟨h.1, h.2.trans (List.append_nil _)⟩

/-! ### C129 -/

/-- **C129** The calls made of accesses are the calls of the sequential model: run alone, each returns what the call returns, and a call that
succeeds leaves the tokenizer as the call does. -/
theorem C129_refines (P : Platform) (t : Tokenizer) :
    (∀ u : Use, (runAlone (u.code P t) t.store).1 = u.alone P t) ∧
    (∀ w b e, (t.encode P w b).1 = .ok e → (runAlone ((Use.encode w b).code P t) t.store).2 = (t.encode P w b).2.store) ∧
    (∀ ids skip, (runAlone ((Use.decode ids skip).code P t) t.store).2 = t.store) ∧
    (∀ l n t', t.addTokens l = .ok (n, t') → (runAlone ((Use.addTokens l).code P t) t.store).2 = t'.store) := by
  refine ⟨fun u => ?_, fun w b e h => ?_, fun ids skip => ?_, fun l n t' h => ?_⟩
  · cases u with
    | encode w b => simp only [Use.code, Use.alone]; rw [(ax_wrap _ _ _).1]; rw [(ax_encode P t w b).1]
    | decode ids skip => simp only [Use.code, Use.alone]; rw [(ax_wrap _ _ _).1]; rw [ax_decode t ids skip]
    | addTokens l =>
      simp only [Use.code, Use.alone]; rw [(ax_wrap _ _ _).1]
      have h := ax_addTokens t l
      cases hr : t.addTokens l with
      | error e => rw [hr] at h; simp only at h; rw [h]; rfl
      | ok x => obtain ⟨n, t'⟩ := x; rw [hr] at h; simp only at h; rw [h]; rfl
  · simp only [Use.code]; rw [(ax_wrap _ _ _).1]; exact (ax_encode P t w b).2 e h
  · simp only [Use.code]; rw [(ax_wrap _ _ _).1]; rw [ax_decode t ids skip]
  · simp only [Use.code]; rw [(ax_wrap _ _ _).1]
    have := ax_addTokens t l
    rw [h] at this
    simp only at this
    rw [this]

theorem ax_start {P : Platform} {t : Tokenizer} {us : List Use} (h : ¬ TwoClash P t us) :
    Calm (launch P t us) (us.map (Use.alone P t)) (fun i => ((us[i]?).map fun u => (u.touches P t).length).getD 0) := by
  have get : ∀ (i : Nat) (p : Code Answer), (launch P t us).codes[i]? = some p → ∃ u, us[i]? = some u ∧ p = u.code P t := by
    intro i p hp
    simp only [launch, List.getElem?_map] at hp
    cases hu : us[i]? with
    | none => rw [hu] at hp; cases hp
    | some u => rw [hu] at hp; cases hp; exact ⟨u, rfl, rfl⟩
  refine ⟨by simp [launch], fun i j p q hne hp hq => ?_, fun i p r hp hr => ?_⟩
  · obtain ⟨u, hu, rfl⟩ := get i p hp
    obtain ⟨v, hv, rfl⟩ := get j q hq
    exact fun hc => h ⟨i, j, u, v, hne, hu, hv, hc⟩
  · obtain ⟨u, hu, rfl⟩ := get i p hp
    simp only [List.getElem?_map, hu, Option.map_some, Option.some.injEq] at hr
    subst hr
    simp only [hu, Option.map_some, Option.getD_some]
    exact ⟨(C129_refines P t).1 u, rfl⟩

/-- **C129** When calls race: some schedule of the calls has a data race if and only if two of them, each run alone, access a member of the
tokenizer in common that one of them modifies. -/
theorem C129_race_iff (P : Platform) (t : Tokenizer) (us : List Use) : (∃ sched, ((launch P t us).run sched).Race) ↔ TwoClash P t us := by
  constructor
  · rintro ⟨sched, h⟩
    apply Classical.byContradiction
    intro hn
    exact ax_calm_race (ax_calm_run sched (ax_start hn)) h
  · rintro ⟨i, j, u, v, hne, hu, hv, hc⟩
    refine ax_race (u.code P t) (s := launch P t us) (i := i) (j := j) (q := v.code P t) hne ?_ ?_ hc
    · simp [launch, hu]
    · simp [launch, hv]

/-- **C129** Calls that cannot race do not influence each other: in every schedule each call that has returned has returned what it returns alone,
and it has returned after the number of accesses it makes alone. -/
theorem C129_isolated (P : Platform) (t : Tokenizer) (us : List Use) (h : ∀ sched, ¬ ((launch P t us).run sched).Race) (sched : List Nat) (i : Nat)
    (u : Use) (hu : us[i]? = some u) :
    (∀ r, ((launch P t us).run sched).codes[i]? = some (.ret r) → r = u.alone P t) ∧
    ((u.touches P t).length ≤ sched.count i → ((launch P t us).run sched).codes[i]? = some (.ret (u.alone P t))) := by
  have hn : ¬ TwoClash P t us := fun hc => by
    obtain ⟨s, hs⟩ := (C129_race_iff P t us).2 hc
    exact h s hs
  have hc := ax_calm_run sched (ax_start hn)
  have hr : (us.map (Use.alone P t))[i]? = some (u.alone P t) := by simp [hu]
  have hlen : i < ((launch P t us).run sched).codes.length := by
    rw [hc.size, List.length_map]
    rcases Nat.lt_or_ge i us.length with h | h
    · exact h
    · rw [List.getElem?_eq_none h] at hu; cases hu
  refine ⟨fun r hp => ?_, fun hle => ?_⟩
  · exact (hc.value i _ _ hp hr).1
  · have hp : ((launch P t us).run sched).codes[i]? = some ((launch P t us).run sched).codes[i] := List.getElem?_eq_getElem hlen
    obtain ⟨h1, h2⟩ := hc.value i _ _ hp hr
    rw [hp]
    simp only [hu, Option.map_some, Option.getD_some] at h2
    rw [show (u.touches P t).length - sched.count i = 0 by omega] at h2
    generalize ((launch P t us).run sched).codes[i] = p at h1 h2
    cases p with
    | ret a => rw [← h1]; rfl
    | access m w f k => simp [accesses] at h2

/-! ### What the calls access -/

theorem ax_touches (P : Platform) (t : Tokenizer) :
    (∀ w b, (Use.encode w b).touches P t = accesses (encodeC P t w b) t.store) ∧
    (∀ ids skip, (Use.decode ids skip).touches P t = accesses (decodeC t ids skip) t.store) ∧
    (∀ l, (Use.addTokens l).touches P t = accesses (addTokensC t l) t.store) := by
  refine ⟨fun w b => ?_, fun ids skip => ?_, fun l => ?_⟩ <;>
    (simp only [Use.touches, Use.code]; exact (ax_wrap _ _ _).2)

theorem ax_acc_register {l : List AddedToken} (h : ∀ x ∈ l, x.content = []) (s : Store) : accesses (registerSpecialsC l) s = [] := by
  induction l with
  | nil => rfl
  | cons x l ih =>
    have hn : ¬ (x.special = true ∧ x.content ≠ []) := fun g => g.2 (h x (by simp))
    simp only [registerSpecialsC]
    rw [if_neg hn]
    exact ih fun y hy => h y (by simp [hy])

theorem ax_acc_assign {l : List AddedToken} (h : ∀ x ∈ l, x.content = []) (model : Option Vocab) :
    assignIdsC model l = pure () := by
  induction l with
  | nil => rfl
  | cons x l ih =>
    simp only [assignIdsC]
    rw [if_pos (h x (by simp))]
    exact ih fun y hy => h y (by simp [hy])

theorem ax_code_register {l : List AddedToken} (h : ∀ x ∈ l, x.content = []) : registerSpecialsC l = pure () := by
  induction l with
  | nil => rfl
  | cons x l ih =>
    have hn : ¬ (x.special = true ∧ x.content ≠ []) := fun g => g.2 (h x (by simp))
    simp only [registerSpecialsC]
    rw [if_neg hn]
    exact ih fun y hy => h y (by simp [hy])

theorem ax_mem_bind {α β : Type} {p : Op α} {f : α → Op β} {s : Store} {x : Member × Bool} :
    (x ∈ accesses p s → x ∈ accesses (p >>= f : Op β) s) ∧
    (∀ y s1, runAlone p s = (.ok y, s1) → x ∈ accesses (f y) s1 → x ∈ accesses (p >>= f : Op β) s) := by
  constructor
  · intro h
    have := (ax_bind (fun r : Res α => match r with | .ok a => f a | .error e => Code.ret (.error e)) p s).2
    exact this.symm ▸ List.mem_append_left _ h
  · intro y s1 h hx
    rw [(ax_ok (f := f) h).2]
    exact List.mem_append_right _ hx

theorem ax_acc_mapR (c : List (Str × List Symbol)) (model : Option Vocab) : ∀ (l : List AddedToken) (a a' : AddedVocab),
    (∃ x ∈ l, x.content ≠ []) → assignIds model false l a = .ok a' → (Member.mapR, true) ∈ accesses (assignIdsC model l) (storeOf a c) := by
  intro l a a' hx h
  induction l generalizing a with
  | nil => obtain ⟨x, hx, _⟩ := hx; cases hx
  | cons x l ih =>
    simp only [assignIdsC]
    simp only [assignIds] at h
    by_cases hc : x.content = []
    · rw [if_pos hc] at h ⊢
      refine ih a ?_ h
      obtain ⟨y, hy, hy'⟩ := hx
      rcases List.mem_cons.1 hy with rfl | hy
      · exact absurd hc hy'
      · exact ⟨y, hy, hy'⟩
    · rw [if_neg hc] at h ⊢
      obtain ⟨i, hi, _⟩ := res_bind_ok.1 h
      have hn := ax_newId c model x.content a
      rw [hi] at hn
      refine ax_mem_bind.2 _ _ hn ?_
      refine ax_mem_bind.2 () _ rfl ?_
      exact ax_mem_bind.1 (by simp [accesses, Op.modify])

theorem ax_acc_refresh (c : List (Str × List Symbol)) {model : Option Vocab} {a a' : AddedVocab} (h : a.refresh model = .ok a') :
    accesses (refreshC model) (storeOf a c) = [(.specialTokens, false), (.addedTokens, false), (.normTrie, true), (.nonNormTrie, true)] := by
  unfold AddedVocab.refresh at h
  unfold refreshC
  rw [(ax_ok (p := Op.read .specialTokens) (s := storeOf a c) (s1 := storeOf a c) (x := a.specialTokens) rfl).2]
  rw [(ax_ok (p := Op.read .addedTokens) (s := storeOf a c) (s1 := storeOf a c) (x := a.addedTokens) rfl).2]
  cases model with
  | none =>
    simp only at h ⊢
    by_cases hb : a.specialTokens = [] ∧ a.addedTokens = []
    · rw [if_pos hb]; rfl
    · rw [if_neg hb] at h; cases h
  | some v => rfl

theorem ax_register_empty (l : List AddedToken) (a : AddedVocab) (hx : ∀ x ∈ l, x.content = []) : registerSpecials l a = a := by
  induction l with
  | nil => rfl
  | cons x l ih =>
    have hn : ¬ (x.special = true ∧ x.content ≠ [] ∧ a.isSpecial x.content = false) := fun g => g.2.1 (hx x (by simp))
    simp only [registerSpecials]
    rw [if_neg hn]
    exact ih fun y hy => hx y (by simp [hy])

theorem ax_assign_empty {m : Option Vocab} {a2 : AddedVocab} (l : List AddedToken) (a : AddedVocab) (hx : ∀ x ∈ l, x.content = [])
    (h : assignIds m false l a = .ok a2) : a2 = a := by
  induction l with
  | nil => cases h; rfl
  | cons x l ih =>
    simp only [assignIds] at h
    rw [if_pos (hx x (by simp))] at h
    exact ih (fun y hy => hx y (by simp [hy])) h

/-- What `add_tokens` accesses. -/
theorem ax_acc_add {t t' : Tokenizer} {l : List AddedToken} {n : Nat} (h : t.addTokens l = .ok (n, t')) :
    (Member.nonNormTrie, true) ∈ accesses (addTokensC t l) t.store ∧ (Member.normTrie, true) ∈ accesses (addTokensC t l) t.store ∧
    ((∃ x ∈ l, x.content ≠ []) → (Member.mapR, true) ∈ accesses (addTokensC t l) t.store) ∧
    ((∀ x ∈ l, x.content = []) → accesses (addTokensC t l) t.store =
      [(.specialTokens, false), (.addedTokens, false), (.normTrie, true), (.nonNormTrie, true)]) := by
  unfold addTokensC
  unfold Tokenizer.addTokens at h
  cases ha : t.added with
  | none => rw [ha] at h; cases h
  | some a =>
    rw [ha] at h
    simp only [Option.isSome_some, if_true]
    have e1 : t.store = storeOf a (cacheOf t.model) := by rw [ax_store, ha]; rfl
    rw [e1]
    obtain ⟨⟨n', a'⟩, h1, h2⟩ := res_bind_ok.1 h
    simp only [AddedVocab.addTokens, AddedVocab.addTokensCore] at h1
    obtain ⟨a2, g1, h1⟩ := res_bind_ok.1 h1
    obtain ⟨a3, g2, _⟩ := res_bind_ok.1 h1
    have k1 := ax_registerSpecials (cacheOf t.model) l a
    have k2 := ax_assignIds (cacheOf t.model) (t.model.map Model.vocab) l (registerSpecials l a)
    rw [g1] at k2
    simp only at k2
    have k3 := ax_acc_refresh (cacheOf t.model) g2
    refine ⟨?_, ?_, fun hx => ?_, fun hx => ?_⟩
    · exact ax_mem_bind.2 _ _ k1 (ax_mem_bind.2 _ _ k2 (ax_mem_bind.1 (by rw [k3]; simp)))
    · exact ax_mem_bind.2 _ _ k1 (ax_mem_bind.2 _ _ k2 (ax_mem_bind.1 (by rw [k3]; simp)))
    · exact ax_mem_bind.2 _ _ k1 (ax_mem_bind.1 (ax_acc_mapR _ _ _ _ _ hx g1))
    · rw [ax_code_register hx, ax_acc_assign hx _] at *
      have hr : registerSpecials l a = a := by
        exact ax_register_empty l a hx
      have ha2 : a2 = a := by
        rw [hr] at g1
        exact ax_assign_empty l a hx g1
      subst ha2
      have := (ax_ok (p := refreshC (t.model.map Model.vocab)) (f := fun _ => (pure (l.length - (l.filter fun x => x.content = []).length) : Op Nat))
        (s := storeOf a2 (cacheOf t.model)) (s1 := (runAlone (refreshC (t.model.map Model.vocab)) (storeOf a2 (cacheOf t.model))).2) (x := ()) (by
          have k4 := ax_refresh (cacheOf t.model) (t.model.map Model.vocab) a2
          rw [g2] at k4
          simp only at k4
          rw [k4])).2
      rw [k3] at this
      exact this.trans (List.append_nil _)

theorem ax_acc_decode (t : Tokenizer) (skip : Bool) : ∀ ids, (∀ m x, (m, x) ∈ accesses (idTokensC t skip ids) t.store → (m = .mapR ∨ m = .specialSet) ∧ x = false) ∧
    (∀ i r, ids = i :: r → t.added.isSome → (Member.mapR, false) ∈ accesses (idTokensC t skip ids) t.store) := by
  intro ids
  induction ids with
  | nil => exact ⟨fun m x h => by (simp only [idTokensC] at h; cases h), fun i r h => by cases h⟩
  | cons i r ih =>
    have hread : ∀ m x, (m, x) ∈ accesses (idTokenC t i) t.store → m = .mapR ∧ x = false := by
      intro m x hm
      unfold idTokenC at hm
      split at hm
      · rw [(ax_ok (p := Op.read .mapR) (s := t.store) (s1 := t.store) (x := t.store .mapR) rfl).2] at hm
        rcases List.mem_append.1 hm with hm | hm
        · simp [Op.read, accesses] at hm; exact hm
        · cases hm
      · cases hm
    have h := ax_idToken t i
    refine ⟨fun m x hm => ?_, fun j l hl hs => ?_⟩
    · simp only [idTokensC] at hm
      cases hs : t.idToken i with
      | error e =>
        rw [hs] at h
        rw [(ax_err h).2] at hm
        have := hread m x hm
        exact ⟨.inl this.1, this.2⟩
      | ok s =>
        rw [hs] at h
        rw [(ax_ok h).2] at hm
        rcases List.mem_append.1 hm with hm | hm
        · have := hread m x hm
          exact ⟨.inl this.1, this.2⟩
        · have rest : ∀ (f : List Str → Op (List Str)), (∀ l s, accesses (f l) s = []) →
              (m, x) ∈ accesses (idTokensC t skip r >>= f : Op (List Str)) t.store → (m = .mapR ∨ m = .specialSet) ∧ x = false := by
            intro f hf hm
            have hr := ax_idTokens t skip r
            cases hl : t.idTokens skip r with
            | error e => rw [hl] at hr; rw [(ax_err hr).2] at hm; exact ih.1 m x hm
            | ok l =>
              rw [hl] at hr
              rw [(ax_ok hr).2, hf, List.append_nil] at hm
              exact ih.1 m x hm
          cases skip with
          | false =>
            simp only [Bool.false_eq_true, if_false] at hm
            exact rest _ (fun _ _ => rfl) hm
          | true =>
            simp only [if_true] at hm
            rw [(ax_ok (p := Op.read .specialSet) (s := t.store) (s1 := t.store) (x := t.store .specialSet) rfl).2] at hm
            rcases List.mem_append.1 hm with hm | hm
            · simp [Op.read, accesses] at hm; exact ⟨.inr hm.1, hm.2⟩
            · exact rest _ (fun _ _ => rfl) hm
    · cases hl
      simp only [idTokensC]
      refine ax_mem_bind.1 ?_
      unfold idTokenC
      rw [if_pos hs]
      exact ax_mem_bind.1 (by simp [Op.read, accesses])

theorem ax_acc_decodeC (t : Tokenizer) (skip : Bool) (ids : List Int) : accesses (decodeC t ids skip) t.store = accesses (idTokensC t skip ids) t.store := by
  unfold decodeC
  have h := ax_idTokens t skip ids
  cases hs : t.idTokens skip ids with
  | error e => rw [hs] at h; rw [(ax_err h).2]
  | ok l => rw [hs] at h; rw [(ax_ok h).2]; exact List.append_nil _

theorem ax_acc_encode {t : Tokenizer} (P : Platform) {w : WStr} (b : Bool) :
    (Scalars w → t.added.isSome → (Member.nonNormTrie, false) ∈ accesses (encodeC P t w b) t.store) ∧
    (¬ Scalars w → accesses (encodeC P t w b) t.store = []) := by
  constructor
  · intro hw ha
    unfold encodeC preTokenizedC
    refine ax_mem_bind.1 ?_
    refine ax_mem_bind.2 _ t.store (by rw [ofNS_text hw]; rfl) ?_
    rw [if_pos ha]
    refine ax_mem_bind.1 ?_
    unfold extractC firstSplitsC
    refine ax_mem_bind.1 ?_
    refine ax_mem_bind.2 _ t.store (by rw [ofNS_text hw]; rfl) ?_
    refine ax_mem_bind.2 _ t.store (by rw [convertToString_scalars hw]; rfl) ?_
    exact ax_mem_bind.1 (by simp [Op.read, accesses])
  · intro hw
    have hp : ∃ e, PTS.ofNS (NS.ofText w) = .error e := by
      cases h : PTS.ofNS (NS.ofText w) with
      | error e => exact ⟨e, rfl⟩
      | ok p =>
        unfold PTS.ofNS at h
        obtain ⟨s, hs, _⟩ := res_bind_ok.1 h
        exact absurd (convertToString_ok_iff.1 hs).1 hw
    obtain ⟨e, he⟩ := hp
    unfold encodeC preTokenizedC
    rw [he]
    rfl

/-! ### Adding tokens beside other calls -/

theorem ax_two {P : Platform} {t : Tokenizer} {u v : Use} : TwoClash P t [u, v] ↔ Clash (u.touches P t) (v.touches P t) := by
  constructor
  · rintro ⟨i, j, x, y, hne, hi, hj, hc⟩
    have two : ∀ k z, [u, v][k]? = some z → (k = 0 ∧ z = u) ∨ (k = 1 ∧ z = v) := by
      intro k z h
      match k with
      | 0 => simp at h; exact .inl ⟨rfl, h.symm⟩
      | 1 => simp at h; exact .inr ⟨rfl, h.symm⟩
      | k + 2 => simp at h
    rcases two i x hi with ⟨rfl, rfl⟩ | ⟨rfl, rfl⟩ <;> rcases two j y hj with ⟨rfl, rfl⟩ | ⟨rfl, rfl⟩
    · exact absurd rfl hne
    · exact hc
    · exact ax_clash_symm hc
    · exact absurd rfl hne
  · intro h
    exact ⟨0, 1, u, v, by decide, rfl, rfl, h⟩

/-- **C129** Two calls of `add_tokens` that each return when made alone can always race, even with empty lists. -/
theorem C129_add_add (P : Platform) {t t1 t2 : Tokenizer} {l1 l2 : List AddedToken} {n1 n2 : Nat} (h1 : t.addTokens l1 = .ok (n1, t1))
    (h2 : t.addTokens l2 = .ok (n2, t2)) : ∃ sched, ((launch P t [.addTokens l1, .addTokens l2]).run sched).Race := by
  rw [C129_race_iff, ax_two, (ax_touches P t).2.2, (ax_touches P t).2.2]
  exact ⟨.normTrie, true, true, (ax_acc_add h1).2.1, (ax_acc_add h2).2.1, rfl⟩

/-- **C129** `add_tokens` - of any list, even an empty one - and `encode` can race if and only if the text consists of Unicode characters (otherwise
`encode` fails at once). -/
theorem C129_add_encode (P : Platform) {t t1 : Tokenizer} {l : List AddedToken} {n : Nat} (h : t.addTokens l = .ok (n, t1)) (w : WStr) (b : Bool) :
    (∃ sched, ((launch P t [.addTokens l, .encode w b]).run sched).Race) ↔ Scalars w := by
  have ha : t.added.isSome := by
    cases ha : t.added with
    | none => unfold Tokenizer.addTokens at h; rw [ha] at h; cases h
    | some a => rfl
  rw [C129_race_iff, ax_two, (ax_touches P t).2.2, (ax_touches P t).1]
  constructor
  · rintro ⟨m, x, y, _, hy, _⟩
    apply Classical.byContradiction
    intro hw
    rw [(ax_acc_encode P b).2 hw] at hy
    cases hy
  · intro hw
    exact ⟨.nonNormTrie, true, false, (ax_acc_add h).1, (ax_acc_encode P b).1 hw ha, rfl⟩

/-- **C129** `add_tokens` and `decode` can race if and only if there is something to add and something to decode. -/
theorem C129_add_decode (P : Platform) {t t1 : Tokenizer} {l : List AddedToken} {n : Nat} (h : t.addTokens l = .ok (n, t1)) (ids : List Int) (skip : Bool) :
    (∃ sched, ((launch P t [.addTokens l, .decode ids skip]).run sched).Race) ↔ (∃ x ∈ l, x.content ≠ []) ∧ ids ≠ [] := by
  have ha : t.added.isSome := by
    cases ha : t.added with
    | none => unfold Tokenizer.addTokens at h; rw [ha] at h; cases h
    | some a => rfl
  rw [C129_race_iff, ax_two, (ax_touches P t).2.2, (ax_touches P t).2.1, ax_acc_decodeC]
  constructor
  · rintro ⟨m, x, y, hx, hy, hxy⟩
    refine ⟨?_, ?_⟩
    · apply Classical.byContradiction
      intro hn
      have hall : ∀ z ∈ l, z.content = [] := fun z hz => Classical.byContradiction fun hc => hn ⟨z, hz, hc⟩
      rw [(ax_acc_add h).2.2.2 hall] at hx
      rcases ((ax_acc_decode t skip ids).1 m y hy).1 with rfl | rfl <;> simp at hx
    · rintro rfl
      simp only [idTokensC] at hy
      cases hy
  · rintro ⟨hx, hi⟩
    cases ids with
    | nil => exact absurd rfl hi
    | cons i r => exact ⟨.mapR, true, false, (ax_acc_add h).2.2.1 hx, (ax_acc_decode t skip _).2 i r rfl ha, rfl⟩

/-! ### Torn calls -/

/-- A tokenizer without added tokens whose model has two entries that become added tokens. -/
def tornTk : Tokenizer :=
  { tkOf [(b!"[UNK]", 0), (b!"a", 1), (b!"{a}", 2), (b!"[a]", 3), (b!"{", 4), (b!"}", 5), (b!"[", 6), (b!"]", 7)] with preTokenizer := some .bert }

/-- One token that is looked for before normalization and one that is looked for after it. -/
def tornTokens : List AddedToken := [{ content := b!"{a}", normalized := false }, { content := b!"[a]" }]

/-- The ids returned by the threads that have returned an encoding. -/
def returnedIds (s : Threads Answer) : List (Option (List Int)) :=
  s.codes.map fun
    | .ret (.encoding (.ok e)) => some e.ids
    | _ => none

/-- **C129, refuted without synchronization**: even if every access were atomic, `encode` beside `add_tokens` may return an encoding that it returns
neither before nor after the tokens are added: it recognizes one of two tokens added in one call. -/
theorem C129_torn : ∃ (t t' : Tokenizer) (w : WStr) (l : List AddedToken) (n : Nat) (sched : List Nat), t.addTokens l = .ok (n, t') ∧
    (t.encode ascii w false).1.map (·.ids) = .ok [4, 1, 5, 6, 1, 7] ∧ (t'.encode ascii w false).1.map (·.ids) = .ok [2, 3] ∧
    returnedIds ((launch ascii t [.encode w false, .addTokens l]).run sched) = [some [4, 1, 5, 3], none] :=
  ⟨tornTk, _, w!"{a} [a]", tornTokens, _, [0] ++ List.replicate 20 1 ++ List.replicate 20 0, rfl, by decide +kernel, by decide +kernel, by decide +kernel⟩

/-- The hypotheses are met: calls that race and calls that do not. -/
example : ∃ n t', tornTk.addTokens tornTokens = .ok (n, t') ∧ Scalars w!"{a} [a]" ∧
    (∃ sched, ((launch ascii tornTk [.addTokens tornTokens, .encode w!"{a} [a]" true]).run sched).Race) ∧
    (∃ sched, ((launch ascii tornTk [.addTokens tornTokens, .decode [1] true]).run sched).Race) ∧
    ¬ (∃ sched, ((launch ascii tornTk [.addTokens [{ content := [] }], .decode [1] true]).run sched).Race) := by
  have hs : Scalars w!"{a} [a]" := by unfold Scalars isScalar; decide
  refine ⟨_, _, rfl, hs, (C129_add_encode ascii rfl _ _).2 hs, (C129_add_decode ascii rfl _ _).2 ⟨⟨_, List.mem_cons_self .., by decide⟩, by decide⟩, ?_⟩
  intro h
  obtain ⟨⟨x, hx, hx'⟩, _⟩ := (C129_add_decode ascii rfl _ _).1 h
  rw [List.mem_singleton] at hx
  subst hx
  exact hx' rfl

end Tok
