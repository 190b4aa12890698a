import Verif.Proofs.Concurrent

set_option autoImplicit false

/-! Data races between calls on one tokenizer. -/

namespace Tok
open Spec

theorem step_read {α : Type} {p : Prog α} {S : Shared} {c : Container} (h : p.next = some (c, false)) : (p.step S).2 = S := by
  cases p with
  | ret => cases h
  | entry => cases h
  | find => rfl
  | cacheFind => rfl
  | cacheInsert => cases h

theorem step_ret {α : Type} {p : Prog α} {S : Shared} (h : p.next = none) : p.step S = (p, S) := by
  cases p with
  | ret => rfl
  | entry => cases h
  | find => cases h
  | cacheFind => cases h
  | cacheInsert => cases h

/-- A computation that does not modify anything leaves the containers alone. -/
theorem quiet_step {α : Type} {p : Prog α} {S : Shared} (h : ¬ Modifies p S) : (p.step S).2 = S ∧ ¬ Modifies (p.step S).1 S := by
  cases hn : p.next with
  | none => rw [step_ret hn]; exact ⟨rfl, h⟩
  | some x =>
    obtain ⟨c, b⟩ := x
    cases b with
    | true => exact absurd (.now hn) h
    | false => exact ⟨step_read hn, fun h' => h (.later hn h')⟩

theorem quiet_run {α : Type} (sched : List Nat) : ∀ {s : Sys α}, (∀ p ∈ s.threads, ¬ Modifies p s.shared) →
    (s.run sched).shared = s.shared ∧ ∀ p ∈ (s.run sched).threads, ¬ Modifies p s.shared := by
  induction sched with
  | nil => intro s h; exact ⟨rfl, h⟩
  | cons j r ih =>
    intro s h
    simp only [Sys.run]
    have key : (s.step j).shared = s.shared ∧ ∀ p ∈ (s.step j).threads, ¬ Modifies p s.shared := by
      unfold Sys.step
      cases hp : s.threads[j]? with
      | none => exact ⟨rfl, h⟩
      | some p =>
        obtain ⟨h1, h2⟩ := quiet_step (h p (List.mem_of_getElem? hp))
        refine ⟨h1, fun q hq => ?_⟩
        rcases List.mem_or_eq_of_mem_set hq with hq | hq
        · exact h q hq
        · rw [hq]; exact h2
    obtain ⟨k1, k2⟩ := key
    obtain ⟨g1, g2⟩ := ih (s := s.step j) (by rw [k1]; exact k2)
    rw [k1] at g1 g2
    exact ⟨g1, g2⟩

theorem quiet_race {α : Type} {s : Sys α} (h : ∀ p ∈ s.threads, ¬ Modifies p s.shared) : ¬ s.Race := by
  rintro ⟨i, j, p, q, c, x, y, _, hp, hq, h1, h2, hxy⟩
  cases x with
  | true => exact h p (List.mem_of_getElem? hp) (.now h1)
  | false =>
    cases y with
    | true => exact h q (List.mem_of_getElem? hq) (.now h2)
    | false => cases hxy

theorem run_append {α : Type} (l l' : List Nat) : ∀ s : Sys α, s.run (l ++ l') = (s.run l).run l' := by
  induction l with
  | nil => intro s; rfl
  | cons i r ih => intro s; exact ih _

/-- A thread that modifies something can run up to its first modification without changing anything. -/
theorem reach_modification {α : Type} {p : Prog α} {S : Shared} (h : Modifies p S) : ∃ (n : Nat) (p' : Prog α) (c : Container),
    p'.next = some (c, true) ∧
    ∀ (s : Sys α) (i : Nat), s.shared = S → s.threads[i]? = some p →
      (s.run (List.replicate n i)).shared = S ∧ (s.run (List.replicate n i)).threads = s.threads.set i p' := by
  induction h with
  | @now p S c h =>
    refine ⟨0, p, c, h, fun s i hS hi => ⟨hS, ?_⟩⟩
    show s.threads = s.threads.set i p
    obtain ⟨hlt, he⟩ := List.getElem?_eq_some_iff.1 hi
    rw [← he]; simp
  | @later p S c h _ ih =>
    obtain ⟨n, p', c', h1, h2⟩ := ih
    refine ⟨n + 1, p', c', h1, fun s i hS hi => ?_⟩
    have hs : s.step i = { threads := s.threads.set i (p.step S).1, shared := S } := by
      unfold Sys.step; rw [hi]; simp only [hS, step_read h]
    obtain ⟨hlt, he⟩ := List.getElem?_eq_some_iff.1 hi
    have := h2 (s.step i) i (by rw [hs]) (by rw [hs]; simp [hlt])
    rw [List.replicate_succ]
    refine ⟨this.1, this.2.trans ?_⟩
    rw [hs]; simp

/-- Two threads that make the same modifying call can race. -/
theorem race_of_modifies {α : Type} {p : Prog α} {S : Shared} (h : Modifies p S) {s : Sys α} (hS : s.shared = S) {i j : Nat}
    (hij : i ≠ j) (hi : s.threads[i]? = some p) (hj : s.threads[j]? = some p) : ∃ sched, (s.run sched).Race := by
  obtain ⟨n, p', c, h1, h2⟩ := reach_modification h
  obtain ⟨a1, a2⟩ := h2 s i hS hi
  have hj' : (s.run (List.replicate n i)).threads[j]? = some p := by
    rw [a2, List.getElem?_set_ne hij]; exact hj
  obtain ⟨b1, b2⟩ := h2 _ j a1 hj'
  refine ⟨List.replicate n i ++ List.replicate n j, ?_⟩
  rw [run_append]
  obtain ⟨li, _⟩ := List.getElem?_eq_some_iff.1 hi
  obtain ⟨lj, _⟩ := List.getElem?_eq_some_iff.1 hj
  refine ⟨i, j, p', p', c, true, true, hij, ?_, ?_, h1, h1, rfl⟩
  · rw [b2, List.getElem?_set_ne (Ne.symm hij), a2]; simp [li]
  · rw [b2, a2]; simp [lj]

/-- If every id of the lookup tables is recorded, no schedule changes the reverse map. -/
theorem det_mapR {R0 : List (Int × AddedToken)} {T : Int → Prop} {G : Str → List Symbol → Prop}
    (hT : ∀ i, T i → mapFind R0 i ≠ none) {α : Type} {n : Nat} {p : Prog α} {r : α} (h : Det R0 T G n p r) {S : Shared}
    (hS : S.mapR = R0) : (p.step S).2.mapR = R0 := by
  cases h with
  | ret => exact hS
  | @entry n id k r ht _ =>
    show mapInsert S.mapR id {} = R0
    unfold mapInsert
    rw [hS]
    cases hf : mapFind R0 id with
    | none => exact absurd hf (hT id ht)
    | some x => rfl
  | find => exact hS
  | cacheFind => exact hS
  | cacheInsert => exact hS

theorem det_run_mapR {R0 : List (Int × AddedToken)} {T : Int → Prop} {G : Str → List Symbol → Prop}
    (hT : ∀ i, T i → mapFind R0 i ≠ none) {α : Type} (sched : List Nat) : ∀ {s : Sys α}, s.shared.mapR = R0 →
    Env R0 T G s.shared → (∀ p ∈ s.threads, ∃ n r, Det R0 T G n p r) → (s.run sched).shared.mapR = R0 := by
  induction sched with
  | nil => intro s h _ _; exact h
  | cons j rest ih =>
    intro s h hS hp
    simp only [Sys.run]
    unfold Sys.step
    cases hj : s.threads[j]? with
    | none => exact ih h hS hp
    | some p =>
      obtain ⟨n, r, hd⟩ := hp p (List.mem_of_getElem? hj)
      obtain ⟨d1, d2⟩ := det_step hd hS
      refine ih (det_mapR hT hd h) d2 ?_
      intro q hq
      rcases List.mem_or_eq_of_mem_set hq with hq | hq
      · exact hp q hq
      · subst hq; exact ⟨_, _, d1⟩

/-! ### Which calls modify something -/

theorem modifies_bind {α β : Type} {p : Prog α} {S : Shared} (h : Modifies p S) (f : α → Prog β) : Modifies (p.bind f) S := by
  have hn : ∀ {p : Prog α} {x}, p.next = some x → (p.bind f).next = some x := by
    intro p x h
    cases p <;> first | exact h | cases h
  have hs : ∀ {p : Prog α} {x}, p.next = some x → ((p.bind f).step S).1 = (p.step S).1.bind f := by
    intro p x h
    cases p <;> first | rfl | cases h
  induction h with
  | now h => exact .now (hn h)
  | later h _ ih => exact .later (hn h) ((hs h).symm ▸ ih hs)

/-- A computation that ends with `a` whatever happens either modifies something on the way or goes on as the rest. -/
theorem modifies_after {R0 : List (Int × AddedToken)} {T : Int → Prop} {G : Str → List Symbol → Prop} {α β : Type} {n : Nat}
    {p : Prog α} {a : α} (h : Det R0 T G n p a) {S : Shared} (hS : Env R0 T G S) {f : α → Prog β}
    (hf : Modifies (f a) S) : Modifies (p.bind f) S := by
  induction h with
  | ret n a => exact hf
  | entry _ _ _ => exact .now (c := .mapR) rfl
  | @find n id k r _ ih => exact .later (c := .mapR) rfl (ih _ (hS.mapR id) hf)
  | @cacheFind n s k r _ _ ih1 ih2 =>
    refine .later (c := .cache) rfl ?_
    show Modifies ((k (mapFind S.cache s)).bind f) S
    cases hc : mapFind S.cache s with
    | none => exact ih1 hf
    | some w => exact ih2 w (hS.cache s w hc) hf
  | cacheInsert _ _ _ => exact .now (c := .cache) rfl

/-- A computation that never makes a modifying access. -/
inductive OnlyReads {α : Type} : Prog α → Prop
  | ret (a : α) : OnlyReads (.ret a)
  | find {id : Int} {k : Option AddedToken → Prog α} : (∀ o, OnlyReads (k o)) → OnlyReads (.find id k)
  | cacheFind {s : Str} {k : Option (List Symbol) → Prog α} : (∀ o, OnlyReads (k o)) → OnlyReads (.cacheFind s k)

theorem reads_quiet {α : Type} {p : Prog α} {S : Shared} (h : OnlyReads p) : ¬ Modifies p S := by
  intro hm
  induction hm with
  | now hn => cases h <;> cases hn
  | later hn _ ih =>
    cases h with
    | ret => cases hn
    | find hk => exact ih (hk _)
    | cacheFind hk => exact ih (hk _)

theorem reads_bind {α β : Type} {p : Prog α} (h : OnlyReads p) {f : α → Prog β} (hf : ∀ a, OnlyReads (f a)) : OnlyReads (p.bind f) := by
  induction h with
  | ret a => exact hf a
  | find _ ih => exact .find ih
  | cacheFind _ ih => exact .cacheFind ih

theorem reads_act {α β : Type} {p : Act α} (h : OnlyReads (α := Res α) p) {f : α → Act β} (hf : ∀ a, OnlyReads (α := Res β) (f a)) :
    OnlyReads (α := Res β) (p >>= f : Act β) := by
  refine reads_bind h fun r => ?_
  cases r with
  | ok a => exact hf a
  | error e => exact .ret _

theorem reads_lift {α : Type} (r : Res α) : OnlyReads (α := Res α) (Act.lift r) := .ret r

theorem reads_pure {α : Type} (a : α) : OnlyReads (α := Res α) (pure a : Act α) := .ret (Except.ok a)

theorem decode_reads (t : Tokenizer) (ids : List Int) (skip : Bool) : OnlyReads (α := Res Str) (decodeA t ids skip) := by
  have h1 : ∀ i, OnlyReads (α := Res Str) (idTokenA t i) := by
    intro i
    unfold idTokenA
    split
    · exact reads_lift _
    · refine .find fun o => ?_
      cases o <;> exact .ret _
  have h : OnlyReads (α := Res (List Str)) (idTokensA t skip ids) := by
    induction ids with
    | nil => exact reads_pure _
    | cons i r ih => exact reads_act (h1 i) fun s => reads_act ih fun rest => reads_pure _
  exact reads_act h fun ts => reads_lift _

theorem findMatches_reads (s : Str) : OnlyReads (α := Res (List TSeg)) (findMatchesA s []) := by
  unfold findMatchesA
  have : scan (wordIds []) (fromUTF8 s) (fromUTF8 s) 0 0 = [] := by
    apply List.eq_nil_iff_forall_not_mem.2
    intro x hx
    obtain ⟨p, hp, _⟩ := scan_mem [] _ _ _ _ x hx
    cases hp
  simp only [this]
  exact reads_pure _


theorem encode_reads (P : Platform) {t : Tokenizer} (h : Uncached t) (w : WStr) (b : Bool) :
    OnlyReads (α := Res Encoding) (encodeA P t w b) := by
  obtain ⟨ha, hm⟩ := h
  have hx : ∀ a, t.added = some a → OnlyReads (α := Res PTS) (extractA P t.normalizer a w) := by
    intro a haa
    obtain ⟨h1, h2⟩ := ha a haa
    have hf : OnlyReads (α := Res PTS) (firstSplitsA a w) := by
      refine reads_act (reads_lift _) fun p => reads_act (reads_lift _) fun text => reads_act ?_ fun segs =>
        reads_act (reads_lift _) fun l => reads_pure _
      rw [h1]; exact findMatches_reads text
    have hl : ∀ l ns e, OnlyReads (α := Res (NS × List Split)) (normalizeLoopA P t.normalizer a ns e l) := by
      intro l
      induction l with
      | nil => intro ns e; exact reads_pure _
      | cons s r ih =>
        intro ns e
        simp only [normalizeLoopA]
        split
        · exact reads_act (ih _ _) fun x => reads_pure _
        · refine reads_act ?_ fun x => reads_act (ih _ _) fun y => reads_pure _
          refine reads_act (reads_lift _) fun x => reads_act ?_ fun segs => reads_act (reads_lift _) fun l => reads_pure _
          rw [h2]; exact findMatches_reads _
    exact reads_act hf fun p => reads_act (hl _ _ _) fun x => reads_pure _
  have hp : OnlyReads (α := Res PTS) (preTokenizedA P t w) := by
    refine reads_act (reads_lift _) fun p => ?_
    cases haa : t.added with
    | none => exact reads_act (reads_pure _) fun q => reads_lift _
    | some a => exact reads_act (hx a haa) fun q => reads_lift _
  have ht : ∀ p, OnlyReads (α := Res Encoding) (doTokenizeA P t p) := by
    intro p
    unfold doTokenizeA
    cases hmm : t.model with
    | none => exact reads_lift _
    | some m =>
      refine reads_act ?_ fun q => reads_lift _
      cases m with
      | wordPiece m => exact reads_pure _
      | bpe m =>
        refine reads_act ?_ fun q => reads_pure _
        have : ∀ l, OnlyReads (α := Res (List Split)) (splitsLoopA P m l) := by
          intro l
          induction l with
          | nil => exact reads_pure _
          | cons s r ih =>
            refine reads_act ?_ fun ts => reads_act ih fun rest => reads_pure _
            unfold wordA
            rw [hm m hmm]
            exact reads_lift _
        exact this _
  exact reads_act hp fun p => reads_act (ht p) fun e => reads_lift _

/-- A word that the cache does not know is put into it. -/
theorem wordA_modifies (P : Platform) {m : BPE} {s : Str} {ts : List Token} {S : Shared} (hoff : m.dropout.on = false)
    (hign : m.ignoreMerges = false) (hc : mapFind S.cache s = none) (hm : m.cache = []) (h : (m.word P s).1 = .ok ts) :
    Modifies (α := Res (List Token)) (wordA P m s) S := by
  unfold BPE.word BPE.tokenizeWithCache at h
  unfold wordA tokenizeWithCacheA
  rw [hoff, hign] at h ⊢
  simp only [if_true, Bool.false_eq_true, if_false, hm, mapFind] at h ⊢
  refine .later (c := .cache) rfl ?_
  have : ∀ x : Res (List Symbol), (match x with
      | .error e => ((.error e, m) : Res (List Token) × BPE)
      | .ok w =>
        match m.wordToTokens 0 w with
        | .error e => (.error e, m)
        | .ok ts => (.ok ts, { m with cache := mapInsert [] s w })).1 = .ok ts →
      Modifies (α := Res (List Token)) (do
        let w ← Act.lift x
        let ts ← Act.lift (m.wordToTokens 0 w)
        Prog.cacheInsert s w (Prog.ret (.ok ts)) : Act (List Token)) S := by
    intro x hx
    cases x with
    | error => cases hx
    | ok w =>
      simp only at hx
      have h2 : ∀ y : Res (List Token), (match y with
        | .error e => ((.error e, m) : Res (List Token) × BPE)
        | .ok ts => (.ok ts, { m with cache := mapInsert [] s w })).1 = .ok ts →
        Modifies (α := Res (List Token)) (do
          let ts ← Act.lift y
          Prog.cacheInsert s w (Prog.ret (.ok ts)) : Act (List Token)) S := by
        intro y hy
        cases y with
        | error => cases hy
        | ok ts => exact .now (c := .cache) rfl
      exact h2 _ hx
  show Modifies (α := Res (List Token)) (match mapFind S.cache s with
    | some w => Act.lift (m.wordToTokens 0 w)
    | none => (do
        let w ← Act.lift (m.mergeWord P s)
        let ts ← Act.lift (m.wordToTokens 0 w)
        Prog.cacheInsert s w (Prog.ret (.ok ts)) : Act (List Token))) S
  rw [hc]
  refine this _ ?_
  rw [hign]
  exact h

theorem modifies_act {α β : Type} {p : Act α} {S : Shared} (h : Modifies (α := Res α) p S) (f : α → Act β) :
    Modifies (α := Res β) (p >>= f : Act β) S := modifies_bind h _

theorem modifies_act_after {R0 : List (Int × AddedToken)} {T : Int → Prop} {G : Str → List Symbol → Prop} {α β : Type}
    {p : Act α} {a : α} (h : DetR R0 T G p (.ok a)) {S : Shared} (hS : Env R0 T G S) {f : α → Act β}
    (hf : Modifies (α := Res β) (f a) S) : Modifies (α := Res β) (p >>= f : Act β) S := by
  obtain ⟨n, h⟩ := h
  exact modifies_after h hS hf

/-- Encoding a text with byte-pair encoding fills the cache. -/
theorem encode_modifies (P : Platform) {t : Tokenizer} {m : BPE} (hm : t.model = some (.bpe m)) (hc : m.cache = [])
    (hoff : m.dropout.on = false) (hign : m.ignoreMerges = false) {w : WStr} {b : Bool} {p : PTS} {s : Split} {r : List Split}
    {ts : List Token} (hp : (t.preTokenized P w).1 = .ok p) (hs : p.splits = s :: r)
    (hts : (m.word P s.normalized).1 = .ok ts) : Modifies (α := Res Encoding) (encodeA P t w b) t.shared := by
  have hnew : ∀ m, t.model = some (.bpe m) → m.cache = [] := by
    intro m' h; rw [hm] at h; cases h; exact hc
  have hS := env_start P hnew
  have hd := preTokenizedA_det (G := GoodOf P t) P t w
  rw [hp] at hd
  refine modifies_act_after hd hS (modifies_act ?_ _)
  unfold doTokenizeA
  rw [hm]
  refine modifies_act ?_ _
  refine modifies_act ?_ _
  rw [hs]
  simp only [splitsLoopA]
  refine modifies_act (wordA_modifies P hoff hign ?_ hc hts) _
  unfold Tokenizer.shared
  rw [hm]
  simp only [hc, mapFind]

theorem matchSegsA_modifies (S : Shared) (s : Str) (n : Nat) {l : List (Nat × Nat × Int)} (hl : l ≠ []) (o : Nat) :
    Modifies (α := Res (List TSeg)) (matchSegsA s n l o) S := by
  cases l with
  | nil => exact absurd rfl hl
  | cons x r => exact .now (c := .mapR) rfl

end Tok
