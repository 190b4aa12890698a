import Verif.Proofs.Race
import Verif.Props.Independent
import Verif.Props.Extract

set_option autoImplicit false

/-!
C75 (concurrent calls return what they return alone) and C76 (concurrent calls are free of data races).
-/

namespace Tok
open Spec

/-- On a tokenizer as the constructor returns it whose model has no empty token, every id that `find_matches` looks up is
recorded. -/
theorem constructed_recorded {t : Tokenizer} (hc : Constructed t) (hempty : modelId t [] = none) :
    ∀ i, TrieId t i → mapFind t.shared.mapR i ≠ none := by
  rintro i ⟨a, ha, p, hp, rfl⟩ hnone
  obtain ⟨hk, ht⟩ := constructed_ktok hc a ha
  obtain ⟨v, hv, hpv, x, hx, hxc⟩ := ht p hp
  have hr : t.shared.mapR = a.mapR := by unfold Tokenizer.shared; rw [ha]
  have hM : tokenToId v [] = none := by
    unfold modelId at hempty
    unfold Tokenizer.vocab? at hv
    cases hm : t.model with
    | none => rw [hm] at hv; cases hv
    | some m => rw [hm] at hv hempty; cases hv; exact hempty
  have hne : x.content ≠ [] := by
    intro he
    rw [← hxc, he, hM] at hpv; cases hpv
  obtain ⟨j, hj⟩ := hk.found x hx hne
  rw [hxc] at hj
  have := hk.model v hv _ _ _ hj hpv
  subst this
  obtain ⟨y, hy⟩ := hk.back _ _ hj
  rw [hr, hy] at hnone; cases hnone

/-- **C75** for `encode`.  Any number of threads call `encode` on one tokenizer; in whatever order their accesses to the
tokenizer are interleaved, a call that has returned has returned what it returns alone. -/
theorem C75_encode_partial (P : Platform) (t : Tokenizer) (hnew : ∀ m, t.model = some (.bpe m) → m.cache = [])
    (rs : List Request) (henc : ∀ q ∈ rs, q.isEncode = true) (sched : List Nat) (i : Nat) (q : Request) (r : Reply)
    (hq : rs[i]? = some q) (hdone : ((start P t rs).run sched).threads[i]? = some (.ret r)) : r = q.alone P t := by
  obtain ⟨n, h⟩ := start_run P hnew rs fun q hq => .inl (henc q hq)
  obtain ⟨p, h1, h2⟩ := h sched i q hq
  rw [hdone] at h1; cases h1
  exact det_done h2

/-- **C75** for `encode` and `decode` calls together, on a tokenizer as the constructor returns it whose model has no empty
token. -/
theorem C75_mixed_partial (P : Platform) (t : Tokenizer) (hc : Constructed t) (hempty : modelId t [] = none)
    (hnew : ∀ m, t.model = some (.bpe m) → m.cache = [])
    (rs : List Request) (sched : List Nat) (i : Nat) (q : Request) (r : Reply)
    (hq : rs[i]? = some q) (hdone : ((start P t rs).run sched).threads[i]? = some (.ret r)) : r = q.alone P t := by
  obtain ⟨n, h⟩ := start_run P hnew rs fun q _ => .inr (constructed_recorded hc hempty)
  obtain ⟨p, h1, h2⟩ := h sched i q hq
  rw [hdone] at h1; cases h1
  exact det_done h2

/-- **C75**, progress: for each call there is a number of accesses after which it has returned, however the other threads
are scheduled. -/
theorem C75_returns_partial (P : Platform) (t : Tokenizer) (hc : Constructed t) (hempty : modelId t [] = none)
    (hnew : ∀ m, t.model = some (.bpe m) → m.cache = []) (rs : List Request) :
    ∃ n : Nat → Nat, ∀ (sched : List Nat) (i : Nat) (q : Request), rs[i]? = some q → n i ≤ sched.count i →
      ((start P t rs).run sched).threads[i]? = some (.ret (q.alone P t)) := by
  obtain ⟨n, h⟩ := start_run P hnew rs fun q _ => .inr (constructed_recorded hc hempty)
  refine ⟨n, fun sched i q hq hn => ?_⟩
  obtain ⟨p, h1, h2⟩ := h sched i q hq
  rw [show n i - sched.count i = 0 by omega] at h2
  rw [h1, det_zero h2]

/-- **C75**: what the threads leave behind.  On such a tokenizer no schedule changes the table of added tokens. -/
theorem C75_table_kept (P : Platform) (t : Tokenizer) (hc : Constructed t) (hempty : modelId t [] = none)
    (hnew : ∀ m, t.model = some (.bpe m) → m.cache = []) (rs : List Request) (sched : List Nat) :
    ((start P t rs).run sched).shared.mapR = t.shared.mapR := by
  refine det_run_mapR (constructed_recorded hc hempty) sched rfl (env_start P hnew) ?_
  intro p hp
  simp only [start, List.mem_map] at hp
  obtain ⟨q, _, rfl⟩ := hp
  obtain ⟨n, h⟩ := request_det P hnew q (.inr (constructed_recorded hc hempty))
  exact ⟨n, _, h⟩

/-- The ids returned by the threads that have returned an encoding. -/
def doneIds (s : Sys Reply) : List (Option (List Int)) :=
  s.threads.map fun
    | .ret (.encoding (.ok e)) => some e.ids
    | _ => none

/-- Two threads of the byte-pair encoding of the samples: both miss the cache for "ab" and both insert it; the second word
is found in the cache by the thread that comes second. -/
example : Constructed (abcTk [] false .bert) ∧ modelId (abcTk [] false .bert) [] = none ∧
    (∀ m, (abcTk [] false .bert).model = some (.bpe m) → m.cache = []) ∧
    doneIds ((start ascii (abcTk [] false .bert) [.encode w!"ab c" false, .encode w!"ab c ab" false]).run
      [0, 1, 1, 0, 0, 0, 1, 1]) = [some [3, 2], some [3, 2, 3]] := by
  refine ⟨⟨abcTk [] false .bert, none, rfl, rfl⟩, by decide +kernel, ?_, by decide +kernel⟩
  intro m h; cases h; rfl

/-! ### C76 -/

/-- **C76**, exactly: two threads that make the same call can race if and only if the call, made alone, modifies one of the
tokenizer's containers. -/
theorem C76_exact (P : Platform) (t : Tokenizer) (q : Request) :
    (∃ sched, ((start P t [q, q]).run sched).Race) ↔ Modifies (q.prog P t) t.shared := by
  constructor
  · rintro ⟨sched, h⟩
    apply Classical.byContradiction
    intro hm
    have := quiet_run sched (s := start P t [q, q]) (by
      intro p hp
      simp only [start, List.map_cons, List.map_nil, List.mem_cons, List.not_mem_nil, or_false, or_self] at hp
      subst hp; exact hm)
    rw [← this.1] at this
    exact quiet_race this.2 h
  · intro hm
    exact race_of_modifies hm (s := start P t [q, q]) rfl (i := 0) (j := 1) (by omega) rfl rfl

/-- **C76** for calls that, made alone, modify nothing: no schedule has a data race. -/
theorem C76_quiet_partial (P : Platform) (t : Tokenizer) (rs : List Request)
    (h : ∀ q ∈ rs, ¬ Modifies (q.prog P t) t.shared) (sched : List Nat) : ¬ ((start P t rs).run sched).Race := by
  have := quiet_run sched (s := start P t rs) (by
    intro p hp
    simp only [start, List.mem_map] at hp
    obtain ⟨q, hq, rfl⟩ := hp
    exact h q hq)
  rw [← this.1] at this
  exact quiet_race this.2

/-- **C76** for `decode`: threads that only decode never race. -/
theorem C76_decode_partial (P : Platform) (t : Tokenizer) (rs : List Request) (h : ∀ q ∈ rs, q.isEncode = false)
    (sched : List Nat) : ¬ ((start P t rs).run sched).Race := by
  refine C76_quiet_partial P t rs (fun q hq => ?_) sched
  cases q with
  | encode w b => exact absurd (h _ hq) (by simp [Request.isEncode])
  | decode ids skip => exact reads_quiet (reads_bind (decode_reads t ids skip) fun r => .ret _)

/-- **C76** without added tokens to look for and with a model that keeps no cache (WordPiece, or byte-pair encoding with
dropout): no threads race. -/
theorem C76_uncached_partial (P : Platform) (t : Tokenizer) (h : Uncached t) (rs : List Request) (sched : List Nat) :
    ¬ ((start P t rs).run sched).Race := by
  refine C76_quiet_partial P t rs (fun q _ => ?_) sched
  cases q with
  | encode w b => exact reads_quiet (reads_bind (encode_reads P h w b) fun r => .ret _)
  | decode ids skip => exact reads_quiet (reads_bind (decode_reads t ids skip) fun r => .ret _)

example : Uncached (tkOf [(b!"a", 0), (b!"##b", 1)]) :=
  ⟨fun a h => (by injection h with h; subst h; exact ⟨rfl, rfl⟩), fun m h => (by injection h with h; cases h)⟩

/-- **C76** is violated by byte-pair encoding: whenever the first piece of a text can be tokenized at all, two threads that
encode the text on a new tokenizer can race on the cache. -/
theorem C76_violated (P : Platform) (t : Tokenizer) (m : BPE) (hm : t.model = some (.bpe m)) (hc : m.cache = [])
    (hoff : m.dropout.on = false) (hign : m.ignoreMerges = false) (w : WStr) (b : Bool) (p : PTS) (s : Split)
    (r : List Split) (ts : List Token) (hp : (t.preTokenized P w).1 = .ok p) (hs : p.splits = s :: r)
    (hts : (m.word P s.normalized).1 = .ok ts) :
    ∃ sched, ((start P t [.encode w b, .encode w b]).run sched).Race :=
  (C76_exact P t (.encode w b)).2 (modifies_bind (encode_modifies P hm hc hoff hign hp hs hts) _)

/-- Two threads that encode "ab". -/
example : ∃ sched, ((start ascii (abcTk [] false .bert) [.encode w!"ab" false, .encode w!"ab" false]).run sched).Race :=
  C76_violated ascii _ _ rfl rfl rfl rfl _ _ _ _ _ _ rfl rfl rfl

/-- **C76** is violated by added tokens, whatever the model: two threads that encode a text with an added token both look it
up with `operator[]`. -/
theorem C76_violated_added : ∃ n t, smallTk.addTokens (plain [b!"<s>"]) = .ok (n, t) ∧
    ∃ sched, ((start ascii t [.encode w!"<s> x" false, .encode w!"<s> x" false]).run sched).Race :=
  ⟨_, _, rfl, (C76_exact ascii _ _).2 (.now (c := .mapR) (by decide +kernel))⟩

end Tok
