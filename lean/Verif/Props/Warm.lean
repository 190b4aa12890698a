import Verif.Props.Concurrent
import Verif.Props.Memory
import Verif.Props.Blanks
import Verif.Spec.Warm

set_option autoImplicit false

/-!
C75 for tokenizers that have been used before, and C127: threads that share a tokenizer which has seen their texts.
-/

namespace Tok
open Spec

/-! ### Used tokenizers -/

/-- The tokenizer with an empty cache. -/
def freshTk (t : Tokenizer) : Tokenizer :=
  { t with model := t.model.map fun | .bpe m => .bpe m.fresh | x => x }

/-- The cache is right. -/
def CachesOk (P : Platform) (t : Tokenizer) : Prop := ∀ m, t.model = some (.bpe m) → CacheOk P m

theorem wm_fresh_model {t : Tokenizer} {m : BPE} (h : (freshTk t).model = some (.bpe m)) : ∃ m', t.model = some (.bpe m') ∧ m = m'.fresh := by
  unfold freshTk at h
  cases hm : t.model with
  | none => rw [hm] at h; cases h
  | some x => rw [hm] at h; cases x with
    | wordPiece => cases h
    | bpe m' => cases h; exact ⟨m', rfl, rfl⟩

theorem wm_hnew (t : Tokenizer) : ∀ m, (freshTk t).model = some (.bpe m) → m.cache = [] := by
  intro m h
  obtain ⟨m', -, rfl⟩ := wm_fresh_model h
  rfl

theorem wm_same {P : Platform} {t : Tokenizer} (h : CachesOk P t) : Same P t (freshTk t) := by
  refine ⟨rfl, ?_, ?_⟩
  · show OptRel SameA t.added t.added
    cases t.added with
    | none => exact .none
    | some a => exact .some (.refl a)
  · unfold freshTk
    cases hm : t.model with
    | none => exact .none
    | some x => cases x with
      | wordPiece m => exact .some (.wordPiece m)
      | bpe m => exact .some (.bpe (h m hm) (by intro s w hw; cases hw) rfl)

theorem wm_wordA (P : Platform) (m : BPE) (s : Str) : wordA P m.fresh s = wordA P m s := by
  unfold wordA tokenizeWithCacheA BPE.fresh
  simp only [mergeWord_fresh, wordToTokens_fresh]

theorem wm_loopA (P : Platform) (m : BPE) (l : List Split) : splitsLoopA P m.fresh l = splitsLoopA P m l := by
  induction l with
  | nil => rfl
  | cons s r ih => simp only [splitsLoopA, ih, wm_wordA]

theorem wm_preA (P : Platform) (t : Tokenizer) (w : WStr) : preTokenizedA P (freshTk t) w = preTokenizedA P t w := rfl

theorem wm_doA (P : Platform) (t : Tokenizer) (p : PTS) : doTokenizeA P (freshTk t) p = doTokenizeA P t p := by
  unfold doTokenizeA freshTk
  cases hm : t.model with
  | none => rfl
  | some x => cases x with
    | wordPiece => rfl
    | bpe m => simp only [Option.map_some, tokenizeA, wm_loopA]

theorem wm_encodeA (P : Platform) (t : Tokenizer) (w : WStr) (b : Bool) : encodeA P (freshTk t) w b = encodeA P t w b := by
  unfold encodeA
  rw [wm_preA]
  simp only [wm_doA]
  rfl

theorem wm_vocab (t : Tokenizer) : (freshTk t).vocab? = t.vocab? := by
  unfold Tokenizer.vocab? freshTk
  cases t.model with
  | none => rfl
  | some x => cases x <;> rfl

theorem wm_idToken (t : Tokenizer) (i : Int) : (freshTk t).idToken i = t.idToken i := by
  unfold Tokenizer.idToken freshTk
  cases t.added with
  | none => rfl
  | some a =>
    simp only
    cases a.idToToken i with
    | some s => rfl
    | none =>
      cases t.model with
      | none => rfl
      | some x => cases x <;> rfl

theorem wm_idTokenA (t : Tokenizer) (i : Int) : idTokenA (freshTk t) i = idTokenA t i := by
  unfold idTokenA freshTk
  cases t.added with
  | none => rfl
  | some a =>
    simp only
    congr 1
    funext o
    cases o with
    | some s => rfl
    | none =>
      cases t.model with
      | none => rfl
      | some x => cases x <;> rfl

theorem wm_decode (t : Tokenizer) (ids : List Int) (b : Bool) : (freshTk t).decode ids b = t.decode ids b := by
  have : (freshTk t).idTokens b ids = t.idTokens b ids := by
    induction ids with
    | nil => rfl
    | cons i r ih => simp only [Tokenizer.idTokens, ih, wm_idToken]; rfl
  unfold Tokenizer.decode
  rw [this]; rfl

theorem wm_decodeA (t : Tokenizer) (ids : List Int) (b : Bool) : decodeA (freshTk t) ids b = decodeA t ids b := by
  have : idTokensA (freshTk t) b ids = idTokensA t b ids := by
    induction ids with
    | nil => rfl
    | cons i r ih => simp only [idTokensA, ih, wm_idTokenA]; rfl
  unfold decodeA
  rw [this]; rfl

theorem wm_prog (P : Platform) (t : Tokenizer) (q : Request) : q.prog P (freshTk t) = q.prog P t := by
  cases q with
  | encode w b => simp only [Request.prog, wm_encodeA]
  | decode ids b => simp only [Request.prog, wm_decodeA]

theorem wm_alone {P : Platform} {t : Tokenizer} (h : CachesOk P t) (q : Request) : q.alone P (freshTk t) = q.alone P t := by
  cases q with
  | encode w b => simp only [Request.alone, ← (encode_same (wm_same h) w b).1]
  | decode ids b => simp only [Request.alone, wm_decode]

theorem wm_mapR (t : Tokenizer) : (freshTk t).shared.mapR = t.shared.mapR := rfl

theorem wm_good (P : Platform) (t : Tokenizer) (s : Str) (w : List Symbol) : GoodOf P (freshTk t) s w ↔ GoodOf P t s w := by
  constructor
  · intro h m hm
    have := h m.fresh (by unfold freshTk; rw [hm]; rfl)
    unfold GoodEntry BPE.fresh at this
    unfold GoodEntry
    simpa only [mergeWord_fresh, wordToTokens_fresh] using this
  · intro h m hm
    obtain ⟨m', h', rfl⟩ := wm_fresh_model hm
    have := h m' h'
    unfold GoodEntry at this
    unfold GoodEntry BPE.fresh
    simpa only [mergeWord_fresh, wordToTokens_fresh] using this

theorem wm_request_det (P : Platform) {t : Tokenizer} (hc : CachesOk P t) (q : Request)
    (hq : q.isEncode = true ∨ ∀ i, TrieId t i → mapFind t.shared.mapR i ≠ none) :
    DetR t.shared.mapR (TrieId t) (GoodOf P t) (q.prog P t) (q.alone P t) := by
  obtain ⟨n, h⟩ := request_det P (wm_hnew t) q hq
  rw [wm_prog, wm_alone hc] at h
  exact ⟨n, h.good (wm_good P t)⟩

theorem wm_env {P : Platform} {t : Tokenizer} (hc : CachesOk P t) : Env t.shared.mapR (TrieId t) (GoodOf P t) t.shared := by
  refine ⟨fun i => .inl rfl, ?_⟩
  intro s w h m hm
  have : t.shared.cache = m.cache := by unfold Tokenizer.shared; rw [hm]
  rw [this] at h
  exact hc m hm s w h

theorem wm_start_run (P : Platform) {t : Tokenizer} (hc : CachesOk P t) (rs : List Request)
    (hq : ∀ q ∈ rs, q.isEncode = true ∨ ∀ i, TrieId t i → mapFind t.shared.mapR i ≠ none) :
    ∃ n : Nat → Nat, ∀ (sched : List Nat) (i : Nat) (q : Request), rs[i]? = some q →
      ∃ p, ((start P t rs).run sched).threads[i]? = some p ∧
        Det t.shared.mapR (TrieId t) (GoodOf P t) (n i - sched.count i) p (q.alone P t) := by
  have hex : ∀ i : Nat, ∃ k, ∀ q : Request, rs[i]? = some q → Det t.shared.mapR (TrieId t) (GoodOf P t) k (q.prog P t) (q.alone P t) := by
    intro i
    cases hi : rs[i]? with
    | none => exact ⟨0, fun q hq => by cases hq⟩
    | some q =>
      obtain ⟨k, hk⟩ := wm_request_det P hc q (hq q (List.mem_of_getElem? hi))
      exact ⟨k, fun q' e => by cases e; exact hk⟩
  obtain ⟨n, hn⟩ : ∃ n : Nat → Nat, ∀ i q, rs[i]? = some q →
      Det t.shared.mapR (TrieId t) (GoodOf P t) (n i) (Request.prog P t q) (Request.alone P t q) :=
    ⟨fun i => Classical.choose (hex i), fun i => Classical.choose_spec (hex i)⟩
  refine ⟨n, ?_⟩
  intro sched i q hi
  have := det_run sched (s := start P t rs) (wm_env hc) (n := n)
    (r := fun i => ((rs[i]?).getD q).alone P t) (by
      intro j p hp
      simp only [start, List.getElem?_map, Option.map_eq_some_iff] at hp
      obtain ⟨q', hq', rfl⟩ := hp
      rw [hq']
      exact hn j q' hq')
  obtain ⟨_, h2, h3⟩ := this
  have hlt : i < ((start P t rs).run sched).threads.length := by
    rw [h2]; simp only [start, List.length_map]
    exact (List.getElem?_eq_some_iff.1 hi).1
  refine ⟨_, List.getElem?_eq_getElem hlt, ?_⟩
  have := h3 i _ (List.getElem?_eq_getElem hlt)
  rw [hi] at this
  exact this

theorem wm_after {P : Platform} {t t' : Tokenizer} {c : Call} (h : After P t c t') (hc : CachesOk P t) : CachesOk P t' := by
  have same : ∀ {t t' : Tokenizer}, CachesOk P t → t'.model = t.model → CachesOk P t' := by
    intro t t' hc h m hm
    rw [h] at hm
    exact hc m hm
  cases h with
  | encode w b =>
    have := (encode_same (wm_same hc) w b).2.model
    intro m hm
    rw [hm] at this
    generalize hx : t.model = x at this
    cases this with
    | some h => cases h with
      | bpe _ h2 _ => exact h2
  | decode => exact hc
  | addTokens h => exact same hc (mm_add h)
  | addSpecialTokens h => exact same hc (mm_add h)

theorem wm_history {P : Platform} {t t' : Tokenizer} {cs : List Call} (h : History P t cs t') (hc : CachesOk P t) : CachesOk P t' := by
  induction h with
  | nil => exact hc
  | cons h1 _ ih => exact ih (wm_after h1 hc)

theorem wm_new {P : Platform} {t : Tokenizer} (h : ∀ m, t.model = some (.bpe m) → m.cache = []) : CachesOk P t := by
  intro m hm s w hw
  rw [h m hm] at hw; cases hw

theorem wm_modelId {t t1 : Tokenizer} (h : t1.vocab? = t.vocab?) (s : Str) : modelId t1 s = modelId t s := by
  unfold modelId
  unfold Tokenizer.vocab? at h
  cases h1 : t1.model with
  | none => cases h2 : t.model with
    | none => rfl
    | some x => rw [h1, h2] at h; cases h
  | some y => cases h2 : t.model with
    | none => rw [h1, h2] at h; cases h
    | some x =>
      rw [h1, h2] at h
      simp only [Option.map_some, Option.some.injEq] at h
      show tokenToId y.vocab s = tokenToId x.vocab s
      rw [h]

/-- Every id that `find_matches` looks up is recorded, also after any calls. -/
theorem wm_recorded {P : Platform} {t t1 : Tokenizer} {cs : List Call} (hc : Constructed t) (h : History P t cs t1)
    (hempty : modelId t [] = none) : ∀ i, TrieId t1 i → mapFind t1.shared.mapR i ≠ none := by
  obtain ⟨hK, hv⟩ := at_history h (constructed_ktok hc)
  have hempty : modelId t1 [] = none := by rw [wm_modelId hv]; exact hempty
  rintro i ⟨a, ha, p, hp, rfl⟩ hnone
  obtain ⟨hk, ht⟩ := hK a ha
  obtain ⟨v, hv, hpv, x, hx, hxc⟩ := ht p hp
  have hr : t1.shared.mapR = a.mapR := by unfold Tokenizer.shared; rw [ha]
  have hM : tokenToId v [] = none := by
    unfold modelId at hempty
    unfold Tokenizer.vocab? at hv
    cases hm : t1.model with
    | none => rw [hm] at hv; cases hv
    | some m => rw [hm] at hv hempty; cases hv; exact hempty
  have hne : x.content ≠ [] := by
    intro he
    rw [← hxc, he, hM] at hpv; cases hpv
  obtain ⟨j, hj⟩ := hk.found x hx hne
  rw [hxc] at hj
  have := hk.model v hv _ _ _ hj hpv
  subst this
  obtain ⟨y, hy⟩ := hk.back _ _ hj
  rw [hr, hy] at hnone; cases hnone

/-- **C75** on a tokenizer that has been used in any way before (texts encoded, tokens added, ids decoded): whatever calls the threads
make, and in whatever order their accesses are interleaved, a call that has returned has returned what it returns alone. -/
theorem C75_used_partial (P : Platform) {t t1 : Tokenizer} {cs : List Call} (hc : Constructed t) (hempty : modelId t [] = none)
    (hnew : ∀ m, t.model = some (.bpe m) → m.cache = []) (hist : History P t cs t1)
    (rs : List Request) (sched : List Nat) (i : Nat) (q : Request) (r : Reply)
    (hq : rs[i]? = some q) (hdone : ((start P t1 rs).run sched).threads[i]? = some (.ret r)) : r = q.alone P t1 := by
  obtain ⟨n, h⟩ := wm_start_run P (wm_history hist (wm_new hnew)) rs fun q _ => .inr (wm_recorded hc hist hempty)
  obtain ⟨p, h1, h2⟩ := h sched i q hq
  rw [hdone] at h1; cases h1
  exact det_done h2

/-- **C75**, progress, on a tokenizer that has been used in any way before. -/
theorem C75_used_returns_partial (P : Platform) {t t1 : Tokenizer} {cs : List Call} (hc : Constructed t) (hempty : modelId t [] = none)
    (hnew : ∀ m, t.model = some (.bpe m) → m.cache = []) (hist : History P t cs t1) (rs : List Request) :
    ∃ n : Nat → Nat, ∀ (sched : List Nat) (i : Nat) (q : Request), rs[i]? = some q → n i ≤ sched.count i →
      ((start P t1 rs).run sched).threads[i]? = some (.ret (q.alone P t1)) := by
  obtain ⟨n, h⟩ := wm_start_run P (wm_history hist (wm_new hnew)) rs fun q _ => .inr (wm_recorded hc hist hempty)
  refine ⟨n, fun sched i q hq hn => ?_⟩
  obtain ⟨p, h1, h2⟩ := h sched i q hq
  rw [show n i - sched.count i = 0 by omega] at h2
  rw [h1, det_zero h2]

/-! ### Which calls modify something -/

/-- On these containers the computation only reads, and ends with `a`. -/
inductive ReadsTo (S : Shared) {α : Type} : Prog α → α → Prop
  | ret (a : α) : ReadsTo S (.ret a) a
  | find {id : Int} {k : Option AddedToken → Prog α} {a : α} : ReadsTo S (k (mapFind S.mapR id)) a → ReadsTo S (.find id k) a
  | cacheFind {s : Str} {k : Option (List Symbol) → Prog α} {a : α} : ReadsTo S (k (mapFind S.cache s)) a → ReadsTo S (.cacheFind s k) a

theorem wm_quiet {S : Shared} {α : Type} {p : Prog α} {a : α} (h : ReadsTo S p a) : ¬ Modifies p S := by
  intro hm
  induction h with
  | ret a => cases hm with
    | now h => cases h
    | later h _ => cases h
  | find _ ih => cases hm with
    | now h => cases h
    | later _ h => exact ih h
  | cacheFind _ ih => cases hm with
    | now h => cases h
    | later _ h => exact ih h

theorem wm_total (S : Shared) {α : Type} (p : Prog α) : Modifies p S ∨ ∃ a, ReadsTo S p a := by
  induction p with
  | ret a => exact .inr ⟨a, .ret a⟩
  | entry id k _ => exact .inl (.now (c := .mapR) rfl)
  | find id k ih =>
    rcases ih (mapFind S.mapR id) with h | ⟨a, h⟩
    · exact .inl (.later (c := .mapR) rfl h)
    · exact .inr ⟨a, .find h⟩
  | cacheFind s k ih =>
    rcases ih (mapFind S.cache s) with h | ⟨a, h⟩
    · exact .inl (.later (c := .cache) rfl h)
    · exact .inr ⟨a, .cacheFind h⟩
  | cacheInsert s w k _ => exact .inl (.now (c := .cache) rfl)

theorem wm_after_reads {S : Shared} {α β : Type} {p : Prog α} {a : α} (h : ReadsTo S p a) (f : α → Prog β) :
    Modifies (p.bind f) S ↔ Modifies (f a) S := by
  induction h with
  | ret a => exact Iff.rfl
  | find _ ih =>
    rw [← ih]
    constructor
    · intro h; cases h with
      | now h => cases h
      | later _ h => exact h
    · intro h; exact .later (c := .mapR) rfl h
  | cacheFind _ ih =>
    rw [← ih]
    constructor
    · intro h; cases h with
      | now h => cases h
      | later _ h => exact h
    · intro h; exact .later (c := .cache) rfl h

section
variable {R0 : List (Int × AddedToken)} {T : Int → Prop} {G : Str → List Symbol → Prop} {S : Shared}

theorem wm_value {α : Type} {n : Nat} {p : Prog α} {r a : α} (h : Det R0 T G n p r) (hS : Env R0 T G S) (hr : ReadsTo S p a) : a = r := by
  induction hr generalizing n with
  | ret a => cases h; rfl
  | find _ ih => cases h with
    | find h => exact ih (h _ (hS.mapR _))
  | @cacheFind s k a _ ih => cases h with
    | cacheFind h1 h2 =>
      cases hc : mapFind S.cache s with
      | none => rw [hc] at ih; exact ih h1
      | some w => rw [hc] at ih; exact ih (h2 w (hS.cache s w hc))

/-- A computation followed by another one. -/
theorem wm_seq {α β : Type} {p : Act α} {x : Res α} (h : DetR R0 T G p x) (hS : Env R0 T G S) (f : α → Act β) :
    Modifies (α := Res β) (p >>= f : Act β) S ↔ Modifies (α := Res α) p S ∨ ∃ a, x = .ok a ∧ Modifies (α := Res β) (f a) S := by
  obtain ⟨n, h⟩ := h
  rcases wm_total (α := Res α) S p with hm | ⟨r, hr⟩
  · exact ⟨fun _ => .inl hm, fun _ => modifies_bind hm _⟩
  · obtain rfl := wm_value h hS hr
    have hn := wm_quiet hr
    have := wm_after_reads hr (fun r => match r with
      | .ok a => f a
      | .error e => Prog.ret (.error e))
    refine Iff.trans this ?_
    cases r with
    | ok a =>
      refine ⟨fun h => .inr ⟨a, rfl, h⟩, ?_⟩
      rintro (h | ⟨b, e, h⟩)
      · exact absurd h hn
      · cases e; exact h
    | error e =>
      constructor
      · intro h; cases h with
        | now h => cases h
        | later h _ => cases h
      · rintro (h | ⟨b, e, h⟩)
        · exact absurd h hn
        · cases e

end

theorem wm_ret {S : Shared} {α : Type} (a : α) : ¬ Modifies (Prog.ret a) S := wm_quiet (.ret a)

theorem wm_lift {S : Shared} {α : Type} (r : Res α) : ¬ Modifies (α := Res α) (Act.lift r) S := wm_quiet (.ret r)

theorem wm_pure {S : Shared} {α : Type} (a : α) : ¬ Modifies (α := Res α) (pure a : Act α) S := wm_quiet (.ret (Except.ok a))

theorem wm_lift_seq {S : Shared} {α β : Type} {x : Res α} (f : α → Act β) :
    Modifies (α := Res β) (Act.lift x >>= f : Act β) S ↔ ∃ a, x = .ok a ∧ Modifies (α := Res β) (f a) S := by
  cases x with
  | ok a => exact ⟨fun h => ⟨a, rfl, h⟩, fun ⟨b, e, h⟩ => by cases e; exact h⟩
  | error e => exact ⟨fun h => absurd h (wm_ret _), fun ⟨b, e, h⟩ => by cases e⟩

/-- A word modifies the cache if and only if the cache gets bigger. -/
theorem wm_word (P : Platform) (m : BPE) (s : Str) {S : Shared} (hS : S.cache = m.cache) :
    Modifies (α := Res (List Token)) (wordA P m s) S ↔ keys (m.word P s).2 ≠ keys m := by
  unfold wordA BPE.word tokenizeWithCacheA BPE.tokenizeWithCache
  split
  · generalize (if m.ignoreMerges = true then mapFind m.vocab s else none) = d
    cases d with
    | some i => exact ⟨fun h => absurd h (wm_pure _), fun h => absurd rfl h⟩
    | none =>
      simp only
      have step : ∀ k : Option (List Symbol) → Prog (Res (List Token)),
          Modifies (Prog.cacheFind s k) S ↔ Modifies (k (mapFind m.cache s)) S := by
        intro k
        rw [← hS]
        constructor
        · intro h; cases h with
          | now h => cases h
          | later _ h => exact h
        · intro h; exact .later (c := .cache) rfl h
      refine Iff.trans (step _) ?_
      cases hc : mapFind m.cache s with
      | some w => exact ⟨fun h => absurd h (wm_lift _), fun h => absurd rfl h⟩
      | none =>
        simp only
        refine Iff.trans (wm_lift_seq _) ?_
        cases m.mergeWord P s with
        | error e =>
          refine ⟨?_, fun h => absurd rfl h⟩
          rintro ⟨_, e, _⟩
          cases e
        | ok w =>
          simp only
          have hw : ∀ w', Except.ok w = (Except.ok w' : Res (List Symbol)) ↔ w' = w := fun w' =>
            ⟨fun h => by cases h; rfl, fun h => by rw [h]⟩
          constructor
          · rintro ⟨w', e, h⟩
            cases e
            obtain ⟨ts, h1, h2⟩ := (wm_lift_seq _).1 h
            rw [h1]
            simp [keys, mapInsert, hc]
          · intro h
            cases ht : m.wordToTokens 0 w with
            | error e => rw [ht] at h; exact absurd rfl h
            | ok ts => exact ⟨w, rfl, (wm_lift_seq _).2 ⟨ts, ht, .now (c := .cache) rfl⟩⟩
  · refine ⟨fun h => absurd h (wm_lift _), fun h => ?_⟩
    cases hm : m.mergeWord P s <;> rw [hm] at h <;> exact absurd rfl h

theorem wm_word_det {R0 : List (Int × AddedToken)} {T : Int → Prop} (P : Platform) {m : BPE} (hm : CacheOk P m) (s : Str) :
    DetR R0 T (GoodEntry P m) (wordA P m s) (m.word P s).1 := by
  obtain ⟨n, h⟩ := wordA_det (R0 := R0) (T := T) P (m := m.fresh) rfl s
  rw [wm_wordA, ← (word_cache P m s hm).1] at h
  refine ⟨n, h.good fun s w => ?_⟩
  unfold GoodEntry BPE.fresh
  simp only [mergeWord_fresh, wordToTokens_fresh]

theorem wm_loop (P : Platform) {m : BPE} (hm : CacheOk P m) {R0 : List (Int × AddedToken)} {T : Int → Prop} {S : Shared} (hS : S.cache = m.cache)
    (hE : Env R0 T (GoodEntry P m) S) (l : List Split) :
    Modifies (α := Res (List Split)) (splitsLoopA P m l) S ↔ keys (BPE.splitsLoop P m l).2 ≠ keys m := by
  induction l with
  | nil => exact ⟨fun h => absurd h (wm_pure _), fun h => absurd rfl h⟩
  | cons s r ih =>
    simp only [splitsLoopA, BPE.splitsLoop]
    refine Iff.trans (wm_seq (wm_word_det P hm s.normalized) hE _) ?_
    have inner : ∀ ts, Modifies (α := Res (List Split)) (do
        let rest ← splitsLoopA P m r
        return { s with tokens := ts } :: rest : Act (List Split)) S ↔ keys (BPE.splitsLoop P m r).2 ≠ keys m := by
      intro ts
      rw [← ih]
      rcases wm_total (α := Res (List Split)) S (splitsLoopA P m r) with h | ⟨a, h⟩
      · exact ⟨fun _ => h, fun h => modifies_act h _⟩
      · refine ⟨fun h' => absurd ((wm_after_reads h _).1 h') ?_, fun h' => absurd h' (wm_quiet h)⟩
        cases a <;> exact wm_ret _
    have hw := wm_word P m s.normalized hS
    have hmm := mm_word P m s.normalized
    rw [hw]
    cases hR : m.word P s.normalized with
    | mk x m1 =>
      rw [hR] at hmm
      simp only at hmm
      simp only [inner]
      rcases hmm with ⟨rfl, -⟩ | ⟨h1, h2, -, ts, rfl⟩
      · cases x with
        | error e =>
          refine ⟨?_, fun h => .inl h⟩
          rintro (h | ⟨_, e, _⟩)
          · exact h
          · cases e
        | ok ts =>
          simp only
          refine Iff.trans (b := keys (BPE.splitsLoop P m1 r).2 ≠ keys m1) ?_ ?_
          · constructor
            · rintro (h | ⟨_, _, h⟩)
              · exact absurd rfl h
              · exact h
            · intro h; exact .inr ⟨ts, rfl, h⟩
          · cases BPE.splitsLoop P m1 r with
            | mk y m2 => cases y <;> exact Iff.rfl
      · simp only
        refine ⟨fun _ => ?_, fun _ => .inl ?_⟩
        · obtain ⟨new, k1, -⟩ := mm_loop P r m1
          have : keys (BPE.splitsLoop P m1 r).2 ≠ keys m := by
            intro e
            rw [k1, h2] at e
            have := congrArg List.length e
            simp at this
          cases hq : BPE.splitsLoop P m1 r with
          | mk y m2 => rw [hq] at this; cases y <;> exact this
        · rw [h2]
          intro e
          have := congrArg List.length e
          simp at this

theorem wm_then {S : Shared} {α β : Type} {p : Act α} {f : α → Act β} (hf : ∀ a, ¬ Modifies (α := Res β) (f a) S) :
    Modifies (α := Res β) (p >>= f : Act β) S ↔ Modifies (α := Res α) p S := by
  rcases wm_total (α := Res α) S p with h | ⟨a, h⟩
  · exact ⟨fun _ => h, fun h => modifies_act h _⟩
  · refine ⟨fun h' => absurd ((wm_after_reads h _).1 h') ?_, fun h' => absurd h' (wm_quiet h)⟩
    cases a with
    | ok a => exact hf a
    | error e => exact wm_ret _

theorem wm_do {P : Platform} {t : Tokenizer} (hc : CachesOk P t) (p : PTS) :
    Modifies (α := Res Encoding) (doTokenizeA P t p) t.shared ↔ ∃ m, t.model = some (.bpe m) ∧ keys (m.tokenize P p).2 ≠ keys m := by
  unfold doTokenizeA
  cases hm : t.model with
  | none => exact ⟨fun h => absurd h (wm_lift _), fun ⟨m, h, _⟩ => by cases h⟩
  | some x =>
    simp only
    refine Iff.trans (wm_then fun a => wm_lift _) ?_
    cases x with
    | wordPiece m => exact ⟨fun h => absurd h (wm_pure _), fun ⟨m, h, _⟩ => by cases h⟩
    | bpe m =>
      simp only [tokenizeA]
      refine Iff.trans (wm_then fun a => wm_pure _) ?_
      have hE : Env t.shared.mapR (TrieId t) (GoodEntry P m) t.shared := by
        obtain ⟨h1, h2⟩ := wm_env hc
        exact ⟨h1, fun s w h => h2 s w h m hm⟩
      rw [wm_loop P (hc m hm) (by unfold Tokenizer.shared; rw [hm]) hE, ← mm_tokenize]
      constructor
      · intro h; exact ⟨m, rfl, h⟩
      · rintro ⟨m', e, h⟩; cases e; exact h

theorem wm_remembered (P : Platform) (t : Tokenizer) (w : WStr) (b : Bool) : remembered (t.encode P w b).2 ≠ remembered t ↔
    ∃ p, (t.preTokenized P w).1 = .ok p ∧ ∃ m, t.model = some (.bpe m) ∧ keys (m.tokenize P p).2 ≠ keys m := by
  have := mm_encode P t w b
  unfold remembered
  rw [this]
  cases (t.preTokenized P w).1 with
  | error e => exact ⟨fun h => absurd rfl h, fun ⟨p, h, _⟩ => by cases h⟩
  | ok p =>
    simp only
    cases hm : t.model with
    | none => exact ⟨fun h => absurd rfl h, fun ⟨p, _, m, h, _⟩ => by cases h⟩
    | some x => cases x with
      | wordPiece m => exact ⟨fun h => absurd rfl h, fun ⟨p, _, m, h, _⟩ => by cases h⟩
      | bpe m =>
        refine ⟨fun h => ⟨p, rfl, m, rfl, h⟩, ?_⟩
        rintro ⟨p', e, m', e', h⟩
        cases e; cases e'; exact h

/-- A call of `encode` modifies something if it looks up an added token or adds to the cache. -/
theorem wm_encode {P : Platform} {t : Tokenizer} (hc : CachesOk P t) (w : WStr) (b : Bool) :
    Modifies ((Request.encode w b).prog P t) t.shared ↔ Modifies (α := Res PTS) (preTokenizedA P t w) t.shared ∨
      remembered (t.encode P w b).2 ≠ remembered t := by
  have h1 : Modifies ((Request.encode w b).prog P t) t.shared ↔ Modifies (α := Res Encoding) (encodeA P t w b) t.shared := by
    unfold Request.prog
    rcases wm_total (α := Res Encoding) t.shared (encodeA P t w b) with h | ⟨a, h⟩
    · exact ⟨fun _ => h, fun h => modifies_bind h _⟩
    · exact ⟨fun h' => absurd ((wm_after_reads h _).1 h') (wm_ret _), fun h' => absurd h' (wm_quiet h)⟩
  rw [h1, wm_remembered]
  unfold encodeA
  refine Iff.trans (wm_seq (preTokenizedA_det (G := GoodOf P t) P t w) (wm_env hc) _) ?_
  refine or_congr Iff.rfl ?_
  constructor
  · rintro ⟨p, h, hm⟩
    exact ⟨p, h, (wm_do hc p).1 ((wm_then fun a => wm_lift _).1 hm)⟩
  · rintro ⟨p, h, hm⟩
    exact ⟨p, h, (wm_then fun a => wm_lift _).2 ((wm_do hc p).2 hm)⟩

/-! ### Which texts contain added tokens -/

theorem wm_scan {T : List (Str × Int)} (hT : ∀ p ∈ T, p.1 ≠ []) (hf : ∀ k i j, (k, i) ∈ T → (k, j) ∈ T → i = j) {w : WStr} (hw : Scalars w) :
    scan (wordIds T) (fromUTF8 (utf8 w)) (fromUTF8 (utf8 w)) 0 0 ≠ [] ↔ ∃ u x y i, Utf16Text w u ∧ RecognizedIn T u x y i := by
  rw [fromUTF8_utf8 hw]
  constructor
  · intro h
    cases hs : scan (wordIds T) (utf16 w) (utf16 w) 0 0 with
    | nil => exact absurd hs h
    | cons o r =>
      obtain ⟨x, y, i⟩ := o
      have hm : (x, y, i) ∈ scan (wordIds T) (utf16 w) (utf16 w) 0 0 := by rw [hs]; simp
      exact ⟨_, x, y, i, utf16Text_iff.2 ⟨hw, rfl⟩, (at_recognized (wu_lt hw) hf).2 ((scan_iff (keyAt_empty hT _)).1 hm)⟩
  · rintro ⟨u, x, y, i, hu, hr⟩ e
    obtain ⟨-, rfl⟩ := utf16Text_iff.1 hu
    have := (scan_iff (keyAt_empty hT _)).2 ((at_recognized (wu_lt hw) hf).1 hr)
    rw [e] at this; cases this

theorem wm_find {S : Shared} (s : Str) (T : List (Str × Int)) :
    Modifies (α := Res (List TSeg)) (findMatchesA s T) S ↔ scan (wordIds T) (fromUTF8 s) (fromUTF8 s) 0 0 ≠ [] := by
  unfold findMatchesA
  constructor
  · intro h e
    simp only [e] at h
    exact wm_pure _ h
  · intro h; exact matchSegsA_modifies S _ _ h _

theorem wm_first {S : Shared} (a : AddedVocab) (w : WStr) : Modifies (α := Res PTS) (firstSplitsA a w) S ↔
    Scalars w ∧ scan (wordIds a.nonNormTrie) (fromUTF8 (utf8 w)) (fromUTF8 (utf8 w)) 0 0 ≠ [] := by
  unfold firstSplitsA
  refine Iff.trans (wm_lift_seq _) ?_
  have inner : ∀ text p, Modifies (α := Res PTS) (do
      let segs ← findMatchesA text a.nonNormTrie
      let splits ← Act.lift (segSplits w 0 segs)
      return if splits = [] then p else { p with splits } : Act PTS) S ↔
      scan (wordIds a.nonNormTrie) (fromUTF8 text) (fromUTF8 text) 0 0 ≠ [] := by
    intro text p
    refine Iff.trans (wm_then fun segs => ?_) (wm_find _ _)
    intro h
    exact wm_lift _ ((wm_then fun l => wm_pure _).1 h)
  constructor
  · rintro ⟨p, _, h⟩
    obtain ⟨text, ht, h⟩ := (wm_lift_seq _).1 h
    obtain ⟨hw, rfl⟩ := convertToString_ok_iff.1 ht
    exact ⟨hw, (inner _ _).1 h⟩
  · rintro ⟨hw, h⟩
    exact ⟨_, ofNS_text hw, (wm_lift_seq _).2 ⟨_, convertToString_scalars hw, (inner _ _).2 h⟩⟩

/-- Where nothing is found, the text stays in one piece. -/
theorem wm_first_one (a : AddedVocab) {w : WStr} {p : PTS} (hw : Scalars w)
    (hs : scan (wordIds a.nonNormTrie) (fromUTF8 (utf8 w)) (fromUTF8 (utf8 w)) 0 0 = []) (h : (a.firstSplits w).1 = .ok p) :
    ∃ s, p.splits = [s] ∧ s.normalized = utf8 w ∧ s.tokens = [] := by
  unfold AddedVocab.firstSplits at h
  rw [ofNS_text hw, convertToString_scalars hw] at h
  unfold AddedVocab.findMatches at h
  simp only [hs, matchSegs] at h
  obtain ⟨segs, h1, h⟩ := res_bind_ok.1 h
  cases h1
  obtain ⟨l, h1, h⟩ := res_bind_ok.1 h
  cases h
  by_cases hn : (fromUTF8 (utf8 w)).length = 0
  · rw [if_neg (fun h => h hn.symm)] at h1
    cases h1
    exact ⟨_, by rw [if_pos rfl], rfl, rfl⟩
  · rw [if_pos (fun h => hn h.symm)] at h1
    simp only [segSplits] at h1
    obtain ⟨x, hx, h1⟩ := res_bind_ok.1 h1
    obtain ⟨v, h2, h1⟩ := res_bind_ok.1 h1
    obtain ⟨r, h3, h1⟩ := res_bind_ok.1 h1
    cases h3
    cases h1
    have : x = w := by
      rw [fromUTF8_utf8 hw] at hx
      have hle : w.length ≤ (utf16 w).length := by
        have := fromUTF8_length_ge hw
        rwa [fromUTF8_utf8 hw] at this
      unfold wsubstr at hx
      simp at hx
      rw [← hx]
      exact List.take_of_length_le hle
    subst this
    rw [convertToString_scalars hw] at h2
    cases h2
    exact ⟨_, by rw [if_neg (by simp)], rfl, rfl⟩

theorem wm_split {S : Shared} (P : Platform) (norm : Option Normalizer) {a : AddedVocab} (hd : PlainTables a) {ns : NS} {s : Split} {w : WStr}
    (hw : Scalars w) (hs : s.normalized = utf8 w) : (Modifies (α := Res (NS × List Split × Nat)) (normalizeSplitA P norm a ns 0 s) S →
      ∃ n u x y i, Normalizes P norm w n ∧ Utf16Text n u ∧ RecognizedIn a.normTrie u x y i) ∧
    ((∃ r, (normalizeSplit P norm a ns 0 s).1 = .ok r) → (∃ n u x y i, Normalizes P norm w n ∧ Utf16Text n u ∧ RecognizedIn a.normTrie u x y i) →
      Modifies (α := Res (NS × List Split × Nat)) (normalizeSplitA P norm a ns 0 s) S) := by
  unfold normalizeSplitA normalizeSplit
  simp only
  generalize hx : (do
    let sub ← normalizeOpt P norm (NS.ofText (← convertFromString s.normalized))
    if 0 + s.offsets.2 < s.offsets.1 then .error (.ub .outOfBounds)
    else do
      let ns ← ns.transformRange 0 (0 + s.offsets.2 - s.offsets.1) sub
      let text ← convertToString sub.normalized
      return (ns, sub, text) : Res (NS × NS × Str)) = x
  cases x with
  | error e => exact ⟨fun h => absurd h (wm_ret _), fun ⟨r, h⟩ => by cases h⟩
  | ok y =>
    obtain ⟨ns', sub, text⟩ := y
    obtain ⟨w', h1, hx⟩ := res_bind_ok.1 hx
    rw [hs, convertFromString_utf8 hw] at h1
    cases h1
    obtain ⟨sub', h1, hx⟩ := res_bind_ok.1 hx
    have hn := pl_normalizes P norm w sub' h1
    split at hx
    · cases hx
    obtain ⟨ns2, _, hx⟩ := res_bind_ok.1 hx
    obtain ⟨text', ht, hx⟩ := res_bind_ok.1 hx
    cases hx
    obtain ⟨hsc, rfl⟩ := convertToString_ok_iff.1 ht
    obtain ⟨hT, hf⟩ := hd a.normTrie (.inr rfl)
    have key : Modifies (α := Res (NS × List Split × Nat)) (do
          let segs ← findMatchesA (utf8 sub.normalized) a.normTrie
          let splits ← Act.lift (segSplits sub.normalized 0 segs)
          return (ns', splits, sub.normalized.length) : Act (NS × List Split × Nat)) S ↔
        ∃ u x y i, Utf16Text sub.normalized u ∧ RecognizedIn a.normTrie u x y i := by
      rw [← wm_scan hT hf hsc]
      refine Iff.trans (wm_then fun segs => ?_) (wm_find _ _)
      intro h
      exact wm_lift _ ((wm_then fun l => wm_pure _).1 h)
    refine ⟨fun h => ?_, fun _ h => ?_⟩
    · obtain ⟨u, x, y, i, hu, hr⟩ := key.1 h
      exact ⟨_, u, x, y, i, hn, hu, hr⟩
    · obtain ⟨n, u, x, y, i, hn', hu, hr⟩ := h
      obtain rfl := al_normalizes_unique P norm hn' hn
      exact key.2 ⟨u, x, y, i, hu, hr⟩

theorem wm_extract {P : Platform} {t : Tokenizer} {a : AddedVocab} (ha : t.added = some a) (hd : PlainTables a) (w : WStr) {G : Str → List Symbol → Prop}
    (hE : Env a.mapR (TrieId t) G t.shared) : (Modifies (α := Res PTS) (extractA P t.normalizer a w) t.shared → HasAdded P t w) ∧
    ((∃ p, (a.extract P t.normalizer w).1 = .ok p) → HasAdded P t w → Modifies (α := Res PTS) (extractA P t.normalizer a w) t.shared) := by
  obtain ⟨hT, hf⟩ := hd a.nonNormTrie (.inl rfl)
  have seq := wm_seq (β := PTS) (firstSplitsA_det (a := a) (T := TrieId t) (G := G) w fun p hp => ⟨a, ha, p, List.mem_append_left _ hp, rfl⟩) hE
    (fun p => do
      let (ns, splits) ← normalizeLoopA P t.normalizer a p.normalized 0 p.splits
      return { normalized := ns, splits := if splits = [] then p.splits else splits })
  have drop : ∀ p : PTS, Modifies (α := Res PTS) (do
      let (ns, splits) ← normalizeLoopA P t.normalizer a p.normalized 0 p.splits
      return { normalized := ns, splits := if splits = [] then p.splits else splits } : Act PTS) t.shared ↔
      Modifies (α := Res (NS × List Split)) (normalizeLoopA P t.normalizer a p.normalized 0 p.splits) t.shared :=
    fun p => wm_then fun x => wm_pure _
  have loop : ∀ ns s, s.tokens = [] → (Modifies (α := Res (NS × List Split)) (normalizeLoopA P t.normalizer a ns 0 [s]) t.shared ↔
      Modifies (α := Res (NS × List Split × Nat)) (normalizeSplitA P t.normalizer a ns 0 s) t.shared) := by
    intro ns s hs
    simp only [normalizeLoopA, hs, ne_eq, not_true_eq_false, if_false]
    exact wm_then fun x h => wm_pure _ h
  constructor
  · intro h
    refine ⟨a, ha, ?_⟩
    rcases seq.1 h with h | ⟨p, hp, h⟩
    · obtain ⟨hw, h⟩ := (wm_first a w).1 h
      exact .inl ((wm_scan hT hf hw).1 h)
    · rw [drop] at h
      have hw : Scalars w := by
        unfold AddedVocab.firstSplits at hp
        cases hc : convertToString w with
        | ok s => exact (convertToString_ok_iff.1 hc).1
        | error e =>
          rw [hc] at hp
          cases hq : PTS.ofNS (NS.ofText w) <;> rw [hq] at hp <;> cases hp
      by_cases hs : scan (wordIds a.nonNormTrie) (fromUTF8 (utf8 w)) (fromUTF8 (utf8 w)) 0 0 = []
      · obtain ⟨s, h1, h2, h3⟩ := wm_first_one a hw hs hp
        rw [h1, loop _ s h3] at h
        exact .inr ((wm_split P t.normalizer hd hw h2).1 h)
      · exact .inl ((wm_scan hT hf hw).1 hs)
  · rintro ⟨q, hq⟩ ⟨a', ha', h⟩
    rw [ha] at ha'; cases ha'
    refine seq.2 ?_
    rcases h with ⟨u, x, y, i, hu, hr⟩ | h
    · have hw := (utf16Text_iff.1 hu).1
      exact .inl ((wm_first a w).2 ⟨hw, (wm_scan hT hf hw).2 ⟨u, x, y, i, hu, hr⟩⟩)
    · have t1 := firstSplits_touched a w
      unfold AddedVocab.extract at hq
      cases hR : a.firstSplits w with
      | mk x b =>
        rw [hR] at hq t1
        cases x with
        | error e => cases hq
        | ok p =>
          have hw : Scalars w := by
            unfold AddedVocab.firstSplits at hR
            cases hc : convertToString w with
            | ok s => exact (convertToString_ok_iff.1 hc).1
            | error e =>
              rw [hc] at hR
              cases hq : PTS.ofNS (NS.ofText w) <;> rw [hq] at hR <;> cases hR
          by_cases hs : scan (wordIds a.nonNormTrie) (fromUTF8 (utf8 w)) (fromUTF8 (utf8 w)) 0 0 = []
          · refine .inr ⟨p, rfl, ?_⟩
            obtain ⟨s, h1, h2, h3⟩ := wm_first_one (p := p) a hw hs (congrArg Prod.fst hR)
            rw [drop, h1, loop _ s h3]
            refine (wm_split P t.normalizer hd hw h2).2 ?_ h
            simp only [h1] at hq
            have hl : (normalizeLoop P t.normalizer a p.normalized 0 [s]).1 = (normalizeLoop P t.normalizer b p.normalized 0 [s]).1 :=
              normalizeLoop_same P t.normalizer [s] t1.sameA _ _
            rw [normalizeLoop_result] at hl
            simp only [h3, ne_eq, not_true_eq_false, if_false] at hl
            cases hz : (normalizeSplit P t.normalizer a p.normalized 0 s).1 with
            | ok r => exact ⟨r, rfl⟩
            | error e =>
              rw [hz] at hl
              cases hb : normalizeLoop P t.normalizer b p.normalized 0 [s] with
              | mk y b' =>
                rw [hb] at hl hq
                simp only [res_error_bind] at hl
                rw [← hl] at hq
                cases hq
          · exact .inl ((wm_first a w).2 ⟨hw, hs⟩)

theorem wm_pre {P : Platform} {t : Tokenizer} (hc : CachesOk P t) (hd : ∀ a, t.added = some a → PlainTables a) (w : WStr) :
    (Modifies (α := Res PTS) (preTokenizedA P t w) t.shared → HasAdded P t w) ∧
    ((∃ p, (t.preTokenized P w).1 = .ok p) → HasAdded P t w → Modifies (α := Res PTS) (preTokenizedA P t w) t.shared) := by
  cases ha : t.added with
  | none =>
    have : ¬ Modifies (α := Res PTS) (preTokenizedA P t w) t.shared := by
      unfold preTokenizedA
      intro h
      obtain ⟨p, _, h⟩ := (wm_lift_seq _).1 h
      rw [ha] at h
      exact wm_lift _ h
    refine ⟨fun h => absurd h this, ?_⟩
    rintro _ ⟨a, h, _⟩
    rw [ha] at h; cases h
  | some a =>
    have hr : t.shared.mapR = a.mapR := by unfold Tokenizer.shared; rw [ha]
    have hE : Env a.mapR (TrieId t) (GoodOf P t) t.shared := hr ▸ wm_env hc
    obtain ⟨x1, x2⟩ := wm_extract (P := P) ha (hd a ha) w hE
    have step : ∀ p : PTS, Modifies (α := Res PTS) (do
        let p ← extractA P t.normalizer a w
        Act.lift (match t.preTokenizer with
          | none => .ok p
          | some pt => pt.run P p) : Act PTS) t.shared ↔ Modifies (α := Res PTS) (extractA P t.normalizer a w) t.shared :=
      fun p => wm_then fun q => wm_lift _
    constructor
    · intro h
      unfold preTokenizedA at h
      obtain ⟨p, _, h⟩ := (wm_lift_seq _).1 h
      rw [ha] at h
      exact x1 ((step p).1 h)
    · rintro ⟨p, hp⟩ h
      unfold Tokenizer.preTokenized at hp
      unfold preTokenizedA
      cases h0 : PTS.ofNS (NS.ofText w) with
      | error e => rw [h0] at hp; cases hp
      | ok p0 =>
        rw [h0, ha] at hp
        refine (wm_lift_seq _).2 ⟨p0, rfl, ?_⟩
        rw [ha]
        refine (step p0).2 (x2 ?_ h)
        simp only at hp
        obtain ⟨q, hq, _⟩ := res_bind_ok.1 hp
        exact ⟨q, hq⟩

/-! ### C127 -/

/-- **C127**, exactly.  After any calls, two threads that encode the same text can race if and only if an added token is recognized in the
text or the text has a word for which the tokenizer has not kept its answer yet. -/
theorem C127_exact (P : Platform) {t t1 : Tokenizer} {cs : List Call} (hnew : ∀ m, t.model = some (.bpe m) → m.cache = [])
    (hist : History P t cs t1) (hd : ∀ a, t1.added = some a → PlainTables a) {w : WStr} {b : Bool} {e : Encoding} (h : (t1.encode P w b).1 = .ok e) :
    (∃ sched, ((start P t1 [.encode w b, .encode w b]).run sched).Race) ↔ HasAdded P t1 w ∨ remembered (t1.encode P w b).2 ≠ remembered t1 := by
  have hc := wm_history hist (wm_new (P := P) hnew)
  rw [C76_exact, wm_encode hc]
  refine or_congr ⟨(wm_pre hc hd w).1, (wm_pre hc hd w).2 ?_⟩ Iff.rfl
  unfold Tokenizer.encode at h
  cases hR : t1.preTokenized P w with
  | mk x t' => cases x with
    | ok p => exact ⟨p, rfl⟩
    | error e => rw [hR] at h; cases h

/-- The call asks nothing new: it decodes, or it encodes a text without added tokens all whose words the tokenizer remembers. -/
def AsksNothingNew (P : Platform) (t : Tokenizer) : Request → Prop
  | .encode w b => ¬ HasAdded P t w ∧ remembered (t.encode P w b).2 = remembered t
  | .decode _ _ => True

theorem wm_nothing {P : Platform} {t : Tokenizer} (hc : CachesOk P t) (hd : ∀ a, t.added = some a → PlainTables a) {q : Request}
    (h : AsksNothingNew P t q) : ¬ Modifies (q.prog P t) t.shared := by
  cases q with
  | encode w b =>
    rw [wm_encode hc]
    rintro (h' | h')
    · exact h.1 ((wm_pre hc hd w).1 h')
    · exact h' h.2
  | decode ids skip => exact reads_quiet (reads_bind (decode_reads t ids skip) fun r => .ret _)

theorem wm_reads_act {S : Shared} {α β : Type} {p : Act α} {x : Res α} (h : ReadsTo (α := Res α) S p x) {f : α → Act β} {g : α → Res β}
    (hf : ∀ a, x = .ok a → ReadsTo (α := Res β) S (f a) (g a)) : ReadsTo (α := Res β) S (p >>= f : Act β) (x >>= g) := by
  have bind : ∀ {α β : Type} {p : Prog α} {a : α} {f : α → Prog β} {r : β}, ReadsTo S p a → ReadsTo S (f a) r → ReadsTo S (p.bind f) r := by
    intro α β p a f r h hf
    induction h with
    | ret a => exact hf
    | find _ ih => exact .find (ih hf)
    | cacheFind _ ih => exact .cacheFind (ih hf)
  cases x with
  | ok a => exact bind h (hf a rfl)
  | error e => exact bind h (.ret _)

theorem wm_reads_decode (t : Tokenizer) (ids : List Int) (skip : Bool) : ReadsTo (α := Res Str) t.shared (decodeA t ids skip) (t.decode ids skip) := by
  have h1 : ∀ i, ReadsTo (α := Res Str) t.shared (idTokenA t i) (t.idToken i) := by
    intro i
    unfold idTokenA Tokenizer.idToken
    cases ha : t.added with
    | none => exact .ret _
    | some a =>
      refine .find ?_
      have hr : t.shared.mapR = a.mapR := by unfold Tokenizer.shared; rw [ha]
      rw [hr]
      simp only [AddedVocab.idToToken]
      cases mapFind a.mapR i with
      | some e => exact .ret _
      | none => exact .ret _
  have h : ReadsTo (α := Res (List Str)) t.shared (idTokensA t skip ids) (t.idTokens skip ids) := by
    induction ids with
    | nil => exact .ret _
    | cons i r ih =>
      simp only [idTokensA, Tokenizer.idTokens]
      refine wm_reads_act (h1 i) fun s _ => ?_
      refine wm_reads_act ih fun rest _ => ?_
      exact .ret _
  unfold decodeA Tokenizer.decode
  refine wm_reads_act h fun tokens _ => ?_
  exact .ret _

theorem wm_reads {P : Platform} {t : Tokenizer} (hc : CachesOk P t) {q : Request} (hm : ¬ Modifies (q.prog P t) t.shared) :
    ReadsTo t.shared (q.prog P t) (q.alone P t) := by
  cases q with
  | encode w b =>
    rcases wm_total t.shared ((Request.encode w b).prog P t) with h | ⟨a, h⟩
    · exact absurd h hm
    · obtain ⟨n, hd⟩ := wm_request_det P hc (.encode w b) (.inl rfl)
      have := wm_value hd (wm_env hc) h
      rwa [← this]
  | decode ids skip =>
    have := wm_reads_decode t ids skip
    have bind : ∀ {p : Prog (Res Str)} {a}, ReadsTo t.shared p a → ReadsTo t.shared (p.bind fun r => .ret (Reply.text r)) (.text a) := by
      intro p a h
      induction h with
      | ret a => exact .ret _
      | find _ ih => exact .find ih
      | cacheFind _ ih => exact .cacheFind ih
    exact bind this

theorem wm_sys {α : Type} (r : Nat → α) (sched : List Nat) : ∀ {s : Sys α}, (∀ i p, s.threads[i]? = some p → ReadsTo s.shared p (r i)) →
    (s.run sched).shared = s.shared ∧ ∀ i p, (s.run sched).threads[i]? = some p → ReadsTo s.shared p (r i) := by
  induction sched with
  | nil => intro s h; exact ⟨rfl, h⟩
  | cons j rest ih =>
    intro s h
    simp only [Sys.run]
    have key : (s.step j).shared = s.shared ∧ ∀ i p, (s.step j).threads[i]? = some p → ReadsTo s.shared p (r i) := by
      unfold Sys.step
      cases hp : s.threads[j]? with
      | none => exact ⟨rfl, h⟩
      | some p =>
        have hstep : (p.step s.shared).2 = s.shared ∧ ReadsTo s.shared (p.step s.shared).1 (r j) := by
          have := h j p hp
          cases this with
          | ret a => exact ⟨rfl, .ret _⟩
          | find h => exact ⟨rfl, h⟩
          | cacheFind h => exact ⟨rfl, h⟩
        refine ⟨hstep.1, fun i q hq => ?_⟩
        simp only [List.getElem?_set] at hq
        split at hq
        · rename_i e
          subst e
          split at hq
          · cases hq; exact hstep.2
          · cases hq
        · exact h i q hq
    obtain ⟨k1, k2⟩ := key
    obtain ⟨g1, g2⟩ := ih (s := s.step j) (by rw [k1]; exact k2)
    rw [k1] at g1 g2
    exact ⟨g1, g2⟩

/-- **C127** After any calls: threads that decode, or encode texts without added tokens all whose words the tokenizer remembers, need no
locks.  However their accesses are interleaved, there is no data race, the tokenizer stays as it is, and a call that has returned has
returned what it returns alone. -/
theorem C127_shared (P : Platform) {t t1 : Tokenizer} {cs : List Call} (hnew : ∀ m, t.model = some (.bpe m) → m.cache = [])
    (hist : History P t cs t1) (hd : ∀ a, t1.added = some a → PlainTables a) (rs : List Request)
    (hq : ∀ q ∈ rs, ∀ w b, q = .encode w b → ¬ HasAdded P t1 w ∧ remembered (t1.encode P w b).2 = remembered t1) (sched : List Nat) :
    ¬ ((start P t1 rs).run sched).Race ∧ ((start P t1 rs).run sched).shared = t1.shared ∧
    ∀ (i : Nat) (q : Request) (r : Reply), rs[i]? = some q → ((start P t1 rs).run sched).threads[i]? = some (.ret r) → r = q.alone P t1 := by
  have hc := wm_history hist (wm_new (P := P) hnew)
  have hn : ∀ q ∈ rs, ¬ Modifies (q.prog P t1) t1.shared := by
    intro q h
    refine wm_nothing hc hd ?_
    cases q with
    | encode w b => exact hq _ h w b rfl
    | decode => trivial
  refine ⟨C76_quiet_partial P t1 rs hn sched, ?_⟩
  cases rs with
  | nil =>
    have := wm_sys (fun _ => (Request.decode [] false).alone P t1) sched (s := start P t1 []) (by intro i p h; cases h)
    exact ⟨this.1, fun i q r h _ => by cases h⟩
  | cons q0 rs =>
    have := wm_sys (fun i => (((q0 :: rs)[i]?).getD q0).alone P t1) sched (s := start P t1 (q0 :: rs)) (by
      intro i p hp
      simp only [start, List.getElem?_map, Option.map_eq_some_iff] at hp
      obtain ⟨q', hq', rfl⟩ := hp
      rw [hq']
      exact wm_reads hc (hn q' (List.mem_of_getElem? hq')))
    refine ⟨this.1, fun i q r h hr => ?_⟩
    have := this.2 i _ hr
    rw [h] at this
    cases this
    rfl

/-! ### Texts that have been encoded before -/

theorem wm_mono (P : Platform) (l : List Split) {m m' : BPE} (hc : CacheOk P m) (hc' : CacheOk P m') (hf : m.fresh = m'.fresh)
    (hk : ∀ s ∈ keys m, s ∈ keys m') : keys (BPE.splitsLoop P m l).2 = keys m → (BPE.splitsLoop P m' l).2 = m' := by
  induction l with
  | nil => intro _; rfl
  | cons s r ih =>
    intro h
    simp only [BPE.splitsLoop] at h ⊢
    have hv : (m.word P s.normalized).1 = (m'.word P s.normalized).1 := by
      rw [(word_cache P m _ hc).1, (word_cache P m' _ hc').1, hf]
    have hw := mm_word P m s.normalized
    have hw' := mm_hit P m' s.normalized
    have hw2 := mm_word P m' s.normalized
    cases hR : m.word P s.normalized with
    | mk x m1 =>
    cases hR' : m'.word P s.normalized with
    | mk x' m1' =>
      rw [hR] at hw hv h
      rw [hR'] at hw' hv hw2
      simp only at hw hw' hv h hw2
      subst hv
      rcases hw with ⟨rfl, hok⟩ | ⟨h1, h2, -, ts, rfl⟩
      · cases x with
        | error e =>
          rcases hw2 with ⟨h, -⟩ | ⟨-, -, -, ts, h⟩
          · exact h
          · cases h
        | ok ts =>
          have hm' : m1' = m' := by
            refine hw' ?_
            rcases hok ts rfl with h | h | h
            · left
              have e : m1.dropout = m'.dropout := (congrArg (fun x : BPE => x.dropout) hf : m1.fresh.dropout = m'.fresh.dropout)
              rw [← e]
              exact h
            · exact .inr (.inl ((mm_direct hf.symm _).2 h))
            · exact .inr (.inr (hk _ h))
          subst hm'
          have ihh := ih
          simp only at h ⊢
          generalize BPE.splitsLoop P m1 r = Y at h ihh
          generalize BPE.splitsLoop P m1' r = Y' at ihh ⊢
          obtain ⟨y, b⟩ := Y
          obtain ⟨y', b'⟩ := Y'
          have hb : keys b = keys m1 := by cases y <;> exact h
          have := ihh hb
          cases y' <;> exact this
      · exfalso
        obtain ⟨new, k1, -⟩ := mm_loop P r m1
        have : keys (BPE.splitsLoop P m1 r).2 = keys m := by
          simp only at h
          generalize BPE.splitsLoop P m1 r = Y at h
          obtain ⟨y, b⟩ := Y
          cases y <;> exact h
        rw [k1, h2] at this
        have := congrArg List.length this
        simp at this

theorem wm_asks {P : Platform} {t t' : Tokenizer} {cs : List Call} (h : History P t cs t') (hc : CachesOk P t) (ha : ∀ c ∈ cs, c.asks = true) :
    Same P t t' := by
  induction h with
  | nil t => exact (wm_same hc).refl'
  | @cons t t' t'' c cs h1 _ ih =>
    have hc' := wm_after h1 hc
    have s1 : Same P t t' := by
      have := ha c (by simp)
      cases h1 with
      | encode w b => exact (encode_same (wm_same hc) w b).2
      | decode => exact (wm_same hc).refl'
      | addTokens => cases this
      | addSpecialTokens => cases this
    exact s1.trans (ih hc' fun c h => ha c (by simp [h]))

theorem wm_again {P : Platform} {t t' : Tokenizer} {cs : List Call} (h : History P t cs t') (hc : CachesOk P t) (ha : ∀ c ∈ cs, c.asks = true)
    {w : WStr} {b b' : Bool} (hr : remembered (t.encode P w b).2 = remembered t) : remembered (t'.encode P w b').2 = remembered t' := by
  have hs := wm_asks h hc ha
  have hc' := wm_history h hc
  obtain ⟨new, hk, -⟩ := C120_history h
  apply Classical.byContradiction
  intro hne
  obtain ⟨p, hp, m', hm', hkey⟩ := (wm_remembered P t' w b').1 hne
  have hpre := (preTokenized_same hs w).1
  rw [hp] at hpre
  have hmod := hs.model
  rw [hm'] at hmod
  generalize hx : t.model = x at hmod
  cases hmod with
  | @some x _ hmod => cases hmod with
    | @bpe m _ c1 c2 hf =>
      have hkm : keys (m.tokenize P p).2 = keys m := by
        apply Classical.byContradiction
        intro hne'
        exact (wm_remembered P t w b).2 ⟨p, hpre, m, hx, hne'⟩ hr
      rw [mm_tokenize] at hkey hkm
      refine hkey (congrArg keys (wm_mono P p.splits c1 c2 hf ?_ hkm))
      intro s hs'
      have e1 : remembered t = keys m := by unfold remembered; rw [hx]; rfl
      have e2 : remembered t' = keys m' := by unfold remembered; rw [hm']; rfl
      rw [← e2, hk, e1]
      exact List.mem_append_left _ hs'

theorem wm_hasAdded {P : Platform} {t t' : Tokenizer} (hs : Same P t t') (w : WStr) : HasAdded P t' w ↔ HasAdded P t w := by
  have hn : t'.normalizer = t.normalizer := by rw [hs.same]
  have ha := hs.added
  unfold HasAdded
  rw [hn]
  generalize t.added = x at ha
  generalize t'.added = y at ha
  cases ha with
  | none => exact Iff.rfl
  | @some a a' h =>
    have h1 : a'.nonNormTrie = a.nonNormTrie := by rw [h.same]
    have h2 : a'.normTrie = a.normTrie := by rw [h.same]
    constructor
    · rintro ⟨_, e, h⟩; cases e; rw [h1, h2] at h; exact ⟨a, rfl, h⟩
    · rintro ⟨_, e, h⟩; cases e; rw [← h1, ← h2] at h; exact ⟨a', rfl, h⟩

/-- **C127** A text that has been encoded before is remembered: as long as only `encode` and `decode` have been called since, encoding
it again adds nothing to what the tokenizer keeps. -/
theorem C127_remembered (P : Platform) {t t1 t2 : Tokenizer} {cs cs' : List Call} (hnew : ∀ m, t.model = some (.bpe m) → m.cache = [])
    (hist : History P t cs t1) {w : WStr} {b b' : Bool} (hist' : History P (t1.encode P w b).2 cs' t2) (ha : ∀ c ∈ cs', c.asks = true) :
    remembered (t2.encode P w b').2 = remembered t2 := by
  have hc := wm_after (.encode t1 w b) (wm_history hist (wm_new (P := P) hnew))
  exact wm_again (b := b) hist' hc ha (by rw [C120_again])

theorem wm_split_history {P : Platform} {t t' : Tokenizer} {cs1 cs2 : List Call} (h : History P t (cs1 ++ cs2) t') :
    ∃ t1, History P t cs1 t1 ∧ History P t1 cs2 t' := by
  induction cs1 generalizing t with
  | nil => exact ⟨t, .nil t, h⟩
  | cons c cs ih =>
    cases h with
    | cons h1 h2 =>
      obtain ⟨t1, h3, h4⟩ := ih h2
      exact ⟨t1, .cons h1 h3, h4⟩

/-- **C127** Warming up.  When a tokenizer has encoded some texts, and nothing has been added to it since, any number of threads can encode
those of the texts that contain no added token, and decode, without locks: no schedule has a data race or changes the tokenizer, and what
the calls return is what they return alone. -/
theorem C127_warm (P : Platform) {t t1 t2 : Tokenizer} {cs cs' : List Call} (hnew : ∀ m, t.model = some (.bpe m) → m.cache = [])
    (hist : History P t cs t1) (hist' : History P t1 cs' t2) (ha : ∀ c ∈ cs', c.asks = true) (hd : ∀ a, t1.added = some a → PlainTables a)
    (rs : List Request) (hq : ∀ q ∈ rs, ∀ w b, q = .encode w b → ¬ HasAdded P t1 w ∧ ∃ b', Call.encode w b' ∈ cs') (sched : List Nat) :
    ¬ ((start P t2 rs).run sched).Race ∧ ((start P t2 rs).run sched).shared = t2.shared ∧
    ∀ (i : Nat) (q : Request) (r : Reply), rs[i]? = some q → ((start P t2 rs).run sched).threads[i]? = some (.ret r) → r = q.alone P t2 := by
  have hc := wm_history hist (wm_new (P := P) hnew)
  have hs := wm_asks hist' hc ha
  have happ : ∀ {t t1 t2 : Tokenizer} {cs cs' : List Call}, History P t cs t1 → History P t1 cs' t2 → History P t (cs ++ cs') t2 := by
    intro t t1 t2 cs cs' h h'
    induction h with
    | nil => exact h'
    | cons h1 _ ih => exact .cons h1 (ih h')
  refine C127_shared P hnew (happ hist hist') ?_ rs ?_ sched
  · intro a' ha'
    have := hs.added
    rw [ha'] at this
    generalize hx : t1.added = x at this
    cases this with
    | @some a _ h =>
      have h1 : a'.nonNormTrie = a.nonNormTrie := by rw [h.same]
      have h2 : a'.normTrie = a.normTrie := by rw [h.same]
      have := hd a hx
      unfold PlainTables at this ⊢
      rw [h1, h2]
      exact this
  · intro q h w b e
    obtain ⟨h1, b', h2⟩ := hq q h w b e
    refine ⟨fun h => h1 ((wm_hasAdded hs w).1 h), ?_⟩
    obtain ⟨c1, c2, rfl⟩ := List.append_of_mem h2
    obtain ⟨u, g1, g2⟩ := wm_split_history hist'
    cases g2 with
    | cons k1 k2 => cases k1 with
      | encode => exact C127_remembered P hnew (happ hist g1) k2 fun c h => ha c (by simp [h])

/-- Byte-pair encoding with the added token `[X]`. -/
def warmTk : Tokenizer := { abcTk [] false .bert with added := some psAdded }

theorem wm_plain : ∀ a, warmTk.added = some a → PlainTables a := by
  intro a h; cases h; exact ps_plain

theorem wm_none {w : WStr} (hw : Scalars w) (h : scan (wordIds psAdded.nonNormTrie) (utf16 w) (utf16 w) 0 0 = []) : ¬ HasAdded ascii warmTk w := by
  rintro ⟨a, ha, h'⟩
  cases ha
  rcases h' with ⟨u, x, y, i, hu, hr⟩ | ⟨n, u, x, y, i, hn, hu, hr⟩
  · exact bk_nothing hw (ps_plain _ (.inl rfl)).1 (ps_plain _ (.inl rfl)).2 h u x y i hu hr
  · exact al_noTokens (a := AddedVocab.init []) rfl n u x y i hu hr

/-- After "ab c" and "c" have been encoded, two threads that encode "ab c" and one that encodes "c" never race, whatever the schedule … -/
example (sched : List Nat) : ¬ ((start ascii (((warmTk.encode ascii w!"ab c" true).2.encode ascii w!"c" false).2)
    [.encode w!"ab c" false, .encode w!"c" false, .encode w!"ab c" true, .decode [3, 2] false]).run sched).Race := by
  refine (C127_warm ascii (t := warmTk) (by intro m h; cases h; rfl) (.nil _) (.cons (.encode _ w!"ab c" true) (.cons (.encode _ w!"c" false) (.nil _)))
    (by intro c hc; simp only [List.mem_cons, List.not_mem_nil, or_false] at hc; rcases hc with rfl | rfl <;> rfl) wm_plain _ ?_ sched).1
  intro q hq w b e
  subst e
  simp only [List.mem_cons, List.not_mem_nil, or_false, Request.encode.injEq, reduceCtorEq] at hq
  have h1 : ¬ HasAdded ascii warmTk w!"ab c" := wm_none (by unfold Scalars isScalar; decide) (by decide +kernel)
  have h2 : ¬ HasAdded ascii warmTk w!"c" := wm_none (by unfold Scalars isScalar; decide) (by decide +kernel)
  rcases hq with ⟨rfl, rfl⟩ | ⟨rfl, rfl⟩ | ⟨rfl, rfl⟩
  · exact ⟨h1, true, by simp⟩
  · exact ⟨h2, false, by simp⟩
  · exact ⟨h1, true, by simp⟩

/-- … whereas two threads that encode the new text "b" can. -/
example : ∃ sched, ((start ascii (warmTk.encode ascii w!"ab c" true).2 [.encode w!"b" false, .encode w!"b" false]).run sched).Race := by
  obtain ⟨e, he⟩ : ∃ e, ((warmTk.encode ascii w!"ab c" true).2.encode ascii w!"b" false).1 = .ok e := ⟨_, rfl⟩
  refine (C127_exact ascii (t := warmTk) (by intro m h; cases h; rfl) (.cons (.encode _ w!"ab c" true) (.nil _)) ?_ he).2 (.inr ?_)
  · intro a h
    have : (warmTk.encode ascii w!"ab c" true).2.added = some psAdded := rfl
    rw [this] at h; cases h; exact ps_plain
  · decide +kernel

end Tok
