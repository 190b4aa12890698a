import Verif.Props.Located
import Verif.Spec.Rounds

set_option autoImplicit false

/-!
C135: how much work the models do for a pre-token.
-/

namespace Tok
open Spec

/-- The symbols that still stand for a piece. -/
theorem ro_rep {syms : List Symbol} {live live' : List Cell} (h : Rep syms live) (h' : Rep syms live') : live.length = live'.length := by
  have h1 := congrArg List.length (rep_filter h)
  have h2 := congrArg List.length (rep_filter h')
  simp only [List.length_map] at h1 h2
  omega

/-- One round without dropout makes `2 * pieces + entries` smaller. -/
theorem ro_step {P : Platform} {merges : Merges} {d : Dropout} {n M : Nat} {live0 : List Cell} {st : MState} {live : List Cell}
    (h : LoopInv P merges d n M live0 st live) (hn : n < 2 ^ 31) :
    (mergeStep P merges d st = .ok none ∧ st.queue = []) ∨
    ∃ st' live', mergeStep P merges d st = .ok (some st') ∧ LoopInv P merges d n M live0 st' live' ∧
      loopMeasure M st' live' < loopMeasure M st live ∧
      (d.on = false → 2 * live'.length + st'.queue.length < 2 * live.length + st.queue.length) := by
  rcases mergeStep_spec h hn with h1 | ⟨st', live', h1, h2, h3⟩
  · exact .inl h1
  · refine .inr ⟨st', live', h1, h2, h3, fun hoff => ?_⟩
    cases hp : P.pq.pop st.queue with
    | none => simp only [mergeStep, hp, res_pure] at h1; cases h1
    | some tq =>
      obtain ⟨top, q⟩ := tq
      have hperm := P.pq.pop_perm _ _ _ h.qinv hp
      have hqi := P.pq.pop_inv _ _ _ h.qinv hp
      have hqlen : st.queue.length = q.length + 1 := by simpa using hperm.length_eq
      have htop : top.pos < n := h.inside top (by rw [List.mem_append, hperm.mem_iff]; simp)
      have hstep : mergeStep P merges d st = (applyTop P merges st.syms q top >>= fun r =>
          .ok (some { syms := r.1, queue := r.2, skip := [], drawn := st.drawn + 1 })) := by
        simp only [mergeStep, hp, hoff, Bool.false_and, Bool.false_eq_true, if_false, h.noSkip hoff, List.foldl_nil]
        rfl
      rcases applyTop_spec P merges h.rep (by rw [h.size]; exact hn) (by rw [h.size]; exact htop) hqi with
        ⟨g1, g2⟩ | ⟨syms', q', A, x, y, B, rank, g1, g2, g3, g4, g5, g6⟩
      · rw [hstep, g1] at h1
        simp only [res_ok_bind, Except.ok.injEq, Option.some.injEq] at h1
        subst h1
        have := ro_rep h.rep h2.rep
        simp only; omega
      · rw [hstep, g1] at h1
        simp only [res_ok_bind, Except.ok.injEq, Option.some.injEq] at h1
        subst h1
        have e := ro_rep g5 h2.rep
        have hq'len : q'.length ≤ 2 + q.length := by
          have := g6.length_eq
          rw [List.length_append] at this
          have := newCands_length merges A B ⟨x.pos, top.newId, x.len + y.len⟩
          omega
        have hlive : live.length = A.length + B.length + 2 := by rw [g4.eq]; simp; omega
        have hlive' : (A ++ ⟨x.pos, top.newId, x.len + y.len⟩ :: B).length = A.length + B.length + 1 := by
          simp; omega
        simp only; omega

/-- The loop ends, and how soon. -/
theorem ro_loop {P : Platform} {merges : Merges} {d : Dropout} {n M : Nat} {live0 : List Cell} (hn : n < 2 ^ 31) (fuel : Nat) :
    ∀ {st : MState} {live : List Cell}, LoopInv P merges d n M live0 st live → loopMeasure M st live < fuel →
    ∃ st' k, mergeLoop P merges d fuel st = .ok st'.syms ∧ Rounds P merges d k st st' ∧ st'.queue = [] ∧ k ≤ loopMeasure M st live ∧
      (d.on = false → k + 2 * (st'.syms.filter fun s => s.len ≠ 0).length ≤ 2 * live.length + st.queue.length) := by
  induction fuel with
  | zero => intro st live _ h; omega
  | succ fuel ih =>
    intro st live h hm
    rcases ro_step h hn with ⟨h1, h2⟩ | ⟨st', live', h1, h2, h3, h4⟩
    · refine ⟨st, 0, by simp only [mergeLoop, h1, res_ok_bind, res_pure], .done st, h2, Nat.zero_le _, fun _ => ?_⟩
      have := congrArg List.length (rep_filter h.rep)
      simp only [List.length_map] at this
      omega
    · obtain ⟨st'', k, g1, g2, g3, g4, g5⟩ := ih h2 (by omega)
      refine ⟨st'', k + 1, by simp only [mergeLoop, h1, res_ok_bind]; exact g1, .more h1 g2, g3, by omega, fun hoff => ?_⟩
      have := g5 hoff
      have := h4 hoff
      omega

theorem ro_trace {merges : Merges} {d : Dropout} {a b : List Cell} (h : Trace merges d a b) (ha : a ≠ []) : b ≠ [] := by
  cases h with
  | refl => exact ha
  | step _ hm _ =>
    obtain ⟨_, _, A, x, y, B, _, rfl⟩ := hm
    simp

theorem ro_merge (P : Platform) (merges : Merges) (d : Dropout) (l : List (Int × Nat)) (hne : l ≠ [])
    (hpos : ∀ p ∈ l, 0 < p.2) (hn : l.length < 2 ^ 31) :
    ∃ k out, mergeAll P merges d (chain 0 l) = .ok out ∧ MergedIn P merges d (chain 0 l) k out ∧ out ≠ [] ∧
      k ≤ 9 * l.length * l.length + l.length ∧ (d.on = false → k + 2 * out.length + 1 ≤ 3 * l.length) := by
  have hlen := chain_length 0 l
  obtain ⟨q1, q2, q3⟩ := initQueue_spec P merges (chain 0 l) 0 [] P.pq.inv_nil
  simp only [List.length_nil, hlen] at q2
  have hlpos : 0 < l.length := List.length_pos_iff.2 hne
  have hinv := pr_inv P merges d l hne hpos
  have hlt : loopMeasure (3 * l.length) { syms := chain 0 l, queue := initQueue P merges 0 (chain 0 l) [], skip := [], drawn := 0 }
      (cells 0 l) ≤ 9 * l.length * l.length + l.length := by
    simp only [loopMeasure, cells_length, List.length_nil]
    have h1 : 2 * l.length + (initQueue P merges 0 (chain 0 l) []).length + 0 ≤ 3 * l.length - 1 := by omega
    have h2 := Nat.mul_le_mul_right (3 * l.length + 1) h1
    generalize (initQueue P merges 0 (chain 0 l) []).length = z at *
    generalize l.length = k at *
    have e2 : (3 * k - 1) * (3 * k + 1) + (3 * k + 1) = 9 * k * k + 3 * k := by
      rw [← Nat.succ_mul]
      have : (3 * k - 1).succ = 3 * k := by omega
      rw [this, Nat.mul_add, Nat.mul_assoc, Nat.mul_left_comm k 3 k, Nat.mul_assoc 9]; omega
    omega
  have hfuel : 9 * l.length * l.length + l.length < mergeFuel l.length := by
    unfold mergeFuel
    generalize l.length = k
    have e1 : (4 * k + 1) * (4 * k + 1) = 16 * (k * k) + 8 * k + 1 := by
      rw [Nat.add_mul, Nat.mul_add, Nat.mul_assoc, Nat.mul_left_comm k 4 k]; omega
    rw [e1, Nat.mul_assoc]; omega
  obtain ⟨st', k, h1, h2, h3, h4, h5⟩ := ro_loop hn (mergeFuel l.length) hinv (by omega)
  obtain ⟨out, live, g1, g2, g3, -, -⟩ := mergeAll_spec P merges d l hne hpos hn
  have hm : mergeAll P merges d (chain 0 l) = .ok (st'.syms.filter fun s => s.len ≠ 0) := by
    have : chain 0 l ≠ [] := by
      intro h; rw [h] at hlen; simp at hlen; omega
    unfold mergeAll
    cases hc : chain 0 l with
    | nil => exact absurd hc this
    | cons a r =>
      simp only
      rw [← hc, hlen, h1]; rfl
  refine ⟨k, _, hm, ⟨st', h2, h3, rfl⟩, ?_, by omega, fun hoff => ?_⟩
  · intro h0
    have e : out = [] := by rw [hm] at g1; injection g1 with g1; rw [← g1, h0]
    subst e
    cases live with
    | nil =>
      have := ro_trace g3 (by intro h; have := cells_length 0 l; rw [h] at this; simp at this; omega)
      exact this rfl
    | cons c r => simp [bare] at g2
  · have := h5 hoff
    simp only [cells_length] at this
    omega

theorem ro_symbols (P : Platform) (m : BPE) (s : Str) (hfit : Fits m s) (hne : m.symbols s ≠ []) :
    ∃ k out, m.mergeWord P s = .ok out ∧ MergedIn P m.merges m.dropout (m.symbols s) k out ∧ out ≠ [] ∧
      k ≤ 9 * (m.symbols s).length * (m.symbols s).length + (m.symbols s).length ∧
      (m.dropout.on = false → k + 2 * out.length + 1 ≤ 3 * (m.symbols s).length) := by
  obtain ⟨h1, h2⟩ := symList_spec m s true none (goodPend_none m)
  have hl : (symList m true s none).length = (m.symbols s).length := by rw [symbols_chain, chain_length]
  have hne' : symList m true s none ≠ [] := by
    intro h; apply hne; rw [symbols_chain, h]; rfl
  have hlt : (symList m true s none).length < 2 ^ 31 := by
    simp [pend] at h2
    exact Nat.lt_of_le_of_lt h2 hfit
  have := ro_merge P m.merges m.dropout (symList m true s none) hne' (fun p hp => (h1 p hp).1) hlt
  rw [hl, ← symbols_chain] at this
  exact this

theorem ro_rounds {P : Platform} {merges : Merges} {d : Dropout} {k : Nat} {st st1 : MState} (h : Rounds P merges d k st st1) :
    ∀ {k' : Nat} {st2 : MState}, Rounds P merges d k' st st2 → st1.queue = [] → st2.queue = [] → k = k' ∧ st1 = st2 := by
  have stuck : ∀ {st st' : MState}, st.queue = [] → mergeStep P merges d st ≠ .ok (some st') := by
    intro st st' hq h
    simp only [mergeStep, hq, P.pq.pop_nil, res_pure] at h
    cases h
  induction h with
  | done st =>
    intro k' st2 h' h1 h2
    cases h' with
    | done => exact ⟨rfl, rfl⟩
    | more g _ => exact absurd g (stuck h1)
  | more g _ ih =>
    intro k' st2 h' h1 h2
    cases h' with
    | done => exact absurd g (stuck h2)
    | more g' r =>
      rw [g] at g'
      injection g' with g'
      injection g' with g'
      subst g'
      obtain ⟨e1, e2⟩ := ih r h1 h2
      exact ⟨by omega, e2⟩

/-- **C135** Byte-pair encoding without dropout: for every vocabulary, merge list, affixes and priority queue, the merging of a text of `n` pieces ends
after fewer than `3 * n` entries were taken from the queue; the fewer, the more pieces are left. -/
theorem C135_merging (P : Platform) (m : BPE) (s : Str) (hoff : m.dropout.on = false) (hfit : Fits m s) (hne : m.symbols s ≠ []) :
    ∃ k out, m.mergeWord P s = .ok out ∧ MergedIn P m.merges m.dropout (m.symbols s) k out ∧ out ≠ [] ∧
      k + 2 * out.length + 1 ≤ 3 * (m.symbols s).length := by
  obtain ⟨k, out, h1, h2, h3, -, h4⟩ := ro_symbols P m s hfit hne
  exact ⟨k, out, h1, h2, h3, h4 hoff⟩

/-- **C135** With dropout, whatever is drawn, the number is at most quadratic. -/
theorem C135_dropout (P : Platform) (m : BPE) (s : Str) (hfit : Fits m s) (hne : m.symbols s ≠ []) :
    ∃ k out, m.mergeWord P s = .ok out ∧ MergedIn P m.merges m.dropout (m.symbols s) k out ∧
      k ≤ 9 * (m.symbols s).length * (m.symbols s).length + (m.symbols s).length := by
  obtain ⟨k, out, h1, h2, -, h4, -⟩ := ro_symbols P m s hfit hne
  exact ⟨k, out, h1, h2, h4⟩

/-- **C135** The number of entries taken, and the pieces left, are determined by the model, the text and the platform. -/
theorem C135_once (P : Platform) (merges : Merges) (d : Dropout) (w : List Symbol) {k k' : Nat} {out out' : List Symbol}
    (h : MergedIn P merges d w k out) (h' : MergedIn P merges d w k' out') : k = k' ∧ out = out' := by
  obtain ⟨st, h1, h2, rfl⟩ := h
  obtain ⟨st', h3, h4, rfl⟩ := h'
  obtain ⟨e1, e2⟩ := ro_rounds h1 h3 h2 h4
  exact ⟨e1, by rw [e2]⟩

/-- **C135** A text has at most as many pieces as bytes, times the length of a byte with its affixes (which falls back to a piece per byte). -/
theorem C135_pieces (m : BPE) (s : Str) : (m.symbols s).length ≤ s.length * (m.pre.length + m.suf.length + 1) := by
  obtain ⟨-, h2⟩ := symList_spec m s true none (goodPend_none m)
  rw [symbols_chain, chain_length]
  simpa [pend] using h2

theorem ro_looked (m : WordPiece) (u : U16) (start : Nat) : ∀ k, match m.longest u start k with
    | none => (lookedUp m u start k).length = k ∧ ∀ c ∈ lookedUp m u start k, mapFind m.vocab c = none
    | some t => ∃ len i, 0 < len ∧ len ≤ k ∧ t = { id := i, value := m.piece u start (start + len), offsets := (start, start + len) } ∧
        mapFind m.vocab (m.piece u start (start + len)) = some i ∧
        (∀ longer, len < longer → longer ≤ k → mapFind m.vocab (m.piece u start (start + longer)) = none) ∧
        (lookedUp m u start k).length + len = k + 1 := by
  intro k
  induction k with
  | zero => exact ⟨rfl, fun c h => by cases h⟩
  | succ k ih =>
    simp only [WordPiece.longest, lookedUp]
    cases hf : mapFind m.vocab (m.piece u start (start + (k + 1))) with
    | some i =>
      simp only
      exact ⟨k + 1, i, by omega, by omega, rfl, hf, fun l h1 h2 => by omega, by simp; omega⟩
    | none =>
      simp only
      cases hl : m.longest u start k with
      | none =>
        rw [hl] at ih
        simp only at ih ⊢
        refine ⟨by simp [ih.1], fun c hc => ?_⟩
        rcases List.mem_cons.1 hc with rfl | hc
        · exact hf
        · exact ih.2 c hc
      | some t =>
        rw [hl] at ih
        simp only at ih ⊢
        obtain ⟨len, i, h1, h2, h3, h4, h5, h6⟩ := ih
        refine ⟨len, i, h1, by omega, h3, h4, fun l g1 g2 => ?_, by simp; omega⟩
        by_cases g3 : l = k + 1
        · rw [g3]; exact hf
        · exact h5 l g1 (by omega)

theorem ro_square {a b r : Nat} (h : a + b ≤ r) (ha : 1 ≤ a) (k : Nat) (hk : k + a = r + 1) {x : Nat} (hx : 2 * x ≤ b * (b + 1)) (hb : b = r - a) :
    2 * (k + x) ≤ r * (r + 1) := by
  have h1 : b * (b + 1) ≤ (r - 1) * r := Nat.mul_le_mul (by omega) (by omega)
  obtain ⟨r', rfl⟩ : ∃ r', r = r' + 1 := ⟨r - 1, by omega⟩
  have e : (r' + 1) * (r' + 1 + 1) = r' * (r' + 1) + 2 * (r' + 1) := by
    rw [Nat.mul_comm (r' + 1) (r' + 1 + 1), ← Nat.add_mul]
  have e2 : (r' + 1 - 1) = r' := by omega
  rw [e2] at h1
  omega

theorem ro_seg (m : WordPiece) (u : U16) : ∀ (fuel start : Nat), u.length - start ≤ fuel →
    ∃ log, Searched m u start log (m.loop u fuel start) ∧ 2 * log.length ≤ (u.length - start) * (u.length - start + 1) := by
  intro fuel
  induction fuel with
  | zero =>
    intro start h
    refine ⟨[], ?_, by simp⟩
    unfold WordPiece.loop
    rw [if_neg (by omega)]
    exact .nothing _ (by omega)
  | succ fuel ih =>
    intro start h
    unfold WordPiece.loop
    by_cases hs : start < u.length
    · rw [if_pos hs]
      have hl := ro_looked m u start (u.length - start)
      simp only
      cases hg : m.longest u start (u.length - start) with
      | none =>
        rw [hg] at hl
        simp only at hl ⊢
        refine ⟨_, .fails start hs hl.2, ?_⟩
        rw [hl.1]
        have : 1 ≤ u.length - start := by omega
        generalize u.length - start = r at *
        obtain ⟨r', rfl⟩ : ∃ r', r = r' + 1 := ⟨r - 1, by omega⟩
        rw [Nat.mul_comm]
        exact Nat.mul_le_mul_left _ (by omega)
      | some t =>
        rw [hg] at hl
        simp only at hl ⊢
        obtain ⟨len, i, h1, h2, h3, h4, h5, h6⟩ := hl
        subst h3
        obtain ⟨log, g1, g2⟩ := ih (start + len) (by omega)
        refine ⟨_, .takes h1 (by omega) h4 (fun l q1 q2 => h5 l q1 (by omega)) g1, ?_⟩
        rw [List.length_append]
        exact ro_square (a := len) (b := u.length - (start + len)) (by omega) h1 _ (by omega) g2 (by omega)
    · rw [if_neg hs]
      exact ⟨[], .nothing _ (by omega), by simp⟩

/-- **C135** WordPiece: for every vocabulary, a text of `n` UTF-16 units is segmented with at most `n * (n + 1) / 2` look-ups, and a text longer than
`max_input_chars_per_word` with none; so with at most `max * (max + 1) / 2`, however long the text. -/
theorem C135_wordPiece (m : WordPiece) (s : Str) :
    (m.maxChars < (fromUTF8 s).length ∧ m.word s = m.unk (fromUTF8 s).length) ∨
    ((fromUTF8 s).length ≤ m.maxChars ∧ ∃ log ts, Searched m (fromUTF8 s) 0 log ts ∧
      m.word s = (match ts with | none => m.unk (fromUTF8 s).length | some ts => ts) ∧
      2 * log.length ≤ (fromUTF8 s).length * ((fromUTF8 s).length + 1) ∧
      2 * log.length ≤ m.maxChars.toNat * (m.maxChars.toNat + 1)) := by
  by_cases h : m.maxChars < (fromUTF8 s).length
  · left
    refine ⟨h, ?_⟩
    unfold WordPiece.word
    simp only
    rw [if_pos h]
  · right
    obtain ⟨log, h1, h2⟩ := ro_seg m (fromUTF8 s) (fromUTF8 s).length 0 (by omega)
    refine ⟨by omega, log, _, h1, ?_, by simpa using h2, ?_⟩
    · unfold WordPiece.word
      simp only
      rw [if_neg h]
      cases m.loop (fromUTF8 s) (fromUTF8 s).length 0 <;> rfl
    · simp only [Nat.sub_zero] at h2
      exact Nat.le_trans h2 (Nat.mul_le_mul (by omega) (by omega))

theorem ro_in (m : WordPiece) (u : U16) (start len : Nat) (h : 0 < len) : ∀ k, len ≤ k →
    (∀ longer, len < longer → longer ≤ k → mapFind m.vocab (m.piece u start (start + longer)) = none) →
    m.piece u start (start + len) ∈ lookedUp m u start k := by
  intro k
  induction k with
  | zero => intro h1; omega
  | succ k ih =>
    intro h1 h2
    simp only [lookedUp]
    by_cases e : len = k + 1
    · subst e; simp
    · rw [h2 (k + 1) (by omega) (Nat.le_refl _)]
      exact List.mem_cons_of_mem _ (ih (by omega) fun l q1 q2 => h2 l q1 (by omega))

/-- **C135** The tokens of a segmentation, and the candidates looked up for it, are determined. -/
theorem C135_segmented (m : WordPiece) (u : U16) {start : Nat} {log log' : List Str} {ts ts' : Option (List Token)}
    (h : Searched m u start log ts) (h' : Searched m u start log' ts') : log = log' ∧ ts = ts' := by
  induction h generalizing log' ts' with
  | nothing start h1 =>
    cases h' with
    | nothing => exact ⟨rfl, rfl⟩
    | fails _ h2 => omega
    | takes => omega
  | fails start h1 h2 =>
    cases h' with
    | nothing _ h3 => omega
    | fails => exact ⟨rfl, rfl⟩
    | takes g1 g2 g3 g4 =>
      have := h2 _ (ro_in m u start _ g1 (u.length - start) (by omega) fun l q1 q2 => g4 l q1 (by omega))
      rw [g3] at this; cases this
  | @takes start len i log ts g1 g2 g3 g4 _ ih =>
    cases h' with
    | nothing _ h3 => omega
    | fails _ h1 h2 =>
      have := h2 _ (ro_in m u start _ g1 (u.length - start) (by omega) fun l q1 q2 => g4 l q1 (by omega))
      rw [g3] at this; cases this
    | @takes _ len' i' _ _ f1 f2 f3 f4 f5 =>
      have e : len = len' := by
        rcases Nat.lt_trichotomy len len' with h | h | h
        · rw [g4 _ h f2] at f3; cases f3
        · exact h
        · rw [f4 _ h g2] at g3; cases g3
      subst e
      rw [g3] at f3
      injection f3 with f3
      subst f3
      obtain ⟨e1, e2⟩ := ih f5
      rw [e1, e2]
      exact ⟨rfl, rfl⟩

/-- The state in which the loop starts. -/
def mergeStart (P : Platform) (merges : Merges) (w : List Symbol) : MState :=
  { syms := w, queue := initQueue P merges 0 w [], skip := [], drawn := 0 }

/-- The rounds from a state, counted. -/
def countRounds (P : Platform) (merges : Merges) (d : Dropout) : Nat → MState → Option (Nat × MState)
  | 0, _ => none
  | fuel + 1, st =>
    match mergeStep P merges d st with
    | .error _ => none
    | .ok none => some (0, st)
    | .ok (some st') => (countRounds P merges d fuel st').map fun r => (r.1 + 1, r.2)

theorem ro_count {P : Platform} {merges : Merges} {d : Dropout} : ∀ {fuel : Nat} {st st' : MState} {k : Nat},
    countRounds P merges d fuel st = some (k, st') → Rounds P merges d k st st' := by
  intro fuel
  induction fuel with
  | zero => intro st st' k h; cases h
  | succ fuel ih =>
    intro st st' k h
    simp only [countRounds] at h
    cases hs : mergeStep P merges d st with
    | error e => rw [hs] at h; cases h
    | ok o =>
      rw [hs] at h
      cases o with
      | none => simp only [Option.some.injEq, Prod.mk.injEq] at h; obtain ⟨rfl, rfl⟩ := h; exact .done st
      | some st1 =>
        simp only [Option.map_eq_some_iff, Prod.mk.injEq] at h
        obtain ⟨⟨a, b⟩, h1, rfl, rfl⟩ := h
        exact .more hs (ih h1)

/-- Eight times `a`, with the merge of two of them, and a dropout that passes over all entries of the queue but one before every merge. -/
def eightA : BPE :=
  { vocab := [(b!"a", 0), (b!"aa", 1)], merges := [((0, 0), (0, 1))],
    dropout := ⟨true, fun k => !([6, 12, 17, 21, 24, 26, 27].contains k)⟩,
    unkToken := [], pre := [], suf := [], fuseUnk := false, byteFallback := false, ignoreMerges := false }

/-- **C135** With dropout the number is not linear: eight pieces take 28 entries (without dropout fewer than 24, for every
vocabulary); one piece more adds as many entries as there are pairs. -/
theorem C135_violated_dropout : (eightA.symbols b!"aaaaaaaa").length = 8 ∧
    ∃ out, MergedIn ascii eightA.merges eightA.dropout (eightA.symbols b!"aaaaaaaa") 28 out := by
  refine ⟨by decide +kernel, ?_⟩
  have h : ((countRounds ascii eightA.merges eightA.dropout 30 (mergeStart ascii eightA.merges (eightA.symbols b!"aaaaaaaa"))).map fun r =>
      (r.1, r.2.queue.length)) = some (28, 0) := by decide +kernel
  rw [Option.map_eq_some_iff] at h
  obtain ⟨⟨k, st⟩, h1, h2⟩ := h
  simp only [Prod.mk.injEq] at h2
  obtain ⟨rfl, h2⟩ := h2
  exact ⟨_, st, ro_count h1, List.length_eq_zero_iff.1 h2, rfl⟩

/-- The hypotheses of `C135_merging`; the merge listed last is applied, and the other entry is stale then. -/
example : Fits abcBPE b!"abc" ∧ abcBPE.symbols b!"abc" ≠ [] ∧
    ∃ out, MergedIn ascii abcBPE.merges abcBPE.dropout (abcBPE.symbols b!"abc") 2 out ∧ out.map (·.c) = [0, 4] := by
  refine ⟨by unfold Fits; decide, by decide, ?_⟩
  have h : ((countRounds ascii abcBPE.merges abcBPE.dropout 30 (mergeStart ascii abcBPE.merges (abcBPE.symbols b!"abc"))).map fun r =>
      (r.1, r.2.queue.length, (r.2.syms.filter fun s => s.len ≠ 0).map (·.c))) = some (2, 0, [0, 4]) := by decide +kernel
  rw [Option.map_eq_some_iff] at h
  obtain ⟨⟨k, st⟩, h1, h2⟩ := h
  simp only [Prod.mk.injEq] at h2
  obtain ⟨rfl, h2, h3⟩ := h2
  exact ⟨_, ⟨st, ro_count h1, List.length_eq_zero_iff.1 h2, rfl⟩, h3⟩

/-- WordPiece looks `abc`, `ab`, `a`, `##bc` and `##b` up in `abc`, finds the third and fails at `b`. -/
example : ∃ log, Searched { vocab := [(b!"[UNK]", 0), (b!"a", 1)], unkToken := b!"[UNK]", maxChars := 100, pre := b!"##" }
    (fromUTF8 b!"abc") 0 log none ∧ log = [b!"abc", b!"ab", b!"a", b!"##bc", b!"##b"] := by
  refine ⟨_, .takes (len := 1) (i := 1) (ts := none) (by decide) (by decide) (by decide +kernel) ?_ (.fails 1 (by decide) (by decide +kernel)),
    by decide +kernel⟩
  intro l h1 h2
  have h3 : l ≤ 3 := by
    have : (fromUTF8 b!"abc").length = 3 := by decide +kernel
    omega
  have : l = 2 ∨ l = 3 := by omega
  rcases this with rfl | rfl <;> decide +kernel

end Tok
