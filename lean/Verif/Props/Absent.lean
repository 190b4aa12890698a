import Verif.Spec.Absent
import Verif.Props.Batches
import Verif.Props.AnyText

set_option autoImplicit false

/-!
C116: adding tokens that do not occur.
-/

namespace Tok
open Spec

/-- The two added vocabularies agree on all tokens but those in `C`. -/
structure AgreeBut (C : Str → Prop) (a a' : AddedVocab) : Prop where
  norm : ∀ k, ¬ C k → mapFind (wordIds a.normTrie) k = mapFind (wordIds a'.normTrie) k
  non : ∀ k, ¬ C k → mapFind (wordIds a.nonNormTrie) k = mapFind (wordIds a'.nonNormTrie) k
  flags : ∀ k i, ¬ C k → mapFind (wordIds a.normTrie) k = some i ∨ mapFind (wordIds a.nonNormTrie) k = some i →
    (mapFind a.mapR i).getD {} = (mapFind a'.mapR i).getD {}

theorem AgreeBut.touched {C : Str → Prop} {a a' b b' : AddedVocab} (h : AgreeBut C a a') (t : Touched a b) (t' : Touched a' b') :
    AgreeBut C b b' := by
  have e := t.sameA.tries
  have e' := t'.sameA.tries
  refine ⟨?_, ?_, ?_⟩
  · rw [e.1, e'.1]; exact h.norm
  · rw [e.2, e'.2]; exact h.non
  · rw [e.1, e.2]
    intro k i hk hi
    rw [← t.sameA.get, ← t'.sameA.get]
    exact h.flags k i hk hi

/-- No key in `C` is looked up in the text. -/
def Avoids (C : Str → Prop) (s : Str) : Prop := ∀ p n, ¬ C (toUTF8String (tempSubString (fromUTF8 s) p n))

theorem ab_scan {C : Str → Prop} {ids ids' : List (Str × Int)} {u : U16} (hu : ∀ p n, ¬ C (toUTF8String (tempSubString u p n)))
    (h : ∀ k, ¬ C k → mapFind ids k = mapFind ids' k) : ∀ (r : U16) (i cur : Nat), scan ids u r i cur = scan ids' u r i cur := by
  intro r
  induction r with
  | nil => intro i cur; simp only [scan]; rw [h _ (hu _ _)]
  | cons c r ih =>
    intro i cur
    simp only [scan]
    rw [h _ (hu _ _)]
    split <;> simp only [ih]

theorem ab_scan_mem {ids : List (Str × Int)} {u : U16} : ∀ (r : U16) (i cur : Nat), ∀ m ∈ scan ids u r i cur,
    ∃ p n, mapFind ids (toUTF8String (tempSubString u p n)) = some m.2.2 := by
  intro r
  induction r with
  | nil =>
    intro i cur m hm
    simp only [scan] at hm
    split at hm
    · split at hm
      · rename_i k hk
        simp only [List.mem_singleton] at hm
        subst hm
        exact ⟨_, _, hk⟩
      · cases hm
    · cases hm
  | cons c r ih =>
    intro i cur m hm
    simp only [scan] at hm
    split at hm
    · rename_i k hk
      rcases List.mem_cons.1 hm with rfl | hm
      · exact ⟨_, _, hk⟩
      · exact ih _ _ m hm
    · exact ih _ _ m hm

theorem ab_segs {m m' : List (Int × AddedToken)} (s : Str) (n : Nat) (ms : List (Nat × Nat × Int))
    (h : ∀ x ∈ ms, (mapFind m x.2.2).getD {} = (mapFind m' x.2.2).getD {}) : ∀ o, matchSegs m s n ms o = matchSegs m' s n ms o := by
  induction ms with
  | nil => intro o; rfl
  | cons x r ih =>
    intro o
    have h1 := h x (by simp)
    obtain ⟨a, b, i⟩ := x
    simp only [matchSegs, h1, ih fun x hx => h x (by simp [hx])]

theorem ab_norm {C : Str → Prop} {a a' : AddedVocab} (h : AgreeBut C a a') {s : Str} (hs : Avoids C s) :
    (a.findMatches s a.normTrie).1 = (a'.findMatches s a'.normTrie).1 := by
  unfold AddedVocab.findMatches
  simp only
  rw [ab_scan hs h.norm]
  refine ab_segs _ _ _ (fun x hx => ?_) _
  rw [← ab_scan hs h.norm] at hx
  obtain ⟨p, n, hp⟩ := ab_scan_mem _ _ _ x hx
  exact h.flags _ _ (hs p n) (.inl hp)

theorem ab_non {C : Str → Prop} {a a' : AddedVocab} (h : AgreeBut C a a') {s : Str} (hs : Avoids C s) :
    (a.findMatches s a.nonNormTrie).1 = (a'.findMatches s a'.nonNormTrie).1 := by
  unfold AddedVocab.findMatches
  simp only
  rw [ab_scan hs h.non]
  refine ab_segs _ _ _ (fun x hx => ?_) _
  rw [← ab_scan hs h.non] at hx
  obtain ⟨p, n, hp⟩ := ab_scan_mem _ _ _ x hx
  exact h.flags _ _ (hs p n) (.inr hp)

theorem ab_first {C : Str → Prop} {a a' : AddedVocab} (h : AgreeBut C a a') {w : WStr} (hs : ∀ s, convertToString w = .ok s → Avoids C s) :
    (a.firstSplits w).1 = (a'.firstSplits w).1 := by
  unfold AddedVocab.firstSplits
  split
  · rfl
  · split
    · rfl
    · rename_i s hc
      simp only
      rw [ab_non h (hs s hc)]

/-- The split is ordinary text, whose normalized form has no key in `C`, or an added token. -/
def CleanSplit (P : Platform) (norm : Option Normalizer) (C : Str → Prop) (s : Split) : Prop :=
  s.tokens = [] → ∀ y sub text, convertFromString s.normalized = .ok y → normalizeOpt P norm (NS.ofText y) = .ok sub →
    convertToString sub.normalized = .ok text → Avoids C text

theorem ab_split (P : Platform) (norm : Option Normalizer) {C : Str → Prop} {a a' : AddedVocab} (h : AgreeBut C a a') (ns : NS)
    (e : Nat) {s : Split} (ht : s.tokens = []) (hs : CleanSplit P norm C s) :
    (normalizeSplit P norm a ns e s).1 = (normalizeSplit P norm a' ns e s).1 := by
  unfold normalizeSplit
  simp only
  split
  · rfl
  · rename_i ns' sub text hpre
    have : Avoids C text := by
      obtain ⟨y, h1, h2⟩ := res_bind_ok.1 hpre
      obtain ⟨sub', h3, h4⟩ := res_bind_ok.1 h2
      split at h4
      · cases h4
      · obtain ⟨_, _, h5⟩ := res_bind_ok.1 h4
        obtain ⟨_, h6, h7⟩ := res_bind_ok.1 h5
        cases h7
        exact hs ht _ _ _ h1 h3 h6
    rw [ab_norm h this]

theorem ab_loop (P : Platform) (norm : Option Normalizer) {C : Str → Prop} (l : List Split) :
    ∀ {a a' : AddedVocab} (_ : AgreeBut C a a') (ns : NS) (e : Nat), (∀ s ∈ l, CleanSplit P norm C s) →
      (normalizeLoop P norm a ns e l).1 = (normalizeLoop P norm a' ns e l).1 := by
  induction l with
  | nil => intros; rfl
  | cons s r ih =>
    intro a a' h ns e hl
    have hr : ∀ s ∈ r, CleanSplit P norm C s := fun s hs => hl s (by simp [hs])
    simp only [normalizeLoop]
    split
    · have := ih h ns (e + s.normalized.length) hr
      generalize normalizeLoop P norm a ns (e + s.normalized.length) r = R at this
      generalize normalizeLoop P norm a' ns (e + s.normalized.length) r = R' at this
      obtain ⟨x, _⟩ := R
      obtain ⟨x', _⟩ := R'
      simp only at this; subst this
      cases x <;> rfl
    · rename_i hne
      have h1 := ab_split P norm h ns e (by simpa using hne) (hl s (by simp))
      have t1 := normalizeSplit_touched P norm a ns e s
      have t2 := normalizeSplit_touched P norm a' ns e s
      generalize normalizeSplit P norm a ns e s = R at h1 t1
      generalize normalizeSplit P norm a' ns e s = R' at h1 t2
      obtain ⟨x, b⟩ := R
      obtain ⟨x', b'⟩ := R'
      simp only at h1 t1 t2; subst h1
      cases x with
      | error => rfl
      | ok q =>
        obtain ⟨ns', here, n⟩ := q
        simp only
        have := ih (h.touched t1 t2) ns' (e + n) hr
        generalize normalizeLoop P norm b ns' (e + n) r = R at this
        generalize normalizeLoop P norm b' ns' (e + n) r = R' at this
        obtain ⟨x, _⟩ := R
        obtain ⟨x', _⟩ := R'
        simp only at this; subst this
        cases x <;> rfl

theorem ab_extract (P : Platform) (norm : Option Normalizer) {C : Str → Prop} {a a' : AddedVocab} (h : AgreeBut C a a') {w : WStr}
    (hs : ∀ s, convertToString w = .ok s → Avoids C s)
    (hn : ∀ p, (a.firstSplits w).1 = .ok p → ∀ s ∈ p.splits, CleanSplit P norm C s) :
    (a.extract P norm w).1 = (a'.extract P norm w).1 := by
  unfold AddedVocab.extract
  have h1 := ab_first h hs
  have t1 := firstSplits_touched a w
  have t2 := firstSplits_touched a' w
  generalize a.firstSplits w = R at h1 t1 hn
  generalize a'.firstSplits w = R' at h1 t2
  obtain ⟨x, b⟩ := R
  obtain ⟨x', b'⟩ := R'
  simp only at h1 t1 t2 hn; subst h1
  cases x with
  | error => rfl
  | ok p =>
    simp only
    have := ab_loop P norm p.splits (h.touched t1 t2) p.normalized 0 (hn p rfl)
    generalize normalizeLoop P norm b p.normalized 0 p.splits = R at this
    generalize normalizeLoop P norm b' p.normalized 0 p.splits = R' at this
    obtain ⟨x, _⟩ := R
    obtain ⟨x', _⟩ := R'
    simp only at this; subst this
    cases x <;> rfl

/-! ### The texts that are searched -/

theorem ab_written {w : WStr} (hw : Scalars w) (p n : Nat) : WrittenIn (toUTF8String (tempSubString (utf16 w) p n)) w := by
  have e : between (utf16 w) p (min (p + n) (utf16 w).length) = tempSubString (utf16 w) p n := by
    unfold between tempSubString
    by_cases h : p + n ≤ (utf16 w).length
    · rw [Nat.min_eq_left h, Nat.add_sub_cancel_left]
    · rw [Nat.min_eq_right (by omega), List.take_of_length_le (by simp), List.take_of_length_le (by simp; omega)]
  have hv : ∀ c ∈ tempSubString (utf16 w) p n, c < 0x10000 := fun c hc =>
    wu_lt hw c (List.mem_of_mem_drop (List.mem_of_mem_take hc))
  obtain ⟨x, hx⟩ := wu_reads _ _ (Nat.le_refl _) hv
  refine ⟨utf16 w, p, min (p + n) (utf16 w).length, x, utf16Text_iff.2 ⟨hw, rfl⟩, Nat.min_le_right _ _, by rw [e]; exact hx, ?_⟩
  have ex := wu_read hx
  refine utf8Text_iff.2 ⟨?_, ?_⟩
  · intro c hc
    rw [ex, List.mem_map] at hc
    obtain ⟨d, _, rfl⟩ := hc
    exact sanitize_scalar d
  · rw [ex]; rfl

/-- The tokens of `l` that the model knows. -/
def KnownIn (v : Vocab) (l : List AddedToken) (k : Str) : Prop := ∃ x ∈ l, x.content = k ∧ tokenToId v k ≠ none

theorem ab_avoids {v : Vocab} {l : List AddedToken} {w : WStr} {s : Str} (hs : convertToString w = .ok s)
    (h : ∀ x ∈ l, tokenToId v x.content ≠ none → ¬ WrittenIn x.content w) : Avoids (KnownIn v l) s := by
  obtain ⟨hw, rfl⟩ := convertToString_ok_iff.1 hs
  rintro p n ⟨x, hx, e, hk⟩
  rw [fromUTF8_utf8 hw] at e hk
  rw [← e] at hk
  refine h x hx hk ?_
  rw [e]
  exact ab_written hw p n

theorem ab_wsubstr {w y : WStr} {a b : Nat} (h : wsubstr w a b = .ok y) : ∃ p q, w = p ++ y ++ q := by
  unfold wsubstr at h
  split at h
  · cases h
    split
    · refine ⟨w.take a, (w.drop a).drop (b - a), ?_⟩
      rw [List.append_assoc, List.take_append_drop, List.take_append_drop]
    · exact ⟨w.take a, [], by simp⟩
  · cases h

theorem ab_segSplits {w : WStr} (base : Nat) (segs : List TSeg) : ∀ {out}, segSplits w base segs = .ok out →
    ∀ s ∈ out, ∃ p y q, w = p ++ y ++ q ∧ convertToString y = .ok s.normalized := by
  induction segs with
  | nil => intro out h s hs; cases h; cases hs
  | cons g r ih =>
    intro out h s hs
    obtain ⟨id, a, b⟩ := g
    simp only [segSplits] at h
    obtain ⟨y, h1, h⟩ := res_bind_ok.1 h
    obtain ⟨z, h2, h⟩ := res_bind_ok.1 h
    obtain ⟨rest, h3, h⟩ := res_bind_ok.1 h
    cases h
    rcases List.mem_cons.1 hs with rfl | hs
    · obtain ⟨p, q, e⟩ := ab_wsubstr h1
      exact ⟨p, y, q, e, h2⟩
    · exact ih h3 s hs

theorem ab_first_splits {a : AddedVocab} {w : WStr} {p : PTS} (h : (a.firstSplits w).1 = .ok p) :
    ∀ s ∈ p.splits, ∃ x y z, w = x ++ y ++ z ∧ convertToString y = .ok s.normalized := by
  unfold AddedVocab.firstSplits at h
  split at h
  · cases h
  · rename_i p0 hp0
    split at h
    · cases h
    · rename_i text ht
      simp only at h
      obtain ⟨segs, _, h⟩ := res_bind_ok.1 h
      obtain ⟨splits, h1, h⟩ := res_bind_ok.1 h
      cases h
      intro s hs
      split at hs
      · obtain ⟨hw, _⟩ := convertToString_ok_iff.1 ht
        rw [ofNS_text hw] at hp0
        cases hp0
        simp only [List.mem_singleton] at hs
        subst hs
        exact ⟨[], w, [], by simp, convertToString_scalars hw⟩
      · exact ab_segSplits 0 segs h1 s hs

/-- An added token of the list that the text does not contain is not looked up. -/
theorem ab_same (P : Platform) (norm : Option Normalizer) {v : Vocab} {l : List AddedToken} {a a' : AddedVocab} (h : AgreeBut (KnownIn v l) a a')
    {w : WStr} (hw : Absent P norm v l w) : (a.extract P norm w).1 = (a'.extract P norm w).1 := by
  refine ab_extract P norm h (fun s hs => ab_avoids hs fun x hx hk => (hw x hx hk).1) fun p hp s hs => ?_
  intro _ y sub text h1 h2 h3
  obtain ⟨x, y', z, e, hy⟩ := ab_first_splits hp s hs
  have : y = y' := nt_utf8 ((C02_from_string_iff _ _).1 h1) ((C02_to_string_iff _ _).1 hy)
  subst this
  exact ab_avoids h3 fun t ht hk => (hw t ht hk).2 _ _ _ _ e (pl_normalizes P norm y sub h2)

/-! ### The tables -/

theorem ab_table {T T' : List (Str × Int)} {k : Str} (h : ∀ i, (k, i) ∈ T ↔ (k, i) ∈ T') (hf : ∀ i j, (k, i) ∈ T → (k, j) ∈ T → i = j) :
    mapFind (wordIds T) k = mapFind (wordIds T') k := by
  cases hk : mapFind (wordIds T) k with
  | some i =>
    have := wordIds_mem hk
    exact (wordIds_find ((h i).1 this) fun j hj => hf _ _ ((h j).2 hj) this).symm
  | none =>
    cases hk' : mapFind (wordIds T') k with
    | none => rfl
    | some i =>
      have := (h i).2 (wordIds_mem hk')
      rw [wordIds_find this fun j hj => hf _ _ hj this] at hk
      cases hk

theorem ab_trie {v : Vocab} {norm : Bool} {l : List AddedToken} {k : Str} {i : Int} :
    (k, i) ∈ trieOf v norm l ↔ tokenToId v k = some i ∧ ∃ t ∈ l, t.content = k ∧ t.normalized = norm := by
  unfold trieOf
  rw [List.mem_filterMap]
  constructor
  · rintro ⟨t, ht, h⟩
    split at h
    · rename_i j hj
      split at h
      · cases h; exact ⟨hj, t, ht, rfl, by assumption⟩
      · cases h
    · cases h
  · rintro ⟨h, t, ht, rfl, hn⟩
    exact ⟨t, ht, by rw [h]; simp [hn]⟩

/-- The lookup tables are up to date. -/
def UpToDate (v : Vocab) (a : AddedVocab) : Prop :=
  a.normTrie = trieOf v true a.specialTokens ++ trieOf v true a.addedTokens ∧
  a.nonNormTrie = trieOf v false a.specialTokens ++ trieOf v false a.addedTokens

theorem ab_upToDate {v : Vocab} {a a' : AddedVocab} {al : Bool} {l : List AddedToken} {n : Nat}
    (h : a.addTokensCore (some v) al l = .ok (n, a')) : UpToDate v a' := by
  obtain ⟨_, a1, _, h2⟩ := addTokensCore_ok h
  unfold AddedVocab.refresh at h2
  cases h2
  exact ⟨rfl, rfl⟩

theorem UpToDate.touched {v : Vocab} {a a' : AddedVocab} (h : UpToDate v a) (t : Touched a a') : UpToDate v a' := by
  unfold UpToDate
  rw [t.same]
  exact h

/-- After any history the tables are up to date. -/
theorem ab_history {P : Platform} {t t' : Tokenizer} {cs : List Call} (h : History P t cs t') {v : Vocab} (hv : t.vocab? = some v)
    (ha : ∀ a, t.added = some a → UpToDate v a) : t'.vocab? = some v ∧ ∀ a, t'.added = some a → UpToDate v a := by
  induction h with
  | nil => exact ⟨hv, ha⟩
  | @cons t u t'' c cs h1 _ ih =>
    obtain ⟨e, h2⟩ := after_added h1
    refine ih (e.trans hv) fun b hb => ?_
    rcases h2 with h2 | ⟨a, a', g1, g2, h2⟩
    · rw [h2] at hb; exact ha b hb
    · rw [g2] at hb; cases hb
      rcases h2 with h2 | ⟨l, n, _, h2⟩
      · exact (ha a g1).touched h2
      · rw [hv] at h2; exact ab_upToDate h2

theorem ab_register_keeps (l : List AddedToken) : ∀ (a : AddedVocab), ∀ t ∈ a.specialTokens, t ∈ (registerSpecials l a).specialTokens := by
  induction l with
  | nil => intro a t ht; exact ht
  | cons x r ih =>
    intro a t ht
    simp only [registerSpecials]
    split
    · exact ih _ t (by simp [ht])
    · exact ih _ t ht

theorem ab_assign_keeps {M : Option Vocab} {al : Bool} (l : List AddedToken) : ∀ {a a' : AddedVocab},
    assignIds M al l a = .ok a' → ∀ t ∈ a.addedTokens, t ∈ a'.addedTokens := by
  induction l with
  | nil => intro a a' h t ht; cases h; exact ht
  | cons x r ih =>
    intro a a' h t ht
    rcases assignIds_cons h with ⟨_, h⟩ | ⟨_, j, a1, _, h, _, _, _, _, h5, _⟩
    · exact ih h t ht
    · exact ih h t (by rw [h5]; simp [ht])

theorem ab_assign_flags {M : Option Vocab} {al : Bool} (l : List AddedToken) : ∀ {a a' : AddedVocab},
    assignIds M al l a = .ok a' → ∀ i, (∀ x ∈ l, x.content ≠ [] → mapFind a'.map x.content ≠ some i) →
      mapFind a'.mapR i = mapFind a.mapR i := by
  induction l with
  | nil => intro a a' h i _; cases h; rfl
  | cons x r ih =>
    intro a a' h i hi
    rcases assignIds_cons h with ⟨_, h⟩ | ⟨hne, j, a1, _, h, h1, h2, _⟩
    · exact ih h i fun y hy => hi y (by simp [hy])
    · rw [ih h i fun y hy => hi y (by simp [hy]), h2, mapFind_set]
      have : mapFind a'.map x.content = some j := assignIds_keeps r h _ _ (by rw [h1, mapFind_set, if_pos rfl])
      rw [if_neg]
      rintro rfl
      exact hi x (by simp) hne this

theorem ab_agree {v : Vocab} {a a' : AddedVocab} {l : List AddedToken} {n : Nat} (ha : UpToDate v a)
    (h : a.addTokensCore (some v) false l = .ok (n, a'))
    (hc : ∀ x ∈ l, x.content ≠ [] → ∀ i k, mapFind a'.map x.content = some i → tokenToId v k = some i →
      (∃ t ∈ a.specialTokens ++ a.addedTokens, t.content = k) → k = x.content) :
    AgreeBut (KnownIn v l) a a' := by
  have ha' := ab_upToDate h
  obtain ⟨_, a1, h1, h2⟩ := addTokensCore_ok h
  obtain ⟨r1, r2, r3, r4, r5⟩ := refresh_ok h2
  have hS : ∀ t, t ∈ a'.specialTokens → t ∈ a.specialTokens ∨ t ∈ l := by
    intro t ht
    rw [r4, (assignIds_special l h1).2] at ht
    exact registerSpecials_tokens l a t ht
  have hS' : ∀ t, t ∈ a.specialTokens → t ∈ a'.specialTokens := by
    intro t ht
    rw [r4, (assignIds_special l h1).2]
    exact ab_register_keeps l a t ht
  have hA : ∀ t, t ∈ a'.addedTokens → t ∈ a.addedTokens ∨ t ∈ l := by
    intro t ht
    rw [r5] at ht
    have := assignIds_added l h1 t ht
    rwa [(registerSpecials_map l a).2.2] at this
  have hA' : ∀ t, t ∈ a.addedTokens → t ∈ a'.addedTokens := by
    intro t ht
    rw [r5]
    exact ab_assign_keeps l h1 t (by rw [(registerSpecials_map l a).2.2]; exact ht)
  have key : ∀ (nb : Bool) k, ¬ KnownIn v l k → ∀ i, (k, i) ∈ trieOf v nb a.specialTokens ++ trieOf v nb a.addedTokens ↔
      (k, i) ∈ trieOf v nb a'.specialTokens ++ trieOf v nb a'.addedTokens := by
    intro nb k hk i
    rw [List.mem_append, List.mem_append, ab_trie, ab_trie, ab_trie, ab_trie]
    constructor
    · rintro (⟨g, t, ht, g'⟩ | ⟨g, t, ht, g'⟩)
      · exact .inl ⟨g, t, hS' t ht, g'⟩
      · exact .inr ⟨g, t, hA' t ht, g'⟩
    · rintro (⟨g, t, ht, g', g''⟩ | ⟨g, t, ht, g', g''⟩)
      · rcases hS t ht with ht | ht
        · exact .inl ⟨g, t, ht, g', g''⟩
        · exact absurd ⟨t, ht, g', by rw [g]; simp⟩ hk
      · rcases hA t ht with ht | ht
        · exact .inr ⟨g, t, ht, g', g''⟩
        · exact absurd ⟨t, ht, g', by rw [g]; simp⟩ hk
  have fn' : ∀ (nb : Bool) k i, (k, i) ∈ trieOf v nb a.specialTokens ++ trieOf v nb a.addedTokens →
      tokenToId v k = some i ∧ ∃ t ∈ a.specialTokens ++ a.addedTokens, t.content = k := by
    intro nb k i hk
    rw [List.mem_append, ab_trie, ab_trie] at hk
    rcases hk with ⟨hk, t, ht, he, _⟩ | ⟨hk, t, ht, he, _⟩
    · exact ⟨hk, t, List.mem_append_left _ ht, he⟩
    · exact ⟨hk, t, List.mem_append_right _ ht, he⟩
  have fn : ∀ (nb : Bool) k i, (k, i) ∈ trieOf v nb a.specialTokens ++ trieOf v nb a.addedTokens → tokenToId v k = some i :=
    fun nb k i h => (fn' nb k i h).1
  refine ⟨fun k hk => ?_, fun k hk => ?_, fun k i hk hi => ?_⟩
  · rw [ha.1, ha'.1]
    exact ab_table (key true k hk) fun i j g g' => Option.some.inj ((fn _ _ _ g).symm.trans (fn _ _ _ g'))
  · rw [ha.2, ha'.2]
    exact ab_table (key false k hk) fun i j g g' => Option.some.inj ((fn _ _ _ g).symm.trans (fn _ _ _ g'))
  · have hk' : tokenToId v k = some i ∧ ∃ t ∈ a.specialTokens ++ a.addedTokens, t.content = k := by
      rcases hi with hi | hi
      · have := wordIds_mem hi; rw [ha.1] at this; exact fn' _ _ _ this
      · have := wordIds_mem hi; rw [ha.2] at this; exact fn' _ _ _ this
    have : mapFind a'.mapR i = mapFind a.mapR i := by
      rw [r2, ab_assign_flags l h1 i ?_, (registerSpecials_map l a).2.1]
      intro x hx hne hxi
      rw [← r1] at hxi
      have e := hc x hx hne i k hxi hk'.1 hk'.2
      exact hk ⟨x, hx, e.symm, by rw [hk'.1]; simp⟩
    rw [this]

theorem ab_encode {P : Platform} {t t' : Tokenizer} {a a' : AddedVocab} (ha : t.added = some a) (ht : t' = { t with added := some a' })
    (w : WStr) (h : (a.extract P t.normalizer w).1 = (a'.extract P t.normalizer w).1) (b : Bool) :
    (t'.encode P w b).1 = (t.encode P w b).1 := by
  subst ht
  unfold Tokenizer.encode Tokenizer.preTokenized
  simp only [ha]
  cases PTS.ofNS (NS.ofText w) with
  | error e => rfl
  | ok p =>
    simp only
    rw [← h]
    generalize ((a.extract P t.normalizer w).1 >>= _ : Res PTS) = R
    cases R with
    | error e => rfl
    | ok q =>
      simp only
      unfold Tokenizer.doTokenize
      simp only
      cases t.model with
      | none =>
        simp only
        cases intoEncoding q none 0 <;> rfl
      | some m =>
        simp only
        generalize ((m.tokenize P q).1 >>= _ : Res Encoding) = R
        cases R <;> rfl

theorem ab_start {P : Platform} {t0 t t1 : Tokenizer} {m : Model} {cs : List Call} (hm : t0.model = some m) (hf : t0.finish = .ok t)
    (h : History P t cs t1) : t1.vocab? = some m.vocab ∧ ∀ a, t1.added = some a → UpToDate m.vocab a := by
  have hv0 : t0.vocab? = some m.vocab := by unfold Tokenizer.vocab?; rw [hm]; rfl
  have hv : t.vocab? = some m.vocab ∧ ∀ a, t.added = some a → UpToDate m.vocab a := by
    rcases finish_ok hf with ⟨hn, rfl⟩ | ⟨a, a', k, _, rfl, h2⟩
    · exact ⟨hv0, fun a ha => by rw [hn] at ha; cases ha⟩
    · refine ⟨hv0, fun b hb => ?_⟩
      cases hb
      rw [hv0] at h2
      exact ab_upToDate h2
  exact ab_history h hv.1 hv.2

/-- **C116** Whatever happened before: adding tokens leaves the result of `encode` - also its failures - as it was for every text in
which none of them is written that the model knows (neither in the text itself nor after normalization of a part of it).
The new tokens must not have the id of another entry of the model's vocabulary. -/
theorem C116_encode (P : Platform) {t0 t t1 t2 : Tokenizer} {m : Model} {cs : List Call} {l : List AddedToken} {n : Nat}
    (hm : t0.model = some m) (hf : t0.finish = .ok t) (h : History P t cs t1) (hl : t1.addTokens l = .ok (n, t2))
    (hc : ∀ x ∈ l, x.content ≠ [] → ∀ i k, recorded t2 x.content = some i → tokenToId m.vocab k = some i → k = x.content)
    {w : WStr} (hw : Absent P t1.normalizer m.vocab l w) (b : Bool) :
    (t2.encode P w b).1 = (t1.encode P w b).1 := by
  obtain ⟨hv1, hu⟩ := ab_start hm hf h
  obtain ⟨a, a', ha, h2, e⟩ := addTokens_ok hl
  rw [hv1] at h2
  refine ab_encode ha e w (ab_same P t1.normalizer (ab_agree (hu a ha) h2 ?_) hw) b
  intro x hx hne i k h3 h4 _
  refine hc x hx hne i k ?_ h4
  rw [e]
  exact h3

theorem ab_new_id {v : Vocab} {a : AddedVocab} {c : Str} {i : Int} (h : newId a (some v) c = .ok i) (h1 : mapFind a.map c = none)
    (h2 : tokenToId v c = none) : ∀ d j, mapFind a.map d = some j → j < i := by
  intro d j hd
  unfold newId at h
  rw [h1] at h
  simp only [h2] at h
  cases hx : maxId a.map with
  | none => rw [maxId_none hx] at hd; cases hd
  | some w =>
    rw [hx] at h
    have := (maxId_some hx).1 _ (mapFind_mem hd)
    simp only at h this
    split at h <;> cases h <;> omega

theorem ab_assign_new {v : Vocab} {al : Bool} (l : List AddedToken) : ∀ {a a' : AddedVocab}, assignIds (some v) al l a = .ok a' →
    ∀ x ∈ l, x.content ≠ [] → mapFind a.map x.content = none → tokenToId v x.content = none →
    ∀ i d j, mapFind a'.map x.content = some i → mapFind a.map d = some j → j < i := by
  induction l with
  | nil => intro a a' _ x hx; cases hx
  | cons t r ih =>
    intro a a' h x hx hne h1 h2 i d j hi hj
    rcases assignIds_cons h with ⟨ht, h⟩ | ⟨ht, q, a1, hq, h, hm, -⟩
    · rcases List.mem_cons.1 hx with rfl | hx
      · exact absurd ht hne
      · exact ih h x hx hne h1 h2 i d j hi hj
    · by_cases e : t.content = x.content
      · rw [e] at hq hm
        have : mapFind a'.map x.content = some q := assignIds_keeps r h _ _ (by rw [hm, mapFind_set, if_pos rfl])
        rw [this] at hi
        cases hi
        exact ab_new_id hq h1 h2 d j hj
      · rcases List.mem_cons.1 hx with rfl | hx
        · exact absurd rfl e
        · refine ih h x hx hne (by rw [hm, mapFind_set, if_neg e]; exact h1) h2 i d j hi ?_
          rw [hm, mapFind_set]
          split
          · rename_i g
            rw [g] at hq
            unfold newId at hq
            rw [hj] at hq
            cases hq
            rfl
          · exact hj

/-- **C116** It is enough that the tokens have not been added before and that the ids of the vocabulary are distinct, also in a
vocabulary with gaps. -/
theorem C116_fresh (P : Platform) {t0 t t1 t2 : Tokenizer} {m : Model} {g : List AddedToken} {cs : List Call} {l : List AddedToken} {n : Nat}
    (h0 : t0.added = some (AddedVocab.init g)) (hm : t0.model = some m) (hf : t0.finish = .ok t) (h : History P t cs t1)
    (hl : t1.addTokens l = .ok (n, t2)) (hM : tokenToId m.vocab [] = none)
    (hd : ∀ c c' i, tokenToId m.vocab c = some i → tokenToId m.vocab c' = some i → c = c')
    (hn : ∀ x ∈ l, recorded t1 x.content = none) {w : WStr} (hw : Absent P t1.normalizer m.vocab l w) (b : Bool) :
    (t2.encode P w b).1 = (t1.encode P w b).1 := by
  obtain ⟨hv1, hu⟩ := ab_start hm hf h
  obtain ⟨a, a', ha, h2, e⟩ := addTokens_ok hl
  rw [hv1] at h2
  have hk : ∀ M b, M = some m.vocab → t1.added = some b → KInv M b := by
    intro M b hM' hb
    have i1 := history_inv (P := P) (I := fun M a => KInv M a ∧ TablesOk M a) (fun M a a' ht hi => touched_kinv hi.1 hi.2 ht)
      (fun M a l n a' hc hi => core_kinv hc (fun t ht hne => .inr (hi.1.found t ht hne)) hi.1.model hi.1.back) h
    have i2 : ∀ a, t.added = some a → KInv t.vocab? a ∧ TablesOk t.vocab? a := constructed_ktok ⟨t0, some g, h0, hf⟩
    have := (i1.2 i2 b hb).1
    rw [hv1] at this
    rw [hM']; exact this
  have hK := hk _ a rfl ha
  refine ab_encode ha e w (ab_same P t1.normalizer (ab_agree (hu a ha) h2 ?_) hw) b
  intro x hx hne i k h3 h4 ⟨y, hy, hyk⟩
  obtain ⟨_, a1, g1, g2⟩ := addTokensCore_ok h2
  have hn' : mapFind a.map x.content = none := by
    have := hn x hx
    unfold recorded at this
    rwa [ha] at this
  have hkn : k ≠ [] := by rintro rfl; rw [hM] at h4; cases h4
  obtain ⟨j, hj⟩ := hK.found y hy (by rw [hyk]; exact hkn)
  rw [hyk] at hj
  have := hK.model _ rfl k j i hj h4
  subst this
  cases hx' : tokenToId m.vocab x.content with
  | some q =>
    have hK' : KInv (some m.vocab) a' := (core_kinv h2 (fun t ht hne => .inr (hK.found t ht hne)) hK.model hK.back).1
    have := hK'.model _ rfl _ _ _ h3 hx'
    subst this
    exact hd _ _ _ h4 hx'
  | none =>
    rw [(refresh_ok g2).1] at h3
    have := ab_assign_new l g1 x hx hne (by rw [(registerSpecials_map l a).1]; exact hn') hx' j k j h3
      (by rw [(registerSpecials_map l a).1]; exact hj)
    omega

/-- **C116** In particular, tokens that are neither in the model's vocabulary nor added before change the encoding of no text at all. -/
theorem C116_unknown (P : Platform) {t0 t t1 t2 : Tokenizer} {m : Model} {g : List AddedToken} {cs : List Call} {l : List AddedToken} {n : Nat}
    (h0 : t0.added = some (AddedVocab.init g)) (hm : t0.model = some m) (hf : t0.finish = .ok t) (h : History P t cs t1)
    (hl : t1.addTokens l = .ok (n, t2)) (hM : tokenToId m.vocab [] = none)
    (hd : ∀ c c' i, tokenToId m.vocab c = some i → tokenToId m.vocab c' = some i → c = c')
    (hn : ∀ x ∈ l, recorded t1 x.content = none ∧ tokenToId m.vocab x.content = none) (w : WStr) (b : Bool) :
    (t2.encode P w b).1 = (t1.encode P w b).1 :=
  C116_fresh P h0 hm hf h hl hM hd (fun x hx => (hn x hx).1) (fun x hx hk => absurd (hn x hx).2 hk) b

/-! ### What it means to be written in a text -/

theorem ab_prefix {w x : WStr} {B : U16} (hw : Scalars w) (hx : Scalars x) (e : utf16 w = utf16 x ++ B) : ∃ q, w = x ++ q := by
  have := congrArg u16Points e
  rw [u16Points_utf16 hw, u16Points_utf16_append hx] at this
  exact ⟨_, this⟩

theorem ab_infix {x : WStr} (hx : Scalars x) : ∀ {w : WStr} {A B : U16}, Scalars w → utf16 w = A ++ utf16 x ++ B → ∃ p q, w = p ++ x ++ q := by
  intro w
  induction w with
  | nil =>
    intro A B hw e
    cases A with
    | nil =>
      rw [List.nil_append] at e
      obtain ⟨q, e⟩ := ab_prefix hw hx e
      exact ⟨[], q, by simpa using e⟩
    | cons => simp [utf16] at e
  | cons c w ih =>
    intro A B hw e
    have hc : Scalar c := scalars_iff.2 hw c (by simp)
    have hw' : Scalars w := scalars_iff.1 fun d hd => scalars_iff.2 hw d (by simp [hd])
    cases A with
    | nil =>
      rw [List.nil_append] at e
      obtain ⟨q, e⟩ := ab_prefix hw hx e
      exact ⟨[], q, by simpa using e⟩
    | cons a A =>
      rw [utf16_cons] at e
      unfold utf16Enc1 at e
      split at e
      · simp only [List.cons_append, List.nil_append, List.cons.injEq] at e
        obtain ⟨p, q, e⟩ := ih hw' e.2
        exact ⟨c :: p, q, by rw [e]; rfl⟩
      · cases A with
        | nil =>
          cases x with
          | nil => exact ⟨[], c :: w, rfl⟩
          | cons d x =>
            have hd : Scalar d := scalars_iff.2 hx d (by simp)
            unfold Scalar at hd
            exfalso
            simp only [List.cons_append, List.nil_append, List.cons.injEq, utf16_cons] at e
            have e := e.2
            unfold utf16Enc1 at e
            split at e
            · simp only [List.cons_append, List.nil_append, List.cons.injEq] at e
              omega
            · simp only [List.cons_append, List.nil_append, List.cons.injEq] at e
              unfold Scalar at hc
              omega
        | cons a' A =>
          simp only [List.cons_append, List.nil_append, List.cons.injEq] at e
          obtain ⟨p, q, e⟩ := ih hw' e.2.2
          exact ⟨c :: p, q, by rw [e]; rfl⟩

theorem ab_read {v : U16} {x : WStr} (h : ReadAs v x) : 0xFFFD ∉ x → Utf16Text x v := by
  induction h with
  | nil => intro _; exact .nil
  | bmp h1 h2 _ ih => intro h; exact .bmp h1 h2 (ih fun g => h (by simp [g]))
  | pair h1 h2 _ ih => intro h; exact .pair h1 h2 (ih fun g => h (by simp [g]))
  | high => intro h; exact absurd (by simp) h
  | low => intro h; exact absurd (by simp) h

/-- **C116** A token (without U+FFFD) is written in a text exactly if its text is a part of the text. -/
theorem C116_written {c : Str} {x w : WStr} (hc : Utf8Text x c) (hx : 0xFFFD ∉ x) (hw : ∀ d ∈ w, Scalar d) :
    WrittenIn c w ↔ ∃ p q, w = p ++ x ++ q := by
  have hxs := (utf8Text_iff.1 hc).1
  constructor
  · rintro ⟨u, a, b, y, h1, h2, h3, h4⟩
    obtain rfl := nt_utf8 hc h4
    obtain ⟨hs, rfl⟩ := utf16Text_iff.1 h1
    have h5 := (utf16Text_iff.1 (ab_read h3 hx)).2
    refine ab_infix hxs (A := (utf16 w).take a) (B := ((utf16 w).drop a).drop (b - a)) hs ?_
    rw [← h5]
    unfold between
    rw [List.append_assoc, List.take_append_drop, List.take_append_drop]
  · rintro ⟨p, q, rfl⟩
    have hs : Scalars (p ++ x ++ q) := scalars_iff.1 hw
    refine ⟨utf16 (p ++ x ++ q), (utf16 p).length, (utf16 p).length + (utf16 x).length, x, utf16Text_iff.2 ⟨hs, rfl⟩, ?_, ?_, hc⟩
    · simp [utf16_append]
    · have e : between (utf16 (p ++ x ++ q)) (utf16 p).length ((utf16 p).length + (utf16 x).length) = utf16 x := by
        unfold between
        rw [utf16_append, utf16_append, List.append_assoc, List.drop_left, Nat.add_sub_cancel_left, List.take_left]
      rw [e]
      obtain ⟨y, hy⟩ := wu_reads _ _ (Nat.le_refl _) (wu_lt hxs)
      have := wu_read hy
      rw [u16Points_utf16 hxs, map_sanitize hxs] at this
      subst this
      exact hy

/-! ### decode -/

theorem ab_token {t1 t2 : Tokenizer} {l : List AddedToken} {n : Nat} (hl : t1.addTokens l = .ok (n, t2)) {i : Int}
    (h : ∀ x ∈ l, x.content ≠ [] → recorded t2 x.content ≠ some i) : t2.idToken i = t1.idToken i := by
  obtain ⟨a, a', ha, h2, e⟩ := addTokens_ok hl
  obtain ⟨_, a1, g1, g2⟩ := addTokensCore_ok h2
  have hr : mapFind a'.mapR i = mapFind a.mapR i := by
    rw [(refresh_ok g2).2.1, ab_assign_flags l g1 i ?_, (registerSpecials_map l a).2.1]
    intro x hx hne hxi
    refine h x hx hne ?_
    rw [e]
    unfold recorded
    simp only [Option.bind_some, (refresh_ok g2).1]
    exact hxi
  subst e
  unfold Tokenizer.idToken AddedVocab.idToToken
  simp only [ha, hr]

/-- **C116** Adding tokens changes nothing about decoding ids that are not theirs (and that are not the ids of a token that is now
given as special, if special tokens are to be skipped). -/
theorem C116_decode {t1 t2 : Tokenizer} {l : List AddedToken} {n : Nat} (hl : t1.addTokens l = .ok (n, t2)) (ids : List Int) (skip : Bool)
    (h : ∀ i ∈ ids, ∀ x ∈ l, x.content ≠ [] → recorded t2 x.content ≠ some i)
    (hs : skip = true → ∀ i ∈ ids, ∀ x ∈ l, x.special = true → t1.idToken i ≠ .ok x.content) :
    t2.decode ids skip = t1.decode ids skip := by
  have hd : t2.decoder = t1.decoder := by
    obtain ⟨a, a', _, _, rfl⟩ := addTokens_ok hl; rfl
  have hi : t2.idTokens skip ids = t1.idTokens skip ids := by
    induction ids with
    | nil => rfl
    | cons i r ih =>
      have ih := ih (fun i hi => h i (by simp [hi])) (fun g i hi => hs g i (by simp [hi]))
      simp only [Tokenizer.idTokens]
      rw [ab_token hl (h i (by simp)), ih]
      cases hk : t1.idToken i with
      | error _ => rfl
      | ok s =>
        simp only [res_ok_bind]
        cases skip with
        | false => rfl
        | true =>
          have : t2.isSpecial s = t1.isSpecial s := by
            rw [Bool.eq_iff_iff, C33_special_iff_partial (.inl hl) s]
            constructor
            · rintro (g | ⟨x, h1, h2, h4, _⟩)
              · exact g
              · exact absurd (by rw [hk, h4]) (hs rfl i (by simp) x h1 h2)
            · exact .inl
          rw [this]
  unfold Tokenizer.decode
  rw [hi, hd]

/-! ### Examples -/

/-- A tokenizer with a vocabulary that has a gap. -/
def absentTk (v : Vocab) : Tokenizer := { model := some (wpOf v), added := some (AddedVocab.init []) }

/-- What `encode` gives after the tokens have been added, call by call. -/
def absentIds (v : Vocab) (ls : List (List AddedToken)) (w : WStr) : Res (List Int) := batchIds (addEach (absentTk v) ls) w

/-- **C116** Without the condition on ids it fails: in a vocabulary with a gap, a token that was given the id of an entry of
the vocabulary changes, when it is added again, how that entry is recognized. -/
theorem C116_violated : ∃ (v : Vocab) (ls : List (List AddedToken)) (x : AddedToken) (w : WStr),
    absentIds v ls w = .ok [2, 0] ∧ absentIds v (ls ++ [[x]]) w = .ok [0, 0] ∧
    tokenToId v x.content = none ∧ x.content = b!"new" ∧ w = w!"A x" := by
  refine ⟨[(b!"[UNK]", 0), (b!"A", 2)], [[{ content := b!"new" }], [{ content := b!"A" }]], { content := b!"new", rstrip := true }, w!"A x", ?_, ?_, rfl, rfl, rfl⟩ <;>
    decide +kernel

/-- The hypotheses of `C116_fresh` are met: `play` does not occur in `A x`; in `play A` it does, and matters. -/
example : ∃ t2, (absentTk [(b!"[UNK]", 0), (b!"A", 1), (b!"play", 2)]).addTokens [{ content := b!"play", rstrip := true }, { content := b!"A b" }] = .ok (2, t2) ∧
    (t2.encode ascii w!"A x" false).1 = ((absentTk [(b!"[UNK]", 0), (b!"A", 1), (b!"play", 2)]).encode ascii w!"A x" false).1 := by
  have e : ∃ t2, (absentTk [(b!"[UNK]", 0), (b!"A", 1), (b!"play", 2)]).addTokens [{ content := b!"play", rstrip := true }, { content := b!"A b" }] = .ok (2, t2) :=
    ⟨_, rfl⟩
  obtain ⟨t2, h⟩ := e
  refine ⟨t2, h, ?_⟩
  refine C116_fresh ascii (t0 := absentTk [(b!"[UNK]", 0), (b!"A", 1), (b!"play", 2)]) (g := []) rfl rfl rfl (.nil _) h rfl ?_ ?_ ?_ false
  · intro c c' i h1 h2
    exact denseVocab_inj (v := [(b!"[UNK]", 0), (b!"A", 1), (b!"play", 2)]) ⟨by decide, by decide, by decide⟩ h1 h2
  · intro x hx
    simp only [List.mem_cons, List.not_mem_nil, or_false] at hx
    rcases hx with rfl | rfl <;> rfl
  · intro x hx hk
    simp only [List.mem_cons, List.not_mem_nil, or_false] at hx
    rcases hx with rfl | rfl
    · have hp : Utf8Text w!"play" b!"play" := utf8Text_iff.2 ⟨by unfold Scalars isScalar; decide, by decide⟩
      have no : ¬ WrittenIn b!"play" w!"A x" := by
        rw [C116_written hp (by decide) (by unfold Scalar; decide)]
        rintro ⟨p, q, e⟩
        have := congrArg List.length e
        simp at this
        omega
      refine ⟨no, ?_⟩
      intro p y q n e hn
      obtain rfl : n = y := hn
      have hy : ∀ d ∈ n, Scalar d := by
        intro d hd
        have : ∀ d ∈ w!"A x", Scalar d := by unfold Scalar; decide
        exact this d (by rw [e]; simp [hd])
      rw [C116_written hp (by decide) hy]
      rintro ⟨p', q', rfl⟩
      have := congrArg List.length e
      simp at this
      omega
    · exact absurd rfl hk

example : absentIds [(b!"[UNK]", 0), (b!"A", 1), (b!"play", 2)] [] w!"play A" = .ok [0] ∧
    absentIds [(b!"[UNK]", 0), (b!"A", 1), (b!"play", 2)] [[{ content := b!"play" }]] w!"play A" = .ok [2, 0] := by
  refine ⟨?_, ?_⟩ <;> decide +kernel

end Tok
