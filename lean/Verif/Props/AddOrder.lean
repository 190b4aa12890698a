import Verif.Spec.AddOrder
import Verif.Props.Absent
import Verif.Props.Order
import Verif.Props.Batches

set_option autoImplicit false

/-!
C143: the order in which tokens are added.
-/

namespace Tok
open Spec

/-! ### Added vocabularies that answer alike -/

/-- The two added vocabularies know the same tokens under the same ids, perhaps listed in another order. -/
structure TwinCore (a a' : AddedVocab) : Prop where
  map : ∀ k, mapFind a.map k = mapFind a'.map k
  max : maxId a.map = maxId a'.map
  mapR : ∀ i, mapFind a.mapR i = mapFind a'.mapR i
  special : ∀ s, a.isSpecial s = a'.isSpecial s
  listed : ∀ t, (t ∈ a.specialTokens ∨ t ∈ a.addedTokens) ↔ (t ∈ a'.specialTokens ∨ t ∈ a'.addedTokens)

/-- The lookup tables agree as well. -/
structure Twin (a a' : AddedVocab) : Prop extends TwinCore a a' where
  norm : ∀ k, mapFind (wordIds a.normTrie) k = mapFind (wordIds a'.normTrie) k
  non : ∀ k, mapFind (wordIds a.nonNormTrie) k = mapFind (wordIds a'.nonNormTrie) k

theorem Twin.agree {a a' : AddedVocab} (h : Twin a a') : AgreeBut (fun _ => False) a a' :=
  ⟨fun k _ => h.norm k, fun k _ => h.non k, fun _ i _ _ => by rw [h.mapR]⟩

theorem ao_avoids (s : Str) : Avoids (fun _ => False) s := fun _ _ h => h

theorem ao_insert {m m' : List (Int × AddedToken)} (h : ∀ i, mapFind m i = mapFind m' i) (k : Int) (x : AddedToken) :
    ∀ i, mapFind (mapInsert m k x) i = mapFind (mapInsert m' k x) i := by
  intro i
  unfold mapInsert
  rw [← h k]
  cases mapFind m k with
  | some _ => exact h i
  | none =>
    simp only
    rw [mapFind_append, mapFind_append, h i]

theorem ao_touch : ∀ (ms : List (Nat × Nat × Int)) {m m' : List (Int × AddedToken)}, (∀ i, mapFind m i = mapFind m' i) →
    ∀ i, mapFind (touchIds ms m) i = mapFind (touchIds ms m') i
  | [], _, _, h => h
  | (_, _, _) :: r, _, _, h => ao_touch r (ao_insert h _ _)

theorem Twin.mapR_only {a a' : AddedVocab} (h : Twin a a') {m m' : List (Int × AddedToken)} (hm : ∀ i, mapFind m i = mapFind m' i) :
    Twin { a with mapR := m } { a' with mapR := m' } :=
  ⟨⟨h.map, h.max, hm, h.special, h.listed⟩, h.norm, h.non⟩

theorem ao_find {a a' : AddedVocab} (h : Twin a a') (s : Str) {T T' : List (Str × Int)} (hT : ∀ k, mapFind (wordIds T) k = mapFind (wordIds T') k) :
    Twin (a.findMatches s T).2 (a'.findMatches s T').2 := by
  unfold AddedVocab.findMatches
  simp only
  rw [ab_scan (C := fun _ => False) (fun _ _ h => h) fun k _ => hT k]
  exact h.mapR_only (ao_touch _ h.mapR)

theorem ao_first {a a' : AddedVocab} (h : Twin a a') (w : WStr) : (a.firstSplits w).1 = (a'.firstSplits w).1 ∧ Twin (a.firstSplits w).2 (a'.firstSplits w).2 := by
  refine ⟨ab_first h.agree fun s _ => ao_avoids s, ?_⟩
  unfold AddedVocab.firstSplits
  split
  · exact h
  · split
    · exact h
    · exact ao_find h _ h.non

theorem ao_split (P : Platform) (norm : Option Normalizer) {a a' : AddedVocab} (h : Twin a a') (ns : NS) (e : Nat) (s : Split) :
    (normalizeSplit P norm a ns e s).1 = (normalizeSplit P norm a' ns e s).1 ∧
      Twin (normalizeSplit P norm a ns e s).2 (normalizeSplit P norm a' ns e s).2 := by
  unfold normalizeSplit
  simp only
  split
  · exact ⟨rfl, h⟩
  · refine ⟨?_, ao_find h _ h.norm⟩
    simp only
    rw [ab_norm h.agree (ao_avoids _)]

theorem ao_loop (P : Platform) (norm : Option Normalizer) : ∀ (l : List Split) {a a' : AddedVocab} (_ : Twin a a') (ns : NS) (e : Nat),
    (normalizeLoop P norm a ns e l).1 = (normalizeLoop P norm a' ns e l).1 ∧ Twin (normalizeLoop P norm a ns e l).2 (normalizeLoop P norm a' ns e l).2 := by
  intro l
  induction l with
  | nil => intro a a' h ns e; exact ⟨rfl, h⟩
  | cons s r ih =>
    intro a a' h ns e
    simp only [normalizeLoop]
    split
    · obtain ⟨h1, h2⟩ := ih h ns (e + s.normalized.length)
      generalize normalizeLoop P norm a ns (e + s.normalized.length) r = R at h1 h2
      generalize normalizeLoop P norm a' ns (e + s.normalized.length) r = R' at h1 h2
      obtain ⟨x, _⟩ := R
      obtain ⟨x', _⟩ := R'
      simp only at h1 h2; subst h1
      cases x <;> exact ⟨rfl, h2⟩
    · obtain ⟨h1, t1⟩ := ao_split P norm h ns e s
      generalize normalizeSplit P norm a ns e s = R at h1 t1
      generalize normalizeSplit P norm a' ns e s = R' at h1 t1
      obtain ⟨x, b⟩ := R
      obtain ⟨x', b'⟩ := R'
      simp only at h1 t1; subst h1
      cases x with
      | error => exact ⟨rfl, t1⟩
      | ok q =>
        obtain ⟨ns', here, n⟩ := q
        simp only
        obtain ⟨h1, h2⟩ := ih t1 ns' (e + n)
        generalize normalizeLoop P norm b ns' (e + n) r = R at h1 h2
        generalize normalizeLoop P norm b' ns' (e + n) r = R' at h1 h2
        obtain ⟨x, _⟩ := R
        obtain ⟨x', _⟩ := R'
        simp only at h1 h2; subst h1
        cases x <;> exact ⟨rfl, h2⟩

theorem ao_extract (P : Platform) (norm : Option Normalizer) {a a' : AddedVocab} (h : Twin a a') (w : WStr) :
    (a.extract P norm w).1 = (a'.extract P norm w).1 ∧ Twin (a.extract P norm w).2 (a'.extract P norm w).2 := by
  unfold AddedVocab.extract
  obtain ⟨h1, t1⟩ := ao_first h w
  generalize a.firstSplits w = R at h1 t1
  generalize a'.firstSplits w = R' at h1 t1
  obtain ⟨x, b⟩ := R
  obtain ⟨x', b'⟩ := R'
  simp only at h1 t1; subst h1
  cases x with
  | error => exact ⟨rfl, t1⟩
  | ok p =>
    simp only
    obtain ⟨h1, h2⟩ := ao_loop P norm p.splits t1 p.normalized 0
    generalize normalizeLoop P norm b p.normalized 0 p.splits = R at h1 h2
    generalize normalizeLoop P norm b' p.normalized 0 p.splits = R' at h1 h2
    obtain ⟨x, _⟩ := R
    obtain ⟨x', _⟩ := R'
    simp only at h1 h2; subst h1
    cases x <;> exact ⟨rfl, h2⟩

/-! ### Adding tokens to both -/

theorem ao_register : ∀ (l : List AddedToken) {a a' : AddedVocab}, TwinCore a a' → TwinCore (registerSpecials l a) (registerSpecials l a')
  | [], _, _, h => h
  | t :: r, a, a', h => by
    simp only [registerSpecials, ← h.special]
    split
    · refine ao_register r ⟨h.map, h.max, h.mapR, fun s => ?_, fun x => ?_⟩
      · have := h.special s
        unfold AddedVocab.isSpecial at this ⊢
        simp only [List.contains_eq_mem, List.mem_append, decide_eq_decide] at this ⊢
        rw [this]
      · have := h.listed x
        simp only [List.mem_append] at this ⊢
        rw [or_right_comm, this, or_right_comm]
    · exact ao_register r h

theorem ao_set_same : ∀ (m : List (Str × Int)) {k : Str} {i : Int}, mapFind m k = some i → mapSet m k i = m
  | [], _, _, h => by cases h
  | (k', i') :: r, k, i, h => by
    unfold mapSet
    by_cases hk : k' = k
    · subst hk
      rw [if_pos rfl]
      simp only [mapFind, if_true, Option.some.injEq] at h
      rw [h]
    · rw [if_neg hk]
      simp only [mapFind, if_neg hk] at h
      rw [ao_set_same r h]

theorem ao_set_new : ∀ (m : List (Str × Int)) {k : Str} {i : Int}, mapFind m k = none → mapSet m k i = m ++ [(k, i)]
  | [], _, _, _ => rfl
  | (k', i') :: r, k, i, h => by
    unfold mapSet
    by_cases hk : k' = k
    · subst hk
      simp only [mapFind, if_true] at h
      cases h
    · rw [if_neg hk]
      simp only [mapFind, if_neg hk] at h
      rw [ao_set_new r h]
      rfl

theorem ao_max_append : ∀ (m : List (Str × Int)) (k : Str) (i : Int), maxId (m ++ [(k, i)]) = some (match maxId m with | none => i | some w => if w < i then i else w)
  | [], _, _ => rfl
  | (k', i') :: r, k, i => by
    simp only [List.cons_append, maxId]
    rw [ao_max_append r k i]
    simp only
    cases maxId r with
    | none =>
      simp only
    | some w =>
      simp only
      congr 1
      repeat' split
      all_goals omega

theorem ao_newId {a a' : AddedVocab} (h : TwinCore a a') (M : Option Vocab) (c : Str) : newId a M c = newId a' M c := by
  unfold newId
  rw [h.map, h.max]

theorem ao_newId_same {a : AddedVocab} {M : Option Vocab} {c : Str} {i j : Int} (h : newId a M c = .ok i) (hj : mapFind a.map c = some j) : i = j := by
  unfold newId at h
  rw [hj] at h
  cases h; rfl

theorem ao_assign (M : Option Vocab) : ∀ (l : List AddedToken) {a a' : AddedVocab}, TwinCore a a' →
    (∃ e, assignIds M false l a = .error e ∧ assignIds M false l a' = .error e) ∨
    ∃ b b', assignIds M false l a = .ok b ∧ assignIds M false l a' = .ok b' ∧ TwinCore b b'
  | [], a, a', h => .inr ⟨a, a', rfl, rfl, h⟩
  | t :: r, a, a', h => by
    simp only [assignIds]
    by_cases hc : t.content = []
    · rw [if_pos hc, if_pos hc]
      exact ao_assign M r h
    · rw [if_neg hc, if_neg hc, ← ao_newId h M t.content]
      cases hi : newId a M t.content with
      | error e => exact .inl ⟨e, rfl, rfl⟩
      | ok i =>
        simp only [res_ok_bind]
        have hs : ∀ (s : Str), AddedVocab.isSpecial { a with map := mapSet a.map t.content i, mapR := mapSet a.mapR i t } s =
            AddedVocab.isSpecial { a' with map := mapSet a'.map t.content i, mapR := mapSet a'.mapR i t } s := h.special
        have hm : ∀ k, mapFind (mapSet a.map t.content i) k = mapFind (mapSet a'.map t.content i) k := by
          intro k; rw [mapFind_set, mapFind_set, h.map]
        have hr : ∀ k, mapFind (mapSet a.mapR i t) k = mapFind (mapSet a'.mapR i t) k := by
          intro k; rw [mapFind_set, mapFind_set, h.mapR]
        have hx : maxId (mapSet a.map t.content i) = maxId (mapSet a'.map t.content i) := by
          cases hf : mapFind a.map t.content with
          | some j =>
            have := ao_newId_same hi hf
            subst this
            rw [ao_set_same _ hf, ao_set_same _ ((h.map _).symm.trans hf), h.max]
          | none =>
            rw [ao_set_new _ hf, ao_set_new _ ((h.map _).symm.trans hf), ao_max_append, ao_max_append, h.max]
        rw [← hs]
        split
        · exact ao_assign M r ⟨hm, hx, hr, hs, h.listed⟩
        · exact ao_assign M r ⟨hm, hx, hr, hs, fun x => by
            have := h.listed x
            simp only [List.mem_append] at this ⊢
            rw [← or_assoc, this, or_assoc]⟩

theorem ao_tables {v : Vocab} {nb : Bool} {s s' o o' : List AddedToken} (h : ∀ t, (t ∈ s ∨ t ∈ o) ↔ (t ∈ s' ∨ t ∈ o')) (k : Str) :
    mapFind (wordIds (trieOf v nb s ++ trieOf v nb o)) k = mapFind (wordIds (trieOf v nb s' ++ trieOf v nb o')) k := by
  have e : ∀ (s o : List AddedToken) i, (k, i) ∈ trieOf v nb s ++ trieOf v nb o ↔
      tokenToId v k = some i ∧ ∃ x, (x ∈ s ∨ x ∈ o) ∧ x.content = k ∧ x.normalized = nb := by
    intro s o i
    simp only [List.mem_append, ab_trie]
    constructor
    · rintro (⟨h1, x, h2, h3⟩ | ⟨h1, x, h2, h3⟩)
      · exact ⟨h1, x, .inl h2, h3⟩
      · exact ⟨h1, x, .inr h2, h3⟩
    · rintro ⟨h1, x, h2 | h2, h3⟩
      · exact .inl ⟨h1, x, h2, h3⟩
      · exact .inr ⟨h1, x, h2, h3⟩
  refine ab_table (fun i => ?_) (fun i j g g' => ?_)
  · rw [e, e]; simp only [h]
  · rw [e] at g g'
    exact Option.some.inj (g.1.symm.trans g'.1)

theorem ao_nil {α : Type} {l l' o o' : List α} (h : ∀ t, (t ∈ l ∨ t ∈ o) ↔ (t ∈ l' ∨ t ∈ o')) : (l = [] ∧ o = []) ↔ (l' = [] ∧ o' = []) := by
  have e : ∀ l o : List α, (l = [] ∧ o = []) ↔ ∀ t, ¬ (t ∈ l ∨ t ∈ o) := by
    intro l o
    simp only [List.eq_nil_iff_forall_not_mem, not_or, forall_and]
  rw [e, e]; simp only [h]

theorem ao_refresh (M : Option Vocab) {a a' : AddedVocab} (h : TwinCore a a') :
    (∃ e, a.refresh M = .error e ∧ a'.refresh M = .error e) ∨ ∃ b b', a.refresh M = .ok b ∧ a'.refresh M = .ok b' ∧ Twin b b' := by
  unfold AddedVocab.refresh
  cases M with
  | none =>
    simp only [ao_nil h.listed]
    split
    · exact .inr ⟨_, _, rfl, rfl, ⟨h.map, h.max, h.mapR, h.special, h.listed⟩, fun _ => rfl, fun _ => rfl⟩
    · exact .inl ⟨_, rfl, rfl⟩
  | some v =>
    exact .inr ⟨_, _, rfl, rfl, ⟨h.map, h.max, h.mapR, h.special, h.listed⟩,
      fun k => ao_tables h.listed k, fun k => ao_tables h.listed k⟩

theorem ao_add (M : Option Vocab) {a a' : AddedVocab} (h : TwinCore a a') (l : List AddedToken) :
    (∃ e, a.addTokens M l = .error e ∧ a'.addTokens M l = .error e) ∨
    ∃ n b b', a.addTokens M l = .ok (n, b) ∧ a'.addTokens M l = .ok (n, b') ∧ Twin b b' := by
  unfold AddedVocab.addTokens AddedVocab.addTokensCore
  rcases ao_assign M l (ao_register l h) with ⟨e, h1, h2⟩ | ⟨b, b', h1, h2, h3⟩
  · rw [h1, h2]; exact .inl ⟨e, rfl, rfl⟩
  · rw [h1, h2]
    simp only [res_ok_bind]
    rcases ao_refresh M h3 with ⟨e, h1, h2⟩ | ⟨c, c', h1, h2, h3⟩
    · rw [h1, h2]; exact .inl ⟨e, rfl, rfl⟩
    · rw [h1, h2]; exact .inr ⟨_, c, c', rfl, rfl, h3⟩

/-! ### Tokenizers that answer alike -/

/-- Two tokenizers that differ in the added vocabularies only, and these answer alike. -/
def TwinT (t t' : Tokenizer) : Prop := ∃ a a', t.added = some a ∧ t' = { t with added := some a' } ∧ Twin a a'

theorem ao_pre (P : Platform) {t t' : Tokenizer} (h : TwinT t t') (w : WStr) :
    (t.preTokenized P w).1 = (t'.preTokenized P w).1 ∧ TwinT (t.preTokenized P w).2 (t'.preTokenized P w).2 := by
  obtain ⟨a, a', ha, rfl, hT⟩ := h
  unfold Tokenizer.preTokenized
  simp only [ha]
  cases PTS.ofNS (NS.ofText w) with
  | error e => exact ⟨rfl, a, a', ha, rfl, hT⟩
  | ok p =>
    simp only
    obtain ⟨h1, h2⟩ := ao_extract P t.normalizer hT w
    rw [h1]
    exact ⟨rfl, _, _, rfl, rfl, h2⟩

theorem ao_encode (P : Platform) {t t' : Tokenizer} (h : TwinT t t') (w : WStr) (b : Bool) :
    (t.encode P w b).1 = (t'.encode P w b).1 ∧ TwinT (t.encode P w b).2 (t'.encode P w b).2 := by
  unfold Tokenizer.encode
  obtain ⟨h1, h2⟩ := ao_pre P h w
  generalize t.preTokenized P w = R at h1 h2
  generalize t'.preTokenized P w = R' at h1 h2
  obtain ⟨x, u⟩ := R
  obtain ⟨x', u'⟩ := R'
  simp only at h1 h2; subst h1
  cases x with
  | error e => exact ⟨rfl, h2⟩
  | ok p =>
    simp only
    obtain ⟨a, a', ha, rfl, hT⟩ := h2
    have key : (u.doTokenize P p).1 = (({ u with added := some a' } : Tokenizer).doTokenize P p).1 ∧
        (({ u with added := some a' } : Tokenizer).doTokenize P p).2 = { (u.doTokenize P p).2 with added := some a' } ∧
        (u.doTokenize P p).2.added = some a := by
      obtain ⟨tr, pa, ad, no, pt, mo, de, pp⟩ := u
      cases mo <;> exact ⟨rfl, rfl, ha⟩
    obtain ⟨k1, k2, k3⟩ := key
    generalize u.doTokenize P p = R at k1 k2 k3
    generalize ({ u with added := some a' } : Tokenizer).doTokenize P p = R' at k1 k2
    obtain ⟨x, y⟩ := R
    obtain ⟨x', y'⟩ := R'
    simp only at k1 k2 k3; subst k1 k2
    cases x with
    | error e => exact ⟨rfl, a, a', k3, rfl, hT⟩
    | ok e => exact ⟨rfl, a, a', k3, rfl, hT⟩

theorem ao_adding {t t' : Tokenizer} (h : TwinT t t') (l : List AddedToken) :
    (∃ e, t.addTokens l = .error e ∧ t'.addTokens l = .error e) ∨ ∃ n u u', t.addTokens l = .ok (n, u) ∧ t'.addTokens l = .ok (n, u') ∧ TwinT u u' := by
  obtain ⟨a, a', ha, rfl, hT⟩ := h
  unfold Tokenizer.addTokens
  simp only [ha]
  rcases ao_add (t.model.map Model.vocab) hT.toTwinCore l with ⟨e, h1, h2⟩ | ⟨n, b, b', h1, h2, h3⟩
  · rw [h1, h2]; exact .inl ⟨e, rfl, rfl⟩
  · rw [h1, h2]; exact .inr ⟨n, _, _, rfl, rfl, b, b', rfl, rfl, h3⟩

theorem ao_idToken {t t' : Tokenizer} (h : TwinT t t') (i : Int) : t.idToken i = t'.idToken i := by
  obtain ⟨a, a', ha, rfl, hT⟩ := h
  unfold Tokenizer.idToken AddedVocab.idToToken
  simp only [ha, hT.mapR]

theorem ao_isSpecial {t t' : Tokenizer} (h : TwinT t t') (s : Str) : t.isSpecial s = t'.isSpecial s := by
  obtain ⟨a, a', ha, rfl, hT⟩ := h
  unfold Tokenizer.isSpecial
  simp only [ha, hT.special]

theorem ao_decode {t t' : Tokenizer} (h : TwinT t t') (ids : List Int) (b : Bool) : t.decode ids b = t'.decode ids b := by
  have : ∀ ids, t.idTokens b ids = t'.idTokens b ids := by
    intro ids
    induction ids with
    | nil => rfl
    | cons i r ih => simp only [Tokenizer.idTokens, ao_idToken h, ih, ao_isSpecial h]
  unfold Tokenizer.decode
  rw [this]
  obtain ⟨a, a', ha, rfl, hT⟩ := h
  rfl

theorem ao_answers (P : Platform) {t t' : Tokenizer} (h : TwinT t t') : SameAnswers P t t' where
  encode w b := (ao_encode P h w b).1
  decode l b := ao_decode h l b
  addTokens l := by
    rcases ao_adding h l with ⟨e, h1, h2⟩ | ⟨n, u, u', h1, h2, _⟩ <;> rw [h1, h2] <;> rfl
  addSpecialTokens l := by
    show (t.addTokens l).map _ = (t'.addTokens l).map _
    rcases ao_adding h l with ⟨e, h1, h2⟩ | ⟨n, u, u', h1, h2, _⟩ <;> rw [h1, h2] <;> rfl
  tokenToId s := by obtain ⟨a, a', ha, rfl, hT⟩ := h; rfl
  idToToken i := by obtain ⟨a, a', ha, rfl, hT⟩ := h; rfl
  isSpecial s := ao_isSpecial h s

theorem ao_always (P : Platform) {t t' : Tokenizer} (h : TwinT t t') : AlwaysSame P t t' := by
  intro cs t1 hh
  have gen : ∀ {t : Tokenizer} {cs : List Call} {t1 : Tokenizer}, History P t cs t1 → ∀ {t'}, TwinT t t' → ∃ t1', History P t' cs t1' ∧ TwinT t1 t1' := by
    intro t cs t1 hh
    induction hh with
    | nil => intro t' h; exact ⟨_, .nil _, h⟩
    | cons h1 _ ih =>
      intro t' h
      rename_i tA tB tC cA csA hA
      have : ∃ u', After P t' cA u' ∧ TwinT tB u' := by
        cases h1 with
        | encode w b => exact ⟨_, .encode _ w b, (ao_encode P h w b).2⟩
        | decode ids b => exact ⟨_, .decode _ ids b, h⟩
        | addTokens k =>
          rename_i l n
          rcases ao_adding h l with ⟨e, h1, h2⟩ | ⟨n, u, u', h1, h2, h3⟩
          · rw [k] at h1; cases h1
          · rw [k] at h1; cases h1; exact ⟨u', .addTokens h2, h3⟩
        | addSpecialTokens k =>
          rename_i l n
          rcases ao_adding h l with ⟨e, h1, h2⟩ | ⟨n, u, u', h1, h2, h3⟩
          · have h1 := k.symm.trans h1; cases h1
          · have h1 := k.symm.trans h1; cases h1; exact ⟨u', .addSpecialTokens h2, h3⟩
      obtain ⟨u', g1, g2⟩ := this
      obtain ⟨v', g3, g4⟩ := ih g2
      exact ⟨v', .cons g1 g3, g4⟩
  obtain ⟨t1', h1, h2⟩ := gen hh h
  exact ⟨t1', h1, ao_answers P h2⟩

/-! ### What a list of settled tokens leaves behind -/

/-- The id of a content: the recorded one, or else the model's. -/
def aoId (v : Vocab) (a : AddedVocab) (c : Str) : Option Int := (mapFind a.map c).or (tokenToId v c)

theorem ao_known {v : Vocab} {a : AddedVocab} {c : Str} {i : Int} (h : aoId v a c = some i) : newId a (some v) c = .ok i := by
  unfold aoId at h
  unfold newId
  cases hm : mapFind a.map c with
  | some j => rw [hm] at h; simp only [Option.some_or, Option.some.injEq] at h; rw [h]
  | none =>
    rw [hm] at h; simp only [Option.none_or] at h
    simp only [h]

theorem ao_set_mem {m : List (Str × Int)} {k : Str} {i : Int} (h : ∀ j, mapFind m k = some j → j = i) (p : Str × Int) :
    p ∈ mapSet m k i ↔ p ∈ m ∨ p = (k, i) := by
  cases hf : mapFind m k with
  | some j =>
    have := h j hf; subst this
    rw [ao_set_same _ hf]
    constructor
    · exact .inl
    · rintro (h1 | rfl)
      · exact h1
      · exact mapFind_mem hf
  | none => rw [ao_set_new _ hf]; simp

/-- What adding the tokens `l`, all with ids, makes of `a`. -/
structure Assigned (v : Vocab) (l : List AddedToken) (a b : AddedVocab) : Prop where
  mem : ∀ p, p ∈ b.map ↔ p ∈ a.map ∨ ∃ x ∈ l, x.content ≠ [] ∧ x.content = p.1 ∧ aoId v a p.1 = some p.2
  new : ∀ x ∈ l, x.content ≠ [] → mapFind b.map x.content = aoId v a x.content
  old : ∀ c, (∀ x ∈ l, x.content ≠ [] → x.content ≠ c) → mapFind b.map c = mapFind a.map c
  newR : ∀ x ∈ l, x.content ≠ [] → ∀ i, aoId v a x.content = some i → mapFind b.mapR i = some x
  oldR : ∀ i, (∀ x ∈ l, x.content ≠ [] → aoId v a x.content ≠ some i) → mapFind b.mapR i = mapFind a.mapR i
  set : b.specialSet = a.specialSet
  specials : b.specialTokens = a.specialTokens
  others : ∀ t, t ∈ b.addedTokens ↔ t ∈ a.addedTokens ∨ (t ∈ l ∧ t.content ≠ [] ∧ a.isSpecial t.content = false)

theorem ao_id_after {v : Vocab} {a b : AddedVocab} {c : Str} {i : Int} (hi : aoId v a c = some i) (hb : b.map = mapSet a.map c i) (k : Str) :
    aoId v b k = aoId v a k := by
  unfold aoId
  rw [hb, mapFind_set]
  split
  · rename_i h; subst h; unfold aoId at hi; rw [hi]; rfl
  · rfl

theorem ao_assigned {v : Vocab} : ∀ (l : List AddedToken) {a : AddedVocab}, (∀ x ∈ l, x.content ≠ [] → aoId v a x.content ≠ none) →
    (∀ x ∈ l, ∀ y ∈ l, x.content ≠ [] → y.content ≠ [] → aoId v a x.content = aoId v a y.content → x = y) →
    ∃ b, assignIds (some v) false l a = .ok b ∧ Assigned v l a b
  | [], a, _, _ => ⟨a, rfl, ⟨by simp, by simp, fun _ _ => rfl, by simp, fun _ _ => rfl, rfl, rfl, by simp⟩⟩
  | t :: r, a, hk, hd => by
    by_cases hc : t.content = []
    · obtain ⟨b, h1, h2⟩ := ao_assigned r (a := a) (fun x hx => hk x (List.mem_cons_of_mem _ hx))
        fun x hx y hy => hd x (List.mem_cons_of_mem _ hx) y (List.mem_cons_of_mem _ hy)
      refine ⟨b, by simp only [assignIds, if_pos hc]; exact h1, ?_⟩
      refine ⟨fun p => ?_, fun x hx hn => ?_, fun c h => ?_, fun x hx hn => ?_, fun i h => ?_, h2.set, h2.specials, fun x => ?_⟩
      · rw [h2.mem]; simp [hc]
      · rcases List.mem_cons.1 hx with rfl | hx
        · exact absurd hc hn
        · exact h2.new x hx hn
      · exact h2.old c fun x hx => h x (List.mem_cons_of_mem _ hx)
      · rcases List.mem_cons.1 hx with rfl | hx
        · exact absurd hc hn
        · exact h2.newR x hx hn
      · exact h2.oldR i fun x hx => h x (List.mem_cons_of_mem _ hx)
      · rw [h2.others]
        constructor
        · rintro (h | ⟨h, h'⟩)
          · exact .inl h
          · exact .inr ⟨List.mem_cons_of_mem _ h, h'⟩
        · rintro (h | ⟨h, h', h''⟩)
          · exact .inl h
          · rcases List.mem_cons.1 h with rfl | h
            · exact absurd hc h'
            · exact .inr ⟨h, h', h''⟩
    · cases hi : aoId v a t.content with
      | none => exact absurd hi (hk t (by simp) hc)
      | some i =>
        have hn := ao_known hi
        obtain ⟨a1, e1, e2, e3, e4, e5, e6⟩ : ∃ a1 : AddedVocab, assignIds (some v) false (t :: r) a = assignIds (some v) false r a1 ∧
            a1.map = mapSet a.map t.content i ∧ a1.mapR = mapSet a.mapR i t ∧ a1.specialTokens = a.specialTokens ∧
            a1.specialSet = a.specialSet ∧ a1.addedTokens = a.addedTokens ++ (if a.isSpecial t.content then [] else [t]) := by
          simp only [assignIds, if_neg hc, hn, res_ok_bind]
          cases hs : a.isSpecial t.content with
          | true =>
            refine ⟨{ a with map := mapSet a.map t.content i, mapR := mapSet a.mapR i t }, if_pos hs, rfl, rfl, rfl, rfl, by simp⟩
          | false =>
            refine ⟨{ a with map := mapSet a.map t.content i, mapR := mapSet a.mapR i t, addedTokens := a.addedTokens ++ [t] }, ?_, rfl, rfl, rfl, rfl, by simp⟩
            exact if_neg fun hh => by
              have hh : a.isSpecial t.content = true := hh
              rw [hs] at hh; cases hh
        have hf := ao_id_after hi e2
        obtain ⟨b, h1, h2⟩ := ao_assigned r (a := a1) (fun x hx => by rw [hf]; exact hk x (List.mem_cons_of_mem _ hx))
          fun x hx y hy => by rw [hf, hf]; exact hd x (List.mem_cons_of_mem _ hx) y (List.mem_cons_of_mem _ hy)
        have hset : ∀ j, mapFind a.map t.content = some j → j = i := by
          intro j hj; unfold aoId at hi; rw [hj] at hi; cases hi; rfl
        have hsp : ∀ s, a1.isSpecial s = a.isSpecial s := by intro s; unfold AddedVocab.isSpecial; rw [e5]
        refine ⟨b, e1.trans h1, ?_⟩
        refine ⟨fun p => ?_, fun x hx hn => ?_, fun c h => ?_, fun x hx hn j hj => ?_, fun j h => ?_, h2.set.trans e5, h2.specials.trans e4, fun x => ?_⟩
        · rw [h2.mem, e2, ao_set_mem hset]
          simp only [hf, List.mem_cons, exists_eq_or_imp]
          constructor
          · rintro ((h | rfl) | h)
            · exact .inl h
            · exact .inr (.inl ⟨hc, rfl, hi⟩)
            · exact .inr (.inr h)
          · rintro (h | ⟨_, h, h'⟩ | h)
            · exact .inl (.inl h)
            · obtain ⟨p1, p2⟩ := p
              simp only at h h'
              subst h
              rw [hi] at h'; cases h'
              exact .inl (.inr rfl)
            · exact .inr h
        · by_cases hin : ∃ y ∈ r, y.content ≠ [] ∧ y.content = x.content
          · obtain ⟨y, hy, hyn, hyx⟩ := hin
            rw [← hyx, h2.new y hy hyn, hf]
          · have : x = t := by
              rcases List.mem_cons.1 hx with h | h
              · exact h
              · exact absurd ⟨x, h, hn, rfl⟩ hin
            subst this
            rw [h2.old _ (fun y hy hyn he => hin ⟨y, hy, hyn, he⟩), e2, mapFind_set, if_pos rfl, hi]
        · rw [h2.old c fun x hx => h x (List.mem_cons_of_mem _ hx), e2, mapFind_set, if_neg]
          exact fun he => h t (by simp) hc he
        · by_cases hin : ∃ y ∈ r, y.content ≠ [] ∧ aoId v a y.content = some j
          · obtain ⟨y, hy, hyn, hyj⟩ := hin
            have : x = y := hd x hx y (List.mem_cons_of_mem _ hy) hn hyn (hj.trans hyj.symm)
            subst this
            exact h2.newR x hy hn j (by rw [hf]; exact hj)
          · have : x = t := by
              rcases List.mem_cons.1 hx with h | h
              · exact h
              · exact absurd ⟨x, h, hn, hj⟩ hin
            subst this
            rw [h2.oldR j (fun y hy hyn he => hin ⟨y, hy, hyn, by rw [← hf]; exact he⟩), e3, mapFind_set]
            rw [hi] at hj; cases hj
            rw [if_pos rfl]
        · rw [h2.oldR j fun x hx hn => by rw [hf]; exact h x (List.mem_cons_of_mem _ hx) hn, e3, mapFind_set, if_neg]
          intro he; subst he
          exact h t (by simp) hc hi
        · rw [h2.others, e6, hsp]
          simp only [List.mem_append, List.mem_cons]
          constructor
          · rintro ((h | h) | ⟨h, h'⟩)
            · exact .inl h
            · split at h
              · simp at h
              · rename_i hs
                simp only [List.mem_cons, List.not_mem_nil, or_false] at h
                subst h
                exact .inr ⟨.inl rfl, hc, by simpa using hs⟩
            · exact .inr ⟨.inr h, h'⟩
          · rintro (h | ⟨h | h, h'⟩)
            · exact .inl (.inl h)
            · subst h
              rw [h'.2]; exact .inl (.inr (by simp))
            · exact .inr ⟨h, h'⟩

theorem ao_special : ∀ (l : List AddedToken) {a : AddedVocab}, (∀ x ∈ l, ∀ y ∈ l, x.content ≠ [] → y.content ≠ [] → x.content = y.content → x = y) →
    ∀ t, t ∈ (registerSpecials l a).specialTokens ↔ t ∈ a.specialTokens ∨ (t ∈ l ∧ t.special = true ∧ t.content ≠ [] ∧ a.isSpecial t.content = false)
  | [], _, _, t => by simp [registerSpecials]
  | x :: r, a, hd, t => by
    have hr : ∀ x ∈ r, ∀ y ∈ r, x.content ≠ [] → y.content ≠ [] → x.content = y.content → x = y :=
      fun x hx y hy => hd x (List.mem_cons_of_mem _ hx) y (List.mem_cons_of_mem _ hy)
    simp only [registerSpecials]
    split
    · rename_i h
      rw [ao_special r hr]
      simp only [AddedVocab.isSpecial, List.contains_eq_mem, List.mem_append, List.mem_cons, List.not_mem_nil, or_false,
        decide_eq_false_iff_not, not_or] at h ⊢
      constructor
      · rintro ((h1 | rfl) | ⟨h1, h2, h3, h4, h5⟩)
        · exact .inl h1
        · exact .inr ⟨.inl rfl, h⟩
        · exact .inr ⟨.inr h1, h2, h3, h4⟩
      · rintro (h1 | ⟨h1 | h1, h2, h3, h4⟩)
        · exact .inl (.inl h1)
        · exact .inl (.inr h1)
        · by_cases he : t.content = x.content
          · exact .inl (.inr (hd t (by simp [h1]) x (by simp) h3 h.2.1 he))
          · exact .inr ⟨h1, h2, h3, h4, he⟩
    · rename_i h
      rw [ao_special r hr]
      constructor
      · rintro (h1 | ⟨h1, h2⟩)
        · exact .inl h1
        · exact .inr ⟨List.mem_cons_of_mem _ h1, h2⟩
      · rintro (h1 | ⟨h1, h2⟩)
        · exact .inl h1
        · rcases List.mem_cons.1 h1 with rfl | h1
          · exact absurd h2 h
          · exact .inr ⟨h1, h2⟩

theorem ao_max {m m' : List (Str × Int)} (h : ∀ p, p ∈ m ↔ p ∈ m') : maxId m = maxId m' := by
  cases hm : maxId m with
  | none =>
    have h0 := maxId_none hm
    subst h0
    have : m' = [] := List.eq_nil_iff_forall_not_mem.2 fun p hp => by simpa using (h p).2 hp
    rw [this]; rfl
  | some w =>
    cases hm' : maxId m' with
    | none =>
      have h0 := maxId_none hm'
      subst h0
      obtain ⟨_, p, hp, _⟩ := maxId_some hm
      exact absurd ((h p).1 hp) (by simp)
    | some w' =>
      obtain ⟨h1, p, hp, hpw⟩ := maxId_some hm
      obtain ⟨h2, q, hq, hqw⟩ := maxId_some hm'
      have := h1 q ((h q).2 hq)
      have := h2 p ((h p).1 hp)
      congr 1; omega

theorem ao_same_isSpecial {l l' : List AddedToken} (h : ∀ x, x ∈ l ↔ x ∈ l') (a : AddedVocab) (s : Str) :
    (registerSpecials l a).isSpecial s = (registerSpecials l' a).isSpecial s := by
  rw [Bool.eq_iff_iff, registerSpecials_isSpecial, registerSpecials_isSpecial]
  simp only [h]

theorem ao_core {v : Vocab} {l l' : List AddedToken} {a : AddedVocab} (hm : ∀ x, x ∈ l ↔ x ∈ l')
    (hk : ∀ x ∈ l, x.content ≠ [] → aoId v a x.content ≠ none)
    (hd : ∀ x ∈ l, ∀ y ∈ l, x.content ≠ [] → y.content ≠ [] → aoId v a x.content = aoId v a y.content → x = y) :
    ∃ b b', assignIds (some v) false l (registerSpecials l a) = .ok b ∧ assignIds (some v) false l' (registerSpecials l' a) = .ok b' ∧ TwinCore b b' := by
  have hid : ∀ l c, aoId v (registerSpecials l a) c = aoId v a c := by
    intro l c; unfold aoId; rw [(registerSpecials_map l a).1]
  obtain ⟨b, h1, h2⟩ := ao_assigned (v := v) l (a := registerSpecials l a) (by simpa only [hid] using hk) (by simpa only [hid] using hd)
  obtain ⟨b', h1', h2'⟩ := ao_assigned (v := v) l' (a := registerSpecials l' a) (by simpa only [hid, ← hm] using hk) (by simpa only [hid, ← hm] using hd)
  refine ⟨b, b', h1, h1', ?_⟩
  have hR := registerSpecials_map l a
  have hR' := registerSpecials_map l' a
  have hcont : ∀ x ∈ l, ∀ y ∈ l, x.content ≠ [] → y.content ≠ [] → x.content = y.content → x = y :=
    fun x hx y hy hxn hyn he => hd x hx y hy hxn hyn (by rw [he])
  have hmem : ∀ p, p ∈ b.map ↔ p ∈ b'.map := by
    intro p
    rw [h2.mem, h2'.mem, hid, hid, hR.1, hR'.1]
    simp only [hm]
  refine ⟨fun k => ?_, ao_max hmem, fun i => ?_, fun s => ?_, fun t => ?_⟩
  · by_cases hin : ∃ x ∈ l, x.content ≠ [] ∧ x.content = k
    · obtain ⟨x, hx, hn, rfl⟩ := hin
      rw [h2.new x hx hn, h2'.new x ((hm x).1 hx) hn, hid, hid]
    · rw [h2.old k fun x hx hn he => hin ⟨x, hx, hn, he⟩, h2'.old k fun x hx hn he => hin ⟨x, (hm x).2 hx, hn, he⟩, hR.1, hR'.1]
  · by_cases hin : ∃ x ∈ l, x.content ≠ [] ∧ aoId v a x.content = some i
    · obtain ⟨x, hx, hn, he⟩ := hin
      rw [h2.newR x hx hn i (by rw [hid]; exact he), h2'.newR x ((hm x).1 hx) hn i (by rw [hid]; exact he)]
    · rw [h2.oldR i fun x hx hn he => hin ⟨x, hx, hn, by rw [← he, hid]⟩,
        h2'.oldR i fun x hx hn he => hin ⟨x, (hm x).2 hx, hn, by rw [← he, hid]⟩, hR.2.1, hR'.2.1]
  · unfold AddedVocab.isSpecial
    rw [h2.set, h2'.set]
    exact ao_same_isSpecial hm a s
  · rw [h2.specials, h2'.specials, ao_special l hcont, ao_special l' (by simpa only [← hm] using hcont),
      h2.others, h2'.others, hR.2.2, hR'.2.2, ao_same_isSpecial hm]
    simp only [hm]

theorem ao_twins {m : Model} {t t2 : Tokenizer} {l l' : List AddedToken} {n : Nat} (ht : t.model = some m) (hs : Settled t l)
    (hm : ∀ x, x ∈ l ↔ x ∈ l') (h : t.addTokens l = .ok (n, t2)) :
    ∃ t2', t.addTokens l' = .ok (l'.length - (l'.filter fun t => t.content = []).length, t2') ∧
      n = l.length - (l.filter fun t => t.content = []).length ∧ TwinT t2 t2' := by
  unfold Tokenizer.addTokens at h ⊢
  cases ha : t.added with
  | none => rw [ha] at h; cases h
  | some a =>
    rw [ha] at h
    simp only [ht, Option.map_some, AddedVocab.addTokens, AddedVocab.addTokensCore] at h ⊢
    have hid : ∀ c, settledId t c = aoId m.vocab a c := by
      intro c; unfold settledId recorded modelId aoId; rw [ha, ht]; rfl
    obtain ⟨b, b', h1, h1', hT⟩ := ao_core (v := m.vocab) (a := a) hm (by simpa only [hid] using hs.known) (by simpa only [hid] using hs.distinct)
    rw [h1] at h; rw [h1']
    simp only [res_ok_bind] at h ⊢
    rcases ao_refresh (some m.vocab) hT with ⟨e, h2, h2'⟩ | ⟨c, c', h2, h2', hTT⟩
    · rw [h2] at h; cases h
    · rw [h2] at h; rw [h2']
      cases h
      exact ⟨_, rfl, rfl, c, c', rfl, rfl, hTT⟩

/-! ### The theorems -/

/-- C143. Two lists with the same tokens, whose ids are settled: adding the one or the other leaves tokenizers that answer every call
alike, whatever is called afterwards. -/
theorem C143_members (P : Platform) {m : Model} {t t2 : Tokenizer} {l l' : List AddedToken} {n : Nat} (ht : t.model = some m) (hs : Settled t l)
    (hm : ∀ x, x ∈ l ↔ x ∈ l') (h : t.addTokens l = .ok (n, t2)) :
    ∃ n' t2', t.addTokens l' = .ok (n', t2') ∧ AlwaysSame P t2 t2' := by
  obtain ⟨t2', h1, _, h3⟩ := ao_twins ht hs hm h
  exact ⟨_, t2', h1, ao_always P h3⟩

/-- C143. In another order the tokens are counted alike as well. -/
theorem C143_order (P : Platform) {m : Model} {t t2 : Tokenizer} {l l' : List AddedToken} {n : Nat} (ht : t.model = some m) (hs : Settled t l)
    (hp : l.Perm l') (h : t.addTokens l = .ok (n, t2)) :
    ∃ t2', t.addTokens l' = .ok (n, t2') ∧ AlwaysSame P t2 t2' := by
  obtain ⟨t2', h1, rfl, h3⟩ := ao_twins ht hs (fun _ => hp.mem_iff) h
  refine ⟨t2', ?_, ao_always P h3⟩
  rw [h1, hp.length_eq, (hp.filter _).length_eq]

/-- Tokens with settled ids are not made special late. -/
theorem ao_noLate {t : Tokenizer} {ls : List (List AddedToken)} (hs : Settled t ls.flatten) (given : List AddedToken) : NoLateSpecial given ls := by
  intro A B e x hx y hy h1 h2 h3
  have hx' : x ∈ ls.flatten := by rw [e, List.flatten_append]; exact List.mem_append_left _ hx
  have hy' : y ∈ ls.flatten := by rw [e, List.flatten_append]; exact List.mem_append_right _ hy
  obtain rfl := hs.distinct x hx' y hy' h3 (by rw [h2]; exact h3) (by rw [h2])
  exact ⟨h3, x, List.mem_append_right _ hx, h1, rfl⟩

/-- C143. Nor does it matter in which calls, and in which order of the calls, such tokens are added: after any history, two ways of
distributing the same tokens over calls report the same total and leave tokenizers that answer every call alike. -/
theorem C143_calls (P : Platform) {t0 t t' t2 : Tokenizer} {l : List AddedToken} {m : Model} {cs : List Call}
    (h0 : t0.added = some (AddedVocab.init l)) (hf : t0.finish = .ok t) (h : History P t cs t') (hm : t'.model = some m)
    {ls ls' : List (List AddedToken)} (hne : ls ≠ []) (hne' : ls' ≠ []) (hs : Settled t' ls.flatten) (hp : ls.flatten.Perm ls'.flatten)
    {n : Nat} (ha : addEach t' ls = .ok (n, t2)) :
    ∃ t2', addEach t' ls' = .ok (n, t2') ∧ AlwaysSame P t2 t2' := by
  have hs' : Settled t' ls'.flatten :=
    ⟨fun x hx => hs.known x (hp.mem_iff.2 hx), fun x hx y hy => hs.distinct x (hp.mem_iff.2 hx) y (hp.mem_iff.2 hy)⟩
  rw [C115_batches P h0 hf h hm ls hne (ao_noLate hs _)] at ha
  rw [C115_batches P h0 hf h hm ls' hne' (ao_noLate hs' _)]
  exact C143_order P hm hs hp ha

/-- A byte-pair tokenizer without added tokens. -/
def openTk : Tokenizer := { abcTk [] false .bert with added := some (.init []) }

/-- The special token "ab" that takes the white space in front of it along, and "c" that stands alone. -/
def twoTokens : List AddedToken := [{ content := b!"ab", lstrip := true, normalized := false, special := true }, { content := b!"c", singleWord := true, normalized := false }]

/-- The hypotheses of `C143_order`: two tokens of the vocabulary that are found in texts afterwards. -/
example : openTk.model = some (.bpe abcBPE) ∧ Settled openTk twoTokens ∧ twoTokens.Perm twoTokens.reverse ∧
    (openTk.addTokens twoTokens).map (·.1) = .ok 2 ∧
    ((openTk.addTokens twoTokens).bind fun r => (r.2.encode ascii w!"a ab c" false).1.map fun e => (e.ids, e.offsets)) =
      .ok ([0, 3, 2], [(0, 1), (1, 3), (5, 6)]) := by
  refine ⟨rfl, ⟨by decide +kernel, by decide +kernel⟩, (List.reverse_perm _).symm, ?_, ?_⟩ <;> decide +kernel

/-- The hypotheses of `C143_calls`: the two tokens added by two calls, and by one call in the other order. -/
example : ∃ t2 t2', addEach openTk [[twoTokens[0]], [twoTokens[1]]] = .ok (2, t2) ∧ addEach openTk [[twoTokens[1], twoTokens[0]]] = .ok (2, t2') ∧
    AlwaysSame ascii t2 t2' := by
  have hs : Settled openTk ([[twoTokens[0]], [twoTokens[1]]] : List (List AddedToken)).flatten := ⟨by decide +kernel, by decide +kernel⟩
  have hn : (addEach openTk [[twoTokens[0]], [twoTokens[1]]]).map (·.1) = .ok 2 := by decide +kernel
  cases ha : addEach openTk [[twoTokens[0]], [twoTokens[1]]] with
  | error e => rw [ha] at hn; cases hn
  | ok r =>
    obtain ⟨n, t2⟩ := r
    rw [ha] at hn; cases hn
    obtain ⟨t2', h1, h2⟩ := C143_calls ascii (t0 := openTk) (t := openTk) (t' := openTk) (l := []) (cs := []) rfl rfl (.nil _) rfl
      (ls' := [[twoTokens[1], twoTokens[0]]]) (by simp) (by simp) hs (List.Perm.swap _ _ _) ha
    exact ⟨t2, t2', rfl, h1, h2⟩

/-- C143. Tokens the vocabulary does not know are numbered in the order in which they are added; of two tokens with one content the
last decides how it is found. -/
theorem C143_violated :
    let ids := fun l => (openTk.addTokens l).map fun r => (recorded r.2 b!"<x>", recorded r.2 b!"<y>")
    let spans := fun l => (openTk.addTokens l).bind fun r => (r.2.encode ascii w!"a ab" false).1.map (·.offsets)
    let x : AddedToken := { content := b!"ab", lstrip := true, normalized := false }
    let y : AddedToken := { content := b!"ab", lstrip := false, normalized := false }
    ids [{ content := b!"<x>" }, { content := b!"<y>" }] = .ok (some 5, some 6) ∧
    ids [{ content := b!"<y>" }, { content := b!"<x>" }] = .ok (some 6, some 5) ∧
    spans [x, y] = .ok [(0, 1), (2, 4)] ∧ spans [y, x] = .ok [(0, 1), (1, 3)] := by
  refine ⟨?_, ?_, ?_, ?_⟩ <;> decide +kernel

end Tok
