import Verif.Proofs.History
import Verif.Proofs.BPESpell

set_option autoImplicit false

/-! Tokenizers that answer alike. -/

namespace Tok
open Spec

/-- The same added vocabulary, except for default entries of the reverse map. -/
structure SameA (a a' : AddedVocab) : Prop where
  same : a' = { a with mapR := a'.mapR }
  get : ∀ i, (mapFind a.mapR i).getD {} = (mapFind a'.mapR i).getD {}

theorem SameA.refl (a : AddedVocab) : SameA a a := ⟨rfl, fun _ => rfl⟩

theorem SameA.symm {a a' : AddedVocab} (h : SameA a a') : SameA a' a :=
  ⟨by rw [h.same], fun i => (h.get i).symm⟩

theorem SameA.trans {a b c : AddedVocab} (h : SameA a b) (h' : SameA b c) : SameA a c :=
  ⟨by rw [h'.same, h.same], fun i => (h.get i).trans (h'.get i)⟩

theorem Touched.sameA {a a' : AddedVocab} (h : Touched a a') : SameA a a' := by
  refine ⟨h.same, fun i => ?_⟩
  cases hf : mapFind a.mapR i with
  | some t => rw [h.keeps i t hf]
  | none =>
    cases hf' : mapFind a'.mapR i with
    | none => rfl
    | some t =>
      rcases h.new i t hf' with h1 | ⟨_, h1, _⟩
      · rw [hf] at h1; cases h1
      · rw [h1]; rfl

theorem matchSegs_same {m m' : List (Int × AddedToken)} (h : ∀ i, (mapFind m i).getD {} = (mapFind m' i).getD {})
    (s : Str) (n : Nat) (ms : List (Nat × Nat × Int)) : ∀ o, matchSegs m s n ms o = matchSegs m' s n ms o := by
  induction ms with
  | nil => intro o; rfl
  | cons x r ih =>
    intro o
    obtain ⟨a, b, i⟩ := x
    simp only [matchSegs, h i, ih]

theorem findMatches_same {a a' : AddedVocab} (h : SameA a a') (s : Str) (trie : List (Str × Int)) :
    (a.findMatches s trie).1 = (a'.findMatches s trie).1 := by
  unfold AddedVocab.findMatches
  simp only
  exact matchSegs_same h.get _ _ _ _

theorem SameA.tries {a a' : AddedVocab} (h : SameA a a') : a'.normTrie = a.normTrie ∧ a'.nonNormTrie = a.nonNormTrie := by
  rw [h.same]; exact ⟨rfl, rfl⟩

theorem firstSplits_same {a a' : AddedVocab} (h : SameA a a') (w : WStr) : (a.firstSplits w).1 = (a'.firstSplits w).1 := by
  unfold AddedVocab.firstSplits
  split
  · rfl
  · split
    · rfl
    · simp only [h.tries.2]
      rw [findMatches_same h]

theorem normalizeSplit_same (P : Platform) (norm : Option Normalizer) {a a' : AddedVocab} (h : SameA a a') (ns : NS)
    (e : Nat) (s : Split) : (normalizeSplit P norm a ns e s).1 = (normalizeSplit P norm a' ns e s).1 := by
  unfold normalizeSplit
  simp only
  split
  · rfl
  · simp only [h.tries.1]
    rw [findMatches_same h]

theorem normalizeLoop_same (P : Platform) (norm : Option Normalizer) (l : List Split) :
    ∀ {a a' : AddedVocab} (_ : SameA a a') (ns : NS) (e : Nat),
      (normalizeLoop P norm a ns e l).1 = (normalizeLoop P norm a' ns e l).1 := by
  induction l with
  | nil => intros; rfl
  | cons s r ih =>
    intro a a' h ns e
    simp only [normalizeLoop]
    split
    · have := ih h ns (e + s.normalized.length)
      generalize normalizeLoop P norm a ns (e + s.normalized.length) r = R at this
      generalize normalizeLoop P norm a' ns (e + s.normalized.length) r = R' at this
      obtain ⟨x, _⟩ := R
      obtain ⟨x', _⟩ := R'
      simp only at this; subst this
      cases x <;> rfl
    · have h1 := normalizeSplit_same P norm h ns e s
      have t1 := normalizeSplit_touched P norm a ns e s
      have t2 := normalizeSplit_touched P norm a' ns e s
      generalize normalizeSplit P norm a ns e s = R at h1 t1
      generalize normalizeSplit P norm a' ns e s = R' at h1 t2
      obtain ⟨x, b⟩ := R
      obtain ⟨x', b'⟩ := R'
      simp only at h1 t1 t2; subst h1
      cases x with
      | error => rfl
      | ok q =>
        obtain ⟨ns', here, n⟩ := q
        simp only
        have := ih ((t1.sameA.symm.trans h).trans t2.sameA) ns' (e + n)
        generalize normalizeLoop P norm b ns' (e + n) r = R at this
        generalize normalizeLoop P norm b' ns' (e + n) r = R' at this
        obtain ⟨x, _⟩ := R
        obtain ⟨x', _⟩ := R'
        simp only at this; subst this
        cases x <;> rfl

theorem extract_same (P : Platform) (norm : Option Normalizer) {a a' : AddedVocab} (h : SameA a a') (w : WStr) :
    (a.extract P norm w).1 = (a'.extract P norm w).1 := by
  unfold AddedVocab.extract
  have h1 := firstSplits_same h w
  have t1 := firstSplits_touched a w
  have t2 := firstSplits_touched a' w
  generalize a.firstSplits w = R at h1 t1
  generalize a'.firstSplits w = R' at h1 t2
  obtain ⟨x, b⟩ := R
  obtain ⟨x', b'⟩ := R'
  simp only at h1 t1 t2; subst h1
  cases x with
  | error => rfl
  | ok p =>
    simp only
    have := normalizeLoop_same P norm p.splits ((t1.sameA.symm.trans h).trans t2.sameA) p.normalized 0
    generalize normalizeLoop P norm b p.normalized 0 p.splits = R at this
    generalize normalizeLoop P norm b' p.normalized 0 p.splits = R' at this
    obtain ⟨x, _⟩ := R
    obtain ⟨x', _⟩ := R'
    simp only at this; subst this
    cases x <;> rfl

/-! ### add_tokens -/

theorem newId_same {a a' : AddedVocab} (h : SameA a a') (M : Option Vocab) (c : Str) : newId a M c = newId a' M c := by
  rw [h.same]; rfl

/-- Two results that are both errors, the same, or related. -/
def ResRel {α β : Type} (R : α → β → Prop) : Res α → Res β → Prop
  | .ok x, .ok y => R x y
  | .error e, .error e' => e = e'
  | _, _ => False

theorem ResRel.bind {α α' β β' : Type} {R : α → α' → Prop} {S : β → β' → Prop} {x : Res α} {x' : Res α'}
    {f : α → Res β} {f' : α' → Res β'} (h : ResRel R x x') (hf : ∀ y y', R y y' → ResRel S (f y) (f' y')) :
    ResRel S (x >>= f) (x' >>= f') := by
  cases x <;> cases x' <;> simp only [ResRel] at h
  · subst h; rfl
  · exact hf _ _ h

theorem ResRel.ok {α β : Type} {R : α → β → Prop} {x : Res α} {x' : Res β} (h : ResRel R x x') {y : α} (hx : x = .ok y) :
    ∃ y', x' = .ok y' ∧ R y y' := by
  subst hx
  cases x' with
  | ok y' => exact ⟨y', rfl, h⟩
  | error => exact absurd h id

theorem registerSpecials_same (l : List AddedToken) : ∀ {a a' : AddedVocab}, SameA a a' →
    SameA (registerSpecials l a) (registerSpecials l a') := by
  induction l with
  | nil => intro a a' h; exact h
  | cons t r ih =>
    intro a a' h
    simp only [registerSpecials]
    have hs : a'.isSpecial t.content = a.isSpecial t.content := by rw [h.same]; rfl
    rw [hs]
    split
    · apply ih
      refine ⟨?_, h.get⟩
      have h1 : a'.specialTokens = a.specialTokens := by rw [h.same]
      have h2 : a'.specialSet = a.specialSet := by rw [h.same]
      rw [h1, h2]; rw [h.same]
    · exact ih h

theorem assignIds_same (M : Option Vocab) (al : Bool) (l : List AddedToken) : ∀ {a a' : AddedVocab}, SameA a a' →
    ResRel SameA (assignIds M al l a) (assignIds M al l a') := by
  induction l with
  | nil => intro a a' h; exact h
  | cons t r ih =>
    intro a a' h
    simp only [assignIds]
    split
    · exact ih h
    · rw [← newId_same h]
      cases newId a M t.content with
      | error => rfl
      | ok i =>
        simp only [res_ok_bind]
        have h1 : a'.map = a.map := by rw [h.same]
        have hsame : SameA { a with map := mapSet a.map t.content i, mapR := mapSet a.mapR i t }
            { a' with map := mapSet a'.map t.content i, mapR := mapSet a'.mapR i t } := by
          refine ⟨?_, ?_⟩
          · rw [h1]; rw [h.same]
          · intro j
            simp only [mapFind_set]
            split
            · rfl
            · exact h.get j
        have hs : AddedVocab.isSpecial { a' with map := mapSet a'.map t.content i, mapR := mapSet a'.mapR i t } t.content =
            AddedVocab.isSpecial { a with map := mapSet a.map t.content i, mapR := mapSet a.mapR i t } t.content := by
          rw [hsame.same]; rfl
        rw [hs]
        split
        · exact ih hsame
        · split
          · rfl
          · apply ih
            have h2 : a'.addedTokens = a.addedTokens := by rw [h.same]
            refine ⟨?_, hsame.get⟩
            simp only [h2, h1]
            rw [h.same]

theorem refresh_same (M : Option Vocab) {a a' : AddedVocab} (h : SameA a a') :
    ResRel SameA (a.refresh M) (a'.refresh M) := by
  have h1 : a'.specialTokens = a.specialTokens := by rw [h.same]
  have h2 : a'.addedTokens = a.addedTokens := by rw [h.same]
  unfold AddedVocab.refresh
  cases M with
  | none =>
    simp only [h1, h2]
    split
    · exact ⟨by rw [h.same], h.get⟩
    · rfl
  | some v =>
    simp only [h1, h2]
    exact ⟨by rw [h.same], h.get⟩

theorem addTokensCore_same (M : Option Vocab) (al : Bool) (l : List AddedToken) {a a' : AddedVocab} (h : SameA a a') :
    ResRel (fun x y => x.1 = y.1 ∧ SameA x.2 y.2) (a.addTokensCore M al l) (a'.addTokensCore M al l) := by
  unfold AddedVocab.addTokensCore
  refine ResRel.bind (assignIds_same M al l (registerSpecials_same l h)) fun y y' hy => ?_
  refine ResRel.bind (refresh_same M hy) fun z z' hz => ?_
  exact ⟨rfl, hz⟩

/-! ### Models -/

/-- The same model, with a cache that holds right answers. -/
inductive SameM (P : Platform) : Model → Model → Prop
  | wordPiece (m : WordPiece) : SameM P (.wordPiece m) (.wordPiece m)
  | bpe {m m' : BPE} : CacheOk P m → CacheOk P m' → m.fresh = m'.fresh → SameM P (.bpe m) (.bpe m')

theorem SameM.symm {P : Platform} {m m' : Model} (h : SameM P m m') : SameM P m' m := by
  cases h with
  | wordPiece m => exact .wordPiece m
  | bpe h1 h2 h3 => exact .bpe h2 h1 h3.symm

theorem SameM.trans {P : Platform} {a b c : Model} (h : SameM P a b) (h' : SameM P b c) : SameM P a c := by
  cases h with
  | wordPiece m => exact h'
  | bpe h1 h2 h3 => cases h' with
    | bpe g1 g2 g3 => exact .bpe h1 g2 (h3.trans g3)

theorem SameM.vocab {P : Platform} {m m' : Model} (h : SameM P m m') : m'.vocab = m.vocab := by
  cases h with
  | wordPiece m => rfl
  | @bpe m m' h1 h2 h3 =>
    have : m.fresh.vocab = m'.fresh.vocab := by rw [h3]
    exact this.symm

theorem tokenize_same {P : Platform} {m m' : Model} (h : SameM P m m') (p : PTS) :
    (m.tokenize P p).1 = (m'.tokenize P p).1 ∧ SameM P m (m.tokenize P p).2 := by
  cases h with
  | wordPiece m => exact ⟨rfl, .wordPiece m⟩
  | @bpe m m' h1 h2 h3 =>
    obtain ⟨a1, a2, a3⟩ := splitsLoop_cache P p.splits m h1
    obtain ⟨b1, b2, b3⟩ := splitsLoop_cache P p.splits m' h2
    rw [h3, ← b1] at a1
    have e : (m.tokenize P p).2 = (BPE.splitsLoop P m p.splits).2 := by
      unfold BPE.tokenize; split <;> rename_i h' <;> rw [h']
    refine ⟨?_, ?_⟩
    · show (m.tokenize P p).1 = (m'.tokenize P p).1
      unfold BPE.tokenize
      generalize BPE.splitsLoop P m p.splits = R at a1
      generalize BPE.splitsLoop P m' p.splits = R' at a1
      obtain ⟨r, n⟩ := R
      obtain ⟨r', n'⟩ := R'
      simp only at a1; subst a1
      cases r <;> rfl
    · show SameM P (.bpe m) (.bpe (m.tokenize P p).2)
      rw [e]
      exact .bpe h1 a2 a3.symm

/-! ### Tokenizers -/

/-- Related options. -/
inductive OptRel {α : Type} (R : α → α → Prop) : Option α → Option α → Prop
  | none : OptRel R none none
  | some {x y : α} : R x y → OptRel R (some x) (some y)

theorem OptRel.symm {α : Type} {R : α → α → Prop} (hR : ∀ x y, R x y → R y x) {x y : Option α} (h : OptRel R x y) :
    OptRel R y x := by
  cases h with
  | none => exact .none
  | some h => exact .some (hR _ _ h)

theorem OptRel.trans {α : Type} {R : α → α → Prop} (hR : ∀ x y z, R x y → R y z → R x z) {x y z : Option α}
    (h : OptRel R x y) (h' : OptRel R y z) : OptRel R x z := by
  cases h with
  | none => exact h'
  | some h => cases h' with
    | some h' => exact .some (hR _ _ _ h h')

/-- Tokenizers of the same configuration that answer alike. -/
structure Same (P : Platform) (t t' : Tokenizer) : Prop where
  same : t' = { t with added := t'.added, model := t'.model }
  added : OptRel SameA t.added t'.added
  model : OptRel (SameM P) t.model t'.model

theorem Same.symm {P : Platform} {t t' : Tokenizer} (h : Same P t t') : Same P t' t :=
  ⟨by rw [h.same], h.added.symm fun _ _ => SameA.symm, h.model.symm fun _ _ => SameM.symm⟩

theorem Same.trans {P : Platform} {a b c : Tokenizer} (h : Same P a b) (h' : Same P b c) : Same P a c :=
  ⟨by rw [h'.same, h.same], OptRel.trans (R := SameA) (fun _ _ _ h h' => h.trans h') h.added h'.added,
    OptRel.trans (R := SameM _) (fun _ _ _ h h' => h.trans h') h.model h'.model⟩

theorem Same.vocab? {P : Platform} {t t' : Tokenizer} (h : Same P t t') : t'.vocab? = t.vocab? := by
  have := h.model
  unfold Tokenizer.vocab?
  generalize t.model = x at this
  generalize t'.model = y at this
  cases this with
  | none => rfl
  | some h => simp only [Option.map_some, h.vocab]

/-- A tokenizer is like itself when its BPE cache is empty (as the constructor leaves it). -/
theorem Same.refl (P : Platform) (t : Tokenizer) (h : ∀ m, t.model = some (.bpe m) → m.cache = []) : Same P t t := by
  refine ⟨rfl, ?_, ?_⟩
  · cases t.added with
    | none => exact .none
    | some a => exact .some (.refl a)
  · cases hm : t.model with
    | none => exact .none
    | some m =>
      cases m with
      | wordPiece m => exact .some (.wordPiece m)
      | bpe m =>
        have hc : CacheOk P m := by
          intro s w hw; rw [h m hm] at hw; cases hw
        exact .some (.bpe hc hc rfl)

theorem Same.refl' {P : Platform} {t t' : Tokenizer} (h : Same P t t') : Same P t t := h.trans h.symm

theorem preTokenized_same {P : Platform} {t t' : Tokenizer} (h : Same P t t') (w : WStr) :
    (t.preTokenized P w).1 = (t'.preTokenized P w).1 ∧ Same P t (t.preTokenized P w).2 := by
  obtain ⟨hs, ha, hm⟩ := h
  have hmm : OptRel (SameM P) t.model t.model := OptRel.trans (R := SameM _) (fun _ _ _ h h' => h.trans h') hm (hm.symm fun _ _ h => h.symm)
  have haa : OptRel SameA t.added t.added := OptRel.trans (R := SameA) (fun _ _ _ h h' => h.trans h') ha (ha.symm fun _ _ h => h.symm)
  have e1 : t'.normalizer = t.normalizer := by rw [hs]
  have e2 : t'.preTokenizer = t.preTokenizer := by rw [hs]
  unfold Tokenizer.preTokenized
  split
  · exact ⟨rfl, rfl, haa, hmm⟩
  · generalize hx : t.added = x at ha
    generalize hy : t'.added = y at ha
    cases ha with
    | none =>
      simp only [e2, true_and]
      exact ⟨rfl, haa, hmm⟩
    | @some a a' haa' =>
      simp only [e1, e2]
      rw [extract_same P t.normalizer haa' w]
      refine ⟨rfl, rfl, ?_, hmm⟩
      rw [hx]
      exact .some (extract_touched P t.normalizer a w).sameA

theorem doTokenize_same {P : Platform} {t t' : Tokenizer} (h : Same P t t') (p : PTS) :
    (t.doTokenize P p).1 = (t'.doTokenize P p).1 ∧ Same P t (t.doTokenize P p).2 := by
  obtain ⟨hs, ha, hm⟩ := h
  have haa : OptRel SameA t.added t.added := OptRel.trans (R := SameA) (fun _ _ _ h h' => h.trans h') ha (ha.symm fun _ _ h => h.symm)
  unfold Tokenizer.doTokenize
  generalize hx : t.model = x at hm
  generalize hy : t'.model = y at hm
  cases hm with
  | none => exact ⟨rfl, rfl, haa, by rw [hx]; exact .none⟩
  | @some m m' hmm =>
    obtain ⟨h1, h2⟩ := tokenize_same hmm p
    simp only
    rw [h1]
    exact ⟨rfl, rfl, haa, by rw [hx]; exact .some h2⟩

/-- Tokenizers that answer alike give the same encoding, and go on answering alike. -/
theorem encode_same {P : Platform} {t t' : Tokenizer} (h : Same P t t') (w : WStr) (b : Bool) :
    (t.encode P w b).1 = (t'.encode P w b).1 ∧ Same P t (t.encode P w b).2 := by
  obtain ⟨h1, s1⟩ := preTokenized_same h w
  obtain ⟨_, s1'⟩ := preTokenized_same h.symm w
  unfold Tokenizer.encode
  generalize t.preTokenized P w = R at h1 s1
  generalize t'.preTokenized P w = R' at h1 s1'
  obtain ⟨x, u⟩ := R
  obtain ⟨x', u'⟩ := R'
  simp only at h1 s1 s1'; subst h1
  cases x with
  | error e => exact ⟨rfl, s1⟩
  | ok p =>
    simp only
    have huu : Same P u u' := (s1.symm.trans h).trans s1'
    obtain ⟨h2, s2⟩ := doTokenize_same huu p
    obtain ⟨_, s2'⟩ := doTokenize_same huu.symm p
    generalize u.doTokenize P p = R at h2 s2
    generalize u'.doTokenize P p = R' at h2 s2'
    obtain ⟨x, v⟩ := R
    obtain ⟨x', v'⟩ := R'
    simp only at h2 s2 s2'; subst h2
    cases x with
    | error e => exact ⟨rfl, s1.trans s2⟩
    | ok e =>
      simp only
      refine ⟨?_, s1.trans s2⟩
      have hv : Same P v v' := (s2.symm.trans huu).trans s2'
      rw [hv.same]; rfl

theorem addTokens_same {P : Platform} {t t' : Tokenizer} (h : Same P t t') (l : List AddedToken) :
    ResRel (fun x y => x.1 = y.1 ∧ Same P x.2 y.2) (t.addTokens l) (t'.addTokens l) := by
  have hv := h.vocab?
  unfold Tokenizer.vocab? at hv
  obtain ⟨hs, ha, hm⟩ := h
  unfold Tokenizer.addTokens
  generalize hx : t.added = x at ha
  generalize hy : t'.added = y at ha
  cases ha with
  | none => rfl
  | @some a a' haa =>
    simp only [hv]
    refine ResRel.bind (addTokensCore_same (t.model.map Model.vocab) false l haa) ?_
    rintro ⟨n, b⟩ ⟨n', b'⟩ ⟨h1, h2⟩
    refine ⟨h1, ?_, .some h2, hm⟩
    simp only
    rw [hs]

/-- A history does what its adding calls do. -/
theorem history_same {P : Platform} {t t1 : Tokenizer} {cs : List Call} (h : History P t cs t1) :
    ∀ s, Same P t s → ∃ s1, History P s (cs.filter Call.adds) s1 ∧ Same P t1 s1 := by
  induction h with
  | nil t => intro s hs; exact ⟨s, .nil s, hs⟩
  | @cons t t' t'' c cs h1 _ ih =>
    intro s hs
    cases h1 with
    | encode w b =>
      obtain ⟨s1, h2, h3⟩ := ih s ((encode_same hs w b).2.symm.trans hs)
      exact ⟨s1, h2, h3⟩
    | decode ids b =>
      obtain ⟨s1, h2, h3⟩ := ih s hs
      exact ⟨s1, h2, h3⟩
    | @addTokens _ l n hadd =>
      obtain ⟨⟨n', s'⟩, g1, g2, g3⟩ := (addTokens_same hs l).ok hadd
      obtain ⟨s1, h2, h3⟩ := ih s' g3
      exact ⟨s1, .cons (.addTokens g1) h2, h3⟩
    | @addSpecialTokens _ l n hadd =>
      obtain ⟨⟨n', s'⟩, g1, g2, g3⟩ := (addTokens_same hs l).ok hadd
      obtain ⟨s1, h2, h3⟩ := ih s' g3
      exact ⟨s1, .cons (.addSpecialTokens (by rw [addSpecialTokens_eq]; exact g1)) h2, h3⟩

/-- Calls leave exactly one tokenizer behind. -/
theorem history_unique {P : Platform} {t t1 : Tokenizer} {cs : List Call} (h : History P t cs t1) :
    ∀ {t2}, History P t cs t2 → t1 = t2 := by
  induction h with
  | nil t => intro t2 h; cases h; rfl
  | @cons t t' t'' c cs h1 _ ih =>
    intro t2 h
    cases h with
    | @cons _ u _ _ _ g1 g2 =>
      have : t' = u := by
        cases h1 with
        | encode w b => cases g1; rfl
        | decode ids b => cases g1; rfl
        | addTokens h => cases g1 with | addTokens g => rw [h] at g; cases g; rfl
        | addSpecialTokens h => cases g1 with | addSpecialTokens g => rw [h] at g; cases g; rfl
      subst this
      exact ih g2

/-! ### The reverse map does not change -/

/-- Every entry of the lookup tables has an id of the reverse map, unless it is empty. -/
structure KInv (M : Option Vocab) (a : AddedVocab) : Prop where
  found : ∀ t ∈ a.specialTokens ++ a.addedTokens, t.content ≠ [] → ∃ i, mapFind a.map t.content = some i
  model : ∀ v, M = some v → ∀ c i j, mapFind a.map c = some i → tokenToId v c = some j → i = j
  back : ∀ c i, mapFind a.map c = some i → ∃ t, mapFind a.mapR i = some t

/-- The lookup tables are those of the recorded tokens. -/
def TablesOk (M : Option Vocab) (a : AddedVocab) : Prop :=
  ∀ p ∈ a.nonNormTrie ++ a.normTrie, ∃ v, M = some v ∧ tokenToId v p.1 = some p.2 ∧
    ∃ t ∈ a.specialTokens ++ a.addedTokens, t.content = p.1

theorem registerSpecials_tokens (l : List AddedToken) : ∀ (a : AddedVocab),
    ∀ t ∈ (registerSpecials l a).specialTokens, t ∈ a.specialTokens ∨ t ∈ l := by
  induction l with
  | nil => intro a t ht; exact .inl ht
  | cons x r ih =>
    intro a t ht
    simp only [registerSpecials] at ht
    split at ht
    · rcases ih _ t ht with h | h
      · simp only [List.mem_append, List.mem_singleton] at h
        rcases h with h | rfl
        · exact .inl h
        · exact .inr (by simp)
      · exact .inr (by simp [h])
    · rcases ih _ t ht with h | h
      · exact .inl h
      · exact .inr (by simp [h])

theorem assignIds_added {M : Option Vocab} {al : Bool} (l : List AddedToken) : ∀ {a a' : AddedVocab},
    assignIds M al l a = .ok a' → ∀ t ∈ a'.addedTokens, t ∈ a.addedTokens ∨ t ∈ l := by
  induction l with
  | nil => intro a a' h t ht; cases h; exact .inl ht
  | cons x r ih =>
    intro a a' h t ht
    simp only [assignIds] at h
    split at h
    · rcases ih h t ht with h | h
      · exact .inl h
      · exact .inr (by simp [h])
    · obtain ⟨i, _, h⟩ := res_bind_ok.1 h
      split at h
      · rcases ih h t ht with h | h
        · exact .inl h
        · exact .inr (by simp [h])
      · split at h
        · cases h
        · rcases ih h t ht with h | h
          · simp only [List.mem_append, List.mem_singleton] at h
            rcases h with h | rfl
            · exact .inl h
            · exact .inr (by simp)
          · exact .inr (by simp [h])

theorem newId_model {a : AddedVocab} {v : Vocab} {c : Str} {i : Int} (h : newId a (some v) c = .ok i)
    (hm : ∀ j, mapFind a.map c = some i → tokenToId v c = some j → i = j) : ∀ j, tokenToId v c = some j → i = j := by
  intro j hj
  rcases newId_some a v c h with h | ⟨_, h⟩ | ⟨_, h, _⟩
  · exact hm j h hj
  · rw [hj] at h; cases h; rfl
  · rw [hj] at h; cases h

theorem assignIds_kinv {M : Option Vocab} {al : Bool} (l : List AddedToken) : ∀ {a a' : AddedVocab},
    assignIds M al l a = .ok a' →
    (∀ v, M = some v → ∀ c i j, mapFind a.map c = some i → tokenToId v c = some j → i = j) →
    (∀ c i, mapFind a.map c = some i → ∃ t, mapFind a.mapR i = some t) →
    (∀ v, M = some v → ∀ c i j, mapFind a'.map c = some i → tokenToId v c = some j → i = j) ∧
    (∀ c i, mapFind a'.map c = some i → ∃ t, mapFind a'.mapR i = some t) := by
  induction l with
  | nil => intro a a' h h1 h2; cases h; exact ⟨h1, h2⟩
  | cons t r ih =>
    intro a a' h h1 h2
    rcases assignIds_cons h with ⟨_, h⟩ | ⟨_, i, a1, hj, h, hm, hr, -⟩
    · exact ih h h1 h2
    · refine ih h ?_ ?_
      · intro v hv c k j hk hcj
        rw [hm, mapFind_set] at hk
        split at hk
        · rename_i he
          cases hk; subst he; subst hv
          exact newId_model hj (fun j h => h1 v rfl _ _ _ h) j hcj
        · exact h1 v hv c k j hk hcj
      · intro c k hk
        rw [hr, mapFind_set]
        split
        · exact ⟨t, rfl⟩
        · rename_i hne
          rw [hm, mapFind_set] at hk
          split at hk
          · cases hk; exact absurd rfl hne
          · exact h2 c k hk

theorem refresh_tables {a a' : AddedVocab} {M : Option Vocab} (h : a.refresh M = .ok a') : TablesOk M a' := by
  unfold AddedVocab.refresh at h
  split at h
  · split at h
    · cases h; intro p hp; simp at hp
    · cases h
  · rename_i v
    cases h
    intro p hp
    refine ⟨v, rfl, ?_⟩
    have gen : ∀ (n : Bool) (l : List AddedToken), p ∈ trieOf v n l → tokenToId v p.1 = some p.2 ∧ ∃ t ∈ l, t.content = p.1 := by
      intro n l hp
      unfold trieOf at hp
      rw [List.mem_filterMap] at hp
      obtain ⟨t, ht, hp⟩ := hp
      split at hp
      · rename_i i hi
        split at hp
        · cases hp; exact ⟨hi, t, ht, rfl⟩
        · cases hp
      · cases hp
    simp only [List.mem_append] at hp
    rcases hp with (hp | hp) | (hp | hp) <;> obtain ⟨h1, t, ht, h2⟩ := gen _ _ hp <;>
      exact ⟨h1, t, by simp [ht], h2⟩

theorem core_kinv {M : Option Vocab} {a a' : AddedVocab} {al : Bool} {l : List AddedToken} {n : Nat}
    (h : a.addTokensCore M al l = .ok (n, a')) (ha : ∀ t ∈ a.specialTokens ++ a.addedTokens, t.content ≠ [] →
      t ∈ l ∨ ∃ i, mapFind a.map t.content = some i)
    (h1 : ∀ v, M = some v → ∀ c i j, mapFind a.map c = some i → tokenToId v c = some j → i = j)
    (h2 : ∀ c i, mapFind a.map c = some i → ∃ t, mapFind a.mapR i = some t) : KInv M a' ∧ TablesOk M a' := by
  obtain ⟨_, a1, g1, g2⟩ := addTokensCore_ok h
  obtain ⟨e1, e2, e3, e4, e5⟩ := refresh_ok g2
  obtain ⟨r1, r2, r3⟩ := registerSpecials_map l a
  obtain ⟨k1, k2⟩ := assignIds_kinv l g1 (by rw [r1]; exact h1) (by rw [r1, r2]; exact h2)
  refine ⟨⟨?_, by rw [e1]; exact k1, by rw [e1, e2]; exact k2⟩, refresh_tables g2⟩
  rw [e1, e4, e5]
  intro t ht hne
  have hcase : t ∈ a.specialTokens ++ a.addedTokens ∨ t ∈ l := by
    rw [(assignIds_special l g1).2, List.mem_append] at ht
    rcases ht with ht | ht
    · rcases registerSpecials_tokens l a t ht with h | h
      · exact .inl (by simp [h])
      · exact .inr h
    · rcases assignIds_added l g1 t ht with h | h
      · rw [r3] at h; exact .inl (by simp [h])
      · exact .inr h
  have hl : t ∈ l → ∃ i, mapFind a1.map t.content = some i := fun h => assignIds_records l g1 t h hne
  rcases hcase with h | h
  · rcases ha t h hne with h | ⟨i, h⟩
    · exact hl h
    · exact ⟨i, assignIds_keeps l g1 _ _ (by rw [r1]; exact h)⟩
  · exact hl h

/-- With the invariant and no empty token in the model's vocabulary, encoding changes no entry of the reverse map. -/
theorem touched_find {M : Option Vocab} (hM : ∀ v, M = some v → tokenToId v [] = none) {a a' : AddedVocab}
    (hk : KInv M a) (ht : TablesOk M a) (h : Touched a a') : ∀ i, mapFind a'.mapR i = mapFind a.mapR i := by
  intro i
  cases hf : mapFind a.mapR i with
  | some t => exact h.keeps i t hf
  | none =>
    cases hf' : mapFind a'.mapR i with
    | none => rfl
    | some t =>
      rcases h.new i t hf' with h1 | ⟨_, _, p, hp, rfl⟩
      · rw [hf] at h1; cases h1
      · obtain ⟨v, hv, hpv, t, htt, hc⟩ := ht p hp
        have hne : t.content ≠ [] := by
          intro he
          rw [← hc, he, hM v hv] at hpv; cases hpv
        obtain ⟨j, hj⟩ := hk.found t htt hne
        rw [hc] at hj
        have := hk.model v hv _ _ _ hj hpv
        subst this
        obtain ⟨y, hy⟩ := hk.back _ _ hj
        rw [hf] at hy; cases hy

theorem touched_kinv {M : Option Vocab} {a a' : AddedVocab} (hk : KInv M a) (ht : TablesOk M a) (h : Touched a a') :
    KInv M a' ∧ TablesOk M a' := by
  have hs := h.same
  refine ⟨⟨?_, ?_, ?_⟩, ?_⟩
  · rw [hs]; exact hk.found
  · rw [hs]; exact hk.model
  · intro c i hc
    rw [hs] at hc
    obtain ⟨t, ht⟩ := hk.back c i hc
    exact ⟨t, h.keeps i t ht⟩
  · rw [hs]; exact ht

/-- The same entries of the reverse map. -/
def SeenA (a a' : AddedVocab) : Prop := SameA a a' ∧ ∀ i, mapFind a.mapR i = mapFind a'.mapR i

theorem assignIds_seen (M : Option Vocab) (al : Bool) (l : List AddedToken) : ∀ {a a' b b' : AddedVocab}, SeenA a a' →
    assignIds M al l a = .ok b → assignIds M al l a' = .ok b' → ∀ i, mapFind b.mapR i = mapFind b'.mapR i := by
  induction l with
  | nil => intro a a' b b' h h1 h2; cases h1; cases h2; exact h.2
  | cons t r ih =>
    intro a a' b b' h h1 h2
    have hs := assignIds_same M al [t] h.1
    have step : ∀ x, assignIds M al (t :: r) x = (assignIds M al [t] x >>= fun y => assignIds M al r y) := by
      intro x
      simp only [assignIds]
      split
      · rfl
      · cases newId x M t.content with
        | error => rfl
        | ok i =>
          simp only [res_ok_bind]
          split
          · rfl
          · split <;> rfl
    rw [step] at h1 h2
    obtain ⟨y, hy, h1⟩ := res_bind_ok.1 h1
    obtain ⟨y', hy', h2⟩ := res_bind_ok.1 h2
    rw [hy, hy'] at hs
    refine ih ⟨hs, ?_⟩ h1 h2
    rcases assignIds_cons hy with ⟨he, hy⟩ | ⟨he, i, a1, hi, hy, _, hr, -⟩
    · rcases assignIds_cons hy' with ⟨_, hy'⟩ | ⟨hne, _⟩
      · cases hy; cases hy'; exact h.2
      · exact absurd he hne
    · rcases assignIds_cons hy' with ⟨hee, _⟩ | ⟨_, i', a1', hi', hy', _, hr', -⟩
      · exact absurd hee he
      · cases hy; cases hy'
        rw [← newId_same h.1, hi] at hi'; cases hi'
        intro j
        rw [hr, hr', mapFind_set, mapFind_set, h.2 j]

theorem core_seen {M : Option Vocab} {al : Bool} {l : List AddedToken} {a a' b b' : AddedVocab} {n n' : Nat} (h : SeenA a a')
    (h1 : a.addTokensCore M al l = .ok (n, b)) (h2 : a'.addTokensCore M al l = .ok (n', b')) : SeenA b b' := by
  have hs := addTokensCore_same M al l h.1
  rw [h1, h2] at hs
  refine ⟨hs.2, ?_⟩
  obtain ⟨_, c, g1, g2⟩ := addTokensCore_ok h1
  obtain ⟨_, c', g1', g2'⟩ := addTokensCore_ok h2
  rw [(refresh_ok g2).2.1, (refresh_ok g2').2.1]
  refine assignIds_seen M al l ⟨registerSpecials_same l h.1, ?_⟩ g1 g1'
  rw [(registerSpecials_map l a).2.1, (registerSpecials_map l a').2.1]
  exact h.2

/-- The invariant for the added vocabulary of a tokenizer. -/
def KTok (t : Tokenizer) : Prop := ∀ a, t.added = some a → KInv t.vocab? a ∧ TablesOk t.vocab? a

/-- A history does what its adding calls do, also for the reverse map. -/
theorem history_seen {P : Platform} {t t1 : Tokenizer} {cs : List Call} (h : History P t cs t1)
    (hM : ∀ v, t.vocab? = some v → tokenToId v [] = none) (hK : KTok t) :
    ∀ s, Same P t s → OptRel SeenA t.added s.added → ∃ s1, History P s (cs.filter Call.adds) s1 ∧ Same P t1 s1 ∧
      OptRel SeenA t1.added s1.added := by
  induction h with
  | nil t => intro s hs hr; exact ⟨s, .nil s, hs, hr⟩
  | @cons t t' t'' c cs h1 _ ih =>
    intro s hs hr
    have hstep : t'.vocab? = t.vocab? ∧ KTok t' := by
      have hA := after_added h1
      refine ⟨hA.1, ?_⟩
      intro b hb
      rw [hA.1]
      rcases hA.2 with h | ⟨a, a', ha, ha', h⟩
      · exact hK b (by rw [← h]; exact hb)
      · rw [ha'] at hb; cases hb
        obtain ⟨k1, k2⟩ := hK a ha
        rcases h with h | ⟨l, n, _, h⟩
        · exact touched_kinv k1 k2 h
        · exact core_kinv h (fun t ht hne => .inr (k1.found t ht hne)) k1.model k1.back
    have hM' : ∀ v, t'.vocab? = some v → tokenToId v [] = none := by rw [hstep.1]; exact hM
    have hadd : ∀ {l n}, t.addTokens l = .ok (n, t') → ∃ s', s.addTokens l = .ok (n, s') ∧ Same P t' s' ∧
        OptRel SeenA t'.added s'.added := by
      intro l n hadd
      obtain ⟨⟨n', s'⟩, g1, g2, g3⟩ := (addTokens_same hs l).ok hadd
      simp only at g2; subst g2
      refine ⟨s', g1, g3, ?_⟩
      obtain ⟨a, a', ha, hc, rfl⟩ := addTokens_ok hadd
      obtain ⟨b, b', hb, hc', rfl⟩ := addTokens_ok g1
      rw [ha, hb] at hr
      cases hr with
      | some hr =>
        rw [hs.vocab?] at hc'
        exact .some (core_seen hr hc hc')
    cases h1 with
    | encode w b =>
      have he := (encode_same hs w b).2
      obtain ⟨s1, h2, h3⟩ := ih hM' hstep.2 s (he.symm.trans hs) (by
        have hsa := he.added
        rcases (encode_state P t w b).1 with h | ⟨a, ha, h⟩
        · rw [h]; exact hr
        · rw [h]
          rw [ha] at hr
          generalize s.added = y at hr
          cases hr with
          | some hr =>
            have ht := extract_touched P t.normalizer a w
            obtain ⟨k1, k2⟩ := hK a ha
            refine .some ⟨ht.sameA.symm.trans hr.1, fun i => ?_⟩
            rw [touched_find hM k1 k2 ht i]; exact hr.2 i)
      exact ⟨s1, h2, h3⟩
    | decode ids b =>
      obtain ⟨s1, h2, h3⟩ := ih hM' hstep.2 s hs hr
      exact ⟨s1, h2, h3⟩
    | addTokens h =>
      obtain ⟨s', g1, g2, g3⟩ := hadd h
      obtain ⟨s1, h2, h3⟩ := ih hM' hstep.2 s' g2 g3
      exact ⟨s1, .cons (.addTokens g1) h2, h3⟩
    | addSpecialTokens h =>
      obtain ⟨s', g1, g2, g3⟩ := hadd h
      obtain ⟨s1, h2, h3⟩ := ih hM' hstep.2 s' g2 g3
      exact ⟨s1, .cons (.addSpecialTokens g1) h2, h3⟩

theorem constructed_ktok {t : Tokenizer} (h : Constructed t) : KTok t := by
  refine constructed_inv (I := fun M a => KInv M a ∧ TablesOk M a) ?_ h
  intro M l n a' h
  refine core_kinv h ?_ ?_ ?_
  · intro t ht _; left; simpa [AddedVocab.init] using ht
  · intro v _ c i j hc; cases hc
  · intro c i hc; cases hc

theorem decode_seen {P : Platform} {t s : Tokenizer} (h : Same P t s) (hr : OptRel SeenA t.added s.added) (ids : List Int)
    (skip : Bool) : t.decode ids skip = s.decode ids skip := by
  have hsp : ∀ c, t.isSpecial c = s.isSpecial c := by
    intro c
    unfold Tokenizer.isSpecial
    generalize t.added = x at hr
    generalize s.added = y at hr
    cases hr with
    | none => rfl
    | some h => simp only; rw [h.1.same]; rfl
  have hid : ∀ i, t.idToken i = s.idToken i := by
    intro i
    unfold Tokenizer.idToken
    have hm := h.model
    generalize t.added = x at hr
    generalize s.added = y at hr
    cases hr with
    | none => rfl
    | some h =>
      simp only [AddedVocab.idToToken, h.2 i]
      split
      · rfl
      · generalize t.model = x at hm
        generalize s.model = y at hm
        cases hm with
        | none => rfl
        | some h => simp only [h.vocab]
  have hts : ∀ ids, t.idTokens skip ids = s.idTokens skip ids := by
    intro ids
    induction ids with
    | nil => rfl
    | cons i r ih => simp only [Tokenizer.idTokens, hid, hsp, ih]
  have hd : s.decoder = t.decoder := by rw [h.same]
  unfold Tokenizer.decode
  rw [hts, hd]

end Tok
