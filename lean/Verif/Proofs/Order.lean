import Verif.Spec.Order
import Verif.Proofs.Independent
import Verif.Props.BPE

set_option autoImplicit false

/-! Reordering the vocabulary commutes with every call. -/

namespace Tok
open Spec

/-- What the library can see of a vocabulary by key. -/
structure SameKeys (v v' : Vocab) : Prop where
  find : ∀ k, mapFind v k = mapFind v' k
  size : v.length = v'.length

/-- What the library can see of a vocabulary. -/
structure SameMap (v v' : Vocab) : Prop extends SameKeys v v' where
  back : ∀ i, mapFind (vocabR v) i = mapFind (vocabR v') i

theorem or_perm_find {κ ν : Type} [DecidableEq κ] {m m' : List (κ × ν)} (h : m.Perm m')
    (hn : (m.map (·.1)).Nodup) (k : κ) : mapFind m k = mapFind m' k := by
  have hn' : (m'.map (·.1)).Nodup := (h.map _).nodup_iff.1 hn
  cases e : mapFind m k with
  | some v => exact ((mapFind_iff_mem hn' k v).2 (h.mem_iff.1 (mapFind_mem e))).symm
  | none =>
    cases e' : mapFind m' k with
    | none => rfl
    | some v =>
      have := (mapFind_iff_mem hn k v).2 (h.mem_iff.2 (mapFind_mem e'))
      rw [this] at e; cases e

/-- With distinct ids, the reverse map lists exactly the entries. -/
theorem or_back {v : Vocab} (hi : OneTokenPerId v) (i : Int) (k : Str) :
    mapFind (vocabR v) i = some k ↔ (k, i) ∈ v := by
  refine ⟨vocabR_some, fun h => ?_⟩
  rw [vocabR, foldl_set_find]
  simp only [mapFind, Option.or_none, Option.map_eq_some_iff]
  have hx : ∃ p, v.reverse.find? (fun p => p.2 == i) = some p := by
    cases e : v.reverse.find? (fun p => p.2 == i) with
    | some p => exact ⟨p, rfl⟩
    | none =>
      have := List.find?_eq_none.1 e (k, i) (by simpa using h)
      simp at this
  obtain ⟨p, hp⟩ := hx
  refine ⟨p, hp, ?_⟩
  have h1 := List.find?_some hp
  have h2 : p ∈ v := by simpa using List.mem_of_find?_eq_some hp
  simp at h1
  obtain ⟨k', i'⟩ := p
  simp only at h1; subst h1
  show k' = k
  clear hp
  revert h h2
  induction v with
  | nil => intro h h2; simp at h2
  | cons q r ih =>
    intro h h2
    have hi' := List.nodup_cons.1 hi
    rcases List.mem_cons.1 h with h | h <;> rcases List.mem_cons.1 h2 with h2 | h2
    · rw [← h2] at h; exact congrArg Prod.fst h
    · exact absurd (List.mem_map.2 ⟨_, h2, by rw [← h]⟩) hi'.1
    · exact absurd (List.mem_map.2 ⟨_, h, by rw [← h2]⟩) hi'.1
    · exact ih hi'.2 h h2

theorem or_same {v v' : Vocab} (h : v.Perm v') (hk : (v.map (·.1)).Nodup) (hi : OneTokenPerId v) : SameMap v v' := by
  refine ⟨⟨or_perm_find h hk, h.length_eq⟩, fun i => ?_⟩
  have hi' : OneTokenPerId v' := (h.map _).nodup_iff.1 hi
  cases e : mapFind (vocabR v) i with
  | some k => exact ((or_back hi' i k).2 (h.mem_iff.1 ((or_back hi i k).1 e))).symm
  | none =>
    cases e' : mapFind (vocabR v') i with
    | none => rfl
    | some k =>
      have := (or_back hi i k).2 (h.mem_iff.2 ((or_back hi' i k).1 e'))
      rw [this] at e; cases e

/-! WordPiece -/

theorem or_wp_unk {m : WordPiece} {v : Vocab} (h : SameMap m.vocab v) (n : Nat) :
    WordPiece.unk { m with vocab := v } n = m.unk n := by
  simp only [WordPiece.unk, h.find]

theorem or_wp_longest {m : WordPiece} {v : Vocab} (h : SameMap m.vocab v) (u : U16) (a : Nat) :
    ∀ k, WordPiece.longest { m with vocab := v } u a k = m.longest u a k := by
  intro k
  induction k with
  | zero => rfl
  | succ k ih =>
    rw [WordPiece.longest, WordPiece.longest, ih, h.find]
    rfl

theorem or_wp_loop {m : WordPiece} {v : Vocab} (h : SameMap m.vocab v) (u : U16) :
    ∀ f a, WordPiece.loop { m with vocab := v } u f a = m.loop u f a := by
  intro f
  induction f with
  | zero => intro a; rw [WordPiece.loop, WordPiece.loop]
  | succ f ih =>
    intro a
    rw [WordPiece.loop, WordPiece.loop, or_wp_longest h]
    split
    · cases m.longest u a (u.length - a) with
      | none => rfl
      | some t => simp only [ih]
    · rfl

theorem or_wp_word {m : WordPiece} {v : Vocab} (h : SameMap m.vocab v) (s : Str) :
    WordPiece.word { m with vocab := v } s = m.word s := by
  simp only [WordPiece.word, or_wp_loop h, or_wp_unk h]

/-! BPE -/

theorem or_bpe_byte {m : BPE} {v : Vocab} (h : SameMap m.vocab v) (b : Nat) (f l : Bool) (w : List Symbol)
    (u : Option (Int × Nat)) : BPE.addByte { m with vocab := v } b f l w u = m.addByte b f l w u := by
  simp only [BPE.addByte, fallbackIds, BPE.symbolKey, h.find]

theorem or_bpe_loop {m : BPE} {v : Vocab} (h : SameMap m.vocab v) (s : Str) :
    ∀ f w u, BPE.symbolsLoop { m with vocab := v } f s w u = m.symbolsLoop f s w u := by
  induction s with
  | nil => intro f w u; rfl
  | cons b r ih => intro f w u; simp only [BPE.symbolsLoop, or_bpe_byte h, ih]

theorem or_bpe_tokens {m : BPE} {v : Vocab} (h : SameMap m.vocab v) (w : List Symbol) :
    ∀ p, BPE.wordToTokens { m with vocab := v } p w = m.wordToTokens p w := by
  induction w with
  | nil => intro p; rfl
  | cons s r ih =>
    intro p
    simp only [BPE.wordToTokens, h.back, ih]

theorem or_bpe_merge {m : BPE} {v : Vocab} (P : Platform) (h : SameMap m.vocab v) (s : Str) :
    BPE.mergeWord P { m with vocab := v } s = m.mergeWord P s := by
  simp only [BPE.mergeWord, BPE.symbols, or_bpe_loop h]

theorem or_bpe_word {m : BPE} {v : Vocab} (P : Platform) (h : SameMap m.vocab v) (s : Str) :
    BPE.word P { m with vocab := v } s = ((m.word P s).1, { (m.word P s).2 with vocab := v }) ∧
      (m.word P s).2.vocab = m.vocab := by
  simp only [BPE.word, or_bpe_merge P h, or_bpe_tokens h, BPE.tokenizeWithCache, h.find]
  split
  · cases (if m.ignoreMerges = true then mapFind v s else none) with
    | some i => exact ⟨rfl, rfl⟩
    | none =>
      cases mapFind m.cache s with
      | some w => exact ⟨rfl, rfl⟩
      | none =>
        cases m.mergeWord P s with
        | error e => exact ⟨rfl, rfl⟩
        | ok w =>
          simp only
          cases m.wordToTokens 0 w <;> exact ⟨rfl, rfl⟩
  · cases m.mergeWord P s with
    | error e => exact ⟨rfl, rfl⟩
    | ok w => exact ⟨rfl, rfl⟩

theorem or_bpe_splits {v : Vocab} (P : Platform) (l : List Split) : ∀ {m : BPE}, SameMap m.vocab v →
    BPE.splitsLoop P { m with vocab := v } l = ((m.splitsLoop P l).1, { (m.splitsLoop P l).2 with vocab := v }) ∧
      (m.splitsLoop P l).2.vocab = m.vocab := by
  induction l with
  | nil => intro m h; exact ⟨rfl, rfl⟩
  | cons s r ih =>
    intro m h
    obtain ⟨h1, h2⟩ := or_bpe_word P h s.normalized
    simp only [BPE.splitsLoop, h1]
    rcases hw : m.word P s.normalized with ⟨x, m'⟩
    rw [hw] at h2
    simp only at h2
    cases x with
    | error e => exact ⟨rfl, h2⟩
    | ok ts =>
      obtain ⟨g1, g2⟩ := ih (m := m') (by rw [h2]; exact h)
      simp only [g1]
      rcases hw' : m'.splitsLoop P r with ⟨x', m''⟩
      rw [hw'] at g2
      cases x' with
      | error e => exact ⟨rfl, g2.trans h2⟩
      | ok rest => exact ⟨rfl, g2.trans h2⟩

theorem or_tokenize {v : Vocab} (P : Platform) {m : Model} (h : SameMap m.vocab v) (p : PTS) :
    (reorderedModel v m).tokenize P p = ((m.tokenize P p).1, reorderedModel v (m.tokenize P p).2) ∧
      (m.tokenize P p).2.vocab = m.vocab := by
  cases m with
  | wordPiece m =>
    refine ⟨?_, rfl⟩
    have hw : WordPiece.word { m with vocab := v } = m.word := funext (or_wp_word h)
    simp only [reorderedModel, Model.tokenize, WordPiece.tokenize, hw]
  | bpe m =>
    obtain ⟨h1, h2⟩ := or_bpe_splits P p.splits (m := m) h
    simp only [reorderedModel, Model.tokenize, BPE.tokenize, h1, Model.vocab]
    rcases hw : m.splitsLoop P p.splits with ⟨x, m'⟩
    rw [hw] at h2
    cases x with
    | error e => exact ⟨rfl, h2⟩
    | ok r => exact ⟨rfl, h2⟩

/-! The tokenizer -/

/-- The vocabulary of the tokenizer and `v` are the same map. -/
def SameVoc (t : Tokenizer) (v : Vocab) : Prop := ∀ m, t.model = some m → SameMap m.vocab v

theorem or_preTokenized (P : Platform) (t : Tokenizer) (v : Vocab) (w : WStr) :
    (reordered v t).preTokenized P w = ((t.preTokenized P w).1, reordered v (t.preTokenized P w).2) ∧
      (t.preTokenized P w).2.model = t.model := by
  simp only [Tokenizer.preTokenized, reordered]
  cases PTS.ofNS (NS.ofText w) with
  | error e => exact ⟨rfl, rfl⟩
  | ok p =>
    cases e : t.added with
    | none => simp [e]
    | some a => exact ⟨rfl, rfl⟩

theorem or_doTokenize {P : Platform} {t : Tokenizer} {v : Vocab} (h : SameVoc t v) (p : PTS) :
    (reordered v t).doTokenize P p = ((t.doTokenize P p).1, reordered v (t.doTokenize P p).2) ∧
      SameVoc (t.doTokenize P p).2 v := by
  simp only [Tokenizer.doTokenize, reordered]
  cases e : t.model with
  | none => exact ⟨by simp only [Option.map_none, e], h⟩
  | some m =>
    obtain ⟨h1, h2⟩ := or_tokenize P (h m e) p
    simp only [Option.map_some, h1]
    refine ⟨trivial, ?_⟩
    intro m' hm'
    cases hm'
    rw [h2]; exact h m e

theorem or_encode {P : Platform} {t : Tokenizer} {v : Vocab} (h : SameVoc t v) (w : WStr) (b : Bool) :
    (reordered v t).encode P w b = ((t.encode P w b).1, reordered v (t.encode P w b).2) ∧
      SameVoc (t.encode P w b).2 v := by
  obtain ⟨h1, h2⟩ := or_preTokenized P t v w
  simp only [Tokenizer.encode, h1]
  rcases hp : t.preTokenized P w with ⟨x, t'⟩
  rw [hp] at h2
  simp only at h2
  have h' : SameVoc t' v := by intro m hm; rw [h2] at hm; exact h m hm
  cases x with
  | error e => exact ⟨rfl, h'⟩
  | ok p =>
    obtain ⟨g1, g2⟩ := or_doTokenize (P := P) h' p
    simp only [g1]
    rcases hd : t'.doTokenize P p with ⟨y, t''⟩
    rw [hd] at g2
    cases y with
    | error e => exact ⟨rfl, g2⟩
    | ok e => exact ⟨rfl, g2⟩

theorem or_idToken {t : Tokenizer} {v : Vocab} (h : SameVoc t v) (i : Int) :
    (reordered v t).idToken i = t.idToken i := by
  simp only [Tokenizer.idToken, reordered]
  cases t.added with
  | none => rfl
  | some a =>
    simp only
    cases a.idToToken i with
    | some s => rfl
    | none =>
      simp only
      cases e : t.model with
      | none => rfl
      | some m =>
        have := (h m e).back i
        cases m <;> simp only [Option.map_some, reorderedModel, Model.vocab, idToToken] at this ⊢ <;> rw [this]

theorem or_idTokens {t : Tokenizer} {v : Vocab} (h : SameVoc t v) (skip : Bool) (l : List Int) :
    (reordered v t).idTokens skip l = t.idTokens skip l := by
  induction l with
  | nil => rfl
  | cons i r ih => simp only [Tokenizer.idTokens, or_idToken h, ih]; rfl

theorem or_decode {t : Tokenizer} {v : Vocab} (h : SameVoc t v) (l : List Int) (skip : Bool) :
    (reordered v t).decode l skip = t.decode l skip := by
  simp only [Tokenizer.decode, or_idTokens h]; rfl

/-! Adding tokens -/

/-- Models whose vocabularies are the same map. -/
inductive SameOpt : Option Vocab → Option Vocab → Prop
  | none : SameOpt none none
  | some {v v' : Vocab} : SameKeys v v' → SameOpt (some v) (some v')

theorem or_newId {M M' : Option Vocab} (h : SameOpt M M') (a : AddedVocab) (c : Str) : newId a M' c = newId a M c := by
  cases h with
  | none => rfl
  | some h => simp only [newId, tokenToId, h.find, vocabSize, h.size]; rfl

theorem or_assignIds {M M' : Option Vocab} (h : SameOpt M M') (al : Bool) (l : List AddedToken) :
    ∀ a, assignIds M' al l a = assignIds M al l a := by
  induction l with
  | nil => intro a; rfl
  | cons t r ih => intro a; simp only [assignIds, or_newId h, ih]

theorem or_refresh {M M' : Option Vocab} (h : SameOpt M M') (a : AddedVocab) : a.refresh M' = a.refresh M := by
  cases h with
  | none => rfl
  | some h => simp only [AddedVocab.refresh, trieOf, tokenToId, h.find]

theorem or_core {M M' : Option Vocab} (h : SameOpt M M') (a : AddedVocab) (al : Bool) (l : List AddedToken) :
    a.addTokensCore M' al l = a.addTokensCore M al l := by
  simp only [AddedVocab.addTokensCore, or_assignIds h, or_refresh h]

theorem or_opt {t : Tokenizer} {v : Vocab} (h : ∀ m, t.model = some m → SameKeys m.vocab v) :
    SameOpt (t.model.map Model.vocab) ((reordered v t).model.map Model.vocab) := by
  simp only [reordered]
  cases e : t.model with
  | none => exact .none
  | some m =>
    have := h m e
    cases m <;> exact .some this

theorem or_add {t : Tokenizer} {v : Vocab} (h : SameVoc t v) (l : List AddedToken) :
    (reordered v t).addTokens l = (t.addTokens l).map fun r => (r.1, reordered v r.2) := by
  have ho := or_opt fun m hm => (h m hm).toSameKeys
  simp only [Tokenizer.addTokens]
  show (match t.added with | none => _ | some a => _) = _
  cases e : t.added with
  | none => rfl
  | some a =>
    simp only [AddedVocab.addTokens, or_core ho]
    cases a.addTokensCore (t.model.map Model.vocab) false l with
    | error e => rfl
    | ok r => rfl

theorem or_add_voc {t t' : Tokenizer} {v : Vocab} {n : Nat} {l : List AddedToken} (h : SameVoc t v)
    (ha : t.addTokens l = .ok (n, t')) : SameVoc t' v := by
  obtain ⟨a, a', _, _, rfl⟩ := addTokens_ok ha
  exact h

theorem or_finish {t : Tokenizer} {v : Vocab} (h : ∀ m, t.model = some m → SameKeys m.vocab v) :
    (reordered v t).finish = t.finish.map (reordered v) := by
  have ho := or_opt h
  simp only [Tokenizer.finish]
  show (match t.added with | none => _ | some a => _) = _
  cases e : t.added with
  | none => rfl
  | some a =>
    simp only [or_core ho]
    cases a.addTokensCore (t.model.map Model.vocab) true a.addedTokens with
    | error e => rfl
    | ok r => rfl

theorem or_history {P : Platform} {t t' : Tokenizer} {cs : List Call} {v : Vocab} (hh : History P t cs t')
    (h : SameVoc t v) : History P (reordered v t) cs (reordered v t') ∧ SameVoc t' v := by
  induction hh with
  | nil t => exact ⟨.nil _, h⟩
  | @cons t t' t'' c cs h1 _ ih =>
    have step : After P (reordered v t) c (reordered v t') ∧ SameVoc t' v := by
      cases h1 with
      | encode w b =>
        obtain ⟨g1, g2⟩ := or_encode (P := P) h w b
        refine ⟨?_, g2⟩
        have := After.encode (P := P) (reordered v t) w b
        rw [g1] at this; exact this
      | decode ids b => exact ⟨.decode _ _ _, h⟩
      | addTokens ha =>
        refine ⟨.addTokens (by rw [or_add h, ha]; rfl), or_add_voc h ha⟩
      | addSpecialTokens ha =>
        have ha' : t.addTokens _ = _ := ha
        refine ⟨.addSpecialTokens (t' := reordered v t') (by
          show (reordered v t).addTokens _ = _
          rw [or_add h, ha']; rfl), or_add_voc h ha'⟩
    exact ⟨.cons step.1 (ih step.2).1, (ih step.2).2⟩

/-! Documents -/

theorem or_merges {v v' : Vocab} (h : SameKeys v v') (pre : Str) (l : List Str) :
    ∀ i m, addMerges v' pre i l m = addMerges v pre i l m := by
  induction l with
  | nil => intro i m; rfl
  | cons x r ih =>
    intro i m
    simp only [addMerges, addMerge, h.find, ih]

/-- One entry of the vocabulary object. -/
def entryOf (p : Str × Json) : Res (Str × Int) := p.2.getInt.map fun i => (p.1, i)

theorem or_fields (l : List (Str × Json)) : ∀ {acc : Vocab}, (l.map (·.1)).Nodup → (∀ p ∈ l, p.1 ∉ acc.map (·.1)) →
    vocabFields l acc = (mapRes entryOf l).map (acc ++ ·) := by
  induction l with
  | nil => intro acc _ _; simp [vocabFields, mapRes, Except.map]
  | cons p r ih =>
    intro acc hn ha
    obtain ⟨k, j⟩ := p
    simp only [List.map_cons, List.nodup_cons] at hn
    have hk : mapFind acc k = none := by
      cases e : mapFind acc k with
      | none => rfl
      | some x => exact absurd (List.mem_map.2 ⟨_, mapFind_mem e, rfl⟩) (ha _ (List.mem_cons_self ..))
    simp only [vocabFields, mapRes, entryOf]
    cases j.getInt with
    | error e => rfl
    | ok i =>
      simp only [res_ok_bind, mapInsert, hk]
      rw [ih hn.2]
      · cases mapRes entryOf r with
        | error e => rfl
        | ok vs => simp [Except.map, bind, Except.bind, pure, Except.pure]
      · intro q hq
        simp only [List.map_append, List.map_cons, List.map_nil, List.mem_append, List.mem_singleton, not_or]
        refine ⟨ha q (List.mem_cons_of_mem _ hq), ?_⟩
        intro he
        exact hn.1 (List.mem_map.2 ⟨q, hq, he⟩)

theorem or_getInt {j : Json} {e : Err} (h : j.getInt = .error e) : (jfail : Res Int) = .error e := by
  unfold Json.getInt at h
  split at h
  · split at h
    · split at h
      · cases h
      · exact h
    · exact h
  · exact h

theorem or_entries {fs fs' : List (Str × Json)} (h : fs.Perm fs') :
    (∃ e, mapRes entryOf fs = .error e ∧ mapRes entryOf fs' = .error e) ∨
      ∃ l l', mapRes entryOf fs = .ok l ∧ mapRes entryOf fs' = .ok l' ∧ l.Perm l' := by
  have herr : ∀ (l : List (Str × Json)) {e : Err}, mapRes entryOf l = .error e → (jfail : Res Int) = .error e := by
    intro l
    induction l with
    | nil => intro e h; cases h
    | cons p r ih =>
      intro e h
      simp only [mapRes, entryOf] at h
      cases hp : p.2.getInt with
      | error e' => rw [hp] at h; cases h; exact or_getInt hp
      | ok i =>
        rw [hp] at h
        cases hr : mapRes entryOf r with
        | error e' =>
          have : e' = e := by
            have h' : (mapRes entryOf r >>= fun x => Except.ok ((p.1, i) :: x) : Res _) = .error e := h
            rw [hr] at h'; cases h'; rfl
          rw [← this]; exact ih hr
        | ok x =>
          have h' : (mapRes entryOf r >>= fun x => Except.ok ((p.1, i) :: x) : Res _) = .error e := h
          rw [hr] at h'; cases h'
  induction h with
  | nil => exact .inr ⟨[], [], rfl, rfl, .nil⟩
  | cons p _ ih =>
    simp only [mapRes]
    cases hp : entryOf p with
    | error e => exact .inl ⟨e, rfl, rfl⟩
    | ok a =>
      rcases ih with ⟨e, h1, h2⟩ | ⟨l, l', h1, h2, hl⟩
      · refine .inl ⟨e, ?_, ?_⟩ <;> simp only [h1, h2, res_ok_bind, res_error_bind]
      · refine .inr ⟨a :: l, a :: l', ?_, ?_, hl.cons a⟩ <;> simp only [h1, h2, res_ok_bind, res_pure]
  | swap p q r =>
    cases hp : entryOf p with
    | error e =>
      cases hq : entryOf q with
      | error e' =>
        refine .inl ⟨e', by simp only [mapRes, hq, res_error_bind], ?_⟩
        simp only [mapRes, hp, res_error_bind]
        have h1 := herr [p] (e := e) (by simp only [mapRes, hp, res_error_bind])
        have h2 := herr [q] (e := e') (by simp only [mapRes, hq, res_error_bind])
        rw [h1] at h2; cases h2; rfl
      | ok b => exact .inl ⟨e, by simp only [mapRes, hq, hp, res_ok_bind, res_error_bind], by simp only [mapRes, hp, res_error_bind]⟩
    | ok a =>
      cases hq : entryOf q with
      | error e' => exact .inl ⟨e', by simp only [mapRes, hq, res_error_bind], by simp only [mapRes, hq, hp, res_ok_bind, res_error_bind]⟩
      | ok b =>
        cases hr : mapRes entryOf r with
        | error e => refine .inl ⟨e, ?_, ?_⟩ <;> simp only [mapRes, hq, hp, hr, res_ok_bind, res_error_bind]
        | ok l =>
          refine .inr ⟨b :: a :: l, a :: b :: l, ?_, ?_, .swap _ _ _⟩ <;>
            simp only [mapRes, hq, hp, hr, res_ok_bind, res_pure]
  | trans _ _ ih1 ih2 =>
    rcases ih1 with ⟨e, h1, h2⟩ | ⟨l, l', h1, h2, hl⟩ <;> rcases ih2 with ⟨e', g1, g2⟩ | ⟨m, m', g1, g2, hm⟩
    · rw [h2] at g1; cases g1; exact .inl ⟨e, h1, g2⟩
    · rw [h2] at g1; cases g1
    · rw [h2] at g1; cases g1
    · rw [h2] at g1; cases g1; exact .inr ⟨l, m', h1, g2, hl.trans hm⟩

theorem or_entries_keys {fs : List (Str × Json)} : ∀ {l : Vocab}, mapRes entryOf fs = .ok l →
    l.map (·.1) = fs.map (·.1) := by
  induction fs with
  | nil => intro l h; cases h; rfl
  | cons p r ih =>
    intro l h
    simp only [mapRes, entryOf] at h
    cases hp : p.2.getInt with
    | error e => rw [hp] at h; cases h
    | ok i =>
      have h' : (mapRes entryOf r >>= fun x => Except.ok ((p.1, i) :: x) : Res _) = .ok l := by rw [hp] at h; exact h
      obtain ⟨x, hx, h'⟩ := res_bind_ok.1 h'
      cases h'
      simp only [List.map_cons, ih hx]

/-- The vocabularies read from the two objects. -/
theorem or_vocab {fs fs' : List (Str × Json)} (hn : (fs.map (·.1)).Nodup) (h : fs.Perm fs') :
    (∃ e, vocabFields fs [] = .error e ∧ vocabFields fs' [] = .error e) ∨
      ∃ v v', vocabFields fs [] = .ok v ∧ vocabFields fs' [] = .ok v' ∧ v.Perm v' ∧ (v.map (·.1)).Nodup := by
  have hn' : (fs'.map (·.1)).Nodup := (h.map _).nodup_iff.1 hn
  rw [or_fields fs hn (by simp), or_fields fs' hn' (by simp)]
  rcases or_entries h with ⟨e, h1, h2⟩ | ⟨l, l', h1, h2, hl⟩
  · exact .inl ⟨e, by rw [h1]; rfl, by rw [h2]; rfl⟩
  · refine .inr ⟨l, l', by rw [h1]; rfl, by rw [h2]; rfl, hl, ?_⟩
    rw [or_entries_keys h1]; exact hn

theorem or_field {xs ys : List (Str × Json)} {k k' : Str} (a b : Json) (hk : k ≠ k') :
    (Json.obj (xs ++ (k, a) :: ys)).field k' = (Json.obj (xs ++ (k, b) :: ys)).field k' := by
  have : mapFind (xs ++ (k, a) :: ys) k' = mapFind (xs ++ (k, b) :: ys) k' := by
    induction xs with
    | nil => simp only [List.nil_append, mapFind, if_neg hk]
    | cons p r ih => simp only [List.cons_append, mapFind, ih]
  simp only [Json.field, Json.getObject, res_ok_bind, this]

theorem or_field_at {xs ys : List (Str × Json)} {k : Str} (a : Json) (hk : k ∉ xs.map (·.1)) :
    (Json.obj (xs ++ (k, a) :: ys)).field k = .ok a := by
  have : mapFind (xs ++ (k, a) :: ys) k = some a := by
    induction xs with
    | nil => simp only [List.nil_append, mapFind, if_true]
    | cons p r ih =>
      simp only [List.map_cons, List.mem_cons, not_or] at hk
      simp only [List.cons_append, mapFind]
      rw [if_neg (fun h => hk.1 h.symm)]
      exact ih hk.2
  simp only [Json.field, Json.getObject, res_ok_bind, this]

theorem or_depth {l l' : List (Str × Json)} (h : l.Perm l') : Json.depthFields l = Json.depthFields l' := by
  induction h with
  | nil => rfl
  | cons p _ ih => simp only [Json.depthFields, ih]
  | swap p q r => simp only [Json.depthFields]; omega
  | trans _ _ h1 h2 => exact h1.trans h2

theorem or_depth_at (xs ys : List (Str × Json)) (k : Str) {a b : Json} (h : a.depth = b.depth) :
    Json.depthFields (xs ++ (k, a) :: ys) = Json.depthFields (xs ++ (k, b) :: ys) := by
  induction xs with
  | nil => simp only [List.nil_append, Json.depthFields, h]
  | cons p r ih => simp only [List.cons_append, Json.depthFields, ih]

/-- The models read from the two sections. -/
theorem or_model {P : Platform} {us vs fs fs' : List (Str × Json)} (hu : b!"vocab" ∉ us.map (·.1))
    (hn : (fs.map (·.1)).Nodup) (h : fs.Perm fs') :
    ∃ v', withModel P (.obj (us ++ (b!"vocab", .obj fs') :: vs)) =
        (withModel P (.obj (us ++ (b!"vocab", .obj fs) :: vs))).map (Option.map (reorderedModel v')) ∧
      ∀ m, withModel P (.obj (us ++ (b!"vocab", .obj fs) :: vs)) = .ok (some m) →
        (m.vocab.map (·.1)).Nodup ∧ m.vocab.Perm v' := by
  have hf : ∀ k', b!"vocab" ≠ k' → (Json.obj (us ++ (b!"vocab", .obj fs') :: vs)).field k' =
      (Json.obj (us ++ (b!"vocab", .obj fs) :: vs)).field k' := fun k' hk => or_field _ _ hk
  have h1 := or_field_at (xs := us) (ys := vs) (.obj fs) hu
  have h2 := or_field_at (xs := us) (ys := vs) (.obj fs') hu
  have e1 : ∀ fs, Json.orDefault (.obj fs) ([] : Vocab) (fun v => do vocabFields (← v.getObject) []) = vocabFields fs [] :=
    fun _ => rfl
  simp only [withModel, Json.opt, h1, h2, res_ok_bind, e1,
    hf b!"type" (by decide), hf b!"unk_token" (by decide), hf b!"max_input_chars_per_word" (by decide),
    hf b!"continuing_subword_prefix" (by decide), hf b!"merges" (by decide), hf b!"dropout" (by decide),
    hf b!"end_of_word_suffix" (by decide), hf b!"fuse_unk" (by decide), hf b!"byte_fallback" (by decide),
    hf b!"ignore_merges" (by decide)]
  generalize (Json.obj (us ++ (b!"vocab", .obj fs) :: vs)) = j
  cases (j.field b!"type") with
  | error e => exact ⟨[], rfl, by intro m hm; cases hm⟩
  | ok jt =>
  simp only [res_ok_bind]
  cases jt.getString with
  | error e => exact ⟨[], rfl, by intro m hm; cases hm⟩
  | ok ty =>
  simp only [res_ok_bind]
  rcases or_vocab hn h with ⟨e, g1, g2⟩ | ⟨v, v', g1, g2, hp, hk⟩
  · rw [g1, g2]; exact ⟨[], rfl, by intro m hm; cases hm⟩
  have hs : SameKeys v v' := ⟨or_perm_find hp hk, hp.length_eq⟩
  refine ⟨v', ?_⟩
  rw [g1, g2]
  simp only [res_ok_bind]
  by_cases c1 : ty = b!"WordPiece"
  · simp only [if_pos c1]
    generalize (do let x ← j.field b!"unk_token"; x.orDefault ([] : Str) Json.getString) = x1
    generalize (do let x ← j.field b!"max_input_chars_per_word"; x.orDefault (0 : Int) Json.getInt) = x2
    generalize (do let x ← j.field b!"continuing_subword_prefix"; x.orDefault ([] : Str) Json.getString) = x3
    cases x1 with
    | error e => exact ⟨rfl, by intro m hm; cases hm⟩
    | ok a =>
    cases x2 with
    | error e => exact ⟨rfl, by intro m hm; cases hm⟩
    | ok b =>
    cases x3 with
    | error e => exact ⟨rfl, by intro m hm; cases hm⟩
    | ok c => exact ⟨rfl, by intro m hm; cases hm; exact ⟨hk, hp⟩⟩
  · simp only [if_neg c1]
    by_cases c2 : ty = b!"BPE"
    · simp only [if_pos c2, BPE.make, or_merges hs]
      generalize (do let x ← j.field b!"merges"; x.orDefault ([] : List Str) fun v => do mapRes Json.getString (← v.getArray)) = x1
      generalize (do let x ← j.field b!"dropout"; x.orDefault ({ on := false, draw := fun _ => false } : Dropout) (dropoutValue P)) = x2
      generalize (do let x ← j.field b!"unk_token"; x.orDefault ([] : Str) Json.getString) = x3
      generalize (do let x ← j.field b!"continuing_subword_prefix"; x.orDefault ([] : Str) Json.getString) = x4
      generalize (do let x ← j.field b!"end_of_word_suffix"; x.orDefault ([] : Str) Json.getString) = x5
      generalize (do let x ← j.field b!"fuse_unk"; x.orDefault false Json.getBool) = x6
      generalize (do let x ← j.field b!"byte_fallback"; x.orDefault false Json.getBool) = x7
      generalize (do let x ← j.field b!"ignore_merges"; x.orDefault false Json.getBool) = x8
      cases x1 with
      | error e => exact ⟨rfl, by intro m hm; cases hm⟩
      | ok a1 =>
      cases x2 with
      | error e => exact ⟨rfl, by intro m hm; cases hm⟩
      | ok a2 =>
      cases x3 with
      | error e => exact ⟨rfl, by intro m hm; cases hm⟩
      | ok a3 =>
      cases x4 with
      | error e => exact ⟨rfl, by intro m hm; cases hm⟩
      | ok a4 =>
      cases x5 with
      | error e => exact ⟨rfl, by intro m hm; cases hm⟩
      | ok a5 =>
      cases x6 with
      | error e => exact ⟨rfl, by intro m hm; cases hm⟩
      | ok a6 =>
      cases x7 with
      | error e => exact ⟨rfl, by intro m hm; cases hm⟩
      | ok a7 =>
      cases x8 with
      | error e => exact ⟨rfl, by intro m hm; cases hm⟩
      | ok a8 =>
      simp only [res_ok_bind]
      cases addMerges v a4 0 a1 [] with
      | error e => exact ⟨rfl, by intro m hm; cases hm⟩
      | ok ms => exact ⟨rfl, by intro m hm; cases hm; exact ⟨hk, hp⟩⟩
    · simp only [if_neg c2]
      exact ⟨rfl, by intro m hm; cases hm⟩

theorem or_sections {P : Platform} {d d' : Json} (h : SameUpToOrder d d') (fuel : Nat) :
    ∃ v', parseSections P fuel d' = (parseSections P fuel d).map (reordered v') ∧
      ∀ t m, parseSections P fuel d = .ok t → t.model = some m → (m.vocab.map (·.1)).Nodup ∧ m.vocab.Perm v' := by
  cases h with
  | @mk xs ys us vs fs fs' hx hu hn hp =>
  obtain ⟨v', hm, hm'⟩ := or_model (P := P) (vs := vs) hu hn hp
  refine ⟨v', ?_⟩
  generalize hA : Json.obj (us ++ (b!"vocab", .obj fs) :: vs) = A at hm hm'
  generalize hB : Json.obj (us ++ (b!"vocab", .obj fs') :: vs) = B at hm
  have hsec : ∀ {α : Type} (k' : Str) (f : Json → Res (Option α)), b!"model" ≠ k' →
      section' (.obj (xs ++ (b!"model", B) :: ys)) k' f = section' (.obj (xs ++ (b!"model", A) :: ys)) k' f := by
    intro α k' f hk
    simp only [section', or_field B A hk]
  have s1 : section' (.obj (xs ++ (b!"model", A) :: ys)) b!"model" (withModel P) = withModel P A := by
    rw [section', or_field_at A hx, ← hA]; rfl
  have s2 : section' (.obj (xs ++ (b!"model", B) :: ys)) b!"model" (withModel P) =
      (withModel P A).map (Option.map (reorderedModel v')) := by
    rw [← hm]
    rw [section', or_field_at B hx, ← hB]; rfl
  have q1 := hsec b!"truncation" (fun j => do pure (some (← withTruncation j))) (by decide)
  have q2 := hsec b!"padding" (fun j => do pure (some (← withPadding j))) (by decide)
  have q3 := hsec b!"added_tokens" (fun j => do pure (some (← withAddedVocabulary j))) (by decide)
  have q4 := hsec b!"normalizer" (withNormalizer fuel) (by decide)
  have q5 := hsec b!"pre_tokenizer" (withPreTokenizer fuel) (by decide)
  have q6 := hsec b!"decoder" (withDecoder fuel) (by decide)
  have q7 := hsec b!"post_processor" (withPostProcessor fuel) (by decide)
  simp only [parseSections, q1, q2, q3, q4, q5, q6, q7, s1, s2]
  generalize section' (.obj (xs ++ (b!"model", A) :: ys)) b!"truncation" (fun j => do pure (some (← withTruncation j))) = x1
  generalize section' (.obj (xs ++ (b!"model", A) :: ys)) b!"padding" (fun j => do pure (some (← withPadding j))) = x2
  generalize section' (.obj (xs ++ (b!"model", A) :: ys)) b!"added_tokens" (fun j => do pure (some (← withAddedVocabulary j))) = x3
  generalize section' (.obj (xs ++ (b!"model", A) :: ys)) b!"normalizer" (withNormalizer fuel) = x4
  generalize section' (.obj (xs ++ (b!"model", A) :: ys)) b!"pre_tokenizer" (withPreTokenizer fuel) = x5
  generalize section' (.obj (xs ++ (b!"model", A) :: ys)) b!"decoder" (withDecoder fuel) = x6
  generalize section' (.obj (xs ++ (b!"model", A) :: ys)) b!"post_processor" (withPostProcessor fuel) = x7
  cases x1 with
  | error e => exact ⟨rfl, by intro t m ht; cases ht⟩
  | ok a1 =>
  cases x2 with
  | error e => exact ⟨rfl, by intro t m ht; cases ht⟩
  | ok a2 =>
  cases x3 with
  | error e => exact ⟨rfl, by intro t m ht; cases ht⟩
  | ok a3 =>
  cases x4 with
  | error e => exact ⟨rfl, by intro t m ht; cases ht⟩
  | ok a4 =>
  cases x5 with
  | error e => exact ⟨rfl, by intro t m ht; cases ht⟩
  | ok a5 =>
  simp only [res_ok_bind]
  cases hw : withModel P A with
  | error e => exact ⟨rfl, by intro t m ht; cases ht⟩
  | ok om =>
  simp only [Except.map, res_ok_bind]
  cases x6 with
  | error e => exact ⟨rfl, by intro t m ht; cases ht⟩
  | ok a6 =>
  cases x7 with
  | error e => exact ⟨rfl, by intro t m ht; cases ht⟩
  | ok a7 =>
  refine ⟨rfl, ?_⟩
  intro t m ht hmm
  cases ht
  simp only at hmm
  subst hmm
  exact hm' m hw

theorem or_depth_doc {d d' : Json} (h : SameUpToOrder d d') : d.depth = d'.depth := by
  cases h with
  | mk _ _ _ hp =>
    simp only [Json.depth]
    congr 1
    refine or_depth_at _ _ _ ?_
    simp only [Json.depth]
    congr 1
    refine or_depth_at _ _ _ ?_
    simp only [Json.depth, or_depth hp]

theorem or_make {P : Platform} {d d' : Json} (h : SameUpToOrder d d') :
    ∃ v', Tokenizer.make P (.document d') = (Tokenizer.make P (.document d)).map (reordered v') ∧
      ∀ t m, Tokenizer.make P (.document d) = .ok t → t.model = some m →
        (m.vocab.map (·.1)).Nodup ∧ m.vocab.Perm v' := by
  obtain ⟨v', h1, h2⟩ := or_sections (P := P) h d.depth
  refine ⟨v', ?_⟩
  simp only [Tokenizer.make, ← or_depth_doc h, h1]
  cases hs : parseSections P d.depth d with
  | error e => cases e <;> exact ⟨rfl, by intro t m ht; cases ht⟩
  | ok t =>
    have hk : ∀ m, t.model = some m → SameKeys m.vocab v' := by
      intro m hm
      obtain ⟨g1, g2⟩ := h2 t m hs hm
      exact ⟨or_perm_find g2 g1, g2.length_eq⟩
    refine ⟨or_finish hk, ?_⟩
    intro t' m ht' hm
    have : t'.model = t.model := by
      simp only [Tokenizer.finish] at ht'
      cases ha : t.added with
      | none => rw [ha] at ht'; cases ht'; rfl
      | some a =>
        rw [ha] at ht'
        obtain ⟨r, _, ht'⟩ := res_bind_ok.1 ht'
        cases ht'; rfl
    rw [this] at hm
    exact h2 t m hs hm

end Tok
