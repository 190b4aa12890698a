import Verif.Proofs.History
import Verif.Sample

set_option autoImplicit false

/-!
Properties C27-C30 and C33: ids of added tokens.
-/

namespace Tok
open Spec

/-- **C27** Both calls return the number of given tokens with non-empty content. -/
theorem C27_count {t t' : Tokenizer} {l : List AddedToken} {n : Nat}
    (h : t.addTokens l = .ok (n, t') ∨ t.addSpecialTokens l = .ok (n, t')) :
    n = (l.filter fun x => x.content ≠ []).length := by
  replace h : t.addTokens l = .ok (n, t') := by rcases h with h | h <;> exact h
  obtain ⟨a, a', _, hc, _⟩ := addTokens_ok h
  rw [(addTokensCore_ok hc).1]
  clear h hc
  induction l with
  | nil => rfl
  | cons x r ih =>
    have hle : (r.filter fun t => t.content = []).length ≤ r.length := List.length_filter_le _ _
    by_cases hx : x.content = []
    · simp only [List.filter_cons, hx, decide_true, if_true, List.length_cons, ne_eq, not_true_eq_false,
        decide_false, Bool.false_eq_true, if_false]
      rw [← ih]; omega
    · simp only [List.filter_cons, hx, decide_false, Bool.false_eq_true, if_false, List.length_cons, ne_eq,
        not_false_eq_true, decide_true, if_true]
      rw [← ih]; omega

theorem newId_ok (a : AddedVocab) {v : Vocab} (hv : v ≠ []) (c : Str) : ∃ i, newId a (some v) c = .ok i := by
  have h0 : vocabSize v ≠ 0 := by
    cases v with
    | nil => exact absurd rfl hv
    | cons p r => simp [vocabSize]; omega
  unfold newId
  cases mapFind a.map c with
  | some i => exact ⟨i, rfl⟩
  | none =>
    simp only
    cases tokenToId v c with
    | some i => exact ⟨i, rfl⟩
    | none =>
      simp only
      cases maxId a.map with
      | none => simp only [if_neg h0]; exact ⟨_, rfl⟩
      | some w =>
        simp only
        split
        · exact ⟨_, rfl⟩
        · exact ⟨_, rfl⟩

theorem assignIds_ok {v : Vocab} (hv : v ≠ []) (l : List AddedToken) : ∀ a, ∃ a', assignIds (some v) false l a = .ok a' := by
  induction l with
  | nil => intro a; exact ⟨a, rfl⟩
  | cons t r ih =>
    intro a
    simp only [assignIds]
    split
    · exact ih a
    · obtain ⟨i, hi⟩ := newId_ok a hv t.content
      rw [hi, res_ok_bind]
      split
      · exact ih _
      · simp only [Bool.false_eq_true, if_false]
        exact ih _

/-- **C27** The calls return whenever there is an added vocabulary and a model with a
non-empty vocabulary. -/
theorem C27_returns {t : Tokenizer} {a : AddedVocab} {m : Model} (ha : t.added = some a) (hm : t.model = some m)
    (hv : m.vocab ≠ []) (l : List AddedToken) :
    ∃ t', t.addTokens l = .ok ((l.filter fun x => x.content ≠ []).length, t') ∧
      t.addSpecialTokens l = .ok ((l.filter fun x => x.content ≠ []).length, t') := by
  have : ∃ n t', t.addTokens l = .ok (n, t') := by
    unfold Tokenizer.addTokens
    rw [ha, hm]
    simp only [Option.map_some]
    unfold AddedVocab.addTokens AddedVocab.addTokensCore
    obtain ⟨a1, h1⟩ := assignIds_ok hv l (registerSpecials l a)
    rw [h1]
    exact ⟨_, _, rfl⟩
  obtain ⟨n, t', h⟩ := this
  have := C27_count (.inl h)
  exact ⟨t', this ▸ h, this ▸ h⟩

/-- **C28** An id once recorded for a content stays, whatever calls follow. -/
theorem C28_ids_stable (P : Platform) {t t' : Tokenizer} {cs : List Call} (h : History P t cs t') (c : Str) (i : Int)
    (hc : recorded t c = some i) : recorded t' c = some i := by
  induction h with
  | nil => exact hc
  | @cons t u t'' x xs h1 _ ih =>
    refine ih ?_
    rcases (after_added h1).2 with h | ⟨a, a', ha, ha', h⟩
    · unfold recorded; rw [h]; exact hc
    · unfold recorded at hc ⊢
      rw [ha] at hc; rw [ha']
      rcases h with h | ⟨l, n, _, h⟩
      · show mapFind a'.map c = _; rw [h.map]; exact hc
      · exact core_keeps h c i hc

/-- **C28** A token that the model knows is recorded under the model's id, and a token that has been
recorded under an id keeps it. -/
theorem C28_model_id_kept {t t' : Tokenizer} {l : List AddedToken} {n : Nat}
    (h : t.addTokens l = .ok (n, t') ∨ t.addSpecialTokens l = .ok (n, t')) (c : Str) (hc : recorded t c = none)
    (hl : ∃ x ∈ l, x.content = c) (i : Int) (hi : modelId t c = some i) (hne : c ≠ []) : recorded t' c = some i := by
  replace h : t.addTokens l = .ok (n, t') := by rcases h with h | h <;> exact h
  obtain ⟨a, a', ha, hco, rfl⟩ := addTokens_ok h
  obtain ⟨-, a1, h1, h2⟩ := addTokensCore_ok hco
  unfold recorded at hc ⊢
  rw [ha] at hc
  simp only [Option.bind_some] at hc ⊢
  rw [(refresh_ok h2).1]
  have hc : mapFind (registerSpecials l a).map c = none := by rw [(registerSpecials_map l a).1]; exact hc
  have hm : ∃ v, t.vocab? = some v ∧ tokenToId v c = some i := by
    unfold modelId at hi
    unfold Tokenizer.vocab?
    cases h : t.model with
    | none => rw [h] at hi; cases hi
    | some m => rw [h] at hi; exact ⟨_, rfl, hi⟩
  obtain ⟨v, hv, hvi⟩ := hm
  rw [hv] at h1
  clear h hco h2 hi ha
  generalize registerSpecials l a = b at h1 hc
  induction l generalizing b with
  | nil => obtain ⟨x, hx, _⟩ := hl; cases hx
  | cons x r ih =>
    by_cases hxc : x.content = c
    · rcases assignIds_cons h1 with ⟨he, _⟩ | ⟨_, j, b1, hj, h1, hm, -⟩
      · exact absurd (hxc ▸ he) hne
      · refine assignIds_keeps r h1 _ _ ?_
        rw [hm, mapFind_set, hxc]
        simp only [if_true]
        rw [hxc] at hj
        unfold newId at hj
        rw [hc] at hj
        simp only [hvi] at hj
        exact congrArg some (Except.ok.inj hj).symm
    · have hl' : ∃ y ∈ r, y.content = c := by
        obtain ⟨y, hy, hyc⟩ := hl
        rcases List.mem_cons.1 hy with rfl | hy
        · exact absurd hyc hxc
        · exact ⟨y, hy, hyc⟩
      rcases assignIds_cons h1 with ⟨he, h1⟩ | ⟨_, j, b1, hj, h1, hm, -⟩
      · exact ih hl' b h1 hc
      · refine ih hl' b1 h1 ?_
        rw [hm, mapFind_set, if_neg hxc]; exact hc

/-- **C29** (for vocabularies numbered without gaps) Two contents never share an id, and the id of a
content that the model does not know is not the id of any model token. -/
theorem C29_ids_distinct_partial (P : Platform) {t t' : Tokenizer} {cs : List Call} {m : Model} (hc : Constructed t)
    (hm : t.model = some m) (hv : DenseVocab m.vocab) (h : History P t cs t') :
    (∀ c c' i, recorded t' c = some i → recorded t' c' = some i → c = c') ∧
    (∀ c i, recorded t' c = some i → modelId t' c = some i ∨
      (modelId t' c = none ∧ ∀ k, modelId t' k ≠ some i)) := by
  obtain ⟨hv', hI⟩ := constructed_ainv hv hc (by unfold Tokenizer.vocab?; rw [hm]; rfl) h
  have hid : ∀ k, modelId t' k = tokenToId m.vocab k := by
    intro k
    unfold Tokenizer.vocab? at hv'
    unfold modelId
    cases hq : t'.model with
    | none => rw [hq] at hv'; cases hv'
    | some m' =>
      rw [hq] at hv'
      simp only [Option.map_some, Option.some.injEq] at hv'
      simp [hv']
  cases ha : t'.added with
  | none => simp [recorded, ha]
  | some a =>
    have I := hI a ha
    refine ⟨?_, ?_⟩
    · intro c c' i h1 h2
      simp only [recorded, ha, Option.bind_some] at h1 h2
      exact I.inj c c' i h1 h2
    · intro c i h1
      simp only [recorded, ha, Option.bind_some] at h1
      rw [hid]
      rcases I.known c i h1 with h2 | ⟨h2, h3⟩
      · exact .inl h2
      · refine .inr ⟨h2, fun k hk => ?_⟩
        rw [hid] at hk
        have := denseVocab_lt hv hk
        rcases h3 with h3 | h3
        · exact this.2 h3
        · omega

/-- **C30** (for vocabularies numbered without gaps) After a token with non-empty content has been given to
`add_tokens` or `add_special_tokens`, and after whatever calls follow, the content has an id and this id is
looked up as the content. -/
theorem C30_lookup_partial (P : Platform) {t t' t'' : Tokenizer} {cs cs' : List Call} {m : Model} {l : List AddedToken}
    {x : AddedToken} {n : Nat} (hc : Constructed t) (hm : t.model = some m) (hv : DenseVocab m.vocab)
    (h : History P t cs t') (hx : x ∈ l) (hne : x.content ≠ [])
    {u : Tokenizer} (hadd : t'.addTokens l = .ok (n, u) ∨ t'.addSpecialTokens l = .ok (n, u))
    (h' : History P u cs' t'') :
    ∃ i, recorded u x.content = some i ∧ recorded t'' x.content = some i ∧ t''.idToken i = .ok x.content := by
  have hadd' : t'.addTokens l = .ok (n, u) := by rcases hadd with h | h <;> exact h
  obtain ⟨a, a', ha, hco, hu⟩ := addTokens_ok hadd'
  obtain ⟨_, a1, h1, h2⟩ := addTokensCore_ok hco
  obtain ⟨i, hi⟩ := assignIds_records l h1 x hx hne
  have hrec : recorded u x.content = some i := by
    subst hu
    simp only [recorded, Option.bind_some]
    rw [(refresh_ok h2).1]; exact hi
  have hrec' := C28_ids_stable P h' _ _ hrec
  refine ⟨i, hrec, hrec', ?_⟩
  -- the whole history
  have app : ∀ {t t' t'' : Tokenizer} {cs cs' : List Call}, History P t cs t' → History P t' cs' t'' →
      History P t (cs ++ cs') t'' := by
    intro t t' t'' cs cs' h
    induction h with
    | nil => exact fun h => h
    | cons ha _ ih => exact fun h => .cons ha (ih h)
  have hall := app h (.cons (.addTokens hadd') h')
  obtain ⟨_, hI⟩ := constructed_ainv hv hc (by unfold Tokenizer.vocab?; rw [hm]; rfl) hall
  cases hb : t''.added with
  | none => simp [recorded, hb] at hrec'
  | some b =>
    simp only [recorded, hb, Option.bind_some] at hrec'
    obtain ⟨y, hy, hyc⟩ := (hI b hb).back _ _ hrec'
    unfold Tokenizer.idToken
    rw [hb]
    simp [AddedVocab.idToToken, hy, hyc]

/-- A word-piece model over a vocabulary. -/
def wpOf (v : Vocab) : Model := .wordPiece { vocab := v, unkToken := b!"[UNK]", maxChars := 100, pre := b!"##" }

/-- A tokenizer with a model, no configured added tokens and a decoder that joins. -/
def tkOf (v : Vocab) : Tokenizer :=
  { added := some (AddedVocab.init []), model := some (wpOf v), decoder := some .byteLevel }

/-- The contents of plain added tokens. -/
def plain (l : List Str) : List AddedToken := l.map fun c => { content := c }

/-- Names of the ids recorded after adding tokens one call at a time. -/
def recordedAfter (t : Tokenizer) (ls : List (List AddedToken)) (cs : List Str) : Res (List (Option Int)) := do
  let t ← ls.foldlM (fun t l => do return (← t.addTokens l).2) t
  return cs.map (recorded t)

/-- A vocabulary with a gap: one entry, with id 1. -/
def gapVocab : Vocab := [(b!"a", 1)]

/-- **C29** is false of a vocabulary with a gap: the id given to the new token `x` is the id of
the model token `a`, and after adding `a` the two share it. -/
theorem C29_violated :
    recordedAfter (tkOf gapVocab) [plain [b!"x"]] [b!"x"] = .ok [some 1] ∧
    modelId (tkOf gapVocab) b!"a" = some 1 ∧
    recordedAfter (tkOf gapVocab) [plain [b!"x"], plain [b!"a"]] [b!"x", b!"a"] = .ok [some 1, some 1] := by
  decide +kernel

/-- The token found for an id after adding tokens. -/
def lookupAfter (t : Tokenizer) (ls : List (List AddedToken)) (i : Int) : Res Str := do
  let t ← ls.foldlM (fun t l => do return (← t.addTokens l).2) t
  t.idToken i

/-- **C30** is false of a vocabulary with a gap: `x` keeps the id 1 but 1 is decoded as `a`. -/
theorem C30_violated :
    lookupAfter (tkOf gapVocab) [plain [b!"x"]] 1 = .ok b!"x" ∧
    recordedAfter (tkOf gapVocab) [plain [b!"x"], plain [b!"a"]] [b!"x"] = .ok [some 1] ∧
    lookupAfter (tkOf gapVocab) [plain [b!"x"], plain [b!"a"]] 1 = .ok b!"a" := by
  decide +kernel

/-- A dense vocabulary and a tokenizer over it meet the hypotheses of C28-C30, and adding a known
token and two new ones gives the ids 1, 3 and 4. -/
def denseV : Vocab := [(b!"a", 0), (b!"b", 1), (b!"c", 2)]

example : DenseVocab denseV := by unfold DenseVocab; decide
example : Constructed (tkOf denseV) := ⟨tkOf denseV, some [], rfl, rfl⟩
example : recordedAfter (tkOf denseV) [plain [b!"b", b!"x"], plain [b!"y", b!"x", []]] [b!"b", b!"x", b!"y", []]
    = .ok [some 1, some 3, some 4, none] := by decide +kernel

/-- **C33** (tokens whose `special` flag is set) After `add_tokens` or `add_special_tokens` exactly the tokens
that were special before and the given ones with the flag set (and non-empty content) are special. -/
theorem C33_special_iff_partial {t t' : Tokenizer} {l : List AddedToken} {n : Nat}
    (h : t.addTokens l = .ok (n, t') ∨ t.addSpecialTokens l = .ok (n, t')) (c : Str) :
    t'.isSpecial c = true ↔ t.isSpecial c = true ∨ ∃ x ∈ l, x.special = true ∧ x.content = c ∧ c ≠ [] := by
  replace h : t.addTokens l = .ok (n, t') := by rcases h with h | h <;> exact h
  obtain ⟨a, a', ha, hco, rfl⟩ := addTokens_ok h
  obtain ⟨_, a1, h1, h2⟩ := addTokensCore_ok hco
  have e1 := (refresh_ok h2).2.2.1
  have e2 := (assignIds_special l h1).1
  have : a'.isSpecial c = (registerSpecials l a).isSpecial c := by
    unfold AddedVocab.isSpecial; rw [e1, e2]
  simp only [Tokenizer.isSpecial, ha]
  rw [this, registerSpecials_isSpecial]
  constructor
  · rintro (h | ⟨x, hx, h1, h2, h3⟩)
    · exact .inl h
    · exact .inr ⟨x, hx, h1, h3, h3 ▸ h2⟩
  · rintro (h | ⟨x, hx, h1, h2, h3⟩)
    · exact .inl h
    · exact .inr ⟨x, hx, h1, h2 ▸ h3, h2⟩

/-- **C33** Encoding and decoding never change which tokens are special, and special tokens stay
special. -/
theorem C33_special_stays (P : Platform) {t t' : Tokenizer} {cs : List Call} (h : History P t cs t') (c : Str)
    (hs : t.isSpecial c = true) : t'.isSpecial c = true := by
  induction h with
  | nil => exact hs
  | @cons t u t'' x xs h1 _ ih =>
    refine ih ?_
    cases h1 with
    | encode w b =>
      rcases (encode_state P t w b).1 with h | ⟨a, ha, h⟩
      · unfold Tokenizer.isSpecial; rw [h]; exact hs
      · unfold Tokenizer.isSpecial at hs ⊢
        rw [ha] at hs; rw [h]
        have := (extract_touched P t.normalizer a w).same
        show AddedVocab.isSpecial _ c = true
        rw [this]; exact hs
    | decode => exact hs
    | addTokens h => exact (C33_special_iff_partial (.inl h) c).2 (.inl hs)
    | addSpecialTokens h => exact (C33_special_iff_partial (.inr h) c).2 (.inl hs)

/-- Decoding ids after `add_special_tokens`. -/
def decodeAfterSpecial (t : Tokenizer) (l : List AddedToken) (ids : List Int) : Res Str := do
  let (_, t) ← t.addSpecialTokens l
  t.decode ids true

/-- **C33** as stated is false: `add_special_tokens` does not set the flag, so a token added through
it is not left out by `skip_special_tokens` unless it came with the flag. -/
theorem C33_violated :
    decodeAfterSpecial (tkOf denseV) [{ content := b!"x" }] [0, 3, 1] = .ok b!"axb" ∧
    decodeAfterSpecial (tkOf denseV) [{ content := b!"x", special := true }] [0, 3, 1] = .ok b!"ab" := by
  decide +kernel

end Tok
