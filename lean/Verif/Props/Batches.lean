import Verif.Spec.Batches
import Verif.Props.Decoding

set_option autoImplicit false

/-!
C115: adding tokens in one call or in several.
-/

namespace Tok
open Spec

/-! ### Registering specials and assigning ids commute -/

/-- `a` with other lookup tables. -/
def AddedVocab.withTries (a : AddedVocab) (x y : List (Str × Int)) : AddedVocab := { a with nonNormTrie := x, normTrie := y }

theorem bt_register_tries (l : List AddedToken) (x y : List (Str × Int)) : ∀ a : AddedVocab,
    registerSpecials l (a.withTries x y) = (registerSpecials l a).withTries x y := by
  induction l with
  | nil => intro a; rfl
  | cons t r ih =>
    intro a
    simp only [registerSpecials]
    have e : (a.withTries x y).isSpecial t.content = a.isSpecial t.content := rfl
    rw [e]
    by_cases h : t.special = true ∧ t.content ≠ [] ∧ a.isSpecial t.content = false
    · rw [if_pos h, if_pos h]
      exact ih { a with specialTokens := a.specialTokens ++ [t], specialSet := a.specialSet ++ [t.content] }
    · rw [if_neg h, if_neg h, ih]

theorem bt_assign_tries (v : Vocab) (l : List AddedToken) (x y : List (Str × Int)) : ∀ a : AddedVocab,
    assignIds (some v) false l (a.withTries x y) = (assignIds (some v) false l a).map (·.withTries x y) := by
  induction l with
  | nil => intro a; rfl
  | cons t r ih =>
    intro a
    simp only [assignIds]
    by_cases h : t.content = []
    · rw [if_pos h, if_pos h, ih]
    · rw [if_neg h, if_neg h]
      have e : newId (a.withTries x y) (some v) t.content = newId a (some v) t.content := rfl
      rw [e]
      cases newId a (some v) t.content with
      | error _ => rfl
      | ok i =>
        simp only [res_ok_bind, Bool.false_eq_true, if_false]
        simp only [AddedVocab.isSpecial, AddedVocab.withTries]
        by_cases hs : a.specialSet.contains t.content = true
        · simp only [hs, if_true]
          exact ih { a with map := mapSet a.map t.content i, mapR := mapSet a.mapR i t }
        · simp only [hs, Bool.false_eq_true, if_false]
          exact ih { a with map := mapSet a.map t.content i, mapR := mapSet a.mapR i t, addedTokens := a.addedTokens ++ [t] }

/-- `a` with other special tokens. -/
def AddedVocab.withSpecials (a b : AddedVocab) : AddedVocab := { a with specialTokens := b.specialTokens, specialSet := b.specialSet }

/-- Registering changes the special tokens only, and depends on nothing else. -/
theorem bt_register_only (l : List AddedToken) : ∀ a b : AddedVocab, a.specialTokens = b.specialTokens → a.specialSet = b.specialSet →
    registerSpecials l a = a.withSpecials (registerSpecials l b) := by
  induction l with
  | nil => intro a b h1 h2; simp only [registerSpecials, AddedVocab.withSpecials, ← h1, ← h2]
  | cons t r ih =>
    intro a b h1 h2
    simp only [registerSpecials]
    have e : a.isSpecial t.content = b.isSpecial t.content := by simp only [AddedVocab.isSpecial, h2]
    rw [e]
    by_cases h : t.special = true ∧ t.content ≠ [] ∧ b.isSpecial t.content = false
    · rw [if_pos h, if_pos h]
      exact ih { a with specialTokens := a.specialTokens ++ [t], specialSet := a.specialSet ++ [t.content] }
        { b with specialTokens := b.specialTokens ++ [t], specialSet := b.specialSet ++ [t.content] } (by simp [h1]) (by simp [h2])
    · rw [if_neg h, if_neg h]; exact ih a b h1 h2

/-- Assigning ids depends on the special tokens only by which of the new tokens are special. -/
theorem bt_assign_specials (v : Vocab) (b : AddedVocab) (l : List AddedToken) : ∀ a : AddedVocab,
    (∀ x ∈ l, x.content ≠ [] → b.isSpecial x.content = a.isSpecial x.content) →
    assignIds (some v) false l (a.withSpecials b) = (assignIds (some v) false l a).map (·.withSpecials b) := by
  induction l with
  | nil => intro a _; rfl
  | cons t r ih =>
    intro a hh
    simp only [assignIds]
    by_cases h : t.content = []
    · rw [if_pos h, if_pos h, ih a fun x hx => hh x (by simp [hx])]
    · rw [if_neg h, if_neg h]
      have e : newId (a.withSpecials b) (some v) t.content = newId a (some v) t.content := rfl
      rw [e]
      cases newId a (some v) t.content with
      | error _ => rfl
      | ok i =>
        simp only [res_ok_bind, Bool.false_eq_true, if_false]
        have e3 : b.specialSet.contains t.content = a.specialSet.contains t.content := hh t (by simp) h
        simp only [AddedVocab.isSpecial, AddedVocab.withSpecials]
        by_cases hs : a.specialSet.contains t.content = true
        · simp only [e3, hs, if_true]
          exact ih { a with map := mapSet a.map t.content i, mapR := mapSet a.mapR i t } fun x hx => hh x (by simp [hx])
        · simp only [e3, hs, Bool.false_eq_true, if_false]
          exact ih { a with map := mapSet a.map t.content i, mapR := mapSet a.mapR i t, addedTokens := a.addedTokens ++ [t] }
            fun x hx => hh x (by simp [hx])

theorem bt_register_append (l l' : List AddedToken) : ∀ a, registerSpecials (l ++ l') a = registerSpecials l' (registerSpecials l a) := by
  induction l with
  | nil => intro a; rfl
  | cons t r ih =>
    intro a
    simp only [List.cons_append, registerSpecials]
    by_cases h : t.special = true ∧ t.content ≠ [] ∧ a.isSpecial t.content = false
    · rw [if_pos h, if_pos h, ih]
    · rw [if_neg h, if_neg h, ih]

theorem bt_assign_append (M : Option Vocab) (al : Bool) (l l' : List AddedToken) : ∀ a,
    assignIds M al (l ++ l') a = (assignIds M al l a >>= assignIds M al l') := by
  induction l with
  | nil => intro a; rfl
  | cons t r ih =>
    intro a
    simp only [List.cons_append, assignIds]
    by_cases h : t.content = []
    · rw [if_pos h, if_pos h, ih]
    · rw [if_neg h, if_neg h]
      cases newId a M t.content with
      | error _ => rfl
      | ok i =>
        simp only [res_ok_bind]
        split
        · rw [ih]
        · split
          · rfl
          · rw [ih]

/-- The number `add_tokens` returns. -/
def bt_count (l : List AddedToken) : Nat := l.length - (l.filter fun t => t.content = []).length

theorem bt_count_append (l l' : List AddedToken) : bt_count (l ++ l') = bt_count l + bt_count l' := by
  unfold bt_count
  have h1 := List.length_filter_le (fun t : AddedToken => decide (t.content = [])) l
  have h2 := List.length_filter_le (fun t : AddedToken => decide (t.content = [])) l'
  simp only [List.filter_append, List.length_append]
  omega

theorem bt_some (v : Vocab) (a : AddedVocab) (l : List AddedToken) :
    a.addTokens (some v) l = (assignIds (some v) false l (registerSpecials l a)).map fun b =>
      (bt_count l, b.withTries (trieOf v false b.specialTokens ++ trieOf v false b.addedTokens) (trieOf v true b.specialTokens ++ trieOf v true b.addedTokens)) := by
  unfold AddedVocab.addTokens AddedVocab.addTokensCore
  cases assignIds (some v) false l (registerSpecials l a) with
  | error _ => rfl
  | ok b => rfl

theorem bt_map {α β γ : Type} (x : Res α) (f : α → β) (g : β → Res γ) : (x.map f >>= g) = (x >>= fun y => g (f y)) := by
  cases x <;> rfl

theorem bt_bind_map {α β γ : Type} (x : Res α) (f : β → γ) (g : α → Res β) : (x >>= g).map f = (x >>= fun y => (g y).map f) := by
  cases x <;> rfl

theorem bt_two (v : Vocab) (a : AddedVocab) (l l' : List AddedToken)
    (hc : ∀ x ∈ l, x.content ≠ [] → (registerSpecials l' (registerSpecials l a)).isSpecial x.content = (registerSpecials l a).isSpecial x.content) :
    a.addTokens (some v) (l ++ l') = (do
      let (n, a) ← a.addTokens (some v) l
      let (m, a) ← a.addTokens (some v) l'
      return (n + m, a)) := by
  rw [bt_some, bt_some, bt_map, bt_register_append, bt_assign_append]
  rw [bt_register_only l' (registerSpecials l a) (registerSpecials l a) rfl rfl, bt_assign_specials v _ l _ hc, bt_map, bt_bind_map]
  generalize hq : assignIds (some v) false l (registerSpecials l a) = q
  cases q with
  | error _ => rfl
  | ok b =>
    simp only [res_ok_bind]
    rw [bt_some, bt_map, bt_register_tries, bt_assign_tries, bt_map, bt_register_only l' b (registerSpecials l a)
      (assignIds_special l hq).2 (assignIds_special l hq).1]
    cases assignIds (some v) false l' (b.withSpecials (registerSpecials l' (registerSpecials l a))) with
    | error _ => rfl
    | ok c =>
      simp only [res_ok_bind, Except.map, bt_count_append]
      rfl

theorem bt_tokenizer {t : Tokenizer} {m : Model} (hm : t.model = some m) (l l' : List AddedToken)
    (hc : ∀ x ∈ l, ∀ y ∈ l', y.special = true → y.content = x.content → x.content ≠ [] →
      t.isSpecial x.content = true ∨ GivenSpecial l x.content) :
    t.addTokens (l ++ l') = (do
      let (n, t) ← t.addTokens l
      let (k, t) ← t.addTokens l'
      return (n + k, t)) := by
  unfold Tokenizer.addTokens
  cases ha : t.added with
  | none => rfl
  | some a =>
    simp only [hm, Option.map_some]
    rw [bt_two m.vocab a l l' ?_]
    · cases a.addTokens (some m.vocab) l with
      | error _ => rfl
      | ok r =>
        obtain ⟨n, b⟩ := r
        simp only [res_ok_bind, res_pure, Option.map_some]
        cases b.addTokens (some m.vocab) l' with
        | error _ => rfl
        | ok r => rfl
    · intro x hx hne
      rw [Bool.eq_iff_iff, registerSpecials_isSpecial l']
      constructor
      · rintro (h | ⟨y, h1, h2, _, h4⟩)
        · exact h
        · rw [registerSpecials_isSpecial]
          rcases hc x hx y h1 h2 h4 hne with h | ⟨_, z, h5, h6, h7⟩
          · refine .inl ?_
            simpa [Tokenizer.isSpecial, ha] using h
          · exact .inr ⟨z, h5, h6, h7 ▸ hne, h7⟩
      · exact .inl

/-- Which tokens are special after a history. -/
theorem bt_special (P : Platform) {t0 t t' : Tokenizer} {l : List AddedToken} {cs : List Call}
    (h0 : t0.added = some (AddedVocab.init l)) (hf : t0.finish = .ok t) (h : History P t cs t') (s : Str) :
    t'.isSpecial s = true ↔ GivenSpecial (l ++ cs.flatMap Call.tokens) s := by
  rw [(dc_history h).2 s, dc_special_append]
  refine or_congr_left ?_
  rcases finish_ok hf with ⟨hn, _⟩ | ⟨b, b', n, hb, rfl, hc⟩
  · rw [hn] at h0; cases h0
  · rw [hb] at h0; cases h0
    obtain ⟨_, a1, h1, h2⟩ := addTokensCore_ok hc
    have e1 := (refresh_ok h2).2.2.1
    have e2 := (assignIds_special l h1).1
    have : b'.isSpecial s = (registerSpecials l (AddedVocab.init l)).isSpecial s := by
      unfold AddedVocab.isSpecial; rw [e1, e2]; rfl
    show b'.isSpecial s = true ↔ _
    rw [this, registerSpecials_isSpecial]
    unfold GivenSpecial
    constructor
    · rintro (h | ⟨x, hx, h1, h2, h3⟩)
      · simp [AddedVocab.isSpecial, AddedVocab.init] at h
      · exact ⟨h3 ▸ h2, x, hx, h1, h3⟩
    · rintro ⟨h3, x, hx, h1, h2⟩
      exact .inr ⟨x, hx, h1, h2 ▸ h3, h2⟩

theorem bt_history_append {P : Platform} {t u v : Tokenizer} {cs ds : List Call} (h : History P t cs u) (h' : History P u ds v) :
    History P t (cs ++ ds) v := by
  induction h with
  | nil => exact h'
  | cons h1 _ ih => exact .cons h1 (ih h')

theorem bt_model {t t' : Tokenizer} {l : List AddedToken} {n : Nat} (h : t.addTokens l = .ok (n, t')) : t'.model = t.model := by
  obtain ⟨a, a', -, -, rfl⟩ := addTokens_ok h; rfl

/-- **C115** Whatever happened before, adding lists of tokens in several calls does exactly what adding all of them in one call
does: the same number of tokens is reported in total, the same tokenizer results, and one fails exactly when the other does -
unless a token that an earlier list has as not special is special in a later one. -/
theorem C115_batches (P : Platform) {t0 t t' : Tokenizer} {l : List AddedToken} {m : Model} {cs : List Call}
    (h0 : t0.added = some (AddedVocab.init l)) (hf : t0.finish = .ok t) (h : History P t cs t') (hm : t'.model = some m)
    (ls : List (List AddedToken)) (hne : ls ≠ []) (hs : NoLateSpecial (l ++ cs.flatMap Call.tokens) ls) :
    addEach t' ls = t'.addTokens ls.flatten := by
  induction ls generalizing t' cs with
  | nil => exact absurd rfl hne
  | cons x r ih =>
    cases r with
    | nil =>
      simp only [addEach, List.flatten_cons, List.flatten_nil, List.append_nil]
      cases t'.addTokens x with
      | error _ => rfl
      | ok r => rfl
    | cons y r =>
      rw [List.flatten_cons, bt_tokenizer hm x _ ?_]
      · conv => lhs; unfold addEach
        cases hx : t'.addTokens x with
        | error _ => rfl
        | ok q =>
          obtain ⟨n, u⟩ := q
          simp only [res_ok_bind]
          have hu : History P t (cs ++ [.addTokens x]) u := bt_history_append h (.cons (.addTokens hx) (.nil _))
          rw [ih hu ((bt_model hx).trans hm) (by simp) ?_]
          · intro A B e z hz
            have := hs (x :: A) B (by rw [e]; rfl) z (by simp [hz])
            simpa [List.flatMap_append, Call.tokens] using this
      · intro z hz w hw h1 h2 h3
        have := hs [x] (y :: r) rfl z (by simpa using hz) w hw h1 h2 h3
        rw [dc_special_append, ← bt_special P h0 hf h] at this
        simpa using this

/-- **C115** It does not matter which of the two methods is used. -/
theorem C115_either (t : Tokenizer) (l : List AddedToken) : t.addSpecialTokens l = t.addTokens l := rfl

/-- **C115** In particular, adding tokens one by one is the same as adding them together, if no text is given twice. -/
theorem C115_one_by_one (P : Platform) {t0 t t' : Tokenizer} {l : List AddedToken} {m : Model} {cs : List Call}
    (h0 : t0.added = some (AddedVocab.init l)) (hf : t0.finish = .ok t) (h : History P t cs t') (hm : t'.model = some m)
    (new : List AddedToken) (hne : new ≠ []) (hd : (new.map (·.content)).Nodup) :
    addEach t' (new.map fun x => [x]) = t'.addTokens new := by
  have e : (new.map fun x => [x]).flatten = new := by
    clear hd hne
    induction new with
    | nil => rfl
    | cons x r ih => simp [ih]
  rw [C115_batches P h0 hf h hm _ (by simpa using hne) ?_, e]
  intro A B he x hx y hy _ h2
  rw [← e, he, List.flatten_append, List.map_append, List.nodup_append] at hd
  exact absurd h2.symm (hd.2.2 _ (List.mem_map.2 ⟨x, hx, rfl⟩) _ (List.mem_map.2 ⟨y, hy, rfl⟩))

/-! ### Examples -/

/-- A lower-casing tokenizer with `Ab` and `ab`. -/
def batchTk : Tokenizer :=
  { model := some (wpOf [(b!"[UNK]", 0), (b!"Ab", 1), (b!"ab", 2)]), normalizer := some (.bert false false false true),
    preTokenizer := some .bert, added := some (AddedVocab.init []) }

/-- What `encode` gives after the lists have been added. -/
def batchIds (t : Res (Nat × Tokenizer)) (w : WStr) : Res (List Int) := do
  let (_, t) ← t
  (t.encode ascii w false).1.map (·.ids)

/-- **C115** Otherwise it does matter: `Ab`, first added as not special and not normalized and then as special, is recognized in
`Ab`; added in one call, it is not. -/
theorem C115_violated : ∃ l l' : List AddedToken,
    batchIds (addEach batchTk [l, l']) w!"Ab" = .ok [1] ∧ batchIds (batchTk.addTokens (l ++ l')) w!"Ab" = .ok [2] := by
  refine ⟨[{ content := b!"Ab", normalized := false }], [{ content := b!"Ab", special := true }], ?_, ?_⟩ <;> decide +kernel

/-- The hypotheses of `C115_batches` are met: three calls, an empty text, a text given twice, and one made special at once. -/
example : addEach batchTk [[{ content := b!"Ab", special := true }, { content := b!"" }], [{ content := b!"new" }, { content := b!"Ab" }], [{ content := b!"new", lstrip := true }]] =
    batchTk.addTokens [{ content := b!"Ab", special := true }, { content := b!"" }, { content := b!"new" }, { content := b!"Ab" }, { content := b!"new", lstrip := true }] := by
  refine C115_batches ascii (t0 := batchTk) (t := batchTk) (t' := batchTk) (cs := []) rfl rfl (.nil _) rfl
    [[{ content := b!"Ab", special := true }, { content := b!"" }], [{ content := b!"new" }, { content := b!"Ab" }], [{ content := b!"new", lstrip := true }]] (by simp) ?_
  intro A B e x hx y hy hs
  have : y ∈ [[{ content := b!"Ab", special := true }, { content := b!"" }], [{ content := b!"new" }, { content := b!"Ab" }], [({ content := b!"new", lstrip := true } : AddedToken)]].flatten := by
    rw [e]; simp only [List.flatten_append, List.mem_append]; exact .inr hy
  simp only [List.flatten_cons, List.flatten_nil, List.append_nil, List.mem_append, List.mem_cons, List.not_mem_nil, or_false] at this
  cases A with
  | nil => cases hx
  | cons a A =>
    simp only [List.cons_append, List.cons.injEq] at e
    obtain ⟨rfl, e⟩ := e
    intro h2 h3
    refine ⟨h3, { content := b!"Ab", special := true }, by simp, rfl, ?_⟩
    rcases this with (rfl | rfl) | (rfl | rfl) | rfl
    · exact h2
    all_goals cases hs

example : (addEach batchTk [[{ content := b!"Ab", special := true }], [{ content := b!"new" }, { content := b!"" }]]).map (·.1) = .ok 2 := by decide +kernel

end Tok
