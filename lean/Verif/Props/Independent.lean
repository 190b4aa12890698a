import Verif.Proofs.Independent
import Verif.Props.Located

set_option autoImplicit false

/-!
# Earlier calls (C47)
-/

namespace Tok
open Spec

/-- **C47.** Two histories of calls on the same new tokenizer with the same calls of `add_tokens` and
`add_special_tokens`, in the same order: afterwards `encode` answers alike, whatever was encoded or decoded in between
(including encodings that failed). -/
theorem C47_encode (P : Platform) (t : Tokenizer) (hnew : ∀ m, t.model = some (.bpe m) → m.cache = [])
    {cs cs' : List Call} {t1 t2 : Tokenizer} (h1 : History P t cs t1) (h2 : History P t cs' t2)
    (hadds : cs.filter Call.adds = cs'.filter Call.adds) (w : WStr) (b : Bool) :
    (t1.encode P w b).1 = (t2.encode P w b).1 := by
  obtain ⟨s1, g1, e1⟩ := history_same h1 t (Same.refl P t hnew)
  obtain ⟨s2, g2, e2⟩ := history_same h2 t (Same.refl P t hnew)
  rw [hadds] at g1
  have := history_unique g1 g2
  subst this
  exact (encode_same (e1.trans e2.symm) w b).1

/-- **C47** for `add_tokens`: the count returned does not depend on earlier `encode` and `decode` calls either, nor does
whether the call fails. -/
theorem C47_add (P : Platform) (t : Tokenizer) (hnew : ∀ m, t.model = some (.bpe m) → m.cache = [])
    {cs cs' : List Call} {t1 t2 : Tokenizer} (h1 : History P t cs t1) (h2 : History P t cs' t2)
    (hadds : cs.filter Call.adds = cs'.filter Call.adds) (l : List AddedToken) :
    (t1.addTokens l).map (·.1) = (t2.addTokens l).map (·.1) := by
  obtain ⟨s1, g1, e1⟩ := history_same h1 t (Same.refl P t hnew)
  obtain ⟨s2, g2, e2⟩ := history_same h2 t (Same.refl P t hnew)
  rw [hadds] at g1
  have := history_unique g1 g2
  subst this
  have := addTokens_same (e1.trans e2.symm) l
  generalize t1.addTokens l = x at this
  generalize t2.addTokens l = y at this
  cases x <;> cases y <;> simp only [ResRel] at this
  · subst this; rfl
  · exact congrArg Except.ok this.1

/-- **C47** for `decode`: on a tokenizer as the constructor returns it, if the model's vocabulary has no empty token,
`decode` answers alike too. -/
theorem C47_decode (P : Platform) (t : Tokenizer) (hc : Constructed t)
    (hnew : ∀ m, t.model = some (.bpe m) → m.cache = []) (hempty : modelId t [] = none)
    {cs cs' : List Call} {t1 t2 : Tokenizer} (h1 : History P t cs t1) (h2 : History P t cs' t2)
    (hadds : cs.filter Call.adds = cs'.filter Call.adds) (ids : List Int) (skip : Bool) :
    t1.decode ids skip = t2.decode ids skip := by
  have hM : ∀ v, t.vocab? = some v → tokenToId v [] = none := by
    intro v hv
    unfold modelId at hempty
    unfold Tokenizer.vocab? at hv
    cases hm : t.model with
    | none => rw [hm] at hv; cases hv
    | some m => rw [hm] at hv hempty; cases hv; exact hempty
  have hK := constructed_ktok hc
  have hr : OptRel SeenA t.added t.added := by
    cases t.added with
    | none => exact .none
    | some a => exact .some ⟨.refl a, fun _ => rfl⟩
  obtain ⟨s1, g1, e1, r1⟩ := history_seen h1 hM hK t (Same.refl P t hnew) hr
  obtain ⟨s2, g2, e2, r2⟩ := history_seen h2 hM hK t (Same.refl P t hnew) hr
  rw [hadds] at g1
  have := history_unique g1 g2
  subst this
  rw [decode_seen e1 r1, decode_seen e2 r2]

/-- A history that fills the cache of byte-pair encoding and one that does not. -/
example : ∃ t1 t2, History ascii (abcTk [] false .bert) [.encode w!"ab c" false, .encode w!"abc ab" true] t1 ∧
    History ascii (abcTk [] false .bert) [.decode [1] false] t2 ∧
    (∀ m, (abcTk [] false .bert).model = some (.bpe m) → m.cache = []) ∧
    (t1.encode ascii w!"abc ab" false).1.map (·.ids) = .ok [0, 4, 3] := by
  refine ⟨_, _, .cons (.encode _ _ _) (.cons (.encode _ _ _) (.nil _)), .cons (.decode _ _ _) (.nil _), ?_, ?_⟩
  · intro m h; cases h; rfl
  · decide +kernel

/-- An empty configured token that the vocabulary knows: the hypothesis of `C47_decode` that it does not cannot be
dropped.  Encoding makes the id of the empty token decode to nothing, although another entry has the same id. -/
theorem C47_decode_needs_nonempty :
    ∃ t, Constructed t ∧ t.decode [0] false = .ok b!"a" ∧ (t.encode ascii w!"b" false).2.decode [0] false = .ok [] := by
  refine ⟨{ tkOf [(b!"", 0), (b!"a", 0), (b!"b", 1)] with
      added := (some { addedTokens := [{ content := [] }], normTrie := [([], 0)] }) },
    ⟨{ tkOf [(b!"", 0), (b!"a", 0), (b!"b", 1)] with added := some (AddedVocab.init [{ content := [] }]) },
      some [{ content := [] }], rfl, rfl⟩, ?_, ?_⟩ <;> decide +kernel

end Tok
