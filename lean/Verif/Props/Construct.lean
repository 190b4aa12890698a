import Verif.Proofs.History
import Verif.Props.Added

set_option autoImplicit false

/-!
# Construction: the added tokens of the configuration (C59)
-/

namespace Tok
open Spec

/-- The added tokens `l` of a configuration are handled without undefined behaviour by the constructor: there is
nothing to add, or the model has a vocabulary and every token is special (or has the text of a special one) or
empty. -/
def SafeTokens (model : Option Model) (l : List AddedToken) : Prop :=
  match model with
  | none => l = []
  | some m => (∀ x ∈ l, x.content = []) ∨
      (m.vocab ≠ [] ∧ ∀ x ∈ l, x.content ≠ [] → ∃ y ∈ l, y.special = true ∧ y.content = x.content)

theorem newId_error {a : AddedVocab} {M : Option Vocab} {c : Str} {e : Err} (h : newId a M c = .error e) : ∃ k, e = .ub k := by
  unfold newId at h
  split at h
  · cases h
  · split at h
    · cases h; exact ⟨_, rfl⟩
    · split at h
      · cases h
      · split at h
        · split at h
          · cases h; exact ⟨_, rfl⟩
          · cases h
        · split at h <;> cases h

theorem assignIds_error {M : Option Vocab} {al : Bool} (l : List AddedToken) : ∀ {a : AddedVocab} {e : Err},
    assignIds M al l a = .error e → ∃ k, e = .ub k := by
  induction l with
  | nil => intro a e h; cases h
  | cons t r ih =>
    intro a e h
    simp only [assignIds] at h
    split at h
    · exact ih h
    · cases hn : newId a M t.content with
      | error e' => rw [hn] at h; cases h; exact newId_error hn
      | ok i =>
        rw [hn] at h
        simp only [res_ok_bind] at h
        split at h
        · exact ih h
        · split at h
          · cases h; exact ⟨_, rfl⟩
          · exact ih h

theorem core_error {M : Option Vocab} {al : Bool} {l : List AddedToken} {a : AddedVocab} {e : Err}
    (h : a.addTokensCore M al l = .error e) : ∃ k, e = .ub k := by
  unfold AddedVocab.addTokensCore at h
  cases h1 : assignIds M al l (registerSpecials l a) with
  | error e' => rw [h1] at h; cases h; exact assignIds_error l h1
  | ok b =>
    rw [h1] at h
    simp only [res_ok_bind] at h
    cases h2 : b.refresh M with
    | ok c => rw [h2] at h; cases h
    | error e' =>
      rw [h2] at h; cases h
      unfold AddedVocab.refresh at h2
      split at h2
      · split at h2
        · cases h2
        · cases h2; exact ⟨_, rfl⟩
      · cases h2

theorem assignIds_aliased {v : Vocab} (hv : v ≠ []) (l : List AddedToken) : ∀ (a : AddedVocab),
    (∃ a', assignIds (some v) true l a = .ok a') ↔ ∀ x ∈ l, x.content ≠ [] → a.isSpecial x.content = true := by
  induction l with
  | nil => intro a; simp [assignIds]
  | cons t r ih =>
    intro a
    simp only [assignIds]
    split
    · rename_i hc
      rw [ih]; simp [hc]
    · rename_i hc
      obtain ⟨i, hi⟩ := newId_ok a hv t.content
      rw [hi]
      simp only [res_ok_bind]
      have hs : AddedVocab.isSpecial { a with map := mapSet a.map t.content i, mapR := mapSet a.mapR i t } t.content =
        a.isSpecial t.content := rfl
      rw [hs]
      split
      · rename_i h
        rw [ih]
        simp only [List.forall_mem_cons]
        constructor
        · intro h'; exact ⟨fun _ => h, h'⟩
        · exact fun h' => h'.2
      · rename_i h
        simp only [if_true]
        constructor
        · rintro ⟨_, h⟩; cases h
        · intro h'; exact absurd (h' t (by simp) hc) h

theorem assignIds_none {M : Option Vocab} {al : Bool} (l : List AddedToken) (hl : ∀ x ∈ l, x.content = []) (a : AddedVocab) :
    assignIds M al l a = .ok a := by
  induction l with
  | nil => rfl
  | cons t r ih =>
    simp only [assignIds]
    rw [if_pos (hl t (by simp))]
    exact ih fun x hx => hl x (by simp [hx])

theorem registerSpecials_none (l : List AddedToken) (hl : ∀ x ∈ l, x.content = []) (a : AddedVocab) :
    registerSpecials l a = a := by
  induction l with
  | nil => rfl
  | cons t r ih =>
    simp only [registerSpecials]
    rw [if_neg (by rintro ⟨_, h, _⟩; exact h (hl t (by simp)))]
    exact ih fun x hx => hl x (by simp [hx])

theorem assignIds_first {M : Option Vocab} (hM : ∀ v, M = some v → v = []) {al : Bool} (l : List AddedToken) :
    ∀ (a a' : AddedVocab), a.map = [] → assignIds M al l a = .ok a' → ∀ x ∈ l, x.content = [] := by
  induction l with
  | nil => intro _ _ _ _ x hx; cases hx
  | cons t r ih =>
    intro a a' ha h x hx
    simp only [assignIds] at h
    split at h
    · rename_i hc
      rcases List.mem_cons.1 hx with rfl | hx
      · exact hc
      · exact ih a a' ha h x hx
    · obtain ⟨i, hi, _⟩ := res_bind_ok.1 h
      unfold newId at hi
      rw [ha] at hi
      simp only [mapFind, maxId] at hi
      split at hi
      · cases hi
      · have := hM _ rfl
        subst this
        simp [tokenToId, mapFind, vocabSize] at hi

/-- **C59** is violated by every configuration whose added tokens are not as `SafeTokens` says, and by no other: the
constructor returns exactly for safe lists, and for every other list runs into undefined behaviour.  In particular a
single added token that is not special makes it iterate over a vector it appends to. -/
theorem C59_safe_iff (t0 : Tokenizer) (l : List AddedToken) (h0 : t0.added = some (AddedVocab.init l)) :
    ((∃ t, t0.finish = .ok t) ↔ SafeTokens t0.model l) ∧ (¬ SafeTokens t0.model l → ∃ k, t0.finish = .error (.ub k)) := by
  have hfin : t0.finish = (do let (_, a) ← (AddedVocab.init l).addTokensCore (t0.model.map Model.vocab) true l
                              return { t0 with added := some a }) := by
    unfold Tokenizer.finish; rw [h0]; rfl
  have hiff : (∃ t, t0.finish = .ok t) ↔ ∃ r, (AddedVocab.init l).addTokensCore (t0.model.map Model.vocab) true l = .ok r := by
    rw [hfin]
    cases (AddedVocab.init l).addTokensCore (t0.model.map Model.vocab) true l with
    | error e => constructor <;> (rintro ⟨_, h⟩; cases h)
    | ok r => exact ⟨fun _ => ⟨r, rfl⟩, fun _ => ⟨_, rfl⟩⟩
  have main : (∃ t, t0.finish = .ok t) ↔ SafeTokens t0.model l := by
    rw [hiff]
    unfold SafeTokens
    cases hm : t0.model with
    | none =>
      simp only [Option.map_none]
      constructor
      · rintro ⟨r, h⟩
        obtain ⟨_, a1, h1, h2⟩ := addTokensCore_ok (n := r.1) (a' := r.2) h
        have hall := assignIds_first (by simp) l _ _ (by rw [(registerSpecials_map l _).1]; rfl) h1
        rw [registerSpecials_none l hall, assignIds_none l hall] at h1
        cases h1
        unfold AddedVocab.refresh at h2
        simp only at h2
        split at h2
        · rename_i h; exact h.2
        · cases h2
      · rintro rfl; exact ⟨_, rfl⟩
    | some m =>
      simp only [Option.map_some]
      have hok : (∃ r, (AddedVocab.init l).addTokensCore (some m.vocab) true l = .ok r) ↔
          ∃ a, assignIds (some m.vocab) true l (registerSpecials l (AddedVocab.init l)) = .ok a := by
        unfold AddedVocab.addTokensCore
        cases assignIds (some m.vocab) true l (registerSpecials l (AddedVocab.init l)) with
        | error e => constructor <;> (rintro ⟨_, h⟩; cases h)
        | ok a => exact ⟨fun _ => ⟨a, rfl⟩, fun _ => ⟨_, rfl⟩⟩
      rw [hok]
      by_cases hv : m.vocab = []
      · rw [hv]
        constructor
        · rintro ⟨a, h⟩
          exact .inl (assignIds_first (fun v h => by cases h; rfl) l _ _ (by rw [(registerSpecials_map l _).1]; rfl) h)
        · rintro (h | ⟨h, _⟩)
          · exact ⟨_, assignIds_none l h _⟩
          · exact absurd rfl h
      · rw [assignIds_aliased hv]
        constructor
        · intro h
          refine .inr ⟨hv, fun x hx hne => ?_⟩
          have := (registerSpecials_isSpecial l _ _).1 (h x hx hne)
          rcases this with h | ⟨y, hy, h1, _, h3⟩
          · cases h
          · exact ⟨y, hy, h1, h3⟩
        · rintro (h | ⟨_, h⟩) x hx hne
          · exact absurd (h x hx) hne
          · obtain ⟨y, hy, h1, h3⟩ := h x hx hne
            exact (registerSpecials_isSpecial l _ _).2 (.inr ⟨y, hy, h1, by rw [h3]; exact hne, h3⟩)
  refine ⟨main, fun hns => ?_⟩
  cases hf : t0.finish with
  | ok t => exact absurd (main.1 ⟨t, hf⟩) hns
  | error e =>
    rw [hfin] at hf
    cases hc : (AddedVocab.init l).addTokensCore (t0.model.map Model.vocab) true l with
    | ok r => rw [hc] at hf; cases hf
    | error e' =>
      rw [hc] at hf
      cases hf
      obtain ⟨k, rfl⟩ := core_error hc
      exact ⟨k, rfl⟩

/-- **C59** is violated by one added token that is not special. -/
theorem C59_violated : { tkOf [(b!"a", 0)] with added := some (AddedVocab.init [{ content := b!"new" }]) }.finish =
    .error (.ub .invalidIterator) := rfl

/-- A safe list: special tokens, one of them twice. -/
example : SafeTokens (tkOf [(b!"a", 0)]).model [{ content := b!"<s>", special := true }, { content := b!"<s>" }] := by
  refine .inr ⟨by decide, ?_⟩
  decide

end Tok
