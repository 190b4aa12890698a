import Verif.Props.Watched

set_option autoImplicit false

/-!
C145: adding the same tokens again.
-/

namespace Tok
open Spec

theorem aa_registered (l : List AddedToken) : ∀ (a : AddedVocab),
    (∀ c, a.isSpecial c = true → (registerSpecials l a).isSpecial c = true) ∧
    ∀ t ∈ l, t.special = true → t.content ≠ [] → (registerSpecials l a).isSpecial t.content = true := by
  induction l with
  | nil => intro a; exact ⟨fun _ h => h, by simp⟩
  | cons t r ih =>
    intro a
    simp only [registerSpecials]
    split
    · rename_i hc
      obtain ⟨h1, h2⟩ := ih { a with specialTokens := a.specialTokens ++ [t], specialSet := a.specialSet ++ [t.content] }
      refine ⟨fun c h => h1 c ?_, fun x hx hs hne => ?_⟩
      · unfold AddedVocab.isSpecial at h ⊢
        simp only [List.contains_eq_mem, List.mem_append, decide_eq_true_eq] at h ⊢
        exact .inl h
      · rcases List.mem_cons.1 hx with rfl | hx
        · apply h1
          unfold AddedVocab.isSpecial
          simp
        · exact h2 x hx hs hne
    · rename_i hc
      obtain ⟨h1, h2⟩ := ih a
      refine ⟨h1, fun x hx hs hne => ?_⟩
      rcases List.mem_cons.1 hx with rfl | hx
      · apply h1
        cases hb : a.isSpecial x.content with
        | true => rfl
        | false => exact absurd ⟨hs, hne, hb⟩ hc
      · exact h2 x hx hs hne

theorem aa_register_same (l : List AddedToken) {a : AddedVocab}
    (h : ∀ t ∈ l, t.special = true → t.content ≠ [] → a.isSpecial t.content = true) : registerSpecials l a = a := by
  induction l with
  | nil => rfl
  | cons t r ih =>
    simp only [registerSpecials]
    rw [if_neg]
    · exact ih fun x hx => h x (List.mem_cons_of_mem _ hx)
    · rintro ⟨h1, h2, h3⟩
      rw [h t List.mem_cons_self h1 h2] at h3; cases h3

/-- What assigning ids leaves in the two maps, in terms of the ids at the end. -/
theorem aa_assign {M : Option Vocab} {al : Bool} (l : List AddedToken) : ∀ {a a' : AddedVocab}, assignIds M al l a = .ok a' →
    (∀ k i, mapFind a.map k = some i → mapFind a'.map k = some i) ∧
    (∀ x ∈ l, x.content ≠ [] → ∃ i, mapFind a'.map x.content = some i) ∧
    ∀ j, mapFind a'.mapR j = ((l.filter fun x => x.content ≠ [] ∧ mapFind a'.map x.content = some j).getLast?).or (mapFind a.mapR j) := by
  induction l with
  | nil => intro a a' h; cases h; exact ⟨fun _ _ h => h, by simp, by simp⟩
  | cons t r ih =>
    intro a a' h
    rcases assignIds_cons h with ⟨he, h⟩ | ⟨hne, i, a1, hj, h, hm, hr, -⟩
    · obtain ⟨h1, h2, h3⟩ := ih h
      refine ⟨h1, fun x hx hx0 => ?_, fun j => ?_⟩
      · rcases List.mem_cons.1 hx with rfl | hx
        · exact absurd he hx0
        · exact h2 x hx hx0
      · rw [h3, List.filter_cons]
        simp [he]
    · obtain ⟨h1, h2, h3⟩ := ih h
      have hti : mapFind a'.map t.content = some i := h1 _ _ (by rw [hm, mapFind_set]; simp)
      refine ⟨fun k j hk => h1 k j ?_, fun x hx hx0 => ?_, fun j => ?_⟩
      · rw [hm, mapFind_set]
        split
        · rename_i e; subst e
          rw [ao_newId_same hj hk]
        · exact hk
      · rcases List.mem_cons.1 hx with rfl | hx
        · exact ⟨i, hti⟩
        · exact h2 x hx hx0
      · rw [h3, hr, mapFind_set, List.filter_cons, hti]
        by_cases e : i = j
        · subst e
          simp only [hne, ne_eq, not_false_eq_true, true_and, decide_true, if_true, List.getLast?_cons]
          cases (List.filter (fun x => decide (¬x.content = [] ∧ mapFind a'.map x.content = some i)) r).getLast? <;> rfl
        · simp [e]

/-- Assigning ids to tokens that have ids already. -/
theorem aa_assign_known {M : Option Vocab} (l : List AddedToken) : ∀ {a : AddedVocab},
    (∀ x ∈ l, x.content ≠ [] → ∃ i, mapFind a.map x.content = some i) → ∃ a', assignIds M false l a = .ok a' ∧ a'.map = a.map := by
  induction l with
  | nil => intro a _; exact ⟨a, rfl, rfl⟩
  | cons t r ih =>
    intro a h
    have hr : ∀ x ∈ r, x.content ≠ [] → ∃ i, mapFind a.map x.content = some i := fun x hx => h x (List.mem_cons_of_mem _ hx)
    simp only [assignIds]
    split
    · exact ih hr
    · rename_i hne
      obtain ⟨i, hi⟩ := h t List.mem_cons_self hne
      have hn : newId a M t.content = .ok i := by unfold newId; rw [hi]
      rw [hn]
      simp only [res_ok_bind, ao_set_same _ hi, Bool.false_eq_true, if_false]
      split
      · exact ih (a := { a with map := a.map, mapR := mapSet a.mapR i t }) hr
      · exact ih (a := { a with map := a.map, mapR := mapSet a.mapR i t, addedTokens := a.addedTokens ++ [t] }) hr

/-- The list has been added to the added vocabulary, and nothing has been added that counts more. -/
structure Absorbed (M : Option Vocab) (l : List AddedToken) (b : AddedVocab) : Prop where
  ids : ∀ x ∈ l, x.content ≠ [] → ∃ i, mapFind b.map x.content = some i
  last : ∀ j x, (l.filter fun x => x.content ≠ [] ∧ mapFind b.map x.content = some j).getLast? = some x → mapFind b.mapR j = some x
  special : ∀ x ∈ l, x.special = true → x.content ≠ [] → b.isSpecial x.content = true
  others : ∀ x ∈ l, x.content ≠ [] → b.isSpecial x.content = false → x ∈ b.addedTokens
  fresh : b.refresh M = .ok b

theorem aa_fresh {M : Option Vocab} {a b : AddedVocab} (h : a.refresh M = .ok b) : b.refresh M = .ok b := by
  unfold AddedVocab.refresh at h
  cases M with
  | none =>
    simp only at h
    split at h
    · rename_i hc
      cases h
      unfold AddedVocab.refresh
      simp only
      rw [if_pos hc]
    · cases h
  | some v => cases h; rfl

theorem aa_fresh_mapR {M : Option Vocab} {b : AddedVocab} (h : b.refresh M = .ok b) (m : List (Int × AddedToken)) :
    ({ b with mapR := m } : AddedVocab).refresh M = .ok { b with mapR := m } := by
  unfold AddedVocab.refresh at h ⊢
  cases M with
  | none =>
    simp only at h ⊢
    split at h
    · rename_i hc
      rw [if_pos hc]
      have h' := Except.ok.inj h
      rw [← congrArg AddedVocab.nonNormTrie h', ← congrArg AddedVocab.normTrie h']
    · cases h
  | some v =>
    simp only at h ⊢
    have h' := Except.ok.inj h
    have h1 := congrArg AddedVocab.nonNormTrie h'
    have h2 := congrArg AddedVocab.normTrie h'
    simp only at h1 h2
    rw [h1, h2]

theorem aa_absorbed {M : Option Vocab} {l : List AddedToken} {n : Nat} {a b : AddedVocab} (h : a.addTokens M l = .ok (n, b)) :
    Absorbed M l b := by
  obtain ⟨hn, a1, h1, h2⟩ := addTokensCore_ok h
  obtain ⟨e1, e2, e3, e4, e5⟩ := refresh_ok h2
  obtain ⟨s1, s2⟩ := assignIds_special l h1
  obtain ⟨-, k2, k3⟩ := aa_assign l h1
  have hsp : ∀ c, b.isSpecial c = (registerSpecials l a).isSpecial c := by
    intro c; unfold AddedVocab.isSpecial; rw [e3, s1]
  refine ⟨by rw [e1]; exact k2, fun j x hx => ?_, fun t ht h1 h2 => ?_, fun x hx h0 hs => ?_, aa_fresh h2⟩
  · rw [e1] at hx
    rw [e2, k3, hx]; rfl
  · rw [hsp]; exact (aa_registered l a).2 t ht h1 h2
  · rw [e5, wt_assign l h1]
    exact .inr ⟨hx, h0, by rw [← hsp]; exact hs⟩

theorem aa_touched {M : Option Vocab} {l : List AddedToken} {b c : AddedVocab} (h : Absorbed M l b) (t : Touched b c) : Absorbed M l c := by
  have hs := t.same
  have e1 : c.map = b.map := by rw [hs]
  have e2 : ∀ s, c.isSpecial s = b.isSpecial s := by intro s; unfold AddedVocab.isSpecial; rw [hs]
  have e4 : c.addedTokens = b.addedTokens := by rw [hs]
  refine ⟨by rw [e1]; exact h.ids, fun j x hx => t.keeps _ _ (h.last j x (by rw [← e1]; exact hx)), by simpa only [e2] using h.special,
    by simpa only [e2, e4] using h.others, ?_⟩
  rw [hs]
  exact aa_fresh_mapR h.fresh _

theorem aa_add {M : Option Vocab} {l : List AddedToken} {b : AddedVocab} (h : Absorbed M l b) :
    ∃ c, b.addTokens M l = .ok (l.length - (l.filter fun t => t.content = []).length, c) ∧ Twin b c := by
  have hreg : registerSpecials l b = b := aa_register_same l h.special
  obtain ⟨b1, g1, g2⟩ := aa_assign_known (M := M) l (a := b) h.ids
  obtain ⟨-, -, g3⟩ := aa_assign l g1
  obtain ⟨t1, t2⟩ := assignIds_special l g1
  have hT : TwinCore b b1 := by
    refine ⟨fun k => by rw [g2], by rw [g2], fun j => ?_, fun s => ?_, fun x => ?_⟩
    · rw [g3, g2]
      cases hL : (List.filter (fun x => decide (x.content ≠ [] ∧ mapFind b.map x.content = some j)) l).getLast? with
      | none => rfl
      | some x => rw [h.last j x hL]; rfl
    · unfold AddedVocab.isSpecial; rw [t1]
    · rw [t2, wt_assign l g1]
      constructor
      · rintro (g | g)
        · exact .inl g
        · exact .inr (.inl g)
      · rintro (g | g | ⟨q1, q2, q3⟩)
        · exact .inl g
        · exact .inr g
        · exact .inr (h.others x q1 q2 q3)
  rcases ao_refresh M hT with ⟨e, q1, -⟩ | ⟨c, c', q1, q2, q3⟩
  · have := h.fresh; rw [q1] at this; cases this
  · have := h.fresh
    rw [q1] at this; cases this
    refine ⟨c', ?_, q3⟩
    unfold AddedVocab.addTokens AddedVocab.addTokensCore
    rw [hreg, g1]
    simp only [res_ok_bind]
    rw [q2]; rfl

theorem aa_step {t u : Tokenizer} {l : List AddedToken} {n : Nat} (h : t.addTokens l = .ok (n, u)) :
    n = l.length - (l.filter fun t => t.content = []).length ∧ u.vocab? = t.vocab? ∧ ∃ b, u.added = some b ∧ Absorbed u.vocab? l b := by
  obtain ⟨a0, b, ha0, hc, rfl⟩ := addTokens_ok h
  exact ⟨(addTokensCore_ok hc).1, rfl, b, rfl, aa_absorbed (n := n) hc⟩

theorem aa_history {P : Platform} {t t' : Tokenizer} {cs : List Call} (h : History P t cs t') {l : List AddedToken} :
    (∀ k ∈ cs.flatMap Call.lists, k = l) → ∀ {b : AddedVocab}, t.added = some b → Absorbed t.vocab? l b →
    ∃ b', t'.added = some b' ∧ Absorbed t'.vocab? l b' := by
  induction h with
  | nil t => intro _ b ha hI; exact ⟨b, ha, hI⟩
  | @cons t u t'' c cs h1 _ ih =>
    intro hk b ha hI
    rw [List.flatMap_cons] at hk
    have hk1 : ∀ k ∈ c.lists, k = l := fun k h => hk k (List.mem_append_left _ h)
    have : ∃ b, u.added = some b ∧ Absorbed u.vocab? l b := by
      cases h1 with
      | encode w s =>
        obtain ⟨q1, q2⟩ := encode_state P t w s
        rw [q2]
        rcases q1 with h | ⟨a0, ha0, h⟩
        · exact ⟨b, h.trans ha, hI⟩
        · rw [ha] at ha0; cases ha0
          exact ⟨_, h, aa_touched hI (extract_touched P t.normalizer b w)⟩
      | decode ids s => exact ⟨b, ha, hI⟩
      | addTokens h => obtain rfl := hk1 _ (List.mem_singleton.2 rfl); exact (aa_step h).2.2
      | addSpecialTokens h => obtain rfl := hk1 _ (List.mem_singleton.2 rfl); exact (aa_step (t := t) h).2.2
    obtain ⟨b', hb, hIb⟩ := this
    exact ih (fun k h => hk k (List.mem_append_right _ h)) hb hIb

/-! ### The theorems -/

/-- **C145** Once a list of tokens has been added, and texts have been encoded and decoded and the same list added any number of times,
adding it once more succeeds, returns the same number, and leaves a tokenizer that answers every call as before, whatever is called
afterwards. -/
theorem C145_again (P : Platform) {t t2 t3 : Tokenizer} {l : List AddedToken} {n : Nat} {cs : List Call} (h : t.addTokens l = .ok (n, t2))
    (hc : History P t2 cs t3) (hl : ∀ k ∈ cs.flatMap Call.lists, k = l) :
    ∃ t4, t3.addTokens l = .ok (n, t4) ∧ AlwaysSame P t3 t4 := by
  obtain ⟨hn, -, b, hb, hI⟩ := aa_step h
  obtain ⟨b', hb', hI'⟩ := aa_history hc hl hb hI
  obtain ⟨c, h2, h3⟩ := aa_add hI'
  refine ⟨{ t3 with added := some c }, ?_, ao_always P ⟨b', c, hb', rfl, h3⟩⟩
  unfold Tokenizer.addTokens
  rw [hb']
  simp only
  rw [show t3.model.map Model.vocab = t3.vocab? from rfl, h2, hn]; rfl

/-- **C145** The same for `add_special_tokens`. -/
theorem C145_special (P : Platform) {t t2 t3 : Tokenizer} {l : List AddedToken} {n : Nat} {cs : List Call}
    (h : t.addSpecialTokens l = .ok (n, t2)) (hc : History P t2 cs t3) (hl : ∀ k ∈ cs.flatMap Call.lists, k = l) :
    ∃ t4, t3.addSpecialTokens l = .ok (n, t4) ∧ AlwaysSame P t3 t4 := C145_again P (t := t) h hc hl

/-- The hypothesis, with a list that has a new token, a token of the model in two versions, and an empty one. -/
example : ((openTk.addTokens [{ content := b!"<x>" }, { content := b!"ab", lstrip := true, normalized := false }, { content := b!"" },
    { content := b!"ab", special := true, normalized := false }]).map (·.1)) = .ok 3 := by decide +kernel

/-- **C145** The list has to be the last one added: when another version of the token has been added in between, adding the first again
changes how the token is found. -/
theorem C145_violated :
    let x : AddedToken := { content := b!"ab", lstrip := true, normalized := false }
    let y : AddedToken := { content := b!"ab", lstrip := false, normalized := false }
    let spans := fun (ls : List (List AddedToken)) =>
      ((ls.foldlM (fun (t : Tokenizer) l => (t.addTokens l).map (·.2)) openTk : Res Tokenizer)).bind fun t => (t.encode ascii w!"a ab" false).1.map (·.offsets)
    spans [[x], [y]] = .ok [(0, 1), (2, 4)] ∧ spans [[x], [y], [x]] = .ok [(0, 1), (1, 3)] := by decide +kernel

end Tok
