import Verif.Props.AddAgain

set_option autoImplicit false

/-!
C146: special tokens of the configuration, or added later.
-/

namespace Tok
open Spec

/-- The added vocabularies agree but for the ordinary tokens and the lookup tables. -/
structure CfSame (a b : AddedVocab) : Prop where
  map : b.map = a.map
  mapR : b.mapR = a.mapR
  set : b.specialSet = a.specialSet
  specials : b.specialTokens = a.specialTokens

theorem cf_register (l : List AddedToken) : ∀ {a b : AddedVocab}, CfSame a b → CfSame (registerSpecials l a) (registerSpecials l b) := by
  induction l with
  | nil => intro a b h; exact h
  | cons t r ih =>
    intro a b h
    have hs : b.isSpecial t.content = a.isSpecial t.content := by unfold AddedVocab.isSpecial; rw [h.set]
    simp only [registerSpecials, hs]
    split
    · exact ih ⟨h.map, h.mapR, by simp only [h.set], by simp only [h.specials]⟩
    · exact ih h

theorem cf_assign {M : Option Vocab} (l : List AddedToken) : ∀ {a a' b : AddedVocab}, CfSame a b → assignIds M true l a = .ok a' →
    a'.addedTokens = a.addedTokens ∧ (∀ t ∈ l, t.content ≠ [] → a.isSpecial t.content = true) ∧
    ∃ b', assignIds M false l b = .ok b' ∧ CfSame a' b' ∧ b'.addedTokens = b.addedTokens := by
  induction l with
  | nil => intro a a' b h h1; cases h1; exact ⟨rfl, by simp, b, rfl, h, rfl⟩
  | cons t r ih =>
    intro a a' b h h1
    have hs : ∀ c, b.isSpecial c = a.isSpecial c := by intro c; unfold AddedVocab.isSpecial; rw [h.set]
    simp only [assignIds] at h1 ⊢
    by_cases hc : t.content = []
    · rw [if_pos hc] at h1 ⊢
      obtain ⟨g1, g2, g3⟩ := ih h h1
      refine ⟨g1, fun x hx hx0 => ?_, g3⟩
      rcases List.mem_cons.1 hx with rfl | hx
      · exact absurd hc hx0
      · exact g2 x hx hx0
    · rw [if_neg hc] at h1 ⊢
      have hn : newId b M t.content = newId a M t.content := by unfold newId; rw [h.map]
      rw [hn]
      obtain ⟨i, hi, h1⟩ := res_bind_ok.1 h1
      rw [hi]
      simp only [res_ok_bind, if_true] at h1 ⊢
      split at h1
      · rename_i hsp
        have hsp : a.isSpecial t.content = true := hsp
        have hspb : AddedVocab.isSpecial { b with map := mapSet b.map t.content i, mapR := mapSet b.mapR i t } t.content = true :=
          (hs t.content).trans hsp
        rw [if_pos hspb]
        obtain ⟨g1, g2, g3⟩ := ih (a := { a with map := mapSet a.map t.content i, mapR := mapSet a.mapR i t }) (b := { b with map := mapSet b.map t.content i, mapR := mapSet b.mapR i t })
          ⟨by simp only [h.map], by simp only [h.mapR], h.set, h.specials⟩ h1
        refine ⟨g1, fun x hx hx0 => ?_, g3⟩
        rcases List.mem_cons.1 hx with rfl | hx
        · exact hsp
        · exact g2 x hx hx0
      · cases h1

theorem cf_twin {M : Option Vocab} {l : List AddedToken} (hne : ∀ x ∈ l, x.content ≠ []) (hd : ∀ x ∈ l, ∀ y ∈ l, x.content = y.content → x = y)
    {n : Nat} {a : AddedVocab} (h : (AddedVocab.init l).addTokensCore M true l = .ok (n, a)) :
    ∃ b c, (AddedVocab.init []).addTokensCore M true [] = .ok (0, b) ∧ b.addTokens M l = .ok (n, c) ∧ Twin a c := by
  obtain ⟨hn, a1, h1, h2⟩ := addTokensCore_ok h
  have hb : ∃ b, (AddedVocab.init []).refresh M = .ok b := by
    unfold AddedVocab.refresh
    cases M with
    | none => exact ⟨_, rfl⟩
    | some v => exact ⟨_, rfl⟩
  obtain ⟨b, hb⟩ := hb
  obtain ⟨e1, e2, e3, e4, e5⟩ := refresh_ok hb
  have h0 : CfSame (AddedVocab.init l) b := ⟨e1, e2, e3, e4⟩
  obtain ⟨g1, g2, b', g3, g4, g5⟩ := cf_assign l (cf_register l h0) h1
  obtain ⟨s1, s2⟩ := assignIds_special l h1
  have hW := wt_register l (F := []) (a := AddedVocab.init l) ⟨fun c => by simp [AddedVocab.isSpecial, AddedVocab.init], fun x => by
    simp [AddedVocab.init, FirstSpecial]⟩
  have hall : ∀ t ∈ l, t.special = true := by
    intro t ht
    obtain ⟨_, x, x1, x2, x3⟩ := (hW.set t.content).1 (g2 t ht (hne t ht))
    simp only [List.nil_append] at x1
    rw [hd t ht x x1 x3.symm]; exact x2
  have hsp : ∀ t, t ∈ a1.specialTokens ↔ t ∈ l := by
    intro t
    rw [s2, ao_special l fun x hx y hy _ _ => hd x hx y hy]
    constructor
    · rintro (h | h)
      · simp [AddedVocab.init] at h
      · exact h.1
    · intro h
      exact .inr ⟨h, hall t h, hne t h, by simp [AddedVocab.isSpecial, AddedVocab.init]⟩
  have hT : TwinCore a1 b' := by
    refine ⟨fun k => by rw [g4.map], by rw [g4.map], fun i => by rw [g4.mapR], fun s => by unfold AddedVocab.isSpecial; rw [g4.set], fun t => ?_⟩
    rw [g4.specials, hsp, g1, g5, (registerSpecials_map l _).2.2, (registerSpecials_map l _).2.2, e5]
    simp [AddedVocab.init]
  rcases ao_refresh M hT with ⟨e, q1, -⟩ | ⟨c, c', q1, q2, q3⟩
  · rw [q1] at h2; cases h2
  · rw [q1] at h2; cases h2
    refine ⟨b, c', ?_, ?_, q3⟩
    · unfold AddedVocab.addTokensCore
      simp only [registerSpecials, assignIds, res_ok_bind, hb]
      rfl
    · unfold AddedVocab.addTokens AddedVocab.addTokensCore
      rw [g3]
      simp only [res_ok_bind]
      rw [q2, hn]; rfl

/-! ### The theorem -/

/-- **C146** When the constructor succeeds with a list of tokens, no two with the same content and none empty, it succeeds without them as
well, adding them to the tokenizer made without them succeeds, and the two tokenizers answer every call alike, whatever is called on
them afterwards. -/
theorem C146_later (P : Platform) {t0 t : Tokenizer} {l : List AddedToken} (h0 : t0.added = some (AddedVocab.init l))
    (hne : ∀ x ∈ l, x.content ≠ []) (hd : ∀ x ∈ l, ∀ y ∈ l, x.content = y.content → x = y) (hf : t0.finish = .ok t) :
    ∃ t1 n t2, ({ t0 with added := some (AddedVocab.init []) } : Tokenizer).finish = .ok t1 ∧ t1.addSpecialTokens l = .ok (n, t2) ∧
      AlwaysSame P t t2 := by
  rcases finish_ok hf with ⟨hn, _⟩ | ⟨a, a', n, ha, rfl, h⟩
  · rw [hn] at h0; cases h0
  · rw [ha] at h0; cases h0
    obtain ⟨b, c, h1, h2, h3⟩ := cf_twin hne hd h
    refine ⟨{ t0 with added := some b }, n, { t0 with added := some c }, ?_, ?_, ao_always P ⟨a', c, rfl, rfl, h3⟩⟩
    · unfold Tokenizer.finish
      simp only
      rw [show t0.model.map Model.vocab = t0.vocab? from rfl, show (AddedVocab.init []).addedTokens = [] from rfl, h1]; rfl
    · rw [C115_either]
      unfold Tokenizer.addTokens
      simp only
      rw [show t0.model.map Model.vocab = t0.vocab? from rfl, h2]; rfl

/-- The hypotheses, with two special tokens, one of which the model does not know. -/
example : let l : List AddedToken := [{ content := b!"ab", special := true, normalized := false, lstrip := true }, { content := b!"<x>", special := true }]
    (∀ x ∈ l, x.content ≠ []) ∧ (∀ x ∈ l, ∀ y ∈ l, x.content = y.content → x = y) ∧
    ((({ abcTk [] false .bert with added := some (.init l) } : Tokenizer).finish).bind fun t => (t.encode ascii w!"a ab" false).1.map (·.offsets)) =
      .ok [(0, 1), (1, 3)] := by
  refine ⟨by decide +kernel, by decide +kernel, by decide +kernel⟩

/-- **C146** With two versions of one token it does matter: both are looked for when they are configured, and only the first when they
are added later. -/
theorem C146_violated :
    let l : List AddedToken := [{ content := b!"ab", special := true, normalized := true }, { content := b!"ab", special := true, normalized := false }]
    ((({ abcTk [] false .bert with added := some (.init l) } : Tokenizer).finish).map fun t =>
      (t.added.map (·.nonNormTrie), t.added.map (·.normTrie))) = (.ok (some [(b!"ab", 3)], some [(b!"ab", 3), (b!"ab", 3)]) : Res _) ∧
    (((({ abcTk [] false .bert with added := some (.init []) } : Tokenizer).finish).bind fun t => t.addSpecialTokens l).map fun r =>
      (r.2.added.map (·.nonNormTrie), r.2.added.map (·.normTrie))) = (.ok (some [], some [(b!"ab", 3)]) : Res _) := by
  refine ⟨?_, ?_⟩ <;> decide +kernel

end Tok
