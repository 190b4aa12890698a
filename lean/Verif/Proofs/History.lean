import Verif.Proofs.Added
import Verif.Proofs.BPESpell
import Verif.Props.BPE

set_option autoImplicit false

namespace Tok
open Spec

theorem bpe_tokenize_fresh (P : Platform) (m : BPE) (p : PTS) : (m.tokenize P p).2.vocab = m.vocab := by
  have gen : ∀ (l : List Split) (m : BPE), (BPE.splitsLoop P m l).2.vocab = m.vocab := by
    intro l
    induction l with
    | nil => intro m; rfl
    | cons s r ih =>
      intro m
      have h0 : (m.word P s.normalized).2.vocab = m.vocab := by
        unfold BPE.word BPE.tokenizeWithCache
        repeat' (split <;> try rfl)
      simp only [BPE.splitsLoop]
      generalize m.word P s.normalized = R at h0
      obtain ⟨r1, m1⟩ := R
      cases r1 with
      | error e => exact h0
      | ok ts =>
        simp only
        have := ih m1
        generalize BPE.splitsLoop P m1 r = R at this
        obtain ⟨r2, m2⟩ := R
        cases r2 <;> exact this.trans h0
  unfold BPE.tokenize
  have := gen p.splits m
  generalize BPE.splitsLoop P m p.splits = R at this
  obtain ⟨r2, m2⟩ := R
  cases r2 <;> exact this

theorem model_tokenize_vocab (P : Platform) (m : Model) (p : PTS) : (m.tokenize P p).2.vocab = m.vocab := by
  cases m with
  | wordPiece m => rfl
  | bpe m => exact bpe_tokenize_fresh P m p

/-- Vocabulary of the model. -/
def Tokenizer.vocab? (t : Tokenizer) : Option Vocab := t.model.map Model.vocab

theorem preTokenized_state (P : Platform) (t : Tokenizer) (w : WStr) :
    (t.preTokenized P w).2 = t ∨
    ∃ a, t.added = some a ∧ (t.preTokenized P w).2 = { t with added := some (a.extract P t.normalizer w).2 } := by
  unfold Tokenizer.preTokenized
  split
  · exact .inl rfl
  · cases h : t.added with
    | none => exact .inl rfl
    | some a => exact .inr ⟨a, rfl, rfl⟩

theorem doTokenize_state (P : Platform) (t : Tokenizer) (p : PTS) :
    (t.doTokenize P p).2 = { t with model := t.model.map fun m => (m.tokenize P p).2 } := by
  unfold Tokenizer.doTokenize
  split
  · rename_i h; rw [h]; cases t; simp only at h; subst h; rfl
  · rename_i m h; rw [h]; rfl

/-- What `encode` does to the tokenizer. -/
theorem encode_state (P : Platform) (t : Tokenizer) (w : WStr) (b : Bool) :
    ((t.encode P w b).2.added = t.added ∨ ∃ a, t.added = some a ∧
      (t.encode P w b).2.added = some (a.extract P t.normalizer w).2) ∧
    (t.encode P w b).2.vocab? = t.vocab? := by
  have h0 : (t.encode P w b).2 = (t.preTokenized P w).2 ∨
      ∃ p, (t.encode P w b).2 = ((t.preTokenized P w).2.doTokenize P p).2 := by
    unfold Tokenizer.encode
    split
    · rename_i h; rw [h]; exact .inl rfl
    · rename_i p t' h
      rw [h]
      simp only
      refine .inr ⟨p, ?_⟩
      split
      · rename_i h; rw [h]
      · rename_i h; rw [h]
  have h1 := preTokenized_state P t w
  generalize (t.preTokenized P w).2 = T at h0 h1
  have h2 : (t.encode P w b).2.added = T.added ∧ (t.encode P w b).2.vocab? = T.vocab? := by
    rcases h0 with h0 | ⟨p, h0⟩
    · rw [h0]; exact ⟨rfl, rfl⟩
    · rw [h0, doTokenize_state]
      refine ⟨rfl, ?_⟩
      show Option.map Model.vocab (Option.map _ T.model) = Option.map Model.vocab T.model
      cases T.model with
      | none => rfl
      | some m => simp [model_tokenize_vocab]
  rw [h2.1, h2.2]
  rcases h1 with h1 | ⟨a, ha, h1⟩
  · rw [h1]; exact ⟨.inl rfl, rfl⟩
  · rw [h1]; exact ⟨.inr ⟨a, ha, rfl⟩, rfl⟩

theorem addTokens_ok {t t' : Tokenizer} {l : List AddedToken} {n : Nat} (h : t.addTokens l = .ok (n, t')) :
    ∃ a a', t.added = some a ∧ a.addTokensCore t.vocab? false l = .ok (n, a') ∧ t' = { t with added := some a' } := by
  unfold Tokenizer.addTokens at h
  split at h
  · cases h
  · rename_i a ha
    obtain ⟨⟨n1, a1⟩, h1, h⟩ := res_bind_ok.1 h
    have := Except.ok.inj h
    simp only [Prod.mk.injEq] at this
    obtain ⟨rfl, rfl⟩ := this
    exact ⟨a, a1, ha, h1, rfl⟩

theorem addSpecialTokens_eq (t : Tokenizer) (l : List AddedToken) : t.addSpecialTokens l = t.addTokens l := rfl

/-- What a call does to the added vocabulary. -/
theorem after_added {P : Platform} {t t' : Tokenizer} {c : Call} (h : After P t c t') :
    t'.vocab? = t.vocab? ∧
    (t'.added = t.added ∨ ∃ a a', t.added = some a ∧ t'.added = some a' ∧
      (Touched a a' ∨ ∃ l n, (c = .addTokens l ∨ c = .addSpecialTokens l) ∧
        a.addTokensCore t.vocab? false l = .ok (n, a'))) := by
  cases h with
  | encode w b =>
    obtain ⟨h1, h2⟩ := encode_state P t w b
    refine ⟨h2, ?_⟩
    rcases h1 with h1 | ⟨a, ha, h1⟩
    · exact .inl h1
    · exact .inr ⟨a, _, ha, h1, .inl (extract_touched P _ a w)⟩
  | decode => exact ⟨rfl, .inl rfl⟩
  | addTokens h =>
    obtain ⟨a, a', ha, hc, rfl⟩ := addTokens_ok h
    exact ⟨rfl, .inr ⟨a, a', ha, rfl, .inr ⟨_, _, .inl rfl, hc⟩⟩⟩
  | addSpecialTokens h =>
    obtain ⟨a, a', ha, hc, rfl⟩ := addTokens_ok h
    exact ⟨rfl, .inr ⟨a, a', ha, rfl, .inr ⟨_, _, .inr rfl, hc⟩⟩⟩

theorem core_keeps {a a' : AddedVocab} {M : Option Vocab} {al : Bool} {l : List AddedToken} {n : Nat}
    (h : a.addTokensCore M al l = .ok (n, a')) (c : Str) (i : Int) (hc : mapFind a.map c = some i) :
    mapFind a'.map c = some i := by
  obtain ⟨_, a1, h1, h2⟩ := addTokensCore_ok h
  rw [(refresh_ok h2).1]
  exact assignIds_keeps l h1 c i (by rw [(registerSpecials_map l a).1]; exact hc)

theorem core_inv {v : Vocab} (hv : DenseVocab v) {a a' : AddedVocab} {al : Bool} {l : List AddedToken} {n : Nat}
    (h : a.addTokensCore (some v) al l = .ok (n, a')) (ha : AInv v a) : AInv v a' := by
  obtain ⟨_, a1, h1, h2⟩ := addTokensCore_ok h
  obtain ⟨e1, e2, -⟩ := refresh_ok h2
  obtain ⟨r1, r2, -⟩ := registerSpecials_map l a
  have := assignIds_inv hv l h1 ⟨by rw [r1]; exact ha.known, by rw [r1]; exact ha.inj, by rw [r1, r2]; exact ha.back⟩
  exact ⟨by rw [e1]; exact this.known, by rw [e1]; exact this.inj, by rw [e1, e2]; exact this.back⟩

theorem Touched.map {a a' : AddedVocab} (h : Touched a a') : a'.map = a.map := by rw [h.same]

theorem touched_inv {v : Vocab} {a a' : AddedVocab} (h : Touched a a') (ha : AInv v a) : AInv v a' := by
  refine ⟨by rw [h.map]; exact ha.known, by rw [h.map]; exact ha.inj, ?_⟩
  rw [h.map]
  intro c i hc
  obtain ⟨t, ht, htc⟩ := ha.back c i hc
  exact ⟨t, h.keeps i t ht, htc⟩

theorem init_inv (v : Vocab) (l : List AddedToken) : AInv v (AddedVocab.init l) := by
  refine ⟨?_, ?_, ?_⟩ <;> · intro; intros; simp_all [AddedVocab.init, mapFind]

theorem finish_ok {t0 t : Tokenizer} (h : t0.finish = .ok t) :
    (t0.added = none ∧ t = t0) ∨ ∃ a a' n, t0.added = some a ∧ t = { t0 with added := some a' } ∧
      a.addTokensCore t0.vocab? true a.addedTokens = .ok (n, a') := by
  unfold Tokenizer.finish at h
  split at h
  · rename_i hn; cases h; exact .inl ⟨hn, rfl⟩
  · rename_i a ha
    obtain ⟨⟨n1, a1⟩, h1, h⟩ := res_bind_ok.1 h
    have := Except.ok.inj h
    exact .inr ⟨a, a1, n1, ha, this.symm, h1⟩

/-- A property of added vocabularies that holds initially and is kept by calls holds after
every history. -/
theorem history_inv {P : Platform} {I : Option Vocab → AddedVocab → Prop}
    (htouch : ∀ v a a', Touched a a' → I v a → I v a')
    (hadd : ∀ v a l n a', a.addTokensCore v false l = .ok (n, a') → I v a → I v a')
    {t t' : Tokenizer} {cs : List Call} (h : History P t cs t') :
    t'.vocab? = t.vocab? ∧ ((∀ a, t.added = some a → I t.vocab? a) → ∀ a, t'.added = some a → I t'.vocab? a) := by
  induction h with
  | nil => exact ⟨rfl, fun h => h⟩
  | @cons t u t'' c cs h1 _ ih =>
    obtain ⟨hv, h⟩ := after_added h1
    refine ⟨ih.1.trans hv, fun ht => ih.2 ?_⟩
    intro b hb
    rw [hv]
    rcases h with h | ⟨a, a', ha, ha', h⟩
    · exact ht b (h ▸ hb)
    · rw [ha'] at hb; cases hb
      rcases h with h | ⟨l, n, _, h⟩
      · exact htouch _ _ _ h (ht a ha)
      · exact hadd _ _ _ _ _ h (ht a ha)

/-- The same for constructed tokenizers. -/
theorem constructed_inv {I : Option Vocab → AddedVocab → Prop}
    (hinit : ∀ v l n a', (AddedVocab.init l).addTokensCore v true l = .ok (n, a') → I v a')
    {t : Tokenizer} (hc : Constructed t) : ∀ a, t.added = some a → I t.vocab? a := by
  obtain ⟨t0, l, h0, hf⟩ := hc
  intro b hb
  rcases finish_ok hf with ⟨hn, rfl⟩ | ⟨a, a', n, ha, rfl, h⟩
  · rw [hn] at hb; cases hb
  · cases l with
    | none => rw [ha] at h0; cases h0
    | some l =>
      rw [ha] at h0
      simp only [Option.map_some, Option.some.injEq] at h0
      subst h0
      simp only [Option.some.injEq] at hb
      subst hb
      exact hinit _ l n _ h

theorem constructed_ainv {v : Vocab} (hv : DenseVocab v) {P : Platform} {t t' : Tokenizer} {cs : List Call}
    (hc : Constructed t) (hm : t.vocab? = some v) (h : History P t cs t') :
    t'.vocab? = some v ∧ ∀ a, t'.added = some a → AInv v a := by
  have h1 := history_inv (P := P) (I := fun w a => w = some v → AInv v a)
    (fun w a a' ht hi hw => touched_inv ht (hi hw))
    (fun w a l n a' hc hi hw => core_inv hv (hw ▸ hc) (hi hw)) h
  have h2 := constructed_inv (I := fun w a => w = some v → AInv v a)
    (fun w l n a' hc hw => core_inv hv (hw ▸ hc) (init_inv v l)) hc
  refine ⟨h1.1.trans hm, fun a ha => h1.2 h2 a ha (h1.1.trans hm)⟩

end Tok
