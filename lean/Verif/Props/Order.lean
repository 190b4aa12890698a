import Verif.Proofs.Order
import Verif.Props.Config
import Verif.Props.Merging

set_option autoImplicit false

/-!
C89: the order in which the vocabulary, a hash map, lists its entries is not visible, provided no two entries have the
same id.
-/

namespace Tok
open Spec

theorem or_answers {P : Platform} {t : Tokenizer} {v : Vocab} (h : SameVoc t v) : SameAnswers P t (reordered v t) := by
  have hadd : ∀ l, (t.addTokens l).map (·.1) = ((reordered v t).addTokens l).map (·.1) := by
    intro l
    rw [or_add h]
    cases t.addTokens l <;> rfl
  refine ⟨fun w b => by rw [(or_encode h w b).1], fun l b => (or_decode h l b).symm, hadd, hadd, ?_, ?_, fun s => rfl⟩
  · intro s
    simp only [modelId, reordered]
    cases e : t.model with
    | none => rfl
    | some m =>
      have := (h m e).find s
      cases m <;> exact this
  · intro i
    simp only [modelToken, reordered]
    cases e : t.model with
    | none => rfl
    | some m =>
      have := (h m e).back i
      cases m <;> exact this

theorem or_sameVoc {t : Tokenizer} {v v' : Vocab} (hv : HasVocab t v) (hi : OneTokenPerId v) (hp : v.Perm v') :
    SameVoc t v' := by
  intro m hm
  rw [hv.2 m hm]
  exact or_same hp hv.1 hi

/-- **C89** A tokenizer whose vocabulary gives no id to two entries: if the same vocabulary is listed in another order,
every call is answered alike, whatever calls have been made before. -/
theorem C89_order (P : Platform) {t : Tokenizer} {v v' : Vocab} (hv : HasVocab t v) (hi : OneTokenPerId v)
    (hp : v.Perm v') : AlwaysSame P t (reordered v' t) := by
  intro cs t1 hh
  obtain ⟨h1, h2⟩ := or_history hh (or_sameVoc hv hi hp)
  exact ⟨_, h1, or_answers h2⟩

/-- **C89** Two configurations that differ in the order of the vocabulary entries: the constructor fails for one as it
fails for the other, and the tokenizers answer every call alike if no two entries have the same id. -/
theorem C89_documents (P : Platform) {d d' : Json} (h : SameUpToOrder d d') :
    (∀ e, Tokenizer.make P (.document d) = .error e ↔ Tokenizer.make P (.document d') = .error e) ∧
    ∀ t, Tokenizer.make P (.document d) = .ok t → (∀ m, t.model = some m → OneTokenPerId m.vocab) →
      ∃ t', Tokenizer.make P (.document d') = .ok t' ∧ AlwaysSame P t t' := by
  obtain ⟨v', h1, h2⟩ := or_make (P := P) h
  constructor
  · intro e
    rw [h1]
    cases Tokenizer.make P (.document d) with
    | error e' => simp only [Except.map]
    | ok t => constructor <;> intro h <;> cases h
  · intro t ht hi
    refine ⟨reordered v' t, by rw [h1, ht]; rfl, ?_⟩
    intro cs t1 hh
    have hs : SameVoc t v' := by
      intro m hm
      obtain ⟨g1, g2⟩ := h2 t m ht hm
      exact or_same g2 g1 (hi m hm)
    obtain ⟨k1, k2⟩ := or_history hh hs
    exact ⟨_, k1, or_answers k2⟩

/-- **C89** The condition is needed: the token of an id is independent of the order exactly when no two entries have the
same id. -/
theorem C89_exact {v : Vocab} (hk : (v.map (·.1)).Nodup) :
    (∀ v', v.Perm v' → ∀ i, idToToken v i = idToToken v' i) ↔ OneTokenPerId v := by
  constructor
  · intro h
    have hd : ∀ (l : Vocab), (∀ k k' i, (k, i) ∈ l → (k', i) ∈ l → k = k') → (l.map (·.1)).Nodup → (l.map (·.2)).Nodup := by
      intro l
      induction l with
      | nil => intro _ _; exact .nil
      | cons p r ih =>
        intro hu hn
        obtain ⟨k, i⟩ := p
        have hn := List.nodup_cons.1 hn
        refine List.nodup_cons.2 ⟨?_, ih (fun a b c ha hb => hu a b c (List.mem_cons_of_mem _ ha) (List.mem_cons_of_mem _ hb)) hn.2⟩
        intro hm
        obtain ⟨⟨k', i'⟩, hq, hi⟩ := List.mem_map.1 hm
        simp only at hi; subst hi
        have := hu k k' i' (List.mem_cons_self ..) (List.mem_cons_of_mem _ hq)
        subst this
        exact hn.1 (List.mem_map.2 ⟨_, hq, rfl⟩)
    refine hd v ?_ hk
    have hlast : ∀ k i, (k, i) ∈ v → idToToken v i = some k := by
      intro k i hm
      obtain ⟨a, b, rfl⟩ := List.append_of_mem hm
      have hp : (a ++ (k, i) :: b).Perm (a ++ b ++ [(k, i)]) :=
        List.perm_middle.trans (List.perm_append_singleton (k, i) (a ++ b)).symm
      rw [h _ hp i]
      rw [idToToken, vocabR, foldl_set_find]
      simp
    intro k k' i h1 h2
    have e1 := hlast k i h1
    rw [hlast k' i h2] at e1
    exact (Option.some.inj e1).symm
  · intro hi v' hp i
    exact (or_same hp hk hi).back i

/-! ### Examples -/

/-- Two documents with the entries of the vocabulary in another order. -/
theorem or_docs : SameUpToOrder (wpDoc [(b!"[UNK]", .num b!"0"), (b!"play", .num b!"1"), (b!"##ing", .num b!"2")] (.arr []))
    (wpDoc [(b!"##ing", .num b!"2"), (b!"[UNK]", .num b!"0"), (b!"play", .num b!"1")] (.arr [])) :=
  SameUpToOrder.mk
    (xs := [(b!"version", .str b!"1.0"), (b!"truncation", .null), (b!"padding", .null), (b!"added_tokens", .arr []),
      (b!"normalizer", .null), (b!"pre_tokenizer", .obj [(b!"type", .str b!"BertPreTokenizer")]),
      (b!"post_processor", .null), (b!"decoder", .null)])
    (ys := [])
    (us := [(b!"type", .str b!"WordPiece"), (b!"unk_token", .str b!"[UNK]"),
      (b!"continuing_subword_prefix", .str b!"##"), (b!"max_input_chars_per_word", .num b!"100")]) (vs := [])
    (fs := [(b!"[UNK]", .num b!"0"), (b!"play", .num b!"1"), (b!"##ing", .num b!"2")])
    (fs' := [(b!"##ing", .num b!"2"), (b!"[UNK]", .num b!"0"), (b!"play", .num b!"1")])
    (by decide) (by decide) (by decide) (List.perm_append_comm (l₁ := [_, _]) (l₂ := [_]))

/-- The hypotheses of `C89_documents` are met: both tokenizers exist, no two entries share an id, and they encode a text
alike. -/
example : ∃ t m, Tokenizer.make ascii (.document (wpDoc [(b!"[UNK]", .num b!"0"), (b!"play", .num b!"1"), (b!"##ing", .num b!"2")] (.arr []))) = .ok t ∧
    t.model = some m ∧ OneTokenPerId m.vocab ∧ (t.encode ascii w!"playing x" false).1.map (·.ids) = .ok [1, 2, 0] :=
  ⟨_, _, rfl, rfl, by unfold OneTokenPerId; decide, by decide +kernel⟩

/-- The hypotheses of `C89_order` are met by a byte-pair model. -/
example : HasVocab { model := some (.bpe pairsBPE) } pairsBPE.vocab ∧ OneTokenPerId pairsBPE.vocab ∧
    pairsBPE.vocab.Perm pairsBPE.vocab.reverse := by
  refine ⟨⟨by decide, ?_⟩, by unfold OneTokenPerId; decide, (List.reverse_perm _).symm⟩
  intro m hm; cases hm; rfl

/-- With two entries of one id the order is visible: a byte-pair model encodes "a" as the token "a" or as the token "b". -/
theorem C89_violated :
    let m := fun (v : Vocab) => (.bpe { pairsBPE with vocab := v, merges := [] } : Model)
    let t := fun (v : Vocab) => ({ model := some (m v) } : Tokenizer)
    (([(b!"a", (0 : Int)), (b!"b", 0)] : Vocab).Perm [(b!"b", 0), (b!"a", 0)]) ∧
    ((t [(b!"a", 0), (b!"b", 0)]).encode ascii w!"a" false).1.map (·.tokens) = .ok [b!"b"] ∧
    ((t [(b!"b", 0), (b!"a", 0)]).encode ascii w!"a" false).1.map (·.tokens) = .ok [b!"a"] := by
  refine ⟨.swap _ _ _, ?_, ?_⟩ <;> decide +kernel

end Tok
