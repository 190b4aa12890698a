import Verif.Props.Watched
import Verif.Props.Chunks
import Verif.Props.Extract

set_option autoImplicit false

/-!
C32: an added token at the start of a word is encoded as its id, for tokenizers with a word-piece model and any past.
-/

namespace Tok
open Spec

theorem fo_model {P : Platform} {m : WordPiece} {t t' : Tokenizer} {cs : List Call} (h : History P t cs t') :
    t.model = some (.wordPiece m) → t'.model = some (.wordPiece m) := by
  have add : ∀ {t u : Tokenizer} {l : List AddedToken} {n : Nat}, t.addTokens l = .ok (n, u) → u.model = t.model := by
    intro t u l n h
    obtain ⟨a, b, _, _, rfl⟩ := addTokens_ok h
    rfl
  induction h with
  | nil => exact id
  | @cons t u t'' c cs h1 _ ih =>
    intro hm
    refine ih ?_
    cases h1 with
    | encode w b =>
      have h0 : (t.encode P w b).2 = (t.preTokenized P w).2 ∨
          ∃ p, (t.encode P w b).2 = ((t.preTokenized P w).2.doTokenize P p).2 := by
        unfold Tokenizer.encode
        split
        · rename_i h; rw [h]; exact .inl rfl
        · rename_i p t' h
          rw [h]
          simp only
          refine .inr ⟨p, ?_⟩
          split
          · rename_i h; rw [h]
          · rename_i h; rw [h]
      have h1 : (t.preTokenized P w).2.model = some (.wordPiece m) := by
        rcases preTokenized_state P t w with h | ⟨a, _, h⟩ <;> rw [h] <;> exact hm
      rcases h0 with h | ⟨p, h⟩
      · rw [h]; exact h1
      · rw [h, doTokenize_state, h1]; rfl
    | decode ids b => exact hm
    | addTokens h => rw [add h]; exact hm
    | addSpecialTokens h => exact (add h).trans hm

theorem fo_keeps {l l' x y : List Split} {s : Split} (h : KeepsTokens (fun s q => q = s) l l') (hs : s.tokens ≠ []) :
    l = x ++ s :: y → ∃ x' y', l' = x' ++ s :: y' := by
  intro e
  have hm : s ∈ l := by rw [e]; simp
  clear e
  have : s ∈ l' := by
    induction h with
    | nil => cases hm
    | keep _ _ hq _ ih =>
      rcases List.mem_cons.1 hm with rfl | hm
      · rw [hq]; simp
      · exact List.mem_cons_of_mem _ (ih hm)
    | cut ht _ _ ih =>
      rcases List.mem_cons.1 hm with rfl | hm
      · exact absurd ht hs
      · exact List.mem_append_right _ (ih hm)
  obtain ⟨x', y', e⟩ := List.append_of_mem this
  exact ⟨x', y', e⟩

/-- **C32** (end to end) After any history on a constructed tokenizer with a word-piece model: if the content of a token is looked for
before normalization, contains no space and no shorter content that is looked for at its start, and no token given has
flags, then in every text (of characters up to U+FFFF) in which it stands at the start or after a space, it is encoded as its id: the ids of the text
contain it, and the tokens its content. The pre-tokenizer must leave tokens alone (C08), the word must not be longer than the limit. -/
theorem C32_encoded_partial (P : Platform) {t0 t t' : Tokenizer} {l : List AddedToken} {m : WordPiece} {cs : List Call}
    (h0 : t0.added = some (AddedVocab.init l)) (hm : t0.model = some (.wordPiece m)) (hf : t0.finish = .ok t) (h : History P t cs t')
    {A k B : WStr} {content : Str} {i : Int} (hk : Utf8Text k content) (hne : k ≠ []) (hsp : ∀ c ∈ k, c ≠ 0x20)
    (hl : LookedFor m.vocab (l :: cs.flatMap Call.lists) false content i)
    (hpre : ∀ q j, LookedFor m.vocab (l :: cs.flatMap Call.lists) false q j → q <+: content → q = content)
    (hflag : ∀ y ∈ (l :: cs.flatMap Call.lists).flatten, y.singleWord = false ∧ y.lstrip = false ∧ y.rstrip = false)
    (hA : A = [] ∨ A.getLast? = some 0x20) (hw : Bmp (A ++ k ++ B))
    (hn : ∀ v n, Bmp v → Normalizes P t'.normalizer v n → Bmp n)
    (hpt : ∀ pt, t'.preTokenizer = some pt → pt.NoByteLevel) (hlen : (units k : Int) ≤ m.maxChars)
    (htr : t'.truncation = none) (hpad : t'.padding = none) {b : Bool} {e : Encoding}
    (he : (t'.encode P (A ++ k ++ B) b).1 = .ok e) :
    ∃ x y : List Token, e.ids = laidOutBy t'.postProcessor b (·.ids) (x.map (·.id) ++ i :: y.map (·.id)) ∧
      e.tokens = laidOutBy t'.postProcessor b (·.tokens) (x.map (·.value) ++ content :: y.map (·.value)) := by
  obtain ⟨a, ha, hF⟩ := C144_tables P h0 hm hf h
  have hmod : t'.model = some (.wordPiece m) := by
    refine fo_model h ?_
    rcases finish_ok hf with ⟨hn, rfl⟩ | ⟨_, _, _, _, rfl, _⟩ <;> exact hm
  have hfl : ∀ i t, mapFind a.mapR i = some t → t.singleWord = false ∧ t.lstrip = false ∧ t.rstrip = false := by
    intro i t ht
    have := hF.flags i
    rw [ht] at this
    simp only [Option.getD_some, flagsFor] at this
    cases hg : ((l :: cs.flatMap Call.lists).flatten.filter fun x => recorded t' x.content = some i).getLast? with
    | none => rw [hg] at this; subst this; exact ⟨rfl, rfl, rfl⟩
    | some z =>
      rw [hg] at this
      simp only [Option.getD_some] at this
      subst this
      exact hflag _ (List.mem_filter.1 (List.mem_of_getLast? hg)).1
  have cut : ∀ w, Bmp w → Cuttable a w := fun w hw => ⟨hw, .inl fun i t ht => (hfl i t ht).2⟩
  obtain ⟨q, y, ⟨p, hp, hq⟩, hy, hpost⟩ := encode_ok he
  rw [hmod] at hq
  simp only [Model.tokenize, Except.ok.injEq] at hq
  obtain ⟨p0, hp0, hrun⟩ : ∃ p0, (a.extract P t'.normalizer (A ++ k ++ B)).1 = .ok p0 ∧
      (match t'.preTokenizer with | none => .ok p0 | some pt => pt.run P p0 : Res PTS) = .ok p := by
    unfold Tokenizer.preTokenized at hp
    split at hp
    · cases hp
    · simp only [ha] at hp
      exact res_bind_ok.1 hp
  obtain ⟨_, _, before, after, s, _, _, _, _, h1, h2, h3⟩ := C32_word_start_partial P t'.normalizer (a := a) (cut _ hw)
    (fun v n hv hvn => cut _ (hn v _ hv.1 (pl_normalizes P _ v n hvn))) hA hne hsp hk ((hF.before _ _).2 hl)
    (fun j hj => Option.some.inj (((hF.before _ _).1 hj).1.symm.trans hl.1)) (fun q j hq => hpre q j ((hF.before _ _).1 hq)) (hfl i) hp0
  obtain ⟨x', y', h4⟩ : ∃ x' y', p.splits = x' ++ s :: y' := by
    cases hpt' : t'.preTokenizer with
    | none => rw [hpt'] at hrun; cases hrun; exact ⟨_, _, h1⟩
    | some pt =>
      rw [hpt'] at hrun
      exact fo_keeps (C08_tokens_kept_partial P pt (hpt pt hpt') p0 p hrun) (by rw [h3]; simp) h1
  have hword : m.word s.normalized = [{ id := i, value := content, offsets := (0, units k) }] := by
    rw [h2]
    exact C14_vocab_word_whole m content k hk hne hlen i hl.1
  have hrows := ck_entries hy hpost htr hpad
  have hsplit : (q.splits.map (·.tokens)).flatten = (x'.map fun s => m.word s.normalized).flatten ++
      { id := i, value := content, offsets := (0, units k) } :: (y'.map fun s => m.word s.normalized).flatten := by
    rw [← hq]
    simp only [WordPiece.tokenize, h4, List.map_append, List.map_cons, List.map_map, List.flatten_append, List.flatten_cons, hword]
    rfl
  rw [hsplit] at hrows
  refine ⟨(x'.map fun s => m.word s.normalized).flatten, (y'.map fun s => m.word s.normalized).flatten, ?_⟩
  simpa only [List.map_append, List.map_cons] using hrows

theorem fo_given {L : List (List AddedToken)} {x : AddedToken} (h : Watched L x) : x ∈ L.flatten := by
  rcases h with h | ⟨_, _, p, q, e, _⟩ | ⟨_, A, l, B, rfl, hx, _⟩
  · cases L with
    | nil => cases h
    | cons l r => exact List.mem_append_left _ h
  · rw [e]; simp
  · simp [hx]

/-- The hypotheses of `C32_encoded_partial`: "<s>" is added to a tokenizer that has encoded a text before. -/
example : ∃ t t', smallTk.finish = .ok t ∧ smallTk.added = some (AddedVocab.init []) ∧
    let x : AddedToken := { content := b!"<s>", normalized := false }
    History ascii t [.encode w!"x" true, .addTokens [x]] t' ∧ t'.normalizer = none ∧ t'.preTokenizer = none ∧ t'.postProcessor = none ∧
    LookedFor [(b!"[UNK]", 0), (b!"x", 1), (b!"<s>", 2)] [[], [x]] false b!"<s>" 2 ∧
    (∀ q j, LookedFor [(b!"[UNK]", 0), (b!"x", 1), (b!"<s>", 2)] [[], [x]] false q j → q <+: b!"<s>" → q = b!"<s>") ∧
    (t'.encode ascii w!"<s>x" false).1.map (·.ids) = .ok [2, 1] := by
  refine ⟨_, _, rfl, rfl, .cons (.encode _ _ _) (.cons (.addTokens rfl) (.nil _)), rfl, rfl, rfl, ?_, ?_, by decide +kernel⟩
  · refine ⟨by decide, _, .inr (.inr ⟨by decide, [[]], _, [], rfl, List.mem_singleton.2 rfl, ?_⟩), rfl, rfl⟩
    intro y hy h
    simp only [List.flatten_cons, List.flatten_nil, List.append_nil, List.nil_append, List.mem_singleton] at hy
    subst hy; cases h
  · rintro q j ⟨_, x, hx, rfl, _⟩ _
    have := fo_given hx
    simp only [List.flatten_cons, List.flatten_nil, List.append_nil, List.nil_append, List.mem_singleton] at this
    rw [this]

end Tok
