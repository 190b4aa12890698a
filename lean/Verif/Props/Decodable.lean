import Verif.Props.Encoding
import Verif.Props.Decoder
import Verif.Props.BPE
import Verif.Props.Streaming

set_option autoImplicit false

/-!
C72: what `encode` returns can be decoded, and ids and tokens agree.
-/

namespace Tok
open Spec

theorem longest_known (m : WordPiece) (u : U16) (start : Nat) : ∀ (k : Nat) (t : Token), m.longest u start k = some t →
    tokenToId m.vocab t.value = some t.id := by
  intro k
  induction k with
  | zero => intro t h; cases h
  | succ k ih =>
    intro t h
    simp only [WordPiece.longest] at h
    split at h
    · rename_i i hi; cases h; exact hi
    · exact ih t h

theorem wpLoop_known (m : WordPiece) (u : U16) : ∀ (fuel start : Nat) (ts : List Token), m.loop u fuel start = some ts →
    ∀ t ∈ ts, tokenToId m.vocab t.value = some t.id := by
  intro fuel
  induction fuel with
  | zero =>
    intro start ts h
    unfold WordPiece.loop at h
    split at h
    · cases h
    · cases h; simp
  | succ fuel ih =>
    intro start ts h
    unfold WordPiece.loop at h
    split at h
    · simp only at h
      split at h
      · cases h
      · rename_i t ht
        rw [Option.map_eq_some_iff] at h
        obtain ⟨r, hr, rfl⟩ := h
        intro x hx
        simp only [List.mem_cons] at hx
        rcases hx with rfl | hx
        · exact longest_known m u start _ _ ht
        · exact ih _ r hr x hx
    · cases h; simp

/-- Every token that WordPiece gives is in the vocabulary with its id, if the unknown token is. -/
theorem wpWord_known (m : WordPiece) {u : Int} (hu : tokenToId m.vocab m.unkToken = some u) (s : Str) :
    ∀ t ∈ m.word s, tokenToId m.vocab t.value = some t.id := by
  have hunk : ∀ n, ∀ t ∈ m.unk n, tokenToId m.vocab t.value = some t.id := by
    intro n t ht
    unfold WordPiece.unk at ht
    have hu' : mapFind m.vocab m.unkToken = some u := hu
    rw [hu'] at ht
    simp only [List.mem_singleton] at ht
    subst ht; exact hu
  unfold WordPiece.word
  simp only
  split
  · exact hunk _
  · split
    · exact hunk _
    · rename_i ts h; exact wpLoop_known m _ _ _ ts h

theorem word_vocab (P : Platform) (m : BPE) (s : Str) : (m.word P s).2.vocab = m.vocab := by
  unfold BPE.word BPE.tokenizeWithCache
  repeat' (split <;> try rfl)

theorem bpeLoop_known (P : Platform) : ∀ (l : List Split) (m : BPE) (l' : List Split) (_ : (m.vocab.map (·.1)).Nodup),
    (BPE.splitsLoop P m l).1 = .ok l' → ∀ s ∈ l', ∀ t ∈ s.tokens, tokenToId m.vocab t.value = some t.id := by
  intro l
  induction l with
  | nil => intro m l' _ h; cases h; simp
  | cons s r ih =>
    intro m l' hk h
    simp only [BPE.splitsLoop] at h
    have h0 := word_vocab P m s.normalized
    have h1 := C16_only_vocabulary P m hk s.normalized
    generalize m.word P s.normalized = R at h h0 h1
    obtain ⟨r1, m1⟩ := R
    cases r1 with
    | error e => cases h
    | ok ts =>
      simp only at h h0 h1
      have ih' := ih m1
      rw [h0] at ih'
      generalize BPE.splitsLoop P m1 r = R2 at h ih'
      obtain ⟨r2, m2⟩ := R2
      cases r2 with
      | error e => cases h
      | ok rest =>
        cases h
        intro x hx
        simp only [List.mem_cons] at hx
        rcases hx with rfl | hx
        · exact h1 ts rfl
        · exact ih' rest hk rfl x hx

/-- The model can name every token it gives: WordPiece has its unknown token in the vocabulary; BPE keys are distinct
(as the keys of a map are). -/
def NamesTokens : Model → Prop
  | .wordPiece m => ∃ u, tokenToId m.vocab m.unkToken = some u
  | .bpe m => (m.vocab.map (·.1)).Nodup

theorem tokenize_known {P : Platform} {m : Model} (hm : NamesTokens m) {p q : PTS} (h : (m.tokenize P p).1 = .ok q) :
    ∀ s ∈ q.splits, ∀ t ∈ s.tokens, tokenToId m.vocab t.value = some t.id := by
  cases m with
  | wordPiece m =>
    obtain ⟨u, hu⟩ := hm
    simp only [Model.tokenize, WordPiece.tokenize] at h
    cases h
    intro s hs t ht
    simp only [List.mem_map] at hs
    obtain ⟨s', _, rfl⟩ := hs
    exact wpWord_known m hu _ t ht
  | bpe m =>
    simp only [Model.tokenize, BPE.tokenize] at h
    have h1 := fun l' => bpeLoop_known P p.splits m l' hm
    generalize BPE.splitsLoop P m p.splits = R at h h1
    obtain ⟨r, m1⟩ := R
    cases r with
    | error e => cases h
    | ok l => cases h; exact h1 l rfl

theorem textRows_known {ns : NS} {k : Nat} {l : List Split} {rows : List Row} (h : TextRows ns k l rows) {V : Vocab}
    (hl : ∀ s ∈ l, ∀ t ∈ s.tokens, tokenToId V t.value = some t.id) : ∀ r ∈ rows, tokenToId V r.token = some r.id := by
  induction h with
  | nil => simp
  | cons _ _ _ ih =>
    intro r hr
    simp only [List.mem_append, List.mem_map] at hr
    rcases hr with ⟨t, ht, rfl⟩ | hr
    · exact hl _ (by simp) t ht
    · exact ih (fun s hs => hl s (by simp [hs])) r hr

/-- **C72, ids and tokens agree.** Wherever the special-token mask of an encoding, or of one of its overflow windows, is
0, the token there is in the vocabulary and the id there is its id. -/
theorem C72_ids_match_tokens (P : Platform) (t : Tokenizer) (w : WStr) (b : Bool) (e : Encoding) (m : Model)
    (hm : t.model = some m) (hn : NamesTokens m)
    (hS : ∀ s ∈ Specials t, s.ids.length = s.tokens.length) (h : (t.encode P w b).1 = .ok e) :
    ∀ x, x = e.toEnc ∨ x ∈ e.overflowing → ∀ i : Nat, x.specialTokensMask[i]? = some 0 →
      ∃ tok id, x.tokens[i]? = some tok ∧ x.ids[i]? = some id ∧ tokenToId m.vocab tok = some id := by
  obtain ⟨q, text, ⟨p, _, hq⟩, ht, hrows⟩ := C43_rows P t w b e hS h
  rw [hm] at hq
  intro x hx i hi
  obtain ⟨rows, ⟨h1, _, h3, _, _, h6, _⟩, hk⟩ := hrows x hx
  rw [h6, List.getElem?_map, Option.map_eq_some_iff] at hi
  obtain ⟨r, hr, h0⟩ := hi
  refine ⟨r.token, r.id, by rw [h3, List.getElem?_map, hr]; rfl, by rw [h1, List.getElem?_map, hr]; rfl, ?_⟩
  cases hk r (List.mem_of_getElem? hr) with
  | content r0 hmem hro =>
    rw [hro.1, hro.2.1]
    exact textRows_known ht (tokenize_known hn hq) r0 hmem
  | special _ _ _ _ _ _ _ h' => rw [h0] at h'; cases h'
  | padding _ _ _ _ _ _ h' => rw [h0] at h'; cases h'

/-- **C72.** Every list of ids that `encode` returns can be decoded, if the ids of the template's special tokens and the
padding id are known. -/
theorem C72_decodable (P : Platform) (t : Tokenizer) (w : WStr) (b skip : Bool) (e : Encoding) (m : Model) (a : AddedVocab)
    (d : Decoder) (hm : t.model = some m) (ha : t.added = some a) (hd : t.decoder = some d) (hn : NamesTokens m)
    (hS : ∀ s ∈ Specials t, s.ids.length = s.tokens.length)
    (hSk : ∀ s ∈ Specials t, ∀ id ∈ s.ids, knownId a m id) (hp : ∀ p, t.padding = some p → knownId a m p.padId)
    (h : (t.encode P w b).1 = .ok e) :
    ∀ x, x = e.toEnc ∨ x ∈ e.overflowing → ∃ s, t.decode x.ids skip = .ok s := by
  obtain ⟨q, text, ⟨p, _, hq⟩, ht, hrows⟩ := C43_rows P t w b e hS h
  rw [hm] at hq
  intro x hx
  obtain ⟨rows, ⟨h1, _⟩, hk⟩ := hrows x hx
  refine (C49_unknown_ids ha hm hd x.ids skip).2 ?_
  intro id hid
  rw [h1, List.mem_map] at hid
  obtain ⟨r, hr, rfl⟩ := hid
  cases hk r hr with
  | content r0 hmem hro =>
    have := textRows_known ht (tokenize_known hn hq) r0 hmem
    rw [hro.1]
    exact .inr ⟨_, mapFind_mem this⟩
  | special s j hs hj => exact hSk s hs _ (List.mem_of_getElem? hj)
  | padding pd hpd hid => rw [hid]; exact hp pd hpd

/-- A vocabulary with special tokens. -/
def fullBertModel : Model :=
  .wordPiece {
    vocab := [(b!"[UNK]", 0), (b!"play", 1), (b!"##ing", 2), (b!"go", 3), (b!"[CLS]", 101), (b!"[SEP]", 102), (b!"[PAD]", 9)]
    unkToken := b!"[UNK]", maxChars := 100, pre := b!"##" }

/-- A tokenizer with `[CLS]`, `[SEP]`, `[PAD]` in its vocabulary. -/
def fullBert (d : Decoder) : Tokenizer :=
  { model := some fullBertModel
    added := some (AddedVocab.init [])
    preTokenizer := some .bert
    truncation := some (cut 3)
    postProcessor := some sampleTemplate
    padding := some (padTo 6)
    decoder := some d }

-- the hypotheses of C72 are met by a BERT-like tokenizer with a template, truncation and padding
example : ((fullBert (.wordPiece b!"##" false)).encode ascii w!"playing go xyz" true).1.map (·.ids) = .ok [101, 1, 2, 3, 102, 9] ∧
    (∀ s ∈ Specials (fullBert (.wordPiece b!"##" false)), s.ids.length = s.tokens.length) :=
  ⟨by decide +kernel, by decide⟩
example : (∀ s ∈ Specials (fullBert .fuse), ∀ id ∈ s.ids, knownId (AddedVocab.init []) (fullBertModel) id) ∧
    knownId (AddedVocab.init []) fullBertModel (padTo 6).padId ∧ NamesTokens fullBertModel := by
  refine ⟨?_, .inr ⟨b!"[PAD]", by decide⟩, 0, rfl⟩
  intro s hs id hid
  have hs' : s ∈ [(⟨b!"[CLS]", [101], [b!"[CLS]"]⟩ : SpecialToken), ⟨b!"[SEP]", [102], [b!"[SEP]"]⟩] := hs
  simp only [List.mem_cons, List.not_mem_nil, or_false] at hs'
  rcases hs' with rfl | rfl
  · simp only [List.mem_singleton] at hid; subst hid; exact .inr ⟨b!"[CLS]", by decide⟩
  · simp only [List.mem_singleton] at hid; subst hid; exact .inr ⟨b!"[SEP]", by decide⟩

/-- **C72 needs the unknown token**: without it in the vocabulary an unknown word gets id 0, whatever that stands for; here
decoding it throws. -/
theorem C72_needs_unk :
    ∃ (t : Tokenizer) (e : Encoding), t.model = some (.wordPiece { vocab := [(b!"go", 3)], unkToken := b!"[UNK]", maxChars := 100, pre := b!"##" }) ∧
      (t.encode ascii w!"hi go" false).1 = .ok e ∧ e.ids = [0, 3] ∧ t.decode e.ids false = .error (.throws .badOptionalAccess) :=
  ⟨{ model := some (.wordPiece { vocab := [(b!"go", 3)], unkToken := b!"[UNK]", maxChars := 100, pre := b!"##" })
     added := some (AddedVocab.init []), preTokenizer := some .bert, decoder := some (.wordPiece b!"##" false) },
   _, rfl, rfl, by decide +kernel, by decide +kernel⟩

/-- **C72 needs known special ids**: a template id that no vocabulary knows cannot be decoded. -/
theorem C72_needs_specials :
    ∃ e, ((bertLike none (some sampleTemplate) none).encode ascii w!"go" true).1 = .ok e ∧ e.ids = [101, 3, 102] ∧
      ({ bertLike none (some sampleTemplate) none with decoder := some (.wordPiece b!"##" false) } : Tokenizer).decode e.ids true =
        .error (.throws .badOptionalAccess) :=
  ⟨_, rfl, by decide +kernel, by decide +kernel⟩

end Tok
