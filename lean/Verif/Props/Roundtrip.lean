import Verif.Proofs.Roundtrip
import Verif.Props.Total
import Verif.Props.Located

set_option autoImplicit false

/-!
C77 (what decode sees of an encoding) and C78 (a byte-level tokenizer gives the text back).
-/

namespace Tok
open Spec

/-- **C77.** Decoding what `encode` returned, leaving out special tokens, is decoding the tokens of the text alone: special
tokens of the template and padding do not show, and no token of the text is lost or moved. -/
theorem C77_text_only (P : Platform) (t : Tokenizer) (w : WStr) (b : Bool) (e : Encoding) (h : (t.encode P w b).1 = .ok e)
    (hfit : Fit P t w) (hpp : ∀ p, t.postProcessor = some p → NamesSequence p)
    (hS : b = true → ∀ s ∈ Specials t, ∀ i ∈ s.ids, specialId t i = true)
    (hpad : ∀ p, t.padding = some p → specialId t p.padId = true) :
    ∃ q, TokenizedInto P t w q ∧ t.decode e.ids true = t.decode (textIds q) true := by
  obtain ⟨q, hq, hf⟩ := rt_encode_ids (f := fun i => !specialId t i) h hfit hpp
    (fun hb s hs i hi => by simp [hS hb s hs i hi]) (fun p hp => by simp [hpad p hp])
  exact ⟨q, hq, by rw [C48_skip_special, C48_skip_special, hf]⟩

/-- **C77** without special tokens and padding: the ids are those of the tokens of the text. -/
theorem C77_plain (P : Platform) (t : Tokenizer) (w : WStr) (e : Encoding) (h : (t.encode P w false).1 = .ok e)
    (hfit : Fit P t w) (hpp : ∀ p, t.postProcessor = some p → NamesSequence p) (hpad : t.padding = none) :
    ∃ q, TokenizedInto P t w q ∧ e.ids = textIds q := by
  obtain ⟨q, hq, hf⟩ := rt_encode_ids (f := fun _ => true) h hfit hpp (fun h => by cases h) (fun p hp => by rw [hpad] at hp; cases hp)
  have : ∀ l : List Int, l.filter (fun _ => true) = l := fun l => List.filter_eq_self.2 fun _ _ => rfl
  rw [this, this] at hf
  exact ⟨q, hq, hf⟩

/-! ### C78 -/

/-- A pre-token that byte-pair encoding with the model `m` keeps readable: it is an entry that `ignore_merges` answers with,
or all its characters are visible ASCII characters with an entry of their own. -/
def Readable (m : BPE) (s : Str) : Prop :=
  Direct m s ∨ ∀ c ∈ s, Visible c ∧ ∃ id, tokenToId m.vocab [c] = some id

theorem rt_visible_decode {s : Str} (h : ∀ c ∈ s, c < 0x80) : decodeBytes s = s := by
  have h1 := utf8_ascii (w := s) h
  have h2 := decodeBytes_small (w := s) fun c hc => by have := h c hc; omega
  rw [h1] at h2
  rw [h2]
  conv => rhs; rw [← List.map_id s]
  exact List.map_congr_left fun c hc => by have := h c hc; simp only [id]; omega

theorem rt_visible_byteText {s : Str} (hb : ∀ b ∈ s, b < 256) (h : ∀ c ∈ utf8 (byteText s), Visible c) : utf8 (byteText s) = s := by
  have hall : ∀ b ∈ s, Visible b := by
    intro b hbs
    by_cases hv : Visible b
    · exact hv
    · exfalso
      have hc : byteCode b ∈ byteText s := List.mem_map.2 ⟨b, hbs, rfl⟩
      have hbig : 0x80 ≤ byteCode b := by
        unfold byteCode
        split
        · rename_i hp
          unfold Printable at hp; unfold Visible at hv
          have := hb b hbs; omega
        · omega
      have : ∃ x ∈ utf8Enc1 (byteCode b), 0x80 ≤ x := by
        unfold utf8Enc1
        have h3 := byteCode_lt (hb b hbs)
        rw [if_neg (by omega)]
        split
        · exact ⟨_, List.mem_cons_self, by omega⟩
        · split
          · exact ⟨_, List.mem_cons_self, by omega⟩
          · exact ⟨_, List.mem_cons_self, by omega⟩
      obtain ⟨x, hx, hge⟩ := this
      have := (h x (List.mem_flatMap.2 ⟨_, hc, hx⟩)).2
      omega
  have e : byteText s = s := by
    unfold byteText
    conv => rhs; rw [← List.map_id s]
    refine List.map_congr_left fun b hbs => ?_
    have := hall b hbs
    unfold Visible at this
    simp only [byteCode, id]
    rw [if_pos (.inl this)]
  rw [e]
  exact utf8_ascii fun c hc => by have := (hall c hc).2; omega

/-- The tokens of a readable pre-token decode to the bytes it stands for. -/
theorem rt_word (P : Platform) {lines : List Str} {m : BPE} (hm : Made lines m) {bs : Str} {ts : List Token}
    (hpre : m.pre = []) (hsuf : m.suf = []) (hkeys : (m.vocab.map (·.1)).Nodup) (hids : DistinctIds (tokenToId m.vocab))
    (hb : ∀ b ∈ bs, b < 256 ∧ ¬ LostByte b) (hne : utf8 (byteText bs) ≠ []) (hfit : Fits m (utf8 (byteText bs)))
    (hr : Readable m (utf8 (byteText bs))) (h : (m.word P (utf8 (byteText bs))).1 = .ok ts) :
    (ts.map (·.value)).flatMap decodeBytes = bs ∧ ∀ t ∈ ts, t.value <:+: utf8 (byteText bs) := by
  by_cases hd : Direct m (utf8 (byteText bs))
  · obtain ⟨i, h'⟩ := C17_violated P hm _ hd
    rw [h] at h'; cases h'
    refine ⟨?_, fun t ht => ?_⟩
    · have hs : ∀ c ∈ byteText bs, c < 0xD800 := by
        intro c hc
        obtain ⟨b, hb', rfl⟩ := List.mem_map.1 hc
        have := byteCode_lt (hb b hb').1; omega
      simp only [List.map_cons, List.map_nil, List.flatMap_cons, List.flatMap_nil, List.append_nil, decodeBytes_small hs]
      simp only [byteText, List.map_map]
      conv => rhs; rw [← List.map_id bs]
      exact List.map_congr_left fun b hb' => (byteCode_mod (hb b hb').1).2 (hb b hb').2
    · simp at ht; subst ht; exact List.infix_rfl
  · rcases hr with hr | hr
    · exact absurd hr hd
    have e : utf8 (byteText bs) = bs := rt_visible_byteText (fun b h => (hb b h).1) fun c hc => (hr c hc).1
    obtain ⟨ts', g1, g2⟩ := C18_concat P hm _ hne hpre hsuf hfit hkeys hids fun c hc => (hr c hc).2
    rw [h] at g1; cases g1
    have hmem : ∀ t ∈ ts, t.value <:+: utf8 (byteText bs) := by
      intro t ht
      rw [← g2]
      obtain ⟨A, B, rfl⟩ := List.append_of_mem ht
      exact ⟨(A.map (·.value)).flatten, (B.map (·.value)).flatten, by simp⟩
    refine ⟨?_, hmem⟩
    have : ∀ v ∈ ts.map (·.value), decodeBytes v = v := by
      intro v hv
      obtain ⟨t, ht, rfl⟩ := List.mem_map.1 hv
      refine rt_visible_decode fun c hc => ?_
      have := (hr c ((hmem t ht).subset hc)).1.2
      omega
    have e2 : (ts.map (·.value)).flatMap decodeBytes = (ts.map (·.value)).flatten := by
      generalize ts.map (·.value) = vs at this
      induction vs with
      | nil => rfl
      | cons v vs ih =>
        rw [List.flatMap_cons, this v (by simp), ih fun v hv => this v (by simp [hv]), List.flatten_cons]
    rw [e2, g2, e]

/-- **C78**, one step: the tokens of a text under byte-level pre-tokenization and byte-pair encoding decode to the text. -/
theorem rt_tokens (P : Platform) (t : Tokenizer) {lines : List Str} {m : BPE} (hm : Made lines m) (before : List PTS) (w : WStr)
    (hmod : t.model = some (.bpe (usedBPE P m before))) (hd : t.decoder = some .byteLevel) {pt : PreTokenizer}
    (hw : SafeText t w) (hpt : t.preTokenizer = some pt) (hbs : ByteSplits P pt) (hA : P.charSigned = true → Ascii w)
    (hpre : m.pre = []) (hsuf : m.suf = []) (hkeys : (m.vocab.map (·.1)).Nodup) (hids : DistinctIds (tokenToId m.vocab))
    (hlook : ShowsVocabulary t (.bpe m)) (hlost : ∀ b ∈ utf8 w, ¬ LostByte b)
    (hr : ∀ p, (t.preTokenized P w).1 = .ok p → ∀ s ∈ p.splits, Fits m s.normalized ∧ Readable m s.normalized)
    (skip : Bool) (hns : skip = true → ∀ v, t.isSpecial v = true → ¬ v <:+: utf8 (byteText (utf8 w)))
    (q : PTS) (hq : TokenizedInto P t w q) : t.decode (textIds q) skip = .ok (utf8 w) := by
  obtain ⟨p, bss, h1, h2, h3, h4, h5, h6⟩ := rt_preTokenized hw hpt hbs hA
  obtain ⟨p', hp', hq⟩ := hq
  rw [h1] at hp'; cases hp'
  rw [hmod] at hq
  obtain ⟨_, heach⟩ := (bpe_tokenize P hm before p q).1 hq
  have hr' := hr p h1
  have hbyte : ∀ b ∈ bss.flatten, b < 256 ∧ ¬ LostByte b := by
    rw [h3]; exact fun b hb => ⟨utf8_bytes h6 b hb, hlost b hb⟩
  have hbt : ∀ a b : Str, utf8 (byteText (a ++ b)) = utf8 (byteText a) ++ utf8 (byteText b) := by
    intro a b; unfold byteText; rw [List.map_append, utf8_append]
  have gen : ∀ {bss : List Str} {ps qs : List Split}, Each (fun b (q : Split) => q.normalized = utf8 (byteText b)) bss ps →
      Each (fun s t => t.normalized = s.normalized ∧ t.offsets = s.offsets ∧ (m.word P s.normalized).1 = .ok t.tokens) ps qs →
      (∀ b ∈ bss.flatten, b < 256 ∧ ¬ LostByte b) → (∀ s ∈ ps, s.normalized ≠ [] ∧ Fits m s.normalized ∧ Readable m s.normalized) →
      ((qs.flatMap (·.tokens)).map (·.value)).flatMap decodeBytes = bss.flatten ∧
      ∀ k ∈ qs.flatMap (·.tokens), k.value <:+: utf8 (byteText bss.flatten) ∧ tokenToId m.vocab k.value = some k.id := by
    intro bss ps qs hb
    induction hb generalizing qs with
    | nil =>
      intro he _ _
      cases he; exact ⟨rfl, by simp⟩
    | @cons bs s bss ps hbs _ ih =>
      intro he hby hps
      cases he with
      | @cons _ s' _ qs' hs' hrest =>
        obtain ⟨g1, g2⟩ := ih hrest (fun b hb => hby b (by simp only [List.flatten_cons, List.mem_append]; exact .inr hb))
          fun s hs => hps s (by simp [hs])
        obtain ⟨k1, k2, k3⟩ := hps s (by simp)
        have hword := hs'.2.2
        rw [hbs] at k1 k2 k3 hword
        obtain ⟨w1, w2⟩ := rt_word P hm hpre hsuf hkeys hids
          (fun b hb => hby b (by simp only [List.flatten_cons, List.mem_append]; exact .inl hb)) k1 k2 k3 hword
        refine ⟨?_, ?_⟩
        · rw [List.flatMap_cons, List.map_append, List.flatMap_append, w1, g1, List.flatten_cons]
        · intro k hk
          rw [List.flatten_cons, hbt]
          rcases List.mem_append.1 (by rw [List.flatMap_cons] at hk; exact hk) with hk | hk
          · exact ⟨(w2 k hk).trans (List.infix_append_left), C16_only_vocabulary P m hkeys _ _ hword k hk⟩
          · exact ⟨(g2 k hk).1.trans (List.infix_append_right), (g2 k hk).2⟩
  obtain ⟨g1, g2⟩ := gen h2 heach hbyte fun s hs => ⟨h4 s hs, hr' s hs⟩
  rw [h3] at g1 g2
  rw [rt_textIds]
  have hidt := rt_idTokens (t := t) (skip := skip) (q.splits.flatMap (·.tokens))
    (fun k hk => hlook _ _ (g2 k hk).2) (by
      intro hs k hk
      cases hsp : t.isSpecial k.value with
      | false => rfl
      | true => exact absurd (g2 k hk).1 (hns hs _ hsp))
  refine decode_of hd hidt ?_
  simp only [Decoder.run, byteLevelDecode, g1]

/-- The configuration and the text meet the conditions of the round trip. -/
structure ByteRoundtrip (P : Platform) (t : Tokenizer) (m : BPE) (w : WStr) : Prop where
  /-- the pre-tokenizer ends in ByteLevel, and otherwise isolates matches -/
  pre : ∃ pt, t.preTokenizer = some pt ∧ ByteSplits P pt
  decoder : t.decoder = some .byteLevel
  /-- what follows the model keeps every token -/
  fit : Fit P t w
  tail : SafeEnd t
  sequence : ∀ p, t.postProcessor = some p → NamesSequence p
  text : SafeText t w
  ascii : P.charSigned = true → Ascii w
  /-- the model adds no marks of its own, and its entries can be told apart by key and by id -/
  noPrefix : m.pre = []
  noSuffix : m.suf = []
  keys : (m.vocab.map (·.1)).Nodup
  ids : DistinctIds (tokenToId m.vocab)
  shows : ShowsVocabulary t (.bpe m)

theorem rt_encode {P : Platform} {t : Tokenizer} {lines : List Str} {m : BPE} (hm : Made lines m) {before : List PTS} {w : WStr}
    (hmod : t.model = some (.bpe (usedBPE P m before))) (h : ByteRoundtrip P t m w) (b : Bool)
    (hr : ∀ p, (t.preTokenized P w).1 = .ok p → ∀ s ∈ p.splits, Fits m s.normalized ∧ Readable m s.normalized) :
    ∃ e, (t.encode P w b).1 = .ok e := by
  obtain ⟨pt, hpt, hbs⟩ := h.pre
  obtain ⟨p, h1, h2, h3⟩ := C73_bpe_partial P t w b hm before h.text
    (fun x hx => by rw [hpt] at hx; cases hx; exact rt_safePre hbs h.ascii) h.tail hmod
  refine (h3 fun s hs => (hr p h1 s hs).1).2 fun s hs => ?_
  rcases (hr p h1 s hs).2 with hd | hv
  · exact .inl hd
  · refine .inr ⟨0, List.length_pos_iff.2 (h2 s hs), .inl ?_⟩
    have hne := h2 s hs
    cases hsn : s.normalized with
    | nil => exact absurd hsn hne
    | cons c r =>
      obtain ⟨id, hid⟩ := (hv c (by rw [hsn]; simp)).2
      refine ⟨id, ?_⟩
      rw [← hid]; congr 1
      simp [spelling, h.noSuffix]

/-- **C78.** A byte-level byte-pair tokenizer gives the text back: if every pre-token is readable, `encode` without special
tokens returns, and `decode` of the ids is the text. -/
theorem C78_roundtrip_partial (P : Platform) (t : Tokenizer) {lines : List Str} {m : BPE} (hm : Made lines m) (before : List PTS)
    (w : WStr) (hmod : t.model = some (.bpe (usedBPE P m before))) (h : ByteRoundtrip P t m w) (hpad : t.padding = none)
    (hlost : ∀ b ∈ utf8 w, ¬ LostByte b)
    (hr : ∀ p, (t.preTokenized P w).1 = .ok p → ∀ s ∈ p.splits, Fits m s.normalized ∧ Readable m s.normalized) :
    ∃ e s, (t.encode P w false).1 = .ok e ∧ t.decode e.ids false = .ok s ∧ Utf8Text w s := by
  obtain ⟨e, he⟩ := rt_encode hm hmod h false hr
  obtain ⟨pt, hpt, hbs⟩ := h.pre
  obtain ⟨q, hq, hids⟩ := C77_plain P t w e he h.fit h.sequence hpad
  have := rt_tokens P t hm before w hmod h.decoder h.text hpt hbs h.ascii h.noPrefix h.noSuffix h.keys h.ids h.shows hlost hr
    false (fun h => by cases h) q hq
  rw [← hids] at this
  obtain ⟨_, _, _, _, _, _, _, hsc⟩ := rt_preTokenized h.text hpt hbs h.ascii
  exact ⟨e, _, he, this, utf8Text_iff.2 ⟨hsc, rfl⟩⟩

/-- **C78** with special tokens and padding, decoded without special tokens: the text comes back, provided none of the
special tokens is written out in it. -/
theorem C78_skip_partial (P : Platform) (t : Tokenizer) {lines : List Str} {m : BPE} (hm : Made lines m) (before : List PTS)
    (w : WStr) (b : Bool) (hmod : t.model = some (.bpe (usedBPE P m before))) (h : ByteRoundtrip P t m w)
    (hlost : ∀ b ∈ utf8 w, ¬ LostByte b)
    (hr : ∀ p, (t.preTokenized P w).1 = .ok p → ∀ s ∈ p.splits, Fits m s.normalized ∧ Readable m s.normalized)
    (hS : b = true → ∀ s ∈ Specials t, ∀ i ∈ s.ids, specialId t i = true)
    (hpad : ∀ p, t.padding = some p → specialId t p.padId = true)
    (hns : ∀ v s, t.isSpecial v = true → Utf8Text (byteText (utf8 w)) s → ¬ v <:+: s) :
    ∃ e s, (t.encode P w b).1 = .ok e ∧ t.decode e.ids true = .ok s ∧ Utf8Text w s := by
  obtain ⟨e, he⟩ := rt_encode hm hmod h b hr
  obtain ⟨pt, hpt, hbs⟩ := h.pre
  obtain ⟨q, hq, hdec⟩ := C77_text_only P t w b e he h.fit h.sequence hS hpad
  obtain ⟨_, _, _, _, _, _, _, hsc⟩ := rt_preTokenized h.text hpt hbs h.ascii
  have := rt_tokens P t hm before w hmod h.decoder h.text hpt hbs h.ascii h.noPrefix h.noSuffix h.keys h.ids h.shows hlost hr
    true (fun _ v hv => hns v _ hv (utf8Text_iff.2 ⟨byteText_scalars (utf8_bytes hsc), rfl⟩)) q hq
  rw [← hdec] at this
  exact ⟨e, _, he, this, utf8Text_iff.2 ⟨hsc, rfl⟩⟩

/-- A text of visible ASCII characters that have an entry of their own is readable however it is cut. -/
theorem rt_visible {P : Platform} {t : Tokenizer} {m : BPE} {w : WStr} (h : ByteRoundtrip P t m w) (hlen : w.length < 2 ^ 31)
    (hv : ∀ c ∈ w, Visible c ∧ ∃ id, tokenToId m.vocab [c] = some id) :
    (∀ b ∈ utf8 w, ¬ LostByte b) ∧
    ∀ p, (t.preTokenized P w).1 = .ok p → ∀ s ∈ p.splits, Fits m s.normalized ∧ Readable m s.normalized := by
  have hasc : Ascii w := fun c hc => by have := (hv c hc).1.2; omega
  have e := utf8_ascii hasc
  refine ⟨?_, ?_⟩
  · rw [e]; intro b hb
    have := (hv b hb).1
    unfold Visible at this; unfold LostByte; omega
  · intro p hp s hs
    obtain ⟨pt, hpt, hbs⟩ := h.pre
    obtain ⟨p', bss, h1, h2, h3, _⟩ := rt_preTokenized h.text hpt hbs h.ascii
    rw [hp] at h1; cases h1
    have gen : ∀ {bss : List Str} {l : List Split}, Each (fun b (q : Split) => q.normalized = utf8 (byteText b)) bss l →
        s ∈ l → ∃ b ∈ bss, s.normalized = utf8 (byteText b) := by
      intro bss l h
      induction h with
      | nil => simp
      | cons hb _ ih =>
        intro hs
        rcases List.mem_cons.1 hs with rfl | hs
        · exact ⟨_, by simp, hb⟩
        · obtain ⟨b, g1, g2⟩ := ih hs; exact ⟨b, by simp [g1], g2⟩
    obtain ⟨b, hb, hn⟩ := gen h2 hs
    have hsub : ∀ c ∈ b, c ∈ w := by
      intro c hc; rw [← e, ← h3]; exact List.mem_flatten.2 ⟨b, hb, hc⟩
    have hbw : byteText b = b := by
      unfold byteText
      conv => rhs; rw [← List.map_id b]
      refine List.map_congr_left fun c hc => ?_
      have := (hv c (hsub c hc)).1
      unfold Visible at this
      simp only [byteCode, id]; rw [if_pos (.inl this)]
    rw [hbw, utf8_ascii fun c hc => hasc c (hsub c hc)] at hn
    have hl : b.length ≤ w.length := by
      rw [← e, ← h3]
      obtain ⟨A, B, rfl⟩ := List.append_of_mem hb
      simp; omega
    rw [hn]
    refine ⟨?_, .inr fun c hc => hv c (hsub c hc)⟩
    unfold Fits; rw [h.noPrefix, h.noSuffix]; simp; omega

/-- **C78** for a text of visible ASCII characters each of which is an entry of the vocabulary: `decode` after `encode` is
the text, whatever the merges, the patterns and the added tokens. -/
theorem C78_visible (P : Platform) (t : Tokenizer) {lines : List Str} {m : BPE} (hm : Made lines m) (before : List PTS)
    (w : WStr) (hmod : t.model = some (.bpe (usedBPE P m before))) (h : ByteRoundtrip P t m w) (hpad : t.padding = none)
    (hlen : w.length < 2 ^ 31) (hv : ∀ c ∈ w, Visible c ∧ ∃ id, tokenToId m.vocab [c] = some id) :
    ∃ e, (t.encode P w false).1 = .ok e ∧ t.decode e.ids false = .ok w := by
  obtain ⟨h1, h2⟩ := rt_visible h hlen hv
  obtain ⟨e, s, g1, g2, g3⟩ := C78_roundtrip_partial P t hm before w hmod h hpad h1 h2
  have := utf8Text_ascii g3 fun c hc => by have := (hv c hc).1.2; omega
  subst this
  exact ⟨e, g1, g2⟩

/-! ### Examples -/

/-- A byte-level tokenizer over `m`. -/
def byteTk (m : BPE) (a : AddedVocab) (pp : Option PostProcessor) (pad : Option Padding) : Tokenizer :=
  { added := some a, preTokenizer := some (.byteLevel false false), model := some (.bpe m), postProcessor := pp,
    padding := pad, decoder := some .byteLevel }

/-- Vocabulary a, b, c, ab, bc, `Ġab` (U+0120 stands for the blank), `[CLS]`, `[SEP]`, `[PAD]`; `ignore_merges`. -/
def spaceBPE : BPE :=
  { abcBPE with
    vocab := [(b!"a", 0), (b!"b", 1), (b!"c", 2), (b!"ab", 3), (b!"bc", 4), ([0xC4, 0xA0] ++ b!"ab", 5),
      (b!"[CLS]", 101), (b!"[SEP]", 102), (b!"[PAD]", 9)]
    ignoreMerges := true }

theorem spaceBPE_made : Made [b!"a b", b!"b c"] spaceBPE := by simp only [Made]; rfl

/-- `[CLS]`, `[SEP]`, `[PAD]` added as special tokens. -/
def spaceAdded : AddedVocab :=
  match (AddedVocab.init []).addTokens (some spaceBPE.vocab)
    [{ content := b!"[CLS]", special := true }, { content := b!"[SEP]", special := true }, { content := b!"[PAD]", special := true }] with
  | .ok (_, a) => a
  | .error _ => AddedVocab.init []

/-- Ids are shown as the entries if the table lists distinct ids and the added vocabulary shows them so. -/
theorem rt_shows {t : Tokenizer} {m : Model} (h : ∀ p ∈ m.vocab, t.idToken p.2 = .ok p.1) :
    ShowsVocabulary t m := fun v i hv => h (v, i) (mapFind_mem hv)

theorem rt_abc : ByteRoundtrip ascii (byteTk abcBPE (AddedVocab.init []) none none) abcBPE w!"abcabba" where
  pre := ⟨_, rfl, .byteLevel (by simp)⟩
  decoder := rfl
  fit := by intro x h; cases h
  tail := ⟨by simp [byteTk], by simp [byteTk, Specials], by simp [byteTk]⟩
  sequence := by intro p h; cases h
  text := ⟨rfl, by decide, noAdded_cuttable (by unfold Bmp Scalar; decide), by simp [AddedVocab.init], by simp [AddedVocab.init]⟩
  ascii := fun _ => by unfold Ascii; decide
  noPrefix := rfl
  noSuffix := rfl
  keys := by decide
  ids := distinctIds_of_nodup (by decide)
  shows := rt_shows (by decide +kernel)

-- visible ASCII
example : ∃ e, ((byteTk abcBPE (AddedVocab.init []) none none).encode ascii w!"abcabba" false).1 = .ok e ∧
    (byteTk abcBPE (AddedVocab.init []) none none).decode e.ids false = .ok b!"abcabba" :=
  C78_visible ascii _ abcBPE_made [] _ rfl rt_abc rfl (by decide) (by
    have : ∀ c ∈ w!"abcabba", Visible c ∧ (tokenToId abcBPE.vocab [c]).isSome := by unfold Visible; decide
    exact fun c hc => ⟨(this c hc).1, Option.isSome_iff_exists.1 (this c hc).2⟩)
example : ((byteTk abcBPE (AddedVocab.init []) none none).encode ascii w!"abcabba" false).1.map (·.ids) =
    .ok [0, 4, 3, 1, 0] := by decide +kernel

theorem rt_space : ByteRoundtrip ascii (byteTk spaceBPE spaceAdded (some sampleTemplate) (some (padTo 6))) spaceBPE w!" ab" where
  pre := ⟨_, rfl, .byteLevel (by simp)⟩
  decoder := rfl
  fit := by intro x h; cases h
  tail := ⟨by simp [byteTk], by decide, by intro p h; cases h; decide⟩
  sequence := by intro p h; cases h; unfold NamesSequence sampleTemplate; decide
  text := ⟨rfl, by decide, ⟨by unfold Bmp Scalar; decide, .inr ⟨by unfold Ascii; decide, by unfold BlankByte; decide +kernel⟩⟩,
    by unfold Ascii; decide +kernel, by decide +kernel⟩
  ascii := fun _ => by unfold Ascii; decide
  noPrefix := rfl
  noSuffix := rfl
  keys := by decide +kernel
  ids := distinctIds_of_nodup (by decide +kernel)
  shows := rt_shows (by decide +kernel)

-- a blank inside an entry that `ignore_merges` finds; special tokens and padding are left out
example : ∃ e s, ((byteTk spaceBPE spaceAdded (some sampleTemplate) (some (padTo 6))).encode ascii w!" ab" true).1 = .ok e ∧
    (byteTk spaceBPE spaceAdded (some sampleTemplate) (some (padTo 6))).decode e.ids true = .ok s ∧ Utf8Text w!" ab" s := by
  have hpre : ((byteTk spaceBPE spaceAdded (some sampleTemplate) (some (padTo 6))).preTokenized ascii w!" ab").1.map
      (fun p => p.splits.map (·.normalized)) = .ok [[0xC4, 0xA0] ++ b!"ab"] := by decide +kernel
  refine C78_skip_partial ascii _ spaceBPE_made [] _ true rfl rt_space ?_ ?_ ?_ ?_ ?_
  · rw [utf8_ascii (by unfold Ascii; decide)]; decide
  · intro p hp s hs
    rw [hp] at hpre
    simp only [Except.map, Except.ok.injEq] at hpre
    have : s.normalized ∈ [[0xC4, 0xA0] ++ b!"ab"] := by rw [← hpre]; exact List.mem_map.2 ⟨s, hs, rfl⟩
    simp only [List.mem_singleton] at this
    rw [this]
    exact ⟨by simp [Fits, spaceBPE, abcBPE], .inl ⟨rfl, rfl, 5, rfl⟩⟩
  · intro _; decide +kernel
  · intro p h; cases h; decide +kernel
  · intro v s hv hs hin
    have e := (utf8Text_iff.1 hs).2
    have e2 : byteText (utf8 w!" ab") = [0x120, 0x61, 0x62] := by
      rw [utf8_ascii (by unfold Ascii; decide)]; decide
    rw [e2] at e
    have hv' : v ∈ [b!"[CLS]", b!"[SEP]", b!"[PAD]"] := by
      have : v ∈ spaceAdded.specialSet := by simpa [Tokenizer.isSpecial, AddedVocab.isSpecial, byteTk] using hv
      have e3 : spaceAdded.specialSet = [b!"[CLS]", b!"[SEP]", b!"[PAD]"] := by decide +kernel
      rw [e3] at this; exact this
    have hmem : (0x5B : Nat) ∈ v := by
      simp only [List.mem_cons, List.not_mem_nil, or_false] at hv'
      rcases hv' with rfl | rfl | rfl <;> decide
    have := hin.subset hmem
    rw [e] at this
    revert this; decide
example : ((byteTk spaceBPE spaceAdded (some sampleTemplate) (some (padTo 6))).encode ascii w!" ab" true).1.map (·.ids) =
    .ok [101, 5, 102, 9, 9, 9] := by decide +kernel

/-- The vocabulary as byte-level training writes it: every character of the alphabet, `Ġ` among them, no bytes. -/
def gptBPE : BPE :=
  { abcBPE with vocab := [(b!"a", 0), (b!"b", 1), (b!"c", 2), (b!"ab", 3), (b!"bc", 4), ([0xC4, 0xA0], 5)] }

theorem gptBPE_made : Made [b!"a b", b!"b c"] gptBPE := by simp only [Made]; rfl

/-- **C78 is violated** by an ordinary byte-level vocabulary: although the blank has an entry, "a b" is encoded without it
and decodes to "ab"; and a letter that is not ASCII makes `encode` throw where `char` is signed. -/
theorem C78_violated : Made [b!"a b", b!"b c"] gptBPE ∧
    ((byteTk gptBPE (AddedVocab.init []) none none).encode ascii w!"a b" false).1.map (·.ids) = .ok [3] ∧
    (byteTk gptBPE (AddedVocab.init []) none none).decode [3] false = .ok b!"ab" ∧
    ((byteTk gptBPE (AddedVocab.init []) none none).encode ascii w!"é" false).1.map (·.ids) = .error (.throws .outOfRange) := by
  refine ⟨gptBPE_made, by decide +kernel, ?_, by decide +kernel⟩
  refine decode_of rfl (ts := [b!"ab"]) (by decide +kernel) ?_
  simp only [Decoder.run, byteLevelDecode, List.flatMap_cons, List.flatMap_nil, List.append_nil]
  rw [rt_visible_decode (by decide)]

end Tok
