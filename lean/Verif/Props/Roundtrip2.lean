import Verif.Props.Roundtrip
import Verif.Proofs.Roundtrip2

set_option autoImplicit false

/-!
C79: a word-piece tokenizer gives words separated by single spaces back.
-/

namespace Tok
open Spec

/-- A word that BERT pre-tokenization keeps whole and that word-piece segmentation covers with entries. -/
structure Covered (P : Platform) (m : WordPiece) (w : WStr) : Prop where
  nonempty : w ≠ []
  plain : ∀ c ∈ w, P.reSpace c = false ∧ P.rePunct c = false
  clean : CleanWord (tokenToId m.vocab) w
  short : (units w : Int) ≤ m.maxChars
  covered : ¬ Stuck (tokenToId m.vocab) m.pre true w

/-- The configuration: BERT pre-tokenization, word-piece model and word-piece decoder with the same prefix; every token is
kept; ids are shown as their entries. -/
structure WordRoundtrip (P : Platform) (t : Tokenizer) (m : WordPiece) (w : WStr) : Prop where
  pre : t.preTokenizer = some .bert
  model : t.model = some (.wordPiece m)
  decoder : t.decoder = some (.wordPiece m.pre false)
  blank : P.reSpace 0x20 = true
  fit : Fit P t w
  tail : SafeEnd t
  sequence : ∀ p, t.postProcessor = some p → NamesSequence p
  text : SafeText t w
  /-- no added token occurs in the text -/
  absent : ∀ a s, t.added = some a → Utf8Text w s → ∀ p ∈ a.nonNormTrie ++ a.normTrie, ¬ p.1 <:+: s
  shows : ShowsVocabulary t (.wordPiece m)

theorem rt_spaced_infix {w : WStr} : ∀ {ws : List WStr}, w ∈ ws → w <:+: spaced ws := by
  intro ws
  induction ws with
  | nil => intro h; cases h
  | cons x ws ih =>
    intro h
    cases ws with
    | nil => simp at h; subst h; simp [spaced]
    | cons y ws' =>
      simp only [spaced]
      rcases List.mem_cons.1 h with rfl | h
      · exact ⟨[], 0x20 :: spaced (y :: ws'), by simp⟩
      · obtain ⟨a, b, e⟩ := ih h
        exact ⟨x ++ 0x20 :: a, b, by rw [← e]; simp⟩

theorem rt_utf8_infix {v w : WStr} (h : v <:+: w) : utf8 v <:+: utf8 w := by
  obtain ⟨x, y, e⟩ := h
  exact ⟨utf8 x, utf8 y, by rw [← utf8_append, ← utf8_append, e]⟩

theorem rt_wp_values {V : Str → Option Int} {pre : Str} {first : Bool} {pos : Nat} {w : WStr} {ts : List Token}
    (h : Greedy V pre first pos w ts) : ∀ t ∈ ts, V t.value = some t.id ∧
      ∃ v, v ≠ [] ∧ v <:+: w ∧ (t.value = utf8 v ∨ t.value = pre ++ utf8 v) := by
  induction h with
  | done => simp
  | @take first pos v r key id ts hL _ ih =>
    intro t ht
    rcases List.mem_cons.1 ht with rfl | ht
    · refine ⟨hL.known, v, hL.nonempty, ⟨[], r, by simp⟩, ?_⟩
      obtain ⟨s, hs, hk⟩ := hL.key_of
      rw [(utf8Text_iff.1 hs).2] at hk
      simp only [hk]
      cases first
      · exact .inr rfl
      · exact .inl rfl
    · obtain ⟨h1, v', h2, ⟨a, b, h3⟩, h4⟩ := ih t ht
      exact ⟨h1, v', h2, ⟨v ++ a, b, by rw [← h3]; simp⟩, h4⟩

/-- The tokens of the text decode to the text. -/
theorem rt_words (P : Platform) (t : Tokenizer) (m : WordPiece) (ws : List WStr) (h : WordRoundtrip P t m (spaced ws))
    (hws : ∀ w ∈ ws, Covered P m w) (hpre : ∀ w s, w ∈ ws.drop 1 → Utf8Text w s → ¬ m.pre <+: s) (skip : Bool)
    (hns : skip = true → ∀ v s, v ≠ [] → v <:+: spaced ws → Utf8Text v s → t.isSpecial s = false ∧ t.isSpecial (m.pre ++ s) = false)
    (q : PTS) (hq : TokenizedInto P t (spaced ws) q) : t.decode (textIds q) skip = .ok (utf8 (spaced ws)) := by
  have hscal : (∀ c ∈ spaced ws, Scalar c) ∧ (t.normalizer = none ∨ t.added = none) ∧
      (∀ a, t.added = some a → Bmp (spaced ws) ∧ spaced ws ≠ []) := by
    have := h.text
    unfold SafeText at this
    cases ha : t.added with
    | none => rw [ha] at this; exact ⟨this.2, .inr rfl, by simp⟩
    | some a =>
      rw [ha] at this
      exact ⟨fun c hc => (this.2.2.1.1 c hc).1, .inl this.1, fun _ _ => ⟨this.2.2.1.1, this.2.1⟩⟩
  have hs : Scalars (spaced ws) := scalars_iff.1 hscal.1
  obtain ⟨ns, hp⟩ := rt_preTokenized_absent P t hscal.2.1 hscal.1 fun a ha =>
    ⟨(hscal.2.2 a ha).1, (hscal.2.2 a ha).2, h.absent a _ ha (utf8Text_iff.2 ⟨hs, rfl⟩)⟩
  rw [h.pre] at hp
  obtain ⟨p, hb, hw⟩ := rt_bert_words P h.blank ws ns hs fun w hw => ⟨(hws w hw).nonempty, (hws w hw).plain⟩
  simp only [hb] at hp
  obtain ⟨p', hp', hq⟩ := hq
  rw [hp] at hp'; cases hp'
  rw [h.model] at hq
  have hq' : q = m.tokenize p := by simp only [Model.tokenize] at hq; cases hq; rfl
  have hsp := (wordPiece_splits m p).2
  rw [← hq'] at hsp
  -- the tokens are those of the words
  have htok : q.splits.flatMap (·.tokens) = (p.splits.map (·.normalized)).flatMap m.word := by
    clear hq' hq hp hb hw
    generalize p.splits = l at hsp
    generalize q.splits = l' at hsp
    induction hsp with
    | nil => rfl
    | cons h1 _ ih => simp only [List.flatMap_cons, List.map_cons, h1.2.2, ih]
  have hss : Each (fun w s => Utf8Text w s) ws (p.splits.map (·.normalized)) := Each.map_right hw
  have hval : (q.splits.flatMap (·.tokens)).map (·.value) =
      (p.splits.map (·.normalized)).flatMap fun s => (m.word s).map (·.value) := by
    rw [htok, List.map_flatMap]
  obtain ⟨out, h1, h2⟩ := C50_roundtrip m ws (p.splits.map (·.normalized)) hss (fun w hw => (hws w hw).nonempty)
    (fun w hw => (hws w hw).clean) (fun w hw => ⟨(hws w hw).short, (hws w hw).covered⟩) (by
      have drop : ∀ {ws : List WStr} {ss : List Str}, Each (fun w s => Utf8Text w s) ws ss →
          Each (fun w s => Utf8Text w s) (ws.drop 1) (ss.drop 1) := by
        intro ws ss h
        cases h with
        | nil => exact .nil
        | cons _ h => exact h
      intro s hs'
      obtain ⟨w, hw', ht⟩ := each_mem_right (drop hss) s hs'
      exact hpre w s hw' ht)
  have hgreedy : ∀ k ∈ q.splits.flatMap (·.tokens), tokenToId m.vocab k.value = some k.id ∧
      ∃ v, v ≠ [] ∧ v <:+: spaced ws ∧ (k.value = utf8 v ∨ k.value = m.pre ++ utf8 v) := by
    intro k hk
    rw [htok] at hk
    obtain ⟨s, hs', hk⟩ := List.mem_flatMap.1 hk
    obtain ⟨w, hw', ht⟩ := each_mem_right hss s hs'
    have hc := hws w hw'
    rcases C12_C13_answer m s w ht hc.clean with ⟨hl, _⟩ | ⟨_, hst, _⟩ | ⟨_, hg⟩
    · have := hc.short; omega
    · exact absurd hst hc.covered
    · obtain ⟨g1, v, g2, g3, g4⟩ := rt_wp_values hg k hk
      exact ⟨g1, v, g2, g3.trans (rt_spaced_infix hw'), g4⟩
  rw [rt_textIds]
  have hidt := rt_idTokens (t := t) (skip := skip) (q.splits.flatMap (·.tokens))
    (fun k hk => h.shows _ _ (hgreedy k hk).1) (by
      intro hsk k hk
      obtain ⟨_, v, g1, g2, g3⟩ := hgreedy k hk
      have hv : Scalars v := scalars_iff.1 fun c hc => hscal.1 c (g2.subset hc)
      have := hns hsk v (utf8 v) g1 g2 (utf8Text_iff.2 ⟨hv, rfl⟩)
      rcases g3 with e | e <;> rw [e]
      · exact this.1
      · exact this.2)
  rw [hval] at hidt
  have := (utf8Text_iff.1 h2).2
  rw [← this]
  simp only [Tokenizer.decode, hidt, res_ok_bind, h.decoder, h1, concat]
  rfl

/-- **C79.** Words separated by single spaces come back: `encode` returns, and `decode` of the ids, leaving out special
tokens, is the text, whatever special tokens the template adds and however the result is padded. -/
theorem C79_words (P : Platform) (t : Tokenizer) (m : WordPiece) (ws : List WStr) (b : Bool) (h : WordRoundtrip P t m (spaced ws))
    (hws : ∀ w ∈ ws, Covered P m w) (hpre : ∀ w s, w ∈ ws.drop 1 → Utf8Text w s → ¬ m.pre <+: s)
    (hS : b = true → ∀ s ∈ Specials t, ∀ i ∈ s.ids, specialId t i = true)
    (hpad : ∀ p, t.padding = some p → specialId t p.padId = true)
    (hns : ∀ v s, v ≠ [] → v <:+: spaced ws → Utf8Text v s → t.isSpecial s = false ∧ t.isSpecial (m.pre ++ s) = false) :
    ∃ e s, (t.encode P (spaced ws) b).1 = .ok e ∧ t.decode e.ids true = .ok s ∧ Utf8Text (spaced ws) s := by
  obtain ⟨e, he⟩ := C73_returns_partial P t (spaced ws) b h.text
    (fun pt hpt => by rw [h.pre] at hpt; cases hpt; exact .cuts trivial) h.tail (.inr ⟨m, h.model⟩)
  obtain ⟨q, hq, hd⟩ := C77_text_only P t _ b e he h.fit h.sequence hS hpad
  have := rt_words P t m ws h hws hpre true (fun _ => hns) q hq
  rw [← hd] at this
  refine ⟨e, _, he, this, utf8Text_iff.2 ⟨?_, rfl⟩⟩
  have := h.text
  unfold SafeText at this
  cases ha : t.added with
  | none => rw [ha] at this; exact scalars_iff.1 this.2
  | some a => rw [ha] at this; exact bmp_scalars this.2.2.1.1

/-- **C79** without special tokens and padding, decoded with special tokens. -/
theorem C79_words_plain (P : Platform) (t : Tokenizer) (m : WordPiece) (ws : List WStr) (h : WordRoundtrip P t m (spaced ws))
    (hws : ∀ w ∈ ws, Covered P m w) (hpre : ∀ w s, w ∈ ws.drop 1 → Utf8Text w s → ¬ m.pre <+: s) (hpad : t.padding = none) :
    ∃ e s, (t.encode P (spaced ws) false).1 = .ok e ∧ t.decode e.ids false = .ok s ∧ Utf8Text (spaced ws) s := by
  obtain ⟨e, he⟩ := C73_returns_partial P t (spaced ws) false h.text
    (fun pt hpt => by rw [h.pre] at hpt; cases hpt; exact .cuts trivial) h.tail (.inr ⟨m, h.model⟩)
  obtain ⟨q, hq, hd⟩ := C77_plain P t _ e he h.fit h.sequence hpad
  have := rt_words P t m ws h hws hpre false (fun h => by cases h) q hq
  rw [← hd] at this
  refine ⟨e, _, he, this, utf8Text_iff.2 ⟨?_, rfl⟩⟩
  have := h.text
  unfold SafeText at this
  cases ha : t.added with
  | none => rw [ha] at this; exact scalars_iff.1 this.2
  | some a => rw [ha] at this; exact bmp_scalars this.2.2.1.1

/-! ### Examples -/

/-- A word-piece model with special tokens in its vocabulary. -/
def wordsWP : WordPiece :=
  { vocab := [(b!"[UNK]", 0), (b!"play", 1), (b!"##ing", 2), (b!"go", 3), (b!",", 4), (b!"[CLS]", 101), (b!"[SEP]", 102), (b!"[PAD]", 9)]
    unkToken := b!"[UNK]", maxChars := 100, pre := b!"##" }

/-- `[CLS]`, `[SEP]`, `[PAD]` added as special tokens. -/
def wordsAdded : AddedVocab :=
  match (AddedVocab.init []).addTokens (some wordsWP.vocab)
    [{ content := b!"[CLS]", special := true }, { content := b!"[SEP]", special := true }, { content := b!"[PAD]", special := true }] with
  | .ok (_, a) => a
  | .error _ => AddedVocab.init []

/-- A BERT tokenizer that truncates to ten tokens, adds `[CLS]` and `[SEP]` and pads to ten. -/
def wordsBert : Tokenizer :=
  { model := some (.wordPiece wordsWP), added := some wordsAdded, preTokenizer := some .bert, truncation := some (cut 10),
    postProcessor := some sampleTemplate, padding := some (padTo 10), decoder := some (.wordPiece b!"##" false) }

theorem rt_wordsAdded : wordsAdded.nonNormTrie ++ wordsAdded.normTrie = [(b!"[CLS]", 101), (b!"[SEP]", 102), (b!"[PAD]", 9)] ∧
    wordsAdded.specialSet = [b!"[CLS]", b!"[SEP]", b!"[PAD]"] := by decide +kernel

theorem rt_wordsBert : WordRoundtrip ascii wordsBert wordsWP (spaced [w!"go", w!"playing", w!"go"]) where
  pre := rfl
  model := rfl
  decoder := rfl
  blank := by decide
  fit := by
    intro x hx; cases hx
    refine ⟨by decide, fun q hq => ?_⟩
    obtain ⟨p, hp, hq⟩ := hq
    have e : (wordsBert.preTokenized ascii (spaced [w!"go", w!"playing", w!"go"])).1.map
        (fun p => (textIds (wordsWP.tokenize p)).length) = .ok 4 := by decide +kernel
    rw [hp] at e
    simp only [Except.map, Except.ok.injEq] at e
    have : q = wordsWP.tokenize p := by cases hq; rfl
    rw [this, e]; decide
  tail := ⟨by intro x h; cases h; simp [SafeTruncation, cut], by decide, by intro p h; cases h; decide⟩
  sequence := by intro p h; cases h; unfold NamesSequence sampleTemplate; decide
  text := ⟨rfl, by decide, ⟨by unfold Bmp Scalar; decide, .inr ⟨by unfold Ascii; decide, by unfold BlankByte; decide +kernel⟩⟩,
    by unfold Ascii; decide +kernel, by decide +kernel⟩
  absent := by
    intro a s ha hs p hp hin
    cases ha
    have e := utf8Text_ascii hs (by unfold Ascii; decide)
    have hmem : (0x5B : Nat) ∈ p.1 := by
      rw [rt_wordsAdded.1] at hp
      simp only [List.mem_cons, List.not_mem_nil, or_false] at hp
      rcases hp with rfl | rfl | rfl <;> decide
    have := hin.subset hmem
    rw [e] at this
    revert this; decide
  shows := rt_shows (by decide +kernel)

theorem rt_covered (w : WStr) (s : Str) (ha : Ascii w) (hs : w = s) (hne : w ≠ [])
    (hp : ∀ c ∈ w, ascii.reSpace c = false ∧ ascii.rePunct c = false) (hl : (units w : Int) ≤ wordsWP.maxChars)
    (hk : (wordsWP.word s).head?.map (·.value) ≠ some b!"[UNK]") : Covered ascii wordsWP w where
  nonempty := hne
  plain := hp
  clean := .inl fun c hc => by have := ha c hc; omega
  short := hl
  covered := by
    subst hs
    have ht : Utf8Text w w := utf8Text_iff.2 ⟨scalars_iff.1 fun c hc => by have := ha c hc; unfold Scalar; omega, (utf8_ascii ha).symm⟩
    intro hst
    rcases C12_C13_answer wordsWP w w ht (.inl fun c hc => by have := ha c hc; omega) with ⟨h, _⟩ | ⟨_, _, h⟩ | ⟨_, h⟩
    · omega
    · rw [h] at hk; exact hk rfl
    · exact C13_greedy_not_stuck h hst

-- C79 (and with it C77): `[CLS] go play ##ing go [SEP] [PAD] …` decodes to "go playing go"
example : ∃ e s, (wordsBert.encode ascii (spaced [w!"go", w!"playing", w!"go"]) true).1 = .ok e ∧
    wordsBert.decode e.ids true = .ok s ∧ Utf8Text (spaced [w!"go", w!"playing", w!"go"]) s := by
  refine C79_words ascii wordsBert wordsWP _ true rt_wordsBert ?_ ?_ ?_ ?_ ?_
  · intro w hw
    simp only [List.mem_cons, List.not_mem_nil, or_false] at hw
    rcases hw with rfl | rfl | rfl <;>
      exact rt_covered _ _ (by unfold Ascii; decide) rfl (by decide) (by decide) (by decide) (by decide +kernel)
  · intro w s hw hs
    simp only [List.drop_succ_cons, List.drop_zero, List.mem_cons, List.not_mem_nil, or_false] at hw
    rcases hw with rfl | rfl <;>
      (rw [utf8Text_ascii hs (by unfold Ascii; decide)]; decide)
  · intro _; decide +kernel
  · intro p h; cases h; decide +kernel
  · intro v s hne hin hs
    have hsub : ∀ c ∈ v, c ∈ spaced [w!"go", w!"playing", w!"go"] := fun c hc => hin.subset hc
    have hall : ∀ c ∈ spaced [w!"go", w!"playing", w!"go"], c < 0x80 ∧ c ≠ 0x5B := by decide
    have e := utf8Text_ascii hs fun c hc => (hall c (hsub c hc)).1
    have no : ∀ x : Str, (0x5B : Nat) ∉ x → wordsBert.isSpecial x = false := by
      intro x hx
      have : wordsBert.isSpecial x = wordsAdded.specialSet.contains x := rfl
      rw [this, rt_wordsAdded.2]
      cases hcx : [b!"[CLS]", b!"[SEP]", b!"[PAD]"].contains x with
      | false => rfl
      | true =>
        exfalso
        rw [List.contains_iff_mem] at hcx
        simp only [List.mem_cons, List.not_mem_nil, or_false] at hcx
        rcases hcx with rfl | rfl | rfl <;> exact hx (by decide)
    rw [e]
    refine ⟨no _ fun h => (hall _ (hsub _ h)).2 rfl, no _ fun h => ?_⟩
    rcases List.mem_append.1 h with h | h
    · revert h; decide
    · exact (hall _ (hsub _ h)).2 rfl
example : (wordsBert.encode ascii w!"go playing go" true).1.map (·.ids) = .ok [101, 3, 1, 2, 3, 102, 9, 9, 9, 9] := by
  decide +kernel

/-- Encode, then decode without special tokens. -/
def thereAndBack (P : Platform) (t : Tokenizer) (w : WStr) : Res Str := do
  let e ← (t.encode P w true).1
  t.decode e.ids true

/-- **C79 is violated** by a text with two spaces, with punctuation next to a word, and with an unknown word. -/
theorem C79_violated :
    thereAndBack ascii wordsBert w!"go playing go" = .ok b!"go playing go" ∧
    thereAndBack ascii wordsBert w!"go  go" = .ok b!"go go" ∧
    thereAndBack ascii wordsBert w!"go, go" = .ok b!"go , go" ∧
    thereAndBack ascii wordsBert w!"go home" = .ok b!"go [UNK]" := by
  refine ⟨?_, ?_, ?_, ?_⟩ <;> decide +kernel

end Tok
