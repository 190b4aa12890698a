import Verif.Props.Blanks
import Verif.Props.Roundtrip2
import Verif.Props.Portable
import Verif.Spec.Again

set_option autoImplicit false

/-!
C126: the decoded text, encoded again, gives the same encoding.
-/

namespace Tok
open Spec

/-- The tokens of the words decode to the words with single spaces between them. -/
theorem ag_decode {t : Tokenizer} {m : WordPiece} {ws : List WStr} {p q : PTS} (skip : Bool)
    (hw : Each (fun v s => HasText s v) ws p.splits) (hq : q = m.tokenize p) (hdec : t.decoder = some (.wordPiece m.pre false))
    (hshow : ShowsVocabulary t (.wordPiece m)) (hne : ∀ w ∈ ws, w ≠ []) (hws : ∀ w ∈ ws, Segmented m w)
    (hpre : ∀ w s, w ∈ ws.drop 1 → Utf8Text w s → ¬ m.pre <+: s) (hns : skip = true → ∀ w ∈ ws, NoSpecialPart t m.pre w) :
    ∃ s, t.decode (textIds q) skip = .ok s ∧ Utf8Text (spaced ws) s := by
  have hsp := (wordPiece_splits m p).2
  rw [← hq] at hsp
  have htok : q.splits.flatMap (·.tokens) = (p.splits.map (·.normalized)).flatMap m.word := by
    clear hq hw
    generalize p.splits = l at hsp
    generalize q.splits = l' at hsp
    induction hsp with
    | nil => rfl
    | cons h1 _ ih => simp only [List.flatMap_cons, List.map_cons, h1.2.2, ih]
  have hss : Each (fun w s => Utf8Text w s) ws (p.splits.map (·.normalized)) := Each.map_right hw
  have hval : (q.splits.flatMap (·.tokens)).map (·.value) =
      (p.splits.map (·.normalized)).flatMap fun s => (m.word s).map (·.value) := by
    rw [htok, List.map_flatMap]
  obtain ⟨out, h1, h2⟩ := C50_roundtrip m ws (p.splits.map (·.normalized)) hss hne
    (fun w hw => (hws w hw).clean) (fun w hw => ⟨(hws w hw).short, (hws w hw).covered⟩) (by
      have drop : ∀ {ws : List WStr} {ss : List Str}, Each (fun w s => Utf8Text w s) ws ss →
          Each (fun w s => Utf8Text w s) (ws.drop 1) (ss.drop 1) := by
        intro ws ss h
        cases h with
        | nil => exact .nil
        | cons _ h => exact h
      intro s hs'
      obtain ⟨w, hw', ht⟩ := each_mem_right (drop hss) s hs'
      exact hpre w s hw' ht)
  have hgreedy : ∀ k ∈ q.splits.flatMap (·.tokens), tokenToId m.vocab k.value = some k.id ∧
      ∃ w v, w ∈ ws ∧ Scalars w ∧ v ≠ [] ∧ v <:+: w ∧ (k.value = utf8 v ∨ k.value = m.pre ++ utf8 v) := by
    intro k hk
    rw [htok] at hk
    obtain ⟨s, hs', hk⟩ := List.mem_flatMap.1 hk
    obtain ⟨w, hw', ht⟩ := each_mem_right hss s hs'
    have hc := hws w hw'
    rcases C12_C13_answer m s w ht hc.clean with ⟨hl, _⟩ | ⟨_, hst, _⟩ | ⟨_, hg⟩
    · have := hc.short; omega
    · exact absurd hst hc.covered
    · obtain ⟨g1, v, g2, g3, g4⟩ := rt_wp_values hg k hk
      exact ⟨g1, w, v, hw', (utf8Text_iff.1 ht).1, g2, g3, g4⟩
  rw [rt_textIds]
  have hidt := rt_idTokens (t := t) (skip := skip) (q.splits.flatMap (·.tokens))
    (fun k hk => hshow _ _ (hgreedy k hk).1) (by
      intro hsk k hk
      obtain ⟨_, w, v, g0, gs, g1, g2, g3⟩ := hgreedy k hk
      have hv : Scalars v := scalars_iff.1 fun c hc => (scalars_iff.2 gs) c (g2.subset hc)
      have := hns hsk w g0 v (utf8 v) g1 g2 (utf8Text_iff.2 ⟨hv, rfl⟩)
      rcases g3 with e | e <;> rw [e]
      · exact this.1
      · exact this.2)
  rw [hval] at hidt
  refine ⟨_, ?_, h2⟩
  simp only [Tokenizer.decode, hidt, res_ok_bind, hdec, h1, concat]
  rfl

/-- What the theorems assume of the tokenizer: a word-piece model, the word-piece decoder with the same prefix and without
clean-up, the sequence named once in the template, and the tokens added by the template and the padding are special. -/
structure WordTokenizer (t : Tokenizer) (m : WordPiece) (b : Bool) : Prop where
  model : t.model = some (.wordPiece m)
  decoder : t.decoder = some (.wordPiece m.pre false)
  shows : ShowsVocabulary t (.wordPiece m)
  sequence : ∀ p, t.postProcessor = some p → NamesSequence p
  specials : b = true → ∀ s ∈ Specials t, ∀ i ∈ s.ids, specialId t i = true
  pads : ∀ p, t.padding = some p → specialId t p.padId = true

/-- **C126** What `decode` gives for the ids of any text: the words of the text with single spaces between them. -/
theorem C126_words (P : Platform) (hg : GoodRegexes P) {t : Tokenizer} {m : WordPiece} {w : WStr} {ws : List WStr} {b : Bool} {e : Encoding}
    (ht : WordTokenizer t m b) (hd : ∀ a, t.added = some a → PlainTables a) (h : (t.encode P w b).1 = .ok e) (hfit : Spec.Fit P t w)
    (hw : AnyWords P t w ws) (hne : ∀ x ∈ ws, x ≠ []) (hws : ∀ x ∈ ws, Segmented m x) (hns : ∀ x ∈ ws, NoSpecialPart t m.pre x)
    (hpre : ∀ x s, x ∈ ws.drop 1 → Utf8Text x s → ¬ m.pre <+: s) :
    ∃ s, t.decode e.ids true = .ok s ∧ Utf8Text (spaced ws) s := by
  obtain ⟨q, ⟨p, hp, hq⟩, k⟩ := C77_text_only P t w b e h hfit ht.sequence ht.specials ht.pads
  rw [k]
  obtain ⟨ws', k1, k2⟩ := at_words P hg hd hp
  obtain rfl := C108_words_unique P k1 hw
  rw [ht.model] at hq
  have hq' : q = m.tokenize p := by simp only [Model.tokenize] at hq; cases hq; rfl
  exact ag_decode true k2 hq' ht.decoder ht.shows hne hws hpre fun _ => hns

/-! ### The words of a text are the words of the text they make -/

theorem ag_punct {pu : Nat → Bool} {x : WStr} (hx : x ≠ []) (h : (∀ c ∈ x, pu c = false) ∨ ∃ c, x = [c] ∧ pu c = true) :
    (punctWords pu 0 [] x).map (·.2) = [x] := by
  rcases h with h | ⟨c, rfl, h⟩
  · have key : ∀ (x cur : WStr) (k : Nat), (∀ c ∈ x, pu c = false) → punctWords pu k cur x = flush k (cur ++ x) := by
      intro x
      induction x with
      | nil => intro cur k _; simp [punctWords]
      | cons c x ih =>
        intro cur k h
        simp [punctWords, h c (by simp), ih (cur ++ [c]) k fun d hd => h d (by simp [hd])]
    rw [key x [] 0 h]
    simp [flush, hx]
  · simp [punctWords, h, flush]

theorem ag_piece {sp pu : Nat → Bool} {n x : WStr} (h : x ∈ (bertPieces sp pu n).map (·.2)) :
    x ≠ [] ∧ (∀ c ∈ x, sp c = false) ∧ ((∀ c ∈ x, pu c = false) ∨ ∃ c, x = [c] ∧ pu c = true) := by
  obtain ⟨⟨k, y⟩, h', rfl⟩ := List.mem_map.1 h
  unfold bertPieces at h'
  obtain ⟨⟨a, z⟩, hz, h'⟩ := List.mem_flatMap.1 h'
  obtain ⟨⟨c, y'⟩, hy, e⟩ := List.mem_map.1 h'
  cases e
  obtain ⟨z1, z2, -⟩ := wsWords_mem sp n 0 [] [] (by simp) (by simp [units]) _ hz
  obtain ⟨y1, y2, l, r, y3, -⟩ := punctWords_mem pu z 0 [] [] (by simp) (by simp [units]) _ hy
  refine ⟨y1, fun d hd => z2 d ?_, y2⟩
  simp only [List.nil_append] at y3
  simp only at y3 hd ⊢
  rw [y3]; simp [hd]

theorem ag_separated {sp : Nat → Bool} (hs : sp 0x20 = true) : ∀ {ws : List WStr}, (∀ x ∈ ws, x ≠ [] ∧ ∀ c ∈ x, sp c = false) →
    Separated sp (spaced ws) ws ∧ Separated sp (0x20 :: spaced ws) ws := by
  intro ws
  induction ws with
  | nil => exact fun _ => ⟨.blanks (by simp [spaced]), .blanks (by simp [spaced, hs])⟩
  | cons x ws ih =>
    intro h
    have hx := h x (by simp)
    obtain ⟨i1, i2⟩ := ih fun y hy => h y (by simp [hy])
    have key : ∃ r, spaced (x :: ws) = x ++ r ∧ (∀ c, r.head? = some c → sp c = true) ∧ Separated sp r ws := by
      cases ws with
      | nil => exact ⟨[], by simp [spaced], by simp, .blanks (by simp)⟩
      | cons y ws => exact ⟨0x20 :: spaced (y :: ws), rfl, by simp [hs], i2⟩
    obtain ⟨r, e, hr, hsep⟩ := key
    rw [e]
    exact ⟨.word (b := []) (by simp) hx.1 hx.2 hr hsep, .word (b := [0x20]) (by simp [hs]) hx.1 hx.2 hr hsep⟩

theorem ag_again {sp pu : Nat → Bool} (hs : sp 0x20 = true) (n : WStr) :
    (bertPieces sp pu (spaced ((bertPieces sp pu n).map (·.2)))).map (·.2) = (bertPieces sp pu n).map (·.2) := by
  rw [bk_pieces (ag_separated hs fun x hx => ⟨(ag_piece hx).1, (ag_piece hx).2.1⟩).1]
  have : ∀ l : List WStr, (∀ x ∈ l, x ≠ [] ∧ ((∀ c ∈ x, pu c = false) ∨ ∃ c, x = [c] ∧ pu c = true)) →
      (l.flatMap fun x => (punctWords pu 0 [] x).map (·.2)) = l := by
    intro l
    induction l with
    | nil => simp
    | cons x l ih =>
      intro h
      rw [List.flatMap_cons, ag_punct (h x (by simp)).1 (h x (by simp)).2, ih fun y hy => h y (by simp [hy])]
      rfl
  exact this _ fun x hx => ⟨(ag_piece hx).1, (ag_piece hx).2.2⟩

/-- The words of a text in which no added token is recognized. -/
theorem ag_words {P : Platform} {t : Tokenizer} {w n : WStr} {ws : List WStr} (hpt : t.preTokenizer = some .bert) (hn : PlainAs P t w n)
    (hw : t.added ≠ none → w ≠ []) (h : AnyWords P t w ws) : ws = (bertPieces P.reSpace P.rePunct n).map (·.2) := by
  obtain ⟨i, v, j, h1, rfl, h2⟩ := h
  rw [hpt] at h2
  obtain rfl := bk_first hn hw h1
  cases h2 with
  | bert h2 =>
    obtain ⟨_, rfl, rfl⟩ := bk_one h2
    simp

/-- **C126** The decoded text, encoded again, gives the same encoding up to the offsets: `decode` gives the words of the text with
single spaces between them, and that text has the same words. -/
theorem C126_again (P : Platform) (hg : GoodRegexes P) (hs : P.reSpace 0x20 = true) {t : Tokenizer} {m : WordPiece} {w n : WStr} {ws : List WStr} {b : Bool}
    {e : Encoding} (ht : WordTokenizer t m b) (hpt : t.preTokenizer = some .bert) (hd : ∀ a, t.added = some a → PlainTables a)
    (h : (t.encode P w b).1 = .ok e) (hfit : Spec.Fit P t w) (hn : PlainAs P t w n) (hw : AnyWords P t w ws)
    (hws : ∀ x ∈ ws, Segmented m x) (hns : ∀ x ∈ ws, NoSpecialPart t m.pre x)
    (hpre : ∀ x s, x ∈ ws.drop 1 → Utf8Text x s → ¬ m.pre <+: s)
    (hn' : PlainAs P t (spaced ws) (spaced ws)) :
    ∃ s, t.decode e.ids true = .ok s ∧ Utf8Text (spaced ws) s ∧
      ∀ v e', Utf8Text v s → (t.encode P v b).1 = .ok e' → AlikeEncodings e e' := by
  have ne : ∀ {w : WStr} {e : Encoding}, (t.encode P w b).1 = .ok e → t.added ≠ none → w ≠ [] := by
    rintro w e h ha rfl
    cases hq : t.added with
    | none => exact ha hq
    | some a =>
      obtain ⟨e1, k, -⟩ := C53_violated P t b a hq
      rw [k] at h
      cases h
  have hwords := ag_words hpt hn (ne h) hw
  obtain ⟨s, h1, h2⟩ := C126_words P hg ht hd h hfit hw (fun x hx => (ag_piece (hwords ▸ hx)).1) hws hns hpre
  refine ⟨s, h1, h2, fun v e' hv h' => ?_⟩
  obtain rfl := nt_utf8 hv h2
  refine al_words P hg (m := .wordPiece m) (lines := []) ht.model rfl hd (fun us us' k k' => ?_) h h'
  rw [C108_words_unique P k hw, ag_words hpt hn' (ne h') k', hwords, ag_again hs]

/-! ### The hypotheses are met -/

/-- The tokenizer of C79 with a BERT normalizer that makes everything lower case. -/
def againTk : Tokenizer := { wordsBert with normalizer := some (.bert true true true true) }

theorem ag_plainTables : PlainTables wordsAdded := by
  have h1 : wordsAdded.normTrie = [(b!"[CLS]", 101), (b!"[SEP]", 102), (b!"[PAD]", 9)] ∧ wordsAdded.nonNormTrie = [] := by decide +kernel
  intro T hT
  rcases hT with rfl | rfl
  · rw [h1.2]
    simp
  · rw [h1.1]
    refine ⟨by decide, fun k i j hi hj => ?_⟩
    simp only [List.mem_cons, Prod.mk.injEq, List.not_mem_nil, or_false] at hi hj
    rcases hi with ⟨rfl, rfl⟩ | ⟨rfl, rfl⟩ | ⟨rfl, rfl⟩ <;> rcases hj with ⟨h, rfl⟩ | ⟨h, rfl⟩ | ⟨h, rfl⟩ <;> first | rfl | exact absurd h (by decide)

theorem ag_wordTokenizer : WordTokenizer againTk wordsWP true where
  model := rfl
  decoder := rfl
  shows := rt_shows (by decide +kernel)
  sequence := by intro p h; cases h; unfold NamesSequence sampleTemplate; decide
  specials := by intro _; decide +kernel
  pads := by intro p h; cases h; decide +kernel

theorem ag_plainAs {w n : WStr} (h : scan (wordIds wordsAdded.normTrie) (utf16 n) (utf16 n) 0 0 = [])
    (hn : ((Normalizer.bert true true true true).run spacePlatform (NS.ofText w)).map (·.normalized) = .ok n) (hne : n ≠ []) (hw : Scalars n) :
    PlainAs spacePlatform againTk w n := by
  have hn : NormalizesTo spacePlatform (.bert true true true true) w n := by
    cases hr : (Normalizer.bert true true true true).run spacePlatform (NS.ofText w) with
    | error _ => rw [hr] at hn; cases hn
    | ok s => rw [hr] at hn; cases hn; exact C104_text _ _ hr
  have : wordsAdded.nonNormTrie = [] := by decide +kernel
  refine ⟨?_, hn, bk_nothing hw (ag_plainTables _ (.inr rfl)).1 (ag_plainTables _ (.inr rfl)).2 h, hne⟩
  rw [this]
  exact al_noTokens (a := AddedVocab.init []) rfl w

/-- What C126 assumes, and what it says: a text with capital letters, two spaces and punctuation beside a word. -/
example : ∃ e s, (againTk.encode spacePlatform w!"GO,  Playing go" true).1 = .ok e ∧ e.ids = [101, 3, 4, 1, 2, 3, 102, 9, 9, 9] ∧
    againTk.decode e.ids true = .ok s ∧ Utf8Text w!"go , playing go" s ∧
    ∀ v e', Utf8Text v s → (againTk.encode spacePlatform v true).1 = .ok e' → AlikeEncodings e e' := by
  have k : (againTk.encode spacePlatform w!"GO,  Playing go" true).1.map (·.ids) = .ok [101, 3, 4, 1, 2, 3, 102, 9, 9, 9] := by decide +kernel
  cases he : (againTk.encode spacePlatform w!"GO,  Playing go" true).1 with
  | error _ => rw [he] at k; cases k
  | ok e =>
    rw [he] at k
    have hd : ∀ a, againTk.added = some a → PlainTables a := fun a h => by cases h; exact ag_plainTables
    have h1 : PlainAs spacePlatform againTk w!"GO,  Playing go" w!"go,  playing go" :=
      ag_plainAs (by decide +kernel) (by decide +kernel) (by decide) (by unfold Scalars isScalar; decide)
    have h2 : PlainAs spacePlatform againTk w!"go , playing go" w!"go , playing go" :=
      ag_plainAs (by decide +kernel) (by decide +kernel) (by decide) (by unfold Scalars isScalar; decide)
    obtain ⟨q, y, ⟨p, hp, hq⟩, -, -⟩ := encode_ok he
    obtain ⟨ws, hw, -⟩ := at_words spacePlatform pl_space_good hd hp
    have e1 : (bertPieces spacePlatform.reSpace spacePlatform.rePunct w!"go,  playing go").map (·.2) = [w!"go", w!",", w!"playing", w!"go"] := by decide
    have e2 := ag_words rfl h1 (by simp) hw
    rw [e1] at e2
    subst e2
    have all : ∀ x ∈ [w!"go", w!",", w!"playing", w!"go"], (∀ c ∈ x, c < 0x80 ∧ c ≠ 0x5B) ∧ (units x : Int) ≤ wordsWP.maxChars ∧
        (wordsWP.word x).head?.map (·.value) ≠ some b!"[UNK]" := by decide +kernel
    obtain ⟨s, r1, r2, r3⟩ := C126_again spacePlatform pl_space_good (by decide) (m := wordsWP) ag_wordTokenizer rfl hd he (by
        intro x hx; cases hx
        refine ⟨by decide, fun q hq => ?_⟩
        obtain ⟨p, hp, hq⟩ := hq
        have e : (againTk.preTokenized spacePlatform w!"GO,  Playing go").1.map
            (fun p => (textIds (wordsWP.tokenize p)).length) = .ok 5 := by decide +kernel
        rw [hp] at e
        simp only [Except.map, Except.ok.injEq] at e
        have : q = wordsWP.tokenize p := by cases hq; rfl
        rw [this, e]; decide) h1 hw (by
        intro x hx
        obtain ⟨a1, a2, a3⟩ := all x hx
        refine ⟨.inl fun c hc => by have := (a1 c hc).1; omega, a2, fun hst => ?_⟩
        have ht : Utf8Text x x := po_utf8 fun c hc => (a1 c hc).1
        rcases C12_C13_answer wordsWP x x ht (.inl fun c hc => by have := (a1 c hc).1; omega) with ⟨h, _⟩ | ⟨_, _, h⟩ | ⟨_, h⟩
        · omega
        · rw [h] at a3; exact a3 rfl
        · exact C13_greedy_not_stuck h hst) (by
        intro x hx v s _ hin hs
        obtain ⟨a1, -, -⟩ := all x hx
        have e := utf8Text_ascii hs fun c hc => (a1 c (hin.subset hc)).1
        have no : ∀ x : Str, (0x5B : Nat) ∉ x → againTk.isSpecial x = false := by
          intro x hx
          have : againTk.isSpecial x = wordsAdded.specialSet.contains x := rfl
          rw [this, rt_wordsAdded.2]
          cases hcx : [b!"[CLS]", b!"[SEP]", b!"[PAD]"].contains x with
          | false => rfl
          | true =>
            exfalso
            rw [List.contains_iff_mem] at hcx
            simp only [List.mem_cons, List.not_mem_nil, or_false] at hcx
            rcases hcx with rfl | rfl | rfl <;> exact hx (by decide)
        rw [e]
        refine ⟨no _ fun h => (a1 _ (hin.subset h)).2 rfl, no _ fun h => ?_⟩
        rcases List.mem_append.1 h with h | h
        · revert h; decide
        · exact (a1 _ (hin.subset h)).2 rfl) (by
        intro x s hx hs
        have hx' : x ∈ [w!"go", w!",", w!"playing", w!"go"] := List.mem_of_mem_drop hx
        have e := utf8Text_ascii hs fun c hc => ((all x hx').1 c hc).1
        rw [e]
        clear e hs s hx'
        revert x
        decide) h2
    exact ⟨e, s, rfl, Except.ok.inj k, r1, r2, r3⟩

/-- … and the decoded text does have an encoding. -/
example : (againTk.encode spacePlatform w!"go , playing go" true).1.map (·.ids) = .ok [101, 3, 4, 1, 2, 3, 102, 9, 9, 9] := by decide +kernel

/-- **C126 is violated** by an unknown word: the text `[UNK]` of the unknown token is cut at its brackets when it is encoded
again. -/
theorem C126_violated :
    (againTk.encode spacePlatform w!"go home" true).1.map (·.ids) = .ok [101, 3, 0, 102, 9, 9, 9, 9, 9, 9] ∧
    thereAndBack spacePlatform againTk w!"go home" = .ok b!"go [UNK]" ∧
    (againTk.encode spacePlatform w!"go [UNK]" true).1.map (·.ids) = .ok [101, 3, 0, 0, 0, 102, 9, 9, 9, 9] := by
  refine ⟨?_, ?_, ?_⟩ <;> decide +kernel

end Tok
