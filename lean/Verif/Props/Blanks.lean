import Verif.Props.Alike
import Verif.Props.Chunks
import Verif.Spec.Blanks

set_option autoImplicit false

/-!
C123: white space between words makes no difference.
-/

namespace Tok
open Spec

theorem bk_blanks {sp : Nat → Bool} {r : WStr} : ∀ (b : WStr) (k : Nat), (∀ c ∈ b, sp c = true) →
    ∃ k', wsWords sp k [] (b ++ r) = wsWords sp k' [] r
  | [], k, _ => ⟨k, rfl⟩
  | c :: b, k, h => by
    obtain ⟨k', e⟩ := bk_blanks (r := r) b (k + units [] + units [c]) fun d hd => h d (by simp [hd])
    refine ⟨k', ?_⟩
    rw [← e]
    simp [wsWords, h c (by simp), flush]

theorem bk_word {sp : Nat → Bool} {r : WStr} : ∀ (x cur : WStr) (k : Nat), (∀ c ∈ x, sp c = false) →
    wsWords sp k cur (x ++ r) = wsWords sp k (cur ++ x) r
  | [], cur, k, _ => by simp
  | c :: x, cur, k, h => by
    have := bk_word (r := r) x (cur ++ [c]) k fun d hd => h d (by simp [hd])
    simp [wsWords, h c (by simp), this]

theorem bk_separated {sp : Nat → Bool} {w : WStr} {l : List WStr} (h : Separated sp w l) : ∀ k, (wsWords sp k [] w).map (·.2) = l := by
  induction h with
  | @blanks b hb =>
    intro k
    obtain ⟨k', e⟩ := bk_blanks (r := []) b k hb
    rw [List.append_nil] at e
    rw [e]; rfl
  | @word b x r l hb hx hn hr _ ih =>
    intro k
    obtain ⟨k', e⟩ := bk_blanks (r := x ++ r) b k hb
    rw [List.append_assoc, e, bk_word x [] k' hn, List.nil_append]
    cases r with
    | nil =>
      have := ih 0
      simp only [wsWords, flush, if_true, List.map_nil] at this
      simp [wsWords, flush, hx, this.symm]
    | cons c r =>
      have hc := hr c rfl
      have := ih 0
      have this' := ih (k' + units x)
      simp only [wsWords, hc, if_true] at this'
      simp only [wsWords, hc, if_true, List.map_append]
      rw [show flush k' x = [(k', x)] by simp [flush, hx]]
      simp only [List.map_cons, List.map_nil, List.singleton_append, List.cons.injEq, true_and]
      simpa [flush, units] using this'

theorem bk_pieces {sp pu : Nat → Bool} {w : WStr} {l : List WStr} (h : Separated sp w l) :
    (bertPieces sp pu w).map (·.2) = l.flatMap fun x => (punctWords pu 0 [] x).map (·.2) := by
  rw [← bk_separated h 0]
  unfold bertPieces
  rw [List.map_flatMap, List.flatMap_map]
  congr 1
  funext a
  simp [Function.comp_def]

theorem bk_one {R : WStr → List WStr → Prop} {v : WStr} {j : List (WStr × Bool)} (h : CutItems R [(v, false)] j) :
    ∃ l, R v l ∧ j = l.map fun x => (x, false) := by
  obtain ⟨g, h1, rfl⟩ := h
  cases h1 with
  | cons h1 h2 =>
    cases h2
    simp only [Bool.false_eq_true, if_false] at h1
    obtain ⟨l, hl, rfl⟩ := h1
    exact ⟨l, hl, by simp⟩

theorem bk_pre {P : Platform} {t : PreTokenizer} (ht : BertFirst t) : ∀ {n n' : WStr} {l : List WStr} {w w1 w' w1' : WStr} {j j' : List (WStr × Bool)},
    Separated P.reSpace n l → Separated P.reSpace n' l → PreTokenizes P t (w, [(n, false)]) (w1, j) →
    PreTokenizes P t (w', [(n', false)]) (w1', j') → j = j' := by
  induction ht with
  | bert =>
    intro n n' l w w1 w' w1' j j' hs hs' h h'
    cases h with
    | bert h => cases h' with
      | bert h' =>
        obtain ⟨_, rfl, rfl⟩ := bk_one h
        obtain ⟨_, rfl, rfl⟩ := bk_one h'
        rw [bk_pieces hs, bk_pieces hs']
  | @seq t ts _ hl ih =>
    intro n n' l w w1 w' w1' j j' hs hs' h h'
    cases h with
    | seq h => cases h' with
      | seq h' =>
        cases h with
        | @cons _ _ _ s _ h1 h2 => cases h' with
          | @cons _ _ _ s' _ h1' h2' =>
            have e := ih (j := s.2) (j' := s'.2) (w1 := s.1) (w1' := s'.1) hs hs' h1 h1'
            have u := al_pres P ts hl h2 []
            have u' := al_pres P ts hl h2' []
            rw [e] at u
            have := C105_pre_uniques P ts u u'
            exact congrArg Prod.snd this

theorem bk_first {P : Platform} {t : Tokenizer} {w n : WStr} {items : List (WStr × Bool)} (hn : PlainAs P t w n) (hw : t.added ≠ none → w ≠ [])
    (h : AnyFirst P t w items) : items = [(n, false)] := by
  unfold AnyFirst at h
  unfold PlainAs at hn
  cases ha : t.added with
  | none => rw [ha] at h hn; simp only at h hn; rw [h, hn]
  | some a =>
    rw [ha] at h hn
    obtain ⟨h1, h2, h3, h4⟩ := hn
    obtain ⟨cuts, groups, k1, k2, k3⟩ := h
    rcases al_nothing h1 k1 with ⟨e, -⟩ | ⟨-, rfl, e⟩
    · exact absurd e (hw (by simp [ha]))
    · cases k2 with
      | cons hg k2 =>
        cases k2
        simp only [e] at hg
        obtain ⟨n', cuts', g1, g2, rfl⟩ := hg
        obtain rfl := al_normalizes_unique P _ h2 g1
        rcases al_nothing h3 g2 with ⟨e', -⟩ | ⟨-, rfl, e'⟩
        · exact absurd e' h4
        · rw [k3, if_neg (by simp [itemsAt])]
          simp [itemsAt, e']

/-- **C123** White space between words, however much and of whatever kind, makes no difference, nor does white space at the ends:
two texts whose normalized forms consist of the same words get the same encoding up to the offsets. -/
theorem C123_white_space (P : Platform) (hg : GoodRegexes P) {t : Tokenizer} {m x : Model} {lines : List Str} {pt : PreTokenizer}
    {w w' n n' : WStr} {l : List WStr} {b : Bool} {e e' : Encoding} (hx : t.model = some x) (hm : ModelIs P lines m x)
    (hd : ∀ a, t.added = some a → PlainTables a) (hpt : t.preTokenizer = some pt) (hb : BertFirst pt)
    (hn : PlainAs P t w n) (hn' : PlainAs P t w' n') (hs : Separated P.reSpace n l) (hs' : Separated P.reSpace n' l)
    (h : (t.encode P w b).1 = .ok e) (h' : (t.encode P w' b).1 = .ok e') : AlikeEncodings e e' := by
  refine al_words P hg hx hm hd ?_ h h'
  rintro ws ws' ⟨i, v, j, h1, rfl, h2⟩ ⟨i', v', j', h1', rfl, h2'⟩
  rw [hpt] at h2 h2'
  have ne : ∀ {w : WStr} {e : Encoding}, (t.encode P w b).1 = .ok e → t.added ≠ none → w ≠ [] := by
    rintro w e h ha rfl
    cases hq : t.added with
    | none => exact ha hq
    | some a =>
      obtain ⟨e1, k, -⟩ := C53_violated P t b a hq
      rw [k] at h
      cases h
  obtain rfl := bk_first hn (ne h) h1
  obtain rfl := bk_first hn' (ne h') h1'
  rw [bk_pre hb hs hs' h2 h2']

/-! ### Spaces between words, with added tokens -/

theorem bk_cut_nil (R : WStr → List WStr → Prop) : CutItems R [] [] := ⟨[], .nil, rfl⟩

mutual
theorem bk_pre_nil (P : Platform) : (t : PreTokenizer) → t.NoPrefixSpace → ∀ w, PreTokenizes P t (w, []) (w, [])
  | .bert, _, _ => .bert (bk_cut_nil _)
  | .split .., _, _ => .split (bk_cut_nil _)
  | .byteLevel a u, ha, w => by
    have ha : a = false := by simpa [PreTokenizer.NoPrefixSpace] using ha
    subst ha
    exact .byteLevel .off (bk_cut_nil _) .nil
  | .seq l, hl, w => .seq (bk_pres_nil P l (by simpa [PreTokenizer.NoPrefixSpace] using hl) w)
theorem bk_pres_nil (P : Platform) : (ts : List PreTokenizer) → NoPrefixSpaceList ts → ∀ w, PreTokenizesAll P ts (w, []) (w, [])
  | [], _, _ => .nil
  | t :: ts, h, w => by
    simp only [NoPrefixSpaceList] at h
    exact .cons (bk_pre_nil P t h.1 w) (bk_pres_nil P ts h.2 w)
end

theorem bk_bert_nil {P : Platform} {t : PreTokenizer} (ht : BertFirst t) (w : WStr) :
    PreTokenizes P t (w, []) (w, []) ∧ PreTokenizes P t (w, [([], false)]) (w, []) := by
  induction ht with
  | bert => exact ⟨.bert (bk_cut_nil _), .bert ⟨[[]], .cons (by simp [bertPieces, wsWords, flush]) .nil, rfl⟩⟩
  | @seq t l _ hl ih => exact ⟨.seq (.cons ih.1 (bk_pres_nil P l hl w)), .seq (.cons ih.2 (bk_pres_nil P l hl w))⟩

theorem bk_cutUp_nil (a : AddedVocab) (T : List (Str × Int)) : CutUp a T [] [] := by
  refine ⟨[], [], [], utf16Text_iff.2 ⟨by simp [Scalars], by simp [utf16]⟩, utf8Text_iff.2 ⟨by simp [Scalars], by simp [utf8]⟩, .nil, ?_, .done⟩
  intro x y i
  refine ⟨fun h => by simp at h, fun h => ?_⟩
  have : ∀ {a b : Nat} {i : Int}, ¬ ShortestIn T [] a b i := by
    rintro a b i ⟨h1, ⟨h2, -⟩, -⟩
    simp at h2
    omega
  cases h with
  | first h => exact absurd h this
  | word _ h => exact absurd h this
  | next _ h => exact absurd h this

/-- There is no word in the empty text. -/
theorem bk_words_nil {P : Platform} {t : Tokenizer} {pt : PreTokenizer} (hpt : t.preTokenizer = some pt) (hb : BertFirst pt) :
    AnyWords P t [] [] := by
  cases ha : t.added with
  | none =>
    refine ⟨[([], false)], [], [], by simp [AnyFirst, ha], rfl, ?_⟩
    rw [hpt]
    exact (bk_bert_nil hb []).2
  | some a =>
    refine ⟨[], [], [], ?_, rfl, ?_⟩
    · unfold AnyFirst
      rw [ha]
      exact ⟨[], [], bk_cutUp_nil _ _, .nil, rfl⟩
    · rw [hpt]
      exact (bk_bert_nil hb []).1

theorem bk_spaced {P : Platform} (hg : GoodRegexes P) (hs : P.reSpace 0x20 = true) {t : Tokenizer} {pt : PreTokenizer} {b : Bool}
    (hd : ∀ a, t.added = some a → PlainTables a) (hpt : t.preTokenizer = some pt) (hb : BertFirst pt) {cs : List WStr} (hne : cs ≠ [])
    (hc : ChunkSafe P t (spaced cs)) (hparts : ∀ c ∈ cs, c ≠ [] → ∃ ec, (t.encode P c b).1 = .ok ec) :
    ∃ ws : List (List WStr), Each (AnyWords P t) (cs.filter (· ≠ [])) ws ∧ AnyWords P t (spaced cs) ws.flatten := by
  have all : ∀ cs : List WStr, (∀ c ∈ cs, c ≠ [] → ∃ ec, (t.encode P c b).1 = .ok ec) →
      ∃ ws ws' : List (List WStr), Each (AnyWords P t) cs ws ∧ Each (AnyWords P t) (cs.filter (· ≠ [])) ws' ∧ ws.flatten = ws'.flatten := by
    intro cs
    induction cs with
    | nil => exact fun _ => ⟨[], [], .nil, .nil, rfl⟩
    | cons c cs ih =>
      intro h
      obtain ⟨ws, ws', k1, k2, k3⟩ := ih fun d hd => h d (by simp [hd])
      by_cases hc0 : c = []
      · subst hc0
        exact ⟨[] :: ws, ws', .cons (bk_words_nil hpt hb) k1, by simpa using k2, by simpa using k3⟩
      · obtain ⟨ec, hec⟩ := h c (by simp) hc0
        obtain ⟨q, y, ⟨p, hp, hq⟩, hy, hpost⟩ := encode_ok hec
        obtain ⟨v, a1, a2⟩ := at_words P hg hd hp
        refine ⟨v :: ws, v :: ws', .cons a1 k1, ?_, by simp [k3]⟩
        rw [List.filter_cons_of_pos (by simpa using hc0)]
        exact .cons a1 k2
  obtain ⟨ws, ws', k1, k2, k3⟩ := all cs hparts
  exact ⟨ws', k2, k3 ▸ ck_spaced_words hs hpt hb hne hc k1⟩

/-- **C123** Additional spaces make no difference, whatever added tokens (without flags) the text contains: two texts that consist of the same parts,
separated by one or more spaces and perhaps with spaces at the ends, get the same encoding up to the offsets.  (The number of
spaces is the number of empty parts.) -/
theorem C123_spaces (P : Platform) (hg : GoodRegexes P) (hs : P.reSpace 0x20 = true) {t : Tokenizer} {m x : Model} {lines : List Str} {pt : PreTokenizer}
    {cs cs' : List WStr} {b : Bool} {e e' : Encoding} (hx : t.model = some x) (hm : ModelIs P lines m x)
    (hd : ∀ a, t.added = some a → PlainTables a) (hpt : t.preTokenizer = some pt) (hb : BertFirst pt)
    (hc : ChunkSafe P t (spaced cs)) (hc' : ChunkSafe P t (spaced cs')) (hsame : cs.filter (· ≠ []) = cs'.filter (· ≠ []))
    (hparts : ∀ c ∈ cs, c ≠ [] → ∃ ec, (t.encode P c b).1 = .ok ec) (hcs : cs ≠ []) (hcs' : cs' ≠ [])
    (h : (t.encode P (spaced cs) b).1 = .ok e) (h' : (t.encode P (spaced cs') b).1 = .ok e') : AlikeEncodings e e' := by
  have hparts' : ∀ c ∈ cs', c ≠ [] → ∃ ec, (t.encode P c b).1 = .ok ec := by
    intro c hc hne
    have : c ∈ cs'.filter (· ≠ []) := by simp [hc, hne]
    rw [← hsame] at this
    simp only [ne_eq, decide_not, List.mem_filter] at this
    exact hparts c this.1 hne
  obtain ⟨ws, k1, k2⟩ := bk_spaced hg hs hd hpt hb hcs hc hparts
  obtain ⟨ws', k1', k2'⟩ := bk_spaced hg hs hd hpt hb hcs' hc' hparts'
  rw [hsame] at k1
  have : ws = ws' := rf_each_unique (R := AnyWords P t) (fun _ _ _ h h' => C108_words_unique P h h') k1 k1'
  subst this
  refine al_words P hg hx hm hd (fun v v' a a' => ?_) h h'
  rw [C108_words_unique P a k2, C108_words_unique P a' k2']

/-! ### The hypotheses are met -/

theorem bk_nothing {T : List (Str × Int)} {w : WStr} (hw : Scalars w) (hT : ∀ p ∈ T, p.1 ≠ [])
    (hf : ∀ k i j, (k, i) ∈ T → (k, j) ∈ T → i = j) (h : scan (wordIds T) (utf16 w) (utf16 w) 0 0 = []) : NothingIn T w := by
  intro u x y i hu hr
  obtain ⟨-, rfl⟩ := utf16Text_iff.1 hu
  have := (scan_iff (keyAt_empty hT _) (u := utf16 w) (a := x) (b := y) (i := i)).2 ((at_recognized (wu_lt hw) hf).1 hr)
  rw [h] at this
  cases this

theorem bk_plainAs {w n : WStr} (hw : Scalars w) (h : scan (wordIds psAdded.nonNormTrie) (utf16 w) (utf16 w) 0 0 = [])
    (hn : ((Normalizer.bert true true true true).run spacePlatform (NS.ofText w)).map (·.normalized) = .ok n) (hne : n ≠ []) :
    PlainAs spacePlatform (uncasedTk true true true true) w n := by
  have hn : NormalizesTo spacePlatform (.bert true true true true) w n := by
    cases h : (Normalizer.bert true true true true).run spacePlatform (NS.ofText w) with
    | error _ => rw [h] at hn; cases hn
    | ok s => rw [h] at hn; cases hn; exact C104_text _ _ h
  exact ⟨bk_nothing hw (ps_plain _ (.inl rfl)).1 (ps_plain _ (.inl rfl)).2 h, hn, al_noTokens (a := AddedVocab.init []) rfl n, hne⟩

/-- What C123 assumes, and what it says, for two texts that differ in white space only. -/
example : ∃ e e' n n', PlainAs spacePlatform (uncasedTk true true true true) w!"HELLOs \n B\t" n ∧
    PlainAs spacePlatform (uncasedTk true true true true) w!" HELLOs B" n' ∧
    Separated spacePlatform.reSpace n [w!"hellos", w!"b"] ∧ Separated spacePlatform.reSpace n' [w!"hellos", w!"b"] ∧
    ((uncasedTk true true true true).encode spacePlatform w!"HELLOs \n B\t" true).1 = .ok e ∧
    ((uncasedTk true true true true).encode spacePlatform w!" HELLOs B" true).1 = .ok e' ∧ e.ids = [1, 2, 5] ∧ AlikeEncodings e e' := by
  have h1 : PlainAs spacePlatform (uncasedTk true true true true) w!"HELLOs \n B\t" w!"hellos   b " :=
    bk_plainAs (by unfold Scalars isScalar; decide) (by decide +kernel) (by decide +kernel) (by decide)
  have h2 : PlainAs spacePlatform (uncasedTk true true true true) w!" HELLOs B" w!" hellos b" :=
    bk_plainAs (by unfold Scalars isScalar; decide) (by decide +kernel) (by decide +kernel) (by decide)
  have s1 : Separated spacePlatform.reSpace w!"hellos   b " [w!"hellos", w!"b"] :=
    .word (b := []) (x := w!"hellos") (r := w!"   b ") (by decide) (by decide) (by decide) (by decide)
      (.word (b := w!"   ") (x := w!"b") (r := w!" ") (by decide) (by decide) (by decide) (by decide) (.blanks (by decide)))
  have s2 : Separated spacePlatform.reSpace w!" hellos b" [w!"hellos", w!"b"] :=
    .word (b := w!" ") (x := w!"hellos") (r := w!" b") (by decide) (by decide) (by decide) (by decide)
      (.word (b := w!" ") (x := w!"b") (r := []) (by decide) (by decide) (by decide) (by decide) (.blanks (by decide)))
  have k : ((uncasedTk true true true true).encode spacePlatform w!"HELLOs \n B\t" true).1.map (·.ids) = .ok [1, 2, 5] := by decide +kernel
  have k' : ((uncasedTk true true true true).encode spacePlatform w!" HELLOs B" true).1.map (·.ids) = .ok [1, 2, 5] := by decide +kernel
  cases he : ((uncasedTk true true true true).encode spacePlatform w!"HELLOs \n B\t" true).1 with
  | error _ => rw [he] at k; cases k
  | ok e =>
    cases he' : ((uncasedTk true true true true).encode spacePlatform w!" HELLOs B" true).1 with
    | error _ => rw [he'] at k'; cases k'
    | ok e' =>
      rw [he] at k
      exact ⟨e, e', _, _, h1, h2, s1, s2, rfl, rfl, Except.ok.inj k, C123_white_space spacePlatform pl_space_good (lines := []) (m := .wordPiece _) rfl rfl
        (fun a h => by cases h; exact ps_plain) rfl .bert h1 h2 s1 s2 he he'⟩

/-- Spaces around an added token make no difference. -/
example : ChunkSafe spacePlatform (uncasedTk true true true true) (spaced [[], w!"HELLOs", [], [], w!"[X]", []]) ∧
    spaced [[], w!"HELLOs", [], [], w!"[X]", []] = w!" HELLOs   [X] " ∧
    ((uncasedTk true true true true).encode spacePlatform w!" HELLOs   [X] " true).1.map (·.ids) = .ok [1, 2, 4] ∧
    ((uncasedTk true true true true).encode spacePlatform w!"HELLOs [X]" true).1.map (·.ids) = .ok [1, 2, 4] ∧
    ((uncasedTk true true true true).encode spacePlatform w!"HELLOs" true).1.map (·.ids) = .ok [1, 2] ∧
    ((uncasedTk true true true true).encode spacePlatform w!"[X]" true).1.map (·.ids) = .ok [4] := by
  refine ⟨C112_bert ck_ascii_space rfl (fun a h => by cases h; intro i t h; cases h) ⟨?_, fun _ _ => rfl⟩, by decide, ?_, ?_, ?_, ?_⟩
  · unfold Scalar Dropped; decide +kernel
  all_goals decide +kernel

/-- **C123** Beside an added token other white space than a space does make a difference: after a tab `[X]` is not recognized.
Without BERT pre-tokenization spaces make a difference as well. -/
theorem C123_violated :
    ((uncasedTk true true true true).encode spacePlatform w!"HELLOs [X]" true).1.map (·.ids) = .ok [1, 2, 4] ∧
    ((uncasedTk true true true true).encode spacePlatform w!"HELLOs\t[X]" true).1.map (·.ids) = .ok [1, 2, 0, 0, 0] ∧
    ((tkOf [(b!"[UNK]", 0), (b!"a b", 1)]).encode ascii w!"a b" true).1.map (·.ids) = .ok [1] ∧
    ((tkOf [(b!"[UNK]", 0), (b!"a b", 1)]).encode ascii w!"a  b" true).1.map (·.ids) = .ok [0] := by
  refine ⟨?_, ?_, ?_, ?_⟩ <;> decide +kernel

end Tok
