import Verif.Props.AnyText
import Verif.Props.Ordered
import Verif.Props.Chunks
import Verif.Spec.Count

set_option autoImplicit false

/-!
C113: bounds on the number of tokens.
-/

namespace Tok
open Spec

theorem cn_octets {v : WStr} {s : Str} (h : Utf8Text v s) : s.length = octets v := by
  induction h with
  | nil => rfl
  | @cons c w a s h _ ih =>
    rw [List.length_append, ih, octets]
    congr 1
    cases h with
    | one _ h => rw [if_pos (by omega)]; rfl
    | two x y h1 h2 h3 => rw [if_neg (by omega), if_pos (by omega)]; rfl
    | three x y z h1 h2 h3 h4 h5 => rw [if_neg (by omega), if_neg (by omega), if_pos (by omega)]; rfl
    | four x y z t h1 h2 h3 h4 h5 h6 => rw [if_neg (by omega), if_neg (by omega), if_neg (by omega)]; rfl

/-! ### One word -/

theorem cn_greedy {V : Str → Option Int} {pre : Str} {first : Bool} {pos : Nat} {u : U16} {ts : List Token}
    (h : GreedyUnits V pre first pos u ts) : ts.length ≤ u.length ∧ (u ≠ [] → ts ≠ []) := by
  induction h with
  | done => simp
  | @take first pos v r key id ts hl _ ih =>
    have := List.length_pos_iff.2 hl.nonempty
    simp only [List.length_cons, List.length_append]
    exact ⟨by omega, by simp⟩

theorem cn_stuck {V : Str → Option Int} {pre : Str} {first : Bool} {u : U16} (h : StuckUnits V pre first u) : u ≠ [] := by
  cases h with
  | here h => exact h
  | later h => exact fun e => h.nonempty (List.append_eq_nil_iff.1 e).1

theorem cn_wordPiece {m : WordPiece} (hm : 0 ≤ m.maxChars) {v : WStr} {ts : List Token} (h : WordTokens m v ts) :
    ts.length ≤ units v ∧ (v ≠ [] → ts ≠ []) := by
  obtain ⟨u, hu, h⟩ := h
  obtain ⟨_, rfl⟩ := utf16Text_iff.1 hu
  rw [units_eq]
  have hne : v ≠ [] → utf16 v ≠ [] := fun hv e => by
    have := units_pos hv
    rw [units_eq, e] at this
    cases this
  rcases h with ⟨h1, rfl⟩ | ⟨_, _, h⟩
  · refine ⟨?_, by simp⟩
    simp only [List.length_cons, List.length_nil]
    rcases h1 with h1 | h1
    · omega
    · have := List.length_pos_iff.2 (cn_stuck h1)
      omega
  · exact ⟨(cn_greedy h).1, fun hv => (cn_greedy h).2 (hne hv)⟩

theorem cn_merge {T : Table} {l l' : List (Int × Nat)} (h : MergeMany T l l') : l'.length ≤ l.length := by
  induction h with
  | refl => exact Nat.le_refl _
  | step _ h ih =>
    cases h
    simp only [List.length_append, List.length_cons] at ih ⊢
    omega

theorem cn_byteTokens {fs : List Found} {k : Nat} (h : ∀ ids, Found.bytes ids ∈ fs → ids.length ≤ k) :
    (byteTokens fs).length ≤ fs.length * k := by
  induction fs with
  | nil => simp [byteTokens]
  | cons f fs ih =>
    have i := ih fun ids hm => h ids (by simp [hm])
    unfold byteTokens at i ⊢
    rw [List.flatMap_cons, List.length_append, List.length_cons, Nat.add_mul]
    cases f with
    | bytes ids => have := h ids (by simp); simp only [List.length_map]; omega
    | _ => simp only [List.length_nil]; omega

theorem cn_pieces {unk : Option Int} {fuse : Bool} {fs : List Found} {l : List (Int × Nat)} {k : Nat} (hk : 1 ≤ k)
    (h : Pieces unk fuse fs l) : (∀ ids, Found.bytes ids ∈ fs → ids.length ≤ k) → l.length ≤ fs.length * k := by
  induction h with
  | nil => intro _; simp
  | known _ ih =>
    intro hb
    have := ih fun ids hm => hb ids (by simp [hm])
    simp only [List.length_cons, Nat.add_mul]
    omega
  | @bytes ids r l _ ih =>
    intro hb
    have i1 := ih fun ids hm => hb ids (by simp [hm])
    have i2 := cn_byteTokens (fs := [.bytes ids]) (k := k) fun ids hm => hb ids (by
      simp only [List.mem_singleton] at hm; rw [hm]; simp)
    simp only [List.length_cons, List.length_append, List.length_nil, Nat.add_mul] at i2 ⊢
    omega
  | dropped _ _ ih =>
    intro hb
    have := ih fun ids hm => hb ids (by simp [hm])
    simp only [List.length_cons, Nat.add_mul]
    omega
  | @single u fs r l _ _ _ _ _ ih =>
    intro hb
    have i1 := ih fun ids hm => hb ids (by simp [hm])
    have i2 := cn_byteTokens (fs := fs) (k := k) fun ids hm => hb ids (by simp [hm])
    simp only [List.length_cons, List.length_append, List.cons_append, Nat.add_mul] at i2 ⊢
    omega
  | @run u fs r l _ _ _ _ _ ih =>
    intro hb
    have i1 := ih fun ids hm => hb ids (by simp [hm])
    have i2 := cn_byteTokens (fs := fs) (k := k) fun ids hm => hb ids (by simp [hm])
    simp only [List.length_cons, List.length_append, List.cons_append, Nat.add_mul] at i2 ⊢
    omega

theorem cn_found {V : Str → Option Int} {pre suf : Str} {fb : Bool} {s : Str} {ids : List Int}
    (h : Found.bytes ids ∈ foundAll V pre suf fb s) : fb = true ∧ ids.length ≤ pre.length + suf.length + 1 := by
  unfold foundAll at h
  rw [List.mem_map] at h
  obtain ⟨i, _, h⟩ := h
  unfold found at h
  split at h
  · cases h
  · split at h
    · cases h
    · rename_i id l hl
      split at h
      · rename_i hf
        cases h
        refine ⟨hf, ?_⟩
        rw [← hl]
        refine Nat.le_trans (List.length_filterMap_le _ _) ?_
        unfold spelling
        simp only [List.length_append, List.length_take, List.length_drop]
        have : ∀ (c : Prop) [Decidable c] (x y : Str), y = [] → (if c then y else x).length ≤ x.length := by
          intro c _ x y hy; subst hy; split <;> simp
        have h1 := this (i = 0) pre [] rfl
        have h2 : (if i + 1 = s.length then suf else []).length ≤ suf.length := by split <;> simp
        omega
      · cases h

theorem cn_bpe {m : BPE} {lines : List Str} (hm : m.ignoreMerges = true → tokenToId m.vocab [] = none) {v : WStr} {ts : List Token}
    (hs : octets v * (m.pre.length + m.suf.length + 1) < 2 ^ 31) (h : BpeTokens m lines v ts) :
    ts.length ≤ (if m.byteFallback then octets v * (m.pre.length + m.suf.length + 1) else octets v) ∧ ts ≠ [] := by
  obtain ⟨s, hu, h⟩ := h
  rw [← cn_octets hu] at hs ⊢
  rcases h hs with ⟨i, _, h1, h2, rfl⟩ | ⟨_, l, h1, h2, h3, _, _⟩
  · refine ⟨?_, by simp⟩
    have hne : s ≠ [] := by
      rintro rfl
      rw [hm h1] at h2
      cases h2
    have := List.length_pos_iff.2 hne
    split
    · exact Nat.le_trans this (Nat.le_mul_of_pos_right _ (by omega))
    · exact this
  · refine ⟨?_, h3⟩
    have e : (piecesOf ts).length = ts.length := by simp [piecesOf]
    have e2 : (foundAll (tokenToId m.vocab) m.pre m.suf m.byteFallback s).length = s.length := by simp [foundAll]
    have h4 := cn_merge h2
    split
    · have := cn_pieces (k := m.pre.length + m.suf.length + 1) (by omega) h1 fun ids hm => (cn_found hm).2
      rw [e2] at this
      omega
    · rename_i hf
      have := cn_pieces (k := 1) (by omega) h1 fun ids hm => absurd (cn_found hm).1 hf
      omega

/-- Any model: a word gives no more tokens than it has units or bytes, and at least one unless it is empty. -/
theorem C113_word {lines : List Str} {m : Model} (hm : NoneOfNothing m) {v : WStr} (hv : ShortEnough m v) {ts : List Token}
    (h : ModelTokens lines m v ts) : ts.length ≤ mostTokens m v ∧ (v ≠ [] → ts ≠ []) := by
  cases m with
  | wordPiece m => exact cn_wordPiece hm h
  | bpe m => exact ⟨(cn_bpe hm hv h).1, fun _ => (cn_bpe hm hv h).2⟩

/-! ### The text -/

theorem cn_words {lines : List Str} {m : Model} (hm : NoneOfNothing m) {ws : List WStr} {parts : List (List Token)}
    (h : Each (ModelTokens lines m) ws parts) : (∀ v ∈ ws, ShortEnough m v) →
    parts.flatten.length ≤ (ws.map (mostTokens m)).sum ∧ (ws.filter (· ≠ [])).length ≤ parts.flatten.length := by
  induction h with
  | nil => intro _; simp
  | @cons v ts ws parts h _ ih =>
    intro hv
    obtain ⟨i1, i2⟩ := ih fun v hm => hv v (by simp [hm])
    obtain ⟨h1, h2⟩ := C113_word hm (hv v (by simp)) h
    simp only [List.flatten_cons, List.length_append, List.map_cons, List.sum_cons]
    refine ⟨by omega, ?_⟩
    by_cases e : v = []
    · rw [List.filter_cons_of_neg (by simp [e])]; omega
    · rw [List.filter_cons_of_pos (by simp [e])]
      have := List.length_pos_iff.2 (h2 e)
      simp only [List.length_cons]; omega

theorem cn_rows {ns : NS} {k : Nat} {l : List Split} {rows : List Row} (h : TextRows ns k l rows) :
    rows.length = (l.map (·.tokens)).flatten.length := by
  induction h with
  | nil => rfl
  | cons _ _ _ ih => simp only [List.length_append, List.length_map, List.map_cons, List.flatten_cons]; omega

theorem cn_good {q once : Prop} {text : List Row} {S : List SpecialToken} {pad : Option Padding} (hO : once) {x : Enc}
    (h : Good q once text S pad x) : tokensOfText x ≤ text.length := by
  obtain ⟨rows, h1, _, h2⟩ := h
  obtain ⟨part, h3, h4⟩ := h2 hO
  have e : tokensOfText x = (contentRows rows).length := by
    unfold tokensOfText contentRows
    rw [h1.2.2.2.2.2.1, List.count_eq_length_filter, List.filter_map, List.length_map]
    rfl
  rw [e, ← ro_length h4]
  exact h3.length_le

/-- **C113** In an encoding and each overflow window there are no more tokens of the text than its words have UTF-16 units
(WordPiece) or bytes (BPE). -/
theorem C113_words (P : Platform) (hg : GoodRegexes P) {t : Tokenizer} {m x : Model} {lines : List Str} {w : WStr} {b : Bool}
    {e : Encoding} (hx : t.model = some x) (hm : ModelIs P lines m x) (hn : NoneOfNothing m) (hd : ∀ a, t.added = some a → PlainTables a)
    (hS : ∀ s ∈ Specials t, s.ids.length = s.tokens.length) (hO : ∀ p, t.postProcessor = some p → SequenceOnce p)
    (h : (t.encode P w b).1 = .ok e) :
    ∃ ws, AnyWords P t w ws ∧ ((∀ v ∈ ws, ShortEnough m v) → ∀ y, y = e.toEnc ∨ y ∈ e.overflowing →
      tokensOfText y ≤ (ws.map (mostTokens m)).sum) := by
  obtain ⟨q, text, ⟨p, hp, hq⟩, ht, g1, g2⟩ := encode_rows hS h
  rw [hx] at hq
  obtain ⟨ws, k1, k2⟩ := at_words P hg hd hp
  refine ⟨ws, k1, fun hv y hy => ?_⟩
  have hE := (cn_words hn (pl_model P hm k2 hq) hv).1
  have : tokensOfText y ≤ text.length := by
    rcases hy with rfl | hy
    · exact cn_good hO g1
    · exact cn_good hO (g2 _ hy)
  have := cn_rows ht
  omega

/-- **C113** Without truncation, post-processor and padding: at least one id for every word that is not empty, and no more than in
`C113_words`. -/
theorem C113_ids (P : Platform) (hg : GoodRegexes P) {t : Tokenizer} {m x : Model} {lines : List Str} {w : WStr} {b : Bool}
    {e : Encoding} (hx : t.model = some x) (hm : ModelIs P lines m x) (hn : NoneOfNothing m) (hd : ∀ a, t.added = some a → PlainTables a)
    (htr : t.truncation = none) (hpp : t.postProcessor = none) (hpad : t.padding = none)
    (h : (t.encode P w b).1 = .ok e) :
    ∃ ws, AnyWords P t w ws ∧ ((∀ v ∈ ws, ShortEnough m v) →
      (ws.filter (· ≠ [])).length ≤ e.ids.length ∧ e.ids.length ≤ (ws.map (mostTokens m)).sum) := by
  obtain ⟨q, y, ⟨p, hp, hq⟩, hy, hpost⟩ := encode_ok h
  rw [hx] at hq
  obtain ⟨ws, k1, k2⟩ := at_words P hg hd hp
  refine ⟨ws, k1, fun hv => ?_⟩
  obtain ⟨g1, g2⟩ := cn_words hn (pl_model P hm k2 hq) hv
  have e1 := (ck_entries hy hpost htr hpad).1
  rw [hpp] at e1
  simp only [laidOutBy] at e1
  rw [e1, List.length_map]
  exact ⟨g2, g1⟩

/-! ### Texts that are only cut -/

theorem cn_laid {w : WStr} {a e : Nat} {l : List Split} (h : Laid w a e l) : ∀ l' r', w = l' ++ r' → units l' ≤ a →
    ∃ vs, Each (fun v s => HasText s v) vs l ∧ vs.flatten.Sublist r' := by
  induction h with
  | nil => intro l' r' _ _; exact ⟨[], .nil, by simp⟩
  | @cons a b e s v l h1 h2 h3 _ ih =>
    intro l' r' hw hu
    obtain ⟨x, y, e1, e2, e3⟩ := h2
    obtain ⟨mid, rfl, rfl⟩ := prefix_units (l1 := l') (r1 := r') (l2 := x) (r2 := v ++ y) (by rw [← hw, e1]; simp) (by omega)
    obtain ⟨vs, g1, g2⟩ := ih (l' ++ mid ++ v) y (by rw [hw]; simp) (by rw [units_append]; omega)
    refine ⟨v :: vs, .cons h3 g1, ?_⟩
    rw [List.flatten_cons]
    exact (List.Sublist.append (List.Sublist.refl v) g2).trans (List.sublist_append_right _ _)

theorem cn_units_sub {v w : WStr} (h : v.Sublist w) : units v ≤ units w := by
  induction h with
  | slnil => exact Nat.le_refl _
  | cons _ _ ih => simp only [units]; omega
  | cons_cons _ _ ih => simp only [units]; omega

theorem cn_octets_sub {v w : WStr} (h : v.Sublist w) : octets v ≤ octets w := by
  induction h with
  | slnil => exact Nat.le_refl _
  | cons _ _ ih => simp only [octets]; omega
  | cons_cons _ _ ih => simp only [octets]; omega

theorem cn_octets_append (v w : WStr) : octets (v ++ w) = octets v + octets w := by
  induction v with
  | nil => simp [octets]
  | cons c v ih => simp only [List.cons_append, octets, ih]; omega

theorem cn_flatten (m : Model) (ws : List WStr) : (ws.map (mostTokens m)).sum = mostTokens m ws.flatten := by
  induction ws with
  | nil => cases m <;> simp [mostTokens, units, octets]
  | cons v ws ih =>
    rw [List.map_cons, List.sum_cons, ih, List.flatten_cons]
    cases m with
    | wordPiece m => simp only [mostTokens, units_append]
    | bpe m =>
      simp only [mostTokens, cn_octets_append, Nat.add_mul]
      split <;> rfl

theorem cn_sub (m : Model) {v w : WStr} (h : v.Sublist w) : mostTokens m v ≤ mostTokens m w := by
  cases m with
  | wordPiece m => exact cn_units_sub h
  | bpe m =>
    simp only [mostTokens]
    split
    · exact Nat.mul_le_mul_right _ (cn_octets_sub h)
    · exact cn_octets_sub h

theorem cn_short (m : Model) {v w : WStr} (h : v.Sublist w) (hw : ShortEnough m w) : ShortEnough m v := by
  cases m with
  | wordPiece m => trivial
  | bpe m => exact Nat.lt_of_le_of_lt (Nat.mul_le_mul_right _ (cn_octets_sub h)) hw

/-- **C113** With pre-tokenizers that only cut and without normalizer: no more tokens of the text than the text has UTF-16 units
(WordPiece) or bytes (BPE). -/
theorem C113_text (P : Platform) {t : Tokenizer} {m x : Model} {lines : List Str} {w : WStr} {b : Bool}
    {e : Encoding} (hx : t.model = some x) (hm : ModelIs P lines m x) (hn : NoneOfNothing m)
    (hS : ∀ s ∈ Specials t, s.ids.length = s.tokens.length) (hO : ∀ p, t.postProcessor = some p → SequenceOnce p)
    (hw : Positioned t w) (hpt : ∀ pt, t.preTokenizer = some pt → OnlyCuts P pt) (hs : ShortEnough m w)
    (h : (t.encode P w b).1 = .ok e) : ∀ y, y = e.toEnc ∨ y ∈ e.overflowing → tokensOfText y ≤ mostTokens m w := by
  obtain ⟨q, text, ⟨p, hp, hq⟩, ht, g1, g2⟩ := encode_rows hS h
  rw [hx] at hq
  obtain ⟨ws, k1, k2⟩ := cn_laid (preTokenized_laid P t w p hw hpt hp) [] w rfl (by simp [units])
  intro y hy
  have hE := (cn_words hn (pl_model P hm k1 hq) fun v hv => cn_short m
    (by obtain ⟨x, y, rfl⟩ := List.append_of_mem hv; exact List.Sublist.trans (by simp) k2) hs).1
  have : tokensOfText y ≤ text.length := by
    rcases hy with rfl | hy
    · exact cn_good hO g1
    · exact cn_good hO (g2 _ hy)
  have := cn_rows ht
  have := cn_sub m k2
  rw [cn_flatten] at hE
  omega

/-! ### The hypotheses are met -/

/-- The hypotheses of `C113_text` are met, with added tokens none, truncation, trimming and padding … -/
example (e : Encoding) (h : (orderTk.encode ascii w!"playing, go 😀" true).1 = .ok e) :
    ∀ x, x = e.toEnc ∨ x ∈ e.overflowing → tokensOfText x ≤ 14 := by
  refine C113_text ascii (t := orderTk) (lines := []) (m := .wordPiece _) (w := w!"playing, go 😀") rfl rfl (by show (0 : Int) ≤ _; decide)
    (by simp [Specials, orderTk, bertLike, specialsOf]) ?_ ?_ ?_ trivial h
  · intro p hp; cases hp; trivial
  · show ∀ c ∈ _, Scalar c
    unfold Scalar; decide
  · intro p h; cases h; exact True.intro

/-- … where both windows hold three tokens of the text. -/
example : (orderTk.encode ascii w!"playing, go 😀" true).1.map (fun e => (tokensOfText e.toEnc, e.overflowing.map tokensOfText)) = .ok (3, [3]) := by
  decide +kernel

/-- The hypotheses of `C113_text` are met by byte-pair encoding, and the bound is reached. -/
example : (∃ e, ((abcTk [] false .bert).encode ascii w!"aac" true).1 = .ok e ∧ tokensOfText e.toEnc = 3) ∧
    ∀ e, ((abcTk [] false .bert).encode ascii w!"aac" true).1 = .ok e → tokensOfText e.toEnc ≤ 3 := by
  refine ⟨⟨_, rfl, by decide +kernel⟩, fun e h => ?_⟩
  refine C113_text ascii (t := abcTk [] false .bert) (w := w!"aac") (lines := [b!"a b", b!"b c"]) (m := .bpe abcBPE) rfl ⟨abcBPE_made, by decide, [], rfl⟩ (fun h => by cases h)
    (by simp [Specials, abcTk]) ?_ ?_ ?_ (by show octets w!"aac" * _ < _; decide) h _ (.inl rfl)
  · intro p hp; cases hp
  · show ∀ c ∈ _, Scalar c
    unfold Scalar; decide
  · intro p h; cases h; exact True.intro

/-- With the byte alphabet of ByteLevel there can be more tokens than bytes: a space becomes `Ġ`, of two bytes. -/
theorem C113_violated : ((abcTk [([0xC4], 5), ([0xA0], 6)] false (.byteLevel false false)).encode ascii w!" a" true).1.map (·.ids) =
    .ok [5, 6, 0] ∧ octets w!" a" = 2 := by
  refine ⟨?_, ?_⟩ <;> decide +kernel

end Tok
