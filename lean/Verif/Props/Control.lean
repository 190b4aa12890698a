import Verif.Spec.Control
import Verif.Props.Blanks
import Verif.Props.Count
import Verif.Props.Absent
import Verif.Props.Inputs

set_option autoImplicit false

/-!
C124: control tokens.
-/

namespace Tok
open Spec

theorem ct_rows {ns : NS} {k : Nat} {l : List Split} {rows : List Row} (h : TextRows ns k l rows) :
    ∀ r ∈ rows, ∃ tk ∈ (l.map (·.tokens)).flatten, r.token = tk.value ∧ r.id = tk.id := by
  induction h with
  | nil => simp
  | @cons k s l rows g o h1 h2 _ ih =>
    intro r hr
    simp only [List.mem_append, List.mem_map] at hr
    simp only [List.map_cons, List.flatten_cons, List.mem_append]
    rcases hr with ⟨tk, ht, rfl⟩ | hr
    · exact ⟨tk, .inl ht, rfl, rfl⟩
    · obtain ⟨tk, h, e⟩ := ih r hr
      exact ⟨tk, .inr h, e⟩

/-- Wherever the mask is 0, there is a token that the model made of a word. -/
theorem ct_tokens (P : Platform) (hg : GoodRegexes P) {t : Tokenizer} {lines : List Str} {m x : Model} {w : WStr} {b : Bool}
    {e : Encoding} (hm : t.model = some x) (hx : ModelIs P lines m x) (hd : ∀ a, t.added = some a → PlainTables a)
    (hS : ∀ s ∈ Specials t, s.ids.length = s.tokens.length) (h : (t.encode P w b).1 = .ok e) :
    ∃ ws parts, AnyWords P t w ws ∧ Each (ModelTokens lines m) ws parts ∧
      ∀ y, y = e.toEnc ∨ y ∈ e.overflowing → ∀ i : Nat, y.specialTokensMask[i]? = some 0 →
        ∃ tk ∈ parts.flatten, y.tokens[i]? = some tk.value ∧ y.ids[i]? = some tk.id := by
  obtain ⟨q, text, ⟨p, hp, hq⟩, ht, hrows⟩ := C43_rows P t w b e hS h
  rw [hm] at hq
  obtain ⟨ws, h1, h2⟩ := at_words P hg hd hp
  refine ⟨ws, _, h1, pl_model P hx h2 hq, ?_⟩
  intro y hy i hi
  obtain ⟨rows, ⟨g1, _, g3, _, _, g6, _⟩, hk⟩ := hrows y hy
  rw [g6, List.getElem?_map, Option.map_eq_some_iff] at hi
  obtain ⟨r, hr, h0⟩ := hi
  have e3 : y.tokens[i]? = some r.token := by rw [g3, List.getElem?_map, hr]; rfl
  have e1 : y.ids[i]? = some r.id := by rw [g1, List.getElem?_map, hr]; rfl
  rw [e3, e1]
  cases hk r (List.mem_of_getElem? hr) with
  | content r0 hmem hro =>
    rw [hro.1, hro.2.1]
    obtain ⟨tk, h1, h2, h3⟩ := ct_rows ht r0 hmem
    exact ⟨tk, h1, by rw [h2], by rw [h3]⟩
  | special _ _ _ _ _ _ _ h' => rw [h0] at h'; cases h'
  | padding _ _ _ _ _ _ h' => rw [h0] at h'; cases h'

theorem ct_each_flatten {α β : Type} {R : α → List β → Prop} {l : List α} {m : List (List β)} (h : Each R l m) :
    ∀ y ∈ m.flatten, ∃ a ∈ l, ∃ g, R a g ∧ y ∈ g := by
  induction h with
  | nil => simp
  | @cons a g l m h _ ih =>
    intro y hy
    simp only [List.flatten_cons, List.mem_append] at hy
    rcases hy with hy | hy
    · exact ⟨a, by simp, g, h, hy⟩
    · obtain ⟨a', h1, h2⟩ := ih y hy
      exact ⟨a', by simp [h1], h2⟩

/-! ### WordPiece -/

theorem ct_greedy {V : Str → Option Int} {pre : Str} {first : Bool} {pos : Nat} {u : U16} {ts : List Token}
    (h : GreedyUnits V pre first pos u ts) : ∀ tk ∈ ts, V tk.value = some tk.id ∧ ∃ A v B f, u = A ++ v ++ B ∧ UnitKey pre f v tk.value := by
  induction h with
  | done => simp
  | @take first pos v r key id ts h1 _ ih =>
    intro tk htk
    rcases List.mem_cons.1 htk with rfl | htk
    · exact ⟨h1.known, [], v, r, first, by simp, h1.key_of⟩
    · obtain ⟨h2, A, v', B, f, e, hk⟩ := ih tk htk
      exact ⟨h2, v ++ A, v', B, f, by rw [e]; simp, hk⟩

/-- A word that becomes the control token contains it. -/
theorem ct_word {P : Platform} {m : WordPiece} {x v : WStr} {k : Str} {ts : List Token} (hk : ControlToken P m x k) (h : WordTokens m v ts)
    {tk : Token} (ht : tk ∈ ts) (e : tk.value = k) : ∃ p q, v = p ++ x ++ q := by
  obtain ⟨u, hu, h⟩ := h
  rcases h with ⟨-, rfl⟩ | ⟨-, -, h⟩
  · simp only [List.mem_singleton] at ht
    subst ht
    exact absurd e.symm hk.notUnknown
  · obtain ⟨-, A, v', B, f, e', y, s, h1, h2, h3⟩ := ct_greedy h tk ht
    have h4 : s = k := by
      rw [e] at h3
      rcases hk.notContinued with h' | h'
      · rw [h'] at h3
        cases f <;> simpa using h3.symm
      · cases f with
        | true => simpa using h3.symm
        | false => exact absurd h3 (h' s)
    subst h4
    obtain rfl := nt_utf8 hk.text h2
    obtain ⟨hs, rfl⟩ := utf16Text_iff.1 (ab_read h1 hk.readable)
    obtain ⟨hs', rfl⟩ := utf16Text_iff.1 hu
    exact ab_infix hs hs' e'

/-- No piece of a BERT pre-tokenized text contains the control token. -/
theorem ct_piece {P : Platform} {m : WordPiece} {x v p q : WStr} {k : Str} (hk : ControlToken P m x k) {w : WStr}
    (hv : v ∈ (bertPieces P.reSpace P.rePunct w).map (·.2)) : v ≠ p ++ x ++ q := by
  rintro rfl
  simp only [bertPieces, List.map_flatMap, List.mem_flatMap, List.map_map, List.mem_map] at hv
  obtain ⟨y, hy, z, hz, e⟩ := hv
  obtain ⟨-, h1, -⟩ := wsWords_mem P.reSpace w 0 [] [] (by simp) rfl y hy
  obtain ⟨-, h2, l, r, h3, -⟩ := punctWords_mem P.rePunct y.2 0 [] [] (by simp) rfl z hz
  obtain ⟨c, hc, hcc⟩ := hk.mark
  have e : z.2 = p ++ x ++ q := e
  have hcz : c ∈ z.2 := by rw [e]; simp [hc]
  rcases hcc with hcc | hcc
  · rcases h2 with h2 | ⟨d, h2, -⟩
    · rw [h2 c hcz] at hcc; cases hcc
    · have := congrArg List.length (h2.symm.trans e)
      have := hk.long
      simp only [List.length_append, List.length_cons, List.length_nil] at *
      omega
  · have : c ∈ y.2 := by
      have h3 : y.2 = l ++ z.2 ++ r := by simpa using h3
      rw [h3]; simp [hcz]
    rw [h1 c this] at hcc; cases hcc

/-- **C124, WordPiece.** With BERT pre-tokenization the token at a place that the mask shows as text is a control token only if it is
written out in an added token that was recognized in the text. -/
theorem C124_wordPiece (P : Platform) (hg : GoodRegexes P) {t : Tokenizer} {m : WordPiece} {w : WStr} {b : Bool} {e : Encoding}
    (hm : t.model = some (.wordPiece m)) (hpt : t.preTokenizer = some .bert) (hd : ∀ a, t.added = some a → PlainTables a)
    (hS : ∀ s ∈ Specials t, s.ids.length = s.tokens.length) (h : (t.encode P w b).1 = .ok e) :
    ∃ items, AnyFirst P t w items ∧ ∀ (x : WStr) (k : Str), ControlToken P m x k →
      ∀ y, y = e.toEnc ∨ y ∈ e.overflowing → ∀ i : Nat, y.specialTokensMask[i]? = some 0 →
        y.tokens[i]? = some k ∨ (∃ j, y.ids[i]? = some j ∧ (∀ k', tokenToId m.vocab k' = some j ↔ k' = k) ∧ tokenToId m.vocab m.unkToken ≠ none) →
        ∃ v p q, (v, true) ∈ items ∧ v = p ++ x ++ q := by
  obtain ⟨ws, parts, ⟨items, w', items', h1, h2, h3⟩, h4, h5⟩ := ct_tokens P hg (lines := []) (m := .wordPiece m) hm rfl hd hS h
  refine ⟨items, h1, ?_⟩
  intro x k hk y hy i hi hik
  obtain ⟨tk, ht, e1, e2⟩ := h5 y hy i hi
  obtain ⟨v, hv, ts, h6, h7⟩ := ct_each_flatten h4 tk ht
  have hval : tk.value = k := by
    rcases hik with hik | ⟨j, hj, hik, hu⟩
    · rw [e1] at hik; exact Option.some.inj hik
    · rw [e2] at hj
      cases hj
      refine (hik tk.value).1 ?_
      obtain ⟨u, -, h6⟩ := h6
      rcases h6 with ⟨-, rfl⟩ | ⟨-, -, h6⟩
      · simp only [List.mem_singleton] at h7
        subst h7
        cases hV : tokenToId m.vocab m.unkToken with
        | none => exact absurd hV hu
        | some j => rfl
      · exact (ct_greedy h6 tk h7).1
  obtain ⟨p, q, rfl⟩ := ct_word hk h6 h7 hval
  rw [hpt] at h3
  simp only at h3
  cases h3 with
  | bert hc =>
    obtain ⟨groups, hc, rfl⟩ := hc
    rw [h2, List.mem_map] at hv
    obtain ⟨z, hz, hz'⟩ := hv
    obtain ⟨it, h8, g, h9, h10⟩ := ct_each_flatten hc z hz
    split at h9
    · rename_i h11
      subst h9
      simp only [List.mem_singleton] at h10
      subst h10
      exact ⟨z.1, p, q, by rw [← h11]; exact h8, hz'⟩
    · obtain ⟨l, rfl, rfl⟩ := h9
      rw [List.mem_map] at h10
      obtain ⟨v, hv, rfl⟩ := h10
      exact absurd hz' (ct_piece hk hv)

/-- **C124, WordPiece.** Where no added token is recognized, no place that the mask shows as text holds a control token. -/
theorem C124_plain (P : Platform) (hg : GoodRegexes P) {t : Tokenizer} {m : WordPiece} {w n : WStr} {b : Bool} {e : Encoding}
    (hm : t.model = some (.wordPiece m)) (hpt : t.preTokenizer = some .bert) (hd : ∀ a, t.added = some a → PlainTables a)
    (hS : ∀ s ∈ Specials t, s.ids.length = s.tokens.length) (hn : PlainAs P t w n) (h : (t.encode P w b).1 = .ok e)
    {x : WStr} {k : Str} (hk : ControlToken P m x k) :
    ∀ y, y = e.toEnc ∨ y ∈ e.overflowing → ∀ i : Nat, y.specialTokensMask[i]? = some 0 → y.tokens[i]? ≠ some k ∧
      (tokenToId m.vocab m.unkToken ≠ none → ∀ j, (∀ k', tokenToId m.vocab k' = some j ↔ k' = k) → y.ids[i]? ≠ some j) := by
  obtain ⟨items, h1, h2⟩ := C124_wordPiece P hg hm hpt hd hS h
  have hi : ∀ v, (v, true) ∉ items := by
    intro v hv
    by_cases hw : t.added ≠ none → w ≠ []
    · rw [bk_first hn hw h1] at hv
      simp at hv
    · have hw' : t.added ≠ none ∧ w = [] := Classical.byContradiction fun g => hw fun h1 h2 => g ⟨h1, h2⟩
      obtain ⟨h3, rfl⟩ := hw'
      cases ha : t.added with
      | none => exact h3 ha
      | some a =>
        obtain ⟨_, h4, -⟩ := C53_violated P t b a ha
        rw [h] at h4
        cases h4
  intro y hy i hmask
  refine ⟨?_, ?_⟩
  · intro hc
    obtain ⟨v, p, q, hv, -⟩ := h2 x k hk y hy i hmask (.inl hc)
    exact hi v hv
  · intro hu j hj hc
    obtain ⟨v, p, q, hv, -⟩ := h2 x k hk y hy i hmask (.inr ⟨j, hc, hj, hu⟩)
    exact hi v hv

/-! ### Byte-pair encoding -/

theorem ct_byteTokens {fs : List Found} {j : Int} (h : ∀ ids, Found.bytes ids ∈ fs → j ∉ ids) : ∀ x ∈ byteTokens fs, x.1 ≠ j := by
  intro x hx e
  unfold byteTokens at hx
  rw [List.mem_flatMap] at hx
  obtain ⟨f, hf, hx⟩ := hx
  cases f with
  | bytes ids =>
    simp only [List.mem_map] at hx
    obtain ⟨i, hi, rfl⟩ := hx
    exact h ids hf (by rw [← e]; exact hi)
  | entry => cases hx
  | nothing => cases hx

theorem ct_pieces {unk : Option Int} {fuse : Bool} {fs : List Found} {l : List (Int × Nat)} (h : Pieces unk fuse fs l) {j : Int}
    (hu : unk ≠ some j) : (∀ i, Found.entry i ∈ fs → i ≠ j) → (∀ ids, Found.bytes ids ∈ fs → j ∉ ids) → ∀ x ∈ l, x.1 ≠ j := by
  induction h with
  | nil => intro _ _ x hx; cases hx
  | @known i r l _ ih =>
    intro h1 h2 x hx
    rcases List.mem_cons.1 hx with rfl | hx
    · exact h1 _ (by simp)
    · exact ih (fun i h => h1 i (by simp [h])) (fun i h => h2 i (by simp [h])) x hx
  | @bytes ids r l _ ih =>
    intro h1 h2 x hx
    rcases List.mem_append.1 hx with hx | hx
    · exact ct_byteTokens (fun i h => h2 i (by simp only [List.mem_singleton] at h; rw [h]; simp)) x hx
    · exact ih (fun i h => h1 i (by simp [h])) (fun i h => h2 i (by simp [h])) x hx
  | @dropped r l _ _ ih =>
    intro h1 h2
    exact ih (fun i h => h1 i (by simp [h])) (fun i h => h2 i (by simp [h]))
  | @single u fs r l e _ _ _ _ ih =>
    intro h1 h2 x hx
    rcases List.mem_append.1 hx with hx | hx
    · exact ct_byteTokens (fun i h => h2 i (by simp [h])) x hx
    · rcases List.mem_cons.1 hx with rfl | hx
      · rintro rfl; exact hu e
      · exact ih (fun i h => h1 i (by simp [h])) (fun i h => h2 i (by simp [h])) x hx
  | @run u fs r l e _ _ _ _ ih =>
    intro h1 h2 x hx
    rcases List.mem_append.1 hx with hx | hx
    · exact ct_byteTokens (fun i h => h2 i (by simp [h])) x hx
    · rcases List.mem_cons.1 hx with rfl | hx
      · rintro rfl; exact hu e
      · exact ih (fun i h => h1 i (by simp [h])) (fun i h => h2 i (by simp [h])) x hx

theorem ct_merge {T : Table} {l l' : List (Int × Nat)} (h : MergeMany T l l') {j : Int} (hj : ∀ r a b, ¬ T r a b j)
    (hl : ∀ x ∈ l, x.1 ≠ j) : ∀ x ∈ l', x.1 ≠ j := by
  induction h with
  | refl => exact hl
  | @step b c rank _ h2 ih =>
    cases h2 with
    | @mk A B a b n h3 =>
      intro x hx
      simp only [List.mem_append, List.mem_cons] at hx
      rcases hx with hx | rfl | hx
      · exact ih x (by simp [hx])
      · rintro rfl; exact hj _ _ _ h3
      · exact ih x (by simp [hx])

theorem ct_bpe {m : BPE} {lines : List Str} {v : WStr} {ts : List Token} (h : BpeTokens m lines v ts) (hs : ShortEnough (.bpe m) v)
    {j : Int} (hj : OutOfReach m lines j) {tk : Token} (ht : tk ∈ ts) (e : tk.id = j) :
    m.dropout.on = false ∧ m.ignoreMerges = true ∧ ∃ s, Utf8Text v s ∧ tokenToId m.vocab s = some j := by
  obtain ⟨s, h1, h2⟩ := h
  have hs : s.length * (m.pre.length + m.suf.length + 1) < 2 ^ 31 := by
    have : octets v = s.length := (cn_octets h1).symm
    have hs : octets v * (m.pre.length + m.suf.length + 1) < 2 ^ 31 := hs
    rwa [this] at hs
  rcases h2 hs with ⟨i, g1, g2, g3, rfl⟩ | ⟨-, l, g1, g2, -⟩
  · simp only [List.mem_singleton] at ht
    subst ht
    exact ⟨g1, g2, s, h1, by rw [g3, ← e]⟩
  · exfalso
    refine ct_merge g2 hj.merges ?_ (tk.id, tk.offsets.2 - tk.offsets.1) (List.mem_map.2 ⟨tk, ht, rfl⟩) e
    refine ct_pieces g1 ?_ ?_ ?_
    · split
      · simp
      · exact hj.unknown (by assumption)
    · intro i hi hij
      subst hij
      simp only [foundAll, List.mem_map, List.mem_range] at hi
      obtain ⟨n, hn, hi⟩ := hi
      unfold found at hi
      split at hi
      · rename_i id hid
        cases hi
        exact hj.single s n hn hid
      · split at hi
        · cases hi
        · split at hi <;> cases hi
    · intro ids hi hij
      simp only [foundAll, List.mem_map, List.mem_range] at hi
      obtain ⟨n, hn, hi⟩ := hi
      unfold found at hi
      split at hi
      · cases hi
      · split at hi
        · cases hi
        · rename_i id ids' hid
          split at hi
          · rename_i hfb
            cases hi
            rw [← hid, List.mem_filterMap] at hij
            obtain ⟨c, -, hc⟩ := hij
            exact hj.bytes hfb c hc
          · cases hi

/-- **C124, BPE.** An id that is out of reach of the merges stands at a place that the mask shows as text only if `ignore_merges` is
on, and then only for a word that is exactly the token. -/
theorem C124_bpe (P : Platform) (hg : GoodRegexes P) {t : Tokenizer} {lines : List Str} {m : BPE} {x : Model} {w : WStr} {b : Bool}
    {e : Encoding} (hm : t.model = some x) (hx : ModelIs P lines (.bpe m) x) (hd : ∀ a, t.added = some a → PlainTables a)
    (hS : ∀ s ∈ Specials t, s.ids.length = s.tokens.length)
    (hw : ∀ ws, AnyWords P t w ws → ∀ v ∈ ws, ShortEnough (.bpe m) v) (h : (t.encode P w b).1 = .ok e) :
    ∃ ws, AnyWords P t w ws ∧ ∀ j, OutOfReach m lines j →
      ∀ y, y = e.toEnc ∨ y ∈ e.overflowing → ∀ i : Nat, y.specialTokensMask[i]? = some 0 → y.ids[i]? = some j →
        m.dropout.on = false ∧ m.ignoreMerges = true ∧ ∃ v s, v ∈ ws ∧ Utf8Text v s ∧ tokenToId m.vocab s = some j := by
  obtain ⟨ws, parts, h1, h4, h5⟩ := ct_tokens P hg hm hx hd hS h
  refine ⟨ws, h1, ?_⟩
  intro j hj y hy i hi hid
  obtain ⟨tk, ht, -, e2⟩ := h5 y hy i hi
  obtain ⟨v, hv, ts, h6, h7⟩ := ct_each_flatten h4 tk ht
  rw [e2] at hid
  obtain ⟨g1, g2, s, g3, g4⟩ := ct_bpe h6 (hw ws h1 v hv) hj h7 (Option.some.inj hid)
  exact ⟨g1, g2, v, s, hv, g3, g4⟩

/-! ### Examples -/

/-- What `C124_plain` assumes, and what it says: `[X]` has an id of its own, but inside a word it is not recognized and is taken apart. -/
example : (∃ m, (uncasedTk true true false false).model = some (.wordPiece m) ∧ ControlToken spacePlatform m w!"[X]" b!"[X]") ∧
    (∃ n, PlainAs spacePlatform (uncasedTk true true false false) w!"hello[X]" n) ∧
    ((uncasedTk true true false false).encode spacePlatform w!"hello[X]" true).1.map (·.ids) = .ok [1, 0, 0, 0] ∧
    ((uncasedTk true true false false).encode spacePlatform w!"hello [X]" true).1.map (·.ids) = .ok [1, 4] := by
  refine ⟨⟨_, rfl, utf8Text_iff.2 ⟨by unfold Scalars isScalar; decide, by decide⟩, by decide, by decide, ⟨0x5B, by decide, .inl (by decide)⟩, by decide, .inr ?_⟩, ⟨w!"hello[X]", ?_⟩, ?_, ?_⟩
  · intro s e
    cases e
  · refine ⟨bk_nothing (by unfold Scalars isScalar; decide) (ps_plain _ (.inl rfl)).1 (ps_plain _ (.inl rfl)).2 (by decide +kernel), ?_,
      al_noTokens (a := AddedVocab.init []) rfl _, by decide⟩
    have hn : ((Normalizer.bert true true false false).run spacePlatform (NS.ofText w!"hello[X]")).map (·.normalized) = .ok w!"hello[X]" := by
      decide +kernel
    show NormalizesTo spacePlatform (.bert true true false false) w!"hello[X]" w!"hello[X]"
    cases h : (Normalizer.bert true true false false).run spacePlatform (NS.ofText w!"hello[X]") with
    | error _ => rw [h] at hn; cases hn
    | ok s => rw [h] at hn; have h1 := C104_text _ _ h; have h2 : s.normalized = _ := Except.ok.inj hn; rw [h2] at h1; exact h1
  · decide +kernel
  · decide +kernel

/-- A byte-pair model with a control token `<s>`. -/
def controlBPE (ig : Bool) : BPE :=
  { vocab := [(b!"<unk>", 0), (b!"x", 1), (b!"<", 2), (b!"s", 3), (b!">", 4), (b!"<s>", 5), (b!"<s", 6)], merges := [((2, 3), (0, 6))],
    dropout := { on := false, draw := fun _ => false }, unkToken := b!"<unk>", pre := [], suf := [], fuseUnk := false, byteFallback := false,
    ignoreMerges := ig }

theorem ct_key {ig : Bool} {k : Str} {j : Int} (h : tokenToId (controlBPE ig).vocab k = some j) : (j = 5 → k = b!"<s>") ∧ (j = 2 → k = b!"<") ∧ (j = 3 → k = b!"s") := by
  have := mapFind_mem h
  simp only [controlBPE, List.mem_cons, Prod.mk.injEq, List.not_mem_nil, or_false] at this
  rcases this with ⟨rfl, rfl⟩ | ⟨rfl, rfl⟩ | ⟨rfl, rfl⟩ | ⟨rfl, rfl⟩ | ⟨rfl, rfl⟩ | ⟨rfl, rfl⟩ | ⟨rfl, rfl⟩ <;> decide

/-- What `C124_bpe` assumes: the id of `<s>` is out of reach. -/
theorem ct_control (ig : Bool) : OutOfReach (controlBPE ig) [b!"< s"] 5 := by
  refine ⟨?_, ?_, ?_, ?_⟩
  · rintro rank a b ⟨⟨line, p, q, h1, h2, -, -, h3⟩, -⟩
    cases rank with
    | succ n => simp at h1
    | zero =>
      simp only [List.getElem?_cons_zero, Option.some.injEq] at h1
      subst h1
      have hf : Fields b!"< s" b!"<" b!"s" := ⟨[], b!" ", [], by decide, by decide, by decide, by decide, by simp, by unfold BlankByte; decide,
        by unfold BlankByte; decide, by unfold BlankByte; decide, by simp⟩
      obtain ⟨rfl, rfl⟩ := fields_unique h2 hf
      have := (ct_key h3).1 rfl
      cases ig <;> revert this <;> decide
  · intro s i hi h
    have := (ct_key h).1 rfl
    have e := congrArg List.length this
    simp only [spelling, controlBPE] at e
    split at e <;> split at e <;> simp at e <;> omega
  · intro h; cases h
  · intro _ h
    have := (ct_key h).1 rfl
    cases ig <;> revert this <;> decide

/-- **C124** Byte-pair encoding never gives the id of `<s>` to a text, not even if `<s>` has been added and is written out; with
`ignore_merges` it does, also if it has not been added.  And without pre-tokenization WordPiece gives a text the id of `[X]`, which has not been added. -/
theorem C124_violated :
    idsAfter { tkOf [] with model := some (.bpe (controlBPE false)) } (plain [b!"<s>"]) w!"<s>" = .ok [6, 4] ∧
    idsAfter { tkOf [] with model := some (.bpe (controlBPE true)) } (plain []) w!"<s>" = .ok [5] ∧
    ((tkOf [(b!"[UNK]", 0), (b!"[X]", 1)]).encode ascii w!"[X]" true).1.map (·.ids) = .ok [1] := by
  refine ⟨?_, ?_, ?_⟩ <;> decide +kernel

end Tok
