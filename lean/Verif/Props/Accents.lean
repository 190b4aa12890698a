import Verif.Proofs.Accents
import Verif.Props.Metaspace
import Verif.Props.Traced

set_option autoImplicit false

/-! C96: BERT normalization with accent stripping, every text without control characters. -/

namespace Tok
open Spec

theorem ac_units (w : WStr) : (fromUTF32 w).length = (w.map unitsOf).sum := by
  unfold fromUTF32 utf16
  induction w with
  | nil => rfl
  | cons c w ih =>
    have h : (utf16Enc1 (sanitize c)).length = unitsOf c := by
      unfold utf16Enc1 sanitize unitsOf isScalar
      by_cases h1 : c < 0xD800 <;> by_cases h2 : 0xDFFF < c <;> by_cases h3 : c ≤ 0x10FFFF <;>
        by_cases h4 : c < 0x10000 <;> simp [h1, h3, h4] <;> first | omega | (split <;> simp <;> omega) | skip
    simp only [List.map_cons, List.flatMap_cons, List.length_append, List.sum_cons, ih, h]

theorem ac_prepared (P : Platform) (clean : Bool) : ∀ w : WStr,
    padText (w.map (cleanChar P clean)) = prepared P clean true w ∧ w.map (cleanChar P clean) = prepared P clean false w := by
  intro w
  induction w with
  | nil => exact ⟨rfl, rfl⟩
  | cons c w ih =>
    have e : ∀ b, prepared P clean b (c :: w) = bertChar P clean b false c ++ prepared P clean b w := fun b => rfl
    rw [e, e, ← ih.1, ← ih.2]
    constructor
    · simp only [List.map_cons, padText, bertChar, cleanChar, true_and, cjk_iff, Bool.false_eq_true, if_false]
      split <;> split <;> rfl
    · simp [bertChar, cleanChar]

theorem ac_padLens : ∀ (w : WStr) (B : List Nat), w.length ≤ B.length →
    (padLens w B).length + w.length = B.length + (padText w).length := by
  intro w
  induction w with
  | nil => intro B _; simp [padLens, padText]
  | cons c w ih =>
    intro B h
    cases B with
    | nil => simp at h
    | cons b B =>
      have := ih B (by simpa using h)
      by_cases hc : isChineseChar c = true <;> simp [padLens, padText, hc] <;> omega

theorem ac_padLens_wide : ∀ (w : WStr) (B : List Nat), w.length ≤ B.length →
    (∀ (i c k : Nat), w[i]? = some c → 0x80 ≤ c → B[i]? = some k → 2 ≤ k) →
    ∀ (i c k : Nat), (padText w)[i]? = some c → 0x80 ≤ c → (padLens w B)[i]? = some k → 2 ≤ k := by
  intro w
  induction w with
  | nil => intro B _ _ i c k h; simp [padText] at h
  | cons x w ih =>
    intro B h hw i c k h1 h2 h3
    cases B with
    | nil => simp at h
    | cons b B =>
      have ih' := ih B (by simpa using h) fun i c k g1 g2 g3 => hw (i + 1) c k (by simpa using g1) g2 (by simpa using g3)
      have h0 := fun c k (e1 : x = c) g (e2 : b = k) => hw 0 c k (by simp [e1]) g (by simp [e2])
      by_cases hc : isChineseChar x = true
      · simp only [padText, padLens, hc, if_true] at h1 h3
        match i with
        | 0 => simp at h1; omega
        | 1 => simp at h1 h3; exact h0 c k h1 h2 h3
        | 2 => simp at h1; omega
        | i + 3 => exact ih' i c k (by simpa using h1) h2 (by simpa using h3)
      · simp only [padText, padLens, hc, if_false, Bool.false_eq_true] at h1 h3
        match i with
        | 0 => simp at h1 h3; exact h0 c k h1 h2 h3
        | i + 1 => exact ih' i c k (by simpa using h1) h2 (by simpa using h3)

/-- The steps before accent stripping. -/
theorem ac_first (P : Platform) (clean cjk : Bool) {w : WStr} (hd : clean = true → ∀ c ∈ w, ¬ Dropped P c) :
    ∃ s lens, ((if clean then doCleanText P (NS.ofText w) else .ok (NS.ofText w)) >>= fun s =>
        if cjk then doHandleChineseChars s else .ok s) = .ok s ∧
      s.normalized = prepared P clean cjk w ∧ Tab s lens ∧ w.length ≤ s.normalized.length ∧
      s.ranges.length = (w.map unitsOf).sum + (s.normalized.length - w.length) ∧ s.normalized.length ≤ s.ranges.length ∧
      (Bmp w → ∀ (i c k : Nat), s.normalized[i]? = some c → 0x80 ≤ c → lens[i]? = some k → 2 ≤ k) := by
  have h1 : (if clean then doCleanText P (NS.ofText w) else .ok (NS.ofText w)) =
      .ok { NS.ofText w with normalized := w.map (cleanChar P clean) } := by
    cases clean with
    | true => simp only [if_true]; rw [clean_map (hd rfl)]; rfl
    | false =>
      have : w.map (cleanChar P false) = w := by
        rw [List.map_congr_left (g := id) fun c _ => by simp [cleanChar]]; simp
      rw [this]; rfl
  have hT := ofText_tab w
  have hT' : Tab { NS.ofText w with normalized := w.map (cleanChar P clean) } (unitLens (fromUTF32 w)) :=
    ⟨hT.ranges, hT.offsets, hT.pos⟩
  have hu := ac_units w
  have hge := fromUTF32_length_ge w
  have hwide : Bmp w → ∀ (i c k : Nat), (w.map (cleanChar P clean))[i]? = some c → 0x80 ≤ c →
      (unitLens (fromUTF32 w))[i]? = some k → 2 ≤ k := by
    intro hb i c k g1 g2 g3
    rw [unitLens_bmp hb] at g3
    simp only [List.getElem?_map, Option.map_eq_some_iff] at g1 g3
    obtain ⟨x, hx, rfl⟩ := g1
    obtain ⟨y, hy, rfl⟩ := g3
    rw [hx] at hy; cases hy
    have : cleanChar P clean x = x ∨ cleanChar P clean x = 0x20 := by
      unfold cleanChar; split <;> simp
    rcases this with e | e
    · rw [e] at g2
      unfold byteLen utf8Enc1
      rw [if_neg (by omega)]
      split
      · simp
      · split <;> simp
    · omega
  rw [h1, res_ok_bind]
  cases cjk with
  | false =>
    refine ⟨_, _, rfl, (ac_prepared P clean w).2, hT', by simp, ?_, ?_, hwide⟩
    · simp only [List.length_map, Nat.sub_self, Nat.add_zero]; rw [← hu]; exact ofText_ranges w
    · simp only [List.length_map]; rw [ofText_ranges]; exact hge
  | true =>
    have hlen : (w.map (cleanChar P clean)).length ≤ (unitLens (fromUTF32 w)).length := by simpa using hge
    obtain ⟨s', e1, e2, e3⟩ := cjk_returns hT' hlen
    have hl := ac_padLens _ _ hlen
    have hp : (w.map (cleanChar P clean)).length ≤ (padText (w.map (cleanChar P clean))).length := by
      generalize w.map (cleanChar P clean) = v
      induction v with
      | nil => simp [padText]
      | cons c v ih => simp only [padText]; split <;> simp <;> omega
    have hr : s'.ranges.length = (padLens (w.map (cleanChar P clean)) (unitLens (fromUTF32 w))).length := by
      rw [e2.ranges]; simp
    simp only [List.length_map, unitLens_length] at hl hp hr hlen e3
    refine ⟨s', _, e1, by rw [e3]; exact (ac_prepared P clean w).1, e2, by rw [e3]; exact hp, ?_, ?_, ?_⟩
    · rw [hr, e3]; omega
    · rw [hr, e3]; omega
    · intro hb
      rw [e3]
      exact ac_padLens_wide _ _ (by simpa using hlen) (hwide hb)

theorem ac_run (P : Platform) {clean cjk strip lower : Bool} (hsl : strip = true ∨ lower = true) {w : WStr} {s : NS}
    (h : ((if clean then doCleanText P (NS.ofText w) else .ok (NS.ofText w)) >>= fun s =>
        if cjk then doHandleChineseChars s else .ok s) = .ok s) :
    (Normalizer.bert clean cjk strip lower).run P (NS.ofText w) =
      (doStripAccents P s >>= fun s => .ok (if lower then doLowercase P s else s)) := by
  obtain ⟨s0, h0, h⟩ := res_bind_ok.1 h
  simp only [Normalizer.run, bertNormalize_eq]
  rw [h0, res_ok_bind, h, res_ok_bind]
  have : (strip || lower) = true := by rcases hsl with e | e <;> simp [e]
  rw [this]; rfl

/-- **C96** BERT normalization with accent stripping, for every text without characters that cleaning drops: let `k` be the
number of places where the prepared text differs from its decomposition (walking side by side).  If every non-spacing mark
of the decomposition is at a position below the number of UTF-16 units of the prepared text plus `k`, the call returns the
decomposition without its marks; otherwise the behaviour is undefined. -/
theorem C96_accents (P : Platform) (clean cjk strip lower : Bool) (hsl : strip = true ∨ lower = true) (w : WStr)
    (hd : clean = true → ∀ c ∈ w, ¬ Dropped P c) (k : Nat)
    (hk : Mismatches (prepared P clean cjk w) (decomposed P clean cjk w) k) :
    ((∀ j, MarkAt P (decomposed P clean cjk w) j →
        j < (w.map unitsOf).sum + ((prepared P clean cjk w).length - w.length) + k) →
      ∃ s, (Normalizer.bert clean cjk strip lower).run P (NS.ofText w) = .ok s ∧
        s.normalized = stripped P lower (decomposed P clean cjk w)) ∧
    ((¬ ∀ j, MarkAt P (decomposed P clean cjk w) j →
        j < (w.map unitsOf).sum + ((prepared P clean cjk w).length - w.length) + k) →
      (Normalizer.bert clean cjk strip lower).run P (NS.ofText w) = .error (.ub .outOfBounds)) := by
  obtain ⟨s, lens, h1, h2, h3, h4, h5, h6, -⟩ := ac_first P clean cjk hd
  rw [ac_run P hsl h1]
  have key := ac_strip P h6 (k := k) (by rw [h2]; exact hk)
  rw [h2] at key h5
  rw [h5] at key
  constructor
  · intro h
    obtain ⟨s', e1, e2⟩ := key.1 h
    rw [e1, res_ok_bind]
    refine ⟨_, rfl, ?_⟩
    have e2' : s'.normalized = (decomposed P clean cjk w).filter fun c => !P.isNSM c := e2
    cases lower <;> simp [doLowercase, stripped, e2']
  · intro h
    rw [key.2 h]; rfl

/-- Such a number of places always exists, and only one. -/
theorem C96_mismatches (o d : WStr) : ∃ k, Mismatches o d k ∧ ∀ k', Mismatches o d k' → k' = k :=
  ⟨_, ac_growIds o d 0, fun _ h => ac_unique h (ac_growIds o d 0)⟩

theorem ac_fit (P : Platform) (clean cjk : Bool) {w : WStr} (hd : clean = true → ∀ c ∈ w, ¬ Dropped P c) (hb : Bmp w) :
    ∃ s, ((if clean then doCleanText P (NS.ofText w) else .ok (NS.ofText w)) >>= fun s =>
        if cjk then doHandleChineseChars s else .ok s) = .ok s ∧ s.normalized = prepared P clean cjk w ∧ Fit s := by
  obtain ⟨s, lens, h1, h2, h3, h4, h5, h6, h7⟩ := ac_first P clean cjk hd
  refine ⟨s, h1, h2, h6, ?_, ?_, ?_⟩
  · intro r hr
    refine h3.pos _ ?_
    rw [h3.ranges] at hr
    have : r.2 ∈ (mkRanges 0 lens).map (·.2) := List.mem_map_of_mem hr
    simpa using this
  · rw [h3.ranges, mkRanges_snd, h3.offsets]; exact Nat.le_refl _
  · intro i c r g1 g2 g3
    refine h7 hb i c r.2 g1 g2 ?_
    have : ((mkRanges 0 lens).map (·.2))[i]? = some r.2 := by
      rw [← h3.ranges, List.getElem?_map, g3]; rfl
    simpa using this

/-- **C96** A text (up to U+FFFF) whose characters have at most one accent each is normalized: the accents are gone.  The
result is usable by the later steps if anything is left. -/
theorem C96_one_accent (P : Platform) (clean cjk strip lower : Bool) (hsl : strip = true ∨ lower = true) (w : WStr) (hb : Bmp w)
    (hd : clean = true → ∀ c ∈ w, ¬ Dropped P c) (h1 : OneMark (prepared P clean cjk w) (decomposed P clean cjk w)) :
    ∃ s, (Normalizer.bert clean cjk strip lower).run P (NS.ofText w) = .ok s ∧
      s.normalized = stripped P lower (decomposed P clean cjk w) ∧ (s.normalized ≠ [] → Usable s) := by
  obtain ⟨s, e1, e2, e3⟩ := ac_fit P clean cjk hd hb
  rw [ac_run P hsl e1]
  obtain ⟨s', g1, g2, g3⟩ := ac_usable P e3 (by rw [e2]; exact h1)
  rw [g1, res_ok_bind]
  have g2' : s'.normalized = (decomposed P clean cjk w).filter fun c => !P.isNSM c := by rw [g2, e2]; rfl
  cases lower with
  | false => exact ⟨s', rfl, by simp [stripped, g2'], g3⟩
  | true =>
    refine ⟨_, rfl, by simp [stripped, doLowercase, g2'], fun hne => ?_⟩
    have hu := g3 (by intro e; simp [doLowercase, e] at hne)
    exact ⟨hne, by simpa [doLowercase] using hu.entries, hu.filled, hu.covered⟩

theorem ac_oneMark_count : ∀ {o r : WStr}, OneMark o r → ∀ (c x : Nat) (d : WStr), c ≠ x →
    Mismatches (o ++ [c]) (r ++ x :: d) (r.length - o.length + 1) ∧ o.length ≤ r.length := by
  intro o r h
  induction h with
  | nil =>
    intro c x d hne
    refine ⟨?_, by simp⟩
    cases d with
    | nil => exact .last hne
    | cons y d => exact .differ hne (.textEnds d)
  | same a _ ih =>
    intro c x d hne
    obtain ⟨h1, h2⟩ := ih c x d hne
    refine ⟨?_, by simpa using h2⟩
    simpa using Mismatches.equal a h1
  | @accent o r a p q _ hpq _ ih =>
    intro c x d hne
    obtain ⟨h1, h2⟩ := ih c x d hne
    refine ⟨?_, by simp; omega⟩
    have := Mismatches.differ (y := q) hpq h1
    simp only [List.length_cons, List.cons_append]
    have e : r.length + 1 + 1 - (o.length + 1) + 1 = r.length - o.length + 1 + 1 := by omega
    rw [e]; exact this

theorem ac_prepared_length (P : Platform) (clean cjk : Bool) (w : WStr) : w.length ≤ (prepared P clean cjk w).length := by
  unfold prepared
  induction w with
  | nil => simp
  | cons c w ih =>
    have : 1 ≤ (bertChar P clean cjk false c).length := by unfold bertChar; simp only; split <;> split <;> simp
    simp only [List.flatMap_cons, List.length_append, List.length_cons]; omega

/-- **C96** A text (up to U+FFFF) that ends in a letter with two accents - anything may follow in the decomposition - after
characters with at most one accent: the behaviour is undefined. -/
theorem C96_two_accents (P : Platform) (clean cjk strip lower : Bool) (hsl : strip = true ∨ lower = true) (w : WStr) (hb : Bmp w)
    (hd : clean = true → ∀ c ∈ w, ¬ Dropped P c) {o r d : WStr} {c x y z : Nat} (h1 : OneMark o r)
    (hp : prepared P clean cjk w = o ++ [c]) (hq : decomposed P clean cjk w = r ++ x :: y :: z :: d) (hne : c ≠ x)
    (hz : P.isNSM z = true) :
    (Normalizer.bert clean cjk strip lower).run P (NS.ofText w) = .error (.ub .outOfBounds) := by
  obtain ⟨hk, hle⟩ := ac_oneMark_count h1 c x (y :: z :: d) hne
  refine (C96_accents P clean cjk strip lower hsl w hd (r.length - o.length + 1) (by rw [hp, hq]; exact hk)).2 fun hall => ?_
  have hm : MarkAt P (decomposed P clean cjk w) (r.length + 2) := by
    refine ⟨z, ?_, hz⟩
    rw [hq, List.getElem?_append_right (by omega)]
    have : r.length + 2 - r.length = 2 := by omega
    rw [this]; rfl
  have hj := hall _ hm
  have hu : (w.map unitsOf).sum = w.length := by
    clear hall hm hj hp hq hk
    induction w with
    | nil => rfl
    | cons a w ih =>
      have ha := (hb a (by simp)).2
      have hu : unitsOf a = 1 := by unfold unitsOf; rw [if_neg (by omega)]
      simp only [List.map_cons, List.sum_cons, List.length_cons, hu,
        ih (fun c hc => hb c (by simp [hc])) fun e c hc => hd e c (by simp [hc])]
      omega
  have hl : (prepared P clean cjk w).length = o.length + 1 := by rw [hp]; simp
  have hpl := ac_prepared_length P clean cjk w
  rw [hl] at hpl
  rw [hu, hl] at hj
  omega

theorem ac_normalText (P : Platform) (n : Normalizer) {a : AddedVocab} {w w' : WStr} (h0 : w ≠ []) (hb : Bmp w) (hb' : Bmp w')
    (hfree : FlagFree a) (hone : OneId a.nonNormTrie) (hA : ∀ p ∈ a.nonNormTrie, Ascii p.1)
    (hF : ∀ p ∈ a.nonNormTrie ++ a.normTrie, p.1 ≠ [])
    (hu : ∀ v, OrdinaryPiece a w v → ∀ s, n.run P (NS.ofText v) = .ok s → Usable s ∧ ∀ c ∈ s.normalized, c ∈ w') :
    NormalText P n a w w' :=
  ⟨h0, hu, ⟨hb, fun p hp => hF p (List.mem_append_left _ hp), hone, .inl hfree⟩,
    ⟨hb, .inl fun i t h => (hfree i t h).2⟩, ⟨hb', .inl fun i t h => (hfree i t h).2⟩, hA, hF⟩

theorem ac_piece {a : AddedVocab} {w v : WStr} (h : OrdinaryPiece a w v) : ∀ c ∈ v, c ∈ w := by
  obtain ⟨cuts, x, y, -, -, rfl⟩ := h
  intro c hc
  exact List.mem_of_mem_drop (List.mem_of_mem_take hc)

/-- **C73 with accents** (partial: added tokens without flags, text up to U+FFFF).  With a BERT normalizer that strips
accents and a WordPiece model, `encode` returns on every text whose ordinary pieces have at most one accent per character,
no character that is dropped, and are not made of marks only. -/
theorem C73_accents_partial (P : Platform) (t : Tokenizer) (a : AddedVocab) (clean cjk strip lower b : Bool)
    (hsl : strip = true ∨ lower = true) (w w' : WStr) (h0 : w ≠ []) (hb : Bmp w) (hb' : Bmp w')
    (hd : clean = true → ∀ c ∈ w, ¬ Dropped P c)
    (h1 : ∀ v, OrdinaryPiece a w v → OneMark (prepared P clean cjk v) (decomposed P clean cjk v) ∧
      stripped P lower (decomposed P clean cjk v) ≠ [] ∧ ∀ c ∈ stripped P lower (decomposed P clean cjk v), c ∈ w')
    (ha : t.added = some a) (hn : t.normalizer = some (.bert clean cjk strip lower)) (hfree : FlagFree a)
    (hone : OneId a.nonNormTrie) (hA : ∀ p ∈ a.nonNormTrie, Ascii p.1) (hF : ∀ p ∈ a.nonNormTrie ++ a.normTrie, p.1 ≠ [])
    (hpt : ∀ pt, t.preTokenizer = some pt → SafePre P (w ++ w') pt) (hend : SafeEnd t)
    (hm : t.model = none ∨ ∃ m, t.model = some (.wordPiece m)) : ∃ e, (t.encode P w b).1 = .ok e := by
  have key : ∀ v, OrdinaryPiece a w v → ∃ s, (Normalizer.bert clean cjk strip lower).run P (NS.ofText v) = .ok s ∧
      s.normalized = stripped P lower (decomposed P clean cjk v) ∧ (s.normalized ≠ [] → Usable s) := fun v hv =>
    C96_one_accent P clean cjk strip lower hsl v (bmp_sub hb (ac_piece hv)) (fun e c hc => hd e c (ac_piece hv c hc)) (h1 v hv).1
  refine (C73_normalized_partial P t _ a w w' b ha hn (ac_normalText P _ h0 hb hb' hfree hone hA hF ?_) hpt hend hm).1 ?_
  · intro v hv s hs
    obtain ⟨s', e1, e2, e3⟩ := key v hv
    rw [hs] at e1; cases e1
    refine ⟨e3 ?_, ?_⟩
    · rw [e2]; exact (h1 v hv).2.1
    · rw [e2]; exact (h1 v hv).2.2
  · intro v hv
    obtain ⟨s', e1, -⟩ := key v hv
    exact ⟨s', e1⟩

/-- **C73 is violated** by all texts of this kind: a text in which no added token is recognized and that ends in a letter with two accents
is not encoded, by any tokenizer with this normalizer. -/
theorem C73_violated_accents (P : Platform) (t : Tokenizer) (a : AddedVocab) (clean cjk strip lower b : Bool)
    (hsl : strip = true ∨ lower = true) (w : WStr) (h0 : w ≠ []) (hb : Bmp w) (hd : clean = true → ∀ c ∈ w, ¬ Dropped P c)
    {o r d : WStr} {c x y z : Nat} (h1 : OneMark o r) (hp : prepared P clean cjk w = o ++ [c])
    (hq : decomposed P clean cjk w = r ++ x :: y :: z :: d) (hne : c ≠ x) (hz : P.isNSM z = true)
    (ha : t.added = some a) (hn : t.normalizer = some (.bert clean cjk strip lower)) (hfree : FlagFree a)
    (hone : OneId a.nonNormTrie) (hA : ∀ p ∈ a.nonNormTrie, Ascii p.1) (hF : ∀ p ∈ a.nonNormTrie ++ a.normTrie, p.1 ≠ [])
    (hrec : ∀ x y i, ¬ Recognized a.nonNormTrie w x y i) : ¬ ∃ e, (t.encode P w b).1 = .ok e := by
  rintro ⟨e, he⟩
  have hbad := C96_two_accents P clean cjk strip lower hsl w hb hd h1 hp hq hne hz
  have hord := ordinary_whole hfree h0 hrec
  obtain ⟨q, _, ⟨p, hp, _⟩, _, _⟩ := encode_ok he
  obtain ⟨cuts, hc, hr⟩ := preTokenized_runs P ha hn (ac_normalText P _ h0 hb hb hfree hone hA hF (by
    intro v hv s hs
    rw [(hord v).1 hv, hbad] at hs
    cases hs)) hp
  obtain ⟨cuts', x', y', hc', hm, hv⟩ := (hord w).2 rfl
  rw [C85_unique hfree hc' hc] at hm
  obtain ⟨s, hs⟩ := hr x' y' hm
  rw [← hv, hbad] at hs
  cases hs

/-! ### Cases -/

/-- An uncased BERT tokenizer (on `accentPlatform` "é" and "ǖ" are decomposed, as in Unicode). -/
def frenchTk : Tokenizer :=
  { added := some (AddedVocab.init []), normalizer := some (.bert true true true true),
    preTokenizer := some .bert, model := some (.wordPiece ⟨[(b!"[UNK]", 0), (b!"cafe", 1), (b!"##s", 2)], b!"[UNK]", 100, b!"##"⟩) }

theorem french_ok : OneMark (prepared accentPlatform true true w!"café cafés") (decomposed accentPlatform true true w!"café cafés") := by
  have e1 : prepared accentPlatform true true w!"café cafés" = w!"café cafés" := by decide +kernel
  have e2 : decomposed accentPlatform true true w!"café cafés" =
      [0x63, 0x61, 0x66, 0x65, 0x301, 0x20, 0x63, 0x61, 0x66, 0x65, 0x301, 0x73] := by decide +kernel
  rw [e1, e2]
  exact .same _ (.same _ (.same _ (.accent _ _ (by decide) (by decide) (.same _ (.same _ (.same _ (.same _
    (.accent _ _ (by decide) (by decide) (.same _ .nil)))))))))

-- one accent per letter: the text is normalized and encoded
example : ∃ s, (Normalizer.bert true true true true).run accentPlatform (NS.ofText w!"café cafés") = .ok s ∧
    s.normalized = w!"cafe cafes" := by
  obtain ⟨s, h1, h2, -⟩ := C96_one_accent accentPlatform true true true true (.inl rfl) w!"café cafés"
    (by unfold Bmp Scalar; decide) (by unfold Dropped; decide +kernel) french_ok
  exact ⟨s, h1, by rw [h2]; decide +kernel⟩
example (b : Bool) : ∃ e, (frenchTk.encode accentPlatform w!"café cafés" b).1 = .ok e := by
  have hfree : FlagFree (AddedVocab.init []) := by intro i t h; simp [AddedVocab.init, mapFind] at h
  refine C73_accents_partial accentPlatform frenchTk _ true true true true b (.inl rfl) w!"café cafés" w!"cafe cafes"
    (by decide) (by unfold Bmp Scalar; decide) (by unfold Bmp Scalar; decide) (by unfold Dropped; decide +kernel) ?_ rfl rfl hfree
    (by intro k i j h; cases h) (by simp [AddedVocab.init]) (by simp [AddedVocab.init]) ?_ ?_ (.inr ⟨_, rfl⟩)
  · intro v hv
    rw [(ordinary_whole hfree (by decide) (nothing_recognized rfl _) v).1 hv]
    have e : stripped accentPlatform true (decomposed accentPlatform true true w!"café cafés") = w!"cafe cafes" := by decide +kernel
    exact ⟨french_ok, by rw [e]; decide, by rw [e]; exact fun c h => h⟩
  · intro pt h
    cases h
    exact .cuts trivial
  · exact ⟨by simp [frenchTk], by simp [frenchTk, Specials], by simp [frenchTk]⟩
example : (frenchTk.encode accentPlatform w!"café cafés" true).1.map (·.ids) = .ok [1, 1, 2] := by decide +kernel

-- two accents on the last letter: undefined behaviour (the hypotheses of `C73_violated_accents` are met)
example (b : Bool) : ¬ ∃ e, (frenchTk.encode accentPlatform w!"éaǖ" b).1 = .ok e := by
  have hfree : FlagFree (AddedVocab.init []) := by intro i t h; simp [AddedVocab.init, mapFind] at h
  exact C73_violated_accents accentPlatform frenchTk _ true true true true b (.inl rfl) w!"éaǖ" (by decide)
    (by unfold Bmp Scalar; decide) (by unfold Dropped; decide +kernel) (o := w!"éa") (r := [0x65, 0x301, 0x61]) (d := [])
    (c := 0x1D6) (x := 0x75) (y := 0x308) (z := 0x304) (.accent _ _ (by decide) (by decide) (.same _ .nil)) (by decide +kernel)
    (by decide +kernel) (by decide) (by decide +kernel) rfl rfl hfree (by intro k i j h; cases h) (by simp [AddedVocab.init])
    (by simp [AddedVocab.init]) (nothing_recognized rfl _)

-- `C96_accents` decides both ways: "ǖa" returns (three units of table and two differences), "aǖ" does not
example : (∃ s, (Normalizer.bert false false true false).run accentPlatform (NS.ofText w!"ǖa") = .ok s ∧ s.normalized = w!"ua") ∧
    (Normalizer.bert false false true false).run accentPlatform (NS.ofText w!"aǖ") = .error (.ub .outOfBounds) := by
  have m1 : Mismatches w!"ǖa" [0x75, 0x308, 0x304, 0x61] 2 := .differ (by decide) (.differ (by decide) (.textEnds _))
  have m2 : Mismatches w!"aǖ" [0x61, 0x75, 0x308, 0x304] 1 := .equal _ (.differ (by decide) (.textEnds _))
  constructor
  · obtain ⟨s, h1, h2⟩ := (C96_accents accentPlatform false false true false (.inl rfl) w!"ǖa" (by simp) 2 m1).1 (by
      rintro j ⟨c, hc, -⟩
      have := (List.getElem?_eq_some_iff.1 hc).1
      exact this)
    exact ⟨s, h1, by rw [h2]; decide +kernel⟩
  · refine (C96_accents accentPlatform false false true false (.inl rfl) w!"aǖ" (by simp) 1 m2).2 fun h => ?_
    have := h 3 ⟨0x304, rfl, by decide +kernel⟩
    exact absurd this (by decide +kernel)

end Tok
