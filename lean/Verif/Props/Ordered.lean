import Verif.Proofs.Ordered
import Verif.Spec.Ordered
import Verif.Props.Located
import Verif.Props.ByteLevel

set_option autoImplicit false

/-!
C88: the offsets of an encoding are in order.
-/

namespace Tok
open Spec

theorem Laid.each {w : WStr} {a e : Nat} {l m : List Split} (h : Laid w a e l)
    (hE : Each (fun s s' => s'.normalized = s.normalized ∧ s'.offsets = s.offsets) l m) : Laid w a e m := by
  induction h generalizing m with
  | nil h => cases hE; exact .nil h
  | cons h1 h2 h3 _ ih =>
    cases hE with
    | cons hs hE =>
      refine .cons (by rw [hs.2]; exact h1) (by rw [hs.2]; exact h2) ?_ (ih hE)
      unfold HasText at h3 ⊢; rw [hs.1]; exact h3

theorem od_token {len : Nat} {l : List (Nat × Nat)} : ∀ {c : Nat}, Ordered len c l →
    (∀ o ∈ l, c ≤ o.1 ∧ o.1 ≤ o.2 ∧ o.2 ≤ len) ∧ l.Pairwise (fun o o' => o.2 ≤ o'.1) ∧ c ≤ len := by
  induction l with
  | nil => intro c h; exact ⟨by simp, .nil, h⟩
  | cons x l ih =>
    intro c h
    obtain ⟨x1, x2⟩ := x
    obtain ⟨h1, h2, h3⟩ := h
    obtain ⟨g1, g2, g3⟩ := ih h3
    refine ⟨?_, ?_, by omega⟩
    · intro o ho
      rcases List.mem_cons.1 ho with rfl | ho
      · exact ⟨h1, h2, g3⟩
      · have := g1 o ho; omega
    · exact List.pairwise_cons.2 ⟨fun o ho => (g1 o ho).1, g2⟩

theorem od_rows {ns : NS} (hp : Points ns) {k : Nat} {l : List Split} {rows : List Row} (h : TextRows ns k l rows)
    {w : WStr} : ∀ {a e : Nat}, Laid w a e l →
    (∀ s ∈ l, ∀ v, Spec.Located w s → HasText s v → (∀ c ∈ v, c ∈ w) → Ordered (units v) 0 (s.tokens.map (·.offsets))) →
    rows.Pairwise (fun r r' => r.offsets.2 ≤ r'.offsets.1) ∧
    ∀ r ∈ rows, (a : Int) ≤ r.offsets.1 ∧ r.offsets.1 ≤ r.offsets.2 ∧ r.offsets.2 ≤ e := by
  induction h with
  | nil => intro a e _ _; exact ⟨.nil, by simp⟩
  | @cons k s l rows g o h1 h2 _ ih =>
    intro a e hl ht
    cases hl with
    | @cons _ b _ _ v _ l1 l2 l3 l4 =>
      obtain ⟨i1, i2⟩ := ih l4 fun s hs => ht s (by simp [hs])
      have hb : b = s.offsets.1 + units v := by obtain ⟨_, _, _, e1, rfl⟩ := l2; omega
      have ho := hp _ _ _ h1 h2
      have hord := ht s (by simp) v ⟨b, v, l2, l3⟩ l3 (by
        obtain ⟨x, y, rfl, _⟩ := l2; intro c hc; simp [hc])
      obtain ⟨t1, t2, _⟩ := od_token hord
      have hle := l4.le
      have key : ∀ r ∈ s.tokens.map (textRow k o.1), (a : Int) ≤ r.offsets.1 ∧ r.offsets.1 ≤ r.offsets.2 ∧ r.offsets.2 ≤ b := by
        intro r hr
        obtain ⟨tk, htk, rfl⟩ := List.mem_map.1 hr
        have := t1 _ (List.mem_map_of_mem htk)
        simp only [textRow, ho]
        omega
      refine ⟨List.pairwise_append.2 ⟨?_, i1, ?_⟩, ?_⟩
      · rw [List.pairwise_map] at t2 ⊢
        refine t2.imp ?_
        intro x y hxy
        simp only [textRow]; omega
      · intro r hr r' hr'
        have := key r hr; have := i2 r' hr'; omega
      · intro r hr
        rcases List.mem_append.1 hr with hr | hr
        · have := key r hr; omega
        · have := i2 r hr; omega

theorem od_good {q : Prop} {text : List Row} {S : List SpecialToken} {pad : Option Padding} {n : Nat}
    (h1 : text.Pairwise (fun r r' => r.offsets.2 ≤ r'.offsets.1))
    (h2 : ∀ r ∈ text, (0 : Int) ≤ r.offsets.1 ∧ r.offsets.1 ≤ r.offsets.2 ∧ r.offsets.2 ≤ n)
    {once : Prop} (hO : once) {x : Enc} (hx : Good q once text S pad x) : InOrder n x := by
  obtain ⟨rows, ⟨_, _, _, _, ho, hs, _⟩, _, hpart⟩ := hx
  obtain ⟨part, hsub, hE⟩ := hpart hO
  have hpw : (contentRows rows).Pairwise (fun r r' => r.offsets.2 ≤ r'.offsets.1) := by
    have hb : ∀ r ∈ part, r.offsets.1 ≤ r.offsets.2 := fun r hr => (h2 r (hsub.subset hr)).2.1
    have h1' := h1.sublist hsub.sublist
    clear hsub h1 h2 hpart
    generalize contentRows rows = cr at hE
    induction hE with
    | nil => exact .nil
    | @cons a b l m hab hE ih =>
      rw [List.pairwise_cons] at h1'
      refine List.pairwise_cons.2 ⟨?_, ih (fun r hr => hb r (by simp [hr])) h1'.2⟩
      intro r hr
      obtain ⟨r0, hr0, hro⟩ := each_mem_right hE r hr
      have g1 := h1'.1 r0 hr0
      have g2 := hab.2.2.2.2.2.1 (hb a (by simp))
      have g3 := hro.2.2.2.2.2.1 (hb r0 (by simp [hr0]))
      omega
  have hin : ∀ r ∈ contentRows rows, (0 : Int) ≤ r.offsets.1 ∧ r.offsets.1 ≤ r.offsets.2 ∧ r.offsets.2 ≤ n := by
    intro r hr
    obtain ⟨r0, hr0, hro⟩ := each_mem_right hE r hr
    have g := h2 r0 (hsub.subset hr0)
    have g3 := hro.2.2.2.2.2.1 g.2.1
    omega
  have row : ∀ (i : Nat) (o : Int × Int), x.specialTokensMask[i]? = some 0 → x.offsets[i]? = some o →
      ∃ r, rows[i]? = some r ∧ r.special = 0 ∧ r.offsets = o := by
    intro i o hi hoi
    rw [hs, List.getElem?_map, Option.map_eq_some_iff] at hi
    obtain ⟨r, hr, h0⟩ := hi
    rw [ho, List.getElem?_map, hr] at hoi
    exact ⟨r, hr, h0, Option.some.inj hoi⟩
  constructor
  · intro i o hi hoi
    obtain ⟨r, hr, h0, rfl⟩ := row i o hi hoi
    exact hin r (by unfold contentRows; rw [List.mem_filter]; exact ⟨List.mem_of_getElem? hr, by simp [h0]⟩)
  · intro i j o o' hij hi hj hoi hoj
    obtain ⟨r, hr, h0, rfl⟩ := row i o hi hoi
    obtain ⟨r', hr', h0', rfl⟩ := row j o' hj hoj
    unfold contentRows at hpw
    rw [List.pairwise_filter] at hpw
    obtain ⟨hi', rfl⟩ := List.getElem?_eq_some_iff.1 hr
    obtain ⟨hj', rfl⟩ := List.getElem?_eq_some_iff.1 hr'
    exact (List.pairwise_iff_getElem.1 hpw) i j hi' hj' hij (by simpa using h0) (by simpa using h0')

/-- Whatever the model: if the tokens of every pre-token are in order within the pre-token, the offsets of the encoding
(and of its overflowing windows) are in order. -/
theorem od_encode (P : Platform) (t : Tokenizer) (w : WStr) (b : Bool) (e : Encoding)
    (hS : ∀ s ∈ Specials t, s.ids.length = s.tokens.length) (hO : ∀ p, t.postProcessor = some p → SequenceOnce p)
    (hw : Positioned t w) (hpt : ∀ pt, t.preTokenizer = some pt → OnlyCuts P pt)
    (hm : ∀ m p q, t.model = some m → (t.preTokenized P w).1 = .ok p → (m.tokenize P p).1 = .ok q → q.normalized = p.normalized ∧
      Each (fun s s' => s'.normalized = s.normalized ∧ s'.offsets = s.offsets ∧
        ∀ v, HasText s v → (∀ c ∈ v, c ∈ w) → Ordered (units v) 0 (s'.tokens.map (·.offsets))) p.splits q.splits)
    (hno : t.model ≠ none)
    (h : (t.encode P w b).1 = .ok e) : ∀ x, x = e.toEnc ∨ x ∈ e.overflowing → InOrder (units w) x := by
  obtain ⟨q, text, ⟨p, hp, hq⟩, ht, g1, g2⟩ := encode_rows hS h
  obtain ⟨m, hmod⟩ : ∃ m, t.model = some m := by
    cases hh : t.model with
    | none => exact absurd hh hno
    | some m => exact ⟨m, rfl⟩
  rw [hmod] at hq
  obtain ⟨e1, e2⟩ := hm m p q hmod hp hq
  have hpts := (preTokenized_located P t w p hw hpt hp).1
  have hl := (preTokenized_laid P t w p hw hpt hp).each (Each.imp (fun _ _ h => ⟨h.1, h.2.1⟩) e2)
  obtain ⟨r1, r2⟩ := od_rows (by rw [e1]; exact hpts) ht hl (by
    intro s hs v _ hv hc
    obtain ⟨s0, _, k1, _, k3⟩ := each_mem_right e2 s hs
    exact k3 v (by unfold HasText at hv ⊢; rw [← k1]; exact hv) hc)
  rintro x (rfl | hx)
  · exact od_good r1 r2 hO g1
  · exact od_good r1 r2 hO (g2 x hx)

theorem od_tiles {l : List (Nat × Nat)} {a b n : Nat} (h : Tiles a l b) (hb : b ≤ n) : Ordered n a l := by
  induction l generalizing a with
  | nil => simp only [Tiles] at h; simp only [Ordered]; omega
  | cons x l ih =>
    obtain ⟨x1, x2⟩ := x
    simp only [Tiles] at h
    exact ⟨by omega, h.2.1, ih h.2.2⟩

theorem od_wordPiece (m : WordPiece) {s : Str} {v : WStr} (hv : Utf8Text v s) :
    Ordered (units v) 0 ((m.word s).map (·.offsets)) := by
  by_cases h : v = []
  · subst h
    obtain ⟨_, rfl⟩ := utf8Text_iff.1 hv
    have e : fromUTF8 (utf8 []) = [] := rfl
    unfold WordPiece.word
    simp only [e, List.length_nil]
    split
    · unfold WordPiece.unk; split <;> simp [Ordered, units]
    · simp [WordPiece.loop, Ordered, units]
  · exact od_tiles (C10_offsets_tile m s v hv h).1 (Nat.le_refl _)

/-- **C88** for WordPiece (partial: see `Positioned`, `OnlyCuts`): the offsets of the tokens of the text lie in the text
and follow each other without overlap, also when offsets are trimmed, and in every overflowing window. -/
theorem C88_wordPiece_partial (P : Platform) (t : Tokenizer) (m : WordPiece) (w : WStr) (b : Bool) (e : Encoding)
    (hS : ∀ s ∈ Specials t, s.ids.length = s.tokens.length) (hO : ∀ p, t.postProcessor = some p → SequenceOnce p)
    (hw : Positioned t w) (hpt : ∀ pt, t.preTokenizer = some pt → OnlyCuts P pt) (hm : t.model = some (.wordPiece m))
    (h : (t.encode P w b).1 = .ok e) : ∀ x, x = e.toEnc ∨ x ∈ e.overflowing → InOrder (units w) x := by
  refine od_encode P t w b e hS hO hw hpt ?_ (by rw [hm]; simp) h
  intro m' p q hm' _ hr
  rw [hm] at hm'; cases hm'
  simp only [Model.tokenize] at hr
  cases hr
  obtain ⟨h1, h2⟩ := wordPiece_splits m p
  refine ⟨h1, Each.imp ?_ h2⟩
  rintro s s' ⟨k1, k2, k3⟩
  refine ⟨k1, k2, fun v hv _ => ?_⟩
  rw [k3]; exact od_wordPiece m hv

theorem od_bpe (P : Platform) {lines : List Str} {m : BPE} (hm : Made lines m) (hfb : m.byteFallback = false ∨ (m.pre = [] ∧ m.suf = [])) {s : Str}
    (hfit : Fits m s) {ts : List Token} (h : (m.word P s).1 = .ok ts) : Ordered s.length 0 (ts.map (·.offsets)) := by
  by_cases hd : Direct m s
  · obtain ⟨i, h'⟩ := C17_violated P hm s hd
    rw [h] at h'; cases h'
    simp [Ordered]
  · by_cases hy : ∃ i, i < s.length ∧ Yields (tokenToId m.vocab) m.pre m.suf m.unkToken m.byteFallback s i
    · obtain ⟨ts', h1, _, h3, _⟩ := word_spec P hm s hy hfit hd
      rw [h] at h1; cases h1
      refine od_tiles h3 ?_
      rw [pieces_sum (initial_symList m s)]
      have := sum_le_ones (l := (foundAll (tokenToId m.vocab) m.pre m.suf m.byteFallback s).map (counted (unknownId m))) (by
        intro n hn
        simp only [foundAll, List.map_map, List.mem_map, List.mem_range, Function.comp] at hn
        obtain ⟨i, _, rfl⟩ := hn
        exact counted_le _ _ _ _ _ _ hfb i)
      simpa [foundAll] using this
    · rw [C23_violated P hm s (fun i hi h => hy ⟨i, hi, h⟩) hd] at h
      cases h

/-- **C88** for byte-pair encoding (partial: ASCII text, no byte fallback or no affixes; see also `Positioned`, `OnlyCuts`), whatever
the vocabulary, the merges and the unknown token, and whatever was encoded before. -/
theorem C88_bpe_partial (P : Platform) (t : Tokenizer) {lines : List Str} {m : BPE} (hm : Made lines m) (before : List PTS)
    (w : WStr) (b : Bool) (e : Encoding) (hmod : t.model = some (.bpe (usedBPE P m before)))
    (hS : ∀ s ∈ Specials t, s.ids.length = s.tokens.length) (hO : ∀ p, t.postProcessor = some p → SequenceOnce p)
    (hw : Positioned t w) (hasc : Ascii w) (hpt : ∀ pt, t.preTokenizer = some pt → OnlyCuts P pt)
    (hfb : m.byteFallback = false ∨ (m.pre = [] ∧ m.suf = [])) (hfit : ∀ v, v.length ≤ w.length → Fits m v) (h : (t.encode P w b).1 = .ok e) :
    ∀ x, x = e.toEnc ∨ x ∈ e.overflowing → InOrder (units w) x := by
  obtain ⟨q0, hq0⟩ := encode_ok h
  refine od_encode P t w b e hS hO hw hpt ?_ (by rw [hmod]; simp) h
  intro m' p q hm' hp hr
  rw [hmod] at hm'; cases hm'
  obtain ⟨h1, h2⟩ := (bpe_tokenize P hm before p q).1 hr
  have hl := (preTokenized_located P t w p hw hpt hp).2
  refine ⟨h1, Each.imp_mem ?_ h2⟩
  rintro s s' hs - ⟨k1, k2, k3⟩
  refine ⟨k1, k2, fun v hv hc => ?_⟩
  have hav : Ascii v := fun c h => hasc c (hc c h)
  have hsv : s.normalized = v := utf8Text_ascii hv hav
  rw [units_ascii hav]
  obtain ⟨b', v', hpart, htx⟩ := hl s hs
  have hlen : v.length ≤ w.length := by
    have : v' = v := by
      have hav' : Ascii v' := by
        obtain ⟨l, r, rfl, _⟩ := hpart
        exact fun c hc => hasc c (by simp [hc])
      rw [← hsv, utf8Text_ascii htx hav']
    subst this
    obtain ⟨l, r, rfl, _⟩ := hpart
    simp only [List.length_append]; omega
  rw [← hsv] at hlen ⊢
  exact od_bpe P hm hfb (hfit _ hlen) k3

/-! ### Examples -/

/-- BERT-like, without added vocabulary, with truncation, trimming and padding. -/
def orderTk : Tokenizer := { bertLike (some (cut 3)) (some (.byteLevel true true)) (some (padTo 6)) with added := none }

/-- The call returns an encoding and an overflowing window with these offsets … -/
example : (orderTk.encode ascii w!"playing, go 😀" true).1.map (fun e => (e.specialTokensMask, e.offsets, e.overflowing.map (·.offsets))) =
    .ok ([0, 0, 0, 1, 1, 1], [(0, 4), (4, 7), (7, 8), (0, 0), (0, 0), (0, 0)],
      [[(7, 8), (9, 11), (12, 14), (0, 0), (0, 0), (0, 0)]]) := by
  decide +kernel

/-- … and the hypotheses of `C88_wordPiece_partial` are met. -/
example (e : Encoding) (h : (orderTk.encode ascii w!"playing, go 😀" true).1 = .ok e) :
    ∀ x, x = e.toEnc ∨ x ∈ e.overflowing → InOrder 14 x := by
  refine C88_wordPiece_partial ascii orderTk _ w!"playing, go 😀" true e (by simp [Specials, orderTk, bertLike, specialsOf]) ?_ ?_ ?_ rfl h
  · intro p hp; cases hp; trivial
  · show ∀ c ∈ _, Scalar c
    unfold Scalar; decide
  · intro p h; cases h; exact True.intro

/-- The hypotheses of `C88_bpe_partial`: unknown characters are dropped. -/
example (e : Encoding) (h : ((abcTk [] false .bert).encode ascii w!"aab zbc a" true).1 = .ok e) :
    ∀ x, x = e.toEnc ∨ x ∈ e.overflowing → InOrder 9 x := by
  refine C88_bpe_partial ascii (abcTk [] false .bert) abcBPE_made [] w!"aab zbc a" true e rfl (by simp [Specials, abcTk]) ?_ ?_ ?_ ?_ (.inl rfl) ?_ h
  · intro p hp; cases hp
  · show ∀ c ∈ _, Scalar c
    unfold Scalar; decide
  · unfold Ascii; decide
  · intro p h; cases h; exact True.intro
  · intro v hv
    have : v.length ≤ 9 := hv
    simp only [Fits, abcBPE, List.length_nil]; omega

/-- **C88** is violated by byte-pair encoding for text that is not ASCII: offsets count bytes within a pre-token, so the
last byte of `é` overlaps the comma (three UTF-16 units in all), and lies outside the text if nothing follows. -/
theorem C88_violated :
    placesOf (abcTk [([0xC3], 5), ([0xA9], 6), (b!",", 7)] false .bert) w!"é,a" =
      .ok [([0xC3], (0, 1)), ([0xA9], (1, 2)), (b!",", (1, 2)), (b!"a", (2, 3))] ∧
    placesOf (abcTk [([0xC3], 5), ([0xA9], 6), (b!",", 7)] false .bert) w!"é" = .ok [([0xC3], (0, 1)), ([0xA9], (1, 2))] := by
  refine ⟨?_, ?_⟩ <;> decide +kernel

end Tok
