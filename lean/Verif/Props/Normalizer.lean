import Verif.Proofs.Normalizer
import Verif.Sample

set_option autoImplicit false

/-!
Normalizers: C54 (BERT cleaning, CJK padding), C55 (offset table), C56 (Strip), C65 (memory
safety), C66 (Prepend), C67 (Replace).
-/

namespace Tok
open Spec

/-! ### C54 -/

/-- **C54** (cleaning).  Whenever cleaning returns, whatever the table looked like before, NUL,
U+FFFD and control characters are gone, white space has become U+0020 and the rest is kept. -/
theorem C54_clean_value (P : Platform) {s s' : NS} (h : doCleanText P s = .ok s') :
    Cleaned (Dropped P) (Blank P) s.normalized s'.normalized := by
  unfold doCleanText at h
  obtain ⟨⟨r, s1⟩, h1, h⟩ := res_bind_ok.1 h
  obtain ⟨_, w', h2, h3⟩ := cleanLoop_value P _ _ _ _ _ h1
  cases h
  simp at h2
  rw [show r = w' from h2]
  exact h3

/-- The specification determines the cleaned text. -/
theorem C54_clean_unique {d b : Nat → Prop} {w x y : WStr} (h1 : Cleaned d b w x) (h2 : Cleaned d b w y) : x = y :=
  cleaned_unique h1 h2

/-- **C54** (cleaning returns: exactly when, on ASCII text).  A dropped character with `k` dropped
characters before it must be followed by enough text: its position plus `2 * k` must be inside the
text; otherwise the call is undefined behaviour. -/
theorem C54_clean_returns (P : Platform) {w : WStr} (h : Ascii w) :
    ((∃ s', doCleanText P (NS.ofText w) = .ok s') ↔
      ∀ (A B : WStr) (c : Nat), w = A ++ c :: B → Dropped P c →
        A.length + 2 * (A.filter fun a => decide (Dropped P a)).length < w.length) ∧
    ((∃ s', doCleanText P (NS.ofText w) = .ok s') ∨
      doCleanText P (NS.ofText w) = .error (.ub .outOfBounds)) := by
  have hr := cleanLoop_returns P w.length w 0 0 [] (NS.ofText w) (ofText_cleanTab h)
  have hn : (NS.ofText w).normalized = w := rfl
  have he : (∃ s', doCleanText P (NS.ofText w) = .ok s') ↔ ∃ r, cleanLoop P w 0 [] (NS.ofText w) = .ok r := by
    unfold doCleanText
    rw [hn]
    constructor
    · rintro ⟨s', hs⟩
      obtain ⟨r, hr, _⟩ := res_bind_ok.1 hs
      exact ⟨r, hr⟩
    · rintro ⟨r, hr⟩
      exact ⟨{ r.2 with normalized := r.1 }, by rw [hr]; rfl⟩
  refine ⟨?_, ?_⟩
  · rw [he, hr.1]
    simp [numDropped]
  · rcases hr.2 with h' | h'
    · exact .inl (he.2 h')
    · refine .inr ?_
      unfold doCleanText
      rw [hn, h']; rfl

/-- **C54** (cleaning, at most one dropped character): always returns, for every text. -/
theorem C54_clean_one (P : Platform) {A B : WStr} {c : Nat} (hA : ∀ a ∈ A, ¬ Dropped P a)
    (hB : ∀ b ∈ B, ¬ Dropped P b) : ∃ s', doCleanText P (NS.ofText (A ++ c :: B)) = .ok s' := by
  have hkeep : ∀ (w : WStr) (i : Nat) (acc : WStr) (s : NS), (∀ a ∈ w, ¬ Dropped P a) →
      ∃ r, ∀ rest, cleanLoop P (w ++ rest) i acc s = cleanLoop P rest (i + w.length) r s := by
    intro w
    induction w with
    | nil => intro i acc s _; exact ⟨acc, fun _ => rfl⟩
    | cons a w ih =>
      intro i acc s hw
      have ha : a ≠ 0 ∧ a ≠ 0xFFFD ∧ isControlW P a = false :=
        Decidable.byContradiction fun h' => hw a (by simp) (dropped_iff.2 h')
      obtain ⟨r, hr⟩ := ih (i + 1) (acc ++ [if isWhitespaceW P a then 0x20 else a]) s
        (fun b hb => hw b (by simp [hb]))
      refine ⟨r, fun rest => ?_⟩
      simp only [List.cons_append, cleanLoop, if_pos ha]
      rw [hr rest]; congr 1; simp; omega
  have hfin : ∀ s, ∀ i acc, ∃ r, cleanLoop P B i acc s = .ok r := by
    intro s i acc
    obtain ⟨r, hr⟩ := hkeep B i acc s hB
    exact ⟨(r, s), by have := hr []; simpa [cleanLoop] using this⟩
  have hn : (NS.ofText (A ++ c :: B)).normalized = A ++ c :: B := rfl
  obtain ⟨r, hr⟩ := hkeep A 0 [] (NS.ofText (A ++ c :: B)) hA
  have hloop : ∃ q, cleanLoop P (A ++ c :: B) 0 [] (NS.ofText (A ++ c :: B)) = .ok q := by
    rw [hr]
    by_cases hc : Dropped P c
    · simp only [cleanLoop, if_neg (dropped_iff.1 hc)]
      have ht := ofText_tab (A ++ c :: B)
      have hl : A.length < (unitLens (fromUTF32 (A ++ c :: B))).length := by
        have := fromUTF32_length_ge (A ++ c :: B)
        simp at this ⊢; omega
      generalize unitLens (fromUTF32 (A ++ c :: B)) = lens at ht hl
      generalize NS.ofText (A ++ c :: B) = s at ht
      have hg : s.ranges[0 + A.length]? = some ((lens.take A.length).sum, lens[A.length]) := by
        rw [Nat.zero_add, ht.ranges, mkRanges_get, List.getElem?_eq_getElem hl]; simp
      have hsum : (lens.take A.length).sum + lens[A.length] ≤ s.offsets.length := by
        rw [ht.offsets]
        have h1 : lens = lens.take A.length ++ lens[A.length] :: lens.drop (A.length + 1) := by
          rw [List.getElem_cons_drop, List.take_append_drop]
        have h2 := congrArg List.sum h1
        rw [List.sum_append, List.sum_cons] at h2
        omega
      have hr2 : A.length < s.ranges.length := by rw [ht.ranges]; simpa using hl
      obtain ⟨s', hs'⟩ : ∃ s', s.transform (0 + A.length) .erase 0 = .ok s' := by
        simp only [NS.transform, vecAt, hg, res_ok_bind, eraseRange]
        rw [if_pos (by omega), if_pos (by omega)]
        exact ⟨_, rfl⟩
      rw [hs']
      exact hfin s' _ _
    · have ha : c ≠ 0 ∧ c ≠ 0xFFFD ∧ isControlW P c = false :=
        Decidable.byContradiction fun h' => hc (dropped_iff.2 h')
      simp only [cleanLoop, if_pos ha]
      exact hfin _ _ _
  obtain ⟨q, hq⟩ := hloop
  exact ⟨{ q.2 with normalized := q.1 }, by unfold doCleanText; rw [hn, hq]; rfl⟩

/-- **C54 is violated** when two control characters end the text: `"\0\0"` is undefined behaviour
(the table entry of the original position is erased from the already shortened table). -/
theorem C54_violated (P : Platform) : doCleanText P (NS.ofText [0, 0]) = .error (.ub .outOfBounds) := by
  rcases (C54_clean_returns P (w := [0, 0]) (by intro c hc; simp at hc; omega)).2 with h | h
  · have := (C54_clean_returns P (w := [0, 0]) (by intro c hc; simp at hc; omega)).1.1 h [0] [] 0 rfl (.inl rfl)
    have hd : Dropped P 0 := .inl rfl
    simp [hd] at this
  · exact h

-- Cleaning a text with a NUL, a tab and letters.
example : (doCleanText ascii (NS.ofText [0x61, 0, 9, 0x62])).map (·.normalized) = .ok [0x61, 0x20, 0x62] := by
  decide +kernel
example : Dropped ascii 0 ∧ ¬ Dropped ascii 9 ∧ Blank ascii 9 := by
  refine ⟨.inl rfl, ?_, .inl rfl⟩
  simp [Dropped]

/-- **C54** (CJK).  CJK handling of any text returns, and every CJK ideograph — and nothing else —
is surrounded by spaces. -/
theorem C54_cjk (w : WStr) : ∃ s', doHandleChineseChars (NS.ofText w) = .ok s' ∧ CjkPadded w s'.normalized := by
  obtain ⟨s', h1, _, h2⟩ := cjk_returns (ofText_tab w) (by
    have := fromUTF32_length_ge w
    simpa [NS.ofText] using this)
  exact ⟨s', h1, by rw [h2]; exact padText_spec w⟩

/-- **C54** (CJK, after other normalization steps).  Whenever it returns, the text is padded. -/
theorem C54_cjk_value {s s' : NS} (h : doHandleChineseChars s = .ok s') : CjkPadded s.normalized s'.normalized := by
  rw [cjk_value h]; exact padText_spec _

/-- The specification determines the padded text. -/
theorem C54_cjk_unique {w x y : WStr} (h1 : CjkPadded w x) (h2 : CjkPadded w y) : x = y := cjkPadded_unique h1 h2

example : (doHandleChineseChars (NS.ofText [0x61, 0x4E2D, 0x6587])).map (·.normalized)
    = .ok [0x61, 0x20, 0x4E2D, 0x20, 0x20, 0x6587, 0x20] := by decide +kernel
-- an ideograph outside the BMP
example : (doHandleChineseChars (NS.ofText [0x20000])).map (·.normalized) = .ok [0x20, 0x20000, 0x20] := by
  decide +kernel

/-- The beginning of CJK extension E is not treated as CJK (same in the reference implementation). -/
theorem C54_cjk_gap : ∀ c, 0x2B820 ≤ c → c ≤ 0x2B91F → ¬ Cjk c := by
  intro c h1 h2; unfold Cjk; omega

theorem bertNormalize_eq (P : Platform) (a b c d : Bool) (s : NS) :
    bertNormalize P a b c d s =
      ((if a then doCleanText P s else .ok s) >>= fun s => (if b then doHandleChineseChars s else .ok s) >>= fun s =>
        (if c || d then doStripAccents P s else .ok s) >>= fun s => .ok (if d then doLowercase P s else s)) := by
  unfold bertNormalize
  cases a <;> cases b <;> cases c <;> cases d <;> rfl

/-- **C54** (the whole BERT normalizer): the configured steps are applied in this order, whenever
the call returns. -/
theorem C54_bert_steps (P : Platform) (clean cjk accents lower : Bool) {s s' : NS}
    (h : (Normalizer.bert clean cjk accents lower).run P s = .ok s') :
    ∃ a b c : WStr,
      (if clean then Cleaned (Dropped P) (Blank P) s.normalized a else a = s.normalized) ∧
      (if cjk then CjkPadded a b else b = a) ∧
      c = (if accents || lower then (P.nf .nfd (b.map sanitize)).filter (fun x => !P.isNSM x) else b) ∧
      s'.normalized = if lower then c.map P.towlower else c := by
  simp only [Normalizer.run, bertNormalize_eq] at h
  obtain ⟨s1, h1, h⟩ := res_bind_ok.1 h
  obtain ⟨s2, h2, h⟩ := res_bind_ok.1 h
  obtain ⟨s3, h3, h⟩ := res_bind_ok.1 h
  refine ⟨s1.normalized, s2.normalized, s3.normalized, ?_, ?_, ?_, ?_⟩
  · cases clean
    · cases h1; rfl
    · exact C54_clean_value P h1
  · cases cjk
    · cases h2; rfl
    · exact C54_cjk_value h2
  · split at h3
    · rename_i hb
      simp only [hb, if_true]
      unfold doStripAccents at h3
      obtain ⟨d, hd, h3⟩ := res_bind_ok.1 h3
      obtain ⟨d', _, h3⟩ := res_bind_ok.1 h3
      cases h3
      simp only [nfNormalize] at hd
      obtain ⟨d1, _, hd⟩ := res_bind_ok.1 hd
      cases hd
      rfl
    · rename_i hb
      simp only [hb]
      cases h3; rfl
  · cases h
    cases lower <;> rfl

example : ((Normalizer.bert true true false true).run ascii (NS.ofText [0x41, 9, 0x4E2D])).map (·.normalized)
    = .ok [0x61, 0x20, 0x20, 0x4E2D, 0x20] := by decide +kernel

/-! ### C55 -/

/-- **C55** (start): the table built for a BMP text is consistent. -/
theorem C55_start_partial {w : WStr} (h : Bmp w) : Consistent (NS.ofText w) := ofText_consistent h

/-- **C55 is violated** from the start by characters outside the BMP: two table entries for one
character. -/
theorem C55_violated_supplementary : ¬ Consistent (NS.ofText [0x1F600]) := by
  rintro ⟨h, _⟩
  exact absurd h (by decide +kernel)

/-- **C55** (CJK): CJK handling returns and keeps the table consistent. -/
theorem C55_cjk {s : NS} (h : Consistent s) : ∃ s', doHandleChineseChars s = .ok s' ∧ Consistent s' := by
  obtain ⟨hs, ht⟩ := consistent_iff.1 h
  obtain ⟨s', h1, h2, h3⟩ := cjk_returns ht (by simp)
  refine ⟨s', h1, consistent_iff.2 ⟨by rw [h3]; exact padText_scalars hs, ?_⟩⟩
  rw [h3, ← padLens_map]; exact h2

/-- **C55** (lower-casing): the table stays consistent as long as no character changes its UTF-8
length. -/
theorem C55_lowercase_partial (P : Platform) {s : NS} (h : Consistent s)
    (hl : ∀ c ∈ s.normalized, ∀ b, Utf8Char c b → ∃ b', Utf8Char (P.towlower c) b' ∧ b'.length = b.length) :
    Consistent (doLowercase P s) := by
  obtain ⟨h1, h2, h3, h4⟩ := h
  refine ⟨by simpa [doLowercase] using h1, ?_, h3, h4⟩
  intro i c r hc hr
  simp only [doLowercase, List.getElem?_map, Option.map_eq_some_iff] at hc
  obtain ⟨x, hx, rfl⟩ := hc
  obtain ⟨b, hb, hr2⟩ := h2 i x r hx hr
  obtain ⟨b', hb', hlen⟩ := hl x (List.mem_of_getElem? hx) b hb
  exact ⟨b', hb', by rw [hr2, hlen]⟩

/-- **C55** (Prepend): prepending one character to a non-empty text keeps the table consistent. -/
theorem C55_prepend_partial (P : Platform) {s : NS} (h : Consistent s) (hne : s.normalized ≠ []) {c : Nat} {pre : Str}
    (hpre : Utf8Char c pre) :
    ∃ s', (Normalizer.prepend pre).run P s = .ok s' ∧ s'.normalized = c :: s.normalized ∧ Consistent s' := by
  obtain ⟨hs, ht⟩ := consistent_iff.1 h
  obtain ⟨hc, rfl⟩ := utf8Char_iff.1 hpre
  cases hw : s.normalized with
  | nil => exact absurd hw hne
  | cons a w =>
    rw [hw] at ht
    simp only [List.map_cons] at ht
    have hr : s.ranges[0]? = some (0, byteLen a) := by
      rw [ht.ranges]; rfl
    have ho : 0 < s.offsets.length := by
      have := ht.pos (byteLen a) (by simp)
      rw [ht.offsets]; simp; omega
    have hconv : convertFromString (utf8Enc1 c) = .ok [c] := by
      have := convertFromString_utf8 (w := [c]) (Scalars.cons.2 ⟨hc, Scalars.nil⟩)
      simpa [utf8] using this
    have hd : (s.ranges.drop (0 + 1)).map (·.2) = w.map byteLen := by
      rw [ht.ranges]; simp [mkRanges]
    have hv : vecAt s.offsets 0 = .ok s.offsets[0] := by unfold vecAt; rw [List.getElem?_eq_getElem ho]
    have hins : ∀ l, insertAt s.offsets 0 l = .ok (l ++ s.offsets) := by
      intro l; unfold insertAt; rw [if_pos (by omega)]; simp
    refine ⟨{ normalized := c :: a :: w
              offsets := List.replicate (utf8Enc1 c).length s.offsets[0] ++ s.offsets
              ranges := mkRanges 0 (byteLen c :: byteLen a :: w.map byteLen) }, ?_, rfl, ?_⟩
    · simp only [Normalizer.run, prependNormalize, hconv, res_ok_bind, NS.transform]
      have : vecAt s.ranges 0 = .ok (0, byteLen a) := by unfold vecAt; rw [hr]
      rw [this]
      simp only [res_ok_bind, hv, hins, res_pure, hd, hw]
      simp [mkRanges, byteLen]
    · refine consistent_iff.2 ⟨?_, ⟨?_, ?_, ?_⟩⟩
      · rw [hw] at hs; exact Scalars.cons.2 ⟨hc, hs⟩
      · simp
      · have := ht.offsets
        simp at this ⊢
        rw [this]; rfl
      · intro k hk
        simp at hk
        rcases hk with rfl | rfl | ⟨x, _, rfl⟩ <;> exact utf8Enc1_length_pos _

/-- **C55 is violated** by cleaning: after dropping the first character of "\0a" the range of the
remaining character does not start at 0. -/
theorem C55_violated_clean : ∃ s', doCleanText ascii (NS.ofText [0, 0x61]) = .ok s' ∧ ¬ Consistent s' := by
  refine ⟨{ normalized := [0x61], offsets := [(1, 2)], ranges := [(1, 1)] }, by decide +kernel, ?_⟩
  rintro ⟨_, _, h, _⟩
  exact absurd (h 0 (1, 1) rfl) (by decide)

/-- **C55 is violated** by Strip and StripAccents: the table keeps the entries of removed
characters. -/
theorem C55_violated_strip (P : Platform) :
    (∃ s', (Normalizer.strip true true).run P (NS.ofText [0x20, 0x61]) = .ok s' ∧ ¬ Consistent s') ∧
    (∃ s', Normalizer.stripAccents.run P (NS.ofText [0x61, 0x301]) = .ok s' ∧ ¬ Consistent s') := by
  refine ⟨⟨_, rfl, ?_⟩, ⟨_, rfl, ?_⟩⟩ <;>
  · rintro ⟨h, _⟩
    exact absurd h (by decide +kernel)

/-- A platform that decomposes U+00E9 and U+01D6, everything else unchanged. -/
def accentPlatform : Platform :=
  { ascii with
    nf := fun k w => w.flatMap fun c =>
      if k = .nfd ∧ c = 0xE9 then [0x65, 0x301]
      else if k = .nfd ∧ c = 0x1D6 then [0x75, 0x308, 0x304] else [c] }

/-- **C55 is violated** by NFD: the two characters of a decomposed "é" get one byte each, but the
combining accent has two. -/
theorem C55_violated_nfd : ∃ s', (Normalizer.nf .nfd).run accentPlatform (NS.ofText [0xE9]) = .ok s' ∧ ¬ Consistent s' := by
  refine ⟨{ normalized := [0x65, 0x301], offsets := [(0, 1), (0, 1)], ranges := [(0, 1), (1, 1)] }, by decide +kernel, ?_⟩
  rintro ⟨_, h, _⟩
  obtain ⟨b, hb, hl⟩ := h 1 0x301 (1, 1) rfl rfl
  have := (utf8Char_iff.1 hb).2
  rw [this] at hl
  exact absurd hl (by decide)

example : Consistent (NS.ofText [0x61, 0x4E2D]) :=
  C55_start_partial (fun c hc => by
    simp at hc; rcases hc with rfl | rfl <;> exact ⟨⟨by decide, by decide⟩, by decide⟩)

/-! ### C56 -/

theorem dropWhile_parts (p : Nat → Bool) (w : WStr) :
    ∃ l, w = l ++ w.dropWhile p ∧ (∀ c ∈ l, p c = true) ∧ ∀ c, (w.dropWhile p).head? = some c → p c = false := by
  induction w with
  | nil => exact ⟨[], rfl, by simp, by simp⟩
  | cons a w ih =>
    by_cases ha : p a = true
    · obtain ⟨l, h1, h2, h3⟩ := ih
      rw [List.dropWhile_cons_of_pos ha]
      exact ⟨a :: l, by rw [List.cons_append, ← h1], by simpa [ha] using h2, h3⟩
    · rw [List.dropWhile_cons_of_neg ha]
      refine ⟨[], rfl, by simp, ?_⟩
      intro c hc
      simp at hc; subst hc; simpa using ha

/-- What Strip does to every text: it cuts characters whose low byte is a white-space byte, at the
configured ends and as many as possible. -/
theorem C56_strip_value (P : Platform) (left right : Bool) (s : NS) :
    ∃ (s' : NS) (l r : WStr), (Normalizer.strip left right).run P s = .ok s' ∧
      s.normalized = l ++ s'.normalized ++ r ∧
      (∀ c ∈ l ++ r, WhiteSpace (c % 256)) ∧
      (left = false → l = []) ∧ (right = false → r = []) ∧
      (left = true → ∀ c, s'.normalized.head? = some c → ¬ WhiteSpace (c % 256)) ∧
      (right = true → ∀ c, s'.normalized.getLast? = some c → ¬ WhiteSpace (c % 256)) := by
  have hws : ∀ c, stripTest c = true ↔ WhiteSpace (c % 256) := by
    intro c; unfold stripTest isspaceC WhiteSpace; simp
  have hws' : ∀ c, stripTest c = false ↔ ¬ WhiteSpace (c % 256) := by
    intro c; rw [← hws]; simp
  obtain ⟨l, hl⟩ : ∃ l, s.normalized = l ++ (if left then s.normalized.dropWhile stripTest else s.normalized) ∧
      (∀ c ∈ l, stripTest c = true) ∧ (left = false → l = []) ∧
      (left = true → ∀ c, (if left then s.normalized.dropWhile stripTest else s.normalized).head? = some c → stripTest c = false) := by
    cases left
    · exact ⟨[], by simp, by simp, by simp, by simp⟩
    · obtain ⟨l, h1, h2, h3⟩ := dropWhile_parts stripTest s.normalized
      exact ⟨l, by simpa using h1, h2, by simp, by simpa using h3⟩
  generalize hm : (if left then s.normalized.dropWhile stripTest else s.normalized) = m at hl
  obtain ⟨r, hr⟩ : ∃ r, m = (if right then (m.reverse.dropWhile stripTest).reverse else m) ++ r ∧
      (∀ c ∈ r, stripTest c = true) ∧ (right = false → r = []) ∧
      (right = true → ∀ c, (if right then (m.reverse.dropWhile stripTest).reverse else m).getLast? = some c → stripTest c = false) := by
    cases right
    · exact ⟨[], by simp, by simp, by simp, by simp⟩
    · obtain ⟨l', h1, h2, h3⟩ := dropWhile_parts stripTest m.reverse
      refine ⟨l'.reverse, ?_, by simpa using h2, by simp, ?_⟩
      · have := congrArg List.reverse h1
        simpa using this
      · intro _ c hc
        apply h3 c
        simpa [List.getLast?_reverse] using hc
  refine ⟨stripNormalize left right s, l, r, rfl, ?_, ?_, hl.2.2.1, hr.2.2.1, ?_, ?_⟩
  · simp only [stripNormalize, hm]
    rw [List.append_assoc, ← hr.1]; exact hl.1
  · intro c hc
    rcases List.mem_append.1 hc with hc | hc
    · exact (hws c).1 (hl.2.1 c hc)
    · exact (hws c).1 (hr.2.1 c hc)
  · intro h c hc
    simp only [stripNormalize, hm] at hc
    refine (hws' c).1 (hl.2.2.2 h c ?_)
    rw [hr.1]
    rw [List.head?_append, hc]; rfl
  · intro h c hc
    simp only [stripNormalize, hm] at hc
    exact (hws' c).1 (hr.2.2.2 h c hc)

/-- **C56 (partial)**: for texts of characters up to U+00FF, Strip cuts exactly the leading and
trailing white space, as configured.  Missing: characters above U+00FF, which are judged by their
low byte (`C56_violated`). -/
theorem C56_strip_partial (P : Platform) (left right : Bool) {s : NS} (h : ∀ c ∈ s.normalized, c < 256) :
    ∃ (s' : NS) (l r : WStr), (Normalizer.strip left right).run P s = .ok s' ∧
      s.normalized = l ++ s'.normalized ++ r ∧
      (∀ c ∈ l ++ r, WhiteSpace c) ∧
      (left = false → l = []) ∧ (right = false → r = []) ∧
      (left = true → ∀ c, s'.normalized.head? = some c → ¬ WhiteSpace c) ∧
      (right = true → ∀ c, s'.normalized.getLast? = some c → ¬ WhiteSpace c) := by
  obtain ⟨s', l, r, h1, h2, h3, h4, h5, h6, h7⟩ := C56_strip_value P left right s
  have hm : ∀ c, c ∈ l ++ r ∨ c ∈ s'.normalized → c % 256 = c := by
    intro c hc
    apply Nat.mod_eq_of_lt
    apply h
    rw [h2]
    simp at hc ⊢
    rcases hc with (hc | hc) | hc
    · exact .inl hc
    · exact .inr (.inr hc)
    · exact .inr (.inl hc)
  refine ⟨s', l, r, h1, h2, ?_, h4, h5, ?_, ?_⟩
  · intro c hc
    have := h3 c hc
    rwa [hm c (.inl hc)] at this
  · intro hl c hc
    have := h6 hl c hc
    rwa [hm c (.inr (List.mem_of_head? hc))] at this
  · intro hr c hc
    have := h7 hr c hc
    rwa [hm c (.inr (List.mem_of_getLast? hc))] at this

/-- **C56 is violated** above U+00FF: U+0120 (`Ġ`) and U+4E20 (`丠`) are stripped as if they were
spaces. -/
theorem C56_violated (P : Platform) :
    (∃ s', (Normalizer.strip true false).run P (NS.ofText [0x120, 0x61]) = .ok s' ∧ s'.normalized = [0x61]) ∧
    (∃ s', (Normalizer.strip false true).run P (NS.ofText [0x61, 0x4E20]) = .ok s' ∧ s'.normalized = [0x61]) ∧
    ¬ WhiteSpace 0x120 ∧ ¬ WhiteSpace 0x4E20 :=
  ⟨⟨_, rfl, by decide +kernel⟩, ⟨_, rfl, by decide +kernel⟩, by unfold WhiteSpace; decide, by unfold WhiteSpace; decide⟩

example : ((Normalizer.strip true true).run ascii (NS.ofText w!"  a b ")).map (·.normalized) = .ok w!"a b" := by
  decide +kernel

/-! ### C65: memory safety -/

/-- **C65** (normal forms): on a fresh text the normal forms return, whatever ICU answers. -/
theorem C65_nf_returns (P : Platform) (k : NFKind) (w : WStr) :
    ∃ s', (Normalizer.nf k).run P (NS.ofText w) = .ok s' ∧ s'.normalized = P.nf k (w.map sanitize) := by
  obtain ⟨s', h⟩ := nf_returns P k (s := NS.ofText w) (by
    rw [ofText_ranges]; exact fromUTF32_length_ge w)
  refine ⟨s', h, ?_⟩
  simp only [nfNormalize] at h
  obtain ⟨_, _, h⟩ := res_bind_ok.1 h
  cases h; rfl

theorem shrink_returns (P : Platform) : ∀ (w : WStr) (k removed : Nat) (s : NS), removed ≤ k →
    k - removed + w.length ≤ s.ranges.length → ∃ s', applyShrink (nsmIds P k w) removed s = .ok s' := by
  intro w
  induction w with
  | nil => intro k removed s _ _; exact ⟨s, rfl⟩
  | cons c w ih =>
    intro k removed s hk hl
    simp at hl
    by_cases hc : P.isNSM c = true
    · simp only [nsmIds, hc, if_true, applyShrink]
      have hi : k - removed < s.ranges.length := by omega
      have : vecAt s.ranges (k - removed) = .ok s.ranges[k - removed] := by
        unfold vecAt; rw [List.getElem?_eq_getElem hi]
      simp only [NS.transform, this, res_ok_bind, res_pure]
      apply ih
      · omega
      · simp; omega
    · simp only [nsmIds, if_neg hc]
      exact ih (k + 1) removed s (by omega) (by omega)

/-- **C65** (accents): stripping accents returns on text that is already decomposed. -/
theorem C65_accents_partial (P : Platform) {w : WStr} (h : P.nf .nfd (w.map sanitize) = w) :
    ∃ s', (Normalizer.bert false false true false).run P (NS.ofText w) = .ok s' ∧
      s'.normalized = w.filter (fun c => !P.isNSM c) := by
  have hg : ∀ (v : WStr) (i : Nat), growIds i v v = [] := by
    intro v
    induction v with
    | nil => intro i; rfl
    | cons a v ih => intro i; simp [growIds, ih]
  have hnf : nfNormalize P .nfd (NS.ofText w) = .ok (NS.ofText w) := by
    have hn : (NS.ofText w).normalized = w := rfl
    simp only [nfNormalize, hn, h, hg, applyGrow, res_ok_bind, res_pure]
    rfl
  obtain ⟨s', hs'⟩ := shrink_returns P w 0 0 (NS.ofText w) (Nat.le_refl _) (by
    rw [ofText_ranges]; have := fromUTF32_length_ge w; omega)
  refine ⟨{ s' with normalized := w.filter fun c => !P.isNSM c }, ?_, rfl⟩
  have hn : (NS.ofText w).normalized = w := rfl
  simp only [Normalizer.run, bertNormalize, doStripAccents, hnf, res_ok_bind, hn, hs', Bool.true_or, if_true]
  rfl

/-- **C65 is violated** by accent stripping: "ǖ" decomposes into three characters but the table
grows by one entry only, and removing the second accent reads behind the table. -/
theorem C65_violated_accents :
    (Normalizer.bert false false true false).run accentPlatform (NS.ofText [0x1D6]) = .error (.ub .outOfBounds) ∧
    (Normalizer.bert true true false true).run accentPlatform (NS.ofText [0x1D6]) = .error (.ub .outOfBounds) := by
  constructor <;> decide +kernel

/-- **C65 is violated** by cleaning a text that ends in two control characters. -/
theorem C65_violated_clean (P : Platform) (a b c : Bool) :
    (Normalizer.bert true a b c).run P (NS.ofText [0, 0]) = .error (.ub .outOfBounds) := by
  have := C54_violated P
  simp only [Normalizer.run, bertNormalize, if_true, this, res_error_bind]

/-! ### C66: Prepend -/

/-- **C66 (partial)**: on a non-empty text Prepend returns the text with the prefix in front, for
every (valid UTF-8) prefix.  Missing: the empty text. -/
theorem C66_prepend_partial (P : Platform) {w pw : WStr} {pre : Str} (hp : Utf8Text pw pre) (hne : w ≠ []) :
    ∃ s', (Normalizer.prepend pre).run P (NS.ofText w) = .ok s' ∧ s'.normalized = pw ++ w := by
  obtain ⟨hs, rfl⟩ := utf8Text_iff.1 hp
  have ht := ofText_tab w
  have hl : 0 < (unitLens (fromUTF32 w)).length := by
    have := fromUTF32_length_ge w
    have : 0 < w.length := List.length_pos_iff.2 hne
    simp; omega
  have hn : (NS.ofText w).normalized = w := rfl
  generalize unitLens (fromUTF32 w) = lens at ht hl
  generalize NS.ofText w = s at ht hn ⊢
  cases lens with
  | nil => simp at hl
  | cons k lens =>
    have hr : vecAt s.ranges 0 = .ok (0, k) := by unfold vecAt; rw [ht.ranges]; rfl
    have ho : 0 < s.offsets.length := by
      have := ht.pos k (by simp)
      rw [ht.offsets]; simp; omega
    have hv : vecAt s.offsets 0 = .ok s.offsets[0] := by unfold vecAt; rw [List.getElem?_eq_getElem ho]
    simp only [Normalizer.run, prependNormalize, convertFromString_utf8 hs, res_ok_bind, NS.transform, hr, hv,
        insertAt, Nat.zero_le, if_true, res_pure, hn]
    exact ⟨_, rfl, rfl⟩

/-- **C66 is violated** on the empty text: the first table entry does not exist. -/
theorem C66_violated (P : Platform) {pw : WStr} {pre : Str} (hp : Utf8Text pw pre) :
    (Normalizer.prepend pre).run P (NS.ofText []) = .error (.ub .outOfBounds) := by
  obtain ⟨hs, rfl⟩ := utf8Text_iff.1 hp
  simp only [Normalizer.run, prependNormalize, convertFromString_utf8 hs, res_ok_bind]
  rfl

example : ((Normalizer.prepend b!"▁").run ascii (NS.ofText w!"ab")).map (·.normalized) = .ok w!"▁ab" := by
  decide +kernel

/-! ### C67: Replace -/

/-- The positions covered by a list of one-character matches. -/
def At (ms : List (Nat × Nat)) (i : Nat) : Prop := ∃ m ∈ ms, m.1 = i

theorem overwriteAll_value : ∀ (ms : List (Nat × Nat)) (c : Nat) (w r : WStr), overwriteAll ms c w = .ok r →
    r.length = w.length ∧ ∀ i, (At ms i → i < w.length ∧ r[i]? = some c) ∧ (¬ At ms i → r[i]? = w[i]?) := by
  intro ms
  induction ms with
  | nil =>
    intro c w r h; cases h
    exact ⟨rfl, fun i => ⟨fun ⟨m, hm, _⟩ => by simp at hm, fun _ => rfl⟩⟩
  | cons m ms ih =>
    obtain ⟨p, q⟩ := m
    intro c w r h
    simp only [overwriteAll] at h
    split at h
    · rename_i hp
      obtain ⟨h1, h2⟩ := ih c _ r h
      rw [List.length_set] at h1 h2
      refine ⟨h1, fun i => ⟨?_, ?_⟩⟩
      · rintro ⟨m, hm, rfl⟩
        by_cases hmi : At ms m.1
        · exact (h2 m.1).1 hmi
        · have hmp : m.1 = p := by
            rcases List.mem_cons.1 hm with rfl | hm
            · rfl
            · exact absurd ⟨m, hm, rfl⟩ hmi
          refine ⟨by omega, ?_⟩
          rw [(h2 m.1).2 hmi, hmp, List.getElem?_set_self hp]
      · intro hn
        have hn' : ¬ At ms i := fun ⟨m, hm, hmi⟩ => hn ⟨m, List.mem_cons_of_mem _ hm, hmi⟩
        rw [(h2 i).2 hn', List.getElem?_set_ne]
        intro hpi
        exact hn ⟨(p, q), by simp, hpi⟩
    · cases h

/-- **C67 (partial)**: with a one-character replacement, whenever the call returns, the first
character of each match — the whole match when matches have length one — has become the
replacement and everything else is unchanged.  Missing: replacements of other lengths (undefined
behaviour), longer matches, and texts on which the table update runs off its end. -/
theorem C67_replace_partial (P : Platform) {pattern content : Str} {pw : WStr} {c : Nat}
    {find : WStr → List (Nat × Nat)} (hp : Utf8Text pw pattern) (hc : Utf8Text [c] content)
    (hf : P.wregex pw = some find) {s s' : NS} (h : (Normalizer.replace pattern content).run P s = .ok s') :
    s'.normalized.length = s.normalized.length ∧
    ∀ i, (At (find s.normalized) i → s'.normalized[i]? = some c) ∧
         (¬ At (find s.normalized) i → s'.normalized[i]? = s.normalized[i]?) := by
  obtain ⟨hs, rfl⟩ := utf8Text_iff.1 hp
  obtain ⟨hs', rfl⟩ := utf8Text_iff.1 hc
  simp only [Normalizer.run, replaceNormalize, convertFromString_utf8 hs, convertFromString_utf8 hs', res_ok_bind, hf] at h
  cases hm : find s.normalized with
  | nil =>
    rw [hm] at h; cases h
    exact ⟨rfl, fun i => ⟨fun ⟨m, hm, _⟩ => by simp at hm, fun _ => rfl⟩⟩
  | cons m ms =>
    rw [hm] at h
    simp only at h
    obtain ⟨w, hw, h⟩ := res_bind_ok.1 h
    rw [applyReplace_text h]
    obtain ⟨h2, h3⟩ := overwriteAll_value _ _ _ _ hw
    exact ⟨h2, fun i => ⟨fun hi => ((h3 i).1 hi).2, (h3 i).2⟩⟩

/-- **C67** (no match): the text is unchanged. -/
theorem C67_no_match (P : Platform) {pattern content : Str} {pw cw : WStr}
    {find : WStr → List (Nat × Nat)} (hp : Utf8Text pw pattern) (hc : Utf8Text cw content)
    (hf : P.wregex pw = some find) {s : NS} (hn : find s.normalized = []) :
    (Normalizer.replace pattern content).run P s = .ok s := by
  obtain ⟨hs, rfl⟩ := utf8Text_iff.1 hp
  obtain ⟨hs', rfl⟩ := utf8Text_iff.1 hc
  simp only [Normalizer.run, replaceNormalize, convertFromString_utf8 hs, convertFromString_utf8 hs', res_ok_bind, hf, hn,
    res_pure]

/-- **C67 is violated**: replacing "ab" by "x" in "abc" keeps the "b"; replacing every space of
" a " by "▁" runs off the table; a replacement of two characters invalidates the regex iterator. -/
theorem C67_violated :
    ((Normalizer.replace b!"ab" b!"x").run ascii (NS.ofText w!"abc")).map (·.normalized) = .ok w!"xbc" ∧
    (Normalizer.replace b!" " b!"▁").run ascii (NS.ofText w!" a ") = .error (.ub .outOfBounds) ∧
    (Normalizer.replace b!"a" b!"bc").run ascii (NS.ofText w!"xax") = .error (.ub .invalidIterator) := by
  refine ⟨?_, ?_, ?_⟩ <;> decide +kernel

example : ((Normalizer.replace b!" " b!"▁").run ascii (NS.ofText w!"a b")).map (·.normalized) = .ok w!"a▁b" := by
  decide +kernel

/-- StripAccents (the stand-alone normalizer) drops exactly U+0300–U+036F. -/
theorem C65_strip_accents (P : Platform) (s : NS) : ∃ s', Normalizer.stripAccents.run P s = .ok s' ∧
    Cleaned (fun c => 0x300 ≤ c ∧ c ≤ 0x36F) (fun _ => False) s.normalized s'.normalized := by
  refine ⟨_, rfl, ?_⟩
  simp only [stripAccentsNormalize]
  generalize s.normalized = w
  induction w with
  | nil => exact .nil
  | cons c w ih =>
    by_cases h : isCombiningMark c = true
    · rw [List.filter_cons_of_neg (by simp [h])]
      exact .dropped (by simpa [isCombiningMark] using h) ih
    · rw [List.filter_cons_of_pos (by simp [h])]
      exact .kept (by simpa [isCombiningMark] using h) (fun h => h) ih

end Tok
