import Verif.Spec.PostProcessor
import Verif.Props.Utils
import Verif.Props.Unicode

set_option autoImplicit false

/-!
# Post-processing (C39 – C41)
-/

namespace Tok
open Spec

/-! ### Template -/

theorem append_eq_joined (a b : Enc) : a.append b = joined a b := rfl

theorem joined_nil (e : Enc) : joined e {} = e := by cases e; simp [joined]
theorem nil_joined (e : Enc) : joined {} e = e := by cases e; simp [joined]
theorem joined_assoc (a b c : Enc) : joined (joined a b) c = joined a (joined b c) := by
  simp [joined, List.append_assoc]

theorem foldl_append (l : List Enc) : ∀ a : Enc, l.foldl Enc.append a = joined a (joinAll l) := by
  induction l with
  | nil => intro a; simp [joinAll, joined_nil]
  | cons e r ih => intro a; simp only [List.foldl_cons, ih, append_eq_joined, joined_assoc, joinAll]

theorem specialEnc_eq (specials : List SpecialToken) (p : Piece) :
    specialEnc specials p = match specials.find? fun t => t.id == p.id with
      | some t => marked t p.typeId
      | none => {} := by
  unfold specialEnc
  cases specials.find? fun t => t.id == p.id <;> rfl

theorem templateParts_all (specials : List SpecialToken) (add : Bool) (ps : List Piece) :
    ∀ (e e' : Enc), (∀ p ∈ ps, p.kind = b!"Sequence" → p.id = b!"A") →
    { e' with typeIds := e.typeIds } = e → e'.typeIds.length = e.typeIds.length →
    joinAll (templateParts specials add ps e') = joinAll (ps.map (block specials add e)) := by
  induction ps with
  | nil => intro e e' _ _ _; rfl
  | cons p ps ih =>
    intro e e' hA he hl
    have hps : ∀ q ∈ ps, q.kind = b!"Sequence" → q.id = b!"A" := fun q hq => hA q (by simp [hq])
    simp only [templateParts, List.map_cons, block]
    by_cases hs : p.kind = b!"Sequence"
    · have hid := hA p (by simp) hs
      simp only [hs, if_true, hid, joinAll]
      rw [ih e _ hps (by cases e; cases e'; simp at he ⊢; simp [he]) (by simp [hl])]
      congr 1
      cases e; cases e'; simp at he hl ⊢; simp [he, hl]
    · by_cases hk : p.kind = b!"SpecialToken"
      · cases add with
        | true =>
          rw [if_neg hs, if_neg hs, if_pos hk, if_pos rfl, if_pos ⟨hk, rfl⟩]
          simp only [joinAll]
          rw [ih e e' hps he hl, specialEnc_eq]; rfl
        | false =>
          rw [if_neg hs, if_neg hs, if_pos hk, if_neg (by simp), if_neg (by simp)]
          simp only [joinAll, nil_joined]
          rw [ih e e' hps he hl]
      · rw [if_neg hs, if_neg hs, if_neg hk, if_neg (fun h => hk h.1)]
        simp only [joinAll, nil_joined]
        rw [ih e e' hps he hl]

/-- **C39.** For every template whose sequence pieces name the sequence `A` (the only
one there is), template processing gives the entries of the pieces one after the other,
in template order. -/
theorem C39_template_layout (single pair : List Piece) (specials : List SpecialToken) (add : Bool) (e : Encoding)
    (hA : ∀ p ∈ single, p.kind = b!"Sequence" → p.id = b!"A") :
    ∃ r, PostProcessor.run add (.template single pair specials) e = .ok r ∧
      r.toEnc = joinAll (single.map (block specials add e.toEnc)) := by
  refine ⟨_, rfl, ?_⟩
  simp only [templateProcess, foldl_append, nil_joined]
  exact templateParts_all specials add single e.toEnc e.toEnc hA rfl rfl

/-- Forget the type ids. -/
def dropTypes (e : Enc) : Enc := { e with typeIds := [] }

theorem dropTypes_joined (a b : Enc) : dropTypes (joined a b) = joined (dropTypes a) (dropTypes b) := by
  simp [dropTypes, joined]

theorem templateParts_any (specials : List SpecialToken) (add : Bool) (ps : List Piece) :
    ∀ (e e' : Enc), dropTypes e' = dropTypes e → e'.typeIds.length = e.typeIds.length →
    dropTypes (joinAll (templateParts specials add ps e')) = dropTypes (joinAll (ps.map (block specials add e))) ∧
    (joinAll (templateParts specials add ps e')).typeIds.length =
      (joinAll (ps.map (block specials add e))).typeIds.length := by
  induction ps with
  | nil => intro e e' _ _; exact ⟨rfl, rfl⟩
  | cons p ps ih =>
    intro e e' he hl
    simp only [templateParts, List.map_cons, block]
    by_cases hs : p.kind = b!"Sequence"
    · simp only [hs, if_true, joinAll, dropTypes_joined]
      generalize he2 : (if p.id = b!"A" then
        { e' with typeIds := List.replicate e'.typeIds.length p.typeId } else e') = e2
      have h2 : dropTypes e2 = dropTypes e := by
        subst he2; split
        · rw [← he]; rfl
        · exact he
      have h3 : e2.typeIds.length = e.typeIds.length := by
        subst he2; split <;> simp [hl]
      obtain ⟨i1, i2⟩ := ih e e2 h2 h3
      refine ⟨?_, by simp only [joined, List.length_append, List.length_replicate, h3, i2]⟩
      rw [i1, h2]; rfl
    · rw [if_neg hs, if_neg hs]
      obtain ⟨i1, i2⟩ := ih e e' he hl
      by_cases hk : p.kind = b!"SpecialToken"
      · cases add with
        | true =>
          rw [if_pos hk, if_pos rfl, if_pos ⟨hk, rfl⟩]
          simp only [joinAll, dropTypes_joined, specialEnc_eq]
          exact ⟨by rw [i1]; rfl, by simp only [joined, List.length_append, i2]; rfl⟩
        | false =>
          rw [if_pos hk, if_neg (by simp), if_neg (by simp)]
          simp only [joinAll, nil_joined]; exact ⟨i1, i2⟩
      · rw [if_neg hk, if_neg (fun h => hk h.1)]
        simp only [joinAll, nil_joined]; exact ⟨i1, i2⟩

/-- **C39, every template.** Apart from the values of the type ids, the layout holds
whatever names the sequence pieces use. -/
theorem C39_any_template (single pair : List Piece) (specials : List SpecialToken) (add : Bool) (e : Encoding) :
    ∃ r, PostProcessor.run add (.template single pair specials) e = .ok r ∧
      ({ r.toEnc with typeIds := [] } : Enc) =
        { joinAll (single.map (block specials add e.toEnc)) with typeIds := [] } ∧
      r.typeIds.length = (joinAll (single.map (block specials add e.toEnc))).typeIds.length := by
  refine ⟨_, rfl, ?_⟩
  simp only [templateProcess, foldl_append, nil_joined]
  exact templateParts_any specials add single e.toEnc e.toEnc rfl rfl

/-- A BERT template. -/
def sampleTemplate : PostProcessor := .template
  [⟨b!"SpecialToken", b!"[CLS]", 0⟩, ⟨b!"Sequence", b!"A", 0⟩, ⟨b!"SpecialToken", b!"[SEP]", 0⟩] []
  [⟨b!"[CLS]", [101], [b!"[CLS]"]⟩, ⟨b!"[SEP]", [102], [b!"[SEP]"]⟩]

/-- A case of C39: `[CLS] … [SEP]`, with and without special tokens. -/
example : ∃ r q, PostProcessor.run true sampleTemplate (sampleEnc 2) = .ok r ∧ r.ids = [101, 0, 1, 102] ∧
    r.specialTokensMask = [1, 0, 0, 1] ∧
    PostProcessor.run false sampleTemplate (sampleEnc 2) = .ok q ∧ q.ids = [0, 1] :=
  ⟨_, _, rfl, by decide, by decide, rfl, by decide⟩

/-- **C40, refuted for the template processor**: the overflow windows are dropped, for
every template and encoding. -/
theorem C40_violated (single pair : List Piece) (specials : List SpecialToken) (add : Bool) (e : Encoding) :
    ∃ r, PostProcessor.run add (.template single pair specials) e = .ok r ∧ r.overflowing = [] :=
  ⟨_, rfl, rfl⟩

/-- … for an encoding that has one. -/
example : ∃ e r, Truncation.run ⟨.right, .longestFirst, 3, 1⟩ (sampleEnc 6) = .ok e ∧ e.overflowing ≠ [] ∧
    PostProcessor.run true sampleTemplate e = .ok r ∧ r.overflowing = [] :=
  ⟨_, _, rfl, by decide, rfl, by decide⟩

/-! ### ByteLevel -/

theorem spaceChar_eq : spaceChar = utf8Enc1 spaceSign := by
  unfold spaceChar
  rw [bytesChar_some (by omega)]
  have : byteCode 32 = spaceSign := by
    have h : ¬ Printable 32 := by decide
    simp only [byteCode, h, if_false]
    rw [hiddenBelow_small (by omega)]; rfl
  rw [this]; rfl

theorem isSpaceUnit_iff (u : Nat) : isSpaceUnit u = true ↔ u = spaceSign := by
  unfold isSpaceUnit
  rw [spaceChar_eq]
  simp only [decide_eq_true_eq, toUTF8String, u16Points, List.map_cons, List.map_nil, utf8_cons, utf8_nil,
    List.append_nil]
  constructor
  · intro h
    have h1 : utf8 [spaceSign] = utf8 [sanitize u] := by simpa using h
    have h2 := utf8_injective (v := [spaceSign]) (w := [sanitize u]) (by simp [Scalars, isScalar, spaceSign])
      (by simp [Scalars, sanitize_scalar]) h1
    simp only [List.cons.injEq, and_true] at h2
    unfold sanitize at h2
    split at h2
    · exact h2.symm
    · simp [spaceSign] at h2
  · rintro rfl; rfl

theorem takeWhile_space (w : WStr) (hw : Scalars w) (l : Nat) (c : Nat) (hc : c ≠ spaceSign) (r : WStr)
    (h : w = List.replicate l spaceSign ++ c :: r) : ((utf16 w).takeWhile isSpaceUnit).length = l := by
  subst h
  induction l with
  | zero =>
    simp only [List.replicate_zero, List.nil_append, utf16_cons, utf16Enc1]
    have hn : ∀ u, u ≠ spaceSign → isSpaceUnit u = false := by
      intro u hu; cases h : isSpaceUnit u
      · rfl
      · exact absurd ((isSpaceUnit_iff u).1 h) hu
    split
    · simp [hn c hc]
    · have : 0xD800 + (c - 0x10000) / 1024 ≠ spaceSign := by simp only [spaceSign]; omega
      simp [hn _ this]
  | succ l ih =>
    simp only [List.replicate_succ, List.cons_append, utf16_cons, Scalars.cons] at hw ⊢
    have e1 : utf16Enc1 spaceSign = [spaceSign] := by simp [utf16Enc1, spaceSign]
    rw [e1]
    simp only [List.cons_append, List.nil_append]
    rw [List.takeWhile_cons, if_pos ((isSpaceUnit_iff _).2 rfl), List.length_cons]
    rw [ih (by simpa using hw.2)]

theorem utf16_replicate (t : Nat) : utf16 (List.replicate t spaceSign) = List.replicate t spaceSign := by
  induction t with
  | zero => rfl
  | succ t ih => rw [List.replicate_succ, utf16_cons, ih]; simp [utf16Enc1, spaceSign]

theorem takeWhile_space_rev (v : WStr) (t : Nat) (c : Nat) (hc : c ≠ spaceSign) :
    ((utf16 (v ++ c :: List.replicate t spaceSign)).reverse.takeWhile isSpaceUnit).length = t := by
  have hn : ∀ u, u ≠ spaceSign → isSpaceUnit u = false := by
    intro u hu; cases h : isSpaceUnit u
    · rfl
    · exact absurd ((isSpaceUnit_iff u).1 h) hu
  have key : ∀ (t : Nat) (l : List Nat), (∃ u r, l = u :: r ∧ u ≠ spaceSign) →
      ((List.replicate t spaceSign ++ l).takeWhile isSpaceUnit).length = t := by
    intro t
    induction t with
    | zero => rintro l ⟨u, r, rfl, hu⟩; simp [hn u hu]
    | succ t ih =>
      intro l hl
      rw [List.replicate_succ, List.cons_append, List.takeWhile_cons, if_pos ((isSpaceUnit_iff _).2 rfl),
        List.length_cons, ih l hl]
  rw [utf16_append, utf16_cons, utf16_replicate]
  simp only [List.reverse_append, List.reverse_replicate, List.append_assoc]
  refine key t _ ?_
  unfold utf16Enc1
  split
  · exact ⟨c, _, rfl, hc⟩
  · refine ⟨0xDC00 + (c - 0x10000) % 1024, _, rfl, ?_⟩
    simp only [spaceSign]; omega

theorem trimOffsets_narrowed (a : Bool) (i : Nat) (tok : Str) (o : Int × Int) :
    Narrowed o (trimOffsets a i tok o) := by
  intro ho
  unfold trimOffsets
  simp only
  generalize ((fromUTF8 tok).takeWhile isSpaceUnit).length = l
  generalize ((fromUTF8 tok).reverse.takeWhile isSpaceUnit).length = t
  split
  · have h1 : ∀ f : Int, o.1 ≤ f ∧ f ≤ o.2 →
        o.1 ≤ f ∧ f ≤ (if (t : Int) > 0 ∧ (t : Int) ≤ o.2 then max (o.2 - t) f else o.2) ∧
        (if (t : Int) > 0 ∧ (t : Int) ≤ o.2 then max (o.2 - t) f else o.2) ≤ o.2 := by
      intro f hf; split <;> omega
    apply h1
    split
    · split <;> omega
    · omega
  · exact ⟨Int.le_refl _, ho, Int.le_refl _⟩

theorem trimOffsets_value (a : Bool) (i : Nat) (tok : Str) (o : Int × Int) (l t : Nat) (c : WStr)
    (htok : Utf8Text (List.replicate l spaceSign ++ c ++ List.replicate t spaceSign) tok)
    (hc : c.head? ≠ none) (h1 : c.head? ≠ some spaceSign) (h2 : c.getLast? ≠ some spaceSign)
    (hfit : o.1 + l ≤ o.2 - t) (h0 : 0 ≤ o.1) :
    trimOffsets a i tok o = (if (i = 0 ∨ o.1 = 0) ∧ a = true ∧ l = 1 then o.1 else o.1 + l, o.2 - t) := by
  obtain ⟨hsc, rfl⟩ := utf8Text_iff.1 htok
  have hl : ((utf16 (List.replicate l spaceSign ++ c ++ List.replicate t spaceSign)).takeWhile isSpaceUnit).length = l := by
    cases c with
    | nil => simp at hc
    | cons x r =>
      refine takeWhile_space _ hsc l x (by simpa using h1) (r ++ List.replicate t spaceSign) (by simp)
  have ht : ((utf16 (List.replicate l spaceSign ++ c ++ List.replicate t spaceSign)).reverse.takeWhile
      isSpaceUnit).length = t := by
    rcases List.eq_nil_or_concat c with rfl | ⟨v, x, rfl⟩
    · simp at hc
    · have hx : x ≠ spaceSign := by simpa using h2
      have := takeWhile_space_rev (List.replicate l spaceSign ++ v) t x hx
      simpa using this
  unfold trimOffsets
  rw [fromUTF8_utf8 hsc]
  simp only [hl, ht]
  by_cases hz : l = 0 ∧ t = 0
  · obtain ⟨rfl, rfl⟩ := hz
    simp
  · rw [if_pos (by omega)]
    have hf : (if (l : Int) > 0 then
        min (o.1 + (if (i = 0 ∨ o.1 = 0) ∧ a = true ∧ (l : Int) = 1 then (0 : Int) else (l : Int))) o.2 else o.1) =
        (if (i = 0 ∨ o.1 = 0) ∧ a = true ∧ l = 1 then o.1 else o.1 + l) := by
      by_cases hp : (i = 0 ∨ o.1 = 0) ∧ a = true ∧ l = 1
      · have hp' : (i = 0 ∨ o.1 = 0) ∧ a = true ∧ (l : Int) = 1 := ⟨hp.1, hp.2.1, by omega⟩
        rw [if_pos hp, if_pos hp', if_pos (by omega)]; omega
      · have hp' : ¬ ((i = 0 ∨ o.1 = 0) ∧ a = true ∧ (l : Int) = 1) := by
          rintro ⟨x, y, z⟩; exact hp ⟨x, y, by omega⟩
        rw [if_neg hp, if_neg hp']
        split <;> omega
    rw [hf]
    congr 1
    split
    · split <;> omega
    · omega

theorem trimLoop_spec (a : Bool) (tokens : List Str) : ∀ (n i : Nat) (offsets : List (Int × Int)),
    i + n ≤ tokens.length → i + n ≤ offsets.length →
    ∃ out, trimLoop a tokens n i offsets = .ok out ∧ out.length = offsets.length ∧
      ∀ j, (j < i ∨ i + n ≤ j → out[j]? = offsets[j]?) ∧
        (i ≤ j → j < i + n → ∃ t o, tokens[j]? = some t ∧ offsets[j]? = some o ∧
          out[j]? = some (trimOffsets a j t o)) := by
  intro n
  induction n with
  | zero => intro i offsets _ _; exact ⟨offsets, rfl, rfl, fun j => ⟨fun _ => rfl, fun h1 h2 => by omega⟩⟩
  | succ n ih =>
    intro i offsets ht ho
    obtain ⟨t, hti⟩ : ∃ t, tokens[i]? = some t := ⟨_, List.getElem?_eq_getElem (by omega)⟩
    obtain ⟨o, hoi⟩ : ∃ o, offsets[i]? = some o := ⟨_, List.getElem?_eq_getElem (by omega)⟩
    obtain ⟨out, h1, h2, h3⟩ := ih (i + 1) (offsets.set i (trimOffsets a i t o)) (by omega) (by simp; omega)
    refine ⟨out, ?_, by simpa using h2, ?_⟩
    · simp only [trimLoop, vecAt, hti, hoi, res_ok_bind]; exact h1
    · intro j
      constructor
      · intro hj
        rw [(h3 j).1 (by omega), List.getElem?_set, if_neg (by omega)]
      · intro hj1 hj2
        by_cases hji : j = i
        · subst hji
          refine ⟨t, o, hti, hoi, ?_⟩
          rw [(h3 j).1 (by omega), List.getElem?_set_self (by omega)]
        · obtain ⟨t', o', g1, g2, g3⟩ := (h3 j).2 (by omega) (by omega)
          rw [List.getElem?_set, if_neg (by omega)] at g2
          exact ⟨t', o', g1, g2, g3⟩

theorem each_of_getElem {α β : Type} {R : α → β → Prop} : ∀ {l : List α} {m : List β}, l.length = m.length →
    (∀ (j : Nat) (a : α) (b : β), l[j]? = some a → m[j]? = some b → R a b) → Each R l m := by
  intro l
  induction l with
  | nil => intro m hl _; cases m with
    | nil => exact .nil
    | cons b m => simp at hl
  | cons a l ih => intro m hl h; cases m with
    | nil => simp at hl
    | cons b m =>
      exact .cons (h 0 a b rfl rfl) (ih (by simpa using hl) fun j x y h1 h2 => h (j + 1) x y (by simpa using h1) (by simpa using h2))

theorem processOffsets_spec (a : Bool) (e : Enc) (n : Nat) (hal : Aligned e n) :
    ∃ r, processOffsets a e = .ok r ∧ OnlyOffsets e r ∧
      ∀ j < n, ∃ t o, e.tokens[j]? = some t ∧ e.offsets[j]? = some o ∧ r.offsets[j]? = some (trimOffsets a j t o) := by
  obtain ⟨h1, h2, h3, h4, h5, h6, h7⟩ := hal
  obtain ⟨out, g1, g2, g3⟩ := trimLoop_spec a e.tokens e.ids.length 0 e.offsets (by omega) (by omega)
  refine ⟨{ e with offsets := out }, by simp only [processOffsets, g1, res_ok_bind, res_pure], ⟨rfl, ?_⟩, ?_⟩
  · refine each_of_getElem g2.symm ?_
    intro j o o' ho ho'
    have hj : j < e.offsets.length := by
      rcases Nat.lt_or_ge j e.offsets.length with h | h
      · exact h
      · rw [List.getElem?_eq_none h] at ho; cases ho
    obtain ⟨t, o2, _, hh2, hh3⟩ := (g3 j).2 (by omega) (by omega)
    rw [hh2] at ho; cases ho
    simp only at ho'
    rw [hh3] at ho'; cases ho'
    exact trimOffsets_narrowed _ _ _ _
  · intro j hj
    exact (g3 j).2 (by omega) (by omega)

theorem narrowed_refl (o : Int × Int) : Narrowed o o := fun h => ⟨Int.le_refl _, h, Int.le_refl _⟩

theorem onlyOffsets_refl (e : Enc) : OnlyOffsets e e := by
  refine ⟨rfl, ?_⟩
  generalize e.offsets = l
  induction l with
  | nil => exact .nil
  | cons o l ih => exact .cons (narrowed_refl o) ih

theorem each_refl {α : Type} {R : α → α → Prop} (hR : ∀ a, R a a) (l : List α) : Each R l l := by
  induction l with
  | nil => exact .nil
  | cons a l ih => exact .cons (hR a) ih

theorem processAll_spec (a : Bool) (es : List Enc) (hal : ∀ e ∈ es, ∃ n, Aligned e n) :
    ∃ rs, processAll a es = .ok rs ∧ Each OnlyOffsets es rs := by
  induction es with
  | nil => exact ⟨[], rfl, .nil⟩
  | cons e es ih =>
    obtain ⟨n, hn⟩ := hal e (by simp)
    obtain ⟨r, h1, h2, _⟩ := processOffsets_spec a e n hn
    obtain ⟨rs, h3, h4⟩ := ih (fun x hx => hal x (by simp [hx]))
    exact ⟨r :: rs, by simp only [processAll, h1, h3, res_ok_bind, res_pure], .cons h2 h4⟩

/-- **C41, C40 for ByteLevel.** Byte-level post-processing returns for every aligned
encoding; in the encoding and in each of its overflow windows, all of which are kept, it
changes nothing but offsets, and every offset range only narrows. -/
theorem C41_only_narrows (a trim add : Bool) (e : Encoding) (n : Nat) (hal : Aligned e.toEnc n)
    (hov : ∀ w ∈ e.overflowing, ∃ k, Aligned w k) :
    ∃ r, PostProcessor.run add (.byteLevel a trim) e = .ok r ∧ OnlyOffsets e.toEnc r.toEnc ∧
      Each OnlyOffsets e.overflowing r.overflowing := by
  cases trim with
  | false =>
    exact ⟨e, by simp [PostProcessor.run, byteLevelProcess], onlyOffsets_refl _, each_refl onlyOffsets_refl _⟩
  | true =>
    obtain ⟨m, h1, h2, _⟩ := processOffsets_spec a e.toEnc n hal
    obtain ⟨rs, h3, h4⟩ := processAll_spec a e.overflowing hov
    refine ⟨{ toEnc := m, overflowing := rs }, ?_, h2, h4⟩
    simp only [PostProcessor.run, byteLevelProcess, if_true, h1, h3, res_ok_bind, res_pure]

/-- **C41, what is trimmed.** With `trim_offsets`, a token that is `l` space signs, text
that neither starts nor ends with one, and `t` space signs, and whose offsets are wide
enough, loses exactly the `l` first and `t` last positions; the single space that
`add_prefix_space` puts before the first word is not trimmed. -/
theorem C41_trim_value (a add : Bool) (e r : Encoding) (n : Nat) (hal : Aligned e.toEnc n)
    (hrun : PostProcessor.run add (.byteLevel a true) e = .ok r)
    (i : Nat) (tok : Str) (o : Int × Int) (htok : e.tokens[i]? = some tok) (ho : e.offsets[i]? = some o)
    (l t : Nat) (c : WStr) (htext : Utf8Text (List.replicate l spaceSign ++ c ++ List.replicate t spaceSign) tok)
    (hc : c ≠ []) (h1 : c.head? ≠ some spaceSign) (h2 : c.getLast? ≠ some spaceSign)
    (hfit : o.1 + l ≤ o.2 - t) (h0 : 0 ≤ o.1) :
    r.offsets[i]? = some (if (i = 0 ∨ o.1 = 0) ∧ a = true ∧ l = 1 then o.1 else o.1 + l, o.2 - t) := by
  obtain ⟨m, g1, _, g3⟩ := processOffsets_spec a e.toEnc n hal
  simp only [PostProcessor.run, byteLevelProcess, if_true, g1, res_ok_bind] at hrun
  obtain ⟨rs, _, hr⟩ := res_bind_ok.1 hrun
  simp at hr; subst hr
  have hi : i < n := by
    have hl : e.tokens.length = n := hal.2.2.1
    rcases Nat.lt_or_ge i e.tokens.length with h | h
    · omega
    · rw [List.getElem?_eq_none h] at htok; cases htok
  obtain ⟨t', o', k1, k2, k3⟩ := g3 i hi
  rw [htok] at k1; cases k1
  rw [ho] at k2; cases k2
  show m.offsets[i]? = _
  rw [k3, trimOffsets_value a i tok o l t c htext (by cases c <;> simp_all) h1 h2 hfit h0]

/-- No template processor in the tree. -/
inductive NoTemplate : PostProcessor → Prop
  | byteLevel (a t : Bool) : NoTemplate (.byteLevel a t)
  | seq {l : List PostProcessor} : (∀ p ∈ l, NoTemplate p) → NoTemplate (.seq l)

theorem onlyOffsets_aligned {e r : Enc} {n : Nat} (h : OnlyOffsets e r) (hal : Aligned e n) : Aligned r n := by
  obtain ⟨h1, h2⟩ := h
  have hl : e.offsets.length = r.offsets.length := by
    generalize e.offsets = x at h2; generalize r.offsets = y at h2
    induction h2 with
    | nil => rfl
    | cons _ _ ih => simp [ih]
  rw [← h1] at hal
  obtain ⟨a1, a2, a3, a4, a5, a6, a7⟩ := hal
  exact ⟨a1, a2, a3, a4, by simp only at a5; omega, a6, a7⟩

theorem each_trans {α : Type} {R : α → α → Prop} (hR : ∀ a b c, R a b → R b c → R a c) {l m n : List α}
    (h1 : Each R l m) (h2 : Each R m n) : Each R l n := by
  induction h1 generalizing n with
  | nil => cases h2; exact .nil
  | cons a _ ih => cases h2 with | cons b h2 => exact .cons (hR _ _ _ a b) (ih h2)

theorem onlyOffsets_trans (a b c : Enc) (h1 : OnlyOffsets a b) (h2 : OnlyOffsets b c) : OnlyOffsets a c := by
  obtain ⟨e1, n1⟩ := h1
  obtain ⟨e2, n2⟩ := h2
  refine ⟨?_, each_trans ?_ n1 n2⟩
  · cases a; cases b; cases c; simp at e1 e2 ⊢; simp_all
  · intro x y z hx hy ho
    have := hx ho; have := hy this.2.1; omega

theorem each_mem_right {α β : Type} {R : α → β → Prop} {l : List α} {m : List β} (h : Each R l m) :
    ∀ b ∈ m, ∃ a ∈ l, R a b := by
  induction h with
  | nil => simp
  | cons hab _ ih =>
    intro b hb; simp at hb; rcases hb with rfl | hb
    · exact ⟨_, by simp, hab⟩
    · obtain ⟨a, ha, hr⟩ := ih b hb; exact ⟨a, by simp [ha], hr⟩

/-- **C40** (partial: post-processors without a template).  Post-processing returns and
keeps every overflow window, changing nothing but narrowing offsets. -/
theorem C40_kept_partial (add : Bool) (p : PostProcessor) (hp : NoTemplate p) (e : Encoding) (n : Nat)
    (hal : Aligned e.toEnc n) (hov : ∀ w ∈ e.overflowing, ∃ k, Aligned w k) :
    ∃ r, PostProcessor.run add p e = .ok r ∧ OnlyOffsets e.toEnc r.toEnc ∧
      Each OnlyOffsets e.overflowing r.overflowing := by
  refine PostProcessor.rec
    (motive_1 := fun p => NoTemplate p → ∀ e : Encoding, Aligned e.toEnc n →
      (∀ w ∈ e.overflowing, ∃ k, Aligned w k) →
      ∃ r, PostProcessor.run add p e = .ok r ∧ OnlyOffsets e.toEnc r.toEnc ∧
        Each OnlyOffsets e.overflowing r.overflowing)
    (motive_2 := fun l => (∀ p ∈ l, NoTemplate p) → ∀ e : Encoding, Aligned e.toEnc n →
      (∀ w ∈ e.overflowing, ∃ k, Aligned w k) →
      ∃ r, PostProcessor.runList add l e = .ok r ∧ OnlyOffsets e.toEnc r.toEnc ∧
        Each OnlyOffsets e.overflowing r.overflowing) ?_ ?_ ?_ ?_ ?_ p hp e hal hov
  · intro _ _ _ h; cases h
  · intro a t _ e hal hov; exact C41_only_narrows a t add e n hal hov
  · intro l ih h e hal hov
    cases h with | seq h => simpa only [PostProcessor.run] using ih h e hal hov
  · intro _ e _ _; exact ⟨e, rfl, onlyOffsets_refl _, each_refl onlyOffsets_refl _⟩
  · intro p l ihp ihl h e hal hov
    obtain ⟨r, h1, h2, h3⟩ := ihp (h p (by simp)) e hal hov
    obtain ⟨q, h4, h5, h6⟩ := ihl (fun x hx => h x (by simp [hx])) r (onlyOffsets_aligned h2 hal) (by
      intro w hw
      obtain ⟨v, hv, hvw⟩ := each_mem_right h3 w hw
      obtain ⟨k, hk⟩ := hov v hv
      exact ⟨k, onlyOffsets_aligned hvw hk⟩)
    exact ⟨q, by simp only [PostProcessor.runList, h1, res_ok_bind, h4], onlyOffsets_trans _ _ _ h2 h5,
      each_trans onlyOffsets_trans h3 h6⟩

/-- A case of C40: two byte-level processors after a truncation. -/
example : ∃ e r, Truncation.run ⟨.right, .longestFirst, 3, 1⟩ (sampleEnc 6) = .ok e ∧
    NoTemplate (.seq [.byteLevel true true, .byteLevel false true]) ∧
    PostProcessor.run true (.seq [.byteLevel true true, .byteLevel false true]) e = .ok r ∧
    r.overflowing.map (·.ids) = [[2, 3, 4], [4, 5]] :=
  ⟨_, _, rfl, .seq (by intro p hp; simp at hp; rcases hp with rfl | rfl <;> exact .byteLevel _ _), rfl,
    by decide +kernel⟩

/-- A case of C41: the token `Ġhi` at (3, 6). -/
example : ∃ r, PostProcessor.run true (.byteLevel false true)
    { ids := [0, 1], typeIds := [0, 0], tokens := [b!"yes", b!"Ġhi"], words := [some 0, some 1],
      offsets := [(0, 3), (3, 6)], specialTokensMask := [0, 0], attentionMask := [1, 1] } = .ok r ∧
    r.offsets = [(0, 3), (4, 6)] := ⟨_, rfl, by decide +kernel⟩

end Tok
