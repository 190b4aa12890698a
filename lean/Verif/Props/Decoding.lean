import Verif.Spec.Decoding
import Verif.Props.Decoder
import Verif.Props.ByteLevel
import Verif.Props.Numbering

set_option autoImplicit false

/-!
C110: the exact outcome of `decode`, for every tokenizer, history, list of ids and decoder.
-/

namespace Tok

open Spec

/-! ### Reading bytes as UTF-8 -/

theorem dc_step {c : Nat} {x y : Str} (h : Utf8Char c x) : utf8Step (x ++ y) = some (c, x.length) := by
  obtain ⟨h1, rfl⟩ := utf8Char_iff.1 h
  exact utf8Step_enc h1 y

theorem dc_broken_ge {s : Str} : 1 ≤ brokenLen s := by
  unfold brokenLen
  split
  · split
    · split
      · split <;> omega
      · omega
    · omega
  · omega

theorem dc_broken_le {b0 : Nat} {r : Str} : brokenLen (b0 :: r) ≤ (b0 :: r).length := by
  cases r with
  | nil => simp [brokenLen]
  | cons b1 r =>
    simp only [brokenLen]
    split
    · cases r with
      | nil => simp
      | cons b2 r => simp only; split <;> simp
    · simp

theorem dc_leadPair {b0 b1 : Nat} : leadPair b0 b1 = true ↔ 0x80 ≤ b1 ∧ b1 < 0xC0 ∧ (b0 = 0xE0 → 0xA0 ≤ b1) ∧
    (b0 = 0xED → b1 < 0xA0) ∧ (b0 = 0xF0 → 0x90 ≤ b1) ∧ (b0 = 0xF4 → b1 < 0x90) := by
  simp only [leadPair, isCont, Bool.and_eq_true, decide_eq_true_eq, Bool.not_eq_true', Bool.and_eq_false_iff,
    beq_eq_false_iff_ne, decide_eq_false_iff_not, ne_eq]
  omega

theorem dc_isCont {b : Nat} : isCont b = true ↔ 0x80 ≤ b ∧ b < 0xC0 := by
  simp only [isCont, Bool.and_eq_true, decide_eq_true_eq]

/-- What is read as broken is a single byte or begins a character. -/
theorem dc_starts (s : Str) (h : 1 < brokenLen s) : StartsChar (s.take (brokenLen s)) := by
  match s with
  | [] => simp [brokenLen] at h
  | [_] => simp [brokenLen] at h
  | b0 :: b1 :: r =>
    by_cases hc : (0xE0 ≤ b0 ∧ b0 < 0xF5) ∧ leadPair b0 b1 = true
    · have hl := dc_leadPair.1 hc.2
      have two : StartsChar [b0, b1] := by
        by_cases h3 : b0 < 0xF0
        · have := Utf8Char.three (b0 - 0xE0) (b1 - 0x80) 0 (by omega) (by omega) (by omega) (by omega) (by omega)
          rw [show 0xE0 + (b0 - 0xE0) = b0 by omega, show 0x80 + (b1 - 0x80) = b1 by omega] at this
          exact ⟨_, [0x80], this⟩
        · have := Utf8Char.four (b0 - 0xF0) (b1 - 0x80) 0 0 (by omega) (by omega) (by omega) (by omega) (by omega) (by omega)
          rw [show 0xF0 + (b0 - 0xF0) = b0 by omega, show 0x80 + (b1 - 0x80) = b1 by omega] at this
          exact ⟨_, [0x80, 0x80], this⟩
      clear h
      cases r with
      | nil =>
        have e : brokenLen [b0, b1] = 2 := by simp only [brokenLen]; rw [if_pos (by simp [hc])]
        rw [e]; exact two
      | cons b2 r =>
        have e : brokenLen (b0 :: b1 :: b2 :: r) = if 0xF0 ≤ b0 && isCont b2 then 3 else 2 := by
          simp only [brokenLen]; rw [if_pos (by simp [hc])]
        rw [e]
        by_cases h4 : 0xF0 ≤ b0 ∧ isCont b2 = true
        · rw [if_pos (by simp [h4])]
          have := dc_isCont.1 h4.2
          have := Utf8Char.four (b0 - 0xF0) (b1 - 0x80) (b2 - 0x80) 0 (by omega) (by omega) (by omega) (by omega) (by omega) (by omega)
          rw [show 0xF0 + (b0 - 0xF0) = b0 by omega, show 0x80 + (b1 - 0x80) = b1 by omega,
            show 0x80 + (b2 - 0x80) = b2 by omega] at this
          exact ⟨_, [0x80], this⟩
        · rw [if_neg (by simpa using h4)]
          exact two
    · simp only [brokenLen] at h
      rw [if_neg (by simpa using hc)] at h
      omega

/-- Nothing longer begins a character. -/
theorem dc_longest {s x y : Str} (hn : utf8Step s = none) (e : s = x ++ y) (hl : brokenLen s < x.length) :
    ¬ StartsChar x := by
  rintro ⟨c, z, h⟩
  have hge := dc_broken_ge (s := s)
  have full : z = [] → False := by
    rintro rfl
    rw [List.append_nil] at h
    rw [e, dc_step h] at hn; cases hn
  have hx : ∃ b0 b1 r, x = b0 :: b1 :: r := by
    match x with
    | [] => simp at hl
    | [_] => simp at hl; omega
    | b0 :: b1 :: r => exact ⟨b0, b1, r, rfl⟩
  obtain ⟨b0, b1, r, rfl⟩ := hx
  cases r with
  | nil =>
    generalize hq : [b0, b1] ++ z = q at h
    have hb : ¬ ((0xE0 ≤ b0 ∧ b0 < 0xF5) ∧ leadPair b0 b1 = true) := by
      intro hc
      have : 2 ≤ brokenLen s := by
        rw [e]
        simp only [List.cons_append, List.nil_append, brokenLen]
        rw [if_pos (by simp [hc])]
        split
        · split <;> omega
        · omega
      simp only [List.length_cons, List.length_nil] at hl
      omega
    rw [dc_leadPair] at hb
    cases h with
    | one => cases hq
    | two => simp only [List.cons_append, List.nil_append, List.cons.injEq] at hq; exact full hq.2.2
    | three => simp only [List.cons_append, List.nil_append, List.cons.injEq] at hq; omega
    | four => simp only [List.cons_append, List.nil_append, List.cons.injEq] at hq; omega
  | cons b2 r =>
    generalize hq : b0 :: b1 :: b2 :: r ++ z = q at h
    cases h with
    | one => cases hq
    | two => cases hq
    | three =>
      simp only [List.cons_append, List.cons.injEq, List.append_eq_nil_iff] at hq
      exact full hq.2.2.2.2
    | four =>
      simp only [List.cons_append, List.cons.injEq] at hq
      cases r with
      | cons b3 r =>
        simp only [List.cons_append, List.cons.injEq, List.append_eq_nil_iff] at hq
        exact full hq.2.2.2.2.2
      | nil =>
        have : brokenLen s = 3 := by
          rw [e]
          simp only [List.cons_append, List.nil_append, brokenLen]
          rw [if_pos ?_, if_pos ?_]
          · simp only [Bool.and_eq_true, decide_eq_true_eq, dc_isCont]; omega
          · simp only [Bool.and_eq_true, decide_eq_true_eq, dc_leadPair]; omega
        simp only [List.length_cons, List.length_nil] at hl
        omega

theorem dc_lossy : ∀ (n : Nat) (s : Str), s.length ≤ n → Reads s (utf8LossyFuel n s) := by
  intro n
  induction n with
  | zero => intro s hs; cases s with | nil => exact .nil | cons => simp at hs
  | succ n ih =>
    intro s hs
    cases s with
    | nil => exact .nil
    | cons b r =>
      rw [utf8LossyFuel]
      cases hst : utf8Step (b :: r) with
      | none =>
        simp only
        have h1 := dc_broken_ge (s := b :: r)
        have h2 := dc_broken_le (b0 := b) (r := r)
        have key := ih ((b :: r).drop (brokenLen (b :: r))) (by rw [List.length_drop]; omega)
        have e := List.take_append_drop (brokenLen (b :: r)) (b :: r)
        have hlen : ((b :: r).take (brokenLen (b :: r))).length = brokenLen (b :: r) := by
          rw [List.length_take]; omega
        have := Reads.broken (b := (b :: r).take (brokenLen (b :: r))) ?_ ?_ ?_ key
        · rw [e] at this; exact this
        · intro c x y hx he
          rw [e] at he
          rw [he, dc_step hx] at hst; cases hst
        · rw [hlen]
          by_cases h : brokenLen (b :: r) = 1
          · exact .inl h
          · exact .inr ⟨by omega, dc_starts _ (by omega)⟩
        · intro x y he hl
          rw [e] at he
          rw [hlen] at hl
          exact dc_longest hst he hl
      | some p =>
        obtain ⟨c, k⟩ := p
        simp only
        obtain ⟨h1, h2, h3⟩ := utf8Step_sound hst
        have hp := utf8Enc1_length_pos c
        have := Reads.char (utf8Char_iff.2 ⟨h1, rfl⟩) (ih ((b :: r).drop k) (by
          rw [List.length_drop]; omega))
        rw [← h3] at this
        exact this

/-- How bytes are read is determined. -/
theorem dc_reads_unique {s : Str} {w w' : WStr} (h : Reads s w) (h' : Reads s w') : w = w' := by
  induction h generalizing w' with
  | nil =>
    generalize hq : ([] : Str) = q at h'
    cases h' with
    | nil => rfl
    | char hc =>
      exfalso
      have := dc_step (y := []) hc
      rw [List.append_eq_nil_iff.1 hq.symm |>.1] at this
      simp [utf8Step] at this
    | broken _ hb =>
      exfalso
      rw [(List.append_eq_nil_iff.1 hq.symm).1] at hb
      simp at hb
  | @char c b s w hc _ ih =>
    generalize hq : b ++ s = q at h'
    cases h' with
    | nil =>
      exfalso
      have := dc_step (y := []) hc
      rw [List.append_eq_nil_iff.1 hq |>.1] at this
      simp [utf8Step] at this
    | @char c' b' s' w' hc' h' =>
      have h1 := dc_step (y := s) hc
      rw [hq, dc_step (y := s') hc', Option.some.injEq, Prod.mk.injEq] at h1
      obtain ⟨rfl, -⟩ := h1
      obtain ⟨h2, rfl⟩ := utf8Char_iff.1 hc
      obtain ⟨h3, rfl⟩ := utf8Char_iff.1 hc'
      rw [ih (List.append_cancel_left hq ▸ h')]
    | broken hno => exact absurd hq.symm (hno c b s hc)
  | @broken b s w hno hb hm _ ih =>
    generalize hq : b ++ s = q at h'
    cases h' with
    | nil =>
      exfalso
      rw [(List.append_eq_nil_iff.1 hq).1] at hb
      simp at hb
    | @char c' b' s' w' hc' _ => exact absurd hq (hno c' b' s' hc')
    | @broken b' s' w' hno' hb' hm' h' =>
      have hlen : b.length = b'.length := by
        rcases Nat.lt_trichotomy b.length b'.length with h | h | h
        · exfalso
          rcases hb' with h1 | h1
          · rcases hb with h2 | h2 <;> omega
          · exact hm b' s' hq h h1.2
        · exact h
        · exfalso
          rcases hb with h1 | h1
          · rcases hb' with h2 | h2 <;> omega
          · exact hm' b s hq.symm h h1.2
      obtain ⟨rfl, rfl⟩ := List.append_inj hq hlen
      rw [ih h']

/-- **C110** Every string of bytes can be read, and `fromUTF8` gives the UTF-16 form of what is read. -/
theorem C110_reads (s : Str) : ∃ w, Reads s w ∧ Scalars w ∧ fromUTF8 s = utf16 w :=
  ⟨_, dc_lossy s.length s (Nat.le_refl _), utf8LossyFuel_scalars _ _, rfl⟩

/-- Well-formed text is read as its code points. -/
theorem C110_reads_text {w : WStr} {s : Str} (h : Utf8Text w s) : Reads s w := by
  induction h with
  | nil => exact .nil
  | cons hc _ ih => exact .char hc ih

/-! ### The byte-level decoder -/

attribute [local irreducible] charBytes

theorem dc_unit (u : U16) (i : Nat) : decodeUnit u i = char32At u i % 256 := by
  unfold decodeUnit
  exact charBytes_table

theorem dc_get {α : Type} (A B : List α) (i : Nat) : (A ++ B)[A.length + i]? = B[i]? := by
  rw [List.getElem?_append_right (by omega)]
  congr 1; omega

/-- The code point at a unit does not depend on what is around the character. -/
theorem dc_char32 {c : Nat} (hc : isScalar c = true) (A B : U16) :
    (c < 0x10000 → char32At (A ++ (utf16Enc1 c ++ B)) A.length = c) ∧
    (¬ c < 0x10000 → char32At (A ++ (utf16Enc1 c ++ B)) A.length = c ∧
      char32At (A ++ (utf16Enc1 c ++ B)) (A.length + 1) = c) := by
  rw [isScalar_iff] at hc
  constructor
  · intro h
    have e : utf16Enc1 c = [c] := by simp [utf16Enc1, h]
    unfold char32At
    have g := dc_get A (utf16Enc1 c ++ B) 0
    rw [Nat.add_zero] at g
    rw [g, e]
    simp only [List.cons_append, List.nil_append, List.getElem?_cons_zero]
    have h1 : isLead c = false := by
      cases hl : isLead c with
      | false => rfl
      | true => simp only [isLead, Bool.and_eq_true, decide_eq_true_eq] at hl; omega
    have h2 : isTrail c = false := by
      cases hl : isTrail c with
      | false => rfl
      | true => simp only [isTrail, Bool.and_eq_true, decide_eq_true_eq] at hl; omega
    simp [h1, h2]
  · intro h
    have e : utf16Enc1 c = [0xD800 + (c - 0x10000) / 1024, 0xDC00 + (c - 0x10000) % 1024] := by simp [utf16Enc1, h]
    have hm := Nat.mod_lt (c - 0x10000) (show 1024 > 0 by omega)
    have hd := Nat.div_add_mod (c - 0x10000) 1024
    generalize hx : 0xD800 + (c - 0x10000) / 1024 = x at e
    generalize hy : 0xDC00 + (c - 0x10000) % 1024 = y at e
    have h1 : isLead x = true := by simp only [isLead, Bool.and_eq_true, decide_eq_true_eq]; omega
    have h2 : isTrail y = true := by simp only [isTrail, Bool.and_eq_true, decide_eq_true_eq]; omega
    have h3 : isLead y = false := by
      cases hl : isLead y with
      | false => rfl
      | true => simp only [isLead, Bool.and_eq_true, decide_eq_true_eq] at hl; omega
    have h4 : pairCode x y = c := by unfold pairCode; omega
    have g0 := dc_get A (utf16Enc1 c ++ B) 0
    have g1 := dc_get A (utf16Enc1 c ++ B) 1
    rw [Nat.add_zero] at g0
    rw [e] at g0 g1
    simp only [List.cons_append, List.nil_append, List.getElem?_cons_zero, List.getElem?_cons_succ] at g0 g1
    rw [e]
    simp only [List.cons_append, List.nil_append]
    constructor
    · unfold char32At
      rw [g0]
      simp only [h1, if_true]
      rw [g1]
      simp only [h2, if_true, h4]
    · unfold char32At
      rw [g1]
      simp only [h3, h2, if_true, Bool.false_eq_true, if_false]
      rw [g0]
      simp only [h1, if_true, h4]

theorem dc_units {w : WStr} (hw : Scalars w) : ∀ A : U16,
    (List.range' A.length (utf16 w).length).map (decodeUnit (A ++ utf16 w)) = lowBytes w := by
  induction w with
  | nil => intro A; simp [utf16, lowBytes]
  | cons c w ih =>
    intro A
    rw [Scalars.cons] at hw
    obtain ⟨h1, h2⟩ := dc_char32 hw.1 A (utf16 w)
    have key := ih hw.2 (A ++ utf16Enc1 c)
    rw [List.append_assoc, List.length_append] at key
    rw [utf16_cons]
    have hl : lowBytes (c :: w) = (if c < 0x10000 then [c % 256] else [c % 256, c % 256]) ++ lowBytes w := by
      simp [lowBytes]
    rw [hl, List.length_append]
    by_cases h : c < 0x10000
    · have e : (utf16Enc1 c).length = 1 := by simp [utf16Enc1, h]
      rw [e] at key ⊢
      rw [if_pos h, Nat.add_comm 1, List.range'_succ, List.map_cons, dc_unit, h1 h, key]
      rfl
    · have e : (utf16Enc1 c).length = 2 := by simp [utf16Enc1, h]
      rw [e] at key ⊢
      rw [if_neg h, Nat.add_comm 2, List.range'_succ, List.range'_succ, List.map_cons, List.map_cons, dc_unit, dc_unit,
        (h2 h).1, (h2 h).2, key]
      rfl

theorem dc_bytes {t : Str} {w : WStr} (h : Reads t w) : decodeBytes t = lowBytes w := by
  obtain ⟨w', h1, h2, h3⟩ := C110_reads t
  cases dc_reads_unique h h1
  unfold decodeBytes
  simp only [h3]
  have := dc_units h2 []
  rw [List.range_eq_range']
  simpa using this

/-! ### Every decoder -/

theorem dc_rules (l : List (Str × Str)) (hl : ∀ r ∈ l, r.1 ≠ []) : ∀ s, ∃ t, applyRules l s = .ok t ∧ ReplacedAll l s t := by
  induction l with
  | nil => intro s; exact ⟨s, rfl, .nil s⟩
  | cons r l ih =>
    intro s
    obtain ⟨o, h1, h2⟩ := C58_replaced s r.1 r.2 (hl r (by simp))
    obtain ⟨t, h3, h4⟩ := ih (fun r hr => hl r (by simp [hr])) o
    refine ⟨t, ?_, .cons h2 h4⟩
    obtain ⟨p, q⟩ := r
    simp only [applyRules] at h1 ⊢
    rw [h1]; exact h3

theorem dc_cleanups : cleanupRules = cleanups := by decide

theorem dc_tidied (cleanup : Bool) (s : Str) : ∃ t, (if cleanup then cleanupToken s else .ok s) = .ok t ∧ Tidied cleanup s t := by
  cases cleanup with
  | false => exact ⟨s, rfl, by simp [Tidied]⟩
  | true =>
    obtain ⟨t, h1, h2⟩ := dc_rules cleanups (by decide) s
    refine ⟨t, ?_, by simp [Tidied, h2]⟩
    rw [if_pos rfl, cleanupToken, dc_cleanups]; exact h1

theorem dc_find {t pre : Str} : strFind t pre 0 = some 0 ↔ ∃ x, t = pre ++ x := by
  unfold strFind
  rw [if_pos (Nat.zero_le _)]
  simp only [List.drop_zero, Nat.add_zero, Option.map_id']
  rw [← isPrefixOf_iff]
  cases t with
  | nil =>
    simp only [findSub]
    cases pre with
    | nil => simp
    | cons => simp
  | cons c r =>
    simp only [findSub]
    by_cases h : pre.isPrefixOf (c :: r) = true
    · simp [h]
    · simp [h]

theorem dc_attached (pre t : Str) :
    Attached pre t (if strFind t pre 0 = some 0 then t.drop pre.length else 0x20 :: t) := by
  by_cases h : strFind t pre 0 = some 0
  · rw [if_pos h]
    obtain ⟨x, rfl⟩ := dc_find.1 h
    rw [List.drop_left]
    exact .continued x
  · rw [if_neg h]
    exact .new fun x hx => h (dc_find.2 ⟨x, hx⟩)

theorem dc_later (pre : Str) (c : Bool) (ts : List Str) : ∀ i, ∃ us os, wpDecodeLoop pre c (i + 1) ts = .ok os ∧
    Each (Attached pre) ts us ∧ Each (Tidied c) us os := by
  induction ts with
  | nil => intro i; exact ⟨[], [], rfl, .nil, .nil⟩
  | cons t r ih =>
    intro i
    obtain ⟨us, os, h1, h2, h3⟩ := ih (i + 1)
    obtain ⟨o, h4, h5⟩ := dc_tidied c (if strFind t pre 0 = some 0 then t.drop pre.length else 0x20 :: t)
    refine ⟨_ :: us, o :: os, ?_, .cons (dc_attached pre t) h2, .cons h5 h3⟩
    have : wpDecodeTok pre c (i + 1) t = .ok o := by
      unfold wpDecodeTok
      simp only [ne_eq, Nat.succ_ne_zero, not_false_eq_true, if_true]
      exact h4
    simp only [wpDecodeLoop, this, res_ok_bind, h1]
    rfl

theorem dc_reads_all (ts : List Str) : ∃ ws, Each Reads ts ws ∧ ts.flatMap decodeBytes = ws.flatMap lowBytes := by
  induction ts with
  | nil => exact ⟨[], .nil, rfl⟩
  | cons t r ih =>
    obtain ⟨ws, h1, h2⟩ := ih
    obtain ⟨w, h3, -, -⟩ := C110_reads t
    exact ⟨w :: ws, .cons h3 h1, by rw [List.flatMap_cons, List.flatMap_cons, dc_bytes h3, h2]⟩

/-- **C110** Every decoder returns, for every list of tokens, what its rule says. -/
theorem C110_decoder (d : Decoder) : ∀ ts, ∃ out, d.run ts = .ok out ∧ Decodes d ts out := by
  refine Decoder.rec (motive_1 := fun d => ∀ ts, ∃ out, d.run ts = .ok out ∧ Decodes d ts out)
    (motive_2 := fun l => ∀ ts, ∃ out, Decoder.runList l ts = .ok out ∧ Decodes (.seq l) ts out) ?_ ?_ ?_ ?_ ?_ ?_ ?_ ?_ ?_ d
  · intro pre c ts
    simp only [Decoder.run]
    cases ts with
    | nil => exact ⟨[], rfl, .wordPieceNone pre c⟩
    | cons t r =>
      obtain ⟨us, os, h1, h2, h3⟩ := dc_later pre c r 0
      obtain ⟨o, h4, h5⟩ := dc_tidied c t
      refine ⟨o :: os, ?_, .wordPiece h2 h5 h3⟩
      have : wpDecodeTok pre c 0 t = .ok o := by
        unfold wpDecodeTok
        simpa using h4
      simp only [wpDecodeLoop, this, res_ok_bind, h1]
      rfl
  · intro p c ts; exact ⟨[], by simp only [Decoder.run], .replace p c ts⟩
  · intro ts; exact ⟨[], by simp only [Decoder.run], .byteFallback ts⟩
  · intro ts; exact ⟨[], by simp only [Decoder.run], .fuse ts⟩
  · intro c s e ts; exact ⟨[], by simp only [Decoder.run], .strip c s e ts⟩
  · intro ts
    obtain ⟨ws, h1, h2⟩ := dc_reads_all ts
    exact ⟨[ws.flatMap lowBytes], by simp only [Decoder.run, byteLevelDecode, h2], .byteLevel h1⟩
  · intro l ih ts
    obtain ⟨out, h, h'⟩ := ih ts
    exact ⟨out, by simp only [Decoder.run]; exact h, h'⟩
  · intro ts; exact ⟨ts, by simp only [Decoder.runList], .seqNil ts⟩
  · intro d r ih1 ih2 ts
    obtain ⟨o, h, g⟩ := ih1 ts
    obtain ⟨o', h', g'⟩ := ih2 o
    exact ⟨o', by simp only [Decoder.runList, h, res_ok_bind]; exact h', .seqCons g g'⟩

theorem dc_each_unique {α β : Type} {R : α → β → Prop} (hR : ∀ a b b', R a b → R a b' → b = b') {l : List α} {m m' : List β}
    (h : Each R l m) (h' : Each R l m') : m = m' := by
  induction h generalizing m' with
  | nil => cases h'; rfl
  | cons h1 _ ih => cases h' with | cons h2 h3 => rw [hR _ _ _ h1 h2, ih h3]

theorem dc_all_unique {l : List (Str × Str)} {s t t' : Str} (h : ReplacedAll l s t) (h' : ReplacedAll l s t') : t = t' := by
  induction h generalizing t' with
  | nil => cases h'; rfl
  | cons h1 _ ih =>
    cases h' with
    | cons h2 h3 =>
      cases C58_unique h1 h2
      exact ih h3

theorem dc_tidied_unique {c : Bool} (s t t' : Str) (h : Tidied c s t) (h' : Tidied c s t') : t = t' := by
  cases c with
  | true => exact dc_all_unique (h.1 rfl) (h'.1 rfl)
  | false => rw [h.2 rfl, h'.2 rfl]

theorem dc_attached_unique {pre : Str} (t u u' : Str) (h : Attached pre t u) (h' : Attached pre t u') : u = u' := by
  cases h with
  | continued =>
    generalize hq : pre ++ u = q at h'
    cases h' with
    | continued => exact List.append_cancel_left hq
    | new hn => exact absurd hq.symm (hn _)
  | new hn =>
    cases h' with
    | continued => exact absurd rfl (hn _)
    | new => rfl

/-- **C110** The rules leave no choice. -/
theorem C110_decoder_unique {d : Decoder} {ts os os' : List Str} (h : Decodes d ts os) (h' : Decodes d ts os') : os = os' := by
  induction h generalizing os' with
  | wordPieceNone => cases h'; rfl
  | wordPiece h1 h2 h3 =>
    cases h' with
    | wordPiece g1 g2 g3 =>
      cases dc_each_unique dc_attached_unique h1 g1
      rw [dc_tidied_unique _ _ _ h2 g2, dc_each_unique dc_tidied_unique h3 g3]
  | byteLevel h1 =>
    cases h' with
    | byteLevel g1 => rw [dc_each_unique (R := Reads) (fun _ _ _ g g' => dc_reads_unique g g') h1 g1]
  | replace => cases h'; rfl
  | byteFallback => cases h'; rfl
  | fuse => cases h'; rfl
  | strip => cases h'; rfl
  | seqNil => cases h'; rfl
  | seqCons _ _ ih1 ih2 =>
    cases h' with
    | seqCons g1 g2 =>
      cases ih1 g1
      exact ih2 g2

/-! ### From ids to tokens -/

theorem dc_given (c : Call) : c.given = c.tokens.map (·.content) := by cases c <;> rfl

theorem dc_given_all (cs : List Call) : cs.flatMap Call.given = (cs.flatMap Call.tokens).map (·.content) := by
  induction cs with
  | nil => rfl
  | cons c cs ih => rw [List.flatMap_cons, List.flatMap_cons, List.map_append, ih, dc_given]

theorem dc_special_append {l l' : List AddedToken} {s : Str} : GivenSpecial (l ++ l') s ↔ GivenSpecial l s ∨ GivenSpecial l' s := by
  unfold GivenSpecial
  constructor
  · rintro ⟨h, x, hx, h'⟩
    rcases List.mem_append.1 hx with hx | hx
    · exact .inl ⟨h, x, hx, h'⟩
    · exact .inr ⟨h, x, hx, h'⟩
  · rintro (⟨h, x, hx, h'⟩ | ⟨h, x, hx, h'⟩)
    · exact ⟨h, x, by simp [hx], h'⟩
    · exact ⟨h, x, by simp [hx], h'⟩

theorem dc_encode_decoder (P : Platform) (t : Tokenizer) (w : WStr) (b : Bool) : (t.encode P w b).2.decoder = t.decoder := by
  have h1 : (t.preTokenized P w).2.decoder = t.decoder := by
    rcases preTokenized_state P t w with h | ⟨a, _, h⟩ <;> rw [h]
  unfold Tokenizer.encode
  split
  · rename_i h; rw [h] at h1; exact h1
  · rename_i p t1 h
    rw [h] at h1
    have h2 : (t1.doTokenize P p).2.decoder = t1.decoder := by rw [doTokenize_state]
    split
    · rename_i h; rw [h] at h2; exact h2.trans h1
    · rename_i h; rw [h] at h2; exact h2.trans h1

/-- What the calls leave as it is, and what becomes special. -/
theorem dc_history {P : Platform} {t t' : Tokenizer} {cs : List Call} (h : History P t cs t') :
    t'.decoder = t.decoder ∧ ∀ s, t'.isSpecial s = true ↔ t.isSpecial s = true ∨ GivenSpecial (cs.flatMap Call.tokens) s := by
  induction h with
  | nil => exact ⟨rfl, fun s => by simp [GivenSpecial]⟩
  | @cons t u t'' c cs h1 _ ih =>
    have add : ∀ l n, t.addTokens l = .ok (n, u) → u.decoder = t.decoder ∧
        ∀ s, u.isSpecial s = true ↔ t.isSpecial s = true ∨ GivenSpecial l s := by
      intro l n h
      refine ⟨?_, fun s => ?_⟩
      · obtain ⟨a, a', -, -, rfl⟩ := addTokens_ok h; rfl
      · rw [C33_special_iff_partial (.inl h) s]
        constructor
        · rintro (h | ⟨x, h1, h2, h3, h4⟩)
          · exact .inl h
          · exact .inr ⟨h4, x, h1, h2, h3⟩
        · rintro (h | ⟨h4, x, h1, h2, h3⟩)
          · exact .inl h
          · exact .inr ⟨x, h1, h2, h3, h4⟩
    have step : u.decoder = t.decoder ∧ ∀ s, u.isSpecial s = true ↔ t.isSpecial s = true ∨ GivenSpecial c.tokens s := by
      cases h1 with
      | encode w b =>
        refine ⟨dc_encode_decoder P t w b, fun s => ?_⟩
        have : (t.encode P w b).2.isSpecial s = t.isSpecial s := by
          rcases (encode_state P t w b).1 with h | ⟨a, ha, h⟩
          · unfold Tokenizer.isSpecial; rw [h]
          · unfold Tokenizer.isSpecial
            rw [ha, h]
            show AddedVocab.isSpecial _ s = _
            rw [(extract_touched P t.normalizer a w).same]
            rfl
        rw [this]
        simp [Call.tokens, GivenSpecial]
      | decode => exact ⟨rfl, fun s => by simp [Call.tokens, GivenSpecial]⟩
      | addTokens h => exact add _ _ h
      | addSpecialTokens h => exact add _ _ h
    refine ⟨ih.1.trans step.1, fun s => ?_⟩
    rw [ih.2 s, step.2 s, List.flatMap_cons, dc_special_append, or_assoc]

theorem dc_kept (t : Tokenizer) (given : List AddedToken) (hs : ∀ s, t.isSpecial s = true ↔ GivenSpecial given s)
    (look : Int → Option Str) (hl : ∀ i, t.idToken i = match look i with
      | some c => .ok c
      | none => .error (.throws .badOptionalAccess)) (skip : Bool) (ids : List Int) :
    (t.idTokens skip ids = .error (.throws .badOptionalAccess) ∧ ∃ i ∈ ids, look i = none) ∨
    ∃ ts us, t.idTokens skip ids = .ok us ∧ Each (fun i s => look i = some s) ids ts ∧ Kept given skip ts us := by
  induction ids with
  | nil => exact .inr ⟨[], [], rfl, .nil, .nil⟩
  | cons i r ih =>
    simp only [Tokenizer.idTokens, hl i]
    cases h : look i with
    | none => exact .inl ⟨rfl, i, by simp, h⟩
    | some s =>
      simp only [res_ok_bind]
      rcases ih with ⟨h1, j, hj, h2⟩ | ⟨ts, us, h1, h2, h3⟩
      · exact .inl ⟨by rw [h1]; rfl, j, by simp [hj], h2⟩
      · refine .inr ⟨s :: ts, if !skip || !t.isSpecial s then s :: us else us, by rw [h1]; rfl, .cons h h2, ?_⟩
        cases hk : skip with
        | false => subst hk; exact .keep (by simp) h3
        | true =>
          subst hk
          cases hq : t.isSpecial s with
          | true => exact .out rfl ((hs s).1 hq) h3
          | false =>
            refine .keep (fun _ hg => ?_) h3
            rw [(hs s).2 hg] at hq; cases hq

/-- **C110** What `decode` returns or throws after any history is determined by the tokens given so far, the
vocabulary and the decoder. -/
theorem C110_decode (P : Platform) {t0 t t' : Tokenizer} {l : List AddedToken} {m : Model} {d : Decoder} {cs : List Call}
    (h0 : t0.added = some (AddedVocab.init l)) (hm : t0.model = some m) (hd : t0.decoder = some d)
    (hf : t0.finish = .ok t) (h : History P t cs t') (hM : tokenToId m.vocab [] = none) {f : Str → Option Int}
    (hN : Numbers m.vocab (fun _ => none) ((l ++ cs.flatMap Call.tokens).map (·.content)) f) (ids : List Int) (skip : Bool) :
    DecodeOutcome m.vocab (l ++ cs.flatMap Call.tokens) f d ids skip (t'.decode ids skip) := by
  have hN' := C102_numbering P h0 hm hf h
  have hL := C102_lookup P h0 hm hf h hM
  rw [dc_given_all, ← List.map_append] at hN'
  simp only [dc_given_all, ← List.map_append] at hL
  cases C102_unique hN hN'
  obtain ⟨g1, g2⟩ := dc_history h
  have g0 : t.decoder = some d ∧ ∀ s, t.isSpecial s = true ↔ GivenSpecial l s := by
    rcases finish_ok hf with ⟨hn, _⟩ | ⟨b, b', n, hb, rfl, hc⟩
    · rw [hn] at h0; cases h0
    · rw [hb] at h0; cases h0
      refine ⟨hd, fun s => ?_⟩
      obtain ⟨_, a1, h1, h2⟩ := addTokensCore_ok hc
      have e1 := (refresh_ok h2).2.2.1
      have e2 := (assignIds_special l h1).1
      have : b'.isSpecial s = (registerSpecials l (AddedVocab.init l)).isSpecial s := by
        unfold AddedVocab.isSpecial; rw [e1, e2]; rfl
      show b'.isSpecial s = true ↔ _
      rw [this, registerSpecials_isSpecial]
      unfold GivenSpecial
      constructor
      · rintro (h | ⟨x, hx, h1, h2, h3⟩)
        · simp [AddedVocab.isSpecial, AddedVocab.init] at h
        · exact ⟨h3 ▸ h2, x, hx, h1, h3⟩
      · rintro ⟨h3, x, hx, h1, h2⟩
        exact .inr ⟨x, hx, h1, h2 ▸ h3, h2⟩
  have hs : ∀ s, t'.isSpecial s = true ↔ GivenSpecial (l ++ cs.flatMap Call.tokens) s := by
    intro s; rw [g2 s, g0.2 s, dc_special_append]
  unfold Tokenizer.decode
  rcases dc_kept t' _ hs _ hL skip ids with ⟨h1, i, hi, h2⟩ | ⟨ts, us, h1, h2, h3⟩
  · rw [h1]
    exact .throws hi h2
  · rw [h1, res_ok_bind, g1, g0.1]
    obtain ⟨os, h4, h5⟩ := C110_decoder d us
    simp only [h4, res_ok_bind]
    exact .text h2 h3 h5

theorem dc_kept_unique {given : List AddedToken} {skip : Bool} {ts us us' : List Str} (h : Kept given skip ts us)
    (h' : Kept given skip ts us') : us = us' := by
  induction h generalizing us' with
  | nil => cases h'; rfl
  | out h1 h2 _ ih =>
    cases h' with
    | out _ _ h' => exact ih h'
    | keep h3 _ => exact absurd h2 (h3 h1)
  | keep h3 _ ih =>
    cases h' with
    | out h1 h2 _ => exact absurd h2 (h3 h1)
    | keep _ h' => rw [ih h']

theorem dc_each_some {α β : Type} {R : α → β → Prop} {l : List α} {m : List β} (h : Each R l m) {a : α} (ha : a ∈ l) : ∃ b, R a b := by
  induction h with
  | nil => cases ha
  | cons h1 _ ih =>
    rcases List.mem_cons.1 ha with rfl | ha
    · exact ⟨_, h1⟩
    · exact ih ha

/-- **C110** There is only one outcome. -/
theorem C110_unique {v : Vocab} {given : List AddedToken} {f : Str → Option Int} {d : Decoder} {ids : List Int} {skip : Bool}
    {r r' : Res Str} (h : DecodeOutcome v given f d ids skip r) (h' : DecodeOutcome v given f d ids skip r') : r = r' := by
  cases h with
  | throws hi hn =>
    cases h' with
    | throws => rfl
    | text h1 => obtain ⟨s, hs⟩ := dc_each_some h1 hi; rw [hn] at hs; cases hs
  | text h1 h2 h3 =>
    cases h' with
    | throws hi hn => obtain ⟨s, hs⟩ := dc_each_some h1 hi; rw [hn] at hs; cases hs
    | text g1 g2 g3 =>
      cases dc_each_unique (fun i s s' (hs : _ = some s) (hs' : _ = some s') => by
        rw [hs] at hs'; exact Option.some.inj hs') h1 g1
      cases dc_kept_unique h2 g2
      rw [C110_decoder_unique h3 g3]

/-- **C110** `decode` has exactly the specified outcome. -/
theorem C110_decode_iff (P : Platform) {t0 t t' : Tokenizer} {l : List AddedToken} {m : Model} {d : Decoder} {cs : List Call}
    (h0 : t0.added = some (AddedVocab.init l)) (hm : t0.model = some m) (hd : t0.decoder = some d)
    (hf : t0.finish = .ok t) (h : History P t cs t') (hM : tokenToId m.vocab [] = none) {f : Str → Option Int}
    (hN : Numbers m.vocab (fun _ => none) ((l ++ cs.flatMap Call.tokens).map (·.content)) f) (ids : List Int) (skip : Bool)
    (r : Res Str) : t'.decode ids skip = r ↔ DecodeOutcome m.vocab (l ++ cs.flatMap Call.tokens) f d ids skip r := by
  have := C110_decode P h0 hm hd hf h hM hN ids skip
  constructor
  · rintro rfl; exact this
  · intro hr; exact C110_unique this hr

/-- **C110** The model's token for an id is the one its vocabulary lists last with this id. -/
theorem C110_model_token {v : Vocab} {i : Int} {s : Str} :
    idToToken v i = some s ↔ ∃ A B, v = A ++ (s, i) :: B ∧ ∀ p ∈ B, p.2 ≠ i := by
  unfold idToToken
  rw [vocabR, foldl_set_find]
  simp only [mapFind, Option.or_none, Option.map_eq_some_iff]
  constructor
  · rintro ⟨p, hp, rfl⟩
    obtain ⟨h1, A, B, h2, h3⟩ := List.find?_eq_some_iff_append.1 hp
    have e := congrArg List.reverse h2
    simp only [List.reverse_reverse, List.reverse_append, List.reverse_cons, List.append_assoc, List.cons_append,
      List.nil_append] at e
    refine ⟨B.reverse, A.reverse, ?_, ?_⟩
    · rw [e]; simp only [decide_eq_true_eq] at h1; rw [← h1]
    · intro q hq
      have := h3 q (by simpa using hq)
      simpa using this
  · rintro ⟨A, B, rfl, h⟩
    refine ⟨(s, i), ?_, rfl⟩
    refine List.find?_eq_some_iff_append.2 ⟨by simp, B.reverse, A.reverse, by simp, ?_⟩
    intro q hq
    simpa using h q (by simpa using hq)

/-- **C110** Without an added vocabulary, decoding at least one id is undefined behaviour, and so is decoding
known ids without a decoder. -/
theorem C110_missing {t : Tokenizer} {ids : List Int} {skip : Bool} :
    (t.added = none → ids ≠ [] → t.decode ids skip = .error (.ub .nullDeref)) ∧
    (t.decoder = none → (∀ i ∈ ids, ∃ s, t.idToken i = .ok s) → t.decode ids skip = .error (.ub .nullDeref)) := by
  constructor
  · intro ha hne
    cases ids with
    | nil => exact absurd rfl hne
    | cons i r =>
      simp only [Tokenizer.decode, Tokenizer.idTokens, Tokenizer.idToken, ha]
      rfl
  · intro hd hk
    have : ∃ ts, t.idTokens skip ids = .ok ts := by
      clear hd
      induction ids with
      | nil => exact ⟨[], rfl⟩
      | cons i r ih =>
        obtain ⟨s, hs⟩ := hk i (by simp)
        obtain ⟨ts, ht⟩ := ih fun j hj => hk j (by simp [hj])
        simp only [Tokenizer.idTokens, hs, res_ok_bind, ht]
        exact ⟨_, rfl⟩
    obtain ⟨ts, ht⟩ := this
    unfold Tokenizer.decode
    rw [ht, res_ok_bind, hd]

/-! ### Examples -/

/-- A tokenizer with a special token in its configuration. -/
def decTk : Tokenizer :=
  { model := some (wpOf [(b!"do", 0), (b!"##ing", 1), (b!"not", 2), (b!"[S]", 3), (b!".", 4)]),
    decoder := some (.wordPiece b!"##" true),
    added := some (AddedVocab.init [{ content := b!"[S]", special := true }]) }

/-- The tokenizer after construction and after `new` has been added. -/
def decAfter : Res Tokenizer := do
  let t ← decTk.finish
  let (_, t) ← t.addTokens [{ content := b!"new" }]
  return t

/-- The hypotheses of `C110_decode_iff` are met, and the outcome is the text without the special token. -/
example : ∃ (t t' : Tokenizer) (f : Str → Option Int), decTk.finish = .ok t ∧
    History ascii t [.addTokens [{ content := b!"new" }]] t' ∧
    Numbers (wpOf [(b!"do", 0), (b!"##ing", 1), (b!"not", 2), (b!"[S]", 3), (b!".", 4)]).vocab (fun _ => none)
      [b!"[S]", b!"new"] f ∧
    tokenToId (wpOf [(b!"do", 0), (b!"##ing", 1), (b!"not", 2), (b!"[S]", 3), (b!".", 4)]).vocab [] = none ∧
    t'.decode [3, 0, 1, 5, 4] true = .ok b!"doing new." ∧
    t'.decode [3, 0, 1, 5, 4] false = .ok b!"[S] doing new." ∧
    t'.decode [3, 9] true = .error (.throws .badOptionalAccess) := by
  have e : decAfter = (do
      let t ← decTk.finish
      let (_, t) ← t.addTokens [{ content := b!"new" }]
      return t) := rfl
  have v1 : (decAfter.bind fun t => t.decode [3, 0, 1, 5, 4] true) = .ok b!"doing new." := by decide +kernel
  have v2 : (decAfter.bind fun t => t.decode [3, 0, 1, 5, 4] false) = .ok b!"[S] doing new." := by decide +kernel
  have v3 : (decAfter.bind fun t => t.decode [3, 9] true) = .error (.throws .badOptionalAccess) := by decide +kernel
  cases hd : decAfter with
  | error x => rw [hd] at v1; cases v1
  | ok t' =>
    rw [hd] at v1 v2 v3
    rw [hd] at e
    obtain ⟨t, h1, h2⟩ := res_bind_ok.1 e.symm
    obtain ⟨⟨n, t2⟩, h3, h4⟩ := res_bind_ok.1 h2
    cases h4
    have hh : History ascii t [.addTokens [{ content := b!"new" }]] t' := .cons (.addTokens h3) (.nil _)
    exact ⟨t, t', _, h1, hh, C102_numbering ascii (t0 := decTk) rfl rfl h1 hh, rfl, v1, v2, v3⟩

/-- A broken character is one U+FFFD, and a character beyond U+FFFF gives its low byte twice. -/
example : Reads [0xE2, 0x82, 0x41] [0xFFFD, 0x41] := by
  have := dc_lossy 3 [0xE2, 0x82, 0x41] (by decide)
  rwa [show utf8LossyFuel 3 [0xE2, 0x82, 0x41] = [0xFFFD, 0x41] by decide] at this
example : lowBytes [0x1F600, 0x41, 0x120] = [0, 0, 0x41, 0x20] := by decide
example : Decodes .byteLevel [[0xC4, 0xA0], [0x41]] [b!" A"] := by
  exact .byteLevel (ws := [[0x120], [0x41]])
    (.cons (dc_lossy 2 [0xC4, 0xA0] (by decide)) (.cons (dc_lossy 1 [0x41] (by decide)) .nil))

end Tok
