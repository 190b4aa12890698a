import Verif.Spec.Rows
import Verif.Props.Pipeline

set_option autoImplicit false

/-!
C106: all vectors and all windows of an encoding, for every configuration.
-/

namespace Tok
open Spec

theorem ro_length {α β : Type} {R : α → β → Prop} {l : List α} {l' : List β} (h : Each R l l') : l.length = l'.length := by
  induction h with
  | nil => rfl
  | cons _ _ ih => simp [ih]

/-! ### Truncation -/

theorem ro_part {x y : Enc} {rows : List Row} {r : Nat × Nat} (hx : HasRows x rows) (hy : IsPart x r y) : HasRows y (Spec.part rows r) := by
  obtain ⟨a1, a2, a3, a4, a5, a6, a7⟩ := hx
  obtain ⟨b1, b2, b3, b4, b5, b6, b7⟩ := hy
  simp only [HasRows, Spec.part, List.map_drop, List.map_take, ← a1, ← a2, ← a3, ← a4, ← a5, ← a6, ← a7]
  exact ⟨b1, b2, b3, b4, b5, b6, b7⟩

theorem ro_parts {x : Enc} {rows : List Row} (hx : HasRows x rows) {ws : List (Nat × Nat)} {ys : List Enc} (h : Each (IsPart x) ws ys) :
    Each HasRows ys (ws.map (Spec.part rows)) := by
  induction h with
  | nil => exact .nil
  | cons h _ ih => exact .cons (ro_part hx h) ih

theorem ro_whole {rows : List Row} : Spec.part rows (0, rows.length) = rows := by simp [Spec.part]

theorem ro_truncation (tr : Option Truncation) {x : Enc} {rows : List Row} (hx : HasRows x rows) (hn : IsInt rows.length) {e : Encoding}
    (h : (match tr with | some t => t.run { toEnc := x, overflowing := [] } | none => .ok { toEnc := x, overflowing := [] } : Res Encoding) = .ok e)
    (hi : ∀ t, tr = some t → IsInt t.maxLength ∧ IsInt t.stride) :
    ∃ ws, Windows tr rows.length ws ∧ Each HasRows (e.toEnc :: e.overflowing) (ws.map (Spec.part rows)) := by
  have hal := hasRows_aligned hx
  cases tr with
  | none =>
    cases h
    exact ⟨_, rfl, by simpa [ro_whole] using Each.cons hx .nil⟩
  | some t =>
    simp only at h
    obtain ⟨h1, h2⟩ := C92_truncation t { toEnc := x, overflowing := [] } _ hal hn (hi t rfl)
    by_cases hl : LeftAsIs t rows.length
    · rw [h1 hl] at h
      refine ⟨[(0, rows.length)], by simp only [Windows, if_pos hl], ?_⟩
      split at h <;> cases h <;> simpa [ro_whole] using Each.cons hx .nil
    · obtain ⟨k1, k2, k3⟩ := h2 hl
      cases hdir : t.direction with
      | unknown => rw [k1 hdir] at h; cases h
      | right =>
        obtain ⟨j1, j2, j3⟩ := k2 hdir
        rcases Int.lt_trichotomy t.stride t.maxLength with hs | hs | hs
        · obtain ⟨r, ws, e1, e2, e3⟩ := j1 hs
          rw [e1] at h; cases h
          exact ⟨ws, by simp only [Windows, if_neg hl, hdir]; exact .inl ⟨hs, e3⟩, ro_parts hx e2⟩
        · rw [j2 hs] at h; cases h
        · obtain ⟨r, e1, e2⟩ := j3 hs
          rw [e1] at h; cases h
          exact ⟨_, by simp only [Windows, if_neg hl, hdir]; exact .inr ⟨hs, trivial⟩, ro_parts hx e2⟩
      | left =>
        obtain ⟨j1, j2⟩ := k3 hdir
        by_cases hs : t.stride < t.maxLength - 1
        · obtain ⟨r, ws, e1, e2, e3⟩ := j1 hs
          rw [e1] at h; cases h
          exact ⟨ws, by simp only [Windows, if_neg hl, hdir]; exact ⟨hs, e3⟩, ro_parts hx e2⟩
        · rw [j2 (by omega)] at h; cases h

/-! ### Post-processing -/

theorem ro_special (t : SpecialToken) (ty : Int) (h : t.ids.length = t.tokens.length) : HasRows (marked t ty) (specialRows t ty) := by
  have gen : ∀ (ids : List Int) (toks : List Str), ids.length = toks.length →
      HasRows (marked { id := t.id, ids := ids, tokens := toks } ty) (specialRows { id := t.id, ids := ids, tokens := toks } ty) := by
    intro ids
    induction ids with
    | nil => intro toks h; cases toks with
      | nil => exact ⟨rfl, rfl, rfl, rfl, rfl, rfl, rfl⟩
      | cons => simp at h
    | cons i ids ih => intro toks h; cases toks with
      | nil => simp at h
      | cons s toks =>
        obtain ⟨a1, a2, a3, a4, a5, a6, a7⟩ := ih toks (by simpa using h)
        simp only [marked, specialRows] at a1 a2 a3 a4 a5 a6 a7
        simp only [HasRows, marked, specialRows, List.zipWith_cons_cons, List.map_cons, List.length_cons, List.replicate_succ, ← a1, ← a2, ← a3,
          ← a4, ← a5, ← a6, ← a7]
        exact ⟨trivial, trivial, trivial, trivial, trivial, trivial, trivial⟩
  exact gen t.ids t.tokens h

theorem ro_template (specials : List SpecialToken) (b : Bool) (hS : ∀ s ∈ specials, s.ids.length = s.tokens.length) :
    ∀ (single : List Piece) (e : Enc) (rows : List Row), HasRows e rows →
      HasRows (joinAll (templateParts specials b single e)) (templateRows specials b single rows) := by
  intro single
  induction single with
  | nil => intro e rows _; exact hasRows_nil
  | cons p ps ih =>
    intro e rows he
    unfold templateParts templateRows
    by_cases hk : p.kind = b!"Sequence"
    · rw [if_pos hk, if_pos hk]
      simp only
      have he' : HasRows (if p.id = b!"A" then { e with typeIds := List.replicate e.typeIds.length p.typeId } else e)
          (if p.id = b!"A" then rows.map fun r => { r with typeId := p.typeId } else rows) := by
        by_cases ha : p.id = b!"A"
        · rw [if_pos ha, if_pos ha]
          obtain ⟨a1, a2, a3, a4, a5, a6, a7⟩ := he
          refine ⟨?_, ?_, ?_, ?_, ?_, ?_, ?_⟩
          · rw [List.map_map]; exact a1
          · simp [a2, Function.comp_def, List.map_const']
          · rw [List.map_map]; exact a3
          · rw [List.map_map]; exact a4
          · rw [List.map_map]; exact a5
          · rw [List.map_map]; exact a6
          · rw [List.map_map]; exact a7
        · rw [if_neg ha, if_neg ha]; exact he
      exact hasRows_append he' (ih _ _ he')
    · rw [if_neg hk, if_neg hk]
      by_cases hk2 : p.kind = b!"SpecialToken"
      · rw [if_pos hk2]
        cases b with
        | false => simp only [Bool.false_eq_true, if_false, and_false]; exact ih e rows he
        | true =>
          rw [if_pos rfl, if_pos ⟨hk2, rfl⟩]
          refine hasRows_append ?_ (ih e rows he)
          rw [specialEnc_eq]
          cases hf : specials.find? fun t => t.id == p.id with
          | none => exact hasRows_nil
          | some t => exact ro_special t _ (hS t (List.mem_of_find?_eq_some hf))
      · rw [if_neg hk2, if_neg (fun h => hk2 h.1)]; exact ih e rows he

theorem ro_lead (v : WStr) : ((utf16 v).takeWhile isSpaceUnit).length = (v.takeWhile (· == spaceSign)).length := by
  induction v with
  | nil => simp [utf16]
  | cons c r ih =>
    rw [utf16_cons]
    by_cases hc : c = spaceSign
    · subst hc
      rw [show utf16Enc1 spaceSign = [spaceSign] from rfl, List.singleton_append, List.takeWhile_cons, List.takeWhile_cons,
        if_pos ((isSpaceUnit_iff _).2 rfl), if_pos (by simp), List.length_cons, List.length_cons, ih]
    · have : ∃ u l, utf16Enc1 c = u :: l ∧ u ≠ spaceSign := by
        unfold utf16Enc1
        split
        · exact ⟨c, _, rfl, hc⟩
        · exact ⟨_, _, rfl, by simp only [spaceSign]; omega⟩
      obtain ⟨u, l, h1, h2⟩ := this
      rw [h1, List.cons_append, List.takeWhile_cons, List.takeWhile_cons, if_neg (fun h => h2 ((isSpaceUnit_iff _).1 h)),
        if_neg (by simpa using hc)]

theorem ro_trail (v : WStr) : ((utf16 v.reverse).reverse.takeWhile isSpaceUnit).length = (v.takeWhile (· == spaceSign)).length := by
  induction v with
  | nil => simp [utf16]
  | cons c r ih =>
    rw [List.reverse_cons, utf16_append, utf16_cons, show utf16 [] = [] from rfl, List.append_nil, List.reverse_append]
    by_cases hc : c = spaceSign
    · subst hc
      rw [show utf16Enc1 spaceSign = [spaceSign] from rfl, List.reverse_singleton, List.singleton_append, List.takeWhile_cons,
        List.takeWhile_cons, if_pos ((isSpaceUnit_iff _).2 rfl), if_pos (by simp), List.length_cons, List.length_cons, ih]
    · have : ∃ u l, (utf16Enc1 c).reverse = u :: l ∧ u ≠ spaceSign := by
        unfold utf16Enc1
        split
        · exact ⟨c, _, rfl, hc⟩
        · exact ⟨_, _, rfl, by simp only [spaceSign]; omega⟩
      obtain ⟨u, l, h1, h2⟩ := this
      rw [h1, List.cons_append, List.takeWhile_cons, List.takeWhile_cons, if_neg (fun h => h2 ((isSpaceUnit_iff _).1 h)),
        if_neg (by simpa using hc)]

theorem ro_trim (a : Bool) (i : Nat) {tok : Str} {v : WStr} (hv : Utf8Text v tok) (o : Int × Int) :
    trimOffsets a i tok o = trimmedOffsets a (i == 0) v o := by
  obtain ⟨hsc, rfl⟩ := utf8Text_iff.1 hv
  have ht : ((utf16 v).reverse.takeWhile isSpaceUnit).length = (v.reverse.takeWhile (· == spaceSign)).length := by
    have := ro_trail v.reverse
    rwa [List.reverse_reverse] at this
  unfold trimOffsets trimmedOffsets
  rw [fromUTF8_utf8 hsc]
  simp only [ro_lead, ht]
  generalize (v.takeWhile (· == spaceSign)).length = l
  generalize (v.reverse.takeWhile (· == spaceSign)).length = t
  obtain ⟨x, y⟩ := o
  have hkeep : ((((i == 0) || x == 0) && a && l == 1) = true) ↔ ((i = 0 ∨ x = 0) ∧ a = true ∧ (l : Int) = 1) := by
    simp only [Bool.and_eq_true, Bool.or_eq_true, beq_iff_eq, and_assoc]
    constructor <;> rintro ⟨h1, h2, h3⟩ <;> exact ⟨h1, h2, by omega⟩
  simp only
  by_cases h0 : l = 0 ∧ t = 0
  · obtain ⟨rfl, rfl⟩ := h0; simp
  · rw [if_pos (by omega)]
    have h1 : (if (l : Int) > 0 then min (x + (if (i = 0 ∨ x = 0) ∧ a = true ∧ (l : Int) = 1 then (0 : Int) else (l : Int))) y else x) =
        (if l = 0 then x else min (if (((i == 0) || x == 0) && a && l == 1) = true then x else x + l) y) := by
      by_cases hl : l = 0
      · subst hl; simp
      · rw [if_pos (by omega), if_neg hl]
        by_cases hk : (((i == 0) || x == 0) && a && l == 1) = true
        · rw [if_pos hk, if_pos (hkeep.1 hk), Int.add_zero]
        · rw [if_neg hk, if_neg (fun h => hk (hkeep.2 h))]
    rw [h1]
    congr 1
    by_cases htt : 0 < t ∧ (t : Int) ≤ y
    · rw [if_pos ⟨by omega, htt.2⟩, if_pos htt]
    · rw [if_neg (fun h => htt ⟨by omega, h.2⟩), if_neg htt]

theorem ro_setOffsets : ∀ (rows : List Row) (os : List (Int × Int)), os.length = rows.length → (setOffsets rows os).length = rows.length ∧
    ∀ (i : Nat) (r : Row), rows[i]? = some r → ∃ o, os[i]? = some o ∧ (setOffsets rows os)[i]? = some { r with offsets := o } := by
  intro rows
  induction rows with
  | nil => intro os h; cases os with
    | nil => exact ⟨rfl, by simp⟩
    | cons => simp at h
  | cons r rows ih => intro os h; cases os with
    | nil => simp at h
    | cons o os =>
      obtain ⟨h1, h2⟩ := ih os (by simpa using h)
      refine ⟨by simp [setOffsets, h1], fun i x hx => ?_⟩
      cases i with
      | zero => simp at hx; subst hx; exact ⟨o, rfl, rfl⟩
      | succ i => simpa [setOffsets] using h2 i x (by simpa using hx)

theorem ro_offsets (a : Bool) {x y : Enc} {rows : List Row} (hx : HasRows x rows) (h : processOffsets a x = .ok y) :
    ∃ rows', HasRows y rows' ∧ TrimmedRows a rows rows' := by
  obtain ⟨r, h1, h2, h3⟩ := processOffsets_spec a x _ (hasRows_aligned hx)
  rw [h1] at h; cases h
  have hlen : y.offsets.length = x.offsets.length := by
    exact (ro_length h2.2).symm
  have hlen' : y.offsets.length = rows.length := by rw [hlen]; exact (hasRows_aligned hx).2.2.2.2.1
  obtain ⟨k1, k2⟩ := ro_setOffsets rows y.offsets hlen'
  refine ⟨setOffsets rows y.offsets, ?_, k1, fun i r hr => ?_⟩
  · have := setOffsets_rows hx (os := y.offsets) hlen
    have e : ({ x with offsets := y.offsets } : Enc) = y := by
      have := h2.1
      rw [← this]
    rwa [e] at this
  · obtain ⟨o, g1, g2⟩ := k2 i r hr
    refine ⟨o, g2, fun v hv => ?_⟩
    have hi : i < rows.length := by
      rcases Nat.lt_or_ge i rows.length with h | h
      · exact h
      · rw [List.getElem?_eq_none h] at hr; cases hr
    obtain ⟨tok, o', e1, e2, e3⟩ := h3 i hi
    rw [hx.2.2.1, List.getElem?_map, hr] at e1
    rw [hx.2.2.2.2.1, List.getElem?_map, hr] at e2
    cases e1; cases e2
    rw [g1] at e3; cases e3
    exact ro_trim a i hv _

theorem ro_offsetsAll (a : Bool) : ∀ {xs ys : List Enc} {ws : List (List Row)}, Each HasRows xs ws → processAll a xs = .ok ys →
    ∃ ws', Each HasRows ys ws' ∧ Each (TrimmedRows a) ws ws' := by
  intro xs
  induction xs with
  | nil => intro ys ws h hp; cases h; cases hp; exact ⟨[], .nil, .nil⟩
  | cons x xs ih =>
    intro ys ws h hp
    cases h with
    | cons h hr =>
      unfold processAll at hp
      obtain ⟨y, h1, hp⟩ := res_bind_ok.1 hp
      obtain ⟨ys', h2, hp⟩ := res_bind_ok.1 hp
      cases hp
      obtain ⟨r, g1, g2⟩ := ro_offsets a h h1
      obtain ⟨rs, g3, g4⟩ := ih hr h2
      exact ⟨r :: rs, .cons g1 g3, .cons g2 g4⟩

mutual
theorem ro_processes (b : Bool) : (pp : PostProcessor) → (∀ s ∈ specialsOf pp, s.ids.length = s.tokens.length) → {e r : Encoding} →
    {ws : List (List Row)} → Each HasRows (e.toEnc :: e.overflowing) ws → pp.run b e = .ok r →
    ∃ ws', Processes b pp ws ws' ∧ Each HasRows (r.toEnc :: r.overflowing) ws'
  | .template single pair specials, hS, e, r, ws, hw, h => by
    cases hw with
    | cons hm hr =>
      simp only [PostProcessor.run] at h
      cases h
      refine ⟨_, .template, .cons ?_ .nil⟩
      simp only [templateProcess, foldl_append, nil_joined]
      exact ro_template specials b hS single _ _ hm
  | .byteLevel a tr, hS, e, r, ws, hw, h => by
    cases tr with
    | false =>
      simp only [PostProcessor.run, byteLevelProcess, Bool.false_eq_true, if_false] at h
      cases h
      exact ⟨ws, .untrimmed, hw⟩
    | true =>
      simp only [PostProcessor.run, byteLevelProcess, if_true] at h
      obtain ⟨m, h1, h⟩ := res_bind_ok.1 h
      obtain ⟨o, h2, h⟩ := res_bind_ok.1 h
      cases h
      cases hw with
      | cons hm hr =>
        obtain ⟨r1, g1, g2⟩ := ro_offsets a hm h1
        obtain ⟨rs, g3, g4⟩ := ro_offsetsAll a hr h2
        exact ⟨r1 :: rs, .trimmed (.cons g2 g4), .cons g1 g3⟩
  | .seq ps, hS, e, r, ws, hw, h => by
    simp only [PostProcessor.run] at h
    obtain ⟨ws', h1, h2⟩ := ro_processesAll b ps (by simpa [specialsOf] using hS) hw h
    exact ⟨ws', .seq h1, h2⟩
theorem ro_processesAll (b : Bool) : (ps : List PostProcessor) → (∀ s ∈ specialsOfList ps, s.ids.length = s.tokens.length) → {e r : Encoding} →
    {ws : List (List Row)} → Each HasRows (e.toEnc :: e.overflowing) ws → PostProcessor.runList b ps e = .ok r →
    ∃ ws', ProcessesAll b ps ws ws' ∧ Each HasRows (r.toEnc :: r.overflowing) ws'
  | [], hS, e, r, ws, hw, h => by
    simp only [PostProcessor.runList] at h
    cases h
    exact ⟨ws, .nil, hw⟩
  | p :: ps, hS, e, r, ws, hw, h => by
    simp only [PostProcessor.runList] at h
    obtain ⟨e1, h1, h⟩ := res_bind_ok.1 h
    obtain ⟨w1, g1, g2⟩ := ro_processes b p (fun s hs => hS s (by simp [specialsOfList, hs])) hw h1
    obtain ⟨w2, g3, g4⟩ := ro_processesAll b ps (fun s hs => hS s (by simp [specialsOfList, hs])) g2 h
    exact ⟨w2, .cons g1 g3, g4⟩
end

/-! ### Padding -/

theorem ro_filler (p : Padding) (k : Nat) : HasRows (filler k p.padId p.padTypeId p.padToken) (List.replicate k (fillerRow p)) := by
  simp only [HasRows, filler, List.map_replicate, fillerRow]
  exact ⟨trivial, trivial, trivial, trivial, trivial, trivial, trivial⟩

theorem ro_pad {p : Padding} {size : Nat} {x y : Enc} {rows : List Row} (hx : HasRows x rows) (h : Padded p size x y) :
    HasRows y (paddedTo p size rows) := by
  have hl : x.ids.length = rows.length := (hasRows_aligned hx).1
  obtain ⟨h1, h2⟩ := h
  rw [hl] at h1 h2
  by_cases hle : size ≤ rows.length
  · rw [h1 hle]
    unfold paddedTo
    rw [Nat.sub_eq_zero_of_le hle]
    cases p.direction <;> simpa using hx
  · obtain ⟨a1, a2, a3⟩ := h2 (by omega)
    unfold paddedTo
    cases hd : p.direction with
    | left => rw [a1 hd]; exact hasRows_append (ro_filler p _) hx
    | right => rw [a2 hd]; exact hasRows_append hx (ro_filler p _)
    | unknown => rw [a3 hd]; exact hx

theorem ro_padAll {p : Padding} {size : Nat} {xs ys : List Enc} (h : Each (Padded p size) xs ys) : ∀ {ws : List (List Row)},
    Each HasRows xs ws → Each HasRows ys (ws.map (paddedTo p size)) := by
  induction h with
  | nil => intro ws h; cases h; exact .nil
  | cons h _ ih => intro ws hw; cases hw with | cons h1 h2 => exact .cons (ro_pad h1 h) (ih h2)

theorem ro_negative {p : Padding} {x y : Enc} (hneg : p.fixedSize < 0) (h : padEnc p p.fixedSize x = .ok y) : y = x := by
  unfold padEnc at h
  split at h
  · cases h; rfl
  · simp only at h
    have hlt : p.fixedSize - (x.ids.length : Int) < 0 := by omega
    cases hd : p.direction with
    | unknown => rw [hd] at h; cases h; rfl
    | left => rw [hd] at h; simp only [if_pos hlt] at h; cases h
    | right => rw [hd] at h; simp only [if_pos hlt] at h; cases h

theorem ro_negatives {p : Padding} (hneg : p.fixedSize < 0) : ∀ {xs ys : List Enc}, padAll p p.fixedSize xs = .ok ys → ys = xs := by
  intro xs
  induction xs with
  | nil => intro ys h; cases h; rfl
  | cons x xs ih =>
    intro ys h
    unfold padAll at h
    obtain ⟨y, h1, h⟩ := res_bind_ok.1 h
    obtain ⟨ys', h2, h⟩ := res_bind_ok.1 h
    cases h
    rw [ro_negative hneg h1, ih h2]

theorem ro_padding (pad : Option Padding) {e r : Encoding} {ws : List (List Row)} (hw : Each HasRows (e.toEnc :: e.overflowing) ws)
    (h : (match pad with | some p => p.run e | none => .ok e : Res Encoding) = .ok r) :
    ∃ ws', PaddedAll pad ws ws' ∧ Each HasRows (r.toEnc :: r.overflowing) ws' := by
  have hhead : e.ids.length = (ws.headD []).length := by
    cases hw with | cons h _ => exact (hasRows_aligned h).1
  cases pad with
  | none => cases h; exact ⟨ws, rfl, hw⟩
  | some p =>
    simp only at h
    by_cases hneg : p.strategy = .fixed ∧ p.fixedSize < 0
    · have h0 : RoundedUp 0 p.padToMultipleOf 0 := by
        unfold RoundedUp
        split
        · exact ⟨Nat.le_refl _, by omega, 0, by simp⟩
        · rfl
      have ht : p.target e.ids.length = p.fixedSize := by
        unfold Padding.target
        simp only [if_pos hneg.1]
        rw [if_neg]
        rintro ⟨_, hm⟩
        have h1 : (-p.fixedSize).tmod p.padToMultipleOf ≥ 0 := Int.tmod_nonneg _ (by omega)
        rw [Int.neg_tmod] at h1
        omega
      unfold Padding.run pad at h
      rw [ht] at h
      obtain ⟨o, h1, h⟩ := res_bind_ok.1 h
      obtain ⟨y, h2, h⟩ := res_bind_ok.1 h
      cases h
      rw [ro_negative hneg.2 h2, ro_negatives hneg.2 h1]
      refine ⟨ws, ⟨0, by rw [if_pos hneg.1, Int.toNat_of_nonpos (Int.le_of_lt hneg.2)]; exact h0, ?_⟩, hw⟩
      have : paddedTo p 0 = id := by
        funext rows
        unfold paddedTo
        cases p.direction <;> simp
      rw [this]; simp
    · obtain ⟨t, r', h1, h2, h3, h4⟩ := C37_C38_padding p e (fun hf => by
        have : ¬ p.fixedSize < 0 := fun h => hneg ⟨hf, h⟩
        omega)
      rw [h1] at h; cases h
      exact ⟨_, ⟨t, by rw [← hhead]; exact h2, rfl⟩, ro_padAll (.cons h3 h4) hw⟩

/-! ### Everything together -/

theorem ro_textRows {ns : NS} {k : Nat} {l : List Split} {rows : List Row} (h : TextRows ns k l rows) :
    ∃ starts : List Nat, starts.length = l.length ∧ rows = wordRows k (starts.zip (l.map (·.tokens))) := by
  induction h with
  | nil k => exact ⟨[], rfl, rfl⟩
  | @cons k s l rows g o _ _ _ ih =>
    obtain ⟨starts, h1, h2⟩ := ih
    exact ⟨o.1 :: starts, by simp [h1], by simp [wordRows, h2]⟩

/-- Truncation, post-processing and padding, for the rows of any text. -/
theorem ro_finished {t : Tokenizer} {b : Bool} {x : Enc} {rows : List Row} {e : Encoding}
    (hS : ∀ s ∈ Specials t, s.ids.length = s.tokens.length)
    (hi : ∀ tr, t.truncation = some tr → IsInt tr.maxLength ∧ IsInt tr.stride)
    (hx : HasRows x rows) (hn : IsInt rows.length) (h : t.doPostProcess { toEnc := x, overflowing := [] } b = .ok e) :
    ∃ out, Finished t b rows out ∧ Each HasRows (e.toEnc :: e.overflowing) out := by
  obtain ⟨e1, e2, h1, h2, h3⟩ := postProcess_ok h
  obtain ⟨ws, g1, g2⟩ := ro_truncation t.truncation hx hn h1 hi
  have : ∃ out', PostProcessed t.postProcessor b (ws.map (Spec.part rows)) out' ∧ Each HasRows (e2.toEnc :: e2.overflowing) out' := by
    cases hpp : t.postProcessor with
    | none => rw [hpp] at h2; cases h2; exact ⟨_, rfl, g2⟩
    | some pp =>
      rw [hpp] at h2
      exact ro_processes b pp (fun s hs => hS s (by simpa [Specials, hpp] using hs)) g2 h2
  obtain ⟨out', g3, g4⟩ := this
  obtain ⟨out, g5, g6⟩ := ro_padding t.padding g4 h3
  exact ⟨out, ⟨ws, out', g1, g3, g5⟩, g6⟩

/-- **C106** Whatever the configuration: all seven vectors of the encoding `encode` returns, and of each of its overflow
windows, are what the specification makes of the words of the text, whose tokens are placed at the start of their word. -/
theorem C106_encode_partial (P : Platform) (hg : GoodRegexes P) {t : Tokenizer} {m x : Model} {lines : List Str} {w : WStr} {b : Bool}
    {e : Encoding} (hx : t.model = some x) (hm : ModelIs P lines m x) (hd : DescribableText P t w)
    (hS : ∀ s ∈ Specials t, s.ids.length = s.tokens.length)
    (hi : ∀ tr, t.truncation = some tr → IsInt tr.maxLength ∧ IsInt tr.stride)
    (h : (t.encode P w b).1 = .ok e) :
    ∃ (words : List WStr) (parts : List (List Token)) (starts : List Nat), Words P t w words ∧ Each (ModelTokens lines m) words parts ∧ starts.length = words.length ∧
      let text := wordRows 0 (starts.zip parts)
      (IsInt text.length → ∃ out, Finished t b text out ∧ Each HasRows (e.toEnc :: e.overflowing) out) := by
  obtain ⟨q, y, ⟨p, hp, hq⟩, hy, hpost⟩ := encode_ok h
  rw [hx] at hq
  obtain ⟨ws, hw1, hw2⟩ := pl_words P hg hd hp
  obtain ⟨rows, hr, hrows⟩ := intoLoop_rows _ _ _ _ hy
  obtain ⟨starts, hs1, hs2⟩ := ro_textRows hr
  have hE := pl_model P hm hw2 hq
  refine ⟨ws, _, starts, hw1, hE, ?_, fun hlen => ?_⟩
  · rw [hs1]; have := ro_length hE; simp at this; omega
  · rw [← hs2] at hlen ⊢
    exact ro_finished hS hi hrows hlen hpost

/-! ### The specification prescribes one result -/

theorem ro_from_unique {len max step s : Nat} {l l' : List (Nat × Nat)} (h : WindowsFrom len max step s l)
    (h' : WindowsFrom len max step s l') : l = l' := by
  induction h generalizing l' with
  | over h0 =>
    cases h' with
    | over => rfl
    | last => omega
    | more => omega
  | last h0 h1 =>
    cases h' with
    | over => omega
    | last => rfl
    | more => omega
  | more h0 _ ih =>
    cases h' with
    | over => omega
    | last => omega
    | more _ h' => rw [ih h']

theorem ro_to_unique {max step e : Nat} {l l' : List (Nat × Nat)} (h : WindowsTo max step e l) (h' : WindowsTo max step e l') : l = l' := by
  induction h generalizing l' with
  | over =>
    cases h' with
    | over => rfl
    | last => omega
    | more => omega
  | last h0 h1 =>
    cases h' with
    | over => omega
    | last => rfl
    | more => omega
  | more h0 _ ih =>
    cases h' with
    | over => omega
    | last => omega
    | more _ h' => rw [ih h']

/-- **C106** The windows are determined. -/
theorem C106_windows_unique {t : Option Truncation} {n : Nat} {l l' : List (Nat × Nat)} (h : Windows t n l) (h' : Windows t n l') : l = l' := by
  cases t with
  | none => exact h.trans h'.symm
  | some x =>
    unfold Windows at h h'
    simp only at h h'
    by_cases hl : LeftAsIs x n
    · rw [if_pos hl] at h h'; exact h.trans h'.symm
    · rw [if_neg hl] at h h'
      cases hd : x.direction with
      | unknown => rw [hd] at h; exact h.elim
      | left => rw [hd] at h h'; exact ro_to_unique h.2 h'.2
      | right =>
        rw [hd] at h h'
        rcases h with ⟨h1, h2⟩ | ⟨h1, h2⟩ <;> rcases h' with ⟨h3, h4⟩ | ⟨h3, h4⟩
        · exact ro_from_unique h2 h4
        · omega
        · omega
        · exact h2.trans h4.symm

theorem ro_rounded_unique {n : Nat} {m : Int} {a b : Nat} (h : RoundedUp n m a) (h' : RoundedUp n m b) : a = b := by
  unfold RoundedUp at h h'
  by_cases hm : 0 < m
  · rw [if_pos hm] at h h'
    obtain ⟨h1, h2, q, h3⟩ := h
    obtain ⟨h4, h5, q', h6⟩ := h'
    rcases Nat.lt_trichotomy q q' with hq | hq | hq
    · have h7 : ((q : Int) + 1) * m ≤ q' * m := Int.mul_le_mul_of_nonneg_right (by omega) (by omega)
      rw [Int.add_mul] at h7; omega
    · subst hq; omega
    · have h7 : ((q' : Int) + 1) * m ≤ q * m := Int.mul_le_mul_of_nonneg_right (by omega) (by omega)
      rw [Int.add_mul] at h7; omega
  · rw [if_neg hm] at h h'; omega

/-- **C106** Padding is determined. -/
theorem C106_padded_unique {p : Option Padding} {ws l l' : List (List Row)} (h : PaddedAll p ws l) (h' : PaddedAll p ws l') : l = l' := by
  cases p with
  | none => exact h.trans h'.symm
  | some p =>
    obtain ⟨a, h1, h2⟩ := h
    obtain ⟨b, h3, h4⟩ := h'
    rw [h2, h4, ro_rounded_unique h1 h3]

/-- The tokens are well-formed UTF-8. -/
def TextRowsOnly (ws : List (List Row)) : Prop := ∀ rows ∈ ws, ∀ r ∈ rows, ∃ v, Utf8Text v r.token

theorem ro_trimmed_unique {a : Bool} {rows l l' : List Row} (ht : ∀ r ∈ rows, ∃ v, Utf8Text v r.token) (h : TrimmedRows a rows l)
    (h' : TrimmedRows a rows l') : l = l' := by
  apply List.ext_getElem?
  intro i
  cases hr : rows[i]? with
  | none =>
    have := List.getElem?_eq_none_iff.1 hr
    rw [List.getElem?_eq_none (by have := h.1; omega), List.getElem?_eq_none (by have := h'.1; omega)]
  | some r =>
    obtain ⟨o, h1, h2⟩ := h.2 i r hr
    obtain ⟨o', h3, h4⟩ := h'.2 i r hr
    obtain ⟨v, hv⟩ := ht r (List.mem_of_getElem? hr)
    rw [h1, h3, h2 v hv, h4 v hv]

theorem ro_trimmed_text {a : Bool} {rows l : List Row} (ht : ∀ r ∈ rows, ∃ v, Utf8Text v r.token) (h : TrimmedRows a rows l) :
    ∀ r ∈ l, ∃ v, Utf8Text v r.token := by
  intro r hr
  obtain ⟨i, hi, e⟩ := List.getElem_of_mem hr
  have hi' : i < rows.length := by have := h.1; omega
  obtain ⟨o, h1, -⟩ := h.2 i rows[i] (List.getElem?_eq_getElem hi')
  rw [List.getElem?_eq_getElem hi, e] at h1
  cases h1
  exact ht rows[i] (List.getElem_mem _)

theorem ro_template_text {specials : List SpecialToken} {b : Bool} (hS : ∀ s ∈ specials, ∀ x ∈ s.tokens, ∃ v, Utf8Text v x) :
    ∀ (single : List Piece) (rows : List Row), (∀ r ∈ rows, ∃ v, Utf8Text v r.token) →
      ∀ r ∈ templateRows specials b single rows, ∃ v, Utf8Text v r.token := by
  intro single
  induction single with
  | nil => intro rows _ r hr; simp [templateRows] at hr
  | cons p ps ih =>
    intro rows ht r hr
    unfold templateRows at hr
    by_cases hk : p.kind = b!"Sequence"
    · rw [if_pos hk] at hr
      simp only at hr
      have ht' : ∀ r ∈ (if p.id = b!"A" then rows.map fun r => { r with typeId := p.typeId } else rows), ∃ v, Utf8Text v r.token := by
        split
        · intro r hr
          obtain ⟨r0, h0, rfl⟩ := List.mem_map.1 hr
          exact ht r0 h0
        · exact ht
      rcases List.mem_append.1 hr with hr | hr
      · exact ht' r hr
      · exact ih _ ht' r hr
    · rw [if_neg hk] at hr
      split at hr
      · rcases List.mem_append.1 hr with hr | hr
        · cases hf : specials.find? fun t => t.id == p.id with
          | none => rw [hf] at hr; simp at hr
          | some t =>
            rw [hf] at hr
            have : ∀ (ids : List Int) (toks : List Str), r ∈ List.zipWith (fun i s => ({ id := i, typeId := p.typeId, token := s, word := none, offsets := (0, 0), special := 1, attention := 1 } : Row)) ids toks → r.token ∈ toks := by
              intro ids
              induction ids with
              | nil => intro toks h; simp at h
              | cons i ids ih => intro toks h; cases toks with
                | nil => simp at h
                | cons s toks =>
                  simp only [List.zipWith_cons_cons, List.mem_cons] at h
                  rcases h with rfl | h
                  · simp
                  · simp [ih toks h]
            exact hS t (List.mem_of_find?_eq_some hf) _ (this _ _ hr)
        · exact ih rows ht r hr
      · exact ih rows ht r hr

mutual
/-- **C106** What post-processing makes of the windows is determined, if all tokens are well-formed UTF-8. -/
theorem C106_processed_unique (b : Bool) : (pp : PostProcessor) → (∀ s ∈ specialsOf pp, ∀ x ∈ s.tokens, ∃ v, Utf8Text v x) → {ws l l' : List (List Row)} →
    TextRowsOnly ws → Processes b pp ws l → Processes b pp ws l' → l = l' ∧ TextRowsOnly l
  | .template single pair specials, hS, ws, l, l', ht, h, h' => by
    cases h; cases h'
    refine ⟨rfl, fun rows hr r hrr => ?_⟩
    rw [List.mem_singleton] at hr; subst hr
    exact ro_template_text hS single _ (ht _ (by simp)) r hrr
  | .byteLevel a tr, hS, ws, l, l', ht, h, h' => by
    cases h with
    | untrimmed => cases h'; exact ⟨rfl, ht⟩
    | trimmed h =>
      cases h' with
      | trimmed h' =>
        induction h generalizing l' with
        | nil => cases h'; exact ⟨rfl, ht⟩
        | cons g _ ih =>
          cases h' with
          | cons g' h' =>
            have t1 := ht _ (List.mem_cons_self ..)
            obtain ⟨e1, e2⟩ := ih _ (fun rows hr => ht rows (List.mem_cons_of_mem _ hr)) h'
            subst e1
            refine ⟨by rw [ro_trimmed_unique t1 g g'], fun rows hr => ?_⟩
            rcases List.mem_cons.1 hr with rfl | hr
            · exact ro_trimmed_text t1 g
            · exact e2 rows hr
  | .seq ps, hS, ws, l, l', ht, h, h' => by
    cases h with
    | seq h => cases h' with
      | seq h' => exact C106_processed_uniques b ps (by simpa [specialsOf] using hS) ht h h'
/-- The same for a list of post-processors. -/
theorem C106_processed_uniques (b : Bool) : (ps : List PostProcessor) → (∀ s ∈ specialsOfList ps, ∀ x ∈ s.tokens, ∃ v, Utf8Text v x) → {ws l l' : List (List Row)} →
    TextRowsOnly ws → ProcessesAll b ps ws l → ProcessesAll b ps ws l' → l = l' ∧ TextRowsOnly l
  | [], hS, ws, l, l', ht, h, h' => by cases h; cases h'; exact ⟨rfl, ht⟩
  | p :: ps, hS, ws, l, l', ht, h, h' => by
    cases h with
    | cons h1 h2 => cases h' with
      | cons h3 h4 =>
        obtain ⟨e1, e2⟩ := C106_processed_unique b p (fun s hs => hS s (by simp [specialsOfList, hs])) ht h1 h3
        subst e1
        exact C106_processed_uniques b ps (fun s hs => hS s (by simp [specialsOfList, hs])) e2 h2 h4
end

/-! ### The hypotheses are met -/

/-- The same configuration as before, with overlapping windows. -/
def rowsTk : Tokenizer :=
  { pipeTk with truncation := some { direction := .right, maxLength := 3, strategy := .longestFirst, stride := 1 }, postProcessor := some (.byteLevel false true) }

/-- The hypotheses of `C106_encode_partial`. -/
example : DescribableText spacePlatform rowsTk w!"ab bc [CLS] abc " ∧ rowsTk.model = some (.bpe spaceBPE) ∧
    (∀ s ∈ Specials rowsTk, s.ids.length = s.tokens.length) ∧ (∀ s ∈ Specials pipeTk, s.ids.length = s.tokens.length) ∧
    (∀ tr, rowsTk.truncation = some tr → IsInt tr.maxLength ∧ IsInt tr.stride) := by
  refine ⟨pl_sample_describable, rfl, by simp [Specials, rowsTk, specialsOf], by decide, ?_⟩
  intro tr h
  cases h
  unfold IsInt
  decide

/-- Three windows, padded to four rows each. -/
example : (rowsTk.encode spacePlatform w!"ab bc [CLS] abc " true).1.map (fun e => e.ids :: e.overflowing.map (·.ids)) = .ok [[2, 3, 4, 9], [4, 101, 0, 9], [0, 4, 9, 9]] := by
  decide +kernel
example : (rowsTk.encode spacePlatform w!"ab bc [CLS] abc " true).1.map (fun e => e.words :: e.overflowing.map (·.words)) =
    .ok [[some 0, some 0, some 1, some 0], [some 1, some 2, some 3, some 0], [some 3, some 3, some 0, some 0]] := by
  decide +kernel

end Tok
