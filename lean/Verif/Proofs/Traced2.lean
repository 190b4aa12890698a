import Verif.Proofs.Traced
import Verif.Props.Normalizer

set_option autoImplicit false

namespace Tok
open Spec

/-! ### The BERT normalizer acts character by character -/

/-- As `Tbl`, without anything behind the table. -/
structure TblX (es : List (Nat × Nat)) (ns : NS) : Prop where
  ranges : ns.ranges = mkRanges 0 (es.map (·.1))
  offsets : ns.offsets = tblOffs es
  pos : ∀ e ∈ es, 0 < e.1

theorem padX_step {s : NS} {A B : List (Nat × Nat)} {k o : Nat} (h : TblX (A ++ (k, o) :: B) s) :
    ∃ s', s.transform A.length .pad 0 = .ok s' ∧ TblX (A ++ (1, o) :: (k, o) :: (1, o) :: B) s' := by
  have hk : 0 < k := h.pos (k, o) (by simp)
  obtain ⟨k', rfl⟩ : ∃ k', k = k' + 1 := ⟨k - 1, by omega⟩
  have hr : vecAt s.ranges A.length = .ok ((A.map (·.1)).sum, k' + 1) := by
    unfold vecAt; rw [h.ranges, mkRanges_get]; simp [List.take_left']
  have hv : vecAt s.offsets (A.map (·.1)).sum = .ok (o, o + 1) := by
    unfold vecAt
    rw [h.offsets, tblOffs_append, List.getElem?_append_right (by simp)]
    simp [tblOffs, List.replicate_succ]
  have hd : (s.ranges.drop (A.length + 1)).map (·.2) = B.map (·.1) := by
    rw [h.ranges, List.map_drop, mkRanges_snd, List.map_append, List.drop_append, List.drop_eq_nil_of_le (by simp)]; simp
  have ht : s.ranges.take A.length = mkRanges 0 (A.map (·.1)) := by
    rw [h.ranges, mkRanges_take]; simp
  have hins : insertAt s.offsets (A.map (·.1)).sum [(o, o + 1), (o, o + 1)] =
      .ok (tblOffs A ++ [(o, o + 1), (o, o + 1)] ++ (List.replicate (k' + 1) (o, o + 1) ++ tblOffs B)) := by
    unfold insertAt
    rw [h.offsets, tblOffs_append, if_pos (by simp), List.take_left' (by simp), List.drop_left' (by simp)]; rfl
  refine ⟨{ s with
      offsets := tblOffs A ++ [(o, o + 1), (o, o + 1)] ++ (List.replicate (k' + 1) (o, o + 1) ++ tblOffs B)
      ranges := mkRanges 0 (A.map (·.1)) ++ [((A.map (·.1)).sum, 1), ((A.map (·.1)).sum + 1, k' + 1), ((A.map (·.1)).sum + (k' + 1) + 1, 1)]
                ++ mkRanges ((A.map (·.1)).sum + (k' + 1) + 2) (B.map (·.1)) }, ?_, ⟨?_, ?_, ?_⟩⟩
  · simp only [NS.transform, hr, res_ok_bind, hv, hins, res_pure, hd, ht]
  · rw [List.map_append, mkRanges_append]
    simp only [List.map_cons, mkRanges, Nat.zero_add, List.append_assoc, List.cons_append, List.nil_append]
    have e1 : (A.map (·.1)).sum + (k' + 1) + 1 = (A.map (·.1)).sum + 1 + (k' + 1) := by omega
    have e2 : (A.map (·.1)).sum + (k' + 1) + 2 = (A.map (·.1)).sum + 1 + (k' + 1) + 1 := by omega
    rw [e1, e2]
  · rw [tblOffs_append]
    simp only [tblOffs, List.append_assoc, List.cons_append, List.nil_append]
    congr 1
    have : ∀ (n : Nat) (x : Nat × Nat) (L : List (Nat × Nat)), x :: (List.replicate n x ++ L) = List.replicate n x ++ x :: L := by
      intro n x L
      induction n with
      | zero => rfl
      | succ n ih => rw [List.replicate_succ, List.cons_append, ih]; rfl
    rw [this]
    rfl
  · intro x hx
    simp only [List.mem_append, List.mem_cons] at hx
    rcases hx with hx | rfl | rfl | rfl | hx
    · exact h.pos x (by simp [hx])
    · simp
    · simp
    · simp
    · exact h.pos x (by simp [hx])

/-- The entries after padding. -/
def padEnts : WStr → List (Nat × Nat) → List (Nat × Nat)
  | [], B => B
  | _ :: _, [] => []
  | c :: w, b :: B => if isChineseChar c then (1, b.2) :: b :: (1, b.2) :: padEnts w B else b :: padEnts w B

theorem applyPadX : ∀ (w : WStr) (k m : Nat) (A B : List (Nat × Nat)) (s : NS), TblX (A ++ B) s →
    A.length = k + m → w.length ≤ B.length →
    ∃ s', applyPad (chineseIds k w) m s = .ok s' ∧ TblX (A ++ padEnts w B) s' := by
  intro w
  induction w with
  | nil => intro k m A B s h _ _; exact ⟨s, rfl, by simpa [padEnts] using h⟩
  | cons c w ih =>
    intro k m A B s h hk hl
    cases B with
    | nil => simp at hl
    | cons b B =>
      simp at hl
      by_cases hc : isChineseChar c = true
      · obtain ⟨s', hs', ht⟩ := padX_step (k := b.1) (o := b.2) h
        have ht' : TblX ((A ++ [(1, b.2), b, (1, b.2)]) ++ B) s' := by simpa using ht
        obtain ⟨s'', h1, h2⟩ := ih (k + 1) (m + 2) _ B s' ht' (by simp; omega) hl
        refine ⟨s'', ?_, ?_⟩
        · simp only [chineseIds, hc, if_true, applyPad]
          rw [← hk, hs']; exact h1
        · simpa [padEnts, hc] using h2
      · have ht' : TblX ((A ++ [b]) ++ B) s := by simpa using h
        obtain ⟨s'', h1, h2⟩ := ih (k + 1) m _ B s ht' (by simp; omega) hl
        refine ⟨s'', ?_, ?_⟩
        · simp only [chineseIds, if_neg hc]; exact h1
        · simpa [padEnts, hc] using h2

theorem cjkX {s : NS} {es : List (Nat × Nat)} (h : TblX es s) (hl : s.normalized.length = es.length) :
    ∃ s', doHandleChineseChars s = .ok s' ∧ TblX (padEnts s.normalized es) s' ∧ s'.normalized = padText s.normalized := by
  obtain ⟨s', h1, h2⟩ := applyPadX s.normalized 0 0 [] es s (by simpa using h) rfl (by omega)
  refine ⟨{ s' with normalized := padText s.normalized }, ?_, ?_, rfl⟩
  · unfold doHandleChineseChars
    rw [h1]
    simp only [res_ok_bind, applyPad_text h1]
    have := replay_value s.normalized []
    simp only [List.length_nil, List.nil_append] at this
    rw [this]; rfl
  · have h2' : TblX (padEnts s.normalized es) s' := by simpa using h2
    exact ⟨h2'.ranges, h2'.offsets, h2'.pos⟩

theorem growIds_same : ∀ (v : WStr) (i : Nat), growIds i v v = [] := by
  intro v
  induction v with
  | nil => intro i; rfl
  | cons a v ih => intro i; simp [growIds, ih]

theorem nsmIds_none {P : Platform} : ∀ (v : WStr) (i : Nat), (∀ c ∈ v, P.isNSM c = false) → nsmIds P i v = [] := by
  intro v
  induction v with
  | nil => intro i _; rfl
  | cons a v ih => intro i h; simp [nsmIds, h a (by simp), ih (i + 1) fun c hc => h c (by simp [hc])]

theorem strip_same {P : Platform} {s : NS} (hs : Scalars s.normalized) (h1 : P.nf .nfd s.normalized = s.normalized)
    (h2 : ∀ c ∈ s.normalized, P.isNSM c = false) : doStripAccents P s = .ok s := by
  have hm : s.normalized.map sanitize = s.normalized := by
    rw [List.map_congr_left (g := id) fun c hc => by simp [sanitize, hs c hc]]; simp
  have hf : s.normalized.filter (fun c => !P.isNSM c) = s.normalized := by
    rw [List.filter_eq_self]; intro c hc; simp [h2 c hc]
  unfold doStripAccents nfNormalize
  simp only [hm, h1, growIds_same, applyGrow, res_ok_bind, res_pure, nsmIds_none _ _ h2, applyShrink, hf]

/-- What cleaning makes of a character. -/
def cleanChar (P : Platform) (clean : Bool) (c : Nat) : Nat :=
  if clean = true ∧ (c = 9 ∨ c = 10 ∨ c = 13 ∨ P.iswspace c = true) then 0x20 else c

theorem clean_map {P : Platform} {s : NS} (h : ∀ c ∈ s.normalized, ¬ Dropped P c) :
    doCleanText P s = .ok { s with normalized := s.normalized.map (cleanChar P true) } := by
  have gen : ∀ (w acc : WStr) (i : Nat), (∀ c ∈ w, ¬ Dropped P c) →
      cleanLoop P w i acc s = .ok (acc ++ w.map (cleanChar P true), s) := by
    intro w
    induction w with
    | nil => intro acc i _; simp [cleanLoop]
    | cons c w ih =>
      intro acc i hd
      have hc := hd c (by simp)
      rw [dropped_iff] at hc
      have hc' : c ≠ 0 ∧ c ≠ 0xFFFD ∧ isControlW P c = false := by
        refine Classical.byContradiction fun hn => hc ?_
        simpa using hn
      have hb : (if isWhitespaceW P c = true then 0x20 else c) = cleanChar P true c := by
        unfold cleanChar
        have := blank_iff (P := P) (c := c)
        unfold Blank at this
        by_cases hw : isWhitespaceW P c = true
        · rw [if_pos hw, if_pos ⟨rfl, this.2 hw⟩]
        · rw [if_neg hw, if_neg fun hx => hw (this.1 hx.2)]
      simp only [cleanLoop]
      rw [if_pos hc', ih _ _ (fun c hcw => hd c (by simp [hcw])), hb]
      simp
  unfold doCleanText
  rw [gen s.normalized [] 0 h]
  rfl

/-- `bertChar` with byte counts. -/
def bertG (P : Platform) (clean cjk lower : Bool) (c : Nat) : List (Nat × Nat) :=
  let low := fun x => if lower = true then P.towlower x else x
  let c1 := cleanChar P clean c
  if cjk = true ∧ Cjk c1 then [(low 0x20, 1), (low c1, byteLen c), (low 0x20, 1)] else [(low c1, byteLen c)]

theorem bertG_fst (P : Platform) (clean cjk lower : Bool) (c : Nat) :
    (bertG P clean cjk lower c).map (·.1) = bertChar P clean cjk lower c := by
  simp only [bertG, bertChar]
  show _ = if cjk = true ∧ Cjk (cleanChar P clean c) then _ else _
  by_cases h : cjk = true ∧ Cjk (cleanChar P clean c)
  · rw [if_pos h, if_pos h]; rfl
  · rw [if_neg h, if_neg h]; rfl

theorem padEnts_asIs (f : Nat → Nat) : ∀ (v : WStr) (i : Nat), padEnts (v.map f) (asIs i v) =
    ents (fun c => if Cjk (f c) then [(0x20, 1), (f c, byteLen c), (0x20, 1)] else [(f c, byteLen c)]) i v := by
  intro v
  induction v with
  | nil => intro i; rfl
  | cons c v ih =>
    intro i
    have := ih (i + 1)
    unfold asIs at this ⊢
    by_cases h : Cjk (f c)
    · simp [ents, padEnts, cjk_iff.1 h, h, this]
    · have h' : ¬ isChineseChar (f c) = true := fun x => h (cjk_iff.2 x)
      simp [ents, padEnts, h, h', this]

theorem padText_img (f : Nat → Nat) : ∀ (v : WStr), padText (v.map f) =
    img (fun c => if Cjk (f c) then [(0x20, 1), (f c, byteLen c), (0x20, 1)] else [(f c, byteLen c)]) v := by
  intro v
  induction v with
  | nil => rfl
  | cons c v ih =>
    unfold img at ih ⊢
    by_cases h : Cjk (f c)
    · simp [padText, cjk_iff.1 h, h, ih]
    · have h' : ¬ isChineseChar (f c) = true := fun x => h (cjk_iff.2 x)
      simp [padText, h, h', ih]

theorem ents_congr {G H : Nat → List (Nat × Nat)} (h : ∀ c, (G c).map (·.2) = (H c).map (·.2)) : ∀ (v : WStr) (i : Nat),
    ents G i v = ents H i v := by
  intro v
  induction v with
  | nil => intro i; rfl
  | cons c v ih =>
    intro i
    have h1 : ∀ (l : List (Nat × Nat)), l.map (fun x => (x.2, i)) = (l.map (·.2)).map fun x => (x, i) := by intro l; simp
    simp only [ents, ih]
    rw [h1 (G c), h1 (H c), h c]

theorem img_map (G : Nat → List (Nat × Nat)) (f : Nat → Nat) : ∀ (v : WStr), (img G v).map f =
    img (fun c => (G c).map fun x => (f x.1, x.2)) v := by
  intro v
  induction v with
  | nil => rfl
  | cons c v ih => unfold img at ih ⊢; simp [ih]

/-- On a text without anything to drop or to decompose, the BERT normalizer acts character by character. -/
theorem bert_acts (P : Platform) (clean cjk strip lower : Bool) {w : WStr} (hb : Bmp w) (h : Undropped P clean strip lower w) :
    ActsAs P (some (.bert clean cjk strip lower)) (bertG P clean cjk lower) w := by
  refine ⟨?_, ?_, ?_⟩
  · intro c _; simp only [bertG]; split <;> simp
  · intro c _ x hx
    simp only [bertG] at hx
    split at hx <;> simp at hx
    · rcases hx with rfl | rfl | rfl
      · simp
      · exact utf8Enc1_length_pos _
      · simp
    · subst hx; exact utf8Enc1_length_pos _
  · intro v hv0 hvw
    have hbv : Bmp v := bmp_sub hb hvw
    have hsv := bmp_scalars hbv
    have hX : TblX (asIs 0 v) (NS.ofText v) := by
      obtain ⟨h1, _, h3⟩ := ofText_asIs hbv
      exact ⟨h1, by rw [(ofText_bmp hbv).2, tblOffs_asIs], h3⟩
    -- cleaning
    have e1 : (if clean then doCleanText P (NS.ofText v) else .ok (NS.ofText v)) =
        .ok { NS.ofText v with normalized := v.map (cleanChar P clean) } := by
      cases clean with
      | true => rw [if_pos rfl, clean_map (s := NS.ofText v) fun c hc => h.1 rfl c (hvw c hc)]; rfl
      | false =>
        have : v.map (cleanChar P false) = v := by
          apply List.map_id''; intro c; simp [cleanChar]
        rw [if_neg (by simp), this]; rfl
    -- padding
    let f := cleanChar P clean
    let G0 : Nat → List (Nat × Nat) := fun c => if cjk = true ∧ Cjk (f c) then [(0x20, 1), (f c, byteLen c), (0x20, 1)] else [(f c, byteLen c)]
    have e2 : ∃ s2, (if cjk then doHandleChineseChars { NS.ofText v with normalized := v.map f } else
        .ok { NS.ofText v with normalized := v.map f }) = .ok s2 ∧ TblX (ents G0 0 v) s2 ∧ s2.normalized = img G0 v := by
      cases hc : cjk with
      | true =>
        obtain ⟨s', h1, h2, h3⟩ := cjkX (s := { NS.ofText v with normalized := v.map f }) (es := asIs 0 v)
          ⟨hX.ranges, hX.offsets, hX.pos⟩ (by simp [asIs_length])
        refine ⟨s', by rw [if_pos rfl]; exact h1, ?_, ?_⟩
        · have hh := padEnts_asIs f v 0
          simp only at h2; rw [hh] at h2
          have : ents G0 0 v = ents (fun c => if Cjk (f c) then [(0x20, 1), (f c, byteLen c), (0x20, 1)] else [(f c, byteLen c)]) 0 v :=
            ents_congr (fun c => by simp [G0, hc]) v 0
          rw [this]; exact h2
        · rw [h3]; simp only; rw [padText_img f v]; simp [G0, hc, img]
      | false =>
        refine ⟨_, by rw [if_neg (by simp)], ?_, ?_⟩
        · have : ents G0 0 v = asIs 0 v := ents_congr (fun c => by simp [G0, hc]) v 0
          rw [this]; exact ⟨hX.ranges, hX.offsets, hX.pos⟩
        · simp only [img, G0, hc]
          clear hv0 hvw hbv hsv hX e1
          induction v with
          | nil => rfl
          | cons c v ih => simp at ih ⊢; exact ih
    obtain ⟨s2, e2, t2, n2⟩ := e2
    have hmem : ∀ c ∈ img G0 v, c = 0x20 ∨ c ∈ w := by
      intro c hc
      obtain ⟨x, hx, hc⟩ := List.mem_flatMap.1 hc
      have hf : f x = 0x20 ∨ f x = x := by simp only [f, cleanChar]; split <;> simp
      simp only [G0] at hc
      split at hc <;> simp at hc
      · rcases hc with rfl | rfl | rfl
        · exact .inl rfl
        · rcases hf with h | h
          · exact .inl h
          · rw [h]; exact .inr (hvw x hx)
        · exact .inl rfl
      · subst hc
        rcases hf with h | h
        · exact .inl h
        · rw [h]; exact .inr (hvw x hx)
    have hsi : Scalars (img G0 v) := by
      intro c hc
      rcases hmem c hc with rfl | h
      · decide
      · exact bmp_scalars hb c h
    -- accents
    have e3 : (if strip || lower then doStripAccents P s2 else .ok s2) = .ok s2 := by
      by_cases hsl : (strip || lower) = true
      · rw [if_pos hsl]
        simp at hsl
        have := h.2 hsl _ hmem
        exact strip_same (by rw [n2]; exact hsi) (by rw [n2]; exact this.1) (by rw [n2]; exact this.2)
      · rw [if_neg hsl]
    refine ⟨if lower then doLowercase P s2 else s2, ?_, ?_, ?_, ?_⟩
    · simp only [normalizeOpt, Normalizer.run, bertNormalize_eq]
      rw [e1, res_ok_bind, e2, res_ok_bind, e3, res_ok_bind]
    · cases hl : lower with
      | true =>
        simp only [if_true, doLowercase, n2, img_map]
        congr 1
        funext c
        simp only [G0, bertG, f]
        split <;> simp
      | false =>
        simp only [Bool.false_eq_true, if_false, n2]
        rfl
    · have : ents (bertG P clean cjk lower) 0 v = ents G0 0 v := ents_congr (fun c => by
        simp only [G0, bertG, f]; split <;> rfl) v 0
      rw [this]
      cases lower <;> exact t2.ranges
    · have : ents (bertG P clean cjk lower) 0 v = ents G0 0 v := ents_congr (fun c => by
        simp only [G0, bertG, f]; split <;> rfl) v 0
      rw [this]
      cases lower <;> exact t2.offsets

end Tok
