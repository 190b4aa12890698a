import Verif.Spec.Located
import Verif.Proofs.Encoding
import Verif.Proofs.Normalizer
import Verif.Props.Bert
import Verif.Props.Split
import Verif.Props.Extract

set_option autoImplicit false

namespace Tok
open Spec

/-! ### The table of original positions -/

/-- The table maps the start of each position to itself. -/
def Points (ns : NS) : Prop := ∀ (i : Nat) (g o : Nat × Nat), ns.ranges[i]? = some g → ns.offsets[g.1]? = some o → o.1 = i

/-- The table of a text whose positions have the byte lengths `lens`, with a rest that no position refers to. -/
structure GT (lens : List Nat) (ns : NS) : Prop where
  ranges : ns.ranges = mkRanges 0 lens
  offsets : ∃ tail, ns.offsets = mkOffsets 0 lens ++ tail
  pos : ∀ k ∈ lens, 0 < k

theorem mkOffsets_append (l m : List Nat) : ∀ a, mkOffsets a (l ++ m) = mkOffsets a l ++ mkOffsets (a + l.length) m := by
  induction l with
  | nil => intro a; simp [mkOffsets]
  | cons k l ih => intro a; simp [mkOffsets, ih, Nat.add_assoc, Nat.add_comm 1]

theorem GT.points {lens : List Nat} {ns : NS} (h : GT lens ns) : Points ns := by
  intro i g o hg ho
  obtain ⟨tail, ht⟩ := h.offsets
  have hi : i < lens.length := by
    have := (List.getElem?_eq_some_iff.1 hg).1
    rw [h.ranges] at this; simpa using this
  obtain ⟨A, k, B, rfl, hl⟩ : ∃ A k B, lens = A ++ k :: B ∧ A.length = i :=
    ⟨lens.take i, lens[i], lens.drop (i + 1), by
      rw [← List.drop_eq_getElem_cons hi]; exact (List.take_append_drop i lens).symm, by simp; omega⟩
  obtain ⟨k', rfl⟩ : ∃ k', k = k' + 1 := ⟨k - 1, by have := h.pos k (by simp); omega⟩
  have hg1 : g.1 = A.sum := by
    rw [h.ranges, mkRanges_append, List.getElem?_append_right (by simp; omega)] at hg
    simp [mkRanges, hl] at hg
    rw [← hg]
  rw [ht, hg1, mkOffsets_append, List.append_assoc, List.getElem?_append_right (by simp)] at ho
  simp [mkOffsets, hl, List.replicate_succ] at ho
  rw [← ho]

theorem ofText_gt (w : WStr) : GT (unitLens (fromUTF32 w)) (NS.ofText w) :=
  ⟨rfl, ⟨[], by simp [NS.ofText]⟩, (ofText_tab w).pos⟩

theorem regroup_shift (a : Nat) (l : List Nat) (hl : ∀ k ∈ l, 0 < k) : ∀ (m i : Nat),
    regroup (i, i + 1) (a + i, a + i + 1) (List.replicate m (i, i + 1) ++ mkOffsets (i + 1) l) =
      List.replicate m (a + i, a + i + 1) ++ mkOffsets (a + i + 1) l := by
  induction l with
  | nil =>
    intro m i
    simp only [mkOffsets, List.append_nil]
    induction m with
    | zero => rfl
    | succ m ih => rw [List.replicate_succ, regroup, if_pos rfl, ih]; rfl
  | cons k l ih =>
    intro m i
    induction m with
    | zero =>
      obtain ⟨k', rfl⟩ : ∃ k', k = k' + 1 := ⟨k - 1, by have := hl k (by simp); omega⟩
      simp only [List.replicate_zero, List.nil_append, mkOffsets]
      rw [List.replicate_succ, List.cons_append, regroup, if_neg (by simp)]
      have := ih (fun k hk => hl k (by simp [hk])) k' (i + 1)
      simp only [← Nat.add_assoc] at this ⊢
      rw [this, List.replicate_succ]; rfl
    | succ m ih' => rw [List.replicate_succ, List.cons_append, regroup, if_pos rfl, ih']; rfl

theorem eraseRange_eq {α : Type} {l out : List α} {a b : Nat} (h : eraseRange l a b = .ok out) :
    out = l.take a ++ l.drop b := by
  unfold eraseRange at h; split at h <;> cases h; rfl

theorem insertAt_eq {α : Type} {l out x : List α} {a : Nat} (h : insertAt l a x = .ok out) :
    out = l.take a ++ x ++ l.drop a ∧ a ≤ l.length := by
  unfold insertAt at h; split at h <;> cases h
  exact ⟨rfl, by assumption⟩

theorem vecAt_ok {α : Type} {l : List α} {i : Nat} {x : α} (h : vecAt l i = .ok x) : l[i]? = some x := by
  unfold vecAt at h; split at h <;> simp_all

theorem transformRange_ok {s s' sub : NS} {a b : Nat} (h : s.transformRange a b sub = .ok s') :
    ∃ offStart x offEnd y newOffsets erased offsets, vecAt s.ranges a = .ok (offStart, x) ∧
      (if b = s.ranges.length then vecAt s.ranges (b - 1) else vecAt s.ranges b) = .ok (offEnd, y) ∧
      ¬ (mkRanges offStart (sub.ranges.map (·.2)) = [] ∧ s.ranges.drop b ≠ []) ∧
      (match sub.offsets with
        | [] => .ok []
        | o :: r => do
          let first ← vecAt s.offsets offStart
          .ok (first :: regroup o first r) : Res _) = .ok newOffsets ∧
      eraseRange s.offsets offStart offEnd = .ok erased ∧ insertAt erased offStart newOffsets = .ok offsets ∧
      s' = { s with offsets, ranges := s.ranges.take a ++ (mkRanges offStart (sub.ranges.map (·.2)) ++
        mkRanges (offStart + (sub.ranges.map (·.2)).sum) ((s.ranges.drop b).map (·.2))) } := by
  unfold NS.transformRange at h
  obtain ⟨⟨offStart, x⟩, h1, h⟩ := res_bind_ok.1 h
  refine ⟨offStart, x, ?_⟩
  simp only at h
  have tail : ∀ (off : Nat × Nat), (if mkRanges offStart (sub.ranges.map (·.2)) = [] ∧ s.ranges.drop b ≠ [] then .error (.ub .outOfBounds)
      else (match sub.offsets with
        | [] => .ok []
        | o :: r => do
          let first ← vecAt s.offsets offStart
          .ok (first :: regroup o first r) : Res _) >>= fun newOffsets => do
        let erased ← eraseRange s.offsets offStart off.1
        let offsets ← insertAt erased offStart newOffsets
        return { s with offsets, ranges := s.ranges.take a ++ (mkRanges offStart (sub.ranges.map (·.2)) ++
          mkRanges (offStart + (sub.ranges.map (·.2)).sum) ((s.ranges.drop b).map (·.2))) }) = .ok s' →
      (if b = s.ranges.length then vecAt s.ranges (b - 1) else vecAt s.ranges b) = .ok off →
      ∃ offEnd y newOffsets erased offsets, vecAt s.ranges a = .ok (offStart, x) ∧
      (if b = s.ranges.length then vecAt s.ranges (b - 1) else vecAt s.ranges b) = .ok (offEnd, y) ∧
      ¬ (mkRanges offStart (sub.ranges.map (·.2)) = [] ∧ s.ranges.drop b ≠ []) ∧
      (match sub.offsets with
        | [] => .ok []
        | o :: r => do
          let first ← vecAt s.offsets offStart
          .ok (first :: regroup o first r) : Res _) = .ok newOffsets ∧
      eraseRange s.offsets offStart offEnd = .ok erased ∧ insertAt erased offStart newOffsets = .ok offsets ∧
      s' = { s with offsets, ranges := s.ranges.take a ++ (mkRanges offStart (sub.ranges.map (·.2)) ++
        mkRanges (offStart + (sub.ranges.map (·.2)).sum) ((s.ranges.drop b).map (·.2))) } := by
    intro off h h2
    split at h
    · cases h
    rename_i hne
    obtain ⟨newOffsets, h3, h⟩ := res_bind_ok.1 h
    obtain ⟨erased, h4, h⟩ := res_bind_ok.1 h
    obtain ⟨offsets, h5, h⟩ := res_bind_ok.1 h
    cases h
    exact ⟨off.1, off.2, newOffsets, erased, offsets, h1, h2, hne, h3, h4, h5, rfl⟩
  split at h
  all_goals
    rename_i hb
    obtain ⟨off, h2, h⟩ := res_bind_ok.1 h
    refine tail off ?_ (by first | rw [if_pos hb, h2] | rw [if_neg hb, h2])
    rw [← h]
    congr 1
    cases sub.offsets with
    | nil => rfl
    | cons o r => simp only [bind_assoc]

/-- Replacing a stretch by the table of the same stretch changes nothing. -/
theorem transformRange_same {A B C : List Nat} {ns ns' sub : NS} (h : GT (A ++ B ++ C) ns)
    (hsr : sub.ranges = mkRanges 0 B) (hso : sub.offsets = mkOffsets 0 B)
    (ht : ns.transformRange A.length (A.length + B.length) sub = .ok ns') : GT (A ++ B ++ C) ns' ∧ B ≠ [] := by
  obtain ⟨tail, hoff⟩ := h.offsets
  have hrl : ns.ranges.length = A.length + B.length + C.length := by rw [h.ranges]; simp; omega
  obtain ⟨offStart, x, offEnd, y, newOffsets, erased, offsets, h1, h2, hne, h3, h4, h5, rfl⟩ := transformRange_ok ht
  clear ht
  have hdrop : ns.ranges.drop (A.length + B.length) = mkRanges (A ++ B).sum C := by
    rw [h.ranges, mkRanges_append, List.drop_append_of_le_length (by simp), List.drop_eq_nil_of_le (by simp)]
    simp
  have htake : ns.ranges.take A.length = mkRanges 0 A := by
    rw [h.ranges, mkRanges_take, List.append_assoc, List.take_left]
  rw [hsr, hdrop] at hne
  simp only [hso] at h3
  have hB : B ≠ [] := by
    rintro rfl
    have hC : C = [] := by
      cases C with
      | nil => rfl
      | cons c C => exact absurd ⟨by simp [mkRanges], by simp [mkRanges]⟩ hne
    subst hC
    have := vecAt_ok h1
    rw [List.getElem?_eq_none (by rw [hrl]; simp)] at this
    cases this
  obtain ⟨k, B', rfl⟩ : ∃ k B', B = k :: B' := by cases B with | nil => exact absurd rfl hB | cons k B' => exact ⟨k, B', rfl⟩
  have hkpos : ∀ j ∈ k :: B', 0 < j := fun j hj => h.pos j (by simp at hj ⊢; rcases hj with rfl | hj <;> simp [*])
  obtain ⟨k', rfl⟩ : ∃ k', k = k' + 1 := ⟨k - 1, by have := hkpos k (by simp); omega⟩
  have hos : offStart = A.sum := by
    have := vecAt_ok h1
    rw [h.ranges, List.append_assoc, mkRanges_append, List.getElem?_append_right (by simp)] at this
    simp [mkRanges] at this; omega
  subst hos
  -- the new entries
  have hnew : newOffsets = mkOffsets A.length ((k' + 1) :: B') := by
    rw [show mkOffsets 0 ((k' + 1) :: B') = (0, 1) :: (List.replicate k' (0, 1) ++ mkOffsets 1 B') by
      simp [mkOffsets, List.replicate_succ]] at h3
    simp only at h3
    obtain ⟨first, hf, h3⟩ := res_bind_ok.1 h3
    have hf := vecAt_ok hf
    rw [hoff, List.append_assoc A, mkOffsets_append, List.append_assoc, List.getElem?_append_right (by simp)] at hf
    simp [mkOffsets, List.replicate_succ] at hf
    subst hf
    cases h3
    have := regroup_shift A.length B' (fun j hj => hkpos j (by simp [hj])) k' 0
    simp only [Nat.add_zero, Nat.zero_add] at this
    rw [this]; simp [mkOffsets, List.replicate_succ]
  have h4 := eraseRange_eq h4
  obtain ⟨h5, h5'⟩ := insertAt_eq h5
  refine ⟨⟨?_, ?_, h.pos⟩, by simp⟩
  · simp only
    rw [htake, mkRanges_append, mkRanges_append, Nat.zero_add, List.append_assoc]
    congr 1
    rw [hsr, hdrop]
    simp only [mkRanges_snd]
    rw [show A.sum + ((k' + 1) :: B').sum = 0 + (A ++ (k' + 1) :: B').sum by simp]
  · simp only
    have hA : ns.offsets.take A.sum = mkOffsets 0 A := by
      rw [hoff, List.append_assoc A, mkOffsets_append, List.append_assoc, List.take_left' (by simp)]
    have hl : (ns.offsets.take A.sum).length = A.sum := by rw [hA]; simp
    have ho : offsets = mkOffsets 0 (A ++ (k' + 1) :: B') ++ ns.offsets.drop offEnd := by
      rw [h5, h4, List.take_left' hl, List.drop_left' hl, hnew, hA, mkOffsets_append]; simp
    rw [ho]
    split at h2
    · rename_i hC
      have : C = [] := by rw [hrl] at hC; exact List.length_eq_zero_iff.1 (by omega)
      subst this
      exact ⟨ns.offsets.drop offEnd, by rw [List.append_nil]⟩
    · have hC : C ≠ [] := by
        rintro rfl
        rename_i hC; exact hC (by rw [hrl]; simp)
      obtain ⟨c, C', rfl⟩ : ∃ c C', C = c :: C' := by cases C with | nil => exact absurd rfl hC | cons c C' => exact ⟨c, C', rfl⟩
      have h2 := vecAt_ok h2
      rw [h.ranges, mkRanges_append, List.getElem?_append_right (by simp)] at h2
      simp [mkRanges] at h2
      refine ⟨tail, ?_⟩
      rw [hoff, mkOffsets_append _ (c :: C'), List.append_assoc, List.drop_left' (by simp; omega)]

/-! ### The splits of the extraction -/

/-- The splits hold consecutive stretches of the text, the first of which starts at position `pos`. -/
inductive Placed : WStr → Nat → List Split → Prop
  | nil (pos : Nat) : Placed [] pos []
  | cons {v r : WStr} {pos : Nat} {s : Split} {l : List Split} : s.normalized = utf8 v → s.offsets = (pos, pos + v.length) →
      Placed r (pos + v.length) l → Placed (v ++ r) pos (s :: l)

theorem Placed.append {v w : WStr} {a : Nat} {l m : List Split} (h : Placed v a l) (h' : Placed w (a + v.length) m) :
    Placed (v ++ w) a (l ++ m) := by
  induction h with
  | nil pos => simpa using h'
  | @cons v r pos s l h1 h2 _ ih =>
    rw [List.append_assoc]
    refine .cons h1 h2 (ih ?_)
    have : pos + v.length + r.length = pos + (v ++ r).length := by simp; omega
    rw [this]; exact h'

theorem units_bmp {w : WStr} (h : Bmp w) : units w = w.length := by rw [units_eq, utf16_bmp h]

theorem Placed.located {w : WStr} (hb : Bmp w) {r : WStr} {pos : Nat} {l : List Split} (h : Placed r pos l) :
    ∀ v, w = v ++ r → pos = v.length → ∀ s ∈ l, Located w s := by
  induction h with
  | nil => simp
  | @cons v r pos s l h1 h2 _ ih =>
    rintro x rfl rfl q hq
    rcases List.mem_cons.1 hq with rfl | hq
    · have hv : Bmp v := bmp_sub hb fun c hc => by simp [hc]
      have hx : Bmp x := bmp_sub hb fun c hc => by simp [hc]
      refine ⟨_, v, ⟨x, r, by simp, ?_, rfl⟩, utf8Text_iff.2 ⟨bmp_scalars hv, h1⟩⟩
      rw [h2, units_bmp hx]
    · exact ih (x ++ v) (by simp) (by simp) q hq

theorem tiles_le {l : List (Nat × Nat)} : ∀ {a b : Nat}, Tiles a l b → a ≤ b := by
  induction l with
  | nil => intro a b h; simp only [Tiles] at h; omega
  | cons x r ih => intro a b h; simp only [Tiles] at h; have := ih h.2.2; omega

theorem segSplits_placed {w : WStr} (hw : Bmp w) (base : Nat) : ∀ (segs : List TSeg) (pos : Nat) (out : List Split),
    Tiles pos (segs.map (·.2)) w.length → segSplits w base segs = .ok out → Placed (w.drop pos) (pos + base) out := by
  intro segs
  induction segs with
  | nil =>
    intro pos out ht h
    simp only [List.map_nil, Tiles] at ht
    cases h
    subst ht
    rw [List.drop_length]; exact .nil _
  | cons g r ih =>
    intro pos out ht h
    obtain ⟨id, x, y⟩ := g
    simp only [List.map_cons, Tiles] at ht
    obtain ⟨rfl, hxy, ht⟩ := ht
    have hy := tiles_le ht
    have hs := bmp_scalars (bmp_sub hw (fun c (hc : c ∈ part w x y) => part_mem hc))
    have hsub : wsubstr w x y = .ok (part w x y) := by
      unfold wsubstr part; rw [if_pos (by omega), if_pos hxy]
    simp only [segSplits, hsub, res_ok_bind, convertToString_scalars hs] at h
    obtain ⟨rest, h1, h⟩ := res_bind_ok.1 h
    cases h
    have e : w.drop x = part w x y ++ w.drop y := by
      have : w.drop y = (w.drop x).drop (y - x) := by rw [List.drop_drop]; congr 1; omega
      rw [this]; unfold part; exact (List.take_append_drop _ _).symm
    have hl : (part w x y).length = y - x := by simp [part]; omega
    rw [e]
    refine .cons rfl ?_ ?_
    · simp only [hl, Prod.mk.injEq, true_and]; omega
    · rw [hl, show x + base + (y - x) = y + base by omega]
      exact ih y rest ht h1

theorem cuttable_sub {a : AddedVocab} {v w : WStr} (h : Cuttable a w) (hs : ∀ c ∈ v, c ∈ w) : Cuttable a v := by
  refine ⟨bmp_sub h.1 hs, ?_⟩
  rcases h.2 with h | ⟨h, h'⟩
  · exact .inl h
  · exact .inr ⟨fun c hc => h c (hs c hc), h'⟩

theorem ofText_bmp {w : WStr} (h : Bmp w) : (NS.ofText w).ranges = mkRanges 0 (w.map byteLen) ∧
    (NS.ofText w).offsets = mkOffsets 0 (w.map byteLen) := by
  unfold NS.ofText; rw [unitLens_bmp h]; exact ⟨rfl, rfl⟩

/-- Splits with tokens are ASCII. -/
def TokensAscii (l : List Split) : Prop := ∀ s ∈ l, s.tokens ≠ [] → ∀ b ∈ s.normalized, b < 0x80

theorem normalizeLoop_placed (P : Platform) {w : WStr} : ∀ (l : List Split) (a : AddedVocab) (ns ns' : NS) (x r : WStr)
    (out : List Split), w = x ++ r → Placed r x.length l → Cuttable a w → GT (w.map byteLen) ns → TokensAscii l →
    (normalizeLoop P none a ns x.length l).1 = .ok (ns', out) →
    GT (w.map byteLen) ns' ∧ Placed r x.length out ∧ (l ≠ [] → out ≠ []) := by
  intro l
  induction l with
  | nil =>
    intro a ns ns' x r out _ hp _ hg _ h
    simp only [normalizeLoop, Except.ok.injEq, Prod.mk.injEq] at h
    obtain ⟨rfl, rfl⟩ := h
    exact ⟨hg, hp, by simp⟩
  | cons s l ih =>
    intro a ns ns' x r out hw hp hc hg hta h
    generalize hx : x.length = n at hp
    cases hp with
    | @cons v r' _ _ _ h1 h2 h3 =>
    subst hx
    have hbv : Bmp v := bmp_sub hc.1 fun c hcm => by rw [hw]; simp [hcm]
    have hta' : TokensAscii l := fun q hq => hta q (by simp [hq])
    have hw' : w = (x ++ v) ++ r' := by rw [hw]; simp
    have hl' : (x ++ v).length = x.length + v.length := by simp
    simp only [normalizeLoop] at h
    split at h
    · rename_i htok
      have hlen : s.normalized.length = v.length := by
        rw [h1]
        exact utf8_ascii_rev (by rw [← h1]; exact hta s (by simp) htok)
      rw [hlen, ← hl'] at h
      have ih' := fun ns' out => ih a ns ns' (x ++ v) r' out hw' (by rw [hl']; exact h3) hc hg hta'
      generalize normalizeLoop P none a ns (x ++ v).length l = R at h ih'
      obtain ⟨rr, a'⟩ := R
      cases rr with
      | error e => cases h
      | ok q =>
        obtain ⟨ns1, rest⟩ := q
        simp only [Except.ok.injEq, Prod.mk.injEq] at h
        obtain ⟨rfl, rfl⟩ := h
        obtain ⟨i1, i2, _⟩ := ih' ns1 rest rfl
        refine ⟨i1, .cons h1 (by simp [hl']) (by rw [← hl']; exact i2), by simp⟩
    · have hcv : Cuttable a v := cuttable_sub hc fun c hcm => by rw [hw]; simp [hcm]
      have hT := normalizeSplit_touched P none a ns x.length s
      have key : ∀ ns1 here n, (normalizeSplit P none a ns x.length s).1 = .ok (ns1, here, n) →
          GT (w.map byteLen) ns1 ∧ Placed v x.length here ∧ n = v.length ∧ here ≠ [] := by
        intro ns1 here n hN
        unfold normalizeSplit at hN
        have hsv := bmp_scalars hbv
        have hcf : convertFromString s.normalized = .ok v := by
          rw [h1]; exact (C02_from_string_iff _ _).2 (utf8Text_iff.2 ⟨hsv, rfl⟩)
        simp only [hcf, res_ok_bind, normalizeOpt, h2] at hN
        rw [if_neg (by omega), show x.length + (x.length + v.length) - x.length = x.length + v.length by omega] at hN
        cases htr : ns.transformRange x.length (x.length + v.length) (NS.ofText v) with
        | error e => rw [htr] at hN; simp only [res_error_bind] at hN; cases hN
        | ok ns2 =>
          have htxt : convertToString (NS.ofText v).normalized = .ok (utf8 v) := convertToString_scalars hsv
          rw [htr] at hN
          simp only [res_ok_bind, htxt, res_pure] at hN
          obtain ⟨segs, f1, f2, _⟩ := findMatches_bmp (T := a.normTrie) hcv fun p hp => List.mem_append_right _ hp
          rw [f1, res_ok_bind] at hN
          obtain ⟨splits, hsp, hN⟩ := res_bind_ok.1 hN
          cases hN
          have hlens : w.map byteLen = x.map byteLen ++ v.map byteLen ++ r'.map byteLen := by rw [hw']; simp
          rw [hlens] at hg ⊢
          obtain ⟨t1, t2⟩ := transformRange_same hg (ofText_bmp hbv).1 (ofText_bmp hbv).2
            (by simp only [List.length_map]; exact htr)
          have hpl := segSplits_placed hbv x.length segs 0 here f2 hsp
          simp only [List.drop_zero, Nat.zero_add] at hpl
          refine ⟨t1, hpl, rfl, ?_⟩
          rintro rfl
          generalize hn : x.length = n at hpl
          cases hpl
          exact t2 rfl
      generalize normalizeSplit P none a ns x.length s = R at h key hT
      obtain ⟨rr, a1⟩ := R
      cases rr with
      | error e => cases h
      | ok q =>
        obtain ⟨ns1, here, n⟩ := q
        obtain ⟨k1, k2, rfl, k4⟩ := key ns1 here n rfl
        simp only [← hl'] at h
        have ih' := fun ns' out => ih a1 ns1 ns' (x ++ v) r' out hw' (by rw [hl']; exact h3) (touched_cuttable hT hc) k1 hta'
        generalize normalizeLoop P none a1 ns1 (x ++ v).length l = R at h ih'
        obtain ⟨rr, a2⟩ := R
        cases rr with
        | error e => cases h
        | ok q =>
          obtain ⟨ns2, rest⟩ := q
          simp only [Except.ok.injEq, Prod.mk.injEq] at h
          obtain ⟨rfl, rfl⟩ := h
          obtain ⟨i1, i2, _⟩ := ih' ns2 rest rfl
          exact ⟨i1, k2.append (by rw [← hl']; exact i2), fun _ h => k4 (List.append_eq_nil_iff.1 h).1⟩

theorem isToken_ascii {a : AddedVocab} {T : List (Str × Int)} {s : Split} (h : IsToken a T s) (hT : ∀ p ∈ T, Ascii p.1) :
    ∀ b ∈ s.normalized, b < 0x80 := by
  obtain ⟨i, k, l, r, hk, e, hl, hr, _⟩ := h
  have hbl : ∀ c, BlankByte c → c < 0x80 := by
    intro c hc; unfold BlankByte at hc; omega
  intro b hb
  rw [e] at hb
  simp only [List.mem_append] at hb
  rcases hb with (hb | hb) | hb
  · exact hbl _ (hl b hb)
  · exact hT _ hk b hb
  · exact hbl _ (hr b hb)

theorem extract_gt (P : Platform) {a : AddedVocab} {w : WStr} {p : PTS} (hw : Cuttable a w)
    (hT : ∀ p ∈ a.nonNormTrie, Ascii p.1) (h : (a.extract P none w).1 = .ok p) :
    GT (w.map byteLen) p.normalized ∧ Placed w 0 p.splits := by
  have hs := bmp_scalars hw.1
  have htouch := firstSplits_touched a w
  have hfirst : ∀ p0, (a.firstSplits w).1 = .ok p0 → p0.normalized = NS.ofText w ∧ Placed w 0 p0.splits ∧ p0.splits ≠ [] ∧
      TokensAscii p0.splits := by
    intro p0 h0
    obtain ⟨p1, cuts, e1, _, _, e4, e5, _⟩ := firstSplits_bmp hw
    rw [h0] at e1; cases e1
    refine ⟨?_, ?_, e5, ?_⟩
    · unfold AddedVocab.firstSplits PTS.ofNS at h0
      simp only [NS.ofText, convertToString_scalars hs, res_ok_bind, res_pure] at h0
      obtain ⟨segs, _, h0⟩ := res_bind_ok.1 h0
      obtain ⟨splits, _, h0⟩ := res_bind_ok.1 h0
      cases h0
      split <;> rfl
    · unfold AddedVocab.firstSplits PTS.ofNS at h0
      simp only [NS.ofText, convertToString_scalars hs, res_ok_bind, res_pure] at h0
      obtain ⟨segs, f1, f2, _⟩ := findMatches_bmp (T := a.nonNormTrie) hw fun p hp => List.mem_append_left _ hp
      rw [f1, res_ok_bind] at h0
      obtain ⟨splits, hsp, h0⟩ := res_bind_ok.1 h0
      cases h0
      have := segSplits_placed hw.1 0 segs 0 splits f2 hsp
      simp only [List.drop_zero, Nat.zero_add] at this
      split
      · have := Placed.cons (v := w) (r := []) (pos := 0) (s := { normalized := utf8 w, offsets := (0, w.length) }) rfl
          (by simp) (.nil _)
        simpa using this
      · exact this
    · intro s hs' htok
      rcases e4 s hs' with h | h
      · exact absurd h htok
      · exact isToken_ascii h hT
  unfold AddedVocab.extract at h
  generalize a.firstSplits w = R at h hfirst htouch
  obtain ⟨r, a'⟩ := R
  cases r with
  | error e => cases h
  | ok p0 =>
    obtain ⟨h1, h2, h3, h4⟩ := hfirst p0 rfl
    simp only at h
    have hg : GT (w.map byteLen) p0.normalized := by
      rw [h1]; rw [← unitLens_bmp hw.1]; exact ofText_gt w
    have key := fun ns out => normalizeLoop_placed P (w := w) p0.splits a' p0.normalized ns [] w out rfl h2
      (touched_cuttable htouch hw) hg h4
    simp only [List.length_nil] at key
    generalize normalizeLoop P none a' p0.normalized 0 p0.splits = R at h key
    obtain ⟨r, a''⟩ := R
    cases r with
    | error e => cases h
    | ok q =>
      obtain ⟨ns, out⟩ := q
      obtain ⟨k1, k2, k3⟩ := key ns out rfl
      simp only [Except.ok.injEq] at h
      subst h
      simp only [if_neg (k3 h3)]
      exact ⟨k1, k2⟩

theorem extract_placed0 (P : Platform) {a : AddedVocab} {w : WStr} {p : PTS} (hw : Cuttable a w)
    (hT : ∀ p ∈ a.nonNormTrie, Ascii p.1) (h : (a.extract P none w).1 = .ok p) :
    Points p.normalized ∧ Placed w 0 p.splits :=
  ⟨(extract_gt P hw hT h).1.points, (extract_gt P hw hT h).2⟩

theorem extract_placed (P : Platform) {a : AddedVocab} {w : WStr} {p : PTS} (hw : Cuttable a w)
    (hT : ∀ p ∈ a.nonNormTrie, Ascii p.1) (h : (a.extract P none w).1 = .ok p) :
    Points p.normalized ∧ ∀ s ∈ p.splits, Located w s := by
  obtain ⟨h1, h2⟩ := extract_placed0 P hw hT h
  exact ⟨h1, h2.located hw.1 [] rfl rfl⟩

/-! ### Pre-tokenization -/

theorem partOf_trans {w v u : WStr} {a b c d : Nat} (h1 : PartOf w a b v) (h2 : PartOf v c d u) :
    PartOf w (a + c) (a + d) u := by
  obtain ⟨l, r, rfl, rfl, rfl⟩ := h1
  obtain ⟨l', r', rfl, rfl, rfl⟩ := h2
  refine ⟨l ++ l', r' ++ r, by simp, ?_, ?_⟩ <;> simp [units_append] <;> omega

theorem located_words {w v : WStr} {a b : Nat} (hv : PartOf w a b v) (hsc : Scalars v) {ws : List (Nat × WStr)}
    (h : ∀ x ∈ ws, PartOf v x.1 (x.1 + units x.2) x.2) : ∀ s ∈ wordSplits a ws, Located w s := by
  intro s hs
  obtain ⟨x, hx, rfl⟩ := List.mem_map.1 hs
  have hp := h x hx
  have := partOf_trans hv hp
  refine ⟨_, x.2, by simp only [Nat.add_comm x.1]; exact this, utf8Text_iff.2 ⟨?_, rfl⟩⟩
  obtain ⟨l, r, e, _⟩ := hp
  exact hsc.sub (by intro c hc; rw [e]; simp [hc])

theorem located_pieces {w v : WStr} {a b : Nat} (hv : PartOf w a b v) (hsc : Scalars v) : ∀ (ps : Parts) (l : WStr),
    v = l ++ partsText ps → ∀ s ∈ pieceSplits a (units l) ps, Located w s := by
  intro ps
  induction ps with
  | nil => intro l _ s hs; simp [pieceSplits] at hs
  | cons p ps ih =>
    intro l he s hs
    obtain ⟨x, f⟩ := p
    have he' : v = (l ++ x) ++ partsText ps := by simpa using he
    simp only [pieceSplits, List.mem_append] at hs
    rcases hs with hs | hs
    · cases f with
      | true => simp at hs
      | false =>
        simp at hs
        subst hs
        have hp : PartOf v (units l) (units l + units x) x := ⟨l, partsText ps, he', rfl, rfl⟩
        have := partOf_trans hv hp
        refine ⟨_, x, by simp only [Nat.add_comm (units l)]; exact this, utf8Text_iff.2 ⟨?_, rfl⟩⟩
        exact hsc.sub (by intro c hc; rw [he']; simp [hc])
    · exact ih (l ++ x) he' s (by rw [units_append]; exact hs)

theorem splitLoop_located {w : WStr} {fn : U16 → Res (List Seg)} {b : Behavior} {l out : List Split}
    (hstep : ∀ (s : Split) (v : WStr) (e : Nat) (part : List Split), PartOf w s.offsets.1 e v → Scalars v → s.normalized = utf8 v →
      splitNormalized s fn b = .ok part → ∀ q ∈ part, Located w q)
    (hl : ∀ s ∈ l, Located w s) (h : splitLoop fn b l = .ok out) : ∀ s ∈ out, Located w s := by
  obtain ⟨parts, rfl, hE⟩ := splitLoop_ok_iff.1 h
  intro q hq
  obtain ⟨part, hp, hq⟩ := List.mem_flatten.1 hq
  obtain ⟨s, hs, hR⟩ := each_mem_right hE part hp
  rcases hR with ⟨_, rfl⟩ | ⟨_, hR⟩
  · simp at hq; subst hq; exact hl q hs
  · obtain ⟨e, v, hv, ht⟩ := hl s hs
    obtain ⟨hsc, hn⟩ := utf8Text_iff.1 ht
    exact hstep s v e part hv hsc hn hR q hq

theorem split_located {w : WStr} {p p' : PTS} {fn : U16 → Res (List Seg)} {b : Behavior}
    (hstep : ∀ (s : Split) (v : WStr) (e : Nat) (part : List Split), PartOf w s.offsets.1 e v → Scalars v → s.normalized = utf8 v →
      splitNormalized s fn b = .ok part → ∀ q ∈ part, Located w q)
    (hl : ∀ s ∈ p.splits, Located w s) (h : p.split fn b = .ok p') :
    p'.normalized = p.normalized ∧ ∀ s ∈ p'.splits, Located w s := by
  unfold PTS.split at h
  obtain ⟨out, h1, h2⟩ := res_bind_ok.1 h
  cases h2
  exact ⟨rfl, splitLoop_located hstep hl h1⟩

theorem preTokenizer_located (P : Platform) {w : WStr} (t : PreTokenizer) (ht : OnlyCuts P t) (p p' : PTS)
    (hl : ∀ s ∈ p.splits, Located w s) (h : t.run P p = .ok p') :
    p'.normalized = p.normalized ∧ ∀ s ∈ p'.splits, Located w s := by
  refine PreTokenizer.rec
    (motive_1 := fun t => OnlyCuts P t → ∀ p p' : PTS, (∀ s ∈ p.splits, Located w s) → t.run P p = .ok p' →
      p'.normalized = p.normalized ∧ ∀ s ∈ p'.splits, Located w s)
    (motive_2 := fun l => OnlyCutsList P l → ∀ p p' : PTS, (∀ s ∈ p.splits, Located w s) → PreTokenizer.runList P l p = .ok p' →
      p'.normalized = p.normalized ∧ ∀ s ∈ p'.splits, Located w s) ?_ ?_ ?_ ?_ ?_ ?_ t ht p p' hl h
  · intro _ p p' hl h
    simp only [PreTokenizer.run, bertPreTokenize] at h
    obtain ⟨q, h1, h2⟩ := res_bind_ok.1 h
    obtain ⟨a1, a2⟩ := split_located (w := w) (by
      intro s v e part hv hsc hn hR
      rw [splitNormalized_space P hsc hn] at hR
      cases hR
      refine located_words hv hsc fun x hx => ?_
      have := (wsWords_mem P.reSpace v 0 [] [] (by simp) rfl x hx).2.2
      simpa using this) hl h1
    obtain ⟨b1, b2⟩ := split_located (w := w) (by
      intro s v e part hv hsc hn hR
      rw [splitNormalized_punct P hsc hn] at hR
      cases hR
      refine located_words hv hsc fun x hx => ?_
      have := (punctWords_mem P.rePunct v 0 [] [] (by simp) rfl x hx).2.2
      simpa using this) a2 h2
    exact ⟨by rw [b1, a1], b2⟩
  · intro pat b inv hg p p' hl h
    simp only [PreTokenizer.run, splitPreTokenize] at h
    refine split_located (w := w) ?_ hl h
    intro s v e part hv hsc hn hR
    cases hf : P.regex pat with
    | none =>
      unfold splitNormalized findMatches at hR
      rw [hf] at hR
      simp only [res_error_bind] at hR
      cases hR
    | some find =>
      obtain ⟨ho, hb⟩ := goodEngine_text (hg find hf) hsc
      obtain ⟨ps, hp1, hp2⟩ := segments_parts (find (utf16 v)) [] v rfl ho hb
      have hfn : findMatches P pat (utf16 v) = .ok (place 0 ps) := by
        simp only [findMatches, hf]
        rw [← units_eq]; exact congrArg Except.ok hp2
      rw [splitNormalized_parts hsc hn hp1 hfn b] at hR
      cases hR
      clear h hg hl
      cases b with
      | removed => exact located_pieces hv hsc ps [] (by rw [hp1]; rfl)
      | isolated =>
        refine located_pieces hv hsc _ [] ?_
        simp only [partsText, List.map_map] at hp1 ⊢; rw [← hp1]; rfl
  · intro a u h; exact absurd h (by simp [OnlyCuts])
  · intro l ih hl' p p' hl h
    exact ih hl' p p' hl h
  · intro _ p p' hl h
    simp only [PreTokenizer.runList] at h
    cases h; exact ⟨rfl, hl⟩
  · intro t l ih1 ih2 ht p p' hl h
    simp only [PreTokenizer.runList] at h
    obtain ⟨q, h1, h2⟩ := res_bind_ok.1 h
    obtain ⟨a1, a2⟩ := ih1 ht.1 p q hl h1
    obtain ⟨b1, b2⟩ := ih2 ht.2 q p' a2 h2
    exact ⟨by rw [b1, a1], b2⟩

/-! ### The tokenizer -/

theorem preTokenized_located (P : Platform) (t : Tokenizer) (w : WStr) (p : PTS) (hw : Positioned t w)
    (hpt : ∀ pt, t.preTokenizer = some pt → OnlyCuts P pt) (h : (t.preTokenized P w).1 = .ok p) :
    Points p.normalized ∧ ∀ s ∈ p.splits, Located w s := by
  unfold Tokenizer.preTokenized at h
  have hscal : Scalars w := by
    unfold Positioned at hw
    cases ha : t.added with
    | none => rw [ha] at hw; exact scalars_iff.1 hw
    | some a => rw [ha] at hw; exact bmp_scalars hw.2.1.1
  have hp0 : PTS.ofNS (NS.ofText w) = .ok { normalized := NS.ofText w, splits := [{ normalized := utf8 w, offsets := (0, w.length) }] } := by
    unfold PTS.ofNS
    simp only [show (NS.ofText w).normalized = w from rfl, convertToString_scalars hscal, res_ok_bind, res_pure]
  rw [hp0] at h
  have main : ∀ p0 : PTS, Points p0.normalized → (∀ s ∈ p0.splits, Located w s) →
      (match t.preTokenizer with | none => Except.ok p0 | some pt => pt.run P p0) = .ok p →
      Points p.normalized ∧ ∀ s ∈ p.splits, Located w s := by
    intro p0 h1 h2 h
    cases hq : t.preTokenizer with
    | none => rw [hq] at h; cases h; exact ⟨h1, h2⟩
    | some pt =>
      rw [hq] at h
      obtain ⟨a1, a2⟩ := preTokenizer_located P pt (hpt pt hq) p0 p h2 h
      exact ⟨by rw [a1]; exact h1, a2⟩
  cases ha : t.added with
  | none =>
    rw [ha] at h
    simp only [res_ok_bind] at h
    refine main { normalized := NS.ofText w, splits := [{ normalized := utf8 w, offsets := (0, w.length) }] }
      (ofText_gt w).points ?_ h
    intro s hs; simp at hs; subst hs
    exact ⟨_, w, ⟨[], [], by simp, rfl, rfl⟩, utf8Text_iff.2 ⟨hscal, rfl⟩⟩
  | some a =>
    rw [ha] at h
    unfold Positioned at hw
    rw [ha] at hw
    obtain ⟨hn, hc, hT⟩ := hw
    rw [hn] at h
    simp only at h
    obtain ⟨p0, h0, h⟩ := res_bind_ok.1 h
    obtain ⟨a1, a2⟩ := extract_placed P hc hT h0
    exact main p0 a1 a2 h

end Tok
