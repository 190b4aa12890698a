import Verif.Proofs.Traced3
import Verif.Proofs.Recognized
import Verif.Spec.Room

set_option autoImplicit false

namespace Tok
open Spec

/-! ### Tables with room for the lookups -/

/-- The table has these byte counts, none is 0, and there are enough original positions. -/
structure Room (lens : List Nat) (ns : NS) : Prop where
  ranges : ns.ranges = mkRanges 0 lens
  pos : ∀ k ∈ lens, 0 < k
  enough : lens.sum ≤ ns.offsets.length

theorem room_ofText {w : WStr} (h : Bmp w) : Room (w.map byteLen) (NS.ofText w) := by
  have ht := ofText_asIs h
  obtain ⟨tail, hoff⟩ := ht.offsets
  refine ⟨by rw [ht.ranges, asIs_map], ?_, ?_⟩
  · intro k hk
    rw [← asIs_map w 0] at hk
    obtain ⟨e, he, rfl⟩ := List.mem_map.1 hk
    exact ht.pos e he
  · rw [hoff]; simp [asIs_map]

theorem Room.lookup {lens : List Nat} {ns : NS} (h : Room lens ns) {i : Nat} (hi : i < lens.length) :
    ∃ g o, ns.ranges[i]? = some g ∧ ns.offsets[g.1]? = some o := by
  have hk := h.pos lens[i] (List.getElem_mem hi)
  have h1 : lens = lens.take i ++ lens[i] :: lens.drop (i + 1) := by
    rw [List.getElem_cons_drop, List.take_append_drop]
  have h2 := congrArg List.sum h1
  rw [List.sum_append, List.sum_cons] at h2
  have h3 : (lens.take i).sum < ns.offsets.length := by have := h.enough; omega
  refine ⟨((lens.take i).sum, lens[i]), ns.offsets[(lens.take i).sum], ?_, List.getElem?_eq_getElem h3⟩
  rw [h.ranges, mkRanges_get, List.getElem?_eq_getElem hi]; simp

/-- Replacing the entries of a stretch. -/
theorem transformRange_room {A B C : List Nat} {ns sub : NS} (h : Room (A ++ B ++ C) ns) (hB : B ≠ []) (hu : Usable sub) :
    ∃ ns', ns.transformRange A.length (A.length + B.length) sub = .ok ns' ∧ Room (A ++ sub.ranges.map (·.2) ++ C) ns' := by
  have hrl : ns.ranges.length = A.length + B.length + C.length := by rw [h.ranges]; simp; omega
  obtain ⟨k, B', rfl⟩ : ∃ k B', B = k :: B' := by cases B with | nil => exact absurd rfl hB | cons k B' => exact ⟨k, B', rfl⟩
  have hkpos : 0 < k := h.pos k (by simp)
  have h1 : vecAt ns.ranges A.length = .ok (A.sum, k) := by
    unfold vecAt
    rw [h.ranges, List.append_assoc, mkRanges_append, List.getElem?_append_right (by simp)]
    simp [mkRanges]
  have hen := h.enough
  simp only [List.sum_append, List.sum_cons] at hen
  have hend : ∃ o y, (if A.length + (k :: B').length = ns.ranges.length then vecAt ns.ranges (A.length + (k :: B').length - 1)
      else vecAt ns.ranges (A.length + (k :: B').length)) = .ok (o, y) ∧ A.sum ≤ o ∧ o ≤ A.sum + (k :: B').sum := by
    by_cases hC : A.length + (k :: B').length = ns.ranges.length
    · rw [if_pos hC]
      have : C = [] := by rw [hrl] at hC; exact List.length_eq_zero_iff.1 (by omega)
      subst this
      obtain ⟨D, d, hD⟩ : ∃ D d, k :: B' = D ++ [d] :=
        ⟨(k :: B').dropLast, (k :: B').getLast (by simp), (List.dropLast_concat_getLast (by simp)).symm⟩
      refine ⟨(A ++ D).sum, d, ?_, ?_, ?_⟩
      · unfold vecAt
        rw [h.ranges, hD, List.append_nil, ← List.append_assoc, mkRanges_append,
          List.getElem?_append_right (by simp)]
        have : A.length + (D ++ [d]).length - 1 - (mkRanges 0 (A ++ D)).length = 0 := by simp
        rw [this]; simp [mkRanges]
      · simp
      · rw [hD]; simp
    · rw [if_neg hC]
      have hC' : C ≠ [] := by rintro rfl; exact hC (by rw [hrl]; simp)
      obtain ⟨c, C', rfl⟩ : ∃ c C', C = c :: C' := by cases C with | nil => exact absurd rfl hC' | cons c C' => exact ⟨c, C', rfl⟩
      refine ⟨(A ++ k :: B').sum, c, ?_, by simp, by simp⟩
      unfold vecAt
      rw [h.ranges, mkRanges_append, List.getElem?_append_right (by simp)]
      simp [mkRanges]
  obtain ⟨o, y, h2, ho1, ho2⟩ := hend
  simp only [List.sum_cons] at ho2
  obtain ⟨f, hf⟩ : ∃ f, vecAt ns.offsets A.sum = .ok f := by
    unfold vecAt
    rw [List.getElem?_eq_getElem (by omega)]
    exact ⟨_, rfl⟩
  have hr0 : sub.ranges ≠ [] := by
    intro h0
    have := hu.entries
    rw [h0] at this
    exact hu.ne (List.length_eq_zero_iff.1 (by simpa using this))
  have hso : ∃ o' r', sub.offsets = o' :: r' := by
    have hc := hu.covered
    cases ho : sub.offsets with
    | cons o' r' => exact ⟨o', r', rfl⟩
    | nil =>
      rw [ho] at hc
      cases hr : sub.ranges with
      | nil => exact absurd hr hr0
      | cons x xs =>
        rw [hr] at hc
        have := hu.filled x (by rw [hr]; simp)
        simp at hc; omega
  obtain ⟨o', r', h3⟩ := hso
  have hne : ¬ (mkRanges A.sum (sub.ranges.map (·.2)) = [] ∧ ns.ranges.drop (A.length + (k :: B').length) ≠ []) := by
    cases hr : sub.ranges with
    | nil => exact absurd hr hr0
    | cons x xs => simp [mkRanges]
  have h4 : eraseRange ns.offsets A.sum o = .ok (ns.offsets.take A.sum ++ ns.offsets.drop o) := by
    unfold eraseRange; rw [if_pos ⟨ho1, by omega⟩]
  have h5 : ∀ x, insertAt (ns.offsets.take A.sum ++ ns.offsets.drop o) A.sum x =
      .ok (ns.offsets.take A.sum ++ x ++ ns.offsets.drop o) := by
    intro x
    have hl : (ns.offsets.take A.sum).length = A.sum := by rw [List.length_take]; omega
    unfold insertAt
    rw [if_pos (by rw [List.length_append, hl]; omega), List.take_left' hl, List.drop_left' hl]
  have hrt : ns.ranges.take A.length = mkRanges 0 A := by
    rw [h.ranges, mkRanges_take, List.append_assoc, List.take_left' rfl]
  have hrd : (ns.ranges.drop (A.length + (k :: B').length)).map (·.2) = C := by
    rw [h.ranges, mkRanges_drop, mkRanges_snd, List.drop_left' (by simp)]
  have hlen : ∀ (p q : Nat × Nat) (l : List (Nat × Nat)), (regroup p q l).length = l.length := by
    intro p q l
    induction l generalizing p q with
    | nil => rfl
    | cons a l ih => unfold regroup; split <;> simp [ih]
  refine ⟨{ ns with offsets := ns.offsets.take A.sum ++ (f :: regroup o' f r') ++ ns.offsets.drop o,
                    ranges := mkRanges 0 (A ++ sub.ranges.map (·.2) ++ C) }, ?_, rfl, ?_, ?_⟩
  · have hrng : mkRanges 0 (A ++ sub.ranges.map (·.2) ++ C) = mkRanges 0 A ++ (mkRanges A.sum (sub.ranges.map (·.2)) ++
          mkRanges (A.sum + (sub.ranges.map (·.2)).sum) C) := by
      rw [mkRanges_append, mkRanges_append, List.append_assoc]
      simp
    rw [hrng]
    unfold NS.transformRange
    rw [h1]
    simp only [res_ok_bind]
    split at h2
    all_goals
      rename_i hb
      first
      | rw [if_pos hb]
      | rw [if_neg hb]
      rw [h2]
      simp only [res_ok_bind, if_neg hne, h3, hf, h4, h5, hrt, hrd, res_pure]
  · intro x hx
    simp only [List.mem_append, List.mem_map] at hx
    rcases hx with (hx | ⟨r, hr, rfl⟩) | hx
    · exact h.pos x (by simp [hx])
    · exact hu.filled r hr
    · exact h.pos x (by simp [hx])
  · have := hu.covered
    rw [h3] at this
    simp only [List.sum_append, List.length_append, List.length_take, List.length_cons, hlen, List.length_drop] at this ⊢
    omega

/-! ### Extraction -/

theorem normalizeLoop_room (P : Platform) {n : Normalizer} {w w' : WStr} :
    ∀ (l : List Split) (a : AddedVocab) (ns : NS) (lens : List Nat) (ending i : Nat) (x r : WStr),
    (∀ s ∈ l, s.tokens = [] → ∀ v, s.normalized = utf8 v → Scalars v →
      ∃ sub, n.run P (NS.ofText v) = .ok sub ∧ Usable sub ∧ ∀ c ∈ sub.normalized, c ∈ w') →
    w = x ++ r → Placed r i l → Cuttable a w → Cuttable a w' → Room lens ns → ending + r.length ≤ lens.length → TokensAscii l →
    (∀ s ∈ l, s.normalized ≠ []) → (∀ p ∈ a.normTrie, p.1 ≠ []) →
    ∃ ns' out lens' r', (normalizeLoop P (some n) a ns ending l).1 = .ok (ns', out) ∧ Room lens' ns' ∧
      ending + r'.length ≤ lens'.length ∧ Placed r' ending out ∧ (∀ c ∈ r', c ∈ w ++ w') ∧ (∀ s ∈ out, s.normalized ≠ []) ∧
      (l ≠ [] → out ≠ []) := by
  intro l
  induction l with
  | nil =>
    intro a ns lens ending i x r _ hw hp _ _ hg hle _ _ _
    cases hp
    exact ⟨ns, [], lens, [], rfl, hg, hle, .nil _, by simp, by simp, by simp⟩
  | cons s l ih =>
    intro a ns lens ending i x r hN hw hp hc hc' hg hle hta hne hkeys
    have hN' := fun s hs => hN s (List.mem_cons_of_mem _ hs)
    have hta' : TokensAscii l := fun s hs => hta s (by simp [hs])
    cases hp with
    | @cons v r' _ _ _ h1 h2 h3 =>
    have hw' : w = (x ++ v) ++ r' := by rw [hw]; simp
    have hbv : Bmp v := bmp_sub hc.1 fun c hm => by rw [hw]; simp [hm]
    have hv0 : v ≠ [] := by
      rintro rfl
      exact hne s (by simp) (by rw [h1]; rfl)
    rw [List.length_append] at hle
    unfold normalizeLoop
    by_cases ht : s.tokens ≠ []
    · rw [if_pos ht]
      have hlen : s.normalized.length = v.length := by
        rw [h1]
        exact utf8_ascii_rev (by rw [← h1]; exact hta s (by simp) ht)
      rw [hlen]
      obtain ⟨ns', out, lens', r2, e, t1, t2, t3, t4, t5, _⟩ := ih a ns lens (ending + v.length) (i + v.length) (x ++ v) r' hN' hw' h3 hc hc'
        hg (by omega) hta' (fun s hs => hne s (by simp [hs])) hkeys
      generalize normalizeLoop P (some n) a ns (ending + v.length) l = R at e
      obtain ⟨rr, a'⟩ := R
      simp only at e
      subst e
      refine ⟨ns', _, lens', v ++ r2, rfl, t1, by rw [List.length_append]; omega, .cons h1 rfl t3, ?_, ?_, by simp⟩
      · intro c hcm
        rcases List.mem_append.1 hcm with h | h
        · rw [hw]; simp [h]
        · exact t4 c h
      · intro q hq
        rcases List.mem_cons.1 hq with rfl | hq
        · exact hne s (by simp)
        · exact t5 q hq
    · rw [if_neg ht]
      have hT := normalizeSplit_touched P (some n) a ns ending s
      obtain ⟨sub, n1, n2, n3⟩ := hN s (by simp) (by simpa using ht) v h1 (bmp_scalars hbv)
      have hcv := cuttable_sub hc' n3
      have key : ∃ ns1 here lens1, (normalizeSplit P (some n) a ns ending s).1 = .ok (ns1, here, sub.normalized.length) ∧
          Room lens1 ns1 ∧ ending + sub.normalized.length + r'.length ≤ lens1.length ∧ Placed sub.normalized ending here ∧
          (∀ s ∈ here, s.normalized ≠ []) ∧ here ≠ [] := by
        unfold normalizeSplit
        have hsv := bmp_scalars hbv
        have hcf : convertFromString s.normalized = .ok v := by
          rw [h1]; exact (C02_from_string_iff _ _).2 (utf8Text_iff.2 ⟨hsv, rfl⟩)
        have hl1 : lens = lens.take ending ++ (lens.drop ending).take v.length ++ lens.drop (ending + v.length) := by
          rw [List.append_assoc, ← List.drop_drop, List.take_append_drop, List.take_append_drop]
        have hla : (lens.take ending).length = ending := by rw [List.length_take]; omega
        have hlb : ((lens.drop ending).take v.length).length = v.length := by rw [List.length_take, List.length_drop]; omega
        have hvl : 0 < v.length := List.length_pos_iff.2 hv0
        rw [hl1] at hg
        obtain ⟨ns2, htr, ht2⟩ := transformRange_room hg (by intro h; rw [h] at hlb; simp at hlb; omega) n2
        rw [hla, hlb] at htr
        have hsi := bmp_scalars hcv.1
        simp only [hcf, res_ok_bind, normalizeOpt, n1, h2]
        rw [if_neg (by omega), show ending + (i + v.length) - i = ending + v.length by omega, htr]
        have htxt : convertToString sub.normalized = .ok (utf8 sub.normalized) := convertToString_scalars hsi
        simp only [res_ok_bind, htxt, res_pure]
        obtain ⟨segs, out, f1, f2, f3, f4, f5, f6⟩ := segSplits_filled (T := a.normTrie) hcv
          (fun p hp => List.mem_append_right _ hp) hkeys ending
        rw [f1, res_ok_bind]
        refine ⟨ns2, out, _, ?_, ht2, ?_, f3, f4, f6 n2.ne⟩
        · rw [f2]; rfl
        · have := n2.entries
          simp only [List.length_append, List.length_map, List.length_drop, hla]
          omega
      obtain ⟨ns1, here, lens1, e1, hg1, hle1, hpl1, hh, hh0⟩ := key
      generalize normalizeSplit P (some n) a ns ending s = R at e1 hT
      obtain ⟨rr, a1⟩ := R
      simp only at e1 hT
      subst e1
      have hk1 : a1.normTrie = a.normTrie := by rw [hT.same]
      obtain ⟨ns', out, lens', r2, e, t1, t2, t3, t4, t5, _⟩ := ih a1 ns1 lens1 (ending + sub.normalized.length) (i + v.length) (x ++ v) r' hN' hw' h3
        (touched_cuttable hT hc) (touched_cuttable hT hc') hg1 hle1 hta' (fun s hs => hne s (by simp [hs])) (by rw [hk1]; exact hkeys)
      simp only
      generalize normalizeLoop P (some n) a1 ns1 (ending + sub.normalized.length) l = R at e
      obtain ⟨rr, a'⟩ := R
      simp only at e
      subst e
      refine ⟨ns', _, lens', sub.normalized ++ r2, rfl, t1, by rw [List.length_append]; omega, hpl1.append t3, ?_, ?_, ?_⟩
      · intro c hcm
        rcases List.mem_append.1 hcm with h | h
        · exact List.mem_append_right _ (n3 c h)
        · exact t4 c h
      · intro q hq
        rcases List.mem_append.1 hq with hq | hq
        · exact hh q hq
        · exact t5 q hq
      · intro _ h
        exact hh0 (List.append_eq_nil_iff.1 h).1

theorem normalizeLoop_runs (P : Platform) {n : Normalizer} : ∀ (l : List Split) (a : AddedVocab) (ns ns' : NS) (ending : Nat)
    (out : List Split), (normalizeLoop P (some n) a ns ending l).1 = .ok (ns', out) → ∀ s ∈ l, s.tokens = [] →
    ∀ v, s.normalized = utf8 v → Scalars v → ∃ sub, n.run P (NS.ofText v) = .ok sub := by
  intro l
  induction l with
  | nil => intro a ns ns' ending out _ s hs; cases hs
  | cons s l ih =>
    intro a ns ns' ending out h q hq ht v hv hsv
    unfold normalizeLoop at h
    by_cases hs : s.tokens ≠ []
    · rw [if_pos hs] at h
      rcases List.mem_cons.1 hq with rfl | hq
      · exact absurd ht hs
      · generalize hR : normalizeLoop P (some n) a ns (ending + s.normalized.length) l = R at h
        obtain ⟨rr, a'⟩ := R
        cases rr with
        | error e => cases h
        | ok y => exact ih a ns y.1 _ y.2 (by rw [hR]) q hq ht v hv hsv
    · rw [if_neg hs] at h
      generalize hR : normalizeSplit P (some n) a ns ending s = R at h
      obtain ⟨rr, a'⟩ := R
      cases rr with
      | error e => cases h
      | ok y =>
        obtain ⟨ns1, here, k⟩ := y
        rcases List.mem_cons.1 hq with rfl | hq
        · have hcf : convertFromString q.normalized = .ok v := by
            rw [hv]; exact (C02_from_string_iff _ _).2 (utf8Text_iff.2 ⟨hsv, rfl⟩)
          unfold normalizeSplit at hR
          simp only [hcf, res_ok_bind, normalizeOpt] at hR
          cases hn : n.run P (NS.ofText v) with
          | ok sub => exact ⟨sub, rfl⟩
          | error e =>
            rw [hn] at hR
            cases hR
        · simp only at h
          generalize hR2 : normalizeLoop P (some n) a' ns1 (ending + k) l = R2 at h
          obtain ⟨rr, a''⟩ := R2
          cases rr with
          | error e => cases h
          | ok y => exact ih a' ns1 y.1 _ y.2 (by rw [hR2]) q hq ht v hv hsv

/-- The first cut of a text with added tokens. -/
theorem firstSplits_room {a : AddedVocab} {w : WStr} (hw0 : w ≠ []) (hw : Cuttable a w) (hd : Describable a a.nonNormTrie w)
    (hA : ∀ p ∈ a.nonNormTrie, Ascii p.1) (hF : ∀ p ∈ a.nonNormTrie ++ a.normTrie, p.1 ≠ []) :
    ∃ p0 cuts, (a.firstSplits w).1 = .ok p0 ∧ p0.normalized = NS.ofText w ∧ Placed w 0 p0.splits ∧
      p0.splits ≠ [] ∧ TokensAscii p0.splits ∧ (∀ s ∈ p0.splits, s.normalized ≠ []) ∧ CutInto a a.nonNormTrie w cuts ∧
      Each (SplitOf w) cuts p0.splits := by
  have hs := bmp_scalars hw.1
  obtain ⟨segs, out, f1, f2, f3, f4, f5, f6⟩ := segSplits_filled (T := a.nonNormTrie) hw
    (fun p hp => List.mem_append_left _ hp) (fun p hp => hF p (List.mem_append_left _ hp)) 0
  obtain ⟨cuts, c1, c2⟩ := findMatches_cut hd
  rw [f1] at c1; cases c1
  obtain ⟨out', g1, g2⟩ := segSplits_each hw.1 0 segs 0 c2.tiles
  rw [f2] at g1; cases g1
  unfold AddedVocab.firstSplits PTS.ofNS
  simp only [NS.ofText, convertToString_scalars hs, res_ok_bind, res_pure, f1, f2, if_neg (f6 hw0)]
  refine ⟨_, segs, rfl, rfl, f3, f6 hw0, ?_, f4, c2, g2⟩
  intro s hs' htok
  rcases f5 s hs' with h' | h'
  · exact absurd h' htok
  · exact isToken_ascii h' hA

theorem splitOf_ordinary {a : AddedVocab} {w : WStr} {cuts : List Cut} {l : List Split} (hc : CutInto a a.nonNormTrie w cuts)
    (h : Each (SplitOf w) cuts l) : ∀ s ∈ l, s.tokens = [] → ∀ v, s.normalized = utf8 v → Scalars v → OrdinaryPiece a w v := by
  intro s hs ht v hv hsv
  obtain ⟨g, hg, h1, h2⟩ := each_mem_right h s hs
  obtain ⟨i, x, y⟩ := g
  cases i with
  | some i => rw [ht] at h2; cases h2
  | none =>
    refine ⟨cuts, x, y, hc, hg, ?_⟩
    obtain ⟨k1, k2⟩ := utf8Text_iff.1 h1
    rw [hv] at k2
    exact utf8_injective hsv k1 k2

theorem ordinary_splitOf {w : WStr} {cuts : List Cut} {l : List Split}
    (h : Each (SplitOf w) cuts l) {x y : Nat} (hm : (none, (x, y)) ∈ cuts) :
    ∃ s ∈ l, s.tokens = [] ∧ s.normalized = utf8 (between w x y) ∧ Scalars (between w x y) := by
  induction h with
  | nil => cases hm
  | @cons g s _ _ h1 _ ih =>
    rcases List.mem_cons.1 hm with rfl | hm
    · obtain ⟨k1, k2⟩ := utf8Text_iff.1 h1.1
      exact ⟨s, by simp, h1.2, k2, k1⟩
    · obtain ⟨s', hs, rest⟩ := ih hm
      exact ⟨s', by simp [hs], rest⟩

theorem extract_room (P : Platform) {n : Normalizer} {a : AddedVocab} {w w' : WStr} (h : NormalText P n a w w')
    (hN : ∀ v, OrdinaryPiece a w v → ∃ s, n.run P (NS.ofText v) = .ok s) :
    ∃ p lens r, (a.extract P (some n) w).1 = .ok p ∧ Room lens p.normalized ∧ r.length ≤ lens.length ∧ Placed r 0 p.splits ∧
      (∀ c ∈ r, c ∈ w ++ w') ∧ ∀ s ∈ p.splits, s.normalized ≠ [] := by
  have hw := h.before
  have htouch := firstSplits_touched a w
  obtain ⟨p0, cuts, e0, h1, h2, h3, h4, h5, h6, h7⟩ := firstSplits_room h.ne hw h.described h.ascii h.filled
  unfold AddedVocab.extract
  generalize a.firstSplits w = R at e0 htouch
  obtain ⟨r, a'⟩ := R
  simp only at e0 htouch
  subst e0
  have hk : a'.normTrie = a.normTrie := by rw [htouch.same]
  obtain ⟨ns, out, lens, r, e, t1, t2, t3, t4, t5, t6⟩ := normalizeLoop_room P p0.splits a' p0.normalized (w.map byteLen) 0 0 [] w
    (fun s hs ht v hv hsv => by
      have ho := splitOf_ordinary h6 h7 s hs ht v hv hsv
      obtain ⟨sub, hsub⟩ := hN v ho
      exact ⟨sub, hsub, h.usable v ho sub hsub⟩) rfl h2
    (touched_cuttable htouch hw) (touched_cuttable htouch h.after) (by rw [h1]; exact room_ofText hw.1) (by simp) h4 h5
    (by rw [hk]; exact fun p hp => h.filled p (List.mem_append_right _ hp))
  simp only
  generalize normalizeLoop P (some n) a' p0.normalized 0 p0.splits = R at e
  obtain ⟨r, a2⟩ := R
  simp only at e
  subst e
  simp only [if_neg (t6 h3)]
  exact ⟨_, lens, _, rfl, t1, by omega, t3, t4, t5⟩

theorem extract_runs (P : Platform) {n : Normalizer} {a : AddedVocab} {w : WStr} {p : PTS} (hw0 : w ≠ []) (hw : Cuttable a w)
    (hd : Describable a a.nonNormTrie w) (hA : ∀ p ∈ a.nonNormTrie, Ascii p.1) (hF : ∀ p ∈ a.nonNormTrie ++ a.normTrie, p.1 ≠ [])
    (h : (a.extract P (some n) w).1 = .ok p) :
    ∃ cuts, CutInto a a.nonNormTrie w cuts ∧ ∀ x y, (none, (x, y)) ∈ cuts → ∃ s, n.run P (NS.ofText (between w x y)) = .ok s := by
  obtain ⟨p0, cuts, e0, _, _, _, _, _, h6, h7⟩ := firstSplits_room hw0 hw hd hA hF
  unfold AddedVocab.extract at h
  generalize a.firstSplits w = R at e0 h
  obtain ⟨r, a'⟩ := R
  simp only at e0 h
  subst e0
  refine ⟨cuts, h6, fun x y hm => ?_⟩
  obtain ⟨s, hs, k1, k2, k3⟩ := ordinary_splitOf h7 hm
  simp only at h
  generalize hR : normalizeLoop P (some n) a' p0.normalized 0 p0.splits = R at h
  obtain ⟨rr, a2⟩ := R
  cases rr with
  | error e => cases h
  | ok y => exact normalizeLoop_runs P p0.splits a' p0.normalized y.1 0 y.2 (by rw [hR]) s hs k1 _ k2 k3

/-! ### The whole of `encode` -/

theorem intoLoop_room {lens : List Nat} {ns : NS} (h : Room lens ns) : ∀ (l : List Split) (k : Nat),
    (∀ s ∈ l, s.offsets.1 < lens.length) → ∃ x, intoLoop ns none 0 k l = .ok x := by
  intro l
  induction l with
  | nil => intro k _; exact ⟨_, rfl⟩
  | cons s r ih =>
    intro k hs
    obtain ⟨x, hx⟩ := ih (k + 1) fun s hs' => hs s (by simp [hs'])
    obtain ⟨g, o, hg, ho⟩ := h.lookup (hs s (by simp))
    exact ⟨Enc.append ((s.tokens.map (tokenEnc o.1 ((none : Option Int).getD k) 0)).foldr Enc.append {}) x, by
      simp only [intoLoop, vecAt, hg, ho, res_ok_bind, hx, res_pure]⟩

theorem encode_total_room {P : Platform} {t : Tokenizer} {w : WStr} {b : Bool} {q : PTS} {lens : List Nat} (ht : SafeEnd t)
    (h1 : TokenizedInto P t w q) (h2 : Room lens q.normalized) (h3 : ∀ s ∈ q.splits, s.offsets.1 < lens.length) :
    ∃ e, (t.encode P w b).1 = .ok e := by
  obtain ⟨x, hx⟩ := intoLoop_room h2 q.splits 0 h3
  obtain ⟨text, ht1, ht2⟩ := intoLoop_rows _ _ _ _ hx
  obtain ⟨e, he⟩ := doPostProcess_total ht ht1 ht2 b
  exact ⟨e, encode_of h1 hx he⟩

/-- Pre-tokenization of a text with a normalizer. -/
theorem preTokenized_room (P : Platform) {t : Tokenizer} {n : Normalizer} {a : AddedVocab} {w w' : WStr}
    (ha : t.added = some a) (hn : t.normalizer = some n) (hw : NormalText P n a w w')
    (hN : ∀ v, OrdinaryPiece a w v → ∃ s, n.run P (NS.ofText v) = .ok s) (hpt : ∀ pt, t.preTokenizer = some pt → SafePre P (w ++ w') pt) :
    ∃ p lens, (t.preTokenized P w).1 = .ok p ∧ Room lens p.normalized ∧ ∀ s ∈ p.splits, Startable lens.length s := by
  obtain ⟨p0, lens, r, h1, h2, h3, h4, h5, h6⟩ := extract_room P hw hN
  have hbr : Bmp r := by
    intro c hc
    rcases List.mem_append.1 (h5 c hc) with h | h
    · exact hw.before.1 c h
    · exact hw.after.1 c h
  have hfill : ∀ s ∈ p0.splits, Filled lens.length (Ascii (w ++ w')) s := by
    have gen : ∀ (x : WStr) (pos : Nat) (l : List Split), Placed x pos l → (∀ c ∈ x, c ∈ r) → pos + x.length ≤ r.length →
        (∀ s ∈ l, s.normalized ≠ []) → ∀ s ∈ l, Filled lens.length (Ascii (w ++ w')) s := by
      intro x pos l h
      induction h with
      | nil => simp
      | @cons v x pos s l g1 g2 _ ih =>
        intro hm hb hne q hq
        have hbv : Bmp v := bmp_sub hbr fun c hcv => hm c (by simp [hcv])
        simp only [List.length_append] at hb
        rcases List.mem_cons.1 hq with rfl | hq
        · refine ⟨v, ?_, bmp_scalars hbv, g1, ?_, fun ha c hcv => ha c (h5 c (hm c (by simp [hcv])))⟩
          · rintro rfl; exact hne q (by simp) (by rw [g1]; rfl)
          · rw [g2, units_bmp hbv]; simp only; omega
        · exact ih (fun c hcr => hm c (by simp [hcr])) (by omega) (fun s hs => hne s (by simp [hs])) q hq
    exact gen r 0 _ h4 (fun _ h => h) (by omega) h6
  have hpre : (t.preTokenized P w).1 = (match t.preTokenizer with | none => .ok p0 | some pt => pt.run P p0) := by
    unfold Tokenizer.preTokenized
    rw [ofNS_text (bmp_scalars hw.before.1)]
    simp only [ha, hn, h1, res_ok_bind]
    rfl
  rw [hpre]
  cases hq : t.preTokenizer with
  | none => exact ⟨p0, lens, rfl, h2, fun s hs => (hfill s hs).startable⟩
  | some pt =>
    obtain ⟨p, e1, e2, e3⟩ := safePre_total P (hpt pt hq) p0 hfill
    exact ⟨p, lens, e1, by rw [e2]; exact h2, e3⟩

end Tok
