import Verif.Spec.Returns
import Verif.Proofs.Room2
import Verif.Proofs.Total2
import Verif.Props.AnyText

set_option autoImplicit false

namespace Tok
open Spec

/-- The split made of a piece, with its position. -/
def ArSplit (w : WStr) (base : Nat) (c : Cut) (s : Split) : Prop :=
  s.normalized = utf8 (textAt w c.2.1 c.2.2) ∧ s.offsets = (c.2.1 + base, c.2.2 + base) ∧ (s.tokens = [] ↔ c.1 = none)

theorem ar_part {w : WStr} {x y : Nat} : ∀ c ∈ textAt w x y, c ∈ w := by
  intro c hc
  unfold textAt between at hc
  split at hc
  · exact List.mem_of_mem_drop (List.mem_of_mem_take hc)
  · exact List.mem_of_mem_drop hc

theorem ar_start {w : WStr} {x y : Nat} (h : textAt w x y ≠ []) : x < w.length := by
  apply Classical.byContradiction
  intro hx
  apply h
  unfold textAt between
  rw [List.drop_eq_nil_of_le (by omega)]
  simp

theorem ar_segSplits {w : WStr} (hw : Scalars w) (base : Nat) : ∀ (cuts : List Cut), NoneEmpty w cuts →
    ∃ out, segSplits w base cuts = .ok out ∧ Each (ArSplit w base) cuts out := by
  intro cuts
  induction cuts with
  | nil => intro _; exact ⟨[], rfl, .nil⟩
  | cons c r ih =>
    intro h
    obtain ⟨out, h1, h2⟩ := ih fun c hc => h c (by simp [hc])
    obtain ⟨id, x, y⟩ := c
    have hx := ar_start (h _ List.mem_cons_self)
    simp only at hx
    have hs : convertToString (textAt w x y) = .ok (utf8 (textAt w x y)) := convertToString_scalars (hw.sub ar_part)
    have hx' : wsubstr w x y = .ok (textAt w x y) := by
      unfold wsubstr; rw [if_pos (by omega)]; rfl
    cases id with
    | none =>
      refine ⟨{ normalized := utf8 (textAt w x y), offsets := (x + base, y + base), tokens := [] } :: out, ?_, .cons ⟨rfl, rfl, by simp⟩ h2⟩
      simp only [segSplits, hx', res_ok_bind, hs, h1, res_pure]
    | some i =>
      refine ⟨{ normalized := utf8 (textAt w x y), offsets := (x + base, y + base),
                tokens := [{ id := i, value := utf8 (textAt w x y), offsets := (0, (utf8 (textAt w x y)).length) }] } :: out, ?_,
        .cons ⟨rfl, rfl, by simp⟩ h2⟩
      simp only [segSplits, hx', res_ok_bind, hs, h1, res_pure]

/-! ### Lengths -/

theorem ar_units_drop (w : WStr) (x : Nat) (hx : x ≤ w.length) : x + units (w.drop x) ≤ units w := by
  have h : units w = units (w.take x) + units (w.drop x) := by rw [← units_append, List.take_append_drop]
  have h2 : (w.take x).length ≤ units (w.take x) := by
    generalize w.take x = v
    induction v with
    | nil => simp [units]
    | cons c v ih => simp only [units, List.length_cons]; split <;> omega
  rw [List.length_take] at h2
  omega

theorem ar_units_part (w : WStr) (x y : Nat) (h : textAt w x y ≠ []) : x + units (textAt w x y) ≤ units w := by
  have hx := ar_start h
  have h1 := ar_units_drop w x (by omega)
  have h2 : units (textAt w x y) ≤ units (w.drop x) := by
    unfold textAt between
    split
    · have : units (w.drop x) = units ((w.drop x).take (y - x)) + units ((w.drop x).drop (y - x)) := by
        rw [← units_append, List.take_append_drop]
      omega
    · exact Nat.le_refl _
  omega

theorem ar_length_part {w : WStr} {x y : Nat} (h : x < y) : (textAt w x y).length ≤ y - x := by
  unfold textAt between
  rw [if_pos (by omega), List.length_take]
  omega

theorem ar_units_ge (w : WStr) : w.length ≤ units w := by
  have := ar_units_drop w w.length (Nat.le_refl _)
  omega

theorem ar_filled_mono {n m : Nat} {A : Prop} {s : Split} (h : Filled n A s) (hm : n ≤ m) : Filled m A s := by
  obtain ⟨v, h1, h2, h3, h4, h5⟩ := h
  exact ⟨v, h1, h2, h3, by omega, h5⟩

theorem ar_filled {s : NS} {w' : WStr} (hs : Scalars s.normalized) (hc : ∀ c ∈ s.normalized, c ∈ w') {e n : Nat}
    (hn : e + units s.normalized ≤ n) : ∀ {cuts : List Cut} {out : List Split}, NoneEmpty s.normalized cuts →
    Each (ArSplit s.normalized e) cuts out → ∀ q ∈ out, Filled n (Ascii w') q := by
  intro cuts out h he
  induction he with
  | nil => simp
  | @cons c q _ _ h1 _ ih =>
    intro q' hq
    rcases List.mem_cons.1 hq with rfl | hq
    · have h0 := h c (by simp)
      have := ar_units_part _ _ _ h0
      obtain ⟨k1, k2, -⟩ := h1
      refine ⟨_, h0, hs.sub ar_part, k1, ?_, fun ha x hx => ha x (hc x (ar_part x hx))⟩
      rw [k2]; simp only; omega
    · exact ih (fun c hc => h c (by simp [hc])) q' hq

/-! ### Extraction -/

theorem ar_madeOf {P : Platform} {n : Option Normalizer} {v : WStr} {s : NS} : MadeOf P n v s ↔ normalizeOpt P n (NS.ofText v) = .ok s := by
  unfold MadeOf normalizeOpt
  cases n with
  | none => simp only [Except.ok.injEq]; exact ⟨fun h => h.symm, fun h => h.symm⟩
  | some n => exact Iff.rfl

theorem ar_cut_scalars {a : AddedVocab} {T : List (Str × Int)} {w : WStr} {cuts : List Cut} (h : CutUp a T w cuts) : Scalars w := by
  obtain ⟨u, s, occ, h1, -⟩ := h
  exact (utf16Text_iff.1 h1).1

theorem ar_cut_ne {a : AddedVocab} {T : List (Str × Int)} {w : WStr} {cuts : List Cut} (h : CutUp a T w cuts) (hw : w ≠ []) : cuts ≠ [] := by
  obtain ⟨u, s, occ, k1, -, -, -, k5⟩ := h
  obtain ⟨-, rfl⟩ := utf16Text_iff.1 k1
  exact at_cuts_ne k5 (at_units_ne hw)

theorem ar_loop (P : Platform) (norm : Option Normalizer) {a0 : AddedVocab} {w w' : WStr} {cuts : List Cut} {l : List Split}
    (hP : PlainTables a0) (hw : Scalars w) (hcl : Each (ArSplit w 0) cuts l)
    (hne : NoneEmpty w cuts) (hfw : ∀ c ∈ cuts, c.2.1 < c.2.2)
    (htok : ∀ i x y, (some i, (x, y)) ∈ cuts → Ascii (textAt w x y))
    (hpc : ∀ x y, (none, (x, y)) ∈ cuts → ∃ s cuts', MadeOf P norm (textAt w x y) s ∧ Roomy s ∧ (∀ c ∈ s.normalized, c ∈ w') ∧
      CutUp a0 a0.normTrie s.normalized cuts' ∧ NoneEmpty s.normalized cuts') :
    ∀ (a : AddedVocab) (ns : NS) (lens : List Nat) (e B : Nat), Touched a0 a → Room lens ns → e ≤ B →
      B + (cuts.map fun c => c.2.2 - c.2.1).sum ≤ lens.length →
      ∃ ns' out lens', (normalizeLoop P norm a ns e l).1 = .ok (ns', out) ∧ Room lens' ns' ∧ B ≤ lens'.length ∧
        (∀ s ∈ out, Filled lens'.length (Ascii w') s) ∧ (l ≠ [] → out ≠ []) := by
  induction hcl with
  | nil =>
    intro a ns lens e B _ hr _ hl
    exact ⟨ns, [], lens, rfl, hr, by simpa using hl, by simp, by simp⟩
  | @cons c s cuts l hcs _ ih =>
    intro a ns lens e B ht hr he hl
    have ih := ih (fun c hc => hne c (by simp [hc])) (fun c hc => hfw c (by simp [hc])) (fun i x y hm => htok i x y (by simp [hm]))
      (fun x y hm => hpc x y (by simp [hm]))
    obtain ⟨id, x, y⟩ := c
    obtain ⟨s1, s2, s3⟩ := hcs
    have hxy := hfw _ List.mem_cons_self
    have hv := hne _ List.mem_cons_self
    simp only [Nat.add_zero, List.map_cons, List.sum_cons] at s1 s2 s3 hxy hv hl
    have hvs : Scalars (textAt w x y) := hw.sub ar_part
    simp only [normalizeLoop]
    cases id with
    | some i =>
      rw [if_pos (fun h => by have := s3.1 h; cases this)]
      have hA := htok i x y List.mem_cons_self
      have hlen : s.normalized.length = (textAt w x y).length := by rw [s1, utf8_ascii hA]
      have hle := ar_length_part (w := w) hxy
      obtain ⟨ns', out, lens', e1, e2, e3, e4, -⟩ := ih a ns lens (e + s.normalized.length) (B + (y - x)) ht hr (by omega) (by omega)
      generalize normalizeLoop P norm a ns (e + s.normalized.length) l = R at e1
      obtain ⟨r, a'⟩ := R
      simp only at e1
      subst e1
      refine ⟨ns', _, lens', rfl, e2, by omega, ?_, by simp⟩
      intro q hq
      rcases List.mem_cons.1 hq with rfl | hq
      · refine ⟨textAt w x y, hv, hvs, s1, ?_, fun _ => hA⟩
        have : units (textAt w x y) = (textAt w x y).length := units_bmp (ascii_bmp hA)
        simp only; omega
      · exact e4 q hq
    | none =>
      rw [if_neg (by simp [s3])]
      obtain ⟨sub, cuts', m1, ⟨m2, m3⟩, m4, m5, m6⟩ := hpc x y List.mem_cons_self
      have hT := normalizeSplit_touched P norm a ns e s
      have key : ∃ ns1 here lens1, (normalizeSplit P norm a ns e s).1 = .ok (ns1, here, sub.normalized.length) ∧ Room lens1 ns1 ∧
          B + sub.ranges.length + (cuts.map fun c => c.2.2 - c.2.1).sum ≤ lens1.length ∧
          (∀ q ∈ here, Filled (B + sub.ranges.length) (Ascii w') q) ∧ here ≠ [] := by
        unfold normalizeSplit
        have hcf : convertFromString s.normalized = .ok (textAt w x y) := by
          rw [s1]; exact convertFromString_utf8 hvs
        have hl1 : lens = lens.take e ++ (lens.drop e).take (y - x) ++ lens.drop (e + (y - x)) := by
          rw [List.append_assoc, ← List.drop_drop, List.take_append_drop, List.take_append_drop]
        have hla : (lens.take e).length = e := by rw [List.length_take]; omega
        have hlb : ((lens.drop e).take (y - x)).length = y - x := by rw [List.length_take, List.length_drop]; omega
        rw [hl1] at hr
        obtain ⟨ns2, htr, ht2⟩ := transformRange_room hr (by intro h; rw [h] at hlb; simp at hlb; omega) m2
        rw [hla, hlb] at htr
        have hsn := ar_cut_scalars m5
        rw [ar_madeOf] at m1
        simp only [hcf, res_ok_bind, m1, s2]
        rw [if_neg (by omega), show e + y - x = e + (y - x) by omega, htr]
        have htxt : convertToString sub.normalized = .ok (utf8 sub.normalized) := convertToString_scalars hsn
        simp only [res_ok_bind, htxt, res_pure]
        obtain ⟨p1, p2⟩ := hP _ (.inr rfl)
        have eN : a.normTrie = a0.normTrie := by rw [ht.same]
        obtain ⟨segs, f1, f2⟩ := at_findMatches (a := a) hsn p1 p2
        rw [← eN] at f1 f2
        have f2' := at_touched ht f2
        rw [eN] at f2'
        obtain rfl := C108_cuts_unique f2' m5
        obtain ⟨out, g1, g2⟩ := ar_segSplits hsn e segs m6
        rw [f1, res_ok_bind, g1]
        refine ⟨ns2, out, _, rfl, ht2, ?_, ?_, ?_⟩
        · simp only [List.length_append, List.length_map, List.length_drop, hla]
          omega
        · exact ar_filled hsn m4 (by omega) m6 g2
        · have := ar_cut_ne m5 m2.ne
          rintro rfl
          cases g2
          exact this rfl
      obtain ⟨ns1, here, lens1, e1, k2, k3, k4, k5⟩ := key
      generalize normalizeSplit P norm a ns e s = R at e1 hT
      obtain ⟨rr, a1⟩ := R
      simp only at e1 hT
      subst e1
      have hent := m2.entries
      obtain ⟨ns', out, lens', q1, q2, q3, q4, -⟩ := ih a1 ns1 lens1 (e + sub.normalized.length) (B + sub.ranges.length) (ht.trans hT) k2
        (by omega) k3
      simp only
      generalize normalizeLoop P norm a1 ns1 (e + sub.normalized.length) l = R at q1
      obtain ⟨rr, a'⟩ := R
      simp only at q1
      subst q1
      refine ⟨ns', _, lens', rfl, q2, by omega, ?_, ?_⟩
      · intro q hq
        rcases List.mem_append.1 hq with hq | hq
        · exact ar_filled_mono (k4 q hq) q3
        · exact q4 q hq
      · intro _ h
        exact k5 (List.append_eq_nil_iff.1 h).1

theorem ar_extract (P : Platform) (norm : Option Normalizer) {a : AddedVocab} {w w' : WStr} {cuts : List Cut} (hP : PlainTables a)
    (hw0 : w ≠ []) (h : Workable P norm a w w' cuts) :
    ∃ p lens, (a.extract P norm w).1 = .ok p ∧ Room lens p.normalized ∧ ∀ s ∈ p.splits, Filled lens.length (Ascii w') s := by
  have hs := ar_cut_scalars h.cut
  have htouch := firstSplits_touched a w
  have key : ∃ p0, (a.firstSplits w).1 = .ok p0 ∧ p0.normalized = NS.ofText w ∧ Each (ArSplit w 0) cuts p0.splits ∧ p0.splits ≠ [] := by
    obtain ⟨p1, p2⟩ := hP _ (.inl rfl)
    obtain ⟨segs, f1, f2⟩ := at_findMatches (a := a) hs p1 p2
    obtain rfl := C108_cuts_unique f2 h.cut
    obtain ⟨out, g1, g2⟩ := ar_segSplits hs 0 segs h.filled
    have hne : out ≠ [] := by
      have := ar_cut_ne h.cut hw0
      rintro rfl
      cases g2
      exact this rfl
    unfold AddedVocab.firstSplits PTS.ofNS
    simp only [NS.ofText, convertToString_scalars hs, res_ok_bind, res_pure, f1, g1, if_neg hne]
    exact ⟨_, rfl, rfl, g2, hne⟩
  obtain ⟨p0, e0, h1, h2, h3⟩ := key
  unfold AddedVocab.extract
  generalize a.firstSplits w = R at e0 htouch
  obtain ⟨r, a'⟩ := R
  simp only at e0 htouch
  subst e0
  have hlen : (unitLens (fromUTF32 w)).length = units w := by rw [unitLens_length, units_eq, fromUTF32_scalars hs]
  obtain ⟨ns, out, lens, e, t1, t2, t3, t4⟩ := ar_loop P norm hP hs h2 h.filled h.forward h.tokens h.pieces a' p0.normalized
    (unitLens (fromUTF32 w)) 0 0 htouch (by rw [h1]; exact room_units w) (Nat.le_refl _) (by rw [hlen]; have := h.fits; omega)
  simp only
  generalize normalizeLoop P norm a' p0.normalized 0 p0.splits = R at e
  obtain ⟨r, a2⟩ := R
  simp only at e
  subst e
  simp only [if_neg (t4 h3)]
  exact ⟨_, lens, rfl, t1, t3⟩

theorem ar_preTokenized (P : Platform) {t : Tokenizer} {a : AddedVocab} {w w' : WStr} {cuts : List Cut} (ha : t.added = some a)
    (hP : PlainTables a) (hw0 : w ≠ []) (h : Workable P t.normalizer a w w' cuts)
    (hpt : ∀ pt, t.preTokenizer = some pt → SafePre P w' pt) :
    ∃ p lens, (t.preTokenized P w).1 = .ok p ∧ Room lens p.normalized ∧ ∀ s ∈ p.splits, Startable lens.length s := by
  obtain ⟨p0, lens, h1, h2, h3⟩ := ar_extract P t.normalizer hP hw0 h
  have hpre : (t.preTokenized P w).1 = (match t.preTokenizer with | none => .ok p0 | some pt => pt.run P p0) := by
    unfold Tokenizer.preTokenized
    rw [ofNS_text (ar_cut_scalars h.cut)]
    simp only [ha, h1, res_ok_bind]
    rfl
  rw [hpre]
  cases hq : t.preTokenizer with
  | none => exact ⟨p0, lens, rfl, h2, fun s hs => (h3 s hs).startable⟩
  | some pt =>
    obtain ⟨p, e1, e2, e3⟩ := safePre_total P (hpt pt hq) p0 h3
    exact ⟨p, lens, e1, by rw [e2]; exact h2, e3⟩

/-! ### The BERT normalizer -/

theorem ar_room_tab {s : NS} {lens : List Nat} (h : Tab s lens) : Room lens s := ⟨h.ranges, h.pos, by rw [h.offsets]; exact Nat.le_refl _⟩

theorem ar_roomy {s : NS} {lens : List Nat} (h : Tab s lens) (h0 : s.normalized ≠ []) (hl : units s.normalized ≤ lens.length) : Roomy s := by
  have hr := ar_room_tab h
  have := ar_units_ge s.normalized
  refine ⟨hr.usable h0 (by omega), ?_⟩
  rw [hr.ranges, mkRanges_length]
  exact hl

theorem ar_padLens : ∀ (w : WStr) (B : List Nat), w.length ≤ B.length → (padLens w B).length + units w = B.length + units (padText w) := by
  intro w
  induction w with
  | nil => intro B _; simp [padLens, padText, units]
  | cons c w ih =>
    intro B h
    cases B with
    | nil => simp at h
    | cons k B =>
      have := ih B (by simpa using h)
      by_cases hc : isChineseChar c = true
      · simp [padLens, padText, hc, units]; omega
      · simp [padLens, padText, hc, units]; omega

theorem ar_units_map {f : Nat → Nat} : ∀ {w : WStr}, (∀ c ∈ w, c < 0x10000 → f c < 0x10000) → units (w.map f) ≤ units w := by
  intro w
  induction w with
  | nil => intro _; simp [units]
  | cons c w ih =>
    intro h
    have h1 := ih fun c hc => h c (by simp [hc])
    have h2 := h c (by simp)
    simp only [List.map_cons, units]
    split <;> split <;> omega

theorem ar_bert (P : Platform) (clean cjk strip lower : Bool) {v : WStr} (hv : Scalars v) (h0 : v ≠ [])
    (h : Undropped P clean strip lower v)
    (hlow : lower = true → ∀ c, c = 0x20 ∨ c ∈ v → c < 0x10000 → P.towlower c < 0x10000) :
    ∃ s, (Normalizer.bert clean cjk strip lower).run P (NS.ofText v) = .ok s ∧ Roomy s := by
  have hlen : (unitLens (fromUTF32 v)).length = units v := by rw [unitLens_length, units_eq, fromUTF32_scalars hv]
  let f := cleanChar P clean
  have e1 : (if clean then doCleanText P (NS.ofText v) else .ok (NS.ofText v)) = .ok { NS.ofText v with normalized := v.map f } := by
    cases clean with
    | true => rw [if_pos rfl, clean_map (s := NS.ofText v) fun c hc => h.1 rfl c hc]; rfl
    | false =>
      have : v.map (cleanChar P false) = v := by
        apply List.map_id''; intro c; simp [cleanChar]
      rw [if_neg (by simp)]
      show Except.ok (NS.ofText v) = .ok { NS.ofText v with normalized := v.map (cleanChar P false) }
      rw [this]; rfl
  have hf : ∀ c, f c = 0x20 ∨ f c = c := by intro c; simp only [f, cleanChar]; split <;> simp
  have hfu : units (v.map f) ≤ units v := ar_units_map fun c _ hc => by
    rcases hf c with h | h <;> rw [h] <;> omega
  have ht0 := ofText_tab v
  have ht1 : Tab { NS.ofText v with normalized := v.map f } (unitLens (fromUTF32 v)) := ⟨ht0.ranges, ht0.offsets, ht0.pos⟩
  have hmf : ∀ c ∈ v.map f, c = 0x20 ∨ c ∈ v := by
    intro c hc
    obtain ⟨x, hx, rfl⟩ := List.mem_map.1 hc
    rcases hf x with h | h
    · exact .inl h
    · rw [h]; exact .inr hx
  have hpm : ∀ w : WStr, (∀ c ∈ w, c = 0x20 ∨ c ∈ v) → ∀ c ∈ padText w, c = 0x20 ∨ c ∈ v := by
    intro w
    induction w with
    | nil => intro _ c hc; simp [padText] at hc
    | cons x w ih =>
      intro hw c hc
      have ih := ih fun c hc => hw c (by simp [hc])
      unfold padText at hc
      split at hc
      · simp only [List.mem_cons] at hc
        rcases hc with rfl | rfl | rfl | hc
        · exact .inl rfl
        · exact hw _ (by simp)
        · exact .inl rfl
        · exact ih c hc
      · rcases List.mem_cons.1 hc with rfl | hc
        · exact hw _ (by simp)
        · exact ih c hc
  have hpn : ∀ w : WStr, w ≠ [] → padText w ≠ [] := by
    intro w hw
    cases w with
    | nil => exact absurd rfl hw
    | cons c w => unfold padText; split <;> simp
  have e2 : ∃ s2 lens, (if cjk then doHandleChineseChars { NS.ofText v with normalized := v.map f } else
      .ok { NS.ofText v with normalized := v.map f }) = .ok s2 ∧ Tab s2 lens ∧ units s2.normalized ≤ lens.length ∧
      (∀ c ∈ s2.normalized, c = 0x20 ∨ c ∈ v) ∧ s2.normalized ≠ [] := by
    have hle : (v.map f).length ≤ (unitLens (fromUTF32 v)).length := by
      rw [hlen, List.length_map]; exact ar_units_ge v
    cases cjk with
    | true =>
      obtain ⟨s', h1, h2, h3⟩ := cjk_returns ht1 hle
      refine ⟨s', _, by rw [if_pos rfl]; exact h1, h2, ?_, ?_, ?_⟩
      · have := ar_padLens (v.map f) _ hle
        rw [h3]
        show units (padText (v.map f)) ≤ (padLens (v.map f) _).length
        omega
      · rw [h3]; exact hpm _ hmf
      · rw [h3]; exact hpn _ (by simpa using h0)
    | false =>
      refine ⟨_, _, by rw [if_neg (by simp)], ht1, ?_, hmf, by simpa using h0⟩
      show units (v.map f) ≤ _
      omega
  obtain ⟨s2, lens, e2, t2, u2, m2, n2⟩ := e2
  have hs2 : Scalars s2.normalized := by
    intro c hc
    rcases m2 c hc with rfl | h
    · decide
    · exact hv c h
  have e3 : (if strip || lower then doStripAccents P s2 else .ok s2) = .ok s2 := by
    by_cases hx : strip = true ∨ lower = true
    · obtain ⟨k1, k2⟩ := h.2 hx s2.normalized m2
      rw [if_pos (by simpa using hx), strip_same hs2 k1 k2]
    · rw [if_neg (by simpa using hx)]
  refine ⟨if lower then doLowercase P s2 else s2, ?_, ?_⟩
  · simp only [Normalizer.run, bertNormalize_eq, e1, res_ok_bind, e2, e3]
  · cases lower with
    | false => exact ar_roomy t2 n2 u2
    | true =>
      refine ar_roomy (lens := lens) ⟨t2.ranges, t2.offsets, t2.pos⟩ (by simpa [doLowercase] using n2) ?_
      have : units (s2.normalized.map P.towlower) ≤ units s2.normalized := ar_units_map fun c hc => hlow rfl c (m2 c hc)
      simp only [if_true, doLowercase]
      omega

end Tok
