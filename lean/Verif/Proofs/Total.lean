import Verif.Props.Located
import Verif.Spec.Total

set_option autoImplicit false

namespace Tok
open Spec

/-! ### Extraction -/

/-- Segments that are no token are not empty. -/
theorem matchSegs_gap (mapR : List (Int × AddedToken)) (s : Str) (total : Nat) (ms : List (Nat × Nat × Int)) :
    ∀ start segs, matchSegs mapR s total ms start = .ok segs → ∀ g ∈ segs, g.1 = none → g.2.1 ≠ g.2.2 := by
  induction ms with
  | nil =>
    intro start segs h g hg _
    simp only [matchSegs, Except.ok.injEq] at h
    subst h
    split at hg
    · simp only [List.mem_singleton] at hg; subst hg; assumption
    · cases hg
  | cons m r ih =>
    intro start segs h g hg hn
    obtain ⟨x, y, id⟩ := m
    simp only [matchSegs] at h
    obtain ⟨ok, _, h⟩ := res_bind_ok.1 h
    cases ok with
    | false => exact ih start segs (by simpa using h) g hg hn
    | true =>
      simp only [if_true] at h
      have tail : ∀ (x' y' : Nat) (rest : List TSeg), matchSegs mapR s total r y' = .ok rest →
          segs = (if start < x' then [(none, (start, x'))] else []) ++ (some id, (x', y')) :: rest → g.2.1 ≠ g.2.2 := by
        intro x' y' rest hr e
        subst e
        simp only [List.mem_append, List.mem_cons] at hg
        rcases hg with hg | rfl | hg
        · split at hg
          · simp only [List.mem_singleton] at hg; subst hg; simp only; omega
          · cases hg
        · cases hn
        · exact ih y' rest hr g hg hn
      split at h
      · obtain ⟨z, _, h⟩ := res_bind_ok.1 h
        obtain ⟨y', _, h⟩ := res_bind_ok.1 h
        obtain ⟨rest, hr, h⟩ := res_bind_ok.1 h
        cases h
        exact tail _ _ rest hr rfl
      · obtain ⟨y', _, h⟩ := res_bind_ok.1 h
        obtain ⟨rest, hr, h⟩ := res_bind_ok.1 h
        cases h
        exact tail _ _ rest hr rfl

theorem part_ne {w : WStr} {x y : Nat} (h1 : x < y) (h2 : y ≤ w.length) : part w x y ≠ [] := by
  intro h
  have := congrArg List.length h
  simp [part] at this
  omega

theorem utf8_ne {w : WStr} (h : w ≠ []) : utf8 w ≠ [] := by
  intro h'
  have := utf8_length_ge w
  rw [h'] at this
  exact h (List.length_eq_zero_iff.1 (by simpa using this))

theorem tiles_mem_bounds {l : List (Nat × Nat)} : ∀ {a b : Nat}, Tiles a l b → ∀ o ∈ l, a ≤ o.1 ∧ o.1 ≤ o.2 ∧ o.2 ≤ b := by
  induction l with
  | nil => simp
  | cons x r ih =>
    intro a b h o ho
    obtain ⟨x1, x2⟩ := x
    simp only [Tiles] at h
    rcases List.mem_cons.1 ho with rfl | ho
    · exact ⟨by simp only; omega, h.2.1, tiles_le h.2.2⟩
    · have := ih h.2.2 o ho; omega

/-- The splits of a text at the tokens of a table: the call returns, no split is empty. -/
theorem segSplits_filled {a : AddedVocab} {T : List (Str × Int)} {w : WStr} (hw : Cuttable a w)
    (hT : ∀ p ∈ T, p ∈ a.nonNormTrie ++ a.normTrie) (hne : ∀ p ∈ T, p.1 ≠ []) (base : Nat) :
    ∃ segs out, (a.findMatches (utf8 w) T).1 = .ok segs ∧ segSplits w base segs = .ok out ∧ Placed w base out ∧
      (∀ s ∈ out, s.normalized ≠ []) ∧ (∀ s ∈ out, s.tokens = [] ∨ IsToken a T s) ∧ (w ≠ [] → out ≠ []) := by
  obtain ⟨segs, f1, f2, f3⟩ := findMatches_bmp hw hT
  obtain ⟨out, g1, g2, g3, g4, g5⟩ := segSplits_bmp (a := a) (T := T) hw.1 base segs 0 (Nat.zero_le _) f2 f3
  have hp := segSplits_placed hw.1 base segs 0 out f2 g1
  rw [List.drop_zero, Nat.zero_add] at hp
  refine ⟨segs, out, f1, g1, hp, ?_, g4, ?_⟩
  · intro s hs
    obtain ⟨g, hg, h1, _⟩ := each_mem_right g5 s hs
    rw [h1]
    have hb := tiles_mem_bounds f2 g.2 (List.mem_map.2 ⟨g, hg, rfl⟩)
    rcases f3 g hg with h | ⟨i, k, l, r, _, hk, e, _⟩
    · have hu : fromUTF8 (utf8 w) = w := by rw [fromUTF8_utf8 (bmp_scalars hw.1), utf16_bmp hw.1]
      unfold AddedVocab.findMatches at f1
      simp only [hu] at f1
      have := matchSegs_gap _ _ _ _ _ _ f1 g hg h
      exact utf8_ne (part_ne (by omega) hb.2.2)
    · rw [e]
      intro h
      have := hne _ hk
      simp only [List.append_eq_nil_iff] at h
      exact this h.1.2
  · intro hw0 ho
    subst ho
    cases hp
    exact hw0 rfl

/-- Replacing a stretch by the table of the same stretch does not fail. -/
theorem transformRange_total {A B C : List Nat} {ns sub : NS} (h : GT (A ++ B ++ C) ns) (hB : B ≠ [])
    (hsr : sub.ranges = mkRanges 0 B) (hso : sub.offsets = mkOffsets 0 B) :
    ∃ ns', ns.transformRange A.length (A.length + B.length) sub = .ok ns' := by
  obtain ⟨tail, hoff⟩ := h.offsets
  have hrl : ns.ranges.length = A.length + B.length + C.length := by rw [h.ranges]; simp; omega
  obtain ⟨k, B', rfl⟩ : ∃ k B', B = k :: B' := by cases B with | nil => exact absurd rfl hB | cons k B' => exact ⟨k, B', rfl⟩
  have hkpos : 0 < k := h.pos k (by simp)
  have h1 : vecAt ns.ranges A.length = .ok (A.sum, k) := by
    unfold vecAt
    rw [h.ranges, List.append_assoc, mkRanges_append, List.getElem?_append_right (by simp)]
    simp [mkRanges]
  have hol : ns.offsets.length = (A ++ (k :: B') ++ C).sum + tail.length := by rw [hoff]; simp
  have hend : ∃ o y, (if A.length + (k :: B').length = ns.ranges.length then vecAt ns.ranges (A.length + (k :: B').length - 1)
      else vecAt ns.ranges (A.length + (k :: B').length)) = .ok (o, y) ∧ A.sum ≤ o ∧ o ≤ (A ++ (k :: B') ++ C).sum := by
    by_cases hC : A.length + (k :: B').length = ns.ranges.length
    · rw [if_pos hC]
      have : C = [] := by rw [hrl] at hC; exact List.length_eq_zero_iff.1 (by omega)
      subst this
      obtain ⟨D, d, hD⟩ : ∃ D d, k :: B' = D ++ [d] :=
        ⟨(k :: B').dropLast, (k :: B').getLast (by simp), (List.dropLast_concat_getLast (by simp)).symm⟩
      refine ⟨(A ++ D).sum, d, ?_, ?_, ?_⟩
      · unfold vecAt
        rw [h.ranges, hD, List.append_nil, ← List.append_assoc, mkRanges_append,
          List.getElem?_append_right (by simp)]
        have : A.length + (D ++ [d]).length - 1 - (mkRanges 0 (A ++ D)).length = 0 := by simp
        rw [this]; simp [mkRanges]
      · simp
      · rw [hD]; simp
    · rw [if_neg hC]
      have hC' : C ≠ [] := by rintro rfl; exact hC (by rw [hrl]; simp)
      obtain ⟨c, C', rfl⟩ : ∃ c C', C = c :: C' := by cases C with | nil => exact absurd rfl hC' | cons c C' => exact ⟨c, C', rfl⟩
      refine ⟨(A ++ k :: B').sum, c, ?_, by simp, by simp⟩
      unfold vecAt
      rw [h.ranges, mkRanges_append, List.getElem?_append_right (by simp)]
      simp [mkRanges]
  obtain ⟨o, y, h2, ho1, ho2⟩ := hend
  have hf : ∃ f, vecAt ns.offsets A.sum = .ok f := by
    unfold vecAt
    have : A.sum < ns.offsets.length := by rw [hol]; simp; omega
    rw [List.getElem?_eq_getElem this]
    exact ⟨_, rfl⟩
  obtain ⟨f, hf⟩ := hf
  have h3 : ∃ o' r', sub.offsets = o' :: r' := by
    rw [hso]
    obtain ⟨k', rfl⟩ : ∃ k', k = k' + 1 := ⟨k - 1, by omega⟩
    exact ⟨_, _, by rw [mkOffsets, List.replicate_succ]; rfl⟩
  obtain ⟨o', r', h3⟩ := h3
  have hne : ¬ (mkRanges A.sum (sub.ranges.map (·.2)) = [] ∧ ns.ranges.drop (A.length + (k :: B').length) ≠ []) := by
    rw [hsr]; simp [mkRanges]
  have h4 : eraseRange ns.offsets A.sum o = .ok (ns.offsets.take A.sum ++ ns.offsets.drop o) := by
    unfold eraseRange; rw [if_pos ⟨ho1, by omega⟩]
  have h5 : ∀ x, ∃ z, insertAt (ns.offsets.take A.sum ++ ns.offsets.drop o) A.sum x = .ok z := by
    intro x
    unfold insertAt
    rw [if_pos (by simp; omega)]
    exact ⟨_, rfl⟩
  obtain ⟨z, h5⟩ := h5 (f :: regroup o' f r')
  unfold NS.transformRange
  rw [h1]
  simp only [res_ok_bind]
  split at h2
  all_goals
    rename_i hb
    first
    | rw [if_pos hb]
    | rw [if_neg hb]
    rw [h2]
    simp only [res_ok_bind, if_neg hne, h3, hf, h4, h5]
    exact ⟨_, rfl⟩

/-- The second pass without normalizer. -/
theorem normalizeLoop_total (P : Platform) {w : WStr} : ∀ (l : List Split) (a : AddedVocab) (ns : NS) (x r : WStr),
    w = x ++ r → Placed r x.length l → Cuttable a w → GT (w.map byteLen) ns → TokensAscii l → (∀ s ∈ l, s.normalized ≠ []) →
    (∀ p ∈ a.normTrie, p.1 ≠ []) →
    ∃ ns' out, (normalizeLoop P none a ns x.length l).1 = .ok (ns', out) ∧ ∀ s ∈ out, s.normalized ≠ [] := by
  intro l
  induction l with
  | nil => intro a ns x r _ _ _ _ _ _ _; exact ⟨ns, [], rfl, by simp⟩
  | cons s l ih =>
    intro a ns x r hw hp hc hg hta hne hkeys
    have hta' : TokensAscii l := fun s hs => hta s (by simp [hs])
    generalize hxl : x.length = xl at hp
    cases hp with
    | @cons v r' _ _ _ h1 h2 h3 =>
    subst hxl
    have hw' : w = (x ++ v) ++ r' := by rw [hw]; simp
    have hl' : (x ++ v).length = x.length + v.length := by simp
    have hbv : Bmp v := bmp_sub hc.1 fun c hm => by rw [hw]; simp [hm]
    have hv0 : v ≠ [] := by
      rintro rfl
      exact hne s (by simp) (by rw [h1]; rfl)
    unfold normalizeLoop
    by_cases ht : s.tokens ≠ []
    · rw [if_pos ht]
      have hlen : s.normalized.length = v.length := by
        rw [h1]
        exact utf8_ascii_rev (by rw [← h1]; exact hta s (by simp) ht)
      rw [hlen, ← hl']
      obtain ⟨ns', out, e, ho⟩ := ih a ns (x ++ v) r' hw' (by rw [hl']; exact h3) hc hg hta'
        (fun s hs => hne s (by simp [hs])) hkeys
      generalize normalizeLoop P none a ns (x ++ v).length l = R at e
      obtain ⟨rr, a'⟩ := R
      simp only at e
      subst e
      refine ⟨ns', _, rfl, ?_⟩
      intro q hq
      rcases List.mem_cons.1 hq with rfl | hq
      · exact hne s (by simp)
      · exact ho q hq
    · rw [if_neg ht]
      have hT := normalizeSplit_touched P none a ns x.length s
      have hcv := cuttable_sub hc (v := v) fun c hm => by rw [hw]; simp [hm]
      have key : ∃ ns1 here, (normalizeSplit P none a ns x.length s).1 = .ok (ns1, here, v.length) ∧
          GT (w.map byteLen) ns1 ∧ ∀ s ∈ here, s.normalized ≠ [] := by
        unfold normalizeSplit
        have hsv := bmp_scalars hbv
        have hcf : convertFromString s.normalized = .ok v := by
          rw [h1]; exact (C02_from_string_iff _ _).2 (utf8Text_iff.2 ⟨hsv, rfl⟩)
        have hlens : w.map byteLen = x.map byteLen ++ v.map byteLen ++ r'.map byteLen := by rw [hw']; simp
        rw [hlens] at hg
        obtain ⟨ns2, htr⟩ := transformRange_total hg (by simpa using hv0) (ofText_bmp hbv).1 (ofText_bmp hbv).2
        have ht1 := (transformRange_same hg (ofText_bmp hbv).1 (ofText_bmp hbv).2 htr).1
        simp only [List.length_map] at htr
        simp only [hcf, res_ok_bind, normalizeOpt, h2]
        rw [if_neg (by omega), show x.length + (x.length + v.length) - x.length = x.length + v.length by omega, htr]
        have htxt : convertToString (NS.ofText v).normalized = .ok (utf8 v) := convertToString_scalars hsv
        simp only [res_ok_bind, htxt, res_pure]
        obtain ⟨segs, out, f1, f2, _, f4, _⟩ := segSplits_filled (T := a.normTrie) hcv
          (fun p hp => List.mem_append_right _ hp) hkeys x.length
        rw [f1, res_ok_bind]
        refine ⟨ns2, out, ?_, by rw [hlens]; exact ht1, f4⟩
        show (do let splits ← segSplits v x.length segs; _) = _
        rw [f2]; rfl
      obtain ⟨ns1, here, e1, hg1, hh⟩ := key
      generalize normalizeSplit P none a ns x.length s = R at e1 hT
      obtain ⟨rr, a1⟩ := R
      simp only at e1 hT
      subst e1
      have hk1 : a1.normTrie = a.normTrie := by rw [hT.same]
      obtain ⟨ns', out, e, ho⟩ := ih a1 ns1 (x ++ v) r' hw' (by rw [hl']; exact h3) (touched_cuttable hT hc) hg1 hta'
        (fun s hs => hne s (by simp [hs])) (by rw [hk1]; exact hkeys)
      rw [hl'] at e
      simp only
      generalize normalizeLoop P none a1 ns1 (x.length + v.length) l = R at e
      obtain ⟨rr, a'⟩ := R
      simp only at e
      subst e
      refine ⟨ns', _, rfl, ?_⟩
      intro q hq
      rcases List.mem_append.1 hq with hq | hq
      · exact hh q hq
      · exact ho q hq

theorem extract_total (P : Platform) {a : AddedVocab} {w : WStr} (hw : Cuttable a w) (hw0 : w ≠ [])
    (hA : ∀ p ∈ a.nonNormTrie, Ascii p.1) (hne : ∀ p ∈ a.nonNormTrie ++ a.normTrie, p.1 ≠ []) :
    ∃ p, (a.extract P none w).1 = .ok p ∧ GT (w.map byteLen) p.normalized ∧ Placed w 0 p.splits ∧
      ∀ s ∈ p.splits, s.normalized ≠ [] := by
  have hs := bmp_scalars hw.1
  have htouch := firstSplits_touched a w
  have hfirst : ∃ p0, (a.firstSplits w).1 = .ok p0 ∧ p0.normalized = NS.ofText w ∧ Placed w 0 p0.splits ∧
      p0.splits ≠ [] ∧ TokensAscii p0.splits ∧ ∀ s ∈ p0.splits, s.normalized ≠ [] := by
    obtain ⟨segs, out, f1, f2, f3, f4, f5, f6⟩ := segSplits_filled (T := a.nonNormTrie) hw
      (fun p hp => List.mem_append_left _ hp) (fun p hp => hne p (List.mem_append_left _ hp)) 0
    unfold AddedVocab.firstSplits PTS.ofNS
    simp only [NS.ofText, convertToString_scalars hs, res_ok_bind, res_pure]
    rw [f1, res_ok_bind, f2, res_ok_bind, if_neg (f6 hw0)]
    refine ⟨_, rfl, rfl, f3, f6 hw0, ?_, f4⟩
    intro s hs' htok
    rcases f5 s hs' with h | h
    · exact absurd h htok
    · exact isToken_ascii h hA
  obtain ⟨p0, h0, h1, h2, h3, h4, h5⟩ := hfirst
  unfold AddedVocab.extract
  generalize a.firstSplits w = R at h0 htouch
  obtain ⟨r, a'⟩ := R
  simp only at h0 htouch
  subst h0
  simp only
  have hg : GT (w.map byteLen) p0.normalized := by
    rw [h1]; rw [← unitLens_bmp hw.1]; exact ofText_gt w
  have hk : a'.normTrie = a.normTrie := by rw [htouch.same]
  obtain ⟨ns, out, e, ho⟩ := normalizeLoop_total P (w := w) p0.splits a' p0.normalized [] w rfl h2
    (touched_cuttable htouch hw) hg h4 h5 (by rw [hk]; exact fun p hp => hne p (List.mem_append_right _ hp))
  have key := normalizeLoop_placed P (w := w) p0.splits a' p0.normalized ns [] w out rfl h2
    (touched_cuttable htouch hw) hg h4 e
  simp only [List.length_nil] at e key
  generalize normalizeLoop P none a' p0.normalized 0 p0.splits = R at e
  obtain ⟨r, a2⟩ := R
  simp only at e
  subst e
  simp only
  rw [if_neg (key.2.2 h3)]
  exact ⟨_, rfl, key.1, key.2.1, ho⟩

/-! ### Pre-tokenization -/

/-- The split holds a non-empty text that ends before position `n`, ASCII if `A`. -/
def Filled (n : Nat) (A : Prop) (s : Split) : Prop :=
  ∃ v, v ≠ [] ∧ Scalars v ∧ s.normalized = utf8 v ∧ s.offsets.1 + units v ≤ n ∧ (A → Ascii v)

theorem partOf_units {w v : WStr} {a b : Nat} (h : PartOf w a b v) : a + units v ≤ units w := by
  obtain ⟨l, r, rfl, rfl, rfl⟩ := h
  simp only [units_append]; omega

theorem filled_words {n : Nat} {A : Prop} {v : WStr} {base : Nat} (hsc : Scalars v) (hb : base + units v ≤ n) (hA : A → Ascii v)
    {ws : List (Nat × WStr)} (h : ∀ x ∈ ws, x.2 ≠ [] ∧ PartOf v x.1 (x.1 + units x.2) x.2) :
    ∀ s ∈ wordSplits base ws, Filled n A s := by
  intro s hs
  obtain ⟨x, hx, rfl⟩ := List.mem_map.1 hs
  obtain ⟨h0, hp⟩ := h x hx
  have := partOf_units hp
  obtain ⟨l, r, e, _⟩ := hp
  have hm : ∀ c ∈ x.2, c ∈ v := fun c hc => by rw [e]; simp [hc]
  exact ⟨x.2, h0, hsc.sub hm, rfl, by simp only; omega, fun ha c hc => hA ha c (hm c hc)⟩

theorem filled_pieces {n : Nat} {A : Prop} {v : WStr} {base : Nat} (hsc : Scalars v) (hb : base + units v ≤ n) (hA : A → Ascii v) :
    ∀ (ps : Parts) (l : WStr), v = l ++ partsText ps → (∀ p ∈ ps, p.2 = false → p.1 ≠ []) →
      ∀ s ∈ pieceSplits base (units l) ps, Filled n A s := by
  intro ps
  induction ps with
  | nil => intro l _ _ s hs; simp [pieceSplits] at hs
  | cons p ps ih =>
    intro l he hf s hs
    obtain ⟨x, f⟩ := p
    have he' : v = (l ++ x) ++ partsText ps := by simpa using he
    simp only [pieceSplits, List.mem_append] at hs
    rcases hs with hs | hs
    · cases f with
      | true => simp at hs
      | false =>
        simp at hs
        subst hs
        have hm : ∀ c ∈ x, c ∈ v := fun c hc => by rw [he']; simp [hc]
        have hu : units v = units l + units x + units (partsText ps) := by rw [he', units_append, units_append]
        exact ⟨x, hf (x, false) (by simp) rfl, hsc.sub hm, rfl, by simp only; omega, fun ha c hc => hA ha c (hm c hc)⟩
    · exact ih (l ++ x) he' (fun p hp => hf p (by simp [hp])) s (by rw [units_append]; exact hs)

theorem place_mem {ps : Parts} : ∀ {pos : Nat} {p : WStr × Bool}, p ∈ ps → ∃ x, ((x, x + units p.1), p.2) ∈ place pos ps := by
  induction ps with
  | nil => intro _ _ h; cases h
  | cons q ps ih =>
    intro pos p h
    obtain ⟨v, f⟩ := q
    rcases List.mem_cons.1 h with rfl | h
    · exact ⟨pos, by simp [place]⟩
    · obtain ⟨x, hx⟩ := ih (pos := pos + units v) h
      exact ⟨x, by simp [place, hx]⟩

theorem segments_filled {len : Nat} : ∀ (ms : List (Nat × Nat)) (cur : Nat), Ordered len cur ms →
    ∀ g ∈ segments len cur ms, (g.2 = false ∧ g.1.1 < g.1.2) ∨ (g.2 = true ∧ g.1 ∈ ms) := by
  intro ms
  induction ms with
  | nil =>
    intro cur _ g hg
    simp only [segments] at hg
    split at hg
    · simp only [List.mem_singleton] at hg; subst hg; left; exact ⟨rfl, by assumption⟩
    · cases hg
  | cons m ms ih =>
    intro cur ho g hg
    obtain ⟨a, b⟩ := m
    simp only [Ordered] at ho
    simp only [segments, List.mem_append, List.mem_cons] at hg
    rcases hg with hg | rfl | hg
    · split at hg
      · simp only [List.mem_singleton] at hg; subst hg; left; exact ⟨rfl, by simp only; omega⟩
      · cases hg
    · right; exact ⟨rfl, by simp⟩
    · rcases ih b ho.2.2 g hg with h | h
      · exact .inl h
      · exact .inr ⟨h.1, by simp [h.2]⟩

theorem units_nil_iff {v : WStr} : v = [] ↔ units v = 0 := units_eq_zero.symm

theorem splitNormalized_matches {P : Platform} {pattern : Str} {filled : Prop} {b : Behavior} (h : Matches P pattern filled)
    (hb : b = .isolated → filled) {n : Nat} {A : Prop} {s : Split} (hs : Filled n A s) :
    ∃ part, splitNormalized s (findMatches P pattern) b = .ok part ∧ ∀ q ∈ part, Filled n A q := by
  obtain ⟨find, hf, hg, hfill⟩ := h
  obtain ⟨v, hv0, hsc, hn, hu, hA⟩ := hs
  obtain ⟨ho, hbd⟩ := goodEngine_text hg hsc
  obtain ⟨ps, hp1, hp2⟩ := segments_parts (find (utf16 v)) [] v rfl ho hbd
  have hfn : findMatches P pattern (utf16 v) = .ok (place 0 ps) := by
    simp only [findMatches, hf]
    rw [← units_eq]; exact congrArg Except.ok hp2
  have hsegs := segments_filled (find (utf16 v)) 0 ho
  have hp2' : segments (units v) 0 (find (utf16 v)) = place 0 ps := hp2
  rw [hp2'] at hsegs
  have hmem : ∀ p ∈ ps, p.2 = false ∨ filled → p.1 ≠ [] := by
    intro p hp hor h0
    obtain ⟨x, hx⟩ := place_mem (pos := 0) hp
    have hz : units p.1 = 0 := units_eq_zero.2 h0
    rcases hsegs _ hx with ⟨h1, h2⟩ | ⟨h1, h2⟩
    · simp only at h2; omega
    · rcases hor with h | h
      · simp only at h1; rw [h] at h1; cases h1
      · have := hfill h _ _ h2
        simp only at this; omega
  rw [splitNormalized_parts hsc hn hp1 hfn b]
  refine ⟨_, rfl, ?_⟩
  cases b with
  | removed => exact filled_pieces hsc hu hA ps [] (by rw [hp1]; rfl) fun p hp h => hmem p hp (.inl h)
  | isolated =>
    refine filled_pieces hsc hu hA _ [] ?_ ?_
    · simp only [partsText, List.map_map] at hp1 ⊢; rw [← hp1]; rfl
    · intro p hp _
      obtain ⟨q, hq, rfl⟩ := List.mem_map.1 hp
      exact hmem q hq (.inr (hb rfl))

theorem split_filled {n : Nat} {A : Prop} {fn : U16 → Res (List Seg)} {b : Behavior}
    (hstep : ∀ s, Filled n A s → ∃ part, splitNormalized s fn b = .ok part ∧ ∀ q ∈ part, Filled n A q)
    {p : PTS} (hl : ∀ s ∈ p.splits, Filled n A s) :
    ∃ p', p.split fn b = .ok p' ∧ p'.normalized = p.normalized ∧ ∀ s ∈ p'.splits, Filled n A s := by
  obtain ⟨parts, h1, h2⟩ := splitLoop_total (fn := fn) (b := b) (R := fun s part => ∀ q ∈ part, Filled n A q) p.splits
    fun s hs => ⟨fun _ q hq => by simp at hq; subst hq; exact hl q hs, fun _ => hstep s (hl s hs)⟩
  unfold PTS.split
  rw [h1]
  refine ⟨_, rfl, rfl, ?_⟩
  intro q hq
  obtain ⟨part, hp, hq⟩ := List.mem_flatten.1 hq
  obtain ⟨s, _, hR⟩ := each_mem_right h2 part hp
  exact hR q hq

theorem cuts_filled (P : Platform) {n : Nat} {A : Prop} (t : PreTokenizer) (ht : CutsCleanly P t) (p : PTS)
    (hl : ∀ s ∈ p.splits, Filled n A s) :
    ∃ p', t.run P p = .ok p' ∧ p'.normalized = p.normalized ∧ ∀ s ∈ p'.splits, Filled n A s := by
  refine PreTokenizer.rec
    (motive_1 := fun t => CutsCleanly P t → ∀ p : PTS, (∀ s ∈ p.splits, Filled n A s) →
      ∃ p', t.run P p = .ok p' ∧ p'.normalized = p.normalized ∧ ∀ s ∈ p'.splits, Filled n A s)
    (motive_2 := fun l => CutsCleanlyList P l → ∀ p : PTS, (∀ s ∈ p.splits, Filled n A s) →
      ∃ p', PreTokenizer.runList P l p = .ok p' ∧ p'.normalized = p.normalized ∧ ∀ s ∈ p'.splits, Filled n A s)
    ?_ ?_ ?_ ?_ ?_ ?_ t ht p hl
  · intro _ p hl
    obtain ⟨q, h1, h2, h3⟩ := split_filled (fn := isWhitespaceSegs P) (b := .removed) (by
      rintro s ⟨v, hv0, hsc, hn, hu, hA⟩
      rw [splitNormalized_space P hsc hn]
      refine ⟨_, rfl, filled_words hsc hu hA fun x hx => ?_⟩
      have := wsWords_mem P.reSpace v 0 [] [] (by simp) rfl x hx
      exact ⟨this.1, by simpa using this.2.2⟩) hl
    obtain ⟨q', h4, h5, h6⟩ := split_filled (fn := isBertPuncSegs P) (b := .isolated) (by
      rintro s ⟨v, hv0, hsc, hn, hu, hA⟩
      rw [splitNormalized_punct P hsc hn]
      refine ⟨_, rfl, filled_words hsc hu hA fun x hx => ?_⟩
      have := punctWords_mem P.rePunct v 0 [] [] (by simp) rfl x hx
      exact ⟨this.1, by simpa using this.2.2⟩) h3
    refine ⟨q', ?_, by rw [h5, h2], h6⟩
    simp only [PreTokenizer.run, bertPreTokenize, h1, res_ok_bind, h4]
  · intro pat b inv hm p hl
    exact split_filled (fun s hs => splitNormalized_matches hm id hs) hl
  · intro a u h; exact absurd h (by simp [CutsCleanly])
  · intro l ih hl' p hl
    exact ih hl' p hl
  · intro _ p hl
    exact ⟨p, rfl, rfl, hl⟩
  · intro t l ih1 ih2 ht p hl
    obtain ⟨q, h1, h2, h3⟩ := ih1 ht.1 p hl
    obtain ⟨q', h4, h5, h6⟩ := ih2 ht.2 q h3
    exact ⟨q', by simp only [PreTokenizer.runList, h1, res_ok_bind, h4], by rw [h5, h2], h6⟩

/-- The split is not empty and starts before position `n`. -/
def Startable (n : Nat) (s : Split) : Prop := s.offsets.1 < n ∧ s.normalized ≠ []

theorem Filled.startable {n : Nat} {A : Prop} {s : Split} (h : Filled n A s) : Startable n s := by
  obtain ⟨v, hv0, _, hn, hu, _⟩ := h
  have := units_pos hv0
  exact ⟨by omega, by rw [hn]; exact utf8_ne hv0⟩

theorem byteText_ne {s : Str} (h : s ≠ []) : byteText s ≠ [] := by
  unfold byteText; simpa using h

theorem safePre_total (P : Platform) {w : WStr} {n : Nat} {t : PreTokenizer} (ht : SafePre P w t) : ∀ (p : PTS),
    (∀ s ∈ p.splits, Filled n (Ascii w) s) →
    ∃ p', t.run P p = .ok p' ∧ p'.normalized = p.normalized ∧ ∀ s ∈ p'.splits, Startable n s := by
  induction ht with
  | cuts h =>
    intro p hl
    obtain ⟨p', h1, h2, h3⟩ := cuts_filled P _ h p hl
    exact ⟨p', h1, h2, fun s hs => (h3 s hs).startable⟩
  | @byteLevel u hA hm =>
    intro p hl
    have hstep : ∀ s, Filled n (Ascii w) s → ∃ part, splitNormalized s (fun x => if u = true then findMatches P byteLevelPattern x
        else .ok [((0, x.length), false)]) .isolated = .ok part ∧ ∀ q ∈ part, Filled n (Ascii w) q := by
      intro s hs
      cases u with
      | true =>
        have := splitNormalized_matches (b := .isolated) (hm rfl) (fun _ => trivial) hs
        have hb : byteLevelPattern = b!"'s|'" := by decide
        rw [← hb] at this
        simpa using this
      | false =>
        obtain ⟨v, hv0, hsc, hn, hu, hAv⟩ := hs
        have h := splitNormalized_parts (s := s) (w := v) hsc hn (ps := [(v, false)]) (by simp)
          (fn := fun x => if false = true then findMatches P byteLevelPattern x else .ok [((0, x.length), false)])
          (by simp [place, units_eq]) .isolated
        refine ⟨_, h, ?_⟩
        refine filled_pieces hsc hu hAv _ [] (by simp) ?_
        intro p hp _
        simp at hp; subst hp; exact hv0
    obtain ⟨q, h1, h2, h3⟩ := split_filled (b := .isolated) hstep hl
    have hk : ∀ s ∈ q.splits, KeyOk P s.normalized := by
      intro s hs b hb
      obtain ⟨v, _, hsc, hn, _, hAv⟩ := h3 s hs
      rw [hn] at hb
      refine ⟨utf8_bytes hsc b hb, fun hc => ?_⟩
      have hav := hAv (hA hc)
      rw [utf8_ascii hav] at hb
      exact hav b hb
    refine ⟨{ q with splits := q.splits.map fun s => { s with normalized := utf8 (byteText s.normalized) } }, ?_, h2, ?_⟩
    · simp only [PreTokenizer.run, byteLevelPreTokenize, Bool.false_eq_true, if_false, res_ok_bind, h1, mapSplits_ok hk, res_pure]
    · intro s hs
      obtain ⟨s0, hs0, rfl⟩ := List.mem_map.1 hs
      have := (h3 s0 hs0).startable
      exact ⟨this.1, utf8_ne (byteText_ne this.2)⟩
  | @seq l t hl' _ ih =>
    intro p hl
    have gen : ∀ (l : List PreTokenizer), CutsCleanlyList P l → ∀ (p : PTS), (∀ s ∈ p.splits, Filled n (Ascii w) s) →
        ∃ p', PreTokenizer.runList P (l ++ [t]) p = .ok p' ∧ p'.normalized = p.normalized ∧ ∀ s ∈ p'.splits, Startable n s := by
      intro l
      induction l with
      | nil =>
        intro _ p hl
        obtain ⟨p', h1, h2, h3⟩ := ih p hl
        exact ⟨p', by simp only [List.nil_append, PreTokenizer.runList, h1, res_ok_bind], h2, h3⟩
      | cons c l ih' =>
        intro hc p hl
        obtain ⟨q, h1, h2, h3⟩ := cuts_filled P c hc.1 p hl
        obtain ⟨p', h4, h5, h6⟩ := ih' hc.2 q h3
        exact ⟨p', by simp only [List.cons_append, PreTokenizer.runList, h1, res_ok_bind, h4], by rw [h5, h2], h6⟩
    exact gen l hl' p hl

/-- The text after pre-tokenization: the call returns, no pre-token is empty, and each starts where the table has an entry. -/
theorem preTokenized_total (P : Platform) (t : Tokenizer) (w : WStr) (hw : SafeText t w)
    (hpt : ∀ pt, t.preTokenizer = some pt → SafePre P w pt) :
    ∃ p lens, (t.preTokenized P w).1 = .ok p ∧ GT lens p.normalized ∧ ∀ s ∈ p.splits, Startable lens.length s := by
  have hscal : Scalars w ∧ w ≠ [] := by
    unfold SafeText at hw
    cases ha : t.added with
    | none => rw [ha] at hw; exact ⟨scalars_iff.1 hw.2, hw.1⟩
    | some a => rw [ha] at hw; exact ⟨bmp_scalars hw.2.2.1.1, hw.2.1⟩
  have hp0 : PTS.ofNS (NS.ofText w) = .ok { normalized := NS.ofText w, splits := [{ normalized := utf8 w, offsets := (0, w.length) }] } := by
    unfold PTS.ofNS
    simp only [show (NS.ofText w).normalized = w from rfl, convertToString_scalars hscal.1, res_ok_bind, res_pure]
  unfold Tokenizer.preTokenized
  rw [hp0]
  have main : ∀ (p0 : PTS) (lens : List Nat), GT lens p0.normalized → (∀ s ∈ p0.splits, Filled lens.length (Ascii w) s) →
      ∃ p lens, (match t.preTokenizer with | none => Except.ok p0 | some pt => pt.run P p0) = .ok p ∧
        GT lens p.normalized ∧ ∀ s ∈ p.splits, Startable lens.length s := by
    intro p0 lens h1 h2
    cases hq : t.preTokenizer with
    | none => exact ⟨p0, lens, rfl, h1, fun s hs => (h2 s hs).startable⟩
    | some pt =>
      obtain ⟨p, e1, e2, e3⟩ := safePre_total P (hpt pt hq) p0 h2
      exact ⟨p, lens, e1, by rw [e2]; exact h1, e3⟩
  cases ha : t.added with
  | none =>
    obtain ⟨p, lens, e1, e2, e3⟩ := main { normalized := NS.ofText w, splits := [{ normalized := utf8 w, offsets := (0, w.length) }] }
      (unitLens (fromUTF32 w)) (ofText_gt w) (by
        intro s hs
        simp at hs; subst hs
        refine ⟨w, hscal.2, hscal.1, rfl, ?_, id⟩
        rw [unitLens_length, units_eq, fromUTF32_scalars hscal.1]; simp)
    exact ⟨p, lens, by simp only [res_ok_bind]; exact e1, e2, e3⟩
  | some a =>
    unfold SafeText at hw
    rw [ha] at hw
    obtain ⟨hn, hw0, hc, hA, hne⟩ := hw
    obtain ⟨p0, h1, h2, h3, h4⟩ := extract_total P hc hw0 hA hne
    have hfill : ∀ s ∈ p0.splits, Filled (w.map byteLen).length (Ascii w) s := by
      have gen : ∀ (r : WStr) (pos : Nat) (l : List Split), Placed r pos l → (∀ c ∈ r, c ∈ w) → pos + r.length ≤ w.length →
          (∀ s ∈ l, s.normalized ≠ []) → ∀ s ∈ l, Filled (w.map byteLen).length (Ascii w) s := by
        intro r pos l h
        induction h with
        | nil => simp
        | @cons v r pos s l g1 g2 _ ih =>
          intro hm hb hne q hq
          have hbv : Bmp v := bmp_sub hc.1 fun c hcv => hm c (by simp [hcv])
          simp only [List.length_append] at hb
          rcases List.mem_cons.1 hq with rfl | hq
          · refine ⟨v, ?_, bmp_scalars hbv, g1, ?_, fun ha c hcv => ha c (hm c (by simp [hcv]))⟩
            · rintro rfl; exact hne q (by simp) (by rw [g1]; rfl)
            · rw [g2, units_bmp hbv, List.length_map]; simp only; omega
          · exact ih (fun c hcr => hm c (by simp [hcr])) (by omega) (fun s hs => hne s (by simp [hs])) q hq
      exact gen w 0 _ h3 (fun _ h => h) (by omega) h4
    obtain ⟨p, lens, e1, e2, e3⟩ := main p0 _ h2 hfill
    refine ⟨p, lens, ?_, e2, e3⟩
    simp only [hn, h1, res_ok_bind]
    exact e1

end Tok
