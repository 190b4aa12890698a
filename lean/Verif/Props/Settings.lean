import Verif.Spec.Settings
import Verif.Props.Flag
import Verif.Props.Hangs

set_option autoImplicit false

/-!
C128: truncation, the post-processor and padding only cut, insert and fill.
-/

namespace Tok
open Spec

theorem st_bare {P : Platform} {t : Tokenizer} {w : WStr} {b : Bool} {e : Encoding} (h : (t.encode P w b).1 = .ok e) :
    ∃ e0, (∀ b', ((bareOf t).encode P w b').1 = .ok e0) ∧ t.doPostProcess e0 b = .ok e := by
  rw [ha_encode] at h
  obtain ⟨e0, h1, h2⟩ := res_bind_ok.1 h
  exact ⟨e0, fun b' => by rw [ha_bare, h1], h2⟩

theorem st_text {P : Platform} {t : Tokenizer} {w : WStr} {b : Bool} {e0 : Encoding} (h : ((bareOf t).encode P w b).1 = .ok e0) :
    e0.overflowing = [] ∧ ∃ rows, HasRows e0.toEnc rows ∧ ∀ r ∈ rows, r.special = 0 := by
  obtain ⟨q, x, _, h2, h3⟩ := encode_ok h
  have : e0 = { toEnc := x, overflowing := [] } := by
    have h4 : (bareOf t).doPostProcess { toEnc := x, overflowing := [] } b = .ok { toEnc := x, overflowing := [] } := rfl
    rw [h4] at h3; cases h3; rfl
  subst this
  obtain ⟨rows, hr, hrows⟩ := intoLoop_rows _ _ _ _ h2
  refine ⟨rfl, rows, hrows, ?_⟩
  clear hrows h2 h3 h
  generalize q.normalized = ns at hr
  generalize q.splits = l at hr
  generalize 0 = k at hr
  induction hr with
  | nil => intro r hr; cases hr
  | cons _ _ _ ih =>
    intro r hr
    rcases List.mem_append.1 hr with hr | hr
    · obtain ⟨y, _, rfl⟩ := List.mem_map.1 hr; rfl
    · exact ih r hr

/-- **C128** If `encode` returns, the same tokenizer without truncation, post-processor and padding returns too, with or without special
tokens and without overflow; and the result consists of the rows of that encoding, cut into the windows of the truncation, with what the
post-processor inserts, and padded. -/
theorem C128_rows {P : Platform} {t : Tokenizer} {w : WStr} {b : Bool} {e : Encoding} (hS : ∀ s ∈ Specials t, s.ids.length = s.tokens.length)
    (hi : ∀ tr, t.truncation = some tr → IsInt tr.maxLength ∧ IsInt tr.stride) (h : (t.encode P w b).1 = .ok e) :
    ∃ e0 rows, (∀ b', ((bareOf t).encode P w b').1 = .ok e0) ∧ e0.overflowing = [] ∧ HasRows e0.toEnc rows ∧
      (IsInt e0.ids.length → ∃ out, Finished t b rows out ∧ Each HasRows (e.toEnc :: e.overflowing) out) := by
  obtain ⟨e0, h1, h2⟩ := st_bare h
  obtain ⟨h3, rows, h4, _⟩ := st_text (h1 true)
  refine ⟨e0, rows, h1, h3, h4, fun hn => ?_⟩
  have : e0 = { toEnc := e0.toEnc, overflowing := [] } := by cases e0; cases h3; rfl
  rw [this] at h2
  exact ro_finished hS hi h4 (by rw [h4.1, List.length_map] at hn; exact hn) h2

/-- **C128** Conversely: if the tokenizer without the three settings returns, `encode` returns, unless the truncation stalls, or has to cut in
an unknown direction, or the fixed size of the padding is negative. -/
theorem C128_returns {P : Platform} {t : Tokenizer} {w : WStr} {b : Bool} {e0 : Encoding} (hS : ∀ s ∈ Specials t, s.ids.length = s.tokens.length)
    (h : ((bareOf t).encode P w b).1 = .ok e0) (hn : IsInt e0.ids.length)
    (hi : ∀ tr, t.truncation = some tr → IsInt tr.maxLength ∧ IsInt tr.stride ∧ ¬ Stalls tr e0.ids.length ∧
      (LeftAsIs tr e0.ids.length ∨ tr.direction ≠ .unknown))
    (hf : ∀ p, t.padding = some p → p.strategy = .fixed → 0 ≤ p.fixedSize) :
    ∃ e, (t.encode P w b).1 = .ok e := by
  have htext : textPart P t w = .ok e0 := by rw [← ha_bare P t w b]; exact h
  obtain ⟨_, rows, hrows, _⟩ := st_text h
  have hal := hasRows_aligned hrows
  have hlen : e0.ids.length = rows.length := by rw [hrows.1, List.length_map]
  rw [hlen] at hi hn
  obtain ⟨y, hy⟩ : ∃ y, (match t.truncation with | some q => q.run e0 | none => .ok e0) = .ok y := by
    cases ht : t.truncation with
    | none => exact ⟨_, rfl⟩
    | some tr =>
      obtain ⟨i1, i2, i3, i4⟩ := hi tr ht
      obtain ⟨c1, c2⟩ := C92_truncation tr e0 rows.length hal hn ⟨i1, i2⟩
      by_cases hl : LeftAsIs tr rows.length
      · exact ⟨_, c1 hl⟩
      · obtain ⟨_, cr, cl⟩ := c2 hl
        unfold Stalls at i3
        rcases i4 with i4 | i4
        · exact absurd i4 hl
        cases hd : tr.direction with
        | unknown => exact absurd hd i4
        | right =>
          obtain ⟨k1, _, k3⟩ := cr hd
          rcases Int.lt_trichotomy tr.stride tr.maxLength with q | q | q
          · obtain ⟨r, _, e, _⟩ := k1 q; exact ⟨r, e⟩
          · exact absurd ⟨hl, Or.inl ⟨hd, q⟩⟩ i3
          · obtain ⟨r, e, _⟩ := k3 q; exact ⟨r, e⟩
        | left =>
          obtain ⟨k1, _⟩ := cl hd
          by_cases q : tr.stride < tr.maxLength - 1
          · obtain ⟨r, _, e, _⟩ := k1 q; exact ⟨r, e⟩
          · exact absurd ⟨hl, Or.inr ⟨hd, by omega⟩⟩ i3
  obtain ⟨ws, hw, h0⟩ := fl_windows htext hy
  obtain ⟨z', hz', -⟩ := fl_processed hS b hw
  obtain ⟨e', he'⟩ : ∃ e', (match t.padding with | some q => q.run z' | none => .ok z') = .ok e' := by
    cases hp : t.padding with
    | none => exact ⟨_, rfl⟩
    | some p =>
      obtain ⟨_, r, hr, _⟩ := C37_C38_padding p z' (hf p hp)
      exact ⟨r, hr⟩
  refine ⟨e', ?_⟩
  rw [ha_encode, htext, res_ok_bind]
  unfold Tokenizer.doPostProcess
  revert hy hz' he'
  cases t.truncation <;> cases t.postProcessor <;> cases t.padding <;> intro hy hz' he' <;>
    simp only at hy hz' he' ⊢ <;> simp only [hy, res_ok_bind, hz', he']

/-- **C128** The three settings see nothing of the text but the encoding without them: two tokenizers with the same settings, even with
different vocabularies, that agree without them agree with them. -/
theorem C128_only {P P' : Platform} {t t' : Tokenizer} {w w' : WStr} {b : Bool} (h1 : t.truncation = t'.truncation)
    (h2 : t.postProcessor = t'.postProcessor) (h3 : t.padding = t'.padding)
    (h : ((bareOf t).encode P w b).1 = ((bareOf t').encode P' w' b).1) : (t.encode P w b).1 = (t'.encode P' w' b).1 := by
  rw [ha_bare, ha_bare] at h
  rw [ha_encode, ha_encode, h]
  refine congrArg _ (funext fun e => ?_)
  unfold Tokenizer.doPostProcess
  rw [h1, h2, h3]

/-! ### Nothing is lost -/

theorem st_right {α : Type} (rows : List α) {max stride : Nat} (hs : stride < max) {s : Nat} {ws : List (Nat × Nat)}
    (h : WindowsFrom rows.length max (max - stride) s ws) : s < rows.length →
    ∃ w r, ws = w :: r ∧ (s + stride < rows.length → stride ≤ (Spec.part rows w).length) ∧
      Spec.part rows w ++ (r.map fun x => (Spec.part rows x).drop stride).flatten = rows.drop s := by
  induction h with
  | over h => intro h'; omega
  | @last s a b =>
    intro _
    refine ⟨_, [], rfl, fun h => ?_, ?_⟩
    · simp only [Spec.part, List.length_drop, List.length_take]; omega
    · simp [Spec.part]
  | @more s r a b ih =>
    intro _
    obtain ⟨w, r', rfl, h1, h2⟩ := ih (by omega)
    refine ⟨_, _, rfl, fun _ => ?_, ?_⟩
    · simp only [Spec.part, List.length_drop, List.length_take]; omega
    · have h3 := congrArg (List.drop stride) h2
      rw [List.drop_append_of_le_length (h1 (by omega)), List.drop_drop] at h3
      have h4 : s + (max - stride) + stride = s + max := by omega
      rw [h4] at h3
      simp only [List.map_cons, List.flatten_cons]
      rw [h3]
      simp only [Spec.part]
      have h5 : (rows.take (s + max)).drop s = (rows.drop s).take max := by
        rw [List.drop_take]; congr 1; omega
      rw [h5, ← List.drop_drop]
      exact List.take_append_drop ..

theorem st_left {α : Type} (rows : List α) {max stride : Nat} (hs : stride + 1 < max) {e : Nat} {ws : List (Nat × Nat)}
    (h : WindowsTo max (max - stride - 1) e ws) : 0 < e → e ≤ rows.length →
    ∃ w r, ws = w :: r ∧ (stride + 1 < e → stride + 1 ≤ (Spec.part rows w).length) ∧
      (r.map fun x => (Spec.part rows x).take ((Spec.part rows x).length - (stride + 1))).reverse.flatten ++ Spec.part rows w = rows.take e := by
  induction h with
  | over => intro h'; omega
  | @last e a b =>
    intro _ hle
    refine ⟨_, [], rfl, fun h => ?_, ?_⟩
    · simp only [Spec.part, List.length_drop, List.length_take]; omega
    · simp [Spec.part]
  | @more e r a b ih =>
    intro _ hle
    obtain ⟨w, r', rfl, h1, h2⟩ := ih (by omega) (by omega)
    refine ⟨_, _, rfl, fun _ => ?_, ?_⟩
    · simp only [Spec.part, List.length_drop, List.length_take]; omega
    · have h3 := congrArg (fun l : List α => l.take (e - max)) h2
      rw [List.take_take] at h3
      have hw := h1 (by omega)
      have hlen := congrArg List.length h2
      simp only [List.length_append, List.length_take] at hlen
      have h4 : min (e - max) (e - (max - stride - 1)) = e - max := by omega
      rw [h4, List.take_append, List.take_of_length_le (by omega)] at h3
      simp only [List.map_cons, List.reverse_cons, List.flatten_append, List.flatten_cons, List.flatten_nil, List.append_nil]
      have h5 : (Spec.part rows w).length - (stride + 1) =
        e - max - (r'.map fun x => (Spec.part rows x).take ((Spec.part rows x).length - (stride + 1))).reverse.flatten.length := by omega
      rw [h5, h3]
      simp only [Spec.part]
      have h6 : rows.take (e - max) = (rows.take e).take (e - max) := by rw [List.take_take]; congr 1; omega
      rw [h6]
      exact List.take_append_drop ..

/-- The tokenizer has no post-processor and no padding, and the truncation cuts as said. -/
theorem st_cut {P : Platform} {t : Tokenizer} {w : WStr} {b : Bool} {e e0 : Encoding} {tr : Truncation} (h1 : t.truncation = some tr)
    (h2 : t.postProcessor = none) (h3 : t.padding = none) (hi : IsInt tr.maxLength ∧ IsInt tr.stride) (h : (t.encode P w b).1 = .ok e)
    (h0 : ((bareOf t).encode P w b).1 = .ok e0) (hn : IsInt e0.ids.length) :
    ∃ rows ws, HasRows e0.toEnc rows ∧ Windows (some tr) rows.length ws ∧ Each HasRows (e.toEnc :: e.overflowing) (ws.map (Spec.part rows)) := by
  obtain ⟨e1, rows, g1, g2, g3, g4⟩ := C128_rows (t := t) (by simp [Specials, h2]) (fun tr' h' => by rw [h1] at h'; cases h'; exact hi) h
  have := g1 b
  rw [h0] at this; cases this
  obtain ⟨out, ⟨ws, out', k1, k2, k3⟩, k4⟩ := g4 hn
  rw [h2] at k2; rw [h3] at k3
  cases k2; cases k3
  rw [h1] at k1
  exact ⟨rows, ws, g3, k1, k4⟩

/-- Reading one vector of all windows. -/
theorem st_vector {α : Type} (v : Enc → List α) (f : Row → α) (hv : ∀ x rows, HasRows x rows → v x = rows.map f) {xs : List Enc} {ws : List (List Row)}
    (h : Each HasRows xs ws) : xs.map v = ws.map (List.map f) := by
  induction h with
  | nil => rfl
  | cons h _ ih => simp only [List.map_cons, ih, hv _ _ h]

theorem st_rejoined {α : Type} (v : Enc → List α) (f : Row → α) (hv : ∀ x rows, HasRows x rows → v x = rows.map f) (k : Nat) {e : Encoding}
    {r0 : List Row} {ws : List (List Row)} (h : Each HasRows (e.toEnc :: e.overflowing) (r0 :: ws)) :
    rejoined k v e = (r0 ++ (ws.map fun x => x.drop k).flatten).map f ∧
    rejoinedLeft k v e = ((ws.map fun x => x.take (x.length - k)).reverse.flatten ++ r0).map f := by
  cases h with
  | cons h h' =>
    have hv' := st_vector v f hv h'
    constructor
    · unfold rejoined
      have : (e.overflowing.map fun x => (v x).drop k) = (e.overflowing.map v).map (List.drop k) := by simp [List.map_map, Function.comp_def]
      rw [this, hv', hv _ _ h, List.map_append, List.map_flatten]
      simp [List.map_map, Function.comp_def, List.map_drop]
    · unfold rejoinedLeft
      have : (e.overflowing.map fun x => (v x).take ((v x).length - k)) = (e.overflowing.map v).map fun l => l.take (l.length - k) := by
        simp [List.map_map, Function.comp_def]
      rw [this, hv', hv _ _ h, List.map_append, List.map_flatten, List.map_reverse]
      simp [List.map_map, Function.comp_def, List.map_take]

/-- **C128** Truncation from the right whose windows advance loses nothing: the windows without what they repeat, one behind the other, are the
encoding without truncation, in every vector. -/
theorem C128_right {P : Platform} {t : Tokenizer} {w : WStr} {b : Bool} {e e0 : Encoding} {tr : Truncation} (h1 : t.truncation = some tr)
    (h2 : t.postProcessor = none) (h3 : t.padding = none) (hi : IsInt tr.maxLength ∧ IsInt tr.stride) (hd : tr.direction = .right)
    (hs : 0 ≤ tr.stride ∧ tr.stride < tr.maxLength) (h : (t.encode P w b).1 = .ok e)
    (h0 : ((bareOf t).encode P w b).1 = .ok e0) (hn : IsInt e0.ids.length) :
    let k := tr.stride.toNat
    rejoined k (·.ids) e = e0.ids ∧ rejoined k (·.tokens) e = e0.tokens ∧ rejoined k (·.words) e = e0.words ∧
    rejoined k (·.offsets) e = e0.offsets ∧ rejoined k (·.typeIds) e = e0.typeIds ∧
    rejoined k (·.specialTokensMask) e = e0.specialTokensMask ∧ rejoined k (·.attentionMask) e = e0.attentionMask := by
  obtain ⟨rows, ws, g1, g2, g3⟩ := st_cut h1 h2 h3 hi h h0 hn
  have key : ∃ w r, ws = w :: r ∧ Spec.part rows w ++ (r.map fun x => (Spec.part rows x).drop tr.stride.toNat).flatten = rows := by
    unfold Windows at g2
    simp only at g2
    by_cases hl : LeftAsIs tr rows.length
    · rw [if_pos hl] at g2
      subst g2
      exact ⟨_, [], rfl, by simp [ro_whole]⟩
    · rw [if_neg hl, hd] at g2
      rcases g2 with ⟨_, g2⟩ | ⟨g2, _⟩
      · have e1 : (tr.maxLength - tr.stride).toNat = tr.maxLength.toNat - tr.stride.toNat := by omega
        rw [e1] at g2
        unfold LeftAsIs at hl
        obtain ⟨w, r, k1, _, k2⟩ := st_right rows (by omega) g2 (by omega)
        exact ⟨w, r, k1, by simpa using k2⟩
      · omega
  obtain ⟨w, r, rfl, hk⟩ := key
  have fin : ∀ {α : Type} (v : Enc → List α) (f : Row → α), (∀ x rows, HasRows x rows → v x = rows.map f) → rejoined tr.stride.toNat v e = v e0.toEnc := by
    intro α v f hv
    rw [(st_rejoined v f hv _ g3).1, hv _ _ g1, List.map_map]
    exact congrArg _ hk
  exact ⟨fin _ _ fun _ _ h => h.1, fin _ _ fun _ _ h => h.2.2.1, fin _ _ fun _ _ h => h.2.2.2.1, fin _ _ fun _ _ h => h.2.2.2.2.1,
    fin _ _ fun _ _ h => h.2.1, fin _ _ fun _ _ h => h.2.2.2.2.2.1, fin _ _ fun _ _ h => h.2.2.2.2.2.2⟩

/-- **C128** The same from the left, where the windows repeat one entry more than the stride. -/
theorem C128_left {P : Platform} {t : Tokenizer} {w : WStr} {b : Bool} {e e0 : Encoding} {tr : Truncation} (h1 : t.truncation = some tr)
    (h2 : t.postProcessor = none) (h3 : t.padding = none) (hi : IsInt tr.maxLength ∧ IsInt tr.stride) (hd : tr.direction = .left)
    (hs : 0 ≤ tr.stride ∧ tr.stride < tr.maxLength - 1) (h : (t.encode P w b).1 = .ok e)
    (h0 : ((bareOf t).encode P w b).1 = .ok e0) (hn : IsInt e0.ids.length) :
    let k := tr.stride.toNat + 1
    rejoinedLeft k (·.ids) e = e0.ids ∧ rejoinedLeft k (·.tokens) e = e0.tokens ∧ rejoinedLeft k (·.words) e = e0.words ∧
    rejoinedLeft k (·.offsets) e = e0.offsets ∧ rejoinedLeft k (·.typeIds) e = e0.typeIds ∧
    rejoinedLeft k (·.specialTokensMask) e = e0.specialTokensMask ∧ rejoinedLeft k (·.attentionMask) e = e0.attentionMask := by
  obtain ⟨rows, ws, g1, g2, g3⟩ := st_cut h1 h2 h3 hi h h0 hn
  have key : ∃ w r, ws = w :: r ∧
      (r.map fun x => (Spec.part rows x).take ((Spec.part rows x).length - (tr.stride.toNat + 1))).reverse.flatten ++ Spec.part rows w = rows := by
    unfold Windows at g2
    simp only at g2
    by_cases hl : LeftAsIs tr rows.length
    · rw [if_pos hl] at g2
      subst g2
      exact ⟨_, [], rfl, by simp [ro_whole]⟩
    · rw [if_neg hl, hd] at g2
      obtain ⟨_, g2⟩ := g2
      have e1 : (tr.maxLength - tr.stride - 1).toNat = tr.maxLength.toNat - tr.stride.toNat - 1 := by omega
      rw [e1] at g2
      unfold LeftAsIs at hl
      obtain ⟨w, r, k1, _, k2⟩ := st_left rows (by omega) g2 (by omega) (Nat.le_refl _)
      exact ⟨w, r, k1, by simpa using k2⟩
  obtain ⟨w, r, rfl, hk⟩ := key
  have fin : ∀ {α : Type} (v : Enc → List α) (f : Row → α), (∀ x rows, HasRows x rows → v x = rows.map f) → rejoinedLeft (tr.stride.toNat + 1) v e = v e0.toEnc := by
    intro α v f hv
    rw [(st_rejoined v f hv _ g3).2, hv _ _ g1, List.map_map]
    exact congrArg _ hk
  exact ⟨fin _ _ fun _ _ h => h.1, fin _ _ fun _ _ h => h.2.2.1, fin _ _ fun _ _ h => h.2.2.2.1, fin _ _ fun _ _ h => h.2.2.2.2.1,
    fin _ _ fun _ _ h => h.2.1, fin _ _ fun _ _ h => h.2.2.2.2.2.1, fin _ _ fun _ _ h => h.2.2.2.2.2.2⟩

/-! ### With special tokens and padding -/

theorem st_none : ∀ (l : List Piece) (text : List Row),
    (l.filter fun p => p.kind == b!"Sequence").length = 0 → textOnly l text = [] := by
  intro l
  induction l with
  | nil => intro text _; rfl
  | cons p l ih =>
    intro text h
    by_cases hk : p.kind = b!"Sequence"
    · simp [hk] at h
    · rw [List.filter_cons_of_neg (by simpa using hk)] at h
      simp only [textOnly, hk, if_false]
      exact ih text h

theorem st_once {α : Type} (f : Row → α) (hty : ∀ r ty, f { r with typeId := ty } = f r) : ∀ (l : List Piece) (text : List Row),
    (l.filter fun p => p.kind == b!"Sequence").length = 1 → (textOnly l text).map f = text.map f := by
  intro l
  induction l with
  | nil => intro text h; cases h
  | cons p l ih =>
    intro text h
    by_cases hk : p.kind = b!"Sequence"
    · rw [List.filter_cons_of_pos (by simpa using hk), List.length_cons] at h
      simp only [textOnly, hk, if_true]
      rw [st_none _ _ (by omega), List.append_nil]
      split
      · rw [List.map_map]; exact List.map_congr_left fun r _ => hty r _
      · rfl
    · rw [List.filter_cons_of_neg (by simpa using hk)] at h
      simp only [textOnly, hk, if_false]
      exact ih text h

theorem st_trim {α : Type} (f : Row → α) (ho : ∀ r o, f { r with offsets := o } = f r) (a : Bool) : ∀ (rows : List Row) (i : Nat),
    (contentRows (trimRows a i rows)).map f = (contentRows rows).map f := by
  intro rows
  induction rows with
  | nil => intro i; rfl
  | cons r rs ih =>
    intro i
    have := ih (i + 1)
    unfold contentRows at this ⊢
    by_cases h : r.special = 0
    · have hr := ho r (trimOffsets a i r.token r.offsets)
      rw [h] at hr
      simp [trimRows, h, this, hr]
    · simp [trimRows, h, this]

/-- What the post-processor leaves of the text in the main window. -/
theorem st_after {α : Type} (b : Bool) (f : Row → α) (hty : ∀ r ty, f { r with typeId := ty } = f r) : ∀ (l : List PostProcessor),
    (∀ single pair specials, PostProcessor.template single pair specials ∈ l → (single.filter fun p => p.kind == b!"Sequence").length = 1) →
    ((∀ r o, f { r with offsets := o } = f r) ∨ ∀ a, PostProcessor.byteLevel a true ∉ l) → ∀ (ws : List (List Row)),
    (contentRows ((rowsAfter b l ws).headD [])).map f = (contentRows (ws.headD [])).map f := by
  intro l
  induction l with
  | nil => intro _ _ ws; rfl
  | cons p l ih =>
    intro h1 h2 ws
    have h2' : (∀ r o, f { r with offsets := o } = f r) ∨ ∀ a, PostProcessor.byteLevel a true ∉ l := by
      rcases h2 with h2 | h2
      · exact Or.inl h2
      · exact Or.inr fun a ha => h2 a (List.mem_cons_of_mem _ ha)
    have := ih (fun s q x hx => h1 s q x (List.mem_cons_of_mem _ hx)) h2' (rowsStep b p ws)
    simp only [rowsAfter]
    rw [this]
    cases p with
    | seq _ => rfl
    | template s q x =>
      simp only [rowsStep, List.headD_cons]
      rw [fl_template]
      exact st_once f hty s _ (h1 s q x (by simp))
    | byteLevel a tr =>
      cases tr with
      | false => rfl
      | true =>
        rcases h2 with h2 | h2
        · cases ws with
          | nil => rfl
          | cons w ws => simp only [rowsStep, List.map_cons, List.headD_cons]; exact st_trim f h2 a w 0
        · exact absurd (List.mem_cons_self ..) (h2 a)

theorem st_entries {α : Type} {x : Enc} {rows : List Row} (h : HasRows x rows) (f : Row → α) : textEntries x (rows.map f) = (contentRows rows).map f := by
  unfold textEntries contentRows
  rw [h.2.2.2.2.2.1]
  clear h
  induction rows with
  | nil => rfl
  | cons r l ih =>
    by_cases h : r.special = 0
    · simpa [h] using ih
    · simpa [h] using ih

theorem st_main {t : Option Truncation} {rows : List Row} {ws : List (Nat × Nat)} (h : Windows t rows.length ws) :
    ((ws.map (Spec.part rows)).headD []) = mainPart t rows := by
  cases t with
  | none => cases h; simp [mainPart, ro_whole]
  | some tr =>
    unfold Windows at h
    simp only at h
    unfold mainPart
    simp only
    by_cases hl : LeftAsIs tr rows.length
    · rw [if_pos hl] at h ⊢
      subst h
      simp [ro_whole]
    · rw [if_neg hl] at h ⊢
      have hl' := hl
      unfold LeftAsIs at hl'
      cases hd : tr.direction with
      | unknown => rw [hd] at h; exact h.elim
      | right =>
        rw [hd] at h
        simp only at h ⊢
        rcases h with ⟨h1, h2⟩ | ⟨_, h2⟩
        · cases h2 with
          | over h => omega
          | last => omega
          | more => simp [Spec.part]
        · subst h2; simp [Spec.part]
      | left =>
        rw [hd] at h
        simp only at h ⊢
        obtain ⟨_, h⟩ := h
        generalize hq : rows.length = n at h hl'
        cases h with
        | over => omega
        | last => omega
        | more => simp only [List.map_cons, List.headD_cons, Spec.part]; rw [← hq, List.take_length]

/-- **C128** With special tokens and padding: where every template mentions the text once, the entries of the result that are neither special
tokens nor padding are the main window of the encoding without the three settings: the same ids, tokens and words in the same order, and the
same offsets unless a step trims them. -/
theorem C128_content {P : Platform} {t : Tokenizer} {w : WStr} {b : Bool} {e e0 : Encoding} (hS : ∀ s ∈ Specials t, s.ids.length = s.tokens.length)
    (hi : ∀ tr, t.truncation = some tr → IsInt tr.maxLength ∧ IsInt tr.stride) (hp : ∀ pp, t.postProcessor = some pp → TextOnce pp)
    (h : (t.encode P w b).1 = .ok e) (h0 : ((bareOf t).encode P w b).1 = .ok e0) (hn : IsInt e0.ids.length) :
    textEntries e.toEnc e.ids = mainPart t.truncation e0.ids ∧ textEntries e.toEnc e.tokens = mainPart t.truncation e0.tokens ∧
    textEntries e.toEnc e.words = mainPart t.truncation e0.words ∧
    ((∀ pp, t.postProcessor = some pp → TrimsNothing pp) → textEntries e.toEnc e.offsets = mainPart t.truncation e0.offsets) := by
  obtain ⟨x, y, hx, hy, z, hz, he⟩ := fl_post h
  have : x = e0 := by rw [ha_bare, hx] at h0; cases h0; rfl
  subst this
  obtain ⟨hov, rows, hrows, hzero⟩ := st_text h0
  have hx' : x = { toEnc := x.toEnc, overflowing := [] } := by cases x; cases hov; rfl
  rw [hx'] at hy
  obtain ⟨ws, g1, g2⟩ := ro_truncation t.truncation hrows (by rw [hrows.1, List.length_map] at hn; exact hn) hy hi
  obtain ⟨_, k1, g3⟩ := fl_processed hS b g2
  rw [hz] at k1; cases k1
  obtain ⟨out, p1, r1⟩ := ro_padding t.padding g3 he
  have c1 := fl_paddedAll p1
  have hm := st_main g1
  have hsub : ∀ r ∈ mainPart t.truncation rows, r.special = 0 := by
    intro r hr
    refine hzero r ?_
    unfold mainPart at hr
    split at hr
    · exact hr
    · split at hr
      · exact hr
      · split at hr
        · exact List.mem_of_mem_drop hr
        · exact List.mem_of_mem_take hr
        · exact hr
  have hcont : contentRows (mainPart t.truncation rows) = mainPart t.truncation rows := by
    unfold contentRows
    rw [List.filter_eq_self]
    intro r hr
    simp [hsub r hr]
  have hmap : ∀ {α : Type} (f : Row → α), (mainPart t.truncation rows).map f = mainPart t.truncation (rows.map f) := by
    intro α f
    unfold mainPart
    cases t.truncation with
    | none => rfl
    | some tr =>
      simp only [List.length_map]
      split
      · rfl
      · split <;> simp [List.map_take, List.map_drop]
  generalize hq : rowsAfter b (stepsIn t) (ws.map (Spec.part rows)) = mid at g3 c1 p1
  have key : ∀ {α : Type} (f : Row → α), (∀ r ty, f { r with typeId := ty } = f r) →
      ((∀ r o, f { r with offsets := o } = f r) ∨ ∀ pp, t.postProcessor = some pp → TrimsNothing pp) →
      ∃ r0, HasRows e.toEnc r0 ∧ (contentRows r0).map f = mainPart t.truncation (rows.map f) := by
    intro α f hty ho
    have ha := st_after b f hty (stepsIn t) (by
      unfold stepsIn
      cases hpp : t.postProcessor with
      | none => intro _ _ _ h; cases h
      | some pp => intro s q x hs; exact hp pp hpp s q x hs) (by
      unfold stepsIn
      rcases ho with ho | ho
      · exact Or.inl ho
      · right
        cases hpp : t.postProcessor with
        | none => intro _ h; cases h
        | some pp => exact ho pp hpp) (ws.map (Spec.part rows))
    rw [hq, hm, hcont, hmap] at ha
    cases r1 with
    | @cons _ r0 _ _ q1 _ =>
      cases c1 with
      | @cons m0 _ _ _ q2 _ =>
        refine ⟨r0, q1, ?_⟩
        rw [List.headD_cons] at ha
        rw [← q2]; exact ha
  have fin : ∀ {α : Type} (v : Enc → List α) (f : Row → α), (∀ x rows, HasRows x rows → v x = rows.map f) → (∀ r ty, f { r with typeId := ty } = f r) →
      ((∀ r o, f { r with offsets := o } = f r) ∨ ∀ pp, t.postProcessor = some pp → TrimsNothing pp) →
      textEntries e.toEnc (v e.toEnc) = mainPart t.truncation (v x.toEnc) := by
    intro α v f hv hty ho
    obtain ⟨r0, q1, q2⟩ := key f hty ho
    rw [hv _ _ q1, hv _ _ hrows, st_entries q1, q2]
  exact ⟨fin (·.ids) (·.id) (fun _ _ h => h.1) (fun _ _ => rfl) (Or.inl fun _ _ => rfl), fin (·.tokens) (·.token) (fun _ _ h => h.2.2.1) (fun _ _ => rfl) (Or.inl fun _ _ => rfl),
    fin (·.words) (·.word) (fun _ _ h => h.2.2.2.1) (fun _ _ => rfl) (Or.inl fun _ _ => rfl),
    fun ht => fin (·.offsets) (·.offsets) (fun _ _ h => h.2.2.2.2.1) (fun _ _ => rfl) (Or.inr ht)⟩

/-! ### The hypotheses are met -/

/-- Two windows that repeat one entry, without and with a template and padding. -/
example : ((bertLike (some (cut 2)) none none).encode ascii w!"playing go" true).1.map (fun e => e.ids :: e.overflowing.map (·.ids)) = .ok [[1, 2], [2, 3]] ∧
    ((bareOf (bertLike (some (cut 2)) none none)).encode ascii w!"playing go" true).1.map (·.ids) = .ok [1, 2, 3] ∧
    ((bertLike (some (cut 2)) (some sampleTemplate) (some (padTo 6))).encode ascii w!"playing go" true).1.map (·.ids) = .ok [101, 1, 2, 102, 9, 9] ∧
    ((bertLike (some ⟨.left, .longestFirst, 2, 0⟩) none none).encode ascii w!"playing go" true).1.map (fun e => e.ids :: e.overflowing.map (·.ids)) =
      .ok [[2, 3], [1, 2]] := by
  refine ⟨?_, ?_, ?_, ?_⟩ <;> decide +kernel

example : (IsInt (cut 2).maxLength ∧ IsInt (cut 2).stride) ∧ (cut 2).direction = .right ∧ (0 ≤ (cut 2).stride ∧ (cut 2).stride < (cut 2).maxLength) ∧
    TextOnce sampleTemplate ∧ TrimsNothing sampleTemplate ∧ ¬ TrimsNothing (.seq [.byteLevel true true, sampleTemplate]) ∧
    (¬ Stalls (cut 2) 3 ∧ ¬ LeftAsIs (cut 2) 3) := by
  refine ⟨by unfold IsInt; decide, rfl, by decide, ?_, ?_, ?_, by unfold Stalls; decide, by decide⟩
  · intro s q x hx
    simp only [sampleTemplate, steps, List.mem_singleton, PostProcessor.template.injEq] at hx
    obtain ⟨rfl, _, _⟩ := hx
    decide
  · intro a ha
    simp [sampleTemplate, steps] at ha
  · intro h
    exact h true (by simp [steps, stepsOf])

/-- A template that mentions the text twice. -/
def twiceTemplate : PostProcessor := .template [⟨b!"Sequence", b!"A", 0⟩, ⟨b!"Sequence", b!"A", 1⟩] [] []

/-- **C128, refuted without `TextOnce`**: a template may repeat the text. -/
theorem C128_violated : ∃ (t : Tokenizer) (w : WStr) (e e0 : Encoding), t.truncation = none ∧ (∀ s ∈ Specials t, s.ids.length = s.tokens.length) ∧
    (t.encode ascii w true).1 = .ok e ∧ ((bareOf t).encode ascii w true).1 = .ok e0 ∧ e0.ids = [1, 2, 3] ∧
    textEntries e.toEnc e.ids = [1, 2, 3, 1, 2, 3] := by
  have h1 : ((bertLike none (some twiceTemplate) none).encode ascii w!"playing go" true).1.map (fun e => textEntries e.toEnc e.ids) =
      .ok [1, 2, 3, 1, 2, 3] := by decide +kernel
  have h2 : ((bareOf (bertLike none (some twiceTemplate) none)).encode ascii w!"playing go" true).1.map (·.ids) = .ok [1, 2, 3] := by decide +kernel
  cases g1 : ((bertLike none (some twiceTemplate) none).encode ascii w!"playing go" true).1 with
  | error x => rw [g1] at h1; cases h1
  | ok e =>
    cases g2 : ((bareOf (bertLike none (some twiceTemplate) none)).encode ascii w!"playing go" true).1 with
    | error x => rw [g2] at h2; cases h2
    | ok e0 =>
      rw [g1] at h1; rw [g2] at h2
      exact ⟨_, _, e, e0, rfl, by decide +kernel, g1, g2, Except.ok.inj h2, Except.ok.inj h1⟩

end Tok
