import Verif.Spec.Throws
import Verif.Props.Absent
import Verif.Props.Batches

set_option autoImplicit false

/-!
**C117** Which exceptions can leave `encode`, `decode` and `add_tokens`, and for what reason.
-/

namespace Tok
open Tok.Spec

/-- The only exceptions the call throws are those of `S`. -/
def Only {α : Type} (S : Exn → Prop) (r : Res α) : Prop := ∀ e, r = .error (.throws e) → S e

theorem th_ok {α : Type} {S : Exn → Prop} (a : α) : Only S (.ok a : Res α) := by intro e h; cases h
theorem th_pure {α : Type} {S : Exn → Prop} (a : α) : Only S (pure a : Res α) := by intro e h; cases h
theorem th_ub {α : Type} {S : Exn → Prop} (k : UB) : Only S (.error (.ub k) : Res α) := by intro e h; cases h
theorem th_div {α : Type} {S : Exn → Prop} : Only S (.error .diverges : Res α) := by intro e h; cases h
theorem th_throws {α : Type} {S : Exn → Prop} {e : Exn} (h : S e) : Only S (.error (.throws e) : Res α) := by
  intro e' h'; cases h'; exact h

theorem th_bind {α β : Type} {S : Exn → Prop} {r : Res α} {f : α → Res β} (h : Only S r)
    (hf : ∀ a, r = .ok a → Only S (f a)) : Only S (r >>= f) := by
  intro e he
  cases r with
  | error x => exact h e (by cases he; rfl)
  | ok a => exact hf a rfl e he

theorem th_mono {α : Type} {S S' : Exn → Prop} {r : Res α} (h : Only S r) (hs : ∀ e, S e → S' e) : Only S' r :=
  fun e he => hs e (h e he)

/-- Nothing is thrown. -/
abbrev Never : Exn → Prop := fun _ => False

theorem th_never {α : Type} {S : Exn → Prop} {r : Res α} (h : Only Never r) : Only S r := th_mono h (fun _ h => h.elim)

theorem th_vecAt {α : Type} (l : List α) (i : Nat) : Only Never (vecAt l i) := by
  unfold vecAt; split
  · exact th_ok _
  · exact th_ub _

theorem th_eraseRange {α : Type} (l : List α) (a b : Nat) : Only Never (eraseRange l a b) := by
  unfold eraseRange; split
  · exact th_ok _
  · exact th_ub _

theorem th_insertAt {α : Type} (l : List α) (a : Nat) (x : List α) : Only Never (insertAt l a x) := by
  unfold insertAt; split
  · exact th_ok _
  · exact th_ub _

theorem th_slice {α : Type} (l : List α) (a b : Nat) : Only Never (slice l a b) := by
  unfold slice; split
  · exact th_ok _
  · exact th_ub _

theorem th_toString (w : WStr) : Only (fun e => e = .rangeError ∧ ¬ Scalars w) (convertToString w) := by
  intro e h
  have := (C02_to_string_throws_iff w).2 _ h
  cases this
  refine ⟨rfl, fun hs => ?_⟩
  rw [convertToString_ok_iff.2 ⟨hs, rfl⟩] at h
  cases h

theorem th_fromString (s : Str) : Only (fun e => e = .rangeError ∧ IllFormed s) (convertFromString s) := by
  intro e h
  have := (C02_from_string_throws_iff s).2 _ h
  cases this
  exact ⟨rfl, (C02_from_string_throws_iff s).1.1 h⟩

/-! ### Normalizers -/

theorem th_transform (s : NS) (i : Nat) (op : TOp) (n : Nat) (h : op = .replace → n ≠ 0) : Only Never (s.transform i op n) := by
  unfold NS.transform
  refine th_bind (th_vecAt _ _) fun p _ => ?_
  cases op with
  | erase =>
    refine th_bind (th_eraseRange _ _ _) fun _ _ => th_bind (th_eraseRange _ _ _) fun _ _ => th_pure _
  | pad => exact th_bind (th_vecAt _ _) fun _ _ => th_bind (th_insertAt _ _ _) fun _ _ => th_pure _
  | grow => exact th_pure _
  | shrink => exact th_pure _
  | add => exact th_bind (th_vecAt _ _) fun _ _ => th_bind (th_insertAt _ _ _) fun _ _ => th_pure _
  | replace =>
    refine th_bind (th_vecAt _ _) fun _ _ => ?_
    simp only [h rfl, if_false]
    exact th_bind (th_insertAt _ _ _) fun _ _ => th_pure _

theorem th_transformRange (s : NS) (a b : Nat) (sub : NS) : Only Never (s.transformRange a b sub) := by
  unfold NS.transformRange
  refine th_bind (th_vecAt _ _) fun _ _ => ?_
  simp only
  split
  all_goals
    refine th_bind (th_vecAt _ _) fun _ _ => ?_
    split
    · exact th_ub _
    · split
      · exact th_bind (th_ok _) fun _ _ => th_bind (th_eraseRange _ _ _) fun _ _ => th_bind (th_insertAt _ _ _) fun _ _ => th_pure _
      · exact th_bind (th_vecAt _ _) fun _ _ => th_bind (th_ok _) fun _ _ => th_bind (th_eraseRange _ _ _) fun _ _ =>
          th_bind (th_insertAt _ _ _) fun _ _ => th_pure _

theorem th_applyGrow (l : List Nat) : ∀ (m : Nat) (s : NS), Only Never (applyGrow l m s) := by
  induction l with
  | nil => intro m s; exact th_ok _
  | cons i r ih => intro m s; exact th_bind (th_transform _ _ _ _ (by simp)) fun _ _ => ih _ _

theorem th_applyPad (l : List Nat) : ∀ (m : Nat) (s : NS), Only Never (applyPad l m s) := by
  induction l with
  | nil => intro m s; exact th_ok _
  | cons i r ih => intro m s; exact th_bind (th_transform _ _ _ _ (by simp)) fun _ _ => ih _ _

theorem th_applyShrink (l : List Nat) : ∀ (m : Nat) (s : NS), Only Never (applyShrink l m s) := by
  induction l with
  | nil => intro m s; exact th_ok _
  | cons i r ih => intro m s; exact th_bind (th_transform _ _ _ _ (by simp)) fun _ _ => ih _ _

theorem th_applyReplace (n : Nat) (hn : n ≠ 0) (l : List Nat) : ∀ (m k : Nat) (s : NS), Only Never (applyReplace l m k n s) := by
  induction l with
  | nil => intro m k s; exact th_ok _
  | cons i r ih => intro m k s; exact th_bind (th_transform _ _ _ _ (fun _ => hn)) fun _ _ => ih _ _ _

theorem th_cleanLoop (P : Platform) (w : WStr) : ∀ (i : Nat) (acc : WStr) (s : NS), Only Never (cleanLoop P w i acc s) := by
  induction w with
  | nil => intro i acc s; exact th_ok _
  | cons c r ih =>
    intro i acc s
    unfold cleanLoop
    split
    · exact ih _ _ _
    · exact th_bind (th_transform _ _ _ _ (by simp)) fun _ _ => ih _ _ _

theorem th_overwriteAll (l : List (Nat × Nat)) (c : Nat) : ∀ (w : WStr), Only Never (overwriteAll l c w) := by
  induction l with
  | nil => intro w; exact th_ok _
  | cons p r ih =>
    intro w
    obtain ⟨p, q⟩ := p
    unfold overwriteAll
    split
    · exact ih _
    · exact th_ub _

theorem th_nf (P : Platform) (k : NFKind) (s : NS) : Only Never (nfNormalize P k s) :=
  th_bind (th_applyGrow _ _ _) fun _ _ => th_pure _

theorem th_chinese (s : NS) : Only Never (doHandleChineseChars s) := by
  refine th_bind (th_applyPad _ _ _) fun s' h => ?_
  rw [applyPad_text h]
  have := replay_value s.normalized []
  simp only [List.length_nil, List.nil_append] at this
  rw [this]
  exact th_bind (th_ok _) fun _ _ => th_pure _

theorem th_bert (P : Platform) (a b c d : Bool) (s : NS) : Only Never (bertNormalize P a b c d s) := by
  rw [bertNormalize_eq]
  have h1 : ∀ s, Only Never (doCleanText P s) := fun s => th_bind (th_cleanLoop _ _ _ _ _) fun _ _ => th_pure _
  have h2 : ∀ s, Only Never (doStripAccents P s) := fun s => th_bind (th_nf _ _ _) fun _ _ => th_bind (th_applyShrink _ _ _) fun _ _ => th_pure _
  have k : ∀ (x : Bool) (f : NS → Res NS), (∀ s, Only Never (f s)) → ∀ s, Only Never (if x = true then f s else Except.ok s) := by
    intro x f hf s; split
    · exact hf s
    · exact th_ok _
  refine th_bind (k _ _ h1 _) fun _ _ => th_bind (k _ _ th_chinese _) fun _ _ => th_bind (k _ _ h2 _) fun _ _ => ?_
  exact th_pure _

/-- What a normalizer throws. -/
def NormThrows (P : Platform) (n : Normalizer) (e : Exn) : Prop :=
  (e = .rangeError ∧ ∃ k, NormStep n k ∧ Spoils P k) ∨
  (e = .regexError ∧ ∃ p c v, NormStep n (.replace p c) ∧ Utf8Text v p ∧ P.wregex v = none)

theorem th_one {P : Platform} {s : Str} {n : Normalizer} (h : IllFormed s → Spoils P n) :
    Only (NormThrows P n) (convertFromString s) :=
  th_mono (th_fromString s) fun _ ⟨e, i⟩ => .inl ⟨e, n, .self n, h i⟩

mutual
theorem th_normalizer (P : Platform) : (n : Normalizer) → (s : NS) → Only (NormThrows P n) (n.run P s)
  | .bert a b c d, s => th_never (th_bert P a b c d s)
  | .prepend p, s => by
    unfold Normalizer.run
    exact th_bind (th_one fun h => h) fun _ _ => th_bind (th_never (th_transform _ _ _ _ (by simp))) fun _ _ => th_pure _
  | .replace p c, s => by
    unfold Normalizer.run
    unfold replaceNormalize
    refine th_bind (th_one fun h => .inl h) fun v hv => ?_
    split
    · rename_i hr
      exact th_throws (.inr ⟨rfl, p, c, v, .self _, (C02_from_string_iff p v).1 hv, hr⟩)
    · refine th_bind (th_one fun h => .inr h) fun x hx => ?_
      split
      · exact th_pure _
      · refine th_bind (th_never (th_overwriteAll _ _ _)) fun _ _ => ?_
        refine th_never (th_applyReplace _ ?_ _ _ _ _)
        intro h0
        have : c = [] := List.eq_nil_of_length_eq_zero h0
        subst this
        cases hx
      · exact th_ub _
  | .nf k, s => th_never (th_nf P k s)
  | .strip _ _, s => th_ok _
  | .stripAccents, s => th_ok _
  | .seq l, s => by
    unfold Normalizer.run
    exact th_mono (th_normalizers P l s) fun e ⟨n, hn, h⟩ => by
      rcases h with ⟨h1, k, h2, h3⟩ | ⟨h1, p, c, v, h2, h3⟩
      · exact .inl ⟨h1, k, .inside hn h2, h3⟩
      · exact .inr ⟨h1, p, c, v, .inside hn h2, h3⟩
theorem th_normalizers (P : Platform) : (l : List Normalizer) → (s : NS) →
    Only (fun e => ∃ n ∈ l, NormThrows P n e) (Normalizer.runList P l s)
  | [], s => th_ok _
  | n :: r, s => by
    unfold Normalizer.runList
    refine th_bind (th_mono (th_normalizer P n s) fun e h => ⟨n, by simp, h⟩) fun s' _ => ?_
    exact th_mono (th_normalizers P r s') fun e ⟨m, hm, h⟩ => ⟨m, by simp [hm], h⟩
end

/-! ### Text that stays text -/

theorem th_cleaned {d s : Nat → Prop} {w w' : WStr} (h : Cleaned d s w w') : Scalars w → Scalars w' := by
  induction h with
  | nil => exact id
  | dropped _ _ ih => intro h; exact ih (Scalars.cons.1 h).2
  | spaced _ _ _ ih => intro h; exact Scalars.cons.2 ⟨by decide, ih (Scalars.cons.1 h).2⟩
  | kept _ _ _ ih => intro h; exact Scalars.cons.2 ⟨(Scalars.cons.1 h).1, ih (Scalars.cons.1 h).2⟩

theorem th_padded {w w' : WStr} (h : CjkPadded w w') : Scalars w → Scalars w' := by
  induction h with
  | nil => exact id
  | cjk _ _ ih =>
    intro h
    exact Scalars.cons.2 ⟨by decide, Scalars.cons.2 ⟨(Scalars.cons.1 h).1, Scalars.cons.2 ⟨by decide, ih (Scalars.cons.1 h).2⟩⟩⟩
  | other _ _ ih => intro h; exact Scalars.cons.2 ⟨(Scalars.cons.1 h).1, ih (Scalars.cons.1 h).2⟩

theorem th_form {P : Platform} {k : NFKind} (h : ¬ BadForm P k) {w : WStr} (hw : Scalars w) : Scalars (P.nf k (w.map sanitize)) := by
  rw [map_sanitize hw]
  refine scalars_iff.1 fun c hc => Classical.byContradiction fun hn => h ⟨w, scalars_iff.2 hw, c, hc, hn⟩

mutual
theorem th_keeps (P : Platform) : (n : Normalizer) → {w w' : WStr} → NormalizesTo P n w w' →
    (∀ k, NormStep n k → ¬ Spoils P k) → Scalars w → Scalars w'
  | .bert a b c d, w, w', h, hk, hw => by
    cases h with
    | bert h =>
      obtain ⟨x, y, z, h1, h2, h3, h4⟩ := h
      have hx : Scalars x := by
        cases a with
        | true => exact th_cleaned h1 hw
        | false => simp only [Bool.false_eq_true, if_false] at h1; subst h1; exact hw
      have hy : Scalars y := by
        cases b with
        | true => exact th_padded h2 hx
        | false => simp only [Bool.false_eq_true, if_false] at h2; subst h2; exact hx
      have no := hk _ (.self _)
      have hz : Scalars z := by
        by_cases e : (c || d) = true
        · rw [if_pos e] at h3
          have : ¬ BadForm P .nfd := fun hb => no (.inl ⟨by simpa using e, hb⟩)
          have := th_form this hy
          rw [h3]
          intro x hx
          exact this x (List.mem_filter.1 hx).1
        · rw [if_neg e] at h3; subst h3; exact hy
      cases d with
      | false => simp only [Bool.false_eq_true, if_false] at h4; subst h4; exact hz
      | true =>
        simp only [if_true] at h4
        subst h4
        refine scalars_iff.1 fun c hc => ?_
        obtain ⟨u, hu, rfl⟩ := List.mem_map.1 hc
        exact Classical.byContradiction fun hn => no (.inr ⟨rfl, u, scalars_iff.2 hz u hu, hn⟩)
  | .prepend p, w, w', h, hk, hw => by
    cases h with
    | prepend h => exact Scalars.append.2 ⟨(utf8Text_iff.1 h).1, hw⟩
  | .replace p c, w, w', h, hk, hw => by
    cases h with
    | unmatched _ _ _ => exact hw
    | @replaced _ _ c v w w' find _ _ _ h4 h5 h6 =>
      intro x hx
      obtain ⟨i, hi⟩ := List.mem_iff_getElem?.1 hx
      by_cases hm : ∃ m ∈ find w, m.1 = i
      · rw [(h6 i).1 hm] at hi
        cases hi
        exact (utf8Text_iff.1 h4).1 _ (by simp)
      · rw [(h6 i).2 hm] at hi
        exact hw x (List.mem_iff_getElem?.2 ⟨i, hi⟩)
  | .nf k, w, w', h, hk, hw => by
    cases h with
    | nf => exact th_form (hk _ (.self _)) hw
  | .strip l r, w, w', h, hk, hw => by
    cases h with
    | strip h =>
      obtain ⟨a, b, rfl, _⟩ := h
      exact (Scalars.append.1 (Scalars.append.1 hw).1).2
  | .stripAccents, w, w', h, hk, hw => by
    cases h with
    | stripAccents h => exact th_cleaned h hw
  | .seq l, w, w', h, hk, hw => by
    cases h with
    | seq h => exact th_keep_all P l h (fun n hn k h => hk k (.inside hn h)) hw
theorem th_keep_all (P : Platform) : (l : List Normalizer) → {w w' : WStr} → NormalizesAll P l w w' →
    (∀ n ∈ l, ∀ k, NormStep n k → ¬ Spoils P k) → Scalars w → Scalars w'
  | [], w, w', h, hk, hw => by cases h; exact hw
  | n :: l, w, w', h, hk, hw => by
    cases h with
    | cons h1 h2 =>
      exact th_keep_all P l h2 (fun n hn => hk n (by simp [hn])) (th_keeps P n h1 (hk n (by simp)) hw)
end

/-! ### Added tokens -/

theorem th_substrFrom {s : Str} {p : Nat} (h : p ≤ s.length) : substrFrom s p = .ok (s.drop p) := by
  unfold substrFrom; rw [if_pos h]

/-- The segments lie in the text, and nothing is thrown, if no token with `rstrip` is found or bytes are units. -/
theorem th_segs (mapR : List (Int × AddedToken)) (s : Str) (total : Nat) (hl : total ≤ s.length) (ms : List (Nat × Nat × Int)) :
    ∀ o, Only Never (matchSegs mapR s total ms o) ∨ ¬ (∀ m ∈ ms, m.1 ≤ total ∧ m.2.1 ≤ total) := by
  induction ms with
  | nil => intro o; exact .inl (th_ok _)
  | cons m r ih =>
    intro o
    obtain ⟨a, b, i⟩ := m
    by_cases h : ∀ m ∈ (a, b, i) :: r, m.1 ≤ total ∧ m.2.1 ≤ total
    · left
      have hr : ∀ o, Only Never (matchSegs mapR s total r o) := fun o =>
        (ih o).resolve_right fun k => k fun m hm => h m (by simp [hm])
      have hb : b ≤ s.length := Nat.le_trans (h (a, b, i) (by simp)).2 hl
      unfold matchSegs
      obtain ⟨x, hx⟩ := wordOk_ok ((mapFind mapR i).getD {}) s a b hb
      simp only [hx, res_ok_bind]
      split
      · split
        · rw [th_substrFrom hb]
          exact th_bind (th_ok _) fun _ _ => th_bind (th_pure _) fun _ _ => th_bind (hr _) fun _ _ => th_pure _
        · exact th_bind (th_pure _) fun _ _ => th_bind (hr _) fun _ _ => th_pure _
      · exact hr _
    · exact .inr h

theorem th_leftmost (s : Str) (k : Nat) : spaceLeftmostAtEnd (s.take k) ≤ k := by
  unfold spaceLeftmostAtEnd
  have := List.length_take_le k s
  omega

theorem th_starts (mapR : List (Int × AddedToken)) (s : Str) (total : Nat) (hl : total ≤ s.length) (ms : List (Nat × Nat × Int))
    (h : ∀ m ∈ ms, m.1 ≤ total ∧ m.2.1 ≤ total ∧ (((mapFind mapR m.2.2).getD {}).rstrip = true → s.length = total)) :
    ∀ o segs, o ≤ total → matchSegs mapR s total ms o = .ok segs → ∀ g ∈ segs, g.2.1 ≤ total := by
  induction ms with
  | nil =>
    intro o segs ho hs g hg
    simp only [matchSegs, Except.ok.injEq] at hs
    subst hs
    split at hg
    · rw [List.mem_singleton.1 hg]; exact ho
    · cases hg
  | cons m r ih =>
    intro o segs ho hs g hg
    obtain ⟨a, b, i⟩ := m
    obtain ⟨h1, h2, h3⟩ := h (a, b, i) (by simp)
    simp only at h1 h2 h3
    have hr := ih (fun m hm => h m (by simp [hm]))
    have hb : b ≤ s.length := Nat.le_trans h2 hl
    unfold matchSegs at hs
    obtain ⟨x, hx⟩ := wordOk_ok ((mapFind mapR i).getD {}) s a b hb
    simp only [hx, res_ok_bind] at hs
    have hst : (if ((mapFind mapR i).getD {}).lstrip = true then max (spaceLeftmostAtEnd (s.take a)) o else a) ≤ total := by
      have := th_leftmost s a
      split <;> omega
    generalize (if ((mapFind mapR i).getD {}).lstrip = true then max (spaceLeftmostAtEnd (s.take a)) o else a) = st at hs hst
    split at hs
    · split at hs
      · rename_i hrs
        rw [th_substrFrom hb] at hs
        simp only [res_ok_bind, res_pure] at hs
        obtain ⟨rest, hm, hs⟩ := res_bind_ok.1 hs
        have hsp : b + spaceRightmostAtStart (s.drop b) ≤ total := by
          have := takeWhile_length_le' isspaceC (s.drop b)
          unfold spaceRightmostAtStart
          simp only [List.length_drop] at this
          have := h3 hrs
          omega
        cases hs
        rcases List.mem_append.1 hg with hg | hg
        · split at hg
          · rw [List.mem_singleton.1 hg]; exact ho
          · cases hg
        · rcases List.mem_cons.1 hg with rfl | hg
          · exact hst
          · exact hr _ _ hsp hm g hg
      · simp only [res_ok_bind, res_pure] at hs
        obtain ⟨rest, hm, hs⟩ := res_bind_ok.1 hs
        cases hs
        rcases List.mem_append.1 hg with hg | hg
        · split at hg
          · rw [List.mem_singleton.1 hg]; exact ho
          · cases hg
        · rcases List.mem_cons.1 hg with rfl | hg
          · exact hst
          · exact hr _ _ h2 hm g hg
    · exact hr _ _ ho hs g hg

theorem th_segSplits {w : WStr} (hw : Scalars w) (base : Nat) (segs : List TSeg) :
    Only (fun e => e = .outOfRange ∧ ∃ g ∈ segs, w.length < g.2.1) (segSplits w base segs) := by
  induction segs with
  | nil => exact th_ok _
  | cons g r ih =>
    obtain ⟨id, a, b⟩ := g
    unfold segSplits
    refine th_bind ?_ fun x hx => ?_
    · unfold wsubstr
      split
      · exact th_ok _
      · exact th_throws ⟨rfl, _, List.mem_cons_self, by simp only; omega⟩
    · have : Scalars x := by
        obtain ⟨p, q, rfl⟩ := ab_wsubstr hx
        exact (Scalars.append.1 (Scalars.append.1 hw).1).2
      rw [convertToString_ok_iff.2 ⟨this, rfl⟩]
      refine th_bind (th_ok _) fun _ _ => th_bind ?_ fun _ _ => th_pure _
      exact th_mono ih fun e ⟨h1, g, h2, h3⟩ => ⟨h1, g, by simp [h2], h3⟩

theorem th_scan_nil (u rest : U16) : ∀ i cur, scan (wordIds []) u rest i cur = [] := by
  have : ∀ k, mapFind (wordIds []) k = none := fun _ => rfl
  induction rest with
  | nil => intro i cur; simp [scan, this]
  | cons c r ih => intro i cur; simp [scan, this, ih]

/-- Cutting a text at the tokens of a table. -/
theorem th_cut {w : WStr} (hw : Scalars w) (a : AddedVocab) (T : List (Str × Int)) (base : Nat) :
    Only (fun e => e = .outOfRange ∧ T ≠ [] ∧ Misleads a w)
      (do segSplits w base (← (a.findMatches (utf8 w) T).1)) := by
  have hlen : (utf16 w).length ≤ (utf8 w).length := at_units_le hw
  simp only [AddedVocab.findMatches, fromUTF8_utf8 hw]
  have ho := scan_ordered (wordIds T) (utf16 w) (utf16 w) 0 0 (by omega) (by simp) 0 (by omega)
  have hin : ∀ m ∈ scan (wordIds T) (utf16 w) (utf16 w) 0 0, m.1 ≤ (utf16 w).length ∧ m.2.1 ≤ (utf16 w).length := by
    intro m hm
    have := Ordered.mem ho (m.1, m.2.1) (List.mem_map.2 ⟨m, hm, rfl⟩)
    simp only at this
    omega
  refine th_bind (th_never ((th_segs _ _ _ hlen _ _).resolve_right fun k => k hin)) fun segs hs => ?_
  refine th_mono (th_segSplits hw base segs) fun e ⟨he, g, hg, hgl⟩ => ⟨he, ?_, ?_⟩
  · rintro rfl
    rw [th_scan_nil] at hs
    simp only [matchSegs, Except.ok.injEq] at hs
    subst hs
    split at hg
    · rw [List.mem_singleton.1 hg] at hgl; simp at hgl
    · cases hg
  · refine Classical.byContradiction fun hm => ?_
    have hb : Bmp w := fun c hc => Classical.byContradiction fun hn => hm (.inl ⟨c, hc, Nat.le_of_not_lt fun hlt => hn ⟨scalars_iff.2 hw c hc, hlt⟩⟩)
    have hl : (utf16 w).length = w.length := by rw [utf16_bmp hb]
    have := th_starts a.mapR (utf8 w) (utf16 w).length hlen _ (fun m hm' => ⟨(hin m hm').1, (hin m hm').2, fun hr => ?_⟩) 0 segs (by omega) hs g hg
    · omega
    · have hx : ∃ i x, mapFind a.mapR i = some x ∧ x.rstrip = true := by
        cases hf : mapFind a.mapR m.2.2 with
        | none => rw [hf] at hr; cases hr
        | some x => rw [hf] at hr; exact ⟨_, x, hf, hr⟩
      have ha : Ascii w := fun c hc => Classical.byContradiction fun hn => hm (.inr ⟨⟨c, hc, by omega⟩, hx⟩)
      rw [utf8_ascii ha, hl]

/-- What the search for added tokens and the normalization throw. -/
def ExtractThrows (P : Platform) (norm : Option Normalizer) (a : AddedVocab) (w : WStr) (e : Exn) : Prop :=
  (e = .rangeError ∧ ∃ n k, norm = some n ∧ NormStep n k ∧ Spoils P k) ∨
  (e = .regexError ∧ ∃ n p c v, norm = some n ∧ NormStep n (.replace p c) ∧ Utf8Text v p ∧ P.wregex v = none) ∨
  (e = .outOfRange ∧ (a.nonNormTrie ≠ [] ∧ Misleads a w ∨
    a.normTrie ≠ [] ∧ ∃ p y q n, w = p ++ y ++ q ∧ Normalizes P norm y n ∧ Misleads a n))

theorem th_misleads {a a' : AddedVocab} (h : Touched a a') {w : WStr} (hm : Misleads a' w) : Misleads a w := by
  rcases hm with hm | ⟨h1, i, x, h2, h3⟩
  · exact .inl hm
  · refine .inr ⟨h1, i, x, ?_, h3⟩
    rcases h.new i x h2 with h4 | ⟨_, rfl, _⟩
    · exact h4
    · cases h3

theorem th_err {α β : Type} {S : Exn → Prop} {x : Err} (h : Only S (.error x : Res α)) : Only S (.error x : Res β) := by
  intro e he; exact h e (by cases he; rfl)

theorem th_first {w : WStr} (hw : Scalars w) (a : AddedVocab) :
    Only (fun e => e = .outOfRange ∧ a.nonNormTrie ≠ [] ∧ Misleads a w) (a.firstSplits w).1 := by
  unfold AddedVocab.firstSplits
  have hs : convertToString w = .ok (utf8 w) := convertToString_ok_iff.2 ⟨hw, rfl⟩
  have hp : ∃ p, PTS.ofNS (NS.ofText w) = .ok p := ⟨_, by
    unfold PTS.ofNS; simp only [NS.ofText, hs]; rfl⟩
  obtain ⟨p, hp⟩ := hp
  simp only [hp, hs]
  have := th_cut hw a a.nonNormTrie 0
  intro e he
  refine this e ?_
  generalize (a.findMatches (utf8 w) a.nonNormTrie).1 = r at he ⊢
  cases r with
  | error x => cases he; rfl
  | ok segs =>
    simp only [res_ok_bind] at he ⊢
    generalize segSplits w 0 segs = r at he ⊢
    cases r with
    | error x => cases he; rfl
    | ok l => cases he

theorem th_split (P : Platform) (norm : Option Normalizer) {a a' : AddedVocab} (ht : Touched a a') {w : WStr} (ns : NS) (ending : Nat) {s : Split}
    (hs : ∃ p y q, w = p ++ y ++ q ∧ Scalars y ∧ s.normalized = utf8 y) :
    Only (ExtractThrows P norm a w) (normalizeSplit P norm a' ns ending s).1 := by
  obtain ⟨p, y, q, hw, hy, hs⟩ := hs
  unfold normalizeSplit
  simp only [hs, convertFromString_utf8 hy, res_ok_bind]
  have hnorm : Only (ExtractThrows P norm a w) (normalizeOpt P norm (NS.ofText y)) := by
    cases hn : norm with
    | none => exact th_ok _
    | some n =>
      refine th_mono (th_normalizer P n _) fun e he => ?_
      rcases he with ⟨h1, k, h2⟩ | ⟨h1, p, c, v, h2⟩
      · exact .inl ⟨h1, n, k, rfl, h2⟩
      · exact .inr (.inl ⟨h1, n, p, c, v, rfl, h2⟩)
  cases hr : normalizeOpt P norm (NS.ofText y) with
  | error x =>
    intro e he
    simp only [res_error_bind] at he
    exact hnorm e (by rw [hr]; cases he; rfl)
  | ok sub =>
    have hn := pl_normalizes P norm y sub hr
    simp only [res_ok_bind]
    by_cases hc : ending + s.offsets.2 < s.offsets.1
    · simp only [hc, if_true]; exact th_ub _
    · simp only [hc, if_false]
      have ht' := th_transformRange ns ending (ending + s.offsets.2 - s.offsets.1) sub
      cases hr2 : ns.transformRange ending (ending + s.offsets.2 - s.offsets.1) sub with
      | error x =>
        intro e he
        simp only [res_error_bind] at he
        exact (ht' e (by rw [hr2]; cases he; rfl)).elim
      | ok ns' =>
        simp only [res_ok_bind]
        by_cases hsub : Scalars sub.normalized
        · rw [convertToString_ok_iff.2 ⟨hsub, rfl⟩]
          simp only [res_ok_bind, res_pure]
          have hcut := th_cut hsub a' a'.normTrie ending
          intro e he
          have : (do segSplits sub.normalized ending (← (a'.findMatches (utf8 sub.normalized) a'.normTrie).1)) = .error (.throws e) := by
            generalize (a'.findMatches (utf8 sub.normalized) a'.normTrie).1 = r at he ⊢
            cases r with
            | error x => cases he; rfl
            | ok segs =>
              simp only [res_ok_bind] at he ⊢
              generalize segSplits sub.normalized ending segs = r at he ⊢
              cases r with
              | error x => cases he; rfl
              | ok l => cases he
          obtain ⟨h1, h2, h3⟩ := hcut e this
          rw [congrArg AddedVocab.normTrie ht.same] at h2
          exact .inr (.inr ⟨h1, .inr ⟨h2, p, y, q, _, hw, hn, th_misleads ht h3⟩⟩)
        · have hsp : ∃ n k, norm = some n ∧ NormStep n k ∧ Spoils P k := by
            cases hno : norm with
            | none => rw [hno] at hn; cases (show sub.normalized = y from hn); exact absurd hy hsub
            | some n =>
              rw [hno] at hn
              refine Classical.byContradiction fun hx => hsub (th_keeps P n hn (fun k hk hk' => hx ⟨n, k, rfl, hk, hk'⟩) hy)
          have hts := th_toString sub.normalized
          cases hcs : convertToString sub.normalized with
          | ok x => exact absurd (convertToString_ok_iff.1 hcs).1 hsub
          | error x =>
            simp only [res_error_bind]
            intro e he
            have := hts e (by rw [hcs]; cases he; rfl)
            exact .inl ⟨this.1, hsp⟩

theorem th_loop (P : Platform) (norm : Option Normalizer) {a : AddedVocab} {w : WStr} (l : List Split) :
    ∀ {a' : AddedVocab}, Touched a a' → ∀ (ns : NS) (ending : Nat),
      (∀ s ∈ l, ∃ p y q, w = p ++ y ++ q ∧ Scalars y ∧ s.normalized = utf8 y) →
      Only (ExtractThrows P norm a w) (normalizeLoop P norm a' ns ending l).1 := by
  induction l with
  | nil => intro a' _ ns ending _; exact th_ok _
  | cons s r ih =>
    intro a' ht ns ending hl
    have hr := fun s hs => hl s (List.mem_cons_of_mem _ hs)
    simp only [normalizeLoop]
    split
    · have := ih ht ns (ending + s.normalized.length) hr
      generalize normalizeLoop P norm a' ns (ending + s.normalized.length) r = R at this
      obtain ⟨x, b⟩ := R
      cases x with
      | error e => exact th_err this
      | ok x => exact th_ok _
    · have h1 := th_split P norm ht ns ending (hl s List.mem_cons_self)
      have h2 := normalizeSplit_touched P norm a' ns ending s
      generalize normalizeSplit P norm a' ns ending s = R at h1 h2
      obtain ⟨x, b⟩ := R
      cases x with
      | error e => exact th_err h1
      | ok x =>
        obtain ⟨ns', here, n⟩ := x
        have := ih (ht.trans h2) ns' (ending + n) hr
        simp only
        generalize normalizeLoop P norm b ns' (ending + n) r = R at this
        obtain ⟨x, c⟩ := R
        cases x with
        | error e => exact th_err this
        | ok x => exact th_ok _

theorem th_extract (P : Platform) (norm : Option Normalizer) (a : AddedVocab) {w : WStr} (hw : Scalars w) :
    Only (ExtractThrows P norm a w) (a.extract P norm w).1 := by
  unfold AddedVocab.extract
  have h1 := th_first hw a
  have h2 := firstSplits_touched a w
  have h3 := fun p => ab_first_splits (a := a) (w := w) (p := p)
  generalize a.firstSplits w = R at h1 h2 h3
  obtain ⟨x, b⟩ := R
  cases x with
  | error e => exact th_mono (th_err h1) fun e ⟨h4, h5⟩ => .inr (.inr ⟨h4, .inl h5⟩)
  | ok p =>
    have := th_loop P norm p.splits h2 p.normalized 0 (w := w) (fun s hs => by
      obtain ⟨x, y, z, h4, h5⟩ := h3 p rfl s hs
      obtain ⟨h6, h7⟩ := convertToString_ok_iff.1 h5
      exact ⟨x, y, z, h4, h6, h7⟩)
    simp only
    generalize normalizeLoop P norm b p.normalized 0 p.splits = R at this
    obtain ⟨x, c⟩ := R
    cases x with
    | error e => exact th_err this
    | ok x => exact th_ok _

/-! ### Pre-tokenizers -/

/-- All texts consist of bytes. -/
def InBytesOnly (l : List Split) : Prop := ∀ s ∈ l, ∀ b ∈ s.normalized, b < 256

theorem th_bytes_toString {w : WStr} {s : Str} (h : convertToString w = .ok s) : ∀ b ∈ s, b < 256 := by
  obtain ⟨hw, rfl⟩ := convertToString_ok_iff.1 h
  exact utf8_bytes hw

theorem th_bytes_segs {w : WStr} (base : Nat) (segs : List TSeg) {out : List Split} (h : segSplits w base segs = .ok out) :
    InBytesOnly out := by
  intro s hs
  obtain ⟨_, _, _, _, h2⟩ := ab_segSplits base segs h s hs
  exact th_bytes_toString h2

theorem th_bytes_split (P : Platform) (norm : Option Normalizer) (a : AddedVocab) (ns : NS) (e : Nat) (s : Split) {x : NS × List Split × Nat}
    (h : (normalizeSplit P norm a ns e s).1 = .ok x) : InBytesOnly x.2.1 := by
  unfold normalizeSplit at h
  simp only at h
  split at h
  · cases h
  · simp only at h
    obtain ⟨segs, _, h⟩ := res_bind_ok.1 h
    obtain ⟨out, h1, h⟩ := res_bind_ok.1 h
    cases h
    exact th_bytes_segs _ _ h1

theorem th_bytes_loop (P : Platform) (norm : Option Normalizer) (l : List Split) : ∀ (a : AddedVocab) (ns : NS) (e : Nat) {x : NS × List Split},
    InBytesOnly l → (normalizeLoop P norm a ns e l).1 = .ok x → InBytesOnly x.2 := by
  induction l with
  | nil => intro a ns e x _ h; simp only [normalizeLoop, Except.ok.injEq] at h; subst h; exact fun _ h => nomatch h
  | cons s r ih =>
    intro a ns e x hl h
    have hr : InBytesOnly r := fun s hs => hl s (List.mem_cons_of_mem _ hs)
    simp only [normalizeLoop] at h
    split at h
    · have := fun x => ih a ns (e + s.normalized.length) (x := x) hr
      generalize normalizeLoop P norm a ns (e + s.normalized.length) r = R at this h
      obtain ⟨r1, b⟩ := R
      cases r1 with
      | error _ => cases h
      | ok r1 =>
        cases h
        intro y hy
        rcases List.mem_cons.1 hy with rfl | hy
        · exact hl s List.mem_cons_self
        · exact this _ rfl y hy
    · have h1 := fun x => th_bytes_split P norm a ns e s (x := x)
      generalize normalizeSplit P norm a ns e s = R at h1 h
      obtain ⟨r1, b⟩ := R
      cases r1 with
      | error _ => cases h
      | ok r1 =>
        obtain ⟨ns', here, n⟩ := r1
        simp only at h
        have := fun x => ih b ns' (e + n) (x := x) hr
        generalize normalizeLoop P norm b ns' (e + n) r = R at this h
        obtain ⟨r2, b⟩ := R
        cases r2 with
        | error _ => cases h
        | ok r2 =>
          cases h
          intro y hy
          rcases List.mem_append.1 hy with hy | hy
          · exact h1 _ rfl y hy
          · exact this _ rfl y hy

theorem th_bytes_first {a : AddedVocab} {w : WStr} {p : PTS} (h : (a.firstSplits w).1 = .ok p) : InBytesOnly p.splits := by
  intro s hs
  obtain ⟨_, _, _, _, h2⟩ := ab_first_splits h s hs
  exact th_bytes_toString h2

theorem th_bytes_extract (P : Platform) (norm : Option Normalizer) {a : AddedVocab} {w : WStr} {p : PTS}
    (h : (a.extract P norm w).1 = .ok p) : InBytesOnly p.splits := by
  unfold AddedVocab.extract at h
  have h1 := fun p => th_bytes_first (a := a) (w := w) (p := p)
  generalize a.firstSplits w = R at h1 h
  obtain ⟨x, b⟩ := R
  cases x with
  | error e => cases h
  | ok p0 =>
    simp only at h
    have := fun x => th_bytes_loop P norm p0.splits b p0.normalized 0 (x := x) (h1 p0 rfl)
    generalize normalizeLoop P norm b p0.normalized 0 p0.splits = R at this h
    obtain ⟨r2, b⟩ := R
    cases r2 with
    | error _ => cases h
    | ok r2 =>
      cases h
      simp only
      split
      · exact h1 p0 rfl
      · exact this _ rfl

theorem th_splitNormalized (s : Split) (fn : U16 → Res (List Seg)) (b : Behavior) (hf : ∀ u, Only Never (fn u)) :
    Only Never (splitNormalized s fn b) := by
  unfold splitNormalized
  exact th_bind (hf _) fun _ _ => th_pure _

theorem th_bytes_splitNormalized {s : Split} {fn : U16 → Res (List Seg)} {b : Behavior} {l : List Split}
    (h : splitNormalized s fn b = .ok l) : InBytesOnly l := by
  unfold splitNormalized at h
  obtain ⟨ms, _, h⟩ := res_bind_ok.1 h
  cases h
  intro x hx
  obtain ⟨m, _, rfl⟩ := List.mem_map.1 hx
  simp only [toUTF8String]
  refine utf8_bytes fun c hc => ?_
  obtain ⟨d, _, rfl⟩ := List.mem_map.1 hc
  unfold sanitize
  split
  · assumption
  · decide

theorem th_splitLoop (fn : U16 → Res (List Seg)) (b : Behavior) (hf : ∀ u, Only Never (fn u)) (l : List Split) :
    Only Never (splitLoop fn b l) := by
  induction l with
  | nil => exact th_ok _
  | cons s r ih =>
    unfold splitLoop
    simp only
    split
    · exact th_bind (th_ok _) fun _ _ => th_bind ih fun _ _ => th_pure _
    · exact th_bind (th_splitNormalized s fn b hf) fun _ _ => th_bind ih fun _ _ => th_pure _

theorem th_bytes_splitLoop (fn : U16 → Res (List Seg)) (b : Behavior) (l : List Split) : ∀ {out : List Split}, InBytesOnly l →
    splitLoop fn b l = .ok out → InBytesOnly out := by
  induction l with
  | nil => intro out _ h; cases h; exact fun _ h => nomatch h
  | cons s r ih =>
    intro out hl h
    have hr : InBytesOnly r := fun s hs => hl s (List.mem_cons_of_mem _ hs)
    unfold splitLoop at h
    simp only at h
    have fin : ∀ here, InBytesOnly here → (do let rest ← splitLoop fn b r; return here ++ rest) = Except.ok out → InBytesOnly out := by
      intro here hh h
      obtain ⟨rest, h1, h⟩ := res_bind_ok.1 h
      cases h
      intro y hy
      rcases List.mem_append.1 hy with hy | hy
      · exact hh y hy
      · exact ih hr h1 y hy
    split at h
    · refine fin [s] (fun y hy => ?_) h
      rw [List.mem_singleton.1 hy]
      exact hl s List.mem_cons_self
    · obtain ⟨here, h1, h⟩ := res_bind_ok.1 h
      exact fin here (th_bytes_splitNormalized h1) h

theorem th_find (P : Platform) (pat : Str) (u : U16) : Only Never (findMatches P pat u) := by
  unfold findMatches
  split
  · exact th_ub _
  · exact th_ok _

/-- What a pre-tokenizer is given, and leaves. -/
structure Sound (w : WStr) (p : PTS) : Prop where
  text : Scalars p.normalized.normalized
  some : p.normalized.normalized = [] → w = []
  bytes : InBytesOnly p.splits

theorem th_sound_split {w : WStr} {p q : PTS} {fn : U16 → Res (List Seg)} {b : Behavior} (hp : Sound w p) (h : p.split fn b = .ok q) :
    Sound w q := by
  unfold PTS.split at h
  obtain ⟨l, h1, h⟩ := res_bind_ok.1 h
  cases h
  exact ⟨hp.text, hp.some, th_bytes_splitLoop _ _ _ hp.bytes h1⟩

theorem th_pts_split {p : PTS} {fn : U16 → Res (List Seg)} (b : Behavior) (hf : ∀ u, Only Never (fn u)) : Only Never (p.split fn b) :=
  th_bind (th_splitLoop _ _ hf _) fun _ _ => th_pure _

/-- What a pre-tokenizer throws. -/
def PreThrows (P : Platform) (w : WStr) (n : PreTokenizer) (e : Exn) : Prop :=
  e = .outOfRange ∧ ∃ a u, PreStep n (.byteLevel a u) ∧ (P.charSigned = true ∨ a = true ∧ w = [])

theorem th_prefix (P : Platform) (a u : Bool) {w : WStr} {p : PTS} (hp : Sound w p) :
    Only (PreThrows P w (.byteLevel a u)) (plPrefix P a p) ∧ ∀ q, plPrefix P a p = .ok q → Sound w q := by
  unfold plPrefix
  cases a with
  | false => exact ⟨th_ok _, fun q h => by cases h; exact hp⟩
  | true =>
    simp only [if_true]
    cases hn : p.normalized.normalized with
    | nil =>
      refine ⟨th_throws ⟨rfl, true, u, .self _, .inr ⟨rfl, hp.some hn⟩⟩, fun q h => by cases h⟩
    | cons c r =>
      simp only
      by_cases hc : P.iswspace c = true
      · simp only [hc, if_true]
        exact ⟨th_ok _, fun q h => by cases h; exact hp⟩
      · simp only [hc]
        have hs : Scalars (0x20 :: c :: r) := by
          have := hp.text
          rw [hn] at this
          exact Scalars.cons.2 ⟨by decide, this⟩
        refine ⟨th_bind (th_never (th_transform _ _ _ _ (by simp))) fun n h1 => ?_, fun q h => ?_⟩
        · have e := transform_text h1
          simp only at e
          unfold PTS.ofNS
          rw [e, convertToString_ok_iff.2 ⟨hs, rfl⟩]
          exact th_bind (th_ok _) fun _ _ => th_pure _
        · simp only [Bool.false_eq_true, if_false] at h
          obtain ⟨n, h1, h⟩ := res_bind_ok.1 h
          have e := transform_text h1
          simp only at e
          unfold PTS.ofNS at h
          obtain ⟨t, h2, h⟩ := res_bind_ok.1 h
          cases h
          refine ⟨by rw [e]; exact hs, fun h0 => ?_, fun s hs' => ?_⟩
          · rw [e] at h0; cases h0
          · rw [List.mem_singleton.1 hs']; exact th_bytes_toString h2

theorem th_mapSplits (P : Platform) {l : List Split} (hl : InBytesOnly l) :
    Only (fun e => e = .outOfRange ∧ P.charSigned = true) (mapSplits P l) ∧ ∀ l', mapSplits P l = .ok l' → InBytesOnly l' := by
  by_cases h : ∀ s ∈ l, KeyOk P s.normalized
  · rw [mapSplits_ok h]
    refine ⟨th_ok _, fun l' h' => ?_⟩
    cases h'
    intro s hs
    obtain ⟨s0, hs0, rfl⟩ := List.mem_map.1 hs
    exact utf8_bytes (byteText_scalars fun b hb => hl s0 hs0 b hb)
  · rw [mapSplits_error hl h]
    refine ⟨th_throws ⟨rfl, ?_⟩, fun l' h' => by cases h'⟩
    refine Classical.byContradiction fun hc => h fun s hs b hb => ⟨hl s hs b hb, fun h1 => absurd h1 hc⟩

mutual
theorem th_pre (P : Platform) {w : WStr} : (n : PreTokenizer) → (p : PTS) → Sound w p →
    Only (PreThrows P w n) (n.run P p) ∧ ∀ q, n.run P p = .ok q → Sound w q
  | .bert, p, hp => by
    unfold PreTokenizer.run
    unfold bertPreTokenize
    refine ⟨th_never (th_bind (th_pts_split _ fun _ => th_ok _) fun _ _ => th_pts_split _ fun _ => th_ok _), fun q h => ?_⟩
    obtain ⟨p1, h1, h⟩ := res_bind_ok.1 h
    exact th_sound_split (th_sound_split hp h1) h
  | .split pat b _, p, hp => by
    unfold PreTokenizer.run
    exact ⟨th_never (th_pts_split _ (th_find P pat)), fun q h => th_sound_split hp h⟩
  | .byteLevel a u, p, hp => by
    unfold PreTokenizer.run
    rw [pl_byteLevel_eq]
    obtain ⟨h1, h2⟩ := th_prefix P a u hp
    have hf : ∀ x, Only Never (if u = true then findMatches P byteLevelPattern x else Except.ok [((0, x.length), false)]) := by
      intro x; split
      · exact th_find _ _ _
      · exact th_ok _
    refine ⟨th_bind h1 fun p1 e1 => th_bind (th_never (th_pts_split _ hf)) fun p2 e2 => th_bind ?_ fun _ _ => th_pure _, fun q h => ?_⟩
    · refine th_mono (th_mapSplits P (th_sound_split (h2 _ e1) e2).bytes).1 fun e ⟨e1, e2⟩ => ⟨e1, a, u, .self _, .inl e2⟩
    · obtain ⟨p1, e1, h⟩ := res_bind_ok.1 h
      obtain ⟨p2, e2, h⟩ := res_bind_ok.1 h
      obtain ⟨l, e3, h⟩ := res_bind_ok.1 h
      cases h
      have := th_sound_split (h2 _ e1) e2
      exact ⟨this.text, this.some, (th_mapSplits P this.bytes).2 _ e3⟩
  | .seq l, p, hp => by
    unfold PreTokenizer.run
    obtain ⟨h1, h2⟩ := th_pres P l p hp
    exact ⟨th_mono h1 fun e ⟨n, hn, h3, a, u, h4, h5⟩ => ⟨h3, a, u, .inside hn h4, h5⟩, h2⟩
theorem th_pres (P : Platform) {w : WStr} : (l : List PreTokenizer) → (p : PTS) → Sound w p →
    Only (fun e => ∃ n ∈ l, PreThrows P w n e) (PreTokenizer.runList P l p) ∧ ∀ q, PreTokenizer.runList P l p = .ok q → Sound w q
  | [], p, hp => ⟨th_ok _, fun q h => by cases h; exact hp⟩
  | n :: r, p, hp => by
    unfold PreTokenizer.runList
    obtain ⟨h1, h2⟩ := th_pre P n p hp
    refine ⟨th_bind (th_mono h1 fun e h => ⟨n, by simp, h⟩) fun p1 e1 => ?_, fun q h => ?_⟩
    · exact th_mono (th_pres P r p1 (h2 _ e1)).1 fun e ⟨m, hm, h⟩ => ⟨m, by simp [hm], h⟩
    · obtain ⟨p1, e1, h⟩ := res_bind_ok.1 h
      exact (th_pres P r p1 (h2 _ e1)).2 q h
end

/-! ### The model -/

/-- Every symbol has an id of the vocabulary. -/
def InVocab (v : Vocab) (l : List Symbol) : Prop := ∀ s ∈ l, ∃ t, mapFind v t = some s.c

theorem th_modify {v : Vocab} {l : List Symbol} (hl : InVocab v l) (i : Nat) (f : Symbol → Symbol)
    (hf : ∀ s ∈ l, ∃ t, mapFind v t = some (f s).c) : InVocab v (l.modify i f) := by
  intro s hs
  obtain ⟨j, hj⟩ := List.mem_iff_getElem?.1 hs
  rw [List.getElem?_modify] at hj
  cases hg : l[j]? with
  | none => rw [hg] at hj; cases hj
  | some x =>
    have hx := List.mem_iff_getElem?.2 ⟨j, hg⟩
    rw [hg] at hj
    simp only [Option.map_eq_map, Option.map_some, Option.some.injEq] at hj
    subst hj
    split
    · exact hf x hx
    · exact hl x hx

theorem th_wordAdd {v : Vocab} {l : List Symbol} (hl : InVocab v l) {c : Int} (hc : ∃ t, mapFind v t = some c) (n : Nat) :
    InVocab v (wordAdd l c n) := by
  unfold wordAdd
  split
  · intro s hs
    rw [List.mem_singleton.1 hs]
    exact hc
  · intro s hs
    rcases List.mem_append.1 hs with hs | hs
    · exact th_modify hl (l.length - 1) (fun x => { x with next := l.length }) (fun s hs => hl s hs) s hs
    · rw [List.mem_singleton.1 hs]
      exact hc

/-- The pending unknown token has an id of the vocabulary. -/
def PendOk (v : Vocab) (u : Option (Int × Nat)) : Prop := ∀ x, u = some x → ∃ t, mapFind v t = some x.1

theorem th_flush {v : Vocab} {l : List Symbol} (hl : InVocab v l) : ∀ (u : Option (Int × Nat)), PendOk v u →
    InVocab v (match u with | some u => wordAdd l u.1 u.2 | none => l)
  | none, _ => hl
  | some x, hu => th_wordAdd hl (hu x rfl) _

theorem th_addByte (m : BPE) (b : Nat) (f e : Bool) {l : List Symbol} (hl : InVocab m.vocab l) {u : Option (Int × Nat)} (hu : PendOk m.vocab u) :
    InVocab m.vocab (m.addByte b f e l u).1 ∧ PendOk m.vocab (m.addByte b f e l u).2 := by
  have none_ok : PendOk m.vocab none := fun x h => by cases h
  have hfl := th_flush hl u hu
  unfold BPE.addByte
  have hids : ∀ i ∈ (if m.byteFallback then fallbackIds m.vocab (m.symbolKey b f e) else []), ∃ t, mapFind m.vocab t = some i := by
    intro i hi
    split at hi
    · unfold fallbackIds at hi
      obtain ⟨b, _, hb⟩ := List.mem_filterMap.1 hi
      exact ⟨_, hb⟩
    · cases hi
  simp only
  generalize (if m.byteFallback then fallbackIds m.vocab (m.symbolKey b f e) else []) = ids at hids
  cases hk : mapFind m.vocab (m.symbolKey b f e) with
  | some i => exact ⟨th_wordAdd hfl ⟨_, hk⟩ 1, none_ok⟩
  | none =>
    simp only
    by_cases h1 : ids ≠ []
    · rw [if_pos h1]
      refine ⟨?_, hu⟩
      have : ∀ (ids : List Int) (l : List Symbol), (∀ i ∈ ids, ∃ t, mapFind m.vocab t = some i) → InVocab m.vocab l →
          InVocab m.vocab (ids.foldl (fun w i => wordAdd w i 1) l) := by
        intro ids
        induction ids with
        | nil => intro l _ h; exact h
        | cons i r ih =>
          intro l hi h
          exact ih _ (fun i h => hi i (List.mem_cons_of_mem _ h)) (th_wordAdd h (hi i List.mem_cons_self) 1)
      exact this _ _ hids hl
    · rw [if_neg h1]
      by_cases h2 : m.unkToken.length ≠ 0
      · rw [if_pos h2]
        split
        · rename_i u _
          exact ⟨hl, fun x h => by cases h; exact hu u rfl⟩
        · cases hm : mapFind m.vocab m.unkToken with
          | some i => exact ⟨hfl, fun x h => by cases h; exact ⟨_, hm⟩⟩
          | none => exact ⟨hfl, hu⟩
      · rw [if_neg h2]
        exact ⟨hl, hu⟩

theorem th_symbols (m : BPE) (s : Str) : ∀ (f : Bool) (l : List Symbol) (u : Option (Int × Nat)), InVocab m.vocab l → PendOk m.vocab u →
    InVocab m.vocab (m.symbolsLoop f s l u) := by
  induction s with
  | nil => intro f l u hl hu; unfold BPE.symbolsLoop; exact th_flush hl u hu
  | cons b r ih =>
    intro f l u hl hu
    have := th_addByte m b f r.isEmpty hl hu
    exact ih false _ _ this.1 this.2

theorem th_vecAt_mem {α : Type} {l : List α} {i : Nat} {x : α} (h : vecAt l i = .ok x) : x ∈ l := by
  unfold vecAt at h
  split at h
  · rename_i a ha
    cases h
    exact List.mem_iff_getElem?.2 ⟨i, ha⟩
  · cases h

theorem th_applyTop (P : Platform) {v : Vocab} {merges : Merges} (hm : ∀ k r n, mapFind merges k = some (r, n) → ∃ t, mapFind v t = some n)
    {l : List Symbol} (hl : InVocab v l) (q : List Merge) (top : Merge) :
    Only Never (applyTop P merges l q top) ∧ ∀ x, applyTop P merges l q top = .ok x → InVocab v x.1 := by
  unfold applyTop
  have pl : ∀ (l : List Symbol) q c, Only Never (pushLeft P merges l q c) := by
    intro l q c; unfold pushLeft; split
    · exact th_bind (th_vecAt _ _) fun _ _ => th_pure _
    · exact th_pure _
  have pr : ∀ (l : List Symbol) q pos c, Only Never (pushRight P merges l q pos c) := by
    intro l q pos c; unfold pushRight; split
    · exact th_bind (th_vecAt _ _) fun _ _ => th_pure _
    · exact th_pure _
  constructor
  · refine th_bind (th_vecAt _ _) fun s _ => ?_
    split
    · exact th_pure _
    split
    · exact th_pure _
    split
    · exact th_pure _
    refine th_bind (th_vecAt _ _) fun right _ => ?_
    split
    · exact th_pure _
    split
    · exact th_pure _
    exact th_bind (th_vecAt _ _) fun _ _ => th_bind (pl _ _ _) fun _ _ => th_bind (pr _ _ _ _) fun _ _ => th_pure _
  · intro x h
    obtain ⟨s, hs, h⟩ := res_bind_ok.1 h
    split at h
    · cases h; exact hl
    split at h
    · cases h; exact hl
    split at h
    · cases h; exact hl
    obtain ⟨right, hr, h⟩ := res_bind_ok.1 h
    split at h
    · cases h; exact hl
    rename_i rank newId hf
    split at h
    · cases h; exact hl
    rename_i hne
    obtain ⟨cur, _, h⟩ := res_bind_ok.1 h
    obtain ⟨q1, _, h⟩ := res_bind_ok.1 h
    obtain ⟨q2, _, h⟩ := res_bind_ok.1 h
    cases h
    have h1 : InVocab v (l.modify top.pos fun x => x.mergeWith right top.newId) := by
      refine th_modify hl _ _ fun s _ => ?_
      have : newId = top.newId := Classical.byContradiction hne
      exact hm _ rank _ (this ▸ hf)
    have h2 := th_modify h1 s.next.toNat (fun x => { x with len := 0 }) fun s hs => h1 s hs
    simp only
    split
    · exact th_modify h2 _ _ fun s hs => h2 s hs
    · exact h2

theorem th_mergeLoop (P : Platform) {v : Vocab} {merges : Merges} (hm : ∀ k r n, mapFind merges k = some (r, n) → ∃ t, mapFind v t = some n)
    (d : Dropout) (fuel : Nat) : ∀ (st : MState), InVocab v st.syms →
    Only Never (mergeLoop P merges d fuel st) ∧ ∀ x, mergeLoop P merges d fuel st = .ok x → InVocab v x := by
  induction fuel with
  | zero => intro st _; exact ⟨th_div, fun x h => by cases h⟩
  | succ n ih =>
    intro st hs
    have step : Only Never (mergeStep P merges d st) ∧ ∀ st', mergeStep P merges d st = .ok (some st') → InVocab v st'.syms := by
      unfold mergeStep
      split
      · exact ⟨th_pure _, fun st' h => by cases h⟩
      · split
        · exact ⟨th_pure _, fun st' h => by cases h; exact hs⟩
        · rename_i top q _ _
          obtain ⟨h1, h2⟩ := th_applyTop P hm hs (st.skip.foldl P.pq.push q) top
          refine ⟨th_bind h1 fun _ _ => th_pure _, fun st' h => ?_⟩
          obtain ⟨x, hx, h⟩ := res_bind_ok.1 h
          cases h
          exact h2 _ hx
    unfold mergeLoop
    refine ⟨th_bind step.1 fun x hx => ?_, fun x h => ?_⟩
    · cases x with
      | none => exact th_pure _
      | some st' => exact (ih st' (step.2 _ hx)).1
    · obtain ⟨y, hy, h⟩ := res_bind_ok.1 h
      cases y with
      | none => cases h; exact hs
      | some st' => exact (ih st' (step.2 _ hy)).2 _ h

theorem th_mergeWord (P : Platform) {m : BPE} (hm : KnownNew m) (s : Str) :
    Only Never (m.mergeWord P s) ∧ ∀ x, m.mergeWord P s = .ok x → InVocab m.vocab x := by
  have h0 : InVocab m.vocab (m.symbols s) := th_symbols m s true [] none (fun _ h => nomatch h) (fun x h => by cases h)
  unfold BPE.mergeWord mergeAll
  split
  · exact ⟨th_ub _, fun x h => by cases h⟩
  · obtain ⟨h1, h2⟩ := th_mergeLoop P hm.2 m.dropout (mergeFuel (m.symbols s).length)
      { syms := m.symbols s, queue := initQueue P m.merges 0 (m.symbols s) [], skip := [], drawn := 0 } h0
    refine ⟨th_bind h1 fun _ _ => th_pure _, fun x h => ?_⟩
    obtain ⟨y, hy, h⟩ := res_bind_ok.1 h
    cases h
    intro s hs
    exact h2 _ hy s (List.mem_filter.1 hs).1

theorem th_wordToTokens (m : BPE) (l : List Symbol) (hl : InVocab m.vocab l) : ∃ ts, m.wordToTokens 0 l = .ok ts := by
  obtain ⟨ts, h, _⟩ := wordToTokens_spec m l 0 (fun s hs => by
    obtain ⟨t, ht⟩ := hl s hs
    exact vocabR_isSome (mapFind_mem ht))
  exact ⟨ts, h⟩

theorem th_word (P : Platform) {m : BPE} (hm : KnownNew m) (hc : m.cache = []) (s : Str) : Only Never (m.word P s).1 := by
  rcases word_answer P hc s with ⟨_, _, _, h⟩ | ⟨_, ⟨e, h1, h2⟩ | ⟨w, h1, h2⟩⟩
  · rw [h]; exact th_ok _
  · rw [h2]
    have := (th_mergeWord P hm s).1
    rw [h1] at this
    exact th_err this
  · rw [h2]
    obtain ⟨ts, ht⟩ := th_wordToTokens m w ((th_mergeWord P hm s).2 w h1)
    rw [ht]; exact th_ok _

theorem th_splitsLoop (P : Platform) {m : BPE} (hm : KnownNew m) (hm0 : m.cache = []) (l : List Split) : ∀ (m' : BPE), CacheOk P m' → m'.fresh = m →
    Only Never (BPE.splitsLoop P m' l).1 := by
  induction l with
  | nil => intro m' _ _; exact th_ok _
  | cons s r ih =>
    intro m' hc hf
    obtain ⟨h1, h2, h3⟩ := word_cache P m' s.normalized hc
    have hw := th_word P hm hm0 s.normalized
    rw [hf] at h1 h3
    rw [← h1] at hw
    simp only [BPE.splitsLoop]
    generalize m'.word P s.normalized = R at hw h2 h3
    obtain ⟨x, m1⟩ := R
    cases x with
    | error e => exact th_err hw
    | ok ts =>
      have := ih m1 h2 h3
      simp only
      generalize BPE.splitsLoop P m1 r = R at this
      obtain ⟨x, m2⟩ := R
      cases x with
      | error e => exact th_err this
      | ok _ => exact th_ok _

theorem th_model (P : Platform) {lines : List Str} {m x : Model} (hm : ModelIs P lines m x) (p : PTS) : Only Never (x.tokenize P p).1 := by
  cases m with
  | wordPiece m => cases hm; exact th_ok _
  | bpe m =>
    obtain ⟨h1, _, before, rfl⟩ := hm
    obtain ⟨h2, h3⟩ := used_cache P h1 before
    have := th_splitsLoop P (made_knownNew h1) (made_cache h1) p.splits _ h2 h3
    simp only [Model.tokenize, BPE.tokenize]
    generalize BPE.splitsLoop P (usedBPE P m before) p.splits = R at this
    obtain ⟨y, m2⟩ := R
    cases y with
    | error e => exact th_err this
    | ok _ => exact th_ok _

/-! ### After the model -/

theorem th_intoLoop (ns : NS) (wi : Option Int) (ty : Int) (l : List Split) : ∀ i, Only Never (intoLoop ns wi ty i l) := by
  induction l with
  | nil => intro i; exact th_ok _
  | cons s r ih =>
    intro i
    unfold intoLoop
    exact th_bind (th_vecAt _ _) fun _ _ => th_bind (th_vecAt _ _) fun _ _ => th_bind (ih _) fun _ _ => th_pure _

theorem th_into (p : PTS) (wi : Option Int) (ty : Int) : Only Never (intoEncoding p wi ty) :=
  th_bind (th_intoLoop _ _ _ _ _) fun _ _ => th_pure _

theorem th_sliceI {α : Type} (l : List α) (a b : Int) : Only Never (sliceI l a b) := by
  unfold sliceI; split
  · exact th_slice _ _ _
  · exact th_ub _

theorem th_window (e : Enc) (r : Int × Int) : Only Never (e.window r) :=
  th_bind (th_sliceI _ _ _) fun _ _ => th_bind (th_sliceI _ _ _) fun _ _ => th_bind (th_sliceI _ _ _) fun _ _ =>
  th_bind (th_sliceI _ _ _) fun _ _ => th_bind (th_sliceI _ _ _) fun _ _ => th_bind (th_sliceI _ _ _) fun _ _ =>
  th_bind (th_sliceI _ _ _) fun _ _ => th_pure _

theorem th_windows (e : Enc) (l : List (Int × Int)) : Only Never (windows e l) := by
  induction l with
  | nil => exact th_ok _
  | cons r l ih => exact th_bind (th_window e r) fun _ _ => th_bind ih fun _ _ => th_pure _

theorem th_right (len : Nat) (m o : Int) (fuel : Nat) : ∀ (s : Int) (f : Bool) (acc : List (Int × Int)),
    Only Never (rightRanges len m o fuel s f acc) := by
  induction fuel with
  | zero => intro s f acc; unfold rightRanges; split <;> first | exact th_div | exact th_ok _
  | succ n ih =>
    intro s f acc; unfold rightRanges; split
    · simp only
      by_cases h : f = true
      · rw [if_pos h]; exact ih _ _ _
      · rw [if_neg h]; exact ih _ _ _
    · exact th_ok _

theorem th_left (m o : Int) (fuel : Nat) : ∀ (s : Int) (f : Bool) (acc : List (Int × Int)), Only Never (leftRanges m o fuel s f acc) := by
  induction fuel with
  | zero => intro s f acc; unfold leftRanges; split <;> first | exact th_div | exact th_ok _
  | succ n ih =>
    intro s f acc; unfold leftRanges; split
    · simp only
      by_cases h : (if s + 1 < m then 0 else s + 1 - m) < s + 1 ∧ f = false
      · rw [if_pos h]; exact ih _ _ _
      · rw [if_neg h]; exact ih _ _ _
    · exact th_ok _

theorem th_truncate (e : Encoding) (m s : Int) (d : TDir) : Only Never (truncate e m s d) := by
  unfold truncate
  split
  · exact th_ok _
  split
  · exact th_ok _
  refine th_bind ?_ fun l _ => ?_
  · unfold partsRanges
    split
    · exact th_right _ _ _ _ _ _ _
    · exact th_left _ _ _ _ _ _
    · exact th_ok _
  · cases l with
    | nil => exact th_ub _
    | cons r rs => exact th_bind (th_window _ _) fun _ _ => th_bind (th_windows _ _) fun _ _ => th_pure _

theorem th_truncation (t : Truncation) (e : Encoding) : Only Never (t.run e) := by
  unfold Truncation.run
  split
  · exact th_truncate _ _ _ _
  split
  · exact th_ok _
  simp only
  split
  · exact th_truncate _ _ _ _
  · split
    · exact th_truncate _ _ _ _
    · exact th_ok _
  · exact th_ok _

theorem th_trimLoop (a : Bool) (ts : List Str) (n : Nat) : ∀ (i : Nat) (o : List (Int × Int)), Only Never (trimLoop a ts n i o) := by
  induction n with
  | zero => intro i o; exact th_ok _
  | succ n ih => intro i o; exact th_bind (th_vecAt _ _) fun _ _ => th_bind (th_vecAt _ _) fun _ _ => ih _ _

theorem th_processOffsets (a : Bool) (e : Enc) : Only Never (processOffsets a e) :=
  th_bind (th_trimLoop _ _ _ _ _) fun _ _ => th_pure _

theorem th_processAll (a : Bool) (l : List Enc) : Only Never (processAll a l) := by
  induction l with
  | nil => exact th_ok _
  | cons e r ih => exact th_bind (th_processOffsets _ _) fun _ _ => th_bind ih fun _ _ => th_pure _

mutual
theorem th_post (b : Bool) : (p : PostProcessor) → (e : Encoding) → Only Never (p.run b e)
  | .template _ _ _, e => by unfold PostProcessor.run; exact th_ok _
  | .byteLevel a t, e => by
    unfold PostProcessor.run byteLevelProcess
    split
    · exact th_bind (th_processOffsets _ _) fun _ _ => th_bind (th_processAll _ _) fun _ _ => th_pure _
    · exact th_pure _
  | .seq l, e => by unfold PostProcessor.run; exact th_posts b l e
theorem th_posts (b : Bool) : (l : List PostProcessor) → (e : Encoding) → Only Never (PostProcessor.runList b l e)
  | [], e => th_ok _
  | p :: r, e => by
    unfold PostProcessor.runList
    exact th_bind (th_post b p e) fun _ _ => th_posts b r _
end

/-- What padding throws. -/
def PadThrows (p : Padding) (e : Exn) : Prop := e = .lengthError ∧ p.strategy = .fixed ∧ p.fixedSize < 0 ∧ p.direction ≠ .unknown

theorem th_target {p : Padding} {n : Nat} (h : p.target n < 0) : p.strategy = .fixed ∧ p.fixedSize < 0 := by
  unfold Padding.target at h
  simp only at h
  by_cases hs : p.strategy = .fixed
  · refine ⟨hs, ?_⟩
    rw [if_pos hs] at h
    split at h
    · rename_i hc
      have := Int.tmod_lt_of_pos p.fixedSize hc.1
      omega
    · exact h
  · rw [if_neg hs] at h
    split at h
    · rename_i hc
      have := Int.tmod_lt_of_pos n hc.1
      omega
    · omega

theorem th_padEnc (p : Padding) (n : Nat) (e : Enc) : Only (PadThrows p) (padEnc p (p.target n) e) := by
  unfold padEnc
  split
  · exact th_ok _
  · rename_i hle
    have neg : p.target n - e.ids.length < 0 → p.target n < 0 := by
      intro h
      refine Classical.byContradiction fun hn => hle ?_
      unfold toSizeT
      rw [if_pos (by omega)]
      omega
    simp only
    cases hd : p.direction with
    | unknown => exact th_ok _
    | left =>
      simp only
      split
      · rename_i h
        have := th_target (neg h)
        exact th_throws ⟨rfl, this.1, this.2, by rw [hd]; simp⟩
      · exact th_ok _
    | right =>
      simp only
      split
      · rename_i h
        have := th_target (neg h)
        exact th_throws ⟨rfl, this.1, this.2, by rw [hd]; simp⟩
      · exact th_ok _

theorem th_padAll (p : Padding) (n : Nat) (l : List Enc) : Only (PadThrows p) (padAll p (p.target n) l) := by
  induction l with
  | nil => exact th_ok _
  | cons e r ih => exact th_bind (th_padEnc _ _ _) fun _ _ => th_bind ih fun _ _ => th_pure _

theorem th_padding (p : Padding) (e : Encoding) : Only (PadThrows p) (p.run e) :=
  th_bind (th_padAll _ _ _) fun _ _ => th_bind (th_padEnc _ _ _) fun _ _ => th_pure _

theorem th_finish (t : Tokenizer) (e : Encoding) (b : Bool) :
    Only (fun x => ∃ p, t.padding = some p ∧ PadThrows p x) (t.doPostProcess e b) := by
  unfold Tokenizer.doPostProcess
  have fin : ∀ e2, Only (fun x => ∃ p, t.padding = some p ∧ PadThrows p x) (match t.padding with | some x => x.run e2 | none => .ok e2) := by
    intro e2
    cases hp : t.padding with
    | none => exact th_ok _
    | some p => exact th_mono (th_padding p e2) fun x hx => ⟨p, rfl, hx⟩
  simp only
  generalize t.postProcessor = pp
  cases t.truncation with
  | none =>
    cases pp with
    | none => exact th_bind (th_ok _) fun _ _ => th_bind (th_ok _) fun _ _ => fin _
    | some x => exact th_bind (th_ok _) fun _ _ => th_bind (th_never (th_post b x _)) fun _ _ => fin _
  | some y =>
    cases pp with
    | none => exact th_bind (th_never (th_truncation y _)) fun _ _ => th_bind (th_ok _) fun _ _ => fin _
    | some x => exact th_bind (th_never (th_truncation y _)) fun _ _ => th_bind (th_never (th_post b x _)) fun _ _ => fin _

/-! ### The calls of the API -/

/-- The model of the tokenizer, if there is one, is as the constructor makes it, or has been used since. -/
def UsedModel (P : Platform) (t : Tokenizer) : Prop := ∀ x, t.model = some x → ∃ lines m, ModelIs P lines m x

theorem th_used_tokenize (P : Platform) {x : Model} (h : ∃ lines m, ModelIs P lines m x) (p : PTS) :
    ∃ lines m, ModelIs P lines m (x.tokenize P p).2 := by
  obtain ⟨lines, m, hm⟩ := h
  cases m with
  | wordPiece m => cases hm; exact ⟨lines, .wordPiece m, rfl⟩
  | bpe m =>
    obtain ⟨h1, h2, before, rfl⟩ := hm
    refine ⟨lines, .bpe m, h1, h2, before ++ [p], ?_⟩
    simp only [Model.tokenize, usedBPE, List.foldl_append, List.foldl_cons, List.foldl_nil]

theorem th_used_encode (P : Platform) {t : Tokenizer} (h : UsedModel P t) (w : WStr) (b : Bool) : UsedModel P (t.encode P w b).2 := by
  have h1 : (t.preTokenized P w).2.model = t.model := by
    rcases preTokenized_state P t w with e | ⟨a, _, e⟩ <;> rw [e]
  intro x hx
  unfold Tokenizer.encode at hx
  split at hx
  · rename_i e t' he
    rw [he] at h1
    exact h x (h1 ▸ hx)
  · rename_i p t' he
    rw [he] at h1
    have h2 := doTokenize_state P t' p
    have : (t'.doTokenize P p).2.model = some x := by
      split at hx
      · rename_i e2; rw [e2]; exact hx
      · rename_i e2; rw [e2]; exact hx
    rw [h2] at this
    simp only at this
    cases hm : t'.model with
    | none => rw [hm] at this; cases this
    | some y =>
      rw [hm] at this
      cases this
      exact th_used_tokenize P (h y (h1 ▸ hm)) p

theorem th_used_history {P : Platform} {t t1 : Tokenizer} {cs : List Call} (h : History P t cs t1) (hu : UsedModel P t) : UsedModel P t1 := by
  have add : ∀ {t t' : Tokenizer} {l n}, t.addTokens l = .ok (n, t') → t'.model = t.model := by
    intro t t' l n h
    unfold Tokenizer.addTokens at h
    split at h
    · cases h
    · obtain ⟨x, _, h⟩ := res_bind_ok.1 h; cases h; rfl
  induction h with
  | nil t => exact hu
  | @cons t t' t'' c cs h1 _ ih =>
    apply ih
    cases h1 with
    | encode w b => exact th_used_encode P hu w b
    | decode => exact hu
    | addTokens h => intro x hx; exact hu x (add h ▸ hx)
    | addSpecialTokens h => intro x hx; exact hu x (add (l := _) (n := _) h ▸ hx)

theorem th_preTokenized (P : Platform) (t : Tokenizer) {w : WStr} (hw : Scalars w) :
    Only (EncodeThrows P t w) (t.preTokenized P w).1 := by
  unfold Tokenizer.preTokenized
  rw [ofNS_text hw]
  simp only
  have pre : ∀ (r : Res PTS), Only (EncodeThrows P t w) r → (∀ p, r = .ok p → Sound w p) →
      Only (EncodeThrows P t w) (do let p ← r; match t.preTokenizer with | none => .ok p | some pt => pt.run P p) := by
    intro r h1 h2
    refine th_bind h1 fun p hp => ?_
    cases hn : t.preTokenizer with
    | none => exact th_ok _
    | some n =>
      refine th_mono (th_pre P n p (h2 p hp)).1 fun e ⟨h3, a, u, h4, h5⟩ => ?_
      subst h3
      exact .inl ⟨n, a, u, hn, h4, h5⟩
  cases ha : t.added with
  | none =>
    simp only
    refine pre _ (th_ok _) fun p hp => ?_
    cases hp
    refine ⟨hw, fun h => h, fun s hs => ?_⟩
    rw [List.mem_singleton.1 hs]
    exact utf8_bytes hw
  | some a =>
    simp only
    refine pre _ (th_mono (th_extract P t.normalizer a hw) fun e he => ?_) fun p hp => ?_
    · rcases he with ⟨rfl, h⟩ | ⟨rfl, h⟩ | ⟨rfl, h⟩
      · exact .inr ⟨by rw [ha]; simp, h⟩
      · exact ⟨by rw [ha]; simp, h⟩
      · exact .inr ⟨a, ha, h⟩
    · have e := pl_whole P t.normalizer a w p hp
      exact ⟨e ▸ hw, fun h => e ▸ h, th_bytes_extract P t.normalizer hp⟩

/-- **C117** Whenever `encode` throws, one of the listed reasons for that exception is present. -/
theorem C117_encode (P : Platform) {t : Tokenizer} (hm : UsedModel P t) {w : WStr} {b : Bool} {e : Exn}
    (h : (t.encode P w b).1 = .error (.throws e)) : EncodeThrows P t w e := by
  by_cases hw : Scalars w
  · have h1 := th_preTokenized P t hw
    have hmod : (t.preTokenized P w).2.model = t.model ∧ (t.preTokenized P w).2.padding = t.padding := by
      rcases preTokenized_state P t w with e | ⟨a, _, e⟩ <;> rw [e] <;> exact ⟨rfl, rfl⟩
    unfold Tokenizer.encode at h
    generalize t.preTokenized P w = R at h h1 hmod
    obtain ⟨r, t'⟩ := R
    cases r with
    | error x => exact h1 e (by cases h; rfl)
    | ok p =>
      simp only at h hmod
      have h2 : Only Never (t'.doTokenize P p).1 := by
        unfold Tokenizer.doTokenize
        split
        · exact th_into _ _ _
        · rename_i x hx
          obtain ⟨lines, m, hm'⟩ := hm x (hmod.1 ▸ hx)
          exact th_bind (th_model P hm' p) fun _ _ => th_into _ _ _
      have h3 := doTokenize_state P t' p
      generalize t'.doTokenize P p = R at h h2 h3
      obtain ⟨r, t''⟩ := R
      cases r with
      | error x => exact (h2 e (by cases h; rfl)).elim
      | ok enc =>
        obtain ⟨q, hq, rfl, hq'⟩ := th_finish t'' enc b e h
        simp only at h3
        rw [h3] at hq
        exact ⟨q, hmod.2 ▸ hq, hq'⟩
  · have : e = .rangeError := by
      unfold Tokenizer.encode Tokenizer.preTokenized PTS.ofNS at h
      have h1 := th_toString (NS.ofText w).normalized
      cases hc : convertToString (NS.ofText w).normalized with
      | ok x => exact absurd (convertToString_ok_iff.1 hc).1 hw
      | error x =>
        rw [hc] at h
        simp only [res_error_bind] at h
        exact (h1 e (by rw [hc]; cases h; rfl)).1
    subst this
    refine .inl (Classical.byContradiction fun hn => hw (scalars_iff.1 fun c hc => Classical.byContradiction fun hc' => hn ⟨c, hc, hc'⟩))

/-- **C117** The same for a tokenizer on which any calls were made since it was constructed. -/
theorem C117_history (P : Platform) {t t1 : Tokenizer} {cs : List Call} (hm : UsedModel P t) (hh : History P t cs t1) {w : WStr} {b : Bool}
    {e : Exn} (h : (t1.encode P w b).1 = .error (.throws e)) : EncodeThrows P t1 w e :=
  C117_encode P (th_used_history hh hm) h

/-- **C117** Only four kinds of exceptions can leave `encode`. -/
theorem C117_kinds (P : Platform) {t : Tokenizer} (hm : UsedModel P t) {w : WStr} {b : Bool} {e : Exn}
    (h : (t.encode P w b).1 = .error (.throws e)) : e = .rangeError ∨ e = .outOfRange ∨ e = .lengthError ∨ e = .regexError := by
  have := C117_encode P hm h
  cases e <;> simp [EncodeThrows] at this ⊢

/-- **C117** A text that is not Unicode text (a surrogate, a value above U+10FFFF) always makes `encode` throw `range_error`, whatever
the tokenizer. -/
theorem C117_not_unicode (P : Platform) (t : Tokenizer) {w : WStr} (b : Bool) (hw : ∃ c ∈ w, ¬ Scalar c) :
    (t.encode P w b).1 = .error (.throws .rangeError) := by
  have hs : ¬ Scalars w := fun h => by
    obtain ⟨c, hc, hn⟩ := hw
    exact hn (scalars_iff.2 h c hc)
  have : convertToString w = .error (.throws .rangeError) := by
    refine (C02_to_string_throws_iff w).1.2 ?_
    exact hw
  unfold Tokenizer.encode Tokenizer.preTokenized PTS.ofNS
  rw [show (NS.ofText w).normalized = w from rfl, this]
  rfl

/-- **C117** `decode` throws nothing but `bad_optional_access`, for an id that neither a recorded token nor the vocabulary has. -/
theorem C117_decode {t : Tokenizer} {ids : List Int} {skip : Bool} {e : Exn} (h : t.decode ids skip = .error (.throws e)) :
    e = .badOptionalAccess ∧ ∃ i ∈ ids, (∀ a, t.added = some a → ∀ x, mapFind a.mapR i ≠ some x) ∧
      ∀ m, t.model = some m → ∀ k, (k, i) ∉ m.vocab := by
  let S : Exn → Prop := fun e => e = .badOptionalAccess ∧ ∃ i ∈ ids, (∀ a, t.added = some a → ∀ x, mapFind a.mapR i ≠ some x) ∧
      ∀ m, t.model = some m → ∀ k, (k, i) ∉ m.vocab
  have one : ∀ i ∈ ids, Only S (t.idToken i) := by
    intro i hi e he
    unfold Tokenizer.idToken at he
    split at he
    · cases he
    · rename_i a ha
      split at he
      · cases he
      · rename_i h1
        split at he
        · cases he
        · rename_i m hm
          split at he
          · cases he
          · rename_i h2
            cases he
            refine ⟨rfl, i, hi, fun a' ha' x hx => ?_, fun m' hm' k hk => ?_⟩
            · rw [ha] at ha'; cases ha'
              simp only [AddedVocab.idToToken, hx, Option.map_some] at h1
              cases h1
            · rw [hm] at hm'; cases hm'
              obtain ⟨k', hk'⟩ := vocabR_isSome hk
              unfold idToToken at h2
              rw [hk'] at h2; cases h2
  have all : ∀ l : List Int, (∀ i ∈ l, i ∈ ids) → Only S (t.idTokens skip l) := by
    intro l
    induction l with
    | nil => intro _; exact th_ok _
    | cons i r ih =>
      intro hl
      unfold Tokenizer.idTokens
      exact th_bind (one i (hl i List.mem_cons_self)) fun _ _ =>
        th_bind (ih fun j hj => hl j (List.mem_cons_of_mem _ hj)) fun _ _ => th_pure _
  have : Only S (t.decode ids skip) := by
    unfold Tokenizer.decode
    refine th_bind (all ids fun i hi => hi) fun ts _ => ?_
    split
    · exact th_ub _
    · rename_i d _
      obtain ⟨out, ho⟩ := C49_decoder_total d ts
      rw [ho]
      exact th_bind (th_ok _) fun _ _ => th_pure _
  exact this e h

theorem th_assign (v : Option Vocab) (al : Bool) (l : List AddedToken) : ∀ a, Only Never (assignIds v al l a) := by
  have new : ∀ a c, Only Never (newId a v c) := by
    intro a c
    unfold newId
    split
    · exact th_ok _
    split
    · exact th_ub _
    split
    · exact th_ok _
    split
    · split
      · exact th_ub _
      · exact th_ok _
    · split <;> exact th_ok _
  induction l with
  | nil => intro a; exact th_ok _
  | cons x r ih =>
    intro a
    unfold assignIds
    by_cases h1 : x.content = []
    · rw [if_pos h1]; exact ih _
    · rw [if_neg h1]
      refine th_bind (new _ _) fun i _ => ?_
      simp only
      split
      · exact ih _
      · split
        · exact th_ub _
        · exact ih _

theorem th_core (a : AddedVocab) (v : Option Vocab) (al : Bool) (l : List AddedToken) : Only Never (a.addTokensCore v al l) := by
  unfold AddedVocab.addTokensCore
  refine th_bind (th_assign _ _ _ _) fun a1 _ => th_bind ?_ fun _ _ => th_pure _
  unfold AddedVocab.refresh
  split
  · split
    · exact th_ok _
    · exact th_ub _
  · exact th_ok _

/-- **C117** Adding tokens throws nothing, whatever the tokens and the tokenizer. -/
theorem C117_add_tokens (t : Tokenizer) (l : List AddedToken) (e : Exn) :
    t.addTokens l ≠ .error (.throws e) ∧ t.addSpecialTokens l ≠ .error (.throws e) := by
  have : Only Never (t.addTokens l) := by
    unfold Tokenizer.addTokens
    split
    · exact th_ub _
    · exact th_bind (th_core _ _ _ _) fun _ _ => th_pure _
  exact ⟨fun h => this e h, fun h => this e h⟩

/-- **C117** Without a normalizer (or without added vocabulary, when it is not used) `range_error` means exactly that the text is not
Unicode text. -/
theorem C117_range_iff (P : Platform) {t : Tokenizer} (hm : UsedModel P t) (hn : t.normalizer = none ∨ t.added = none) (w : WStr) (b : Bool) :
    (t.encode P w b).1 = .error (.throws .rangeError) ↔ ∃ c ∈ w, ¬ Scalar c := by
  refine ⟨fun h => ?_, C117_not_unicode P t b⟩
  rcases C117_encode P hm h with h | ⟨h1, n, _, h2, _⟩
  · exact h
  · rcases hn with hn | hn
    · rw [hn] at h2; cases h2
    · exact absurd hn h1

/-- **C117** A Unicode text, no configured normalizer, no ByteLevel step, no negative padding size, and no added token that is looked
for: nothing is thrown. -/
theorem C117_quiet (P : Platform) {t : Tokenizer} (hm : UsedModel P t) {w : WStr} (hw : ∀ c ∈ w, Scalar c) (hn : t.normalizer = none)
    (hp : ∀ n a u, t.preTokenizer = some n → ¬ PreStep n (.byteLevel a u)) (hpad : ∀ p, t.padding = some p → 0 ≤ p.fixedSize)
    (ha : ∀ a, t.added = some a → a.nonNormTrie = [] ∧ a.normTrie = []) (b : Bool) (e : Exn) :
    (t.encode P w b).1 ≠ .error (.throws e) := by
  intro h
  have := C117_encode P hm h
  cases e with
  | rangeError =>
    rcases this with ⟨c, hc, h1⟩ | ⟨_, n, _, h1, _⟩
    · exact h1 (hw c hc)
    · rw [hn] at h1; cases h1
  | regexError => obtain ⟨_, n, _, _, _, h1, _⟩ := this; rw [hn] at h1; cases h1
  | lengthError => obtain ⟨p, h1, _, h2, _⟩ := this; have := hpad p h1; omega
  | outOfRange =>
    rcases this with ⟨n, a, u, h1, h2, _⟩ | ⟨a, h1, ⟨h2, _⟩ | ⟨h2, _⟩⟩
    · exact hp n a u h1 h2
    · exact h2 (ha a h1).1
    · exact h2 (ha a h1).2
  | _ => exact this

/-- **C117** That valid text makes `encode` return is false: `é` under a ByteLevel pre-tokenizer, three emoji before an added token, and
already `éé` before an added token with `rstrip`, make it throw `out_of_range`; a padding size of -1 makes it throw `length_error`, a
pattern the regex library rejects `regex_error`, a prepended string that is not UTF-8 `range_error`. -/
theorem C117_violated :
    (({ smallTk with preTokenizer := some (.byteLevel false false) } : Tokenizer).encode ascii [0xE9] false).1.map (·.ids) = .error (.throws .outOfRange) ∧
    (({ smallTk with added := some tagAdded } : Tokenizer).encode ascii [0x1F600, 0x1F600, 0x1F600, 0x20, 0x41] false).1.map (·.ids) =
      .error (.throws .outOfRange) ∧
    (({ smallTk with added := some tagAdded } : Tokenizer).encode ascii [0xE9, 0xE9, 0x20, 0x41] false).1.map (·.ids) = .error (.throws .outOfRange) ∧
    (({ smallTk with padding := some (padTo (-1)) } : Tokenizer).encode ascii w!"x" false).1.map (·.ids) = .error (.throws .lengthError) ∧
    (({ smallTk with normalizer := some (.replace b!"(" b!"x") } : Tokenizer).encode { ascii with wregex := fun _ => none } w!"x" false).1.map (·.ids) =
      .error (.throws .regexError) ∧
    (({ smallTk with normalizer := some (.prepend [0xFF]) } : Tokenizer).encode ascii w!"x" false).1.map (·.ids) = .error (.throws .rangeError) := by
  refine ⟨?_, ?_, ?_, ?_, ?_, ?_⟩ <;> decide +kernel

/-- The hypothesis of C117 holds of tokenizers with either model, and after they have been used. -/
example : UsedModel ascii smallTk ∧ UsedModel spacePlatform pipeTk ∧ UsedModel spacePlatform (pipeTk.encode spacePlatform w!"ab abc" true).2 := by
  have h : UsedModel spacePlatform pipeTk := by
    intro x hx
    cases hx
    exact ⟨_, .bpe spaceBPE, spaceBPE_made, by decide +kernel, [], rfl⟩
  exact ⟨fun x hx => by cases hx; exact ⟨[], wpOf _, by unfold wpOf ModelIs; rfl⟩, h, th_used_encode _ h _ _⟩

/-- Decoding an id that nobody has. -/
example : smallTk.decode [1, 7] false = .error (.throws .badOptionalAccess) := by decide +kernel

end Tok
