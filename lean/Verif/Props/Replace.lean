import Verif.Proofs.Room2
import Verif.Spec.Replace
import Verif.Sample

set_option autoImplicit false

/-!
C90: what the Replace normalizer does, in every case.  C91: the normalizer of SentencePiece-style configurations (Prepend,
then Replace).
-/

namespace Tok
open Spec

theorem unitLens_units {w : WStr} (h : Scalars w) : (unitLens (fromUTF32 w)).length = units w := by
  rw [unitLens_length, fromUTF32_scalars h, units_eq]

theorem length_le_units : ∀ w : WStr, w.length ≤ units w
  | [] => Nat.le_refl _
  | c :: w => by
    have := length_le_units w
    simp only [units, List.length_cons]
    split <;> omega

/-- **C90** Replace on a text `w`, in every case: a pattern that does not compile throws `regex_error`; without a match the
text (and its table) is unchanged; with a match, a replacement that is not one character invalidates the regex iterator;
with a replacement of one character the call returns exactly if for every match, with `j` matches before it, the start is
inside the text and, moved right by `j`, inside the table — otherwise it runs off its end — and then the characters at the
starts of matches are replaced, all others unchanged. -/
theorem C90_replace (P : Platform) {pattern content : Str} {pw cw : WStr} (hp : Utf8Text pw pattern) (hc : Utf8Text cw content)
    {w : WStr} (hw : ∀ c ∈ w, Scalar c) :
    (P.wregex pw = none → (Normalizer.replace pattern content).run P (NS.ofText w) = .error (.throws .regexError)) ∧
    ∀ find, P.wregex pw = some find →
      (find w = [] → (Normalizer.replace pattern content).run P (NS.ofText w) = .ok (NS.ofText w)) ∧
      (find w ≠ [] → (∀ c, cw ≠ [c]) →
        (Normalizer.replace pattern content).run P (NS.ofText w) = .error (.ub .invalidIterator)) ∧
      (∀ c, cw = [c] →
        ((∀ (j : Nat) (m : Nat × Nat), (find w)[j]? = some m → m.1 < w.length ∧ m.1 + j < units w) →
          ∃ s', (Normalizer.replace pattern content).run P (NS.ofText w) = .ok s' ∧ s'.normalized.length = w.length ∧
            ∀ i, (i ∈ (find w).map (·.1) → s'.normalized[i]? = some c) ∧
                 (i ∉ (find w).map (·.1) → s'.normalized[i]? = w[i]?)) ∧
        ((¬ ∀ (j : Nat) (m : Nat × Nat), (find w)[j]? = some m → m.1 < w.length ∧ m.1 + j < units w) →
          (Normalizer.replace pattern content).run P (NS.ofText w) = .error (.ub .outOfBounds))) := by
  have hn : (NS.ofText w).normalized = w := rfl
  have hsc : Scalars w := scalars_iff.1 hw
  refine ⟨fun h => ?_, fun find hf => ⟨fun h => C67_no_match P hp hc hf h, fun h h' => ?_, ?_⟩⟩
  · obtain ⟨hs, rfl⟩ := utf8Text_iff.1 hp
    simp only [Normalizer.run, replaceNormalize, convertFromString_utf8 hs, res_ok_bind, h]
  · obtain ⟨hs, rfl⟩ := utf8Text_iff.1 hp
    obtain ⟨hs', rfl⟩ := utf8Text_iff.1 hc
    simp only [Normalizer.run, replaceNormalize, convertFromString_utf8 hs, convertFromString_utf8 hs', res_ok_bind, hf, hn]
  · rintro c rfl
    have hroom := replace_room P hp hc hf (room_units w)
    rw [hn, unitLens_units hsc] at hroom
    refine ⟨fun h => ?_, hroom.2⟩
    obtain ⟨s', _, e, _, _⟩ := hroom.1 h
    obtain ⟨g1, g2⟩ := C67_replace_partial P hp hc hf e
    refine ⟨s', e, g1, fun i => ⟨fun hi => (g2 i).1 ?_, fun hi => (g2 i).2 ?_⟩⟩
    · obtain ⟨m, hm, rfl⟩ := List.mem_map.1 hi; exact ⟨m, hm, rfl⟩
    · rintro ⟨m, hm, rfl⟩; exact hi (List.mem_map.2 ⟨m, hm, rfl⟩)

-- both outcomes, and the case of a longer replacement
example : ((Normalizer.replace b!" " b!"▁").run ascii (NS.ofText w!"a b c")).map (·.normalized) = .ok w!"a▁b▁c" ∧
    (Normalizer.replace b!" " b!"▁").run ascii (NS.ofText w!"a b c d") = .error (.ub .outOfBounds) ∧
    (Normalizer.replace b!" " b!"__").run ascii (NS.ofText w!"a b") = .error (.ub .invalidIterator) := by
  refine ⟨?_, ?_, ?_⟩ <;> decide +kernel

/-! ### Occurrences of one character -/

/-- The positions of `c`, counted from `k`. -/
def posIds (c : Nat) : Nat → WStr → List Nat
  | _, [] => []
  | k, x :: w => if x = c then k :: posIds c (k + 1) w else posIds c (k + 1) w

theorem posIds_unique (c : Nat) : ∀ (w : WStr) (k : Nat) (l : List Nat), l.Pairwise (· < ·) →
    (∀ i, i ∈ l ↔ k ≤ i ∧ w[i - k]? = some c) → l = posIds c k w := by
  intro w
  induction w with
  | nil =>
    intro k l _ hm
    cases l with
    | nil => rfl
    | cons a l => have := (hm a).1 (by simp); simp at this
  | cons x w ih =>
    intro k l hs hm
    by_cases hx : x = c
    · subst hx
      have hk : k ∈ l := (hm k).2 ⟨Nat.le_refl _, by simp⟩
      cases l with
      | nil => cases hk
      | cons a l =>
        rw [List.pairwise_cons] at hs
        have ha : a = k := by
          have h1 := ((hm a).1 (by simp)).1
          rcases List.mem_cons.1 hk with h | h
          · exact h.symm
          · have := hs.1 k h; omega
        subst ha
        have := ih (a + 1) l hs.2 fun i => by
          constructor
          · intro hi
            have h1 := hs.1 i hi
            have h2 := ((hm i).1 (by simp [hi])).2
            refine ⟨by omega, ?_⟩
            rw [show i - a = i - (a + 1) + 1 by omega, List.getElem?_cons_succ] at h2
            exact h2
          · rintro ⟨h1, h2⟩
            have : i ∈ a :: l := (hm i).2 ⟨by omega, by
              rw [show i - a = i - (a + 1) + 1 by omega, List.getElem?_cons_succ]; exact h2⟩
            rcases List.mem_cons.1 this with h | h
            · omega
            · exact h
        simp [posIds, ← this]
    · simp only [posIds, if_neg hx]
      refine ih (k + 1) l hs fun i => ?_
      rw [hm i]
      constructor
      · rintro ⟨h1, h2⟩
        have : i ≠ k := by rintro rfl; simp at h2; exact hx h2
        rw [show i - k = i - (k + 1) + 1 by omega, List.getElem?_cons_succ] at h2
        exact ⟨by omega, h2⟩
      · rintro ⟨h1, h2⟩
        refine ⟨by omega, ?_⟩
        rw [show i - k = i - (k + 1) + 1 by omega, List.getElem?_cons_succ]
        exact h2

theorem finds_eq {c : Nat} {find : WStr → List (Nat × Nat)} (h : Finds c find) (w : WStr) : (find w).map (·.1) = posIds c 0 w :=
  posIds_unique c w 0 _ (h w).1 fun i => by rw [(h w).2 i]; simp

/-- The `j`-th occurrence has `j` occurrences before it. -/
theorem posIds_get (c : Nat) : ∀ (w : WStr) (k j i : Nat), (posIds c k w)[j]? = some i ↔
    ∃ A B, w = A ++ c :: B ∧ i = k + A.length ∧ j = times c A := by
  intro w
  induction w with
  | nil => intro k j i; simp [posIds]
  | cons x w ih =>
    intro k j i
    by_cases hx : x = c
    · subst hx
      simp only [posIds, if_true]
      cases j with
      | zero =>
        constructor
        · intro h
          simp at h
          exact ⟨[], w, rfl, by simp [h], rfl⟩
        · rintro ⟨A, B, e, h1, h2⟩
          cases A with
          | nil => simp [h1]
          | cons a A =>
            simp only [List.cons_append, List.cons.injEq] at e
            obtain ⟨rfl, e⟩ := e
            simp [times] at h2
      | succ j =>
        rw [List.getElem?_cons_succ, ih]
        constructor
        · rintro ⟨A, B, rfl, h1, h2⟩
          exact ⟨x :: A, B, rfl, by simp [h1]; omega, by simp [times] at h2 ⊢; exact h2⟩
        · rintro ⟨A, B, e, h1, h2⟩
          cases A with
          | nil => simp [times] at h2
          | cons a A =>
            simp only [List.cons_append, List.cons.injEq] at e
            obtain ⟨rfl, rfl⟩ := e
            exact ⟨A, B, rfl, by simp [h1]; omega, by simp [times] at h2 ⊢; exact h2⟩
    · simp only [posIds, if_neg hx]
      rw [ih]
      constructor
      · rintro ⟨A, B, rfl, h1, h2⟩
        exact ⟨x :: A, B, rfl, by simp [h1]; omega, by simp [times, hx] at h2 ⊢; exact h2⟩
      · rintro ⟨A, B, e, h1, h2⟩
        cases A with
        | nil =>
          simp only [List.nil_append, List.cons.injEq] at e
          exact absurd e.1 hx
        | cons a A =>
          simp only [List.cons_append, List.cons.injEq] at e
          obtain ⟨rfl, rfl⟩ := e
          exact ⟨A, B, rfl, by simp [h1]; omega, by simp [times, hx] at h2 ⊢; exact h2⟩

/-! ### Prepend, then Replace -/

/-- The SentencePiece-style normalizer: put `▁` in front, replace every space by `▁` (as in the configurations of the Llama
family). -/
def metaspace : Normalizer := .seq [.prepend b!"▁", .replace b!" " b!"▁"]

theorem units_spaces : ∀ w : WStr, units (w.map (fun c => if c = 0x20 then 0x2581 else c)) = units w
  | [] => rfl
  | c :: w => by
    by_cases h : c = 0x20
    · subst h; simp [units, units_spaces w]
    · simp [units, h, units_spaces w]

theorem metaspace_room (P : Platform) {find : WStr → List (Nat × Nat)} (hf : P.wregex w!" " = some find) (hfind : Finds 0x20 find)
    {w : WStr} (hw : Scalars w) (h0 : w ≠ []) :
    ((∀ A B, w = A ++ 0x20 :: B → A.length + times 0x20 A < units w) →
      ∃ s', metaspace.run P (NS.ofText w) = .ok s' ∧ s'.normalized = 0x2581 :: w.map (fun c => if c = 0x20 then 0x2581 else c) ∧
        Usable s' ∧ units s'.normalized ≤ s'.ranges.length) ∧
    ((¬ ∀ A B, w = A ++ 0x20 :: B → A.length + times 0x20 A < units w) →
      metaspace.run P (NS.ofText w) = .error (.ub .outOfBounds)) := by
  have hpre : Utf8Text [0x2581] b!"▁" := utf8Text_iff.2 ⟨by unfold Scalars isScalar; decide, by decide⟩
  have hsp : Utf8Text w!" " b!" " := utf8Text_iff.2 ⟨by unfold Scalars isScalar; decide, by decide⟩
  have hul : 0 < units w := by
    cases w with
    | nil => exact absurd rfl h0
    | cons c w => simp only [units]; split <;> omega
  obtain ⟨s1, e1, n1, r1⟩ := prepend_room P hpre (room_units w) (by
    intro h
    have := unitLens_units hw
    rw [h] at this; simp at this; omega)
  have hl : ((b!"▁").length :: unitLens (fromUTF32 w)).length = units w + 1 := by rw [List.length_cons, unitLens_units hw]
  have hrun : metaspace.run P (NS.ofText w) = (Normalizer.replace b!" " b!"▁").run P s1 := by
    simp only [metaspace, Normalizer.run] at e1 ⊢
    simp only [Normalizer.runList, Normalizer.run, e1, res_ok_bind]
    generalize replaceNormalize P _ _ s1 = x
    cases x <;> rfl
  have hr := replace_room P hsp hpre hf r1
  have hn1 : s1.normalized = 0x2581 :: w := n1
  rw [hn1, hl] at hr
  have key : (∀ (j : Nat) (m : Nat × Nat), (find (0x2581 :: w))[j]? = some m → m.1 < (0x2581 :: w).length ∧ m.1 + j < units w + 1) ↔
      ∀ A B, w = A ++ 0x20 :: B → A.length + times 0x20 A < units w := by
    have hfe := finds_eq hfind (0x2581 :: w)
    constructor
    · intro h A B e
      have : (posIds 0x20 0 (0x2581 :: w))[times 0x20 A]? = some (A.length + 1) :=
        (posIds_get _ _ _ _ _).2 ⟨0x2581 :: A, B, by rw [e]; rfl, by simp, by simp [times]⟩
      rw [← hfe, List.getElem?_map, Option.map_eq_some_iff] at this
      obtain ⟨m, hm, hm1⟩ := this
      have := (h _ m hm).2
      omega
    · intro h j m hm
      have : (posIds 0x20 0 (0x2581 :: w))[j]? = some m.1 := by
        rw [← hfe, List.getElem?_map, hm]; rfl
      obtain ⟨A, B, e, h1, h2⟩ := (posIds_get _ _ _ _ _).1 this
      cases A with
      | nil => simp at e
      | cons a A =>
        simp only [List.cons_append, List.cons.injEq] at e
        obtain ⟨rfl, rfl⟩ := e
        have := h A B rfl
        simp only [times, List.filter_cons, List.length_cons] at h1 h2 this ⊢
        simp at h2
        refine ⟨by simp; omega, by omega⟩
  rw [key] at hr
  rw [hrun]
  refine ⟨fun h => ?_, hr.2⟩
  obtain ⟨s', lens', e, q1, q2⟩ := hr.1 h
  obtain ⟨g1, g2⟩ := C67_replace_partial P hsp hpre hf e
  have hval : s'.normalized = 0x2581 :: w.map (fun c => if c = 0x20 then 0x2581 else c) := by
    have hmap : (0x2581 :: w.map (fun c => if c = 0x20 then 0x2581 else c)) =
        (0x2581 :: w).map (fun c => if c = 0x20 then 0x2581 else c) := by simp
    rw [hmap]
    apply List.ext_getElem?
    intro i
    rw [List.getElem?_map]
    rw [hn1] at g2
    have hmem : At (find (0x2581 :: w)) i ↔ (0x2581 :: w)[i]? = some 0x20 := by
      rw [← (hfind (0x2581 :: w)).2 i]
      constructor
      · rintro ⟨m, hm, rfl⟩; exact List.mem_map.2 ⟨m, hm, rfl⟩
      · intro h; obtain ⟨m, hm, rfl⟩ := List.mem_map.1 h; exact ⟨m, hm, rfl⟩
    by_cases hi : (0x2581 :: w)[i]? = some 0x20
    · rw [(g2 i).1 (hmem.2 hi), hi]; rfl
    · rw [(g2 i).2 (fun h => hi (hmem.1 h))]
      cases hc : (0x2581 :: w)[i]? with
      | none => rfl
      | some c =>
        rw [hc] at hi
        simp only [Option.map_some]
        rw [if_neg (by simpa using hi)]
  refine ⟨s', e, hval, q1.usable (by rw [hval]; simp) ?_, ?_⟩
  · rw [q2, hval]
    have := length_le_units w
    simp; omega
  · rw [q1.ranges, mkRanges_length, q2, hval, units, units_spaces]
    simp; omega

end Tok
