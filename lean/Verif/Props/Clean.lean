import Verif.Proofs.Clean
import Verif.Props.Accents

set_option autoImplicit false

/-!
C97: BERT normalization of any text with any flags, exactly; and C54 (cleaning) without restriction on the text.
-/

namespace Tok
open Spec

theorem cl_ofText (w : WStr) : CleanTabX (sizes w) 0 0 0 [] (NS.ofText w) := by
  have h := ofText_tab w
  rw [cl_sizes] at h
  exact ⟨h.offsets, by simpa using h.ranges, .inl rfl⟩

theorem cl_pos (w : WStr) : ∀ k ∈ sizes w, 0 < k := by
  have h := ofText_tab w
  rw [cl_sizes] at h
  exact h.pos

theorem cl_cleaned (P : Platform) : ∀ w : WStr, Cleaned (Dropped P) (Blank P) w ((remaining P true w).map (cleanChar P true))
  | [] => .nil
  | c :: w => by
    by_cases hc : Dropped P c
    · have hr : remaining P true (c :: w) = remaining P true w := by
        have : Drops P true c := ⟨rfl, hc⟩
        simp [remaining, this]
      rw [hr]; exact .dropped hc (cl_cleaned P w)
    · have hr : remaining P true (c :: w) = c :: remaining P true w := by
        have : ¬ Drops P true c := fun h => hc h.2
        simp [remaining, this]
      rw [hr, List.map_cons]
      by_cases hb : Blank P c
      · have : cleanChar P true c = 0x20 := by unfold cleanChar; exact if_pos ⟨rfl, hb⟩
        rw [this]; exact .spaced hc hb (cl_cleaned P w)
      · have : cleanChar P true c = c := by unfold cleanChar; exact if_neg fun h => hb h.2
        rw [this]; exact .kept hc hb (cl_cleaned P w)

theorem cl_enough_iff (L l : List Nat) : EnoughFrom L 0 l ↔ Enough L l := by
  rw [cl_enough]; unfold Enough; simp only [Nat.zero_add]

/-- The first step. -/
theorem cl_first (P : Platform) (clean : Bool) (w : WStr) :
    (Enough (sizes w) (slots P clean 0 w) →
      ∃ s, (if clean then doCleanText P (NS.ofText w) else .ok (NS.ofText w)) = .ok s ∧
        s.normalized = prepared P clean false (remaining P clean w) ∧
        s.ranges = leftOver P clean w (sizeTable (sizes w)) ∧
        s.offsets.length = bytesLeft (sizes w) (slots P clean 0 w)) ∧
    (¬ Enough (sizes w) (slots P clean 0 w) →
      (if clean then doCleanText P (NS.ofText w) else .ok (NS.ofText w)) = .error (.ub .outOfBounds)) := by
  cases clean with
  | false =>
    refine ⟨fun _ => ⟨NS.ofText w, rfl, ?_, ?_, ?_⟩, fun h => absurd ?_ h⟩
    · have h1 : remaining P false w = w := by
        unfold remaining
        rw [List.filter_eq_self]
        intro c _
        have : ¬ Drops P false c := fun h => nomatch h.1
        simp [this]
      rw [h1, ← (ac_prepared P false w).2]
      have : w.map (cleanChar P false) = w := by
        rw [List.map_congr_left (g := id) fun c _ => by simp [cleanChar]]; simp
      rw [this]; rfl
    · rw [cl_left_false, cl_sizeTable, ← cl_sizes]; rfl
    · rw [cl_slots_false]
      have := (ofText_tab w).offsets
      rw [cl_sizes] at this
      simpa [bytesLeft] using this
    · rw [cl_slots_false]; intro k e hk; simp at hk
  | true =>
    obtain ⟨h1, h2⟩ := cl_loop P (sizes w) (cl_pos w) w 0 0 0 [] [] (NS.ofText w) (cl_ofText w) (by simp)
    simp only [Nat.add_zero, cl_enough_iff, List.drop_zero, List.nil_append] at h1 h2
    simp only [if_true]
    refine ⟨?_, ?_⟩
    · intro h
      obtain ⟨r, s', e1, e2, e3⟩ := h1 h
      have hrun : doCleanText P (NS.ofText w) = .ok { s' with normalized := r } := by
        unfold doCleanText
        rw [show (NS.ofText w).normalized = w from rfl, e1]; rfl
      refine ⟨_, hrun, ?_, ?_, ?_⟩
      · have := C54_clean_unique (C54_clean_value P hrun) (cl_cleaned P w)
        rw [this, (ac_prepared P true _).2]
      · simp only [e2, cl_sizeTable]
      · simp only [bytesLeft]; omega
    · intro h
      unfold doCleanText
      rw [show (NS.ofText w).normalized = w from rfl, h2 h]; rfl

/-- **C54** (cleaning, every text).  Cleaning returns exactly when every table entry to be taken away exists and the table
still holds, behind it, as many bytes as were taken away before; otherwise the behaviour is undefined. -/
theorem C54_clean_exact (P : Platform) (w : WStr) :
    (Enough (sizes w) (slots P true 0 w) →
      ∃ s, doCleanText P (NS.ofText w) = .ok s ∧ Cleaned (Dropped P) (Blank P) w s.normalized) ∧
    (¬ Enough (sizes w) (slots P true 0 w) → doCleanText P (NS.ofText w) = .error (.ub .outOfBounds)) := by
  obtain ⟨h1, h2⟩ := cl_first P true w
  refine ⟨fun h => ?_, h2⟩
  obtain ⟨s, e, -⟩ := h1 h
  exact ⟨s, e, C54_clean_value P e⟩

theorem cl_slots_append (P : Platform) (clean : Bool) : ∀ (A B : WStr) (e : Nat),
    ∃ e', slots P clean e (A ++ B) = slots P clean e A ++ slots P clean e' B ∧
      e' = e + A.length + (slots P clean e A).length
  | [], B, e => ⟨e, by simp [slots], by simp [slots]⟩
  | c :: A, B, e => by
    by_cases hD : Drops P clean c
    · obtain ⟨e', h1, h2⟩ := cl_slots_append P clean A B (e + 2)
      exact ⟨e', by simp [slots, hD, h1], by simp [slots, hD]; omega⟩
    · obtain ⟨e', h1, h2⟩ := cl_slots_append P clean A B (e + 1)
      exact ⟨e', by simp [slots, hD, h1], by simp [slots, hD]; omega⟩

theorem cl_slots_count (P : Platform) (clean : Bool) : ∀ (w : WStr) (e : Nat),
    (slots P clean e w).length = (w.filter fun c => decide (Drops P clean c)).length
  | [], e => rfl
  | c :: w, e => by
    by_cases hD : Drops P clean c
    · simp [slots, hD, cl_slots_count P clean w]
    · simp [slots, hD, cl_slots_count P clean w]

/-- **C54** A text (up to U+FFFF) that ends in a dropped character and has another one before: the behaviour is
undefined. -/
theorem C54_last_dropped (P : Platform) {A B : WStr} {c d : Nat} (hb : ∀ x ∈ A ++ c :: B ++ [d], x < 0x10000)
    (hc : Dropped P c) (hd : Dropped P d) :
    doCleanText P (NS.ofText (A ++ c :: B ++ [d])) = .error (.ub .outOfBounds) := by
  refine (C54_clean_exact P _).2 fun h => ?_
  obtain ⟨e', h1, h2⟩ := cl_slots_append P true (A ++ c :: B) [d] 0
  have hD : Drops P true d := ⟨rfl, hd⟩
  have hs : slots P true e' [d] = [e'] := by simp [slots, hD]
  rw [hs] at h1
  have hlen : (sizes (A ++ c :: B ++ [d])).length = (A ++ c :: B ++ [d]).length := by
    generalize A ++ c :: B ++ [d] = w at hb
    induction w with
    | nil => rfl
    | cons x w ih =>
      have hx := hb x (by simp)
      have : (sizesOf x).length = 1 := by
        unfold sizesOf
        rw [if_neg (by omega)]
        split
        · rfl
        · split <;> rfl
      have ih := ih fun y hy => hb y (by simp [hy])
      simp only [sizes, List.flatMap_cons, List.length_append, this, List.length_cons] at ih ⊢
      omega
  have := (h _ e' (by rw [h1, List.getElem?_append_right (Nat.le_refl _)]; simp)).1
  have hcount : 0 < (slots P true 0 (A ++ c :: B)).length := by
    rw [cl_slots_count]
    exact List.length_pos_of_mem (List.mem_filter.2 ⟨show c ∈ A ++ c :: B by simp, by simp [Drops, hc]⟩)
  rw [hlen] at this
  simp only [List.length_append, List.length_cons, List.length_nil] at this h2
  omega

/-- **C97** BERT normalization of any text with any flags.  If the table holds what each step needs (`BertFits`), the
result is the text without the dropped characters, white space replaced, ideographs padded, and with accent stripping
decomposed, without marks and lower-cased; otherwise the behaviour is undefined. -/
theorem C97_bert (P : Platform) (clean cjk strip lower : Bool) (w : WStr) (k : Nat)
    (hk : Mismatches (prepared P clean cjk (remaining P clean w)) (decomposed P clean cjk (remaining P clean w)) k) :
    (BertFits P clean cjk strip lower w k →
      ∃ s, (Normalizer.bert clean cjk strip lower).run P (NS.ofText w) = .ok s ∧
        s.normalized = bertResult P clean cjk strip lower w) ∧
    (¬ BertFits P clean cjk strip lower w k →
      (Normalizer.bert clean cjk strip lower).run P (NS.ofText w) = .error (.ub .outOfBounds)) := by
  simp only [Normalizer.run, bertNormalize_eq]
  obtain ⟨c1, c2⟩ := cl_first P clean w
  by_cases he : Enough (sizes w) (slots P clean 0 w)
  case neg =>
    rw [c2 he]
    exact ⟨fun h => absurd h.dropped he, fun _ => rfl⟩
  obtain ⟨s, e1, e2, e3, e4⟩ := c1 he
  rw [e1, res_ok_bind]
  have hlen : (prepared P clean false (remaining P clean w)).length = (remaining P clean w).length := by
    rw [← (ac_prepared P clean _).2]; simp
  have hroom : s.normalized.length ≤ s.ranges.length := by
    rw [e2, e3, hlen]
    have h1 := cl_left_count P clean w (sizeTable (sizes w))
    have h2 : w.length ≤ (sizeTable (sizes w)).length := by
      rw [cl_sizeTable, mkRanges_length, ← cl_sizes, unitLens_length]
      exact fromUTF32_length_ge w
    omega
  have hpad : padText (prepared P clean false (remaining P clean w)) = prepared P clean true (remaining P clean w) := by
    rw [← (ac_prepared P clean _).2, (ac_prepared P clean _).1]
  -- padding
  have hp : ((cjk = true → Reaches (prepared P clean false (remaining P clean w))
        (leftOver P clean w (sizeTable (sizes w))) (bytesLeft (sizes w) (slots P clean 0 w))) →
      ∃ s', (if cjk then doHandleChineseChars s else .ok s) = .ok s' ∧
        s'.normalized = prepared P clean cjk (remaining P clean w) ∧
        s'.ranges.length = (leftOver P clean w (sizeTable (sizes w))).length +
          ((prepared P clean cjk (remaining P clean w)).length - (remaining P clean w).length) ∧
        s'.normalized.length ≤ s'.ranges.length) ∧
      (¬ (cjk = true → Reaches (prepared P clean false (remaining P clean w))
        (leftOver P clean w (sizeTable (sizes w))) (bytesLeft (sizes w) (slots P clean 0 w))) →
      (if cjk then doHandleChineseChars s else .ok s) = .error (.ub .outOfBounds)) := by
    cases cjk with
    | false =>
      refine ⟨fun _ => ⟨s, rfl, e2, ?_, hroom⟩, fun h => absurd (fun h => nomatch h) h⟩
      rw [e3, hlen]; omega
    | true =>
      simp only [if_true, true_imp_iff]
      obtain ⟨q1, q2⟩ := cl_cjk hroom
      rw [e2, e3, e4, hpad, hlen] at q1
      rw [e2, e3, e4] at q2
      refine ⟨fun h => ?_, q2⟩
      obtain ⟨s', g1, g2, g3⟩ := q1 h
      have hge : (remaining P clean w).length ≤ (prepared P clean true (remaining P clean w)).length :=
        ac_prepared_length P clean true _
      rw [e2, e3, hlen] at hroom
      refine ⟨s', g1, g2, ?_, ?_⟩
      · omega
      · rw [g2]; omega
  by_cases hr : cjk = true → Reaches (prepared P clean false (remaining P clean w))
      (leftOver P clean w (sizeTable (sizes w))) (bytesLeft (sizes w) (slots P clean 0 w))
  case neg =>
    rw [hp.2 hr]
    exact ⟨fun h => absurd h.padded hr, fun _ => rfl⟩
  obtain ⟨s', g1, g2, g3, g4⟩ := hp.1 hr
  rw [g1, res_ok_bind]
  by_cases hsl : strip = true ∨ lower = true
  · have hor : (strip || lower) = true := by rcases hsl with e | e <;> simp [e]
    rw [hor]
    simp only [if_true]
    obtain ⟨a1, a2⟩ := ac_strip P g4 (k := k) (by rw [g2]; exact hk)
    rw [g2, g3] at a1 a2
    constructor
    · intro h
      obtain ⟨s'', b1, b2⟩ := a1 (h.marks hsl)
      rw [b1, res_ok_bind]
      refine ⟨_, rfl, ?_⟩
      have b2' : s''.normalized = (decomposed P clean cjk (remaining P clean w)).filter fun c => !P.isNSM c := b2
      unfold bertResult
      rw [if_pos hsl]
      cases lower <;> simp [doLowercase, stripped, b2']
    · intro h
      rw [a2 fun hm => h ⟨he, hr, fun _ => hm⟩]; rfl
  · have hor : (strip || lower) = false := by
      cases strip <;> cases lower <;> simp_all
    have hlo : lower = false := by cases lower <;> simp_all
    subst hlo
    rw [hor]
    refine ⟨fun _ => ⟨s', rfl, ?_⟩, fun h => absurd ⟨he, hr, fun h' => absurd h' hsl⟩ h⟩
    unfold bertResult
    rw [if_neg hsl, g2]

-- The conditions, on texts with dropped characters and ideographs.  NUL, a, tab, U+4E2D: all is well.
example : slots ascii true 0 [0, 0x61, 9, 0x4E2D] = [0] ∧ sizes [0, 0x61, 9, 0x4E2D] = [1, 1, 1, 3] ∧
    leftOver ascii true [0, 0x61, 9, 0x4E2D] (sizeTable (sizes [0, 0x61, 9, 0x4E2D])) = [(1, 1), (2, 1), (3, 3)] ∧
    remaining ascii true [0, 0x61, 9, 0x4E2D] = [0x61, 9, 0x4E2D] := by
  refine ⟨?_, ?_, ?_, ?_⟩ <;> decide +kernel
example : ((Normalizer.bert true true true true).run ascii (NS.ofText [0, 0x41, 9, 0x4E2D])).map (·.normalized) =
    .ok [0x61, 0x20, 0x20, 0x4E2D, 0x20] ∧
    bertResult ascii true true true true [0, 0x41, 9, 0x4E2D] = [0x61, 0x20, 0x20, 0x4E2D, 0x20] := by
  refine ⟨?_, ?_⟩ <;> decide +kernel
example : Mismatches (prepared ascii true true (remaining ascii true [0, 0x41, 9, 0x4E2D]))
    (decomposed ascii true true (remaining ascii true [0, 0x41, 9, 0x4E2D])) 0 := by
  have h : prepared ascii true true (remaining ascii true [0, 0x41, 9, 0x4E2D]) = [0x41, 0x20, 0x20, 0x4E2D, 0x20] ∧
      decomposed ascii true true (remaining ascii true [0, 0x41, 9, 0x4E2D]) = [0x41, 0x20, 0x20, 0x4E2D, 0x20] := by
    refine ⟨?_, ?_⟩ <;> decide +kernel
  rw [h.1, h.2]
  exact .equal _ (.equal _ (.equal _ (.equal _ (.equal _ (.textEnds _)))))

/-- **C97** The steps interfere: three NULs, a letter and an ideograph at the end.  Cleaning alone returns, but in the
shortened table the ideograph is no longer found: with `handle_chinese_chars` the behaviour is undefined. -/
theorem C97_interference :
    (∃ s, (Normalizer.bert true false false false).run ascii (NS.ofText ([0, 0, 0] ++ [97, 97, 97, 97, 97, 97] ++ [0x4E2D])) = .ok s) ∧
    (Normalizer.bert true true false false).run ascii (NS.ofText ([0, 0, 0] ++ [97, 97, 97, 97, 97, 97] ++ [0x4E2D])) =
      .error (.ub .outOfBounds) := by
  refine ⟨?_, ?_⟩
  · cases h : (Normalizer.bert true false false false).run ascii (NS.ofText ([0, 0, 0] ++ [97, 97, 97, 97, 97, 97] ++ [0x4E2D])) with
    | ok s => exact ⟨s, rfl⟩
    | error e =>
      have : ((Normalizer.bert true false false false).run ascii (NS.ofText ([0, 0, 0] ++ [97, 97, 97, 97, 97, 97] ++ [0x4E2D]))).isOk = true := by
        decide +kernel
      rw [h] at this; cases this
  · have h : (((Normalizer.bert true true false false).run ascii (NS.ofText ([0, 0, 0] ++ [97, 97, 97, 97, 97, 97] ++ [0x4E2D]))).map
        (·.normalized)) = .error (.ub .outOfBounds) := by decide +kernel
    cases h' : (Normalizer.bert true true false false).run ascii (NS.ofText ([0, 0, 0] ++ [97, 97, 97, 97, 97, 97] ++ [0x4E2D])) with
    | ok s => rw [h'] at h; cases h
    | error e => rw [h'] at h; simpa [Except.map] using h

end Tok
