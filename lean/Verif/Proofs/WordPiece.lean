import Verif.Proofs.ByteLevel
import Verif.Spec.WordPiece
import Verif.WordPiece

set_option autoImplicit false

/-! Lemmas on WordPiece. -/

namespace Tok
open Spec

theorem pieceKey_iff {pre : Str} {first : Bool} {v : WStr} {key : Str} (hv : Scalars v) :
    PieceKey pre first v key ↔ key = if first then utf8 v else pre ++ utf8 v := by
  constructor
  · rintro ⟨s, h1, h2⟩
    obtain ⟨_, rfl⟩ := utf8Text_iff.1 h1; exact h2
  · intro h; exact ⟨utf8 v, utf8Text_iff.2 ⟨hv, rfl⟩, h⟩

/-! ### Tiling, for every word -/

theorem longest_offsets {m : WordPiece} {u : U16} {start k : Nat} {t : Token}
    (h : m.longest u start k = some t) : t.offsets.1 = start ∧ start < t.offsets.2 ∧ t.offsets.2 ≤ start + k := by
  induction k with
  | zero => simp [WordPiece.longest] at h
  | succ k ih =>
    simp only [WordPiece.longest] at h
    split at h
    · simp at h; subst h; simp
    · have := ih h; omega

theorem loop_tiles {m : WordPiece} {u : U16} : ∀ (fuel start : Nat) {ts : List Token}, start ≤ u.length →
    m.loop u fuel start = some ts →
    Tiles start (ts.map (·.offsets)) u.length ∧ ∀ t ∈ ts, t.offsets.1 < t.offsets.2 := by
  intro fuel
  induction fuel with
  | zero =>
    intro start ts hs h
    unfold WordPiece.loop at h
    split at h
    · simp at h
    · simp at h; subst h; exact ⟨by show start = u.length; omega, by simp⟩
  | succ fuel ih =>
    intro start ts hs h
    unfold WordPiece.loop at h
    split at h
    · simp only at h
      split at h
      · simp at h
      · rename_i t ht
        obtain ⟨h1, h2, h3⟩ := longest_offsets ht
        simp only [Option.map_eq_some_iff] at h
        obtain ⟨ts', h4, rfl⟩ := h
        obtain ⟨h5, h6⟩ := ih _ (by omega) h4
        refine ⟨⟨h1, by show t.offsets.1 ≤ t.offsets.2; omega, h5⟩, ?_⟩
        intro x hx; simp at hx; rcases hx with rfl | hx
        · show x.offsets.1 < x.offsets.2; omega
        · exact h6 x hx
    · simp at h; subst h; exact ⟨by show start = u.length; omega, by simp⟩

/-! ### Pieces at code point boundaries -/

/-- Cutting a text after `k` units. -/
theorem take_units {w : WStr} (hw : Scalars w) : ∀ k, k ≤ units w →
    (∃ v r, w = v ++ r ∧ units v = k ∧ (utf16 w).take k = utf16 v) ∨
    (∃ v c r, w = v ++ c :: r ∧ 0x10000 ≤ c ∧ units v + 1 = k ∧
      ∃ x, x < 1024 ∧ (utf16 w).take k = utf16 v ++ [0xD800 + x]) := by
  induction w with
  | nil => intro k hk; exact .inl ⟨[], [], rfl, by simp [units] at hk ⊢; exact hk.symm, by simp⟩
  | cons c w ih =>
    intro k hk
    rw [Scalars.cons] at hw
    have hcs := isScalar_iff.1 hw.1
    simp only [units] at hk
    rcases Nat.eq_zero_or_pos k with rfl | hpos
    · exact .inl ⟨[], c :: w, rfl, rfl, by simp⟩
    · by_cases hc : c < 0x10000
      · simp only [hc, if_true] at hk
        obtain ⟨j, rfl⟩ : ∃ j, k = j + 1 := ⟨k - 1, by omega⟩
        have htake : ∀ n, (utf16 (c :: w)).take (n + 1) = c :: (utf16 w).take n := by
          intro n; simp [utf16Enc1, hc]
        rcases ih hw.2 j (by omega) with ⟨v, r, e, hu, ht⟩ | ⟨v, d, r, e, hd, hu, x, hx, ht⟩
        · refine .inl ⟨c :: v, r, by simp [e], by simp [units, hc, hu]; omega, ?_⟩
          rw [htake, ht]; simp [utf16Enc1, hc]
        · refine .inr ⟨c :: v, d, r, by simp [e], hd, by simp [units, hc]; omega, x, hx, ?_⟩
          rw [htake, ht]; simp [utf16Enc1, hc]
      · simp only [hc, if_false] at hk
        rcases Nat.lt_or_ge k 2 with hk1 | hk2
        · obtain rfl : k = 1 := by omega
          refine .inr ⟨[], c, w, rfl, by omega, rfl, (c - 0x10000) / 1024, by omega, ?_⟩
          simp [utf16Enc1, hc]
        · obtain ⟨j, rfl⟩ : ∃ j, k = j + 2 := ⟨k - 2, by omega⟩
          have htake : ∀ n, (utf16 (c :: w)).take (n + 2) = utf16Enc1 c ++ (utf16 w).take n := by
            intro n
            have hl : (utf16Enc1 c).length = 2 := by simp [utf16Enc1, hc]
            rw [utf16_cons, List.take_append, hl, List.take_of_length_le (by omega)]
            simp
          rcases ih hw.2 j (by omega) with ⟨v, r, e, hu, ht⟩ | ⟨v, d, r, e, hd, hu, x, hx, ht⟩
          · refine .inl ⟨c :: v, r, by simp [e], by simp [units, hc, hu]; omega, ?_⟩
            rw [htake, ht]; rfl
          · refine .inr ⟨c :: v, d, r, by simp [e], hd, by simp [units, hc]; omega, x, hx, ?_⟩
            rw [htake, ht]; simp

/-- The text of a piece that ends in the middle of a code point. -/
theorem toUTF8String_half {v : WStr} (hv : Scalars v) {x : Nat} (hx : x < 1024) :
    toUTF8String (utf16 v ++ [0xD800 + x]) = utf8 v ++ [0xEF, 0xBF, 0xBD] := by
  have hs : sanitize (0xD800 + x) = 0xFFFD := by
    unfold sanitize
    rw [if_neg]
    rw [isScalar_iff]; omega
  unfold toUTF8String
  rw [u16Points_utf16_append hv]
  simp only [u16Points, List.map_append, List.map_cons, List.map_nil, hs, map_sanitize hv, utf8_append,
    utf8_cons, utf8_nil]
  rfl

theorem piece_text {m : WordPiece} {l r : WStr} (hw : Scalars (l ++ r)) {k : Nat} (hk : k ≤ units r) :
    (∃ v r', r = v ++ r' ∧ units v = k ∧ m.piece (utf16 (l ++ r)) (units l) (units l + k) =
      if l = [] then utf8 v else m.pre ++ utf8 v) ∨
    (∃ v c r', r = v ++ c :: r' ∧ 0x10000 ≤ c ∧ HasReplacement (m.piece (utf16 (l ++ r)) (units l) (units l + k))) := by
  rw [Scalars.append] at hw
  have hsub : tempSubString (utf16 (l ++ r)) (units l) k = (utf16 r).take k := by
    unfold tempSubString
    rw [utf16_append, units_eq, List.drop_left]
  have hpos : (units l > 0) ↔ ¬ l = [] := by
    constructor
    · intro h e; subst e; simp [units] at h
    · exact units_pos
  have hp : m.piece (utf16 (l ++ r)) (units l) (units l + k) =
      if l = [] then toUTF8String ((utf16 r).take k) else m.pre ++ toUTF8String ((utf16 r).take k) := by
    unfold WordPiece.piece
    simp only [Nat.add_sub_cancel_left, hsub, hpos]
    by_cases hl : l = [] <;> simp [hl]
  rcases take_units hw.2 k hk with ⟨v, r', e, hu, ht⟩ | ⟨v, c, r', e, hc, hu, x, hx, ht⟩
  · have hv : Scalars v := hw.2.sub (by intro c hc; rw [e]; simp [hc])
    exact .inl ⟨v, r', e, hu, by rw [hp, ht, toUTF8String_utf16 hv]⟩
  · have hv : Scalars v := hw.2.sub (by intro c hc; rw [e]; simp [hc])
    refine .inr ⟨v, c, r', e, hc, ?_⟩
    rw [hp, ht, toUTF8String_half hv hx]
    split
    · exact ⟨utf8 v, [], by simp⟩
    · exact ⟨m.pre ++ utf8 v, [], by simp⟩

theorem prefix_len_units {v r v' r' : WStr} (h : v ++ r = v' ++ r') : v.length < v'.length ↔ units v < units v' := by
  rcases Nat.le_total (units v) (units v') with hu | hu
  · obtain ⟨x, h1, _⟩ := prefix_units h hu
    rw [h1, units_append, List.length_append]
    have : 0 < units x ↔ 0 < x.length := by
      rw [List.length_pos_iff]
      exact ⟨fun h e => by subst e; simp [units] at h, units_pos⟩
    omega
  · obtain ⟨x, h1, _⟩ := prefix_units h.symm hu
    rw [h1, units_append, List.length_append]; omega

/-- The inner loop finds the longest piece. -/
theorem longest_spec {m : WordPiece} {l r : WStr} (hw : Scalars (l ++ r))
    (hclean : CleanWord (tokenToId m.vocab) (l ++ r)) : ∀ k, k ≤ units r →
    (∀ v r', r = v ++ r' → k < units v →
      tokenToId m.vocab (if l = [] then utf8 v else m.pre ++ utf8 v) = none) →
    match m.longest (utf16 (l ++ r)) (units l) k with
    | none => NoPiece (tokenToId m.vocab) m.pre (decide (l = [])) r
    | some t => ∃ v r', r = v ++ r' ∧ Longest (tokenToId m.vocab) m.pre (decide (l = [])) v r' t.value t.id ∧
        t.offsets = (units l, units l + units v) := by
  have hr : Scalars r := (Scalars.append.1 hw).2
  intro k
  induction k with
  | zero =>
    intro _ hno
    simp only [WordPiece.longest]
    intro v r' key e hne hkey
    have hv : Scalars v := hr.sub (by intro c hc; rw [e]; simp [hc])
    rw [pieceKey_iff hv] at hkey
    subst hkey
    have := hno v r' e (units_pos hne)
    simpa using this
  | succ k ih =>
    intro hk hno
    simp only [WordPiece.longest]
    cases hi : mapFind m.vocab (m.piece (utf16 (l ++ r)) (units l) (units l + (k + 1))) with
    | some i =>
      rcases piece_text (m := m) hw hk with ⟨v, r', e, hu, hp⟩ | ⟨v, c, r', e, hc, hrep⟩
      · rw [hp] at hi
        have hv : Scalars v := hr.sub (by intro c hc; rw [e]; simp [hc])
        refine ⟨v, r', e, ⟨?_, ?_, ?_, ?_⟩, by simp [hu]⟩
        · intro h0; subst h0; simp [units] at hu
        · rw [pieceKey_iff hv]; simp only [hp]; simp
        · simp only [hp]; exact hi
        · intro v' r'' key' e' hlen hkey
          have hv' : Scalars v' := hr.sub (by intro c hc; rw [e, e']; simp [hc])
          rw [pieceKey_iff hv'] at hkey
          subst hkey
          have := hno v' r'' (e.trans e') (by rw [prefix_len_units e'] at hlen; omega)
          simpa using this
      · exfalso
        rcases hclean with h | h
        · have := h c (by rw [e]; simp); omega
        · have := h _ hrep
          rw [tokenToId, hi] at this; cases this
    | none =>
      have hno' : ∀ v r', r = v ++ r' → k < units v →
          tokenToId m.vocab (if l = [] then utf8 v else m.pre ++ utf8 v) = none := by
        intro v r' e hu
        by_cases h : k + 1 < units v
        · exact hno v r' e h
        · have huv : units v = k + 1 := by omega
          rcases piece_text (m := m) hw hk with ⟨v2, r2, e2, hu2, hp⟩ | ⟨v2, c, r2, e2, hc, hrep⟩
          · obtain ⟨h1, _⟩ := units_ext (e.symm.trans e2) (by omega)
            subst h1
            rw [← hp]; exact hi
          · -- the cut after `k + 1` units is a code point boundary, so the text is clean
            have hv : Scalars v := hr.sub (by intro c hc; rw [e]; simp [hc])
            have : m.piece (utf16 (l ++ r)) (units l) (units l + (k + 1)) =
                if l = [] then utf8 v else m.pre ++ utf8 v := by
              unfold WordPiece.piece tempSubString
              rw [Nat.add_sub_cancel_left, utf16_append, units_eq l, List.drop_left, e, utf16_append, ← huv,
                units_eq v, List.take_left, toUTF8String_utf16 hv]
              by_cases hl : l = []
              · simp [hl]
              · have : 0 < (utf16 l).length := by rw [← units_eq]; exact units_pos hl
                simp [hl, this]
            rw [← this]; exact hi
      exact ih (by omega) hno'

theorem loop_spec {m : WordPiece} {w : WStr} (hw : Scalars w) (hclean : CleanWord (tokenToId m.vocab) w) :
    ∀ (fuel : Nat) (l r : WStr), w = l ++ r → units r ≤ fuel →
    match m.loop (utf16 w) fuel (units l) with
    | none => Stuck (tokenToId m.vocab) m.pre (decide (l = [])) r
    | some ts => Greedy (tokenToId m.vocab) m.pre (decide (l = [])) (units l) r ts := by
  intro fuel
  induction fuel with
  | zero =>
    intro l r e hf
    have hr0 : r = [] := units_eq_zero.1 (by omega)
    subst hr0
    unfold WordPiece.loop
    have : ¬ units l < (utf16 w).length := by rw [← units_eq, e, units_append]; simp [units]
    simp only [this, if_false]
    exact .done
  | succ fuel ih =>
    intro l r e hf
    unfold WordPiece.loop
    have hlen : (utf16 w).length = units l + units r := by rw [← units_eq, e, units_append]
    by_cases hr0 : r = []
    · subst hr0
      have : ¬ units l < (utf16 w).length := by rw [hlen]; simp [units]
      simp only [this, if_false]
      exact .done
    · have hpos := units_pos hr0
      have : units l < (utf16 w).length := by omega
      simp only [this, if_true]
      have hk : (utf16 w).length - units l = units r := by omega
      rw [hk]
      have hlong := longest_spec (m := m) (l := l) (r := r) (by rw [← e]; exact hw) (by rw [← e]; exact hclean)
        (units r) (Nat.le_refl _) (by
          intro v r' e' hu
          have : units r = units v + units r' := by rw [e', units_append]
          omega)
      rw [← e] at hlong
      cases hlo : m.longest (utf16 w) (units l) (units r) with
      | none =>
        rw [hlo] at hlong
        exact .here hr0 hlong
      | some t =>
        rw [hlo] at hlong
        obtain ⟨v, r', e', hL, ho⟩ := hlong
        simp only [ho]
        have hv := units_pos hL.nonempty
        have hur : units r = units v + units r' := by rw [e', units_append]
        have hne : ¬ l ++ v = [] := by simp [hL.nonempty]
        have hrec := ih (l ++ v) r' (by rw [e, e']; simp) (by omega)
        simp only [units_append, hne, decide_false] at hrec
        cases hlp : m.loop (utf16 w) fuel (units l + units v) with
        | none =>
          rw [hlp] at hrec
          simp only [Option.map_none]
          rw [e']; exact .later hL hrec
        | some ts =>
          rw [hlp] at hrec
          simp only [Option.map_some]
          rw [e']
          have := Greedy.take hL hrec
          obtain ⟨i, val, off⟩ := t
          simp only at ho; subst ho
          exact this

theorem word_unk {m : WordPiece} (n : Nat) (w : WStr) (hn : units w = n) :
    m.unk n = UnkAnswer (tokenToId m.vocab) m.unkToken w := by
  unfold WordPiece.unk UnkAnswer tokenToId
  split <;> simp_all

end Tok
