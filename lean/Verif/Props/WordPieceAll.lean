import Verif.Props.WordPiece
import Verif.Proofs.Split
import Verif.Spec.WordPieceUnits

set_option autoImplicit false

/-!
C11–C13 for every vocabulary: WordPiece in terms of UTF-16 units.
-/

namespace Tok
open Spec

theorem wu_read {v : U16} {x : WStr} (h : ReadAs v x) : x = (u16Points v).map sanitize := by
  have half : ∀ c, 0xD800 ≤ c → c ≤ 0xDFFF → sanitize c = 0xFFFD := by
    intro c h1 h2; unfold sanitize; rw [if_neg]; rw [isScalar_iff]; omega
  induction h with
  | nil => rfl
  | @bmp c u w h1 h2 _ ih =>
    have hs : isScalar c = true := by rw [isScalar_iff]; omega
    have e : sanitize c = c := by unfold sanitize; rw [if_pos hs]
    cases u with
    | nil => rw [ih]; simp [u16Points, e]
    | cons d u => simp only [u16Points, not_lead_of_scalar hs, Bool.false_and, Bool.false_eq_true, if_false, List.map_cons, e]; rw [ih]
  | @pair x y u w hx hy _ ih =>
    have h1 : isLead (0xD800 + x) = true := by simp [isLead]; omega
    have h2 : isTrail (0xDC00 + y) = true := by simp [isTrail]; omega
    have h3 : pairCode (0xD800 + x) (0xDC00 + y) = 0x10000 + x * 1024 + y := by
      unfold pairCode; rw [Nat.add_sub_cancel_left, Nat.add_sub_cancel_left]
    have h4 : sanitize (0x10000 + x * 1024 + y) = 0x10000 + x * 1024 + y := by
      unfold sanitize; rw [if_pos]; rw [isScalar_iff]; omega
    simp only [u16Points, h1, h2, h3, Bool.and_self, if_true, List.map_cons, h4, ih]
  | @high x u w hx hn _ ih =>
    cases u with
    | nil => rw [ih]; simp only [u16Points, List.map_cons, half (0xD800 + x) (by omega) (by omega)]
    | cons d u =>
      have : isTrail d = false := by
        cases hd : isTrail d with
        | false => rfl
        | true =>
          simp [isTrail] at hd
          exact absurd (by simp; omega) (hn (d - 0xDC00) (by omega))
      simp only [u16Points, this, Bool.and_false, Bool.false_eq_true, if_false, List.map_cons, half (0xD800 + x) (by omega) (by omega)]
      rw [ih]
  | @low y u w hy _ ih =>
    have h1 : isLead (0xDC00 + y) = false := by simp [isLead]
    cases u with
    | nil => rw [ih]; simp only [u16Points, List.map_cons, half (0xDC00 + y) (by omega) (by omega)]
    | cons d u =>
      simp only [u16Points, h1, Bool.false_and, Bool.false_eq_true, if_false, List.map_cons, half (0xDC00 + y) (by omega) (by omega)]
      rw [ih]

theorem wu_reads (n : Nat) : ∀ v : U16, v.length ≤ n → (∀ c ∈ v, c < 0x10000) → ∃ x, ReadAs v x := by
  induction n with
  | zero => intro v h _; have := List.length_eq_zero_iff.1 (Nat.le_zero.1 h); subst this; exact ⟨_, .nil⟩
  | succ n ih =>
    intro v hl hv
    cases v with
    | nil => exact ⟨_, .nil⟩
    | cons c v =>
      simp only [List.length_cons] at hl
      obtain ⟨x, hx⟩ := ih v (by omega) fun d hd => hv d (by simp [hd])
      have hc := hv c (by simp)
      by_cases h1 : 0xD800 ≤ c ∧ c ≤ 0xDFFF
      · by_cases h2 : c < 0xDC00
        · by_cases h3 : ∃ y, y < 1024 ∧ v.head? = some (0xDC00 + y)
          · obtain ⟨y, hy, hh⟩ := h3
            cases v with
            | nil => cases hh
            | cons d v =>
              simp only [List.head?_cons, Option.some.injEq] at hh
              subst hh
              obtain ⟨x', hx'⟩ := ih v (by simp only [List.length_cons] at hl; omega) fun d hd => hv d (by simp [hd])
              have := ReadAs.pair (x := c - 0xD800) (by omega) hy hx'
              rw [show 0xD800 + (c - 0xD800) = c by omega] at this
              exact ⟨_, this⟩
          · have := ReadAs.high (x := c - 0xD800) (by omega) (fun y hy e => h3 ⟨y, hy, e⟩) hx
            rw [show 0xD800 + (c - 0xD800) = c by omega] at this
            exact ⟨_, this⟩
        · have := ReadAs.low (y := c - 0xDC00) (by omega) hx
          rw [show 0xDC00 + (c - 0xDC00) = c by omega] at this
          exact ⟨_, this⟩
      · exact ⟨_, .bmp hc h1 hx⟩

theorem wu_key {pre : Str} {first : Bool} {v : U16} {key : Str} (hv : ∀ c ∈ v, c < 0x10000) :
    UnitKey pre first v key ↔ key = if first then toUTF8String v else pre ++ toUTF8String v := by
  constructor
  · rintro ⟨x, s, h1, h2, h3⟩
    obtain ⟨_, rfl⟩ := utf8Text_iff.1 h2
    rw [wu_read h1] at h3; exact h3
  · intro h
    obtain ⟨x, hx⟩ := wu_reads _ v (Nat.le_refl _) hv
    have e := wu_read hx
    refine ⟨x, _, hx, utf8Text_iff.2 ⟨?_, rfl⟩, ?_⟩
    · intro c hc
      rw [e, List.mem_map] at hc
      obtain ⟨d, _, rfl⟩ := hc
      exact sanitize_scalar d
    · rw [e]; exact h

theorem wu_piece (m : WordPiece) (l v r : U16) :
    m.piece (l ++ (v ++ r)) l.length (l.length + v.length) = if l = [] then toUTF8String v else m.pre ++ toUTF8String v := by
  unfold WordPiece.piece tempSubString
  rw [Nat.add_sub_cancel_left, List.drop_left, List.take_left]
  cases l <;> simp

theorem wu_longest {m : WordPiece} {l u : U16} (hu : ∀ c ∈ u, c < 0x10000) : ∀ k, k ≤ u.length →
    (∀ v r key, u = v ++ r → k < v.length → UnitKey m.pre (decide (l = [])) v key → tokenToId m.vocab key = none) →
    match m.longest (l ++ u) l.length k with
    | none => ∀ v r key, u = v ++ r → v ≠ [] → UnitKey m.pre (decide (l = [])) v key → tokenToId m.vocab key = none
    | some t => ∃ v r, u = v ++ r ∧ LongestUnits (tokenToId m.vocab) m.pre (decide (l = [])) v r t.value t.id ∧
        t.offsets = (l.length, l.length + v.length) := by
  intro k
  induction k with
  | zero =>
    intro _ hno
    simp only [WordPiece.longest]
    intro v r key e hne
    exact hno v r key e (List.length_pos_iff.2 hne)
  | succ k ih =>
    intro hk hno
    simp only [WordPiece.longest]
    have e0 : u = u.take (k + 1) ++ u.drop (k + 1) := (List.take_append_drop _ _).symm
    have hl0 : (u.take (k + 1)).length = k + 1 := by rw [List.length_take]; omega
    have hp := wu_piece m l (u.take (k + 1)) (u.drop (k + 1))
    rw [← e0, hl0] at hp
    have hv0 : ∀ c ∈ u.take (k + 1), c < 0x10000 := fun c hc => hu c (List.mem_of_mem_take hc)
    have hkey : UnitKey m.pre (decide (l = [])) (u.take (k + 1)) (m.piece (l ++ u) l.length (l.length + (k + 1))) := by
      rw [wu_key hv0, hp]; simp
    cases hi : mapFind m.vocab (m.piece (l ++ u) l.length (l.length + (k + 1))) with
    | some i =>
      refine ⟨u.take (k + 1), u.drop (k + 1), e0, ⟨?_, hkey, hi, ?_⟩, by simp only [hl0]⟩
      · intro h; rw [h] at hl0; cases hl0
      · intro v' r' key' e' hlen hk'
        exact hno v' r' key' (e0.trans e') (by omega) hk'
    | none =>
      refine ih (by omega) ?_
      intro v r key e hlen hk'
      by_cases h : k + 1 < v.length
      · exact hno v r key e h hk'
      · have hvl : v.length = k + 1 := by omega
        have : v = u.take (k + 1) := by rw [e, ← hvl, List.take_left]
        subst this
        rw [wu_key hv0] at hk' hkey
        rw [hk', ← hkey]; exact hi

theorem wu_loop {m : WordPiece} {w : U16} (hw : ∀ c ∈ w, c < 0x10000) : ∀ (fuel : Nat) (l u : U16), w = l ++ u → u.length ≤ fuel →
    match m.loop w fuel l.length with
    | none => StuckUnits (tokenToId m.vocab) m.pre (decide (l = [])) u
    | some ts => GreedyUnits (tokenToId m.vocab) m.pre (decide (l = [])) l.length u ts := by
  intro fuel
  induction fuel with
  | zero =>
    intro l u e hf
    have : u = [] := List.length_eq_zero_iff.1 (Nat.le_zero.1 hf)
    subst this
    subst e
    unfold WordPiece.loop
    simp only [List.append_nil, Nat.lt_irrefl, if_false]
    exact .done
  | succ fuel ih =>
    intro l u e hf
    unfold WordPiece.loop
    by_cases hu : u = []
    · subst hu; subst e
      simp only [List.append_nil, Nat.lt_irrefl, if_false]
      exact .done
    · have hlt : l.length < w.length := by
        have := List.length_pos_iff.2 hu
        rw [e, List.length_append]; omega
      simp only [hlt, if_true]
      have hlong := wu_longest (m := m) (l := l) (u := u) (fun c hc => hw c (by rw [e]; simp [hc])) u.length (Nat.le_refl _) (by
        intro v r key e' hlen
        rw [e', List.length_append] at hlen; omega)
      have hsub : w.length - l.length = u.length := by rw [e, List.length_append]; omega
      rw [hsub, e]
      rw [← e] at hlong ⊢
      cases hL : m.longest w l.length u.length with
      | none =>
        rw [hL] at hlong
        exact .here hu hlong
      | some t =>
        rw [hL] at hlong
        obtain ⟨v, r, e', hG, ho⟩ := hlong
        simp only
        have hvne := List.length_pos_iff.2 hG.nonempty
        have hih := ih (l ++ v) r (by rw [e, e']; simp) (by rw [e', List.length_append] at hf; omega)
        have hnl : decide (l ++ v = []) = false := by simp [hG.nonempty]
        rw [hnl, List.length_append] at hih
        rw [ho]
        simp only
        generalize m.loop w fuel (l.length + v.length) = R at hih
        cases R with
        | none => rw [e']; exact .later hG hih
        | some ts =>
          have := GreedyUnits.take (pos := l.length) hG hih
          rw [e']
          obtain ⟨id, value, offsets⟩ := t
          simp only at ho; subst ho
          exact this

theorem wu_longest_unique {V : Str → Option Int} {pre : Str} {first : Bool} {v1 r1 v2 r2 : U16} {k1 k2 : Str} {i1 i2 : Int}
    (hw : ∀ c ∈ v1 ++ r1, c < 0x10000)
    (h1 : LongestUnits V pre first v1 r1 k1 i1) (h2 : LongestUnits V pre first v2 r2 k2 i2)
    (e : v1 ++ r1 = v2 ++ r2) : v1 = v2 ∧ r1 = r2 ∧ k1 = k2 ∧ i1 = i2 := by
  have hlen : v1.length = v2.length := by
    rcases Nat.lt_trichotomy v1.length v2.length with h | h | h
    · have := h1.longest v2 r2 k2 e h h2.key_of; rw [h2.known] at this; cases this
    · exact h
    · have := h2.longest v1 r1 k1 e.symm h h1.key_of; rw [h1.known] at this; cases this
  obtain ⟨rfl, rfl⟩ := List.append_inj e hlen
  have hv : ∀ c ∈ v1, c < 0x10000 := fun c hc => hw c (by simp [hc])
  have hk : k1 = k2 := by rw [(wu_key hv).1 h1.key_of, (wu_key hv).1 h2.key_of]
  subst hk
  have := h1.known.symm.trans h2.known
  exact ⟨rfl, rfl, rfl, by simpa using this⟩

theorem wu_not_stuck {V : Str → Option Int} {pre : Str} {first : Bool} {pos : Nat} {u : U16} {ts : List Token}
    (h : GreedyUnits V pre first pos u ts) : (∀ c ∈ u, c < 0x10000) → ¬ StuckUnits V pre first u := by
  induction h with
  | done =>
    intro _ h
    generalize hw : ([] : U16) = w at h
    cases h with
    | here h1 _ => exact h1 hw.symm
    | later hL _ => simp at hw; exact hL.nonempty hw.1
  | take hL _ ih =>
    rename_i v r key _ _ _
    intro hu h
    have hr : ∀ c ∈ r, c < 0x10000 := fun c hc => hu c (by simp [hc])
    generalize hw : v ++ r = w at h hu
    cases h with
    | here h1 h2 =>
      have := h2 v r key hw.symm hL.nonempty hL.key_of
      rw [hL.known] at this; cases this
    | later hL' h' =>
      obtain ⟨rfl, rfl, _, _⟩ := wu_longest_unique (by rw [hw]; exact hu) hL hL' hw
      exact ih hr h'

theorem wu_unique {V : Str → Option Int} {pre : Str} {first : Bool} {pos : Nat} {u : U16} {ts ts' : List Token}
    (h : GreedyUnits V pre first pos u ts) : (∀ c ∈ u, c < 0x10000) → GreedyUnits V pre first pos u ts' → ts = ts' := by
  induction h generalizing ts' with
  | done =>
    intro _ h'
    generalize hw : ([] : U16) = w at h'
    cases h' with
    | done => rfl
    | take hL _ => simp at hw; exact absurd hw.1 hL.nonempty
  | take hL _ ih =>
    rename_i v r _ _ _ _
    intro hu h'
    have hr : ∀ c ∈ r, c < 0x10000 := fun c hc => hu c (by simp [hc])
    generalize hw : v ++ r = w at h' hu
    cases h' with
    | done => simp at hw; exact absurd hw.1 hL.nonempty
    | take hL' hG' =>
      obtain ⟨rfl, rfl, rfl, rfl⟩ := wu_longest_unique (by rw [hw]; exact hu) hL hL' hw
      rw [ih hr hG']

theorem wu_lt {w : WStr} (hw : Scalars w) : ∀ c ∈ utf16 w, c < 0x10000 := by
  induction w with
  | nil => simp
  | cons d w ih =>
    rw [Scalars.cons] at hw
    have hd := isScalar_iff.1 hw.1
    intro c hc
    rw [utf16_cons, List.mem_append] at hc
    rcases hc with hc | hc
    · unfold utf16Enc1 at hc
      split at hc
      · simp at hc; omega
      · simp at hc; omega
    · exact ih hw.2 c hc

/-- **C12, C13** for every vocabulary, without exception: cut between UTF-16 units, half a code point reading as U+FFFD, WordPiece
answers with the unknown token exactly when the word is too long or greedy segmentation gets stuck, and otherwise with the greedy
segmentation. -/
theorem C12_answer_all (m : WordPiece) (s : Str) (w : WStr) (u : U16) (hs : Utf8Text w s) (hu : Utf16Text w u) (ts : List Token) :
    UnitsAnswer (tokenToId m.vocab) m.pre m.unkToken m.maxChars u ts ↔ m.word s = ts := by
  obtain ⟨hsc, rfl⟩ := utf8Text_iff.1 hs
  obtain ⟨_, rfl⟩ := utf16Text_iff.1 hu
  have hlt := wu_lt hsc
  have hunk : m.unk (utf16 w).length =
      [{ id := (tokenToId m.vocab m.unkToken).getD 0, value := m.unkToken, offsets := (0, (utf16 w).length) }] := by
    have := word_unk (m := m) _ w (units_eq w)
    rw [this, UnkAnswer, units_eq]
  have hloop := wu_loop (m := m) hlt (utf16 w).length [] (utf16 w) rfl (Nat.le_refl _)
  simp only [List.length_nil, decide_true] at hloop
  unfold UnitsAnswer WordPiece.word
  simp only [fromUTF8_utf8 hsc]
  by_cases hlong : ((utf16 w).length : Int) > m.maxChars
  · rw [if_pos hlong, hunk]
    constructor
    · rintro (⟨_, h⟩ | ⟨h, _⟩)
      · exact h.symm
      · omega
    · rintro rfl; exact .inl ⟨.inl hlong, rfl⟩
  · rw [if_neg hlong]
    generalize m.loop (utf16 w) (utf16 w).length 0 = R at hloop
    cases R with
    | none =>
      simp only [hunk]
      constructor
      · rintro (⟨_, h⟩ | ⟨_, h, _⟩)
        · exact h.symm
        · exact absurd hloop h
      · rintro rfl; exact .inl ⟨.inr hloop, rfl⟩
    | some ts' =>
      simp only at hloop ⊢
      have hns := wu_not_stuck hloop hlt
      constructor
      · rintro (⟨h, _⟩ | ⟨_, _, h⟩)
        · exact (h.elim hlong hns).elim
        · exact wu_unique hloop hlt h
      · rintro rfl; exact .inr ⟨by omega, hns, hloop⟩

/-- **C11** for every vocabulary: unless WordPiece answers with the unknown token, the word falls into consecutive non-empty pieces,
one for each token, and each token is a vocabulary entry with its id, covers its piece, and is the key of its piece. -/
theorem C11_spell_all (m : WordPiece) (s : Str) (w : WStr) (u : U16) (hs : Utf8Text w s) (hu : Utf16Text w u)
    (hunk : m.word s ≠ UnkAnswer (tokenToId m.vocab) m.unkToken w) :
    (∀ t ∈ m.word s, tokenToId m.vocab t.value = some t.id) ∧
    ∃ vs : List U16, vs.flatten = u ∧ (∀ v ∈ vs, v ≠ []) ∧
      Each (fun v (t : Token) => t.offsets.2 = t.offsets.1 + v.length) vs (m.word s) ∧
      ∀ i v t, vs[i]? = some v → (m.word s)[i]? = some t → UnitKey m.pre (decide (i = 0)) v t.value := by
  have h := (C12_answer_all m s w u hs hu _).2 rfl
  unfold UnitsAnswer at h
  have hul : u.length = units w := by obtain ⟨_, rfl⟩ := utf16Text_iff.1 hu; exact (units_eq w).symm
  rcases h with ⟨_, h⟩ | ⟨_, _, h⟩
  · rw [hul] at h; exact absurd h hunk
  · have gen : ∀ {first : Bool} {pos : Nat} {u : U16} {ts : List Token}, GreedyUnits (tokenToId m.vocab) m.pre first pos u ts →
        (∀ t ∈ ts, tokenToId m.vocab t.value = some t.id) ∧
        ∃ vs : List U16, vs.flatten = u ∧ (∀ v ∈ vs, v ≠ []) ∧
          Each (fun v (t : Token) => t.offsets.2 = t.offsets.1 + v.length) vs ts ∧
          ∀ i v t, vs[i]? = some v → ts[i]? = some t → UnitKey m.pre (first && decide (i = 0)) v t.value := by
      intro first pos u ts h
      induction h with
      | done => exact ⟨by simp, [], rfl, by simp, .nil, by simp⟩
      | take hL _ ih =>
        rename_i first pos v r key id ts _
        obtain ⟨h1, vs, h2, h0, h3, h4⟩ := ih
        refine ⟨?_, v :: vs, by simp [h2], ?_, .cons rfl h3, ?_⟩
        · intro t ht; simp at ht; rcases ht with rfl | ht
          · exact hL.known
          · exact h1 t ht
        · intro x hx; simp at hx; rcases hx with rfl | hx
          · exact hL.nonempty
          · exact h0 x hx
        · intro i v' t hv ht
          cases i with
          | zero => simp at hv ht; subst hv ht; simpa using hL.key_of
          | succ i =>
            have := h4 i v' t (by simpa using hv) (by simpa using ht)
            simpa using this
    simpa using gen h

/-! ### Examples -/

/-- A vocabulary with U+FFFD: the two halves of 😀 are two tokens. -/
def halfWP : WordPiece := { sampleWP with vocab := [(b!"�", 1), (b!"##�", 2), (b!"[UNK]", 7)] }

theorem half_text : Utf8Text w!"😀" b!"😀" := (C02_to_string_iff _ _).1 (by decide)
theorem half_units : Utf16Text w!"😀" [0xD83D, 0xDE00] := Utf16Text.pair (x := 0x3D) (y := 0x200) (by decide) (by decide) .nil

example : UnitsAnswer (tokenToId halfWP.vocab) b!"##" b!"[UNK]" 100 [0xD83D, 0xDE00]
    [⟨1, b!"�", (0, 1)⟩, ⟨2, b!"##�", (1, 2)⟩] :=
  (C12_answer_all halfWP b!"😀" w!"😀" _ half_text half_units _).2 (by decide +kernel)

example : ∀ t ∈ halfWP.word b!"😀", tokenToId halfWP.vocab t.value = some t.id :=
  (C11_spell_all halfWP b!"😀" w!"😀" _ half_text half_units (by decide +kernel)).1

end Tok
