import Verif.Proofs.Extract2
import Verif.Spec.Recognized

set_option autoImplicit false

namespace Tok
open Spec

/-! ### The scan finds exactly the recognized occurrences -/

/-- What the table says about the units from `a` to `b`. -/
def keyAt (ids : List (Str × Int)) (u : U16) (a b : Nat) : Option Int :=
  mapFind ids (toUTF8String (tempSubString u a (b - a)))

def ShortK (ids : List (Str × Int)) (u : U16) (a b : Nat) (i : Int) : Prop :=
  a < b ∧ b ≤ u.length ∧ keyAt ids u a b = some i ∧ (∀ j, a ≤ j → j < b → u[j]? ≠ some 0x20) ∧
  ∀ c, a < c → c < b → keyAt ids u a c = none

inductive RecK (ids : List (Str × Int)) (u : U16) : Nat → Nat → Int → Prop
  | first {b : Nat} {i : Int} : ShortK ids u 0 b i → RecK ids u 0 b i
  | word {a b : Nat} {i : Int} : u[a]? = some 0x20 → ShortK ids u (a + 1) b i → RecK ids u (a + 1) b i
  | next {a b c : Nat} {i j : Int} : RecK ids u a b i → ShortK ids u b c j → RecK ids u b c j

def StartK (ids : List (Str × Int)) (u : U16) (s : Nat) : Prop :=
  s = 0 ∨ (∃ a, s = a + 1 ∧ u[a]? = some 0x20) ∨ ∃ a i, RecK ids u a s i

theorem rc_of_start {ids : List (Str × Int)} {u : U16} {s b : Nat} {i : Int} (h : StartK ids u s)
    (hs : ShortK ids u s b i) : RecK ids u s b i := by
  rcases h with rfl | ⟨a, rfl, h⟩ | ⟨a, j, h⟩
  · exact .first hs
  · exact .word h hs
  · exact .next h hs

theorem rc_sound (ids : List (Str × Int)) (u : U16) (hne : ∀ a, keyAt ids u a a = none) (rest : U16) :
    ∀ i cur, u.drop i = rest → i ≤ u.length → cur ≤ i → StartK ids u cur →
    (∀ j, cur ≤ j → j < i → u[j]? ≠ some 0x20) → (∀ c, cur < c → c < i → keyAt ids u cur c = none) →
    ∀ m ∈ scan ids u rest i cur, RecK ids u m.1 m.2.1 m.2.2 := by
  induction rest with
  | nil =>
    intro i cur hd hi hc hst hsp hno m hm
    simp only [scan] at hm
    split at hm
    · rename_i hic
      split at hm
      · rename_i k hk
        simp only [List.mem_singleton] at hm
        subst hm
        exact rc_of_start hst ⟨show cur < i by omega, hi, hk, hsp, hno⟩
      · cases hm
    · cases hm
  | cons c rest ih =>
    intro i cur hd hi hc hst hsp hno m hm
    have hi' : i < u.length := by
      rcases Nat.lt_or_ge i u.length with h | h
      · exact h
      · rw [List.drop_eq_nil_of_le h] at hd; cases hd
    have hget : u[i]? = some c := by
      have := congrArg List.head? hd
      rw [List.head?_drop] at this
      simpa using this
    have hd' : u.drop (i + 1) = rest := by
      have := congrArg List.tail hd
      simpa using this
    simp only [scan] at hm
    have hnew : ∀ cur', StartK ids u cur' → (c ≠ 0x20 → cur' ≤ i) →
        (c ≠ 0x20 → ∀ j, cur' ≤ j → j < i → u[j]? ≠ some 0x20) →
        (c ≠ 0x20 → ∀ x, cur' < x → x < i + 1 → keyAt ids u cur' x = none) →
        ∀ m ∈ scan ids u rest (i + 1) (if c = 0x20 then i + 1 else cur'), RecK ids u m.1 m.2.1 m.2.2 := by
      clear hm
      intro cur' h1 h0 h2 h3 m hm
      by_cases hcs : c = 0x20
      · rw [if_pos hcs] at hm
        subst hcs
        exact ih (i + 1) (i + 1) hd' hi' (Nat.le_refl _) (.inr (.inl ⟨i, rfl, hget⟩)) (fun j _ _ => by omega)
          (fun x _ _ => by omega) m hm
      · rw [if_neg hcs] at hm
        refine ih (i + 1) cur' hd' hi' (by have := h0 hcs; omega) h1 ?_ (h3 hcs) m hm
        intro j hj1 hj2
        by_cases hji : j = i
        · subst hji; rw [hget]; simpa using hcs
        · exact h2 hcs j hj1 (by omega)
    split at hm
    · rename_i k hk
      have hci : cur < i := by
        rcases Nat.lt_or_ge cur i with h | h
        · exact h
        · have : cur = i := by omega
          subst this
          have := hne cur
          unfold keyAt at this
          rw [this] at hk; cases hk
      have hrec := rc_of_start hst ⟨hci, hi, hk, hsp, hno⟩
      rcases List.mem_cons.1 hm with rfl | hm
      · exact hrec
      · exact hnew i (.inr (.inr ⟨_, _, hrec⟩)) (fun _ => Nat.le_refl _) (fun _ j _ _ => by omega)
          (fun _ x _ _ => by omega) m hm
    · rename_i hk
      refine hnew cur hst (fun _ => hc) (fun _ => hsp) (fun _ x h1 h2 => ?_) m hm
      by_cases hx : x = i
      · subst hx; exact hk
      · exact hno x h1 (by omega)

theorem rc_step {ids : List (Str × Int)} {u : U16} {s b : Nat} {i : Int} (hne : ∀ a, keyAt ids u a a = none)
    (h : ShortK ids u s b i) :
    scan ids u (u.drop s) s s = (s, b, i) :: scan ids u (u.drop b) b b := by
  obtain ⟨h1, h2, h3, h4, h5⟩ := h
  have gen : ∀ n j, j + n = b → s ≤ j →
      scan ids u (u.drop j) j s = scan ids u (u.drop b) b s := by
    intro n
    induction n with
    | zero => intro j hj _; have : j = b := by omega
              subst this; rfl
    | succ n ih =>
      intro j hj hsj
      have hjl : j < u.length := by omega
      rw [List.drop_eq_getElem_cons hjl]
      simp only [scan]
      have hk : keyAt ids u s j = none := by
        by_cases hjs : j = s
        · subst hjs; exact hne j
        · exact h5 j (by omega) (by omega)
      unfold keyAt at hk
      rw [hk]
      simp only
      have hsp := h4 j hsj (by omega)
      rw [List.getElem?_eq_getElem hjl] at hsp
      rw [if_neg (by simpa using hsp)]
      exact ih (j + 1) (by omega) (by omega)
  rw [gen (b - s) s (by omega) (Nat.le_refl _)]
  unfold keyAt at h3
  by_cases hb : b = u.length
  · rw [List.drop_eq_nil_of_le (by omega)]
    simp only [scan]
    rw [if_pos (by omega), h3]
    simp
  · have hbl : b < u.length := by omega
    rw [List.drop_eq_getElem_cons hbl]
    have hbb := hne b
    unfold keyAt at hbb
    simp only [scan, h3, hbb]

theorem rc_reach {ids : List (Str × Int)} {u : U16} (hne : ∀ a, keyAt ids u a a = none) {a b : Nat} {i : Int}
    (h : RecK ids u a b i) :
    (a, b, i) ∈ scan ids u u 0 0 ∧ ∃ ms, scan ids u u 0 0 = ms ++ scan ids u (u.drop b) b b := by
  induction h with
  | @first b i hs =>
    have := rc_step hne hs
    rw [List.drop_zero] at this
    rw [this]
    exact ⟨by simp, [(0, b, i)], rfl⟩
  | @word a b i hsp hs =>
    have hal : a < u.length := by
      rcases Nat.lt_or_ge a u.length with h | h
      · exact h
      · rw [List.getElem?_eq_none h] at hsp; cases hsp
    obtain ⟨ms, hm⟩ := scan_after_space ids u (u.drop (a + 1)) (u.take (a + 1)) 0 0 (by
        intro h; have := congrArg List.length h; simp at this; rw [this] at hal; simp at hal) (by
        rw [List.getLast?_eq_getElem?, List.length_take]
        have : min (a + 1) u.length - 1 = a := by omega
        rw [this, List.getElem?_take, if_pos (by omega)]; exact hsp)
    have hl : 0 + (u.take (a + 1)).length = a + 1 := by rw [List.length_take]; omega
    rw [List.take_append_drop, hl, rc_step hne hs] at hm
    rw [hm]
    exact ⟨by simp, ms ++ [(a + 1, b, i)], by simp⟩
  | @next a b c i j hr hs ih =>
    obtain ⟨_, ms, hm⟩ := ih
    rw [rc_step hne hs] at hm
    rw [hm]
    exact ⟨by simp, ms ++ [(b, c, j)], by simp⟩

theorem scan_iff {ids : List (Str × Int)} {u : U16} (hne : ∀ a, keyAt ids u a a = none) {a b : Nat} {i : Int} :
    (a, b, i) ∈ scan ids u u 0 0 ↔ RecK ids u a b i :=
  ⟨fun h => rc_sound ids u hne u 0 0 (by simp) (by omega) (by omega) (.inl rfl) (by omega) (by omega) _ h,
    fun h => (rc_reach hne h).1⟩

/-! ### In terms of the text -/

theorem between_part (w : WStr) (a b : Nat) : between w a b = part w a b := rfl

theorem entryAt_iff {T : List (Str × Int)} {w : WStr} (hw : Bmp w) (hf : ∀ k i j, (k, i) ∈ T → (k, j) ∈ T → i = j)
    {a b : Nat} (hb : b ≤ w.length) {i : Int} : EntryAt T w a b i ↔ keyAt (wordIds T) w a b = some i := by
  have hp : Bmp (part w a b) := bmp_sub hw fun c hc => part_mem hc
  have e : toUTF8String (tempSubString w a (b - a)) = utf8 (part w a b) := by
    have := toUTF8String_utf16 (bmp_scalars hp)
    rw [utf16_bmp hp] at this
    exact this
  unfold keyAt
  rw [e]
  constructor
  · rintro ⟨_, k, hk, hin⟩
    obtain ⟨-, rfl⟩ := utf8Text_iff.1 hk
    exact wordIds_find hin fun j hj => hf _ _ _ hj hin
  · intro h
    exact ⟨hb, _, utf8Text_iff.2 ⟨bmp_scalars hp, rfl⟩, wordIds_mem h⟩

theorem shortestAt_iff {T : List (Str × Int)} {w : WStr} (hw : Bmp w)
    (hf : ∀ k i j, (k, i) ∈ T → (k, j) ∈ T → i = j) {a b : Nat} {i : Int} :
    ShortestAt T w a b i ↔ ShortK (wordIds T) w a b i := by
  constructor
  · rintro ⟨h1, h2, h3, h4⟩
    have hb := h2.1
    refine ⟨h1, hb, (entryAt_iff hw hf hb).1 h2, ?_, ?_⟩
    · intro j hj1 hj2 hc
      refine h3 0x20 ?_ rfl
      refine List.mem_iff_getElem?.2 ⟨j - a, ?_⟩
      unfold between
      rw [List.getElem?_take, if_pos (by omega), List.getElem?_drop]
      have : a + (j - a) = j := by omega
      rw [this]; exact hc
    · intro c hc1 hc2
      cases hk : keyAt (wordIds T) w a c with
      | none => rfl
      | some j => exact absurd ((entryAt_iff hw hf (by omega)).2 hk) (h4 c j hc1 hc2)
  · rintro ⟨h1, hb, h2, h3, h4⟩
    refine ⟨h1, (entryAt_iff hw hf hb).2 h2, ?_, ?_⟩
    · rintro c hc rfl
      obtain ⟨j, hj⟩ := List.mem_iff_getElem?.1 hc
      obtain ⟨hj1, hj2⟩ := part_get hj
      exact h3 (a + j) (by omega) hj2 hj1
    · intro c j hc1 hc2 he
      have := (entryAt_iff hw hf he.1).1 he
      rw [h4 c hc1 hc2] at this; cases this

theorem recognized_iff {T : List (Str × Int)} {w : WStr} (hw : Bmp w)
    (hf : ∀ k i j, (k, i) ∈ T → (k, j) ∈ T → i = j) {a b : Nat} {i : Int} :
    Recognized T w a b i ↔ RecK (wordIds T) w a b i := by
  constructor
  · intro h
    induction h with
    | first h => exact .first ((shortestAt_iff hw hf).1 h)
    | word h h' => exact .word h ((shortestAt_iff hw hf).1 h')
    | next _ h' ih => exact .next ih ((shortestAt_iff hw hf).1 h')
  · intro h
    induction h with
    | first h => exact .first ((shortestAt_iff hw hf).2 h)
    | word h h' => exact .word h ((shortestAt_iff hw hf).2 h')
    | next _ h' ih => exact .next ih ((shortestAt_iff hw hf).2 h')

theorem keyAt_empty {T : List (Str × Int)} (hT : ∀ p ∈ T, p.1 ≠ []) (u : U16) (a : Nat) :
    keyAt (wordIds T) u a a = none := by
  unfold keyAt
  have e : toUTF8String (tempSubString u a (a - a)) = [] := by
    rw [Nat.sub_self]; rfl
  rw [e]
  cases h : mapFind (wordIds T) [] with
  | none => rfl
  | some i => exact absurd rfl (hT _ (wordIds_mem h))

/-! ### The segments, exactly -/

/-- What the flags let pass, on the bytes. -/
def CountsB (t : AddedToken) (s : Str) (x y : Nat) : Prop :=
  t.singleWord = true → (x = 0 ∨ ∃ c, s[x - 1]? = some c ∧ isWordByte c = false) ∧ (∀ c, s[y]? = some c → isWordByte c = false)

theorem wordOk_iff (t : AddedToken) (s : Str) (x y : Nat) (hx : x ≤ s.length) (hy : y ≤ s.length) :
    ∃ b, wordOk t s x y = .ok b ∧ (b = true ↔ CountsB t s x y) := by
  unfold wordOk CountsB
  by_cases ht : t.singleWord = true
  · rw [if_pos ht]
    have h1 : (x == 0 || !endsWithWord (s.take x)) = true ↔ (x = 0 ∨ ∃ c, s[x - 1]? = some c ∧ isWordByte c = false) := by
      by_cases h0 : x = 0
      · simp [h0]
      · have hx1 : x - 1 < s.length := by omega
        have : (s.take x).getLast? = some s[x - 1] := by
          rw [List.getLast?_eq_getElem?, List.length_take]
          have : min x s.length - 1 = x - 1 := by omega
          rw [this, List.getElem?_take, if_pos (by omega), List.getElem?_eq_getElem hx1]
        unfold endsWithWord
        rw [this, List.getElem?_eq_getElem hx1]
        simp [h0]
    by_cases hyl : y = s.length
    · simp only [if_pos hyl, res_pure, res_ok_bind, Bool.true_and]
      refine ⟨_, rfl, ?_⟩
      have h2 : s[y]? = none := List.getElem?_eq_none (by omega)
      rw [h1, h2]
      simp [ht]
    · simp only [if_neg hyl, substrFrom, if_pos hy, res_ok_bind, res_pure]
      refine ⟨_, rfl, ?_⟩
      have h2 : (!startsWithWord (s.drop y)) = true ↔ ∀ c, s[y]? = some c → isWordByte c = false := by
        have : (s.drop y).head? = some (s[y]'(by omega)) := by
          rw [List.head?_drop, List.getElem?_eq_getElem (by omega)]
        unfold startsWithWord
        rw [this, List.getElem?_eq_getElem (by omega)]
        simp
      rw [Bool.and_eq_true, h1, h2]
      constructor
      · intro h _; exact ⟨h.2, h.1⟩
      · intro h; exact ⟨(h ht).2, (h ht).1⟩
  · rw [if_neg ht]
    exact ⟨true, rfl, by simp [ht]⟩

/-- How far a segment reaches around its match, on the bytes; `p` is where the previous segment ended. -/
def TakesB (t : AddedToken) (s : Str) (segs : List TSeg) (p : Nat) (x y x' y' : Nat) : Prop :=
  x' ≤ x ∧ y ≤ y' ∧ (∀ j, x' ≤ j → j < x → ∃ c, s[j]? = some c ∧ isspaceC c = true) ∧
  (∀ j, y ≤ j → j < y' → ∃ c, s[j]? = some c ∧ isspaceC c = true) ∧
  (t.lstrip = false → x' = x) ∧ (t.rstrip = false → y' = y) ∧
  (t.lstrip = true → x' = p ∨ (∃ c, s[x' - 1]? = some c ∧ isspaceC c = false) ∨ ∃ j z, (some j, (z, x')) ∈ segs) ∧
  (t.rstrip = true → ∀ c, s[y']? = some c → isspaceC c = false)

theorem takesB_mono {t : AddedToken} {s : Str} {l l' : List TSeg} {p p' : Nat} {x y x' y' : Nat}
    (h : TakesB t s l p x y x' y') (hl : ∀ g ∈ l, g ∈ l') (hp : p = p' ∨ ∃ j z, (some j, (z, p)) ∈ l') :
    TakesB t s l' p' x y x' y' := by
  obtain ⟨h1, h2, h3, h4, h5, h6, h7, h8⟩ := h
  refine ⟨h1, h2, h3, h4, h5, h6, ?_, h8⟩
  intro hlp
  rcases h7 hlp with h | h | ⟨j, z, h⟩
  · subst h
    rcases hp with h | h
    · exact .inl h
    · exact .inr (.inr h)
  · exact .inr (.inl h)
  · exact .inr (.inr ⟨j, z, hl _ h⟩)

theorem takeWhile_stop {α : Type} (p : α → Bool) (l : List α) : ∀ x, l[(l.takeWhile p).length]? = some x → p x = false := by
  induction l with
  | nil => intro x h; simp at h
  | cons y r ih =>
    intro x h
    simp only [List.takeWhile_cons] at h
    split at h
    · simp only [List.length_cons, List.getElem?_cons_succ] at h
      exact ih x h
    · rename_i hy
      simp at h
      subst h
      simpa using hy

theorem alternate_cons {c : TSeg} {l : List TSeg} (hc : c.1 ≠ none) (hl : Alternate l) : Alternate (c :: l) := by
  cases l with
  | nil => trivial
  | cons d r => exact ⟨.inl hc, hl⟩

/-- The condition under which the segments are described. -/
def ExactCond (mapR : List (Int × AddedToken)) (sentence : Str) (total : Nat) (ms : List (Nat × Nat × Int)) : Prop :=
  total ≤ sentence.length ∧ (∀ m ∈ ms, m.1 < m.2.1) ∧
  ((∀ i, ((mapFind mapR i).getD {}).lstrip = false ∧ ((mapFind mapR i).getD {}).rstrip = false) ∨
   (total = sentence.length ∧ ∀ m ∈ ms, ∀ c, sentence[m.1]? = some c → isspaceC c = false))

theorem matchSegs_exact (mapR : List (Int × AddedToken)) (s : Str) (total : Nat) (ms : List (Nat × Nat × Int)) :
    ∀ start, ExactCond mapR s total ms → Ordered total start (ms.map fun m => (m.1, m.2.1)) →
    ∃ segs, matchSegs mapR s total ms start = .ok segs ∧ Tiles start (segs.map (·.2)) total ∧
      (∀ g ∈ segs, g.2.1 < g.2.2) ∧ Alternate segs ∧
      (∀ i x' y', (some i, (x', y')) ∈ segs → ∃ x y, (x, y, i) ∈ ms ∧ CountsB ((mapFind mapR i).getD {}) s x y ∧
        TakesB ((mapFind mapR i).getD {}) s segs start x y x' y') ∧
      (∀ i x y, (x, y, i) ∈ ms → CountsB ((mapFind mapR i).getD {}) s x y → ∃ x' y', (some i, (x', y')) ∈ segs ∧
        TakesB ((mapFind mapR i).getD {}) s segs start x y x' y') := by
  induction ms with
  | nil =>
    intro start _ ho
    simp only [List.map_nil, Ordered] at ho
    refine ⟨_, rfl, ?_, ?_, ?_, ?_, ?_⟩
    · split
      · simp [Tiles]; exact ho
      · rename_i h; simp only [List.map_nil, Tiles]; omega
    · intro g hg
      split at hg
      · simp only [List.mem_singleton] at hg; subst hg; simp only; omega
      · cases hg
    · split <;> trivial
    · intro i x' y' hg
      split at hg
      · simp at hg
      · cases hg
    · intro i x y h; cases h
  | cons m r ih =>
    intro start hc ho
    obtain ⟨a, b, id⟩ := m
    simp only [List.map_cons, Ordered] at ho
    obtain ⟨hsa, hab, ho⟩ := ho
    have hb : b ≤ total := Ordered.le ho
    have hlt : a < b := hc.2.1 (a, b, id) (by simp)
    have hcr : ExactCond mapR s total r := by
      refine ⟨hc.1, fun m hm => hc.2.1 m (by simp [hm]), ?_⟩
      rcases hc.2.2 with h | ⟨h1, h2⟩
      · exact .inl h
      · exact .inr ⟨h1, fun m hm => h2 m (by simp [hm])⟩
    obtain ⟨ok, hok, hcnt⟩ := wordOk_iff ((mapFind mapR id).getD {}) s a b (by have := hc.1; omega) (by have := hc.1; omega)
    simp only [matchSegs, hok, res_ok_bind]
    cases ok with
    | false =>
      simp only [Bool.false_eq_true, if_false]
      obtain ⟨segs, h1, h2, h3, h4, h5, h6⟩ := ih start hcr (by
        cases r with
        | nil => simp only [List.map_nil, Ordered] at ho ⊢; omega
        | cons x r => simp only [List.map_cons, Ordered] at ho ⊢; exact ⟨by omega, ho.2⟩)
      refine ⟨segs, h1, h2, h3, h4, ?_, ?_⟩
      · intro i x' y' hg
        obtain ⟨x, y, h, h'⟩ := h5 i x' y' hg
        exact ⟨x, y, by simp [h], h'⟩
      · intro i x y hm hcb
        rcases List.mem_cons.1 hm with heq | hm
        · simp only [Prod.mk.injEq] at heq
          obtain ⟨rfl, rfl, rfl⟩ := heq
          have := hcnt.2 hcb
          cases this
        · exact h6 i x y hm hcb
    | true =>
      simp only [if_true]
      generalize hT : (mapFind mapR id).getD {} = t
      have hstart : ∃ a', (if t.lstrip = true then max (spaceLeftmostAtEnd (s.take a)) start else a) = a' ∧
          start ≤ a' ∧ a' ≤ a ∧ (t.lstrip = false → a' = a) ∧
          (∀ j, a' ≤ j → j < a → ∃ c, s[j]? = some c ∧ isspaceC c = true) ∧
          (t.lstrip = true → a' = start ∨ ∃ c, s[a' - 1]? = some c ∧ isspaceC c = false) := by
        refine ⟨_, rfl, ?_⟩
        have h1 := spaceLeftmost_le (s.take a)
        have h2 : (s.take a).length = a := by have := hc.1; simp; omega
        split
        · rename_i h
          refine ⟨by omega, by omega, by simp [h], ?_, ?_⟩
          · intro j hj1 hj2
            obtain ⟨c, hc1, hc2⟩ := takeWhile_get isspaceC (s.take a).reverse (a - 1 - j) (by
              unfold spaceLeftmostAtEnd at hj1; rw [h2] at hj1; omega)
            refine ⟨c, ?_, hc2⟩
            rw [List.getElem?_reverse (by omega), h2] at hc1
            have e : a - 1 - (a - 1 - j) = j := by omega
            rw [e, List.getElem?_take] at hc1
            simpa [hj2] using hc1
          · intro _
            rcases Nat.lt_or_ge start (spaceLeftmostAtEnd (s.take a)) with hlt' | hge
            · right
              have hmax : max (spaceLeftmostAtEnd (s.take a)) start = spaceLeftmostAtEnd (s.take a) := by omega
              rw [hmax]
              unfold spaceLeftmostAtEnd at hlt' hmax ⊢
              rw [h2] at hlt' ⊢
              have hl : ((s.take a).reverse.takeWhile isspaceC).length < a := by omega
              have hn : ((s.take a).reverse.takeWhile isspaceC).length < (s.take a).reverse.length := by
                rw [List.length_reverse, h2]; exact hl
              have hstop := takeWhile_stop isspaceC (s.take a).reverse _ (List.getElem?_eq_getElem hn)
              refine ⟨_, ?_, hstop⟩
              have hg := List.getElem?_eq_getElem hn
              rw [List.getElem?_reverse (by omega), h2] at hg
              rw [← hg, List.getElem?_take, if_pos (by omega)]
              congr 1
              omega
            · left; omega
        · rename_i h
          exact ⟨hsa, Nat.le_refl _, fun _ => rfl, fun j _ _ => by omega, fun h' => absurd h' h⟩
      obtain ⟨a', ha', hsa', haa', hal, hbl, hmaxl⟩ := hstart
      have hstop : ∃ b', (t.rstrip = true → substrFrom s b = .ok (s.drop b) ∧
            b + spaceRightmostAtStart (s.drop b) = b') ∧ b ≤ b' ∧
          (t.rstrip = false → b' = b) ∧ Ordered total b' (r.map fun m => (m.1, m.2.1)) ∧
          (∀ j, b ≤ j → j < b' → ∃ c, s[j]? = some c ∧ isspaceC c = true) ∧
          (t.rstrip = true → ∀ c, s[b']? = some c → isspaceC c = false) := by
        by_cases hr : t.rstrip = true
        · rcases hc.2.2 with h | ⟨h1, h2⟩
          · have := (h id).2; rw [hT, hr] at this; cases this
          · refine ⟨_, fun _ => ⟨by simp only [substrFrom, if_pos (show b ≤ s.length by omega)], rfl⟩, by omega,
              by simp [hr], ?_, ?_, ?_⟩
            rotate_left
            · intro j hj1 hj2
              obtain ⟨c, hc1, hc2⟩ := takeWhile_get isspaceC (s.drop b) (j - b) (by
                unfold spaceRightmostAtStart at hj2; omega)
              rw [List.getElem?_drop] at hc1
              have e : b + (j - b) = j := by omega
              rw [e] at hc1
              exact ⟨c, hc1, hc2⟩
            · intro _ c hcs
              unfold spaceRightmostAtStart at hcs
              rw [← List.getElem?_drop] at hcs
              exact takeWhile_stop isspaceC (s.drop b) c hcs
            have hlen : spaceRightmostAtStart (s.drop b) ≤ s.length - b := by
              unfold spaceRightmostAtStart
              have := takeWhile_length_le' isspaceC (s.drop b)
              simpa using this
            cases r with
            | nil => simp only [List.map_nil, Ordered]; omega
            | cons x r =>
              simp only [List.map_cons, Ordered] at ho ⊢
              refine ⟨?_, ho.2⟩
              have hx := h2 x (by simp)
              have hxl : x.2.1 ≤ total := Ordered.le ho.2.2
              have hxlt := hc.2.1 x (by simp)
              refine Nat.le_of_not_lt fun hlt => ?_
              obtain ⟨c, hc1, hc2⟩ := takeWhile_get isspaceC (s.drop b) (x.1 - b) (by
                unfold spaceRightmostAtStart at hlt; omega)
              rw [List.getElem?_drop] at hc1
              have : b + (x.1 - b) = x.1 := by omega
              rw [this] at hc1
              rw [hx c hc1] at hc2; cases hc2
        · exact ⟨b, fun h => absurd h hr, Nat.le_refl _, fun _ => rfl, ho, fun j _ _ => by omega, fun h => absurd h hr⟩
      obtain ⟨b', hb', hbb', hbr, ho', hbb, hmaxr⟩ := hstop
      obtain ⟨segs, h1, h2, h3, h4, h5, h6⟩ := ih b' hcr ho'
      have hsub : ∀ g ∈ segs, g ∈ (if start < a' then [(none, (start, a'))] else []) ++ (some id, (a', b')) :: segs :=
        fun g hg => List.mem_append_right _ (List.mem_cons_of_mem _ hg)
      have hme : (some id, (a', b')) ∈ (if start < a' then [((none : Option Int), (start, a'))] else []) ++ (some id, (a', b')) :: segs :=
        List.mem_append_right _ (List.mem_cons_self ..)
      have htk : TakesB t s ((if start < a' then [((none : Option Int), (start, a'))] else []) ++ (some id, (a', b')) :: segs) start a b a' b' :=
        ⟨haa', hbb', hbl, hbb, hal, hbr, fun hl => (hmaxl hl).imp (fun h => h) .inl, hmaxr⟩
      refine ⟨(if start < a' then [(none, (start, a'))] else []) ++ (some id, (a', b')) :: segs, ?_, ?_, ?_, ?_, ?_, ?_⟩
      · rw [ha']
        by_cases hr : t.rstrip = true
        · rw [if_pos hr, (hb' hr).1, res_ok_bind, res_pure, res_ok_bind, (hb' hr).2, h1]; rfl
        · have := hbr (by simpa using hr)
          subst this
          rw [if_neg hr, res_pure, res_ok_bind, h1]; rfl
      · split
        · simp only [List.cons_append, List.nil_append, List.map_cons, Tiles]
          exact ⟨trivial, by omega, trivial, by omega, h2⟩
        · simp only [List.nil_append, List.map_cons, Tiles]
          exact ⟨by omega, by omega, h2⟩
      · intro g hg
        rcases List.mem_append.1 hg with hg | hg
        · split at hg
          · rename_i hlt'; simp only [List.mem_singleton] at hg; subst hg; exact hlt'
          · cases hg
        · rcases List.mem_cons.1 hg with rfl | hg
          · simp only; omega
          · exact h3 g hg
      · have := alternate_cons (c := (some id, (a', b'))) (by simp) h4
        split
        · exact ⟨.inr (by simp), this⟩
        · exact this
      · intro i x' y' hg
        rcases List.mem_append.1 hg with hg | hg
        · split at hg
          · simp at hg
          · cases hg
        · rcases List.mem_cons.1 hg with heq | hg
          · simp only [Prod.mk.injEq, Option.some.injEq] at heq
            obtain ⟨rfl, rfl, rfl⟩ := heq
            rw [hT] at hcnt ⊢
            exact ⟨a, b, by simp, hcnt.1 rfl, htk⟩
          · obtain ⟨x, y, q1, q2, q3⟩ := h5 i x' y' hg
            exact ⟨x, y, by simp [q1], q2, takesB_mono q3 hsub (.inr ⟨id, a', hme⟩)⟩
      · intro i x y hm hcb
        rcases List.mem_cons.1 hm with heq | hm
        · simp only [Prod.mk.injEq] at heq
          obtain ⟨rfl, rfl, rfl⟩ := heq
          rw [hT]
          exact ⟨a', b', hme, htk⟩
        · obtain ⟨x', y', q1, q2⟩ := h6 i x y hm hcb
          exact ⟨x', y', hsub _ q1, takesB_mono q2 hsub (.inr ⟨id, a', hme⟩)⟩


/-! ### `find_matches`, exactly -/

theorem isWordByte_iff (c : Nat) : isWordByte c = true ↔ WordChar c := by
  unfold isWordByte WordChar
  simp only [Bool.or_eq_true, Bool.and_eq_true, decide_eq_true_eq]
  omega

theorem notWord_iff (c : Nat) : isWordByte c = false ↔ ¬ WordChar c := by
  rw [← isWordByte_iff]; simp

theorem notBlank_iff (c : Nat) : isspaceC c = false ↔ ¬ BlankByte c := by
  rw [← blankByte_iff]; simp

theorem between_blank {w : WStr} {x y : Nat} (hy : y ≤ w.length) :
    (∀ c ∈ between w x y, BlankByte c) ↔ ∀ j, x ≤ j → j < y → ∃ c, w[j]? = some c ∧ isspaceC c = true := by
  constructor
  · intro h j h1 h2
    have hj : j < w.length := by omega
    refine ⟨w[j], List.getElem?_eq_getElem hj, (blankByte_iff _).2 (h _ ?_)⟩
    refine List.mem_iff_getElem?.2 ⟨j - x, ?_⟩
    unfold between
    rw [List.getElem?_take, if_pos (by omega), List.getElem?_drop]
    have : x + (j - x) = j := by omega
    rw [this, List.getElem?_eq_getElem hj]
  · intro h c hc
    obtain ⟨j, hj⟩ := List.mem_iff_getElem?.1 hc
    obtain ⟨hj1, hj2⟩ := part_get hj
    obtain ⟨c', hc', hb⟩ := h (x + j) (by omega) hj2
    rw [hj1] at hc'
    cases hc'
    exact (blankByte_iff c).1 hb

theorem between_self (w : WStr) (x : Nat) : between w x x = [] := by unfold between; simp

/-- The conditions on the bytes are the conditions on the text. -/
theorem counts_iff {a : AddedVocab} {T : List (Str × Int)} {w : WStr} (hd : Describable a T w) {i : Int} {x y : Nat} :
    CountsB ((mapFind a.mapR i).getD {}) (utf8 w) x y ↔ Counts a w x y i := by
  unfold Counts CountsB flagsOf
  rcases hd.2.2.2 with h | ⟨h, -⟩
  · have : ((mapFind a.mapR i).getD {}).singleWord = false := by
      cases hf : mapFind a.mapR i with
      | none => rfl
      | some t => exact (h i t hf).1
    simp [this]
  · rw [utf8_ascii h]
    simp only [notWord_iff]

theorem takes_iff {a : AddedVocab} {T : List (Str × Int)} {w : WStr} (hd : Describable a T w) {cuts : List Cut} {i : Int}
    {x y x' y' : Nat} (hx : x ≤ w.length) (hy' : y' ≤ w.length) :
    TakesB ((mapFind a.mapR i).getD {}) (utf8 w) cuts 0 x y x' y' ↔ Takes a w cuts i x y x' y' := by
  unfold Takes TakesB flagsOf
  rcases hd.2.2.2 with h | ⟨h, -⟩
  · have hfl : ((mapFind a.mapR i).getD {}).lstrip = false ∧ ((mapFind a.mapR i).getD {}).rstrip = false := by
      cases hf : mapFind a.mapR i with
      | none => exact ⟨rfl, rfl⟩
      | some t => exact (h i t hf).2
    constructor
    · rintro ⟨-, -, -, -, h5, h6, -, -⟩
      obtain rfl := h5 hfl.1
      obtain rfl := h6 hfl.2
      refine ⟨Nat.le_refl _, Nat.le_refl _, by simp [between_self], by simp [between_self], fun _ => rfl, fun _ => rfl, ?_, ?_⟩
      · rw [hfl.1]; intro h; cases h
      · rw [hfl.2]; intro h; cases h
    · rintro ⟨-, -, -, -, h5, h6, -, -⟩
      obtain rfl := h5 hfl.1
      obtain rfl := h6 hfl.2
      refine ⟨Nat.le_refl _, Nat.le_refl _, fun j _ _ => by omega, fun j _ _ => by omega, fun _ => rfl, fun _ => rfl, ?_, ?_⟩
      · rw [hfl.1]; intro h; cases h
      · rw [hfl.2]; intro h; cases h
  · rw [utf8_ascii h, between_blank hx, between_blank hy']
    simp only [notBlank_iff]

theorem rc_tiles_mem {l : List (Nat × Nat)} : ∀ {a b : Nat}, Tiles a l b → ∀ q ∈ l, a ≤ q.1 ∧ q.1 ≤ q.2 ∧ q.2 ≤ b := by
  induction l with
  | nil => intro a b _ q hq; cases hq
  | cons p r ih =>
    intro a b h q hq
    obtain ⟨x, y⟩ := p
    simp only [Tiles] at h
    obtain ⟨rfl, h2, h3⟩ := h
    have hle : y ≤ b := by
      have gen : ∀ (l : List (Nat × Nat)) a b, Tiles a l b → a ≤ b := by
        intro l
        induction l with
        | nil => intro a b h; simp only [Tiles] at h; omega
        | cons x r ih => intro a b h; simp only [Tiles] at h; have := ih _ _ h.2.2; omega
      exact gen _ _ _ h3
    rcases List.mem_cons.1 hq with rfl | hq
    · exact ⟨Nat.le_refl _, h2, hle⟩
    · have := ih h3 q hq
      omega

theorem recognized_le {T : List (Str × Int)} {w : WStr} {x y : Nat} {i : Int} (h : Recognized T w x y i) :
    x < y ∧ y ≤ w.length := by
  cases h with
  | first h => exact ⟨h.1, h.2.1.1⟩
  | word _ h => exact ⟨h.1, h.2.1.1⟩
  | next _ h => exact ⟨h.1, h.2.1.1⟩

theorem findMatches_cut {a : AddedVocab} {T : List (Str × Int)} {w : WStr} (hd : Describable a T w) :
    ∃ cuts, (a.findMatches (utf8 w) T).1 = .ok cuts ∧ CutInto a T w cuts := by
  obtain ⟨hw, hT, hf, hfl⟩ := id hd
  have hs := bmp_scalars hw
  have hu : fromUTF8 (utf8 w) = w := by rw [fromUTF8_utf8 hs, utf16_bmp hw]
  unfold AddedVocab.findMatches
  simp only [hu]
  have ho := scan_ordered (wordIds T) w w 0 0 (Nat.le_refl _) (by simp) 0 (Nat.le_refl _)
  have hrec : ∀ x y i, (x, y, i) ∈ scan (wordIds T) w w 0 0 ↔ Recognized T w x y i := by
    intro x y i
    rw [scan_iff (keyAt_empty hT w), recognized_iff hw hf]
  generalize scan (wordIds T) w w 0 0 = ms at ho hrec
  have hcond : ExactCond a.mapR (utf8 w) w.length ms := by
    refine ⟨utf8_length_ge w, ?_, ?_⟩
    · rintro ⟨x, y, i⟩ hm
      exact (recognized_le ((hrec x y i).1 hm)).1
    · rcases hfl with h | ⟨h1, h2⟩
      · left
        intro i
        cases hf : mapFind a.mapR i with
        | none => exact ⟨rfl, rfl⟩
        | some t => exact (h i t hf).2
      · right
        rw [utf8_ascii h1]
        refine ⟨rfl, ?_⟩
        rintro ⟨x, y, i⟩ hm c hc
        have hr := (hrec x y i).1 hm
        have hsh : ShortestAt T w x y i := by
          cases hr with
          | first h => exact h
          | word _ h => exact h
          | next _ h => exact h
        obtain ⟨hlt, ⟨hle, k, hk, hin⟩, -⟩ := hsh
        obtain ⟨-, rfl⟩ := utf8Text_iff.1 hk
        have hb := h2 _ hin
        rw [notBlank_iff]
        refine hb c ?_
        show c ∈ utf8 (between w x y)
        have e : utf8 (between w x y) = between w x y := utf8_ascii fun c hc => h1 c (part_mem hc)
        rw [e]
        refine List.mem_iff_getElem?.2 ⟨0, ?_⟩
        unfold between
        rw [List.getElem?_take, if_pos (by omega), List.getElem?_drop]
        simpa using hc
  obtain ⟨segs, h1, h2, h3, h4, h5, h6⟩ := matchSegs_exact a.mapR (utf8 w) w.length ms 0 hcond ho
  refine ⟨segs, h1, h2, h3, h4, ?_, ?_⟩
  · intro i x' y' hg
    obtain ⟨x, y, q1, q2, q3⟩ := h5 i x' y' hg
    have hr := (hrec x y i).1 q1
    have hy' := (rc_tiles_mem h2 _ (List.mem_map.2 ⟨_, hg, rfl⟩)).2.2
    have := recognized_le hr
    exact ⟨x, y, hr, (counts_iff hd).1 q2, (takes_iff hd (by omega) hy').1 q3⟩
  · intro i x y hr hcn
    obtain ⟨x', y', q1, q2⟩ := h6 i x y ((hrec x y i).2 hr) ((counts_iff hd).2 hcn)
    have hy' := (rc_tiles_mem h2 _ (List.mem_map.2 ⟨_, q1, rfl⟩)).2.2
    have := recognized_le hr
    exact ⟨x', y', q1, (takes_iff hd (by omega) hy').1 q2⟩

/-! ### The splits of the pieces -/

theorem segSplits_each {w : WStr} (hw : Bmp w) (base : Nat) (segs : List TSeg) :
    ∀ pos, Tiles pos (segs.map (·.2)) w.length →
    ∃ out, segSplits w base segs = .ok out ∧ Each (SplitOf w) segs out := by
  induction segs with
  | nil => intro pos _; exact ⟨[], rfl, .nil⟩
  | cons g r ih =>
    intro pos ht
    have hle := rc_tiles_mem ht g.2 (by simp)
    obtain ⟨id, x, y⟩ := g
    simp only [List.map_cons, Tiles] at ht
    obtain ⟨out, h1, h2⟩ := ih y ht.2.2
    have hs := bmp_scalars (bmp_sub hw (fun c (hc : c ∈ part w x y) => part_mem hc))
    have hsub : wsubstr w x y = .ok (part w x y) := by
      unfold wsubstr part; rw [if_pos (by simp only at hle; omega), if_pos hle.2.1]
    refine ⟨_, by simp only [segSplits, hsub, res_ok_bind, convertToString_scalars hs, h1]; rfl, .cons ⟨?_, ?_⟩ h2⟩
    · exact utf8Text_iff.2 ⟨hs, rfl⟩
    · cases id <;> rfl

/-! ### Changes of the record during the extraction do not matter -/

theorem touched_flags {a a' : AddedVocab} (h : Touched a a') (i : Int) : flagsOf a' i = flagsOf a i := by
  unfold flagsOf
  cases hf : mapFind a.mapR i with
  | some t => rw [h.keeps i t hf]
  | none =>
    cases hf' : mapFind a'.mapR i with
    | none => rfl
    | some t =>
      rcases h.new i t hf' with h2 | ⟨_, rfl, _⟩
      · rw [hf] at h2; cases h2
      · rfl

theorem touched_counts {a a' : AddedVocab} (h : Touched a a') {w : WStr} {x y : Nat} {i : Int} :
    Counts a' w x y i ↔ Counts a w x y i := by unfold Counts; rw [touched_flags h]

theorem touched_takes {a a' : AddedVocab} (h : Touched a a') {w : WStr} {l : List Cut} {x y x' y' : Nat} {i : Int} :
    Takes a' w l i x y x' y' ↔ Takes a w l i x y x' y' := by unfold Takes; rw [touched_flags h]

theorem touched_cutInto {a a' : AddedVocab} (h : Touched a a') {T : List (Str × Int)} {w : WStr} {l : List Cut}
    (hc : CutInto a' T w l) : CutInto a T w l := by
  refine ⟨hc.tiles, hc.filled, hc.alternate, ?_, ?_⟩
  · intro i x' y' hm
    obtain ⟨x, y, h1, h2, h3⟩ := hc.only i x' y' hm
    exact ⟨x, y, h1, (touched_counts h).1 h2, (touched_takes h).1 h3⟩
  · intro i x y hr hn
    obtain ⟨x', y', h1, h2⟩ := hc.all i x y hr ((touched_counts h).2 hn)
    exact ⟨x', y', h1, (touched_takes h).1 h2⟩

theorem touched_describable {a a' : AddedVocab} (h : Touched a a') {T : List (Str × Int)} {w : WStr}
    (hd : Describable a T w) : Describable a' T w := by
  refine ⟨hd.1, hd.2.1, hd.2.2.1, ?_⟩
  rcases hd.2.2.2 with h1 | h1
  · left
    intro i t ht
    rcases h.new i t ht with h2 | ⟨_, rfl, _⟩
    · exact h1 i t h2
    · exact ⟨rfl, rfl, rfl⟩
  · exact .inr h1

/-! ### The second loop -/

theorem loop_exact (P : Platform) (norm : Option Normalizer) {a0 : AddedVocab} {w : WStr} {cuts : List Cut}
    {l : List Split} (hw : Bmp w) (hcl : Each (SplitOf w) cuts l)
    (hn : ∀ x y n, (none, (x, y)) ∈ cuts → normalizeOpt P norm (NS.ofText (between w x y)) = .ok n →
      Describable a0 a0.normTrie n.normalized) :
    ∀ (a : AddedVocab) (ns ns' : NS) (e : Nat) (out : List Split), Touched a0 a →
    (normalizeLoop P norm a ns e l).1 = .ok (ns', out) →
    ∃ groups, out = groups.flatten ∧ Each (Continued P norm a0 w) cuts groups := by
  induction hcl with
  | nil =>
    intro a ns ns' e out _ h
    simp only [normalizeLoop, Except.ok.injEq, Prod.mk.injEq] at h
    obtain ⟨-, rfl⟩ := h
    exact ⟨[], rfl, .nil⟩
  | @cons cut s cuts l hcs hcl' ih =>
    intro a ns ns' e out ht h
    have ih := ih fun x y n hm => hn x y n (List.mem_cons_of_mem _ hm)
    obtain ⟨hs1, hs3⟩ := id hcs
    obtain ⟨id, x, y⟩ := cut
    simp only at hs1 hs3
    have hs2 : Bmp (between w x y) := bmp_sub hw fun c hc => part_mem hc
    obtain ⟨-, hs1⟩ := utf8Text_iff.1 hs1
    simp only [normalizeLoop] at h
    cases id with
    | some i =>
      simp only at hs3
      rw [if_pos (by rw [hs3]; simp)] at h
      have ih' := fun ns' out => ih a ns ns' (e + s.normalized.length) out ht
      generalize normalizeLoop P norm a ns (e + s.normalized.length) l = R at h ih'
      obtain ⟨r, a'⟩ := R
      cases r with
      | error x => cases h
      | ok q =>
        obtain ⟨ns1, rest⟩ := q
        simp only [Except.ok.injEq, Prod.mk.injEq] at h
        obtain ⟨rfl, rfl⟩ := h
        obtain ⟨groups, h1, h2⟩ := ih' ns1 rest rfl
        exact ⟨[{ s with offsets := (e, e + s.normalized.length) }] :: groups, by simp [h1], .cons ⟨_, rfl, hcs⟩ h2⟩
    | none =>
      simp only at hs3
      rw [if_neg (by rw [hs3]; simp)] at h
      have hsp : ∀ ns1 here n, (normalizeSplit P norm a ns e s).1 = .ok (ns1, here, n) →
          Continued P norm a0 w (none, (x, y)) here := by
        intro ns1 here n hh
        unfold normalizeSplit at hh
        simp only at hh
        split at hh
        · cases hh
        · rename_i ns2 sub text hpre
          obtain ⟨w', hw', hpre⟩ := res_bind_ok.1 hpre
          rw [hs1, convertFromString_utf8 (bmp_scalars hs2)] at hw'
          cases hw'
          obtain ⟨sub', hsub, hpre⟩ := res_bind_ok.1 hpre
          split at hpre
          · cases hpre
          · obtain ⟨ns3, _, hpre⟩ := res_bind_ok.1 hpre
            obtain ⟨text', htext, hpre⟩ := res_bind_ok.1 hpre
            have := Except.ok.inj hpre
            simp only [Prod.mk.injEq] at this
            obtain ⟨rfl, rfl, rfl⟩ := this
            have eN : a.normTrie = a0.normTrie := by rw [ht.same]
            have hdsc := hn x y sub' (by simp) hsub
            have ht' := convertToString_scalars (bmp_scalars hdsc.1)
            rw [htext] at ht'
            have ht' := Except.ok.inj ht'
            subst ht'
            obtain ⟨segs, f1, f2⟩ := findMatches_cut (touched_describable ht hdsc)
            rw [← eN] at f1 f2
            obtain ⟨out1, g1, g2⟩ := segSplits_each hdsc.1 e segs 0 f2.tiles
            rw [f1, res_ok_bind, g1, res_ok_bind] at hh
            have := Except.ok.inj hh
            simp only [Prod.mk.injEq] at this
            obtain ⟨-, rfl, rfl⟩ := this
            rw [eN] at f2
            exact ⟨sub', segs, hsub, touched_cutInto ht f2, g2⟩
      have htch := normalizeSplit_touched P norm a ns e s
      generalize normalizeSplit P norm a ns e s = R at h hsp htch
      obtain ⟨r, a'⟩ := R
      cases r with
      | error x => cases h
      | ok q =>
        obtain ⟨ns1, here, n⟩ := q
        simp only at h hsp htch
        have b1 := hsp ns1 here n rfl
        have ih' := fun ns' out => ih a' ns1 ns' (e + n) out (ht.trans htch)
        generalize normalizeLoop P norm a' ns1 (e + n) l = R at h ih'
        obtain ⟨r, a''⟩ := R
        cases r with
        | error x => cases h
        | ok q =>
          obtain ⟨ns2, rest⟩ := q
          simp only [Except.ok.injEq, Prod.mk.injEq] at h
          obtain ⟨rfl, rfl⟩ := h
          obtain ⟨groups, h1, h2⟩ := ih' ns2 rest rfl
          exact ⟨here :: groups, by simp [h1], .cons b1 h2⟩

theorem extract_exact (P : Platform) (norm : Option Normalizer) {a : AddedVocab} {w : WStr} {p : PTS}
    (hd : Describable a a.nonNormTrie w) (hw0 : w ≠ [])
    (hn : ∀ x y n, normalizeOpt P norm (NS.ofText (between w x y)) = .ok n → Describable a a.normTrie n.normalized)
    (h : (a.extract P norm w).1 = .ok p) :
    ∃ cuts groups, CutInto a a.nonNormTrie w cuts ∧ Each (Continued P norm a w) cuts groups ∧
      (groups.flatten ≠ [] → p.splits = groups.flatten) ∧ (groups.flatten = [] → Each (SplitOf w) cuts p.splits) := by
  obtain ⟨hw, -⟩ := id hd
  have hs := bmp_scalars hw
  have ht := firstSplits_touched a w
  obtain ⟨segs, f1, f2⟩ := findMatches_cut hd
  obtain ⟨out1, g1, g2⟩ := segSplits_each hw 0 segs 0 f2.tiles
  have hne : out1 ≠ [] := by
    rintro rfl
    cases g2
    have := f2.tiles
    simp only [List.map_nil, Tiles] at this
    exact hw0 (List.length_eq_zero_iff.1 this.symm)
  have hfirst : ∃ q, (a.firstSplits w).1 = .ok q ∧ q.splits = out1 := by
    unfold AddedVocab.firstSplits PTS.ofNS
    simp only [NS.ofText, convertToString_scalars hs, res_ok_bind, res_pure]
    rw [f1, res_ok_bind, g1, res_ok_bind, if_neg hne]
    exact ⟨_, rfl, rfl⟩
  obtain ⟨first, h1, h2⟩ := hfirst
  unfold AddedVocab.extract at h
  generalize hR : a.firstSplits w = R at h h1 ht
  obtain ⟨r, a'⟩ := R
  simp only at h1 ht
  subst h1
  simp only at h
  subst h2
  have hg := fun ns' out => loop_exact P norm hw g2 (fun x y n _ => hn x y n) a' first.normalized ns' 0 out ht
  generalize normalizeLoop P norm a' first.normalized 0 first.splits = R' at h hg
  obtain ⟨r', a''⟩ := R'
  cases r' with
  | error e => cases h
  | ok q =>
    obtain ⟨ns, out⟩ := q
    simp only [Except.ok.injEq] at h
    subst h
    obtain ⟨groups, q1, q2⟩ := hg ns out rfl
    refine ⟨segs, groups, f2, q2, ?_, ?_⟩
    · intro hne'; simp only; rw [if_neg (by rw [q1]; exact hne'), q1]
    · intro he; simp only; rw [if_pos (by rw [q1]; exact he)]; exact g2

end Tok
