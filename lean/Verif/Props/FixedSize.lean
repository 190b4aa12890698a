import Verif.Props.Encoding

set_option autoImplicit false

/-!
C81: truncation and fixed padding together give outputs of one size.
-/

namespace Tok
open Spec

theorem fs_sum_le {α : Type} (f g : α → Nat) (l : List α) (h : ∀ x ∈ l, f x ≤ g x) : (l.map f).sum ≤ (l.map g).sum := by
  induction l with
  | nil => exact Nat.le_refl _
  | cons a l ih =>
    have h1 := h a (by simp)
    have h2 := ih fun x hx => h x (by simp [hx])
    simp only [List.map_cons, List.sum_cons]
    omega

theorem fs_length_mono (add : Bool) (p : PostProcessor) : ∀ {n m : Nat}, n ≤ m → lengthAfter add p n ≤ lengthAfter add p m := by
  refine PostProcessor.rec
    (motive_1 := fun p => ∀ {n m : Nat}, n ≤ m → lengthAfter add p n ≤ lengthAfter add p m)
    (motive_2 := fun l => ∀ {n m : Nat}, n ≤ m → lengthAfterList add l n ≤ lengthAfterList add l m) ?_ ?_ ?_ ?_ ?_ p
  · intro single pair specials n m h
    simp only [lengthAfter]
    apply fs_sum_le
    intro p _
    unfold pieceLength
    split
    · exact h
    · exact Nat.le_refl _
  · intro _ _ n m h; exact h
  · intro l ih n m h; simp only [lengthAfter]; exact ih h
  · intro n m h; exact h
  · intro p l i1 i2 n m h; simp only [lengthAfterList]; exact i2 (i1 h)

theorem fs_processOffsets {a : Bool} {x y : Enc} (h : processOffsets a x = .ok y) : y.ids = x.ids := by
  unfold processOffsets at h
  obtain ⟨o, _, h⟩ := res_bind_ok.1 h
  cases h; rfl

theorem fs_processAll {a : Bool} {n : Nat} : ∀ {l m : List Enc}, processAll a l = .ok m → (∀ x ∈ l, x.ids.length ≤ n) →
    ∀ x ∈ m, x.ids.length ≤ n := by
  intro l
  induction l with
  | nil => intro m h _; cases h; simp
  | cons b l ih =>
    intro m h hl x hx
    obtain ⟨c, hc, h⟩ := res_bind_ok.1 h
    obtain ⟨m', hm, h⟩ := res_bind_ok.1 h
    cases h
    rcases List.mem_cons.1 hx with rfl | hx
    · rw [fs_processOffsets hc]; exact hl b (by simp)
    · exact ih hm (fun x hx => hl x (by simp [hx])) x hx

theorem fs_windows (add : Bool) (p : PostProcessor) : ∀ {n : Nat} {e r : Encoding}, PostProcessor.run add p e = .ok r →
    AllEnc (fun x => x.ids.length ≤ n) e → AllEnc (fun x => x.ids.length ≤ lengthAfter add p n) r := by
  refine PostProcessor.rec
    (motive_1 := fun p => ∀ {n : Nat} {e r : Encoding}, PostProcessor.run add p e = .ok r →
      AllEnc (fun x => x.ids.length ≤ n) e → AllEnc (fun x => x.ids.length ≤ lengthAfter add p n) r)
    (motive_2 := fun l => ∀ {n : Nat} {e r : Encoding}, PostProcessor.runList add l e = .ok r →
      AllEnc (fun x => x.ids.length ≤ n) e → AllEnc (fun x => x.ids.length ≤ lengthAfterList add l n) r) ?_ ?_ ?_ ?_ ?_ p
  · intro single pair specials n e r h hn
    refine ⟨?_, ?_⟩
    · show r.ids.length ≤ _
      rw [postProcessor_length add _ h]
      exact fs_length_mono add _ hn.1
    · simp only [PostProcessor.run] at h
      cases h
      simp [templateProcess]
  · intro a t n e r h hn
    rw [lengthAfter]
    simp only [PostProcessor.run, byteLevelProcess] at h
    split at h
    · obtain ⟨m, hm, h⟩ := res_bind_ok.1 h
      obtain ⟨o, ho, h⟩ := res_bind_ok.1 h
      cases h
      exact ⟨by show m.ids.length ≤ n; rw [fs_processOffsets hm]; exact hn.1, fs_processAll ho hn.2⟩
    · cases h; exact hn
  · intro l ih n e r h hn
    rw [lengthAfter]; exact ih h hn
  · intro n e r h hn
    simp only [PostProcessor.runList] at h; cases h; exact hn
  · intro p l ih1 ih2 n e r h hn
    simp only [PostProcessor.runList] at h
    obtain ⟨e1, h1, h2⟩ := res_bind_ok.1 h
    rw [lengthAfterList]; exact ih2 h2 (ih1 h1 hn)

theorem fs_padded {p : Padding} {t : Nat} {e r : Enc} (hd : p.direction ≠ .unknown) (h : Padded p t e r) (hl : e.ids.length ≤ t) :
    r.ids.length = t := by
  obtain ⟨h1, h2⟩ := h
  by_cases hle : t ≤ e.ids.length
  · rw [h1 hle]; omega
  · obtain ⟨a, b, -⟩ := h2 (by omega)
    cases hdir : p.direction with
    | unknown => exact absurd hdir hd
    | left => rw [a hdir]; simp [joined, filler]; omega
    | right => rw [b hdir]; simp [joined, filler]; omega

/-- The length of a text of `n` tokens after post-processing: unchanged without a post-processor. -/
def fullLength (t : Tokenizer) (add : Bool) (n : Nat) : Nat :=
  match t.postProcessor with
  | none => n
  | some p => lengthAfter add p n

/-- **C81.** Truncation to a positive `max_length` by a strategy that truncates, padding to a fixed size on a known side,
and room for a text of `max_length` tokens with its special tokens: whatever the text, if `encode` returns then all seven
vectors, of the encoding and of each of its overflow windows, have exactly the fixed size (rounded up to the multiple). -/
theorem C81_fixed_size (P : Platform) (t : Tokenizer) (w : WStr) (b : Bool) (e : Encoding) (tr : Truncation) (p : Padding)
    (size : Nat) (htr : t.truncation = some tr) (hm : 0 < tr.maxLength)
    (hst : tr.strategy = .longestFirst ∨ tr.strategy = .onlyFirst)
    (hpad : t.padding = some p) (hf : p.strategy = .fixed) (hd : p.direction ≠ .unknown) (h0 : 0 ≤ p.fixedSize)
    (hsize : RoundedUp p.fixedSize.toNat p.padToMultipleOf size) (hroom : fullLength t b tr.maxLength.toNat ≤ size)
    (hS : ∀ s ∈ Specials t, s.ids.length = s.tokens.length) (h : (t.encode P w b).1 = .ok e) :
    Aligned e.toEnc size ∧ ∀ x ∈ e.overflowing, Aligned x size := by
  obtain ⟨_, _, _, _, g1, g2⟩ := encode_rows hS h
  obtain ⟨q, x, _, _, hpost⟩ := encode_ok h
  obtain ⟨e1, e2, h1, h2, h3⟩ := postProcess_ok hpost
  rw [htr] at h1
  rw [hpad] at h3
  have hc := C36_max_length_partial tr _ e1 hm hst h1
  have hall : AllEnc (fun x => x.ids.length ≤ tr.maxLength.toNat) e1 := by
    refine ⟨by show e1.ids.length ≤ _; omega, ?_⟩
    by_cases hle : (x.ids.length : Int) ≤ tr.maxLength
    · rw [hc.2.1 hle]; simp
    · intro y hy
      have := hc.2.2 (by show (x.ids.length : Int) > _; omega) y hy
      omega
  have hall2 : AllEnc (fun x => x.ids.length ≤ size) e2 := by
    have key : AllEnc (fun x => x.ids.length ≤ fullLength t b tr.maxLength.toNat) e2 := by
      unfold fullLength
      cases hp : t.postProcessor with
      | none => rw [hp] at h2; cases h2; exact hall
      | some pp => rw [hp] at h2; exact fs_windows b pp h2 hall
    exact ⟨Nat.le_trans key.1 hroom, fun x hx => Nat.le_trans (key.2 x hx) hroom⟩
  obtain ⟨tt, r, hr, hru, hp1, hp2⟩ := C37_C38_padding p e2 fun _ => h0
  simp only at h3
  rw [hr] at h3
  cases h3
  have htt : tt = size := by
    rw [if_pos hf] at hru
    unfold RoundedUp at hru hsize
    by_cases hmul : 0 < p.padToMultipleOf
    · rw [if_pos hmul] at hru hsize
      obtain ⟨a1, a2, q1, a3⟩ := hru
      obtain ⟨b1, b2, q2, b3⟩ := hsize
      have : q1 = q2 := by
        rcases Nat.lt_trichotomy q1 q2 with hlt | heq | hlt
        · exfalso
          have : ((q1 : Int) + 1) * p.padToMultipleOf ≤ q2 * p.padToMultipleOf :=
            Int.mul_le_mul_of_nonneg_right (by omega) (by omega)
          rw [Int.add_mul] at this
          omega
        · exact heq
        · exfalso
          have : ((q2 : Int) + 1) * p.padToMultipleOf ≤ q1 * p.padToMultipleOf :=
            Int.mul_le_mul_of_nonneg_right (by omega) (by omega)
          rw [Int.add_mul] at this
          omega
      rw [this] at a3
      omega
    · rw [if_neg hmul] at hru hsize
      omega
  subst htt
  have fin : ∀ {y : Enc}, y.ids.length = tt → (∃ rows, HasRows y rows) → Aligned y tt := by
    rintro y hy ⟨rows, hr⟩
    have ha := hasRows_aligned hr
    have : rows.length = tt := by rw [← ha.1]; exact hy
    rw [this] at ha; exact ha
  refine ⟨fin (fs_padded hd hp1 hall2.1) (by obtain ⟨rows, hr, _⟩ := g1; exact ⟨rows, hr⟩), fun y hy => ?_⟩
  obtain ⟨y0, hy0, hyp⟩ := each_mem_right hp2 y hy
  exact fin (fs_padded hd hyp (hall2.2 y0 hy0)) (by obtain ⟨rows, hr, _⟩ := g2 y hy; exact ⟨rows, hr⟩)

/-- **C81, without the room the size varies**: `max_length` 4 and size 4 with the template `[CLS] … [SEP]`: a short text gives 4
ids, a long one 6. -/
theorem C81_needs_room :
    ((bertLike (some (cut 4)) (some sampleTemplate) (some (padTo 4))).encode ascii w!"go" true).1.map (·.ids.length) = .ok 4 ∧
    ((bertLike (some (cut 4)) (some sampleTemplate) (some (padTo 4))).encode ascii w!"go go go go" true).1.map (·.ids.length) =
      .ok 6 := by
  constructor <;> decide +kernel

/-- A case of C81: all hypotheses are met and the call returns, for a text that is cut and one that is filled up. -/
example (w : WStr) (e : Encoding)
    (h : ((bertLike (some (cut 4)) (some sampleTemplate) (some (padTo 6))).encode ascii w true).1 = .ok e) :
    Aligned e.toEnc 6 := by
  refine (C81_fixed_size ascii _ w true e (cut 4) (padTo 6) 6 rfl (by decide) (.inl rfl) rfl rfl (by decide) (by decide)
    ?_ (by decide) ?_ h).1
  · unfold RoundedUp; rw [if_neg (by decide)]; rfl
  · intro s hs
    have : s ∈ ([⟨b!"[CLS]", [101], [b!"[CLS]"]⟩, ⟨b!"[SEP]", [102], [b!"[SEP]"]⟩] : List SpecialToken) := hs
    simp at this
    rcases this with rfl | rfl <;> rfl
example : ((bertLike (some (cut 4)) (some sampleTemplate) (some (padTo 6))).encode ascii w!"go" true).1.map (·.ids) =
    .ok [101, 3, 102, 9, 9, 9] ∧
  ((bertLike (some (cut 4)) (some sampleTemplate) (some (padTo 6))).encode ascii w!"go playing go playing" true).1.map (·.ids) =
    .ok [101, 3, 1, 2, 3, 102] := by constructor <;> decide +kernel

end Tok
