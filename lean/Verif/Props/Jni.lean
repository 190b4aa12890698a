import Verif.Jni
import Verif.Props.Unicode
import Verif.Sample

set_option autoImplicit false

/-!
# The Java interface (C69, C70)
-/

namespace Tok
open Spec

/-- Code points that JNI's modified UTF-8 writes as UTF-8 does. -/
def Plain (c : Nat) : Prop := 0 < c ∧ c < 0x10000

theorem mutf8Step_enc {c : Nat} (hp : Plain c) (r : Str) :
    mutf8Step (utf8Enc1 c ++ r) = some (c, (utf8Enc1 c).length) := by
  obtain ⟨h1, h2⟩ := hp
  unfold utf8Enc1
  split
  · simp [mutf8Step, show c ≠ 0 by omega, *]
  · split
    · simp only [mutf8Step, List.cons_append, List.nil_append]
      rw [if_neg (by omega), if_neg (by omega), if_neg (by omega), if_pos (by omega)]
      rw [if_pos (by simp [isCont]; omega)]
      simp only [List.length_cons, List.length_nil, Option.some.injEq, Prod.mk.injEq, and_true]; omega
    · first | rw [if_pos h2] | skip
      simp only [mutf8Step, List.cons_append, List.nil_append]
      rw [if_neg (by omega), if_neg (by omega), if_neg (by omega), if_neg (by omega), if_pos (by omega)]
      rw [if_pos (by simp [isCont]; omega)]
      simp only [List.length_cons, List.length_nil, Option.some.injEq, Prod.mk.injEq, and_true]; omega

theorem mutf8Step_supplementary {c : Nat} (h : 0x10000 ≤ c) (r : Str) :
    mutf8Step (utf8Enc1 c ++ r) = none := by
  unfold utf8Enc1
  rw [if_neg (by omega), if_neg (by omega), if_neg (by omega)]
  simp only [mutf8Step, List.cons_append]
  rw [if_neg (by omega), if_neg (by omega), if_neg (by omega), if_neg (by omega), if_neg (by omega)]

theorem mutf8Dec_utf8 {w : WStr} (hw : Scalars w) (h0 : 0 ∉ w) : ∀ n, (utf8 w).length ≤ n →
    mutf8DecFuel n (utf8 w) = if ∀ c ∈ w, c < 0x10000 then some w else none := by
  induction w with
  | nil => intro n _; cases n <;> simp [utf8, mutf8DecFuel]
  | cons c w ih =>
    intro n hn
    rw [Scalars.cons] at hw
    rw [utf8_cons] at hn ⊢
    have hpos := utf8Enc1_length_pos c
    simp only [List.length_append] at hn
    obtain ⟨n, rfl⟩ : ∃ m, n = m + 1 := ⟨n - 1, by omega⟩
    obtain ⟨b, r, hbr⟩ : ∃ b r, utf8Enc1 c ++ utf8 w = b :: r := by
      cases h : utf8Enc1 c ++ utf8 w with
      | nil => exact absurd (List.append_eq_nil_iff.1 h).1 (utf8Enc1_ne_nil c)
      | cons b r => exact ⟨b, r, rfl⟩
    simp only [List.mem_cons, not_or] at h0
    have hstep : mutf8DecFuel (n + 1) (utf8Enc1 c ++ utf8 w) =
        match mutf8Step (utf8Enc1 c ++ utf8 w) with
        | none => none
        | some (c, k) => (mutf8DecFuel n ((utf8Enc1 c ++ utf8 w).drop k)).map (c :: ·) := by
      rw [hbr]; simp only [mutf8DecFuel]
      cases hs : mutf8Step (b :: r) with
      | none => rfl
      | some p =>
        have : p.1 = c ∨ True := .inr trivial
        rw [← hbr] at hs
        by_cases hc : c < 0x10000
        · rw [mutf8Step_enc ⟨Nat.pos_of_ne_zero (Ne.symm h0.1), hc⟩] at hs
          cases hs
          simp only [← hbr]
        · rw [mutf8Step_supplementary (by omega)] at hs; cases hs
    rw [hstep]
    by_cases hc : c < 0x10000
    · rw [mutf8Step_enc ⟨Nat.pos_of_ne_zero (Ne.symm h0.1), hc⟩]
      simp only [List.drop_left]
      rw [ih hw.2 h0.2 n (by omega)]
      simp only [List.forall_mem_cons, hc, true_and]
      split <;> rfl
    · rw [mutf8Step_supplementary (by omega)]
      simp [hc]

theorem utf8Enc1_zero {c : Nat} : 0 ∈ utf8Enc1 c ↔ c = 0 := by
  unfold utf8Enc1
  split
  · simp; omega
  · split
    · simp; omega
    · split <;> (simp; omega)

/-- The text up to the first NUL. -/
def upToNul (w : WStr) : WStr := w.takeWhile (· ≠ 0)

theorem takeWhile_append_all {α : Type} {p : α → Bool} {l r : List α} (h : ∀ x ∈ l, p x = true) :
    (l ++ r).takeWhile p = l ++ r.takeWhile p := by
  induction l with
  | nil => rfl
  | cons a l ih => simp [h a (by simp), ih (fun x hx => h x (by simp [hx]))]

theorem takeWhile_utf8 (w : WStr) : (utf8 w).takeWhile (· ≠ 0) = utf8 (upToNul w) := by
  induction w with
  | nil => rfl
  | cons c w ih =>
    rw [utf8_cons]
    by_cases hc : c = 0
    · subst hc; simp [upToNul, utf8, utf8Enc1]
    · rw [takeWhile_append_all (by
        intro x hx
        have : x ≠ 0 := by rintro rfl; exact hc (utf8Enc1_zero.1 hx)
        simpa using this), ih]
      simp [upToNul, hc, utf8]

theorem newStringUTF_utf8 {w : WStr} (hw : Scalars w) :
    newStringUTF (utf8 w) = if ∀ c ∈ upToNul w, c < 0x10000 then .ok (upToNul w) else .error (.ub .badString) := by
  have h0 : 0 ∉ upToNul w := by
    intro h
    unfold upToNul at h
    have := List.all_takeWhile (p := fun x : Nat => decide (x ≠ 0)) (l := w)
    rw [List.all_eq_true] at this
    simpa using this 0 h
  have hs : Scalars (upToNul w) := hw.sub fun c hc => (List.takeWhile_sublist _).subset hc
  unfold newStringUTF
  simp only [takeWhile_utf8]
  rw [mutf8Dec_utf8 hs h0 _ (Nat.le_refl _)]
  split <;> rename_i h <;> split at h <;> simp_all

/-- **C69** What the Java method `decode` returns when the C++ method returns the text `w`: the text up to the first
NUL, if that has no supplementary characters; otherwise the behaviour is undefined. -/
theorem C69_value (t : Tokenizer) (ids : List Int) (skip : Bool) (w : WStr) (s : Str) (hw : Utf8Text w s)
    (h : t.decode ids skip = .ok s) :
    ((∀ c ∈ upToNul w, c < 0x10000) → t.decodeJava ids skip = .ok (upToNul w)) ∧
    ((∃ c ∈ upToNul w, 0x10000 ≤ c) → t.decodeJava ids skip = .error (.ub .badString)) := by
  obtain ⟨hs, rfl⟩ := utf8Text_iff.1 hw
  have : t.decodeJava ids skip = newStringUTF (utf8 w) := by
    unfold Tokenizer.decodeJava; rw [h]; rfl
  rw [this, newStringUTF_utf8 hs]
  constructor
  · intro h; rw [if_pos h]
  · rintro ⟨c, hc, h⟩
    rw [if_neg]
    intro h'
    have := h' c hc; omega

/-- The UTF-16 units of code points of the basic multilingual plane are the code points. -/
theorem utf16_plain {w : WStr} (h : ∀ c ∈ w, c < 0x10000) : utf16 w = w := by
  induction w with
  | nil => rfl
  | cons c w ih =>
    have := ih fun c hc => h c (by simp [hc])
    unfold utf16 at this ⊢
    rw [List.flatMap_cons, this]
    simp [utf16Enc1, h c (by simp)]

theorem upToNul_length_le (w : WStr) : (upToNul w).length ≤ w.length := (List.takeWhile_sublist _).length_le

theorem jni_utf16_length_ge (w : WStr) : w.length ≤ (utf16 w).length := by
  induction w with
  | nil => simp
  | cons c w ih =>
    unfold utf16 at ih ⊢
    simp only [List.flatMap_cons, List.length_append, List.length_cons]
    have : 0 < (utf16Enc1 c).length := List.length_pos_iff.2 (utf16Enc1_ne_nil c)
    omega

theorem takeWhile_full {α : Type} {p : α → Bool} {l : List α} (h : (l.takeWhile p).length = l.length) : ∀ x ∈ l, p x = true := by
  have := (List.takeWhile_sublist p).eq_of_length h
  intro x hx
  rw [← this] at hx
  have h2 := List.all_takeWhile (p := p) (l := l)
  rw [List.all_eq_true] at h2
  exact h2 x hx

/-- **C69** The Java method `decode` returns the text that the C++ method returns, as a Java string, exactly when the
text has neither a NUL nor a supplementary character. -/
theorem C69_faithful_iff (t : Tokenizer) (ids : List Int) (skip : Bool) (w : WStr) (s : Str) (u : U16)
    (hw : Utf8Text w s) (hu : Utf16Text w u) (h : t.decode ids skip = .ok s) :
    t.decodeJava ids skip = .ok u ↔ ∀ c ∈ w, Plain c := by
  have hu' : u = utf16 w := by
    clear hw h
    induction hu with
    | nil => rfl
    | @bmp c w u h1 h2 _ ih => rw [ih]; simp [utf16, utf16Enc1, h1]
    | @pair x y w u h1 h2 _ ih =>
      rw [ih]
      have a1 : (0x10000 + x * 1024 + y - 0x10000) / 1024 = x := by omega
      have a2 : (0x10000 + x * 1024 + y - 0x10000) % 1024 = y := by omega
      simp only [utf16, List.flatMap_cons, utf16Enc1]
      rw [if_neg (by omega), a1, a2]; rfl
  subst hu'
  obtain ⟨v1, v2⟩ := C69_value t ids skip w s hw h
  constructor
  · intro hj
    by_cases hall : ∀ c ∈ upToNul w, c < 0x10000
    · rw [v1 hall] at hj
      simp only [Except.ok.injEq] at hj
      have hl : (upToNul w).length = w.length := by
        have h1 := upToNul_length_le w
        have h2 := jni_utf16_length_ge w
        have h3 := congrArg List.length hj
        omega
      have hz := takeWhile_full hl
      have he : upToNul w = w := (List.takeWhile_sublist _).eq_of_length hl
      intro c hc
      have := hz c hc
      simp at this
      exact ⟨by omega, hall c (by rw [he]; exact hc)⟩
    · rw [v2 (by simpa using hall)] at hj; cases hj
  · intro hp
    have he : upToNul w = w := by
      unfold upToNul
      have := takeWhile_append_all (p := fun x : Nat => decide (x ≠ 0)) (l := w) (r := []) (by
        intro c hc; have := (hp c hc).1; simp; omega)
      simpa using this
    rw [v1 (fun c hc => (hp c (by rw [← he]; exact hc)).2), he, utf16_plain fun c hc => (hp c hc).2]

theorem mutf8_plain {c : Nat} (h : Plain c) : mutf8Enc1 c = utf8Enc1 c := by
  unfold mutf8Enc1 utf8Enc1
  rw [if_neg (by have := h.1; omega)]
  simp [h.2]

/-- A unit that is not a plain scalar is written as bytes that no UTF-8 text begins with. -/
theorem mutf8_bad {u : Nat} (hu : u < 0x10000) (h : ¬ (Plain u ∧ isScalar u = true)) (r : Str) :
    utf8Step (mutf8Enc1 u ++ r) = none := by
  unfold mutf8Enc1
  split
  · rfl
  · rename_i h0
    have hns : ¬ isScalar u = true := fun hs => h ⟨⟨by omega, hu⟩, hs⟩
    rw [isScalar_iff] at hns
    rw [if_neg (by omega), if_neg (by omega)]
    simp only [utf8Step, List.cons_append, List.nil_append]
    rw [if_neg (by omega), if_neg (by omega), if_neg (by omega), if_pos (by omega)]
    have : (0xE0 + u / 4096 - 0xE0) * 4096 + (0x80 + u / 64 % 64 - 0x80) * 64 + (0x80 + u % 64 - 0x80) = u := by omega
    rw [this]
    have : isScalar u = false := by
      cases h' : isScalar u with
      | false => rfl
      | true => rw [isScalar_iff] at h'; exact absurd h' hns
    simp [this]

theorem javaConfig_cons (u : Nat) (s : U16) : javaConfig (u :: s) = mutf8Enc1 u ++ javaConfig s := by simp [javaConfig]

theorem utf8Text_step {w : WStr} {s : Str} (h : Utf8Text w s) (hs : s ≠ []) : utf8Step s ≠ none := by
  obtain ⟨hw, rfl⟩ := utf8Text_iff.1 h
  cases w with
  | nil => exact absurd rfl hs
  | cons c w =>
    rw [Scalars.cons] at hw
    rw [utf8_cons, utf8Step_enc hw.1]; simp

/-- **C70** The bytes that the C++ constructor gets for a Java string are UTF-8 only if the string has no NUL and no
surrogate, and then they are the UTF-8 form of the string. -/
theorem C70_config_iff (s : U16) (hs : ∀ u ∈ s, u < 0x10000) (w : WStr) :
    Utf8Text w (javaConfig s) ↔ (w = s ∧ ∀ u ∈ s, Plain u ∧ Scalar u) := by
  constructor
  · intro h
    induction s generalizing w with
    | nil =>
      have : javaConfig [] = [] := rfl
      rw [this] at h
      cases w with
      | nil => simp
      | cons c w =>
        obtain ⟨_, h⟩ := utf8Text_iff.1 h
        rw [utf8_cons] at h
        have := utf8Enc1_ne_nil c
        simp at h; exact absurd h.1 this
    | cons u s ih =>
      rw [javaConfig_cons] at h
      by_cases hp : Plain u ∧ isScalar u = true
      · rw [mutf8_plain hp.1] at h
        obtain ⟨hw, h⟩ := utf8Text_iff.1 h
        cases w with
        | nil => have := utf8Enc1_ne_nil u; simp [utf8] at h; exact absurd h.1 this
        | cons c w =>
          rw [Scalars.cons] at hw
          rw [utf8_cons] at h
          have h1 := utf8Step_enc hp.2 (javaConfig s)
          have h2 := utf8Step_enc hw.1 (utf8 w)
          rw [h, h2] at h1
          simp at h1; obtain ⟨rfl, _⟩ := h1
          obtain ⟨rfl, h3⟩ := ih (fun u hu => hs u (by simp [hu])) w (utf8Text_iff.2 ⟨hw.2, List.append_cancel_left h⟩)
          refine ⟨rfl, ?_⟩
          intro v hv; simp at hv; rcases hv with rfl | hv
          · exact ⟨hp.1, scalar_iff.2 hp.2⟩
          · exact h3 v hv
      · have := utf8Text_step h (by
          unfold mutf8Enc1
          repeat' split
          all_goals simp)
        exact absurd (mutf8_bad (hs u (by simp)) hp _) this
  · rintro ⟨rfl, h⟩
    refine utf8Text_iff.2 ⟨scalars_iff.1 fun c hc => (h c hc).2, ?_⟩
    unfold javaConfig utf8
    clear hs
    induction w with
    | nil => rfl
    | cons c w ih =>
      rw [List.flatMap_cons, List.flatMap_cons, ih (fun c hc => h c (by simp [hc])), mutf8_plain (h c (by simp)).1]

/-- The bytes handed to the constructor never contain a NUL, so nothing is lost by passing them as a C string. -/
theorem C70_no_nul (s : U16) : 0 ∉ javaConfig s := by
  unfold javaConfig
  simp only [List.mem_flatMap, not_exists, not_and]
  intro u _
  unfold mutf8Enc1
  split
  · simp
  · split
    · simp; omega
    · split <;> (simp; omega)

/-- **C70** is violated by a configuration that contains an emoji, e.g. as a vocabulary key: the bytes the constructor
gets are not UTF-8 at all. -/
theorem C70_violated : ¬ ∃ w, Utf8Text w (javaConfig [0x22, 0xD83D, 0xDE00, 0x22]) := by
  rintro ⟨w, h⟩
  have := ((C70_config_iff _ (by decide) w).1 h).2 0xD83D (by simp)
  exact absurd this.2 (by simp [Scalar])

/-- A tokenizer whose model has one entry, and whose decoder returns the tokens as they are. -/
def oneTk (s : Str) : Tokenizer :=
  { truncation := none, padding := none, added := some (AddedVocab.init []), normalizer := none, preTokenizer := none,
    model := some (.wordPiece { vocab := [(s, 0)], unkToken := [], maxChars := 100, pre := b!"##" }),
    decoder := some (.wordPiece b!"##" false), postProcessor := none }

/-- **C69** is violated by an emoji: the C++ method returns it, the Java method has undefined behaviour. -/
theorem C69_violated : (oneTk b!"😀").decode [0] false = .ok b!"😀" ∧
    (oneTk b!"😀").decodeJava [0] false = .error (.ub .badString) := by decide +kernel

/-- **C69** is violated by NUL: the rest of the text is lost. -/
theorem C69_violated_nul : (oneTk [0x61, 0, 0x62]).decode [0] false = .ok [0x61, 0, 0x62] ∧
    (oneTk [0x61, 0, 0x62]).decodeJava [0] false = .ok w!"a" := by decide +kernel

/-- The hypotheses of `C69_faithful_iff` are met. -/
example : (oneTk b!"é漢").decode [0] false = .ok b!"é漢" ∧ (oneTk b!"é漢").decodeJava [0] false = .ok w!"é漢" := by
  decide +kernel

example : Utf8Text w!"{é}" (javaConfig w!"{é}") :=
  (C70_config_iff _ (by decide) _).2 ⟨rfl, by simp [Plain, Scalar]⟩

end Tok
