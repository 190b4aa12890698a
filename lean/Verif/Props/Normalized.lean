import Verif.Props.Normalizer
import Verif.Spec.Normalized

set_option autoImplicit false

/-!
C104: the text a normalizer returns is determined by the text it is given.
-/

namespace Tok
open Spec

mutual
/-- **C104** Whenever a normalizer returns, on whatever string it is given (a new one or the result of other normalizers, with any
offset table), the text is what the specification makes of the text. -/
theorem C104_text (P : Platform) : (n : Normalizer) → {s s' : NS} → n.run P s = .ok s' →
    NormalizesTo P n s.normalized s'.normalized
  | .bert clean cjk strip lower, s, s', h => by
    obtain ⟨a, b, c, h1, h2, h3, h4⟩ := C54_bert_steps P clean cjk strip lower h
    refine .bert ⟨a, b, c, h1, h2, ?_, h4⟩
    rw [h3]
    split <;> rfl
  | .prepend p, s, s', h => by
    simp only [Normalizer.run, prependNormalize] at h
    obtain ⟨v, hv, h⟩ := res_bind_ok.1 h
    obtain ⟨s1, _, h⟩ := res_bind_ok.1 h
    cases h
    exact .prepend ((C02_from_string_iff _ _).1 hv)
  | .replace pattern content, s, s', h => by
    have h0 := h
    simp only [Normalizer.run, replaceNormalize] at h
    obtain ⟨v, hv, h⟩ := res_bind_ok.1 h
    have hv := (C02_from_string_iff _ _).1 hv
    cases hf : P.wregex v with
    | none => rw [hf] at h; cases h
    | some find =>
      rw [hf] at h
      obtain ⟨c, hc, h⟩ := res_bind_ok.1 h
      have hc := (C02_from_string_iff _ _).1 hc
      cases hm : find s.normalized with
      | nil =>
        rw [hm] at h
        cases h
        exact .unmatched hv hf hm
      | cons m ms =>
        rw [hm] at h
        split at h
        · simp_all
        · rename_i heq
          obtain ⟨h1, h2⟩ := C67_replace_partial P hv hc hf h0
          refine .replaced hv hf ?_ hc h1 h2
          rw [hm]; simp
        · cases h
  | .nf k, s, s', h => by
    simp only [Normalizer.run, nfNormalize] at h
    obtain ⟨s1, _, h⟩ := res_bind_ok.1 h
    cases h
    exact .nf
  | .strip l r, s, s', h => by
    obtain ⟨s1, a, b, h1, h2⟩ := C56_strip_value P l r s
    rw [h1] at h
    cases h
    exact .strip ⟨a, b, h2⟩
  | .stripAccents, s, s', h => by
    obtain ⟨s1, h1, h2⟩ := C65_strip_accents P s
    rw [h1] at h
    cases h
    exact .stripAccents h2
  | .seq l, s, s', h => by
    simp only [Normalizer.run] at h
    exact .seq (C104_texts P l h)
/-- The same for lists of normalizers. -/
theorem C104_texts (P : Platform) : (l : List Normalizer) → {s s' : NS} → Normalizer.runList P l s = .ok s' →
    NormalizesAll P l s.normalized s'.normalized
  | [], s, s', h => by
    simp only [Normalizer.runList] at h
    cases h
    exact .nil
  | n :: l, s, s', h => by
    simp only [Normalizer.runList] at h
    obtain ⟨s1, h1, h⟩ := res_bind_ok.1 h
    exact .cons (C104_text P n h1) (C104_texts P l h)
end

theorem nt_bert {P : Platform} {clean cjk strip lower : Bool} {w x y : WStr} (h : BertNormalized P clean cjk strip lower w x)
    (h' : BertNormalized P clean cjk strip lower w y) : x = y := by
  obtain ⟨a, b, c, h1, h2, h3, rfl⟩ := h
  obtain ⟨a', b', c', h1', h2', h3', rfl⟩ := h'
  have ea : a = a' := by
    cases clean
    · exact Eq.trans h1 (Eq.symm h1')
    · exact C54_clean_unique h1 h1'
  subst ea
  have eb : b = b' := by
    cases cjk
    · exact Eq.trans h2 (Eq.symm h2')
    · exact C54_cjk_unique h2 h2'
  subst eb
  have ec : c = c' := by
    revert h3 h3'
    cases strip <;> cases lower <;> intro h3 h3' <;> exact Eq.trans h3 (Eq.symm h3')
  subst ec
  rfl

theorem nt_left {drop : Nat → Prop} : ∀ {a a' w w' : WStr}, a ++ w = a' ++ w' → (∀ c ∈ a, drop c) → (∀ c ∈ a', drop c) →
    (∀ c, w.head? = some c → ¬ drop c) → (∀ c, w'.head? = some c → ¬ drop c) → w = w'
  | [], [], _, _, e, _, _, _, _ => e
  | [], c :: a', w, w', e, _, h2, h3, _ => by
    rw [List.nil_append] at e
    exact absurd (h2 c (by simp)) (h3 c (by rw [e]; rfl))
  | c :: a, [], w, w', e, h1, _, _, h4 => by
    rw [List.nil_append] at e
    exact absurd (h1 c (by simp)) (h4 c (by rw [← e]; rfl))
  | c :: a, c' :: a', w, w', e, h1, h2, h3, h4 => by
    simp only [List.cons_append, List.cons.injEq] at e
    exact nt_left e.2 (fun x hx => h1 x (by simp [hx])) (fun x hx => h2 x (by simp [hx])) h3 h4

theorem nt_right {drop : Nat → Prop} {b b' w w' : WStr} (e : w ++ b = w' ++ b') (h1 : ∀ c ∈ b, drop c) (h2 : ∀ c ∈ b', drop c)
    (h3 : ∀ c, w.getLast? = some c → ¬ drop c) (h4 : ∀ c, w'.getLast? = some c → ¬ drop c) : w = w' := by
  have e' := congrArg List.reverse e
  simp only [List.reverse_append] at e'
  have := nt_left (drop := drop) e' (by simpa using h1) (by simpa using h2) (by simpa [List.head?_reverse] using h3)
    (by simpa [List.head?_reverse] using h4)
  simpa using congrArg List.reverse this

theorem nt_trimmed {drop : Nat → Prop} {l r : Bool} {w x y : WStr} (h : Trimmed drop l r w x) (h' : Trimmed drop l r w y) : x = y := by
  obtain ⟨a, b, h1, h2, h3, h4, h5, h6⟩ := h
  obtain ⟨a', b', h1', h2', h3', h4', h5', h6'⟩ := h'
  rw [h1] at h1'
  have ha : ∀ c ∈ a, drop c := fun c hc => h2 c (by simp [hc])
  have ha' : ∀ c ∈ a', drop c := fun c hc => h2' c (by simp [hc])
  have hb : ∀ c ∈ b, drop c := fun c hc => h2 c (by simp [hc])
  have hb' : ∀ c ∈ b', drop c := fun c hc => h2' c (by simp [hc])
  cases l with
  | false =>
    rw [h3 rfl, h3' rfl] at h1'
    cases r with
    | false => rw [h4 rfl, h4' rfl] at h1'; simpa using h1'
    | true => exact nt_right (by simpa using h1') hb hb' (h6 rfl) (h6' rfl)
  | true =>
    cases r with
    | false =>
      rw [h4 rfl, h4' rfl] at h1'
      simp only [List.append_nil] at h1'
      exact nt_left h1' ha ha' (h5 rfl) (h5' rfl)
    | true =>
      by_cases hx : x = []
      · subst hx
        by_cases hy : y = []
        · exact hy.symm
        · exfalso
          cases y with
          | nil => exact hy rfl
          | cons c y =>
            refine h5' rfl c rfl ?_
            have : c ∈ a ++ [] ++ b := by rw [h1']; simp
            simp only [List.append_nil, List.mem_append] at this
            rcases this with h | h
            · exact ha c h
            · exact hb c h
      · by_cases hy : y = []
        · exfalso
          subst hy
          cases x with
          | nil => exact hx rfl
          | cons c x =>
            refine h5 rfl c rfl ?_
            have : c ∈ a' ++ [] ++ b' := by rw [← h1']; simp
            simp only [List.append_nil, List.mem_append] at this
            rcases this with h | h
            · exact ha' c h
            · exact hb' c h
        · have e1 : x ++ b = y ++ b' := by
            refine nt_left (drop := drop) (by simpa using h1') ha ha' ?_ ?_
            · intro c hc
              cases x with
              | nil => exact absurd rfl hx
              | cons d x => exact h5 rfl c (by simpa using hc)
            · intro c hc
              cases y with
              | nil => exact absurd rfl hy
              | cons d y => exact h5' rfl c (by simpa using hc)
          exact nt_right e1 hb hb' (h6 rfl) (h6' rfl)

theorem nt_utf8 {v v' : WStr} {s : Str} (h : Utf8Text v s) (h' : Utf8Text v' s) : v = v' := by
  obtain ⟨h1, h2⟩ := utf8Text_iff.1 h
  obtain ⟨h1', h2'⟩ := utf8Text_iff.1 h'
  exact utf8_injective h1 h1' (h2.symm.trans h2')

theorem nt_replaced {l : List (Nat × Nat)} {c : Nat} {w x y : WStr}
    (h : ∀ i, ((∃ m ∈ l, m.1 = i) → x[i]? = some c) ∧ ((¬ ∃ m ∈ l, m.1 = i) → x[i]? = w[i]?))
    (h' : ∀ i, ((∃ m ∈ l, m.1 = i) → y[i]? = some c) ∧ ((¬ ∃ m ∈ l, m.1 = i) → y[i]? = w[i]?)) : x = y := by
  apply List.ext_getElem?
  intro i
  by_cases hi : ∃ m ∈ l, m.1 = i
  · rw [(h i).1 hi, (h' i).1 hi]
  · rw [(h i).2 hi, (h' i).2 hi]

mutual
/-- **C104** The specification makes one text of a text. -/
theorem C104_unique (P : Platform) : (n : Normalizer) → {w x y : WStr} → NormalizesTo P n w x → NormalizesTo P n w y → x = y
  | .bert .., _, _, _, .bert h, .bert h' => nt_bert h h'
  | .prepend _, _, _, _, .prepend h, .prepend h' => by rw [nt_utf8 h h']
  | .replace .., w, x, y, h, h' => by
    cases h with
    | unmatched h1 h2 h3 =>
      cases h' with
      | unmatched => rfl
      | replaced h1' h2' h3' =>
        obtain rfl := nt_utf8 h1 h1'
        rw [h2] at h2'; cases h2'
        exact absurd h3 h3'
    | replaced h1 h2 h3 h4 h5 h6 =>
      cases h' with
      | unmatched h1' h2' h3' =>
        obtain rfl := nt_utf8 h1 h1'
        rw [h2] at h2'; cases h2'
        exact absurd h3' h3
      | replaced h1' h2' h3' h4' h5' h6' =>
        obtain rfl := nt_utf8 h1 h1'
        rw [h2] at h2'; cases h2'
        obtain hc := nt_utf8 h4 h4'
        cases hc
        exact nt_replaced h6 h6'
  | .nf _, _, _, _, .nf, .nf => rfl
  | .strip .., _, _, _, .strip h, .strip h' => nt_trimmed h h'
  | .stripAccents, _, _, _, .stripAccents h, .stripAccents h' => C54_clean_unique h h'
  | .seq l, _, _, _, .seq h, .seq h' => C104_uniques P l h h'
/-- The same for lists of normalizers. -/
theorem C104_uniques (P : Platform) : (l : List Normalizer) → {w x y : WStr} → NormalizesAll P l w x → NormalizesAll P l w y → x = y
  | [], _, _, _, .nil, .nil => rfl
  | n :: l, _, _, _, .cons h1 h2, .cons h1' h2' => by
    obtain rfl := C104_unique P n h1 h1'
    exact C104_uniques P l h2 h2'
end

/-- In particular: what a normalizer returns does not depend on the offset table. -/
theorem C104_table (P : Platform) (n : Normalizer) {s s' r r' : NS} (ht : s.normalized = s'.normalized) (h : n.run P s = .ok r)
    (h' : n.run P s' = .ok r') : r.normalized = r'.normalized := by
  have h1 := C104_text P n h
  have h2 := C104_text P n h'
  rw [ht] at h1
  exact C104_unique P n h1 h2

/-! ### The hypothesis is met -/

/-- Strip, then spaces to `▁`, then `▁` in front, then accents. -/
def chainN : Normalizer :=
  .seq [.strip true true, .replace b!" " b!"▁", .prepend b!"▁", .seq [.nf .nfd, .stripAccents], .bert false true false true]

example : (chainN.run ascii (NS.ofText w!"  A 中B ")).map (·.normalized) = .ok w!"▁a▁ 中 b" := by decide +kernel

end Tok
