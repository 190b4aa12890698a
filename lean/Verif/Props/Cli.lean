import Verif.Cli
import Verif.Spec.Cli
import Verif.Proofs.Base
import Verif.Examples

set_option autoImplicit false

/-!
C82-C84: the example programs.
-/

namespace Tok
open Spec

/-! ### Numbers -/

/-- A character that ends a printed number. -/
def CliEnds (c : Nat) : Prop := c = 0x2C ∨ c = 0x5D ∨ c = 0x29

theorem cli_digits_mem : ∀ (f n : Nat), ∀ c ∈ natDigits f n, 0x30 ≤ c ∧ c ≤ 0x39 := by
  intro f
  induction f with
  | zero => intro n c h; cases h
  | succ f ih =>
    intro n c h
    unfold natDigits at h
    split at h
    · simp at h; omega
    · rcases List.mem_append.1 h with h | h
      · exact ih _ c h
      · simp at h; omega

theorem cli_digits_ne : ∀ (f n : Nat), natDigits (f + 1) n ≠ [] := by
  intro f n
  unfold natDigits
  split <;> simp

theorem cli_digits_inj : ∀ (f g n m : Nat), n < f → m < g → natDigits f n = natDigits g m → n = m := by
  intro f
  induction f with
  | zero => intro g n m h; omega
  | succ f ih =>
    intro g n m hn hm h
    cases g with
    | zero => omega
    | succ g =>
      unfold natDigits at h
      by_cases h1 : n < 10 <;> by_cases h2 : m < 10
      · simp [h1, h2] at h; exact h
      · exfalso
        simp only [h1, h2, if_true, if_false] at h
        have hl := congrArg List.length h
        have : 0 < (natDigits g (m / 10)).length := by
          cases g with
          | zero => omega
          | succ g => exact List.length_pos_iff.2 (cli_digits_ne g _)
        simp only [List.length_append, List.length_cons, List.length_nil] at hl; omega
      · exfalso
        simp only [h1, h2, if_true, if_false] at h
        have hl := congrArg List.length h
        have : 0 < (natDigits f (n / 10)).length := by
          cases f with
          | zero => omega
          | succ f => exact List.length_pos_iff.2 (cli_digits_ne f _)
        simp only [List.length_append, List.length_cons, List.length_nil] at hl; omega
      · simp only [h1, h2, if_false] at h
        have := List.append_inj' h rfl
        have e := ih g (n / 10) (m / 10) (by omega) (by omega) this.1
        have d := this.2
        simp at d
        omega

/-- A way of printing values that can be read back when a comma or a closing bracket follows. -/
def ReadsBack {α : Type} (f : α → Str) : Prop :=
  (∀ a, ∃ c r, f a = c :: r ∧ ¬ CliEnds c) ∧
  ∀ a b c d r s, CliEnds c → CliEnds d → f a ++ c :: r = f b ++ d :: s → a = b ∧ c = d ∧ r = s

theorem cli_split {x y : Str} (hx : ∀ c ∈ x, ¬ CliEnds c) (hy : ∀ c ∈ y, ¬ CliEnds c) : ∀ {c d : Nat} {r s : Str}, CliEnds c → CliEnds d →
    x ++ c :: r = y ++ d :: s → x = y ∧ c = d ∧ r = s := by
  induction x generalizing y with
  | nil =>
    intro c d r s hc hd h
    cases y with
    | nil => simp at h; exact ⟨rfl, h.1, h.2⟩
    | cons b y => simp at h; exact absurd (h.1 ▸ hc) (hy b (by simp))
  | cons a x ih =>
    intro c d r s hc hd h
    cases y with
    | nil => simp at h; exact absurd (h.1 ▸ hd) (hx a (by simp))
    | cons b y =>
      simp at h
      obtain ⟨e, e1, e2⟩ := ih (fun c hc => hx c (by simp [hc])) (fun c hc => hy c (by simp [hc])) hc hd h.2
      exact ⟨by rw [h.1, e], e1, e2⟩

theorem cli_decimal_mem (i : Int) : ∀ c ∈ decimal i, c = 0x2D ∨ (0x30 ≤ c ∧ c ≤ 0x39) := by
  intro c h
  unfold decimal at h
  split at h
  · rcases List.mem_cons.1 h with rfl | h
    · exact .inl rfl
    · exact .inr (cli_digits_mem _ _ c h)
  · exact .inr (cli_digits_mem _ _ c h)

theorem cli_decimal_ne (i : Int) : decimal i ≠ [] := by
  unfold decimal
  split
  · simp
  · exact cli_digits_ne _ _

theorem cli_decimal_inj {i j : Int} (h : decimal i = decimal j) : i = j := by
  unfold decimal at h
  have key : ∀ (n f : Nat) (t : Str), natDigits (f + 1) n ≠ 0x2D :: t := by
    intro n f t h
    have := cli_digits_mem (f + 1) n 0x2D (by rw [h]; simp)
    omega
  by_cases h1 : i < 0 <;> by_cases h2 : j < 0
  · simp only [h1, h2, if_true, List.cons.injEq, true_and] at h
    have := cli_digits_inj _ _ _ _ (by omega) (by omega) h
    omega
  · simp only [h1, h2, if_true, if_false] at h
    exact absurd h.symm (key _ _ _)
  · simp only [h1, h2, if_true, if_false] at h
    exact absurd h (key _ _ _)
  · simp only [h1, h2, if_false] at h
    have := cli_digits_inj _ _ _ _ (by omega) (by omega) h
    omega

theorem cli_decimal_ends (i : Int) : ∀ c ∈ decimal i, ¬ CliEnds c := by
  intro c h he
  have := cli_decimal_mem i c h
  unfold CliEnds at he
  omega

theorem cli_readable_num : ReadsBack decimal := by
  refine ⟨fun i => ?_, fun i j c d r s hc hd h => ?_⟩
  · cases hd : decimal i with
    | nil => exact absurd hd (cli_decimal_ne i)
    | cons c r => exact ⟨c, r, rfl, cli_decimal_ends i c (by rw [hd]; simp)⟩
  · obtain ⟨e, h⟩ := cli_split (cli_decimal_ends i) (cli_decimal_ends j) hc hd h
    exact ⟨cli_decimal_inj e, h⟩

theorem cli_none_ends : ∀ c ∈ (b!"None" : Str), ¬ CliEnds c := by unfold CliEnds; decide

theorem cli_readable_opt : ReadsBack (fun o => showElem (.opt o)) := by
  have hne : ∀ i : Int, decimal i ≠ b!"None" := by
    intro i h
    have := cli_decimal_mem i 0x4E (by rw [h]; decide)
    omega
  refine ⟨fun o => ?_, fun o p c d r s hc hd h => ?_⟩
  · cases o with
    | none => exact ⟨_, _, rfl, cli_none_ends _ (by decide)⟩
    | some i => exact cli_readable_num.1 i
  · cases o with
    | none =>
      cases p with
      | none => exact ⟨rfl, (cli_split cli_none_ends cli_none_ends hc hd h).2⟩
      | some j =>
        obtain ⟨e, _⟩ := cli_split cli_none_ends (cli_decimal_ends j) hc hd h
        exact absurd e.symm (hne j)
    | some i =>
      cases p with
      | none =>
        obtain ⟨e, _⟩ := cli_split (cli_decimal_ends i) cli_none_ends hc hd h
        exact absurd e (hne i)
      | some j =>
        obtain ⟨e, h⟩ := cli_readable_num.2 i j c d r s hc hd h
        exact ⟨by rw [e], h⟩

theorem cli_readable_pair : ReadsBack (fun p => showElem (.pair p)) := by
  refine ⟨fun p => ⟨_, _, rfl, by unfold CliEnds; decide⟩, fun p q c d r s hc hd h => ?_⟩
  simp only [showElem, List.append_assoc, List.cons_append, List.nil_append, List.cons.injEq, true_and] at h
  obtain ⟨e1, _, h⟩ := cli_readable_num.2 _ _ _ _ _ _ (.inl rfl) (.inl rfl) h
  simp only [List.cons.injEq, true_and] at h
  obtain ⟨e2, _, h⟩ := cli_readable_num.2 _ _ _ _ _ _ (.inr (.inr rfl)) (.inr (.inr rfl)) h
  simp only [List.cons.injEq] at h
  exact ⟨Prod.ext e1 e2, h.1, h.2⟩

/-! ### Lists -/

theorem cli_loop : ∀ (l : List Elem) (i size : Nat), i + l.length = size → printLoop size i l = commaSeparated (l.map showElem) := by
  intro l
  induction l with
  | nil => intro i size _; rfl
  | cons e l ih =>
    intro i size h
    simp only [List.length_cons] at h
    unfold printLoop
    rw [ih (i + 1) size (by omega)]
    cases l with
    | nil =>
      simp only [List.length_nil] at h
      rw [if_neg (by omega)]
      simp [commaSeparated]
    | cons e' l =>
      simp only [List.length_cons] at h
      rw [if_pos (by omega)]
      simp [commaSeparated]

theorem cli_print (l : List Elem) : printResult l = b!"[" ++ commaSeparated (l.map showElem) ++ b!"]\n" := by
  unfold printResult
  rw [cli_loop l 0 _ (by omega)]

theorem cli_list_readable {α : Type} {f : α → Str} (hf : ReadsBack f) : ∀ (l m : List α) (r s : Str),
    commaSeparated (l.map f) ++ 0x5D :: r = commaSeparated (m.map f) ++ 0x5D :: s → l = m ∧ r = s := by
  have hhead : ∀ (a : α) (l : List α) (r s : Str), commaSeparated ((a :: l).map f) ++ 0x5D :: r ≠ 0x5D :: s := by
    intro a l r s h
    obtain ⟨c, t, hc, he⟩ := hf.1 a
    cases l with
    | nil => simp [commaSeparated, hc] at h; exact he (by rw [h.1]; exact .inr (.inl rfl))
    | cons b l => simp [commaSeparated, hc] at h; exact he (by rw [h.1]; exact .inr (.inl rfl))
  intro l
  induction l with
  | nil =>
    intro m r s h
    cases m with
    | nil => simp [commaSeparated] at h; exact ⟨rfl, h⟩
    | cons a m => exact absurd h.symm (hhead a m s r)
  | cons a l ih =>
    intro m r s h
    cases m with
    | nil => exact absurd h (hhead a l r s)
    | cons b m =>
      cases l with
      | nil =>
        cases m with
        | nil =>
          simp only [List.map_cons, List.map_nil, commaSeparated] at h
          obtain ⟨e, _, h⟩ := hf.2 _ _ _ _ _ _ (.inr (.inl rfl)) (.inr (.inl rfl)) h
          exact ⟨by rw [e], h⟩
        | cons b' m =>
          simp only [List.map_cons, List.map_nil, commaSeparated, List.append_assoc, List.cons_append] at h
          obtain ⟨_, e, _⟩ := hf.2 _ _ _ _ _ _ (.inr (.inl rfl)) (.inl rfl) h
          cases e
      | cons a' l =>
        cases m with
        | nil =>
          simp only [List.map_cons, List.map_nil, commaSeparated, List.append_assoc, List.cons_append] at h
          obtain ⟨_, e, _⟩ := hf.2 _ _ _ _ _ _ (.inl rfl) (.inr (.inl rfl)) h
          cases e
        | cons b' m =>
          simp only [List.map_cons, commaSeparated, List.append_assoc, List.cons_append, List.nil_append] at h
          obtain ⟨e, _, h⟩ := hf.2 _ _ _ _ _ _ (.inl rfl) (.inl rfl) h
          simp only [List.cons.injEq, true_and] at h
          obtain ⟨e', h⟩ := ih (b' :: m) r s (by simpa [commaSeparated] using h)
          exact ⟨by rw [e, e'], h⟩

theorem cli_line {α : Type} {f : α → Str} {g : α → Elem} (hg : ∀ a, showElem (g a) = f a) (hf : ReadsBack f) {l m : List α}
    {r s : Str} (h : printResult (l.map g) ++ r = printResult (m.map g) ++ s) : l = m ∧ r = s := by
  rw [cli_print, cli_print, List.map_map, List.map_map, show showElem ∘ g = f from funext hg] at h
  simp only [List.append_assoc, List.cons_append, List.nil_append, List.cons.injEq, true_and] at h
  obtain ⟨e, h⟩ := cli_list_readable hf l m _ _ h
  simp only [List.cons.injEq, true_and] at h
  exact ⟨e, h⟩

/-- **C82.** Each printed list of numbers, of word numbers and of offsets tells which list it was: no two lists are printed
alike. -/
theorem C82_lists : (∀ l m : List Int, printResult (l.map .num) = printResult (m.map .num) → l = m) ∧
    (∀ l m : List (Option Int), printResult (l.map .opt) = printResult (m.map .opt) → l = m) ∧
    (∀ l m : List (Int × Int), printResult (l.map .pair) = printResult (m.map .pair) → l = m) := by
  refine ⟨fun l m h => ?_, fun l m h => ?_, fun l m h => ?_⟩
  · exact (cli_line (g := .num) (r := []) (s := []) (fun _ => rfl) cli_readable_num (by rw [h])).1
  · exact (cli_line (g := .opt) (r := []) (s := []) (fun _ => rfl) cli_readable_opt (by rw [h])).1
  · exact (cli_line (g := .pair) (r := []) (s := []) (fun _ => rfl) cli_readable_pair (by rw [h])).1

/-- **C82**, the whole output: two encodings of one text that are printed alike have the same ids and type ids. -/
theorem C82_output (text : Str) (e e' : Enc) (h : printEncoding text e = printEncoding text e') :
    e.ids = e'.ids ∧ e.typeIds = e'.typeIds := by
  unfold printEncoding at h
  simp only [List.append_assoc, List.append_cancel_left_eq] at h
  obtain ⟨h1, h⟩ := cli_line (fun _ => rfl) cli_readable_num h
  simp only [List.append_cancel_left_eq] at h
  obtain ⟨h2, _⟩ := cli_line (fun _ => rfl) cli_readable_num h
  exact ⟨h1, h2⟩

theorem cli_quote_split {x y r s : Str} (hx : 0x27 ∉ x) (hy : 0x27 ∉ y) (h : x ++ 0x27 :: r = y ++ 0x27 :: s) : x = y ∧ r = s := by
  induction x generalizing y with
  | nil =>
    cases y with
    | nil => simp at h; exact ⟨rfl, h⟩
    | cons b y => simp at h; simp [← h.1] at hy
  | cons a x ih =>
    cases y with
    | nil => simp at h; simp [h.1] at hx
    | cons b y =>
      simp at h hx hy
      obtain ⟨e, e'⟩ := ih hx.2 hy.2 h.2
      exact ⟨by rw [h.1, e], e'⟩

theorem cli_readable_str : ReadsBack (fun s : { s : Str // ClearToken s } => showElem (.str s.1)) := by
  have hs : ∀ s : Str, s ≠ b!"'" → showElem (.str s) = 0x27 :: (s ++ [0x27]) := by
    intro s h; simp only [showElem, if_neg h]; rfl
  refine ⟨fun s => ?_, fun s t c d r r' hc hd h => ?_⟩
  · by_cases h : s.1 = b!"'"
    · exact ⟨0x22, [0x27, 0x22], by simp only [h]; decide, by unfold CliEnds; decide⟩
    · exact ⟨0x27, _, hs s.1 h, by unfold CliEnds; decide⟩
  · obtain ⟨s, ps⟩ := s
    obtain ⟨t, pt⟩ := t
    simp only at h
    by_cases h1 : s = b!"'" <;> by_cases h2 : t = b!"'"
    · subst h1 h2
      simp only [List.append_cancel_left_eq, List.cons.injEq] at h
      exact ⟨rfl, h.1, h.2⟩
    · subst h1
      rw [hs t h2, show showElem (.str b!"'") = [0x22, 0x27, 0x22] by decide] at h
      simp at h
    · subst h2
      rw [hs s h1, show showElem (.str b!"'") = [0x22, 0x27, 0x22] by decide] at h
      simp at h
    · rw [hs s h1, hs t h2] at h
      simp only [List.cons_append, List.append_assoc, List.cons.injEq, true_and, List.nil_append] at h
      obtain ⟨e, h⟩ := cli_quote_split (ps.resolve_left h1) (pt.resolve_left h2) h
      simp only [List.cons.injEq] at h
      exact ⟨Subtype.ext e, h.1, h.2⟩

theorem cli_tokens {l m : List Str} (hl : ∀ s ∈ l, ClearToken s) (hm : ∀ s ∈ m, ClearToken s) {r s : Str}
    (h : printResult (l.map .str) ++ r = printResult (m.map .str) ++ s) : l = m ∧ r = s := by
  have key : ∀ (l : List Str) (hl : ∀ s ∈ l, ClearToken s), l = (l.attachWith ClearToken hl).map Subtype.val := by
    intro l hl; simp
  rw [key l hl, key m hm, List.map_map, List.map_map] at h
  obtain ⟨e, h⟩ := cli_line (g := Elem.str ∘ Subtype.val) (f := fun s : { s : Str // ClearToken s } => showElem (.str s.1))
    (fun _ => rfl) cli_readable_str h
  exact ⟨by rw [key l hl, key m hm, e], h⟩

theorem cli_rest {e e' : Enc} {r s : Str} (h : b!"words: " ++ (printResult (e.words.map .opt) ++ (b!"offsets: " ++
    (printResult (e.offsets.map .pair) ++ (b!"attention_mask: " ++ (printResult (e.attentionMask.map .num) ++ r))))) =
    b!"words: " ++ (printResult (e'.words.map .opt) ++ (b!"offsets: " ++ (printResult (e'.offsets.map .pair) ++
    (b!"attention_mask: " ++ (printResult (e'.attentionMask.map .num) ++ s)))))) :
    e.words = e'.words ∧ e.offsets = e'.offsets ∧ e.attentionMask = e'.attentionMask ∧ r = s := by
  rw [List.append_cancel_left_eq] at h
  obtain ⟨h1, h⟩ := cli_line (g := .opt) (fun _ => rfl) cli_readable_opt h
  rw [List.append_cancel_left_eq] at h
  obtain ⟨h2, h⟩ := cli_line (g := .pair) (fun _ => rfl) cli_readable_pair h
  rw [List.append_cancel_left_eq] at h
  obtain ⟨h3, h⟩ := cli_line (g := .num) (fun _ => rfl) cli_readable_num h
  exact ⟨h1, h2, h3, h⟩

theorem cli_output {text r s : Str} {e e' : Enc} (h : printEncoding text e ++ r = printEncoding text e' ++ s)
    (hc : e.tokens = e'.tokens ∨ ((∀ s ∈ e.tokens, ClearToken s) ∧ ∀ s ∈ e'.tokens, ClearToken s)) :
    (e.ids = e'.ids ∧ e.typeIds = e'.typeIds ∧ e.tokens = e'.tokens ∧ e.words = e'.words ∧ e.offsets = e'.offsets ∧
      e.attentionMask = e'.attentionMask) ∧ r = s := by
  unfold printEncoding at h
  simp only [List.append_assoc, List.append_cancel_left_eq] at h
  obtain ⟨h1, h⟩ := cli_line (fun _ => rfl) cli_readable_num h
  rw [List.append_cancel_left_eq] at h
  obtain ⟨h2, h⟩ := cli_line (fun _ => rfl) cli_readable_num h
  rw [List.append_cancel_left_eq] at h
  rcases hc with hc | ⟨hc, hc'⟩
  · rw [hc, List.append_cancel_left_eq] at h
    obtain ⟨h3, h4, h5, h⟩ := cli_rest h
    exact ⟨⟨h1, h2, hc, h3, h4, h5⟩, h⟩
  · obtain ⟨ht, h⟩ := cli_tokens hc hc' h
    obtain ⟨h3, h4, h5, h⟩ := cli_rest h
    exact ⟨⟨h1, h2, ht, h3, h4, h5⟩, h⟩

/-- **C82**, every printed vector: two encodings of one text that are printed alike, and whose tokens agree or all show where
they end, agree in every vector that is printed. -/
theorem C82_vectors (text : Str) (e e' : Enc) (h : printEncoding text e = printEncoding text e')
    (hc : e.tokens = e'.tokens ∨ ((∀ s ∈ e.tokens, ClearToken s) ∧ ∀ s ∈ e'.tokens, ClearToken s)) :
    e.ids = e'.ids ∧ e.typeIds = e'.typeIds ∧ e.tokens = e'.tokens ∧ e.words = e'.words ∧ e.offsets = e'.offsets ∧
      e.attentionMask = e'.attentionMask :=
  (cli_output (r := []) (s := []) (by rw [h]) hc).1

/-- Tokens that show where they end. -/
example : ∀ s ∈ [b!"[CLS]", b!"it", b!"'", b!"s", b!"\"", b!"[SEP]"], ClearToken s := by unfold ClearToken; decide

theorem cli_run {P : Platform} {src : Source} {arg out : Str} (h : runMain P (some (src, arg)) = (out, .ok ())) :
    ∃ t w e text d, Tokenizer.make P src = .ok t ∧ convertFromString arg = .ok w ∧ (t.encode P w true).1 = .ok e ∧
      convertToString w = .ok text ∧ (t.encode P w true).2.decode e.ids true = .ok d ∧
      out = printEncoding text e.toEnc ++ printDecoding e.ids d := by
  unfold runMain at h
  simp only at h
  cases ht : Tokenizer.make P src with
  | error e => rw [ht] at h; cases h
  | ok t =>
    rw [ht] at h; simp only at h
    cases hw : convertFromString arg with
    | error e => rw [hw] at h; cases h
    | ok w =>
      rw [hw] at h; simp only at h
      generalize hR : t.encode P w true = R at h
      obtain ⟨r, t'⟩ := R
      cases r with
      | error e => cases h
      | ok e =>
        simp only at h
        cases hx : convertToString w with
        | error e => rw [hx] at h; cases h
        | ok text =>
          rw [hx] at h; simp only at h
          cases hd : t'.decode e.ids true with
          | error e => rw [hd] at h; cases h
          | ok d =>
            rw [hd] at h; simp only at h
            cases h
            exact ⟨t, w, e, text, d, rfl, rfl, by rw [hR], hx, by rw [hR]; exact hd, rfl⟩

/-- **C82**, whole programs: if two runs on the same text, with any two configurations, end normally with the same output, then
the two tokenizers give the text the same ids and type ids. -/
theorem C82_run (P : Platform) (src src' : Source) (arg out : Str) (h : runMain P (some (src, arg)) = (out, .ok ()))
    (h' : runMain P (some (src', arg)) = (out, .ok ())) :
    ∃ t t' w e e', Tokenizer.make P src = .ok t ∧ Tokenizer.make P src' = .ok t' ∧ convertFromString arg = .ok w ∧
      (t.encode P w true).1 = .ok e ∧ (t'.encode P w true).1 = .ok e' ∧ e.ids = e'.ids ∧ e.typeIds = e'.typeIds := by
  obtain ⟨t, w, e, text, d, h1, h2, h3, h4, _, h5⟩ := cli_run h
  obtain ⟨t', w', e', text', d', g1, g2, g3, g4, _, g5⟩ := cli_run h'
  rw [h2] at g2; cases g2
  rw [h4] at g4; cases g4
  rw [h5] at g5
  unfold printEncoding at g5
  simp only [List.append_assoc, List.append_cancel_left_eq] at g5
  obtain ⟨k1, g5⟩ := cli_line (fun _ => rfl) cli_readable_num g5
  simp only [List.append_cancel_left_eq] at g5
  obtain ⟨k2, _⟩ := cli_line (fun _ => rfl) cli_readable_num g5
  exact ⟨t, t', w, e, e', h1, g1, h2, h3, g3, k1, k2⟩

/-- **C82**, whole programs, every vector: if moreover all tokens show where they end, the two tokenizers give the text the same
printed vectors and decode them to the same text. -/
theorem C82_run_vectors (P : Platform) (src src' : Source) (arg out : Str) (h : runMain P (some (src, arg)) = (out, .ok ()))
    (h' : runMain P (some (src', arg)) = (out, .ok ())) :
    ∃ t t' w e e' d d', Tokenizer.make P src = .ok t ∧ Tokenizer.make P src' = .ok t' ∧ convertFromString arg = .ok w ∧
      (t.encode P w true).1 = .ok e ∧ (t'.encode P w true).1 = .ok e' ∧ (t.encode P w true).2.decode e.ids true = .ok d ∧
      (t'.encode P w true).2.decode e'.ids true = .ok d' ∧
      ((∀ s ∈ e.toEnc.tokens, ClearToken s) → (∀ s ∈ e'.toEnc.tokens, ClearToken s) →
        e.ids = e'.ids ∧ e.typeIds = e'.typeIds ∧ e.tokens = e'.tokens ∧ e.words = e'.words ∧ e.offsets = e'.offsets ∧
        e.attentionMask = e'.attentionMask ∧ d = d') := by
  obtain ⟨t, w, e, text, d, h1, h2, h3, h4, hd, h5⟩ := cli_run h
  obtain ⟨t', w', e', text', d', g1, g2, g3, g4, gd, g5⟩ := cli_run h'
  rw [h2] at g2; cases g2
  rw [h4] at g4; cases g4
  rw [h5] at g5
  refine ⟨t, t', w, e, e', d, d', h1, g1, h2, h3, g3, hd, gd, fun hc hc' => ?_⟩
  obtain ⟨⟨k1, k2, k3, k4, k5, k6⟩, k⟩ := cli_output g5 (.inr ⟨hc, hc'⟩)
  refine ⟨k1, k2, k3, k4, k5, k6, ?_⟩
  have hi : e.ids = e'.ids := k1
  unfold printDecoding at k
  rw [hi] at k
  simpa using k

/-- A configuration in the style of BERT. -/
def runDoc : Json := .obj
  [(b!"version", .str b!"1.0"), (b!"truncation", .null), (b!"padding", .null),
   (b!"added_tokens", .arr [Examples.tokJson b!"[UNK]" b!"0", Examples.tokJson b!"[CLS]" b!"1", Examples.tokJson b!"[SEP]" b!"2"]),
   (b!"normalizer", .null),
   (b!"pre_tokenizer", .obj [(b!"type", .str b!"BertPreTokenizer")]),
   (b!"post_processor", .obj [(b!"type", .str b!"TemplateProcessing"),
      (b!"single", .arr [Examples.pieceJson b!"SpecialToken" b!"[CLS]" b!"0", Examples.pieceJson b!"Sequence" b!"A" b!"0",
         Examples.pieceJson b!"SpecialToken" b!"[SEP]" b!"0"]),
      (b!"pair", .null), (b!"special_tokens", .obj [Examples.stJson b!"[CLS]" b!"1", Examples.stJson b!"[SEP]" b!"2"])]),
   (b!"decoder", .obj [(b!"type", .str b!"WordPiece"), (b!"prefix", .str b!"##"), (b!"cleanup", .bool true)]),
   (b!"model", .obj [(b!"type", .str b!"WordPiece"), (b!"unk_token", .str b!"[UNK]"),
      (b!"continuing_subword_prefix", .str b!"##"), (b!"max_input_chars_per_word", .num b!"100"),
      (b!"vocab", .obj [(b!"[UNK]", .num b!"0"), (b!"[CLS]", .num b!"1"), (b!"[SEP]", .num b!"2"),
        (b!"play", .num b!"3"), (b!"##ing", .num b!"4")])])]

/-- A whole run. -/
example : runMain ascii (some (.document runDoc, b!"playing play")) =
    (b!"Encoding: playing play\nids: [1, 3, 4, 3, 2]\ntype_ids: [0, 0, 0, 0, 0]\ntokens: ['[CLS]', 'play', '##ing', 'play', '[SEP]']\n" ++
     b!"words: [None, 0, 0, 1, None]\noffsets: [(0, 0), (0, 4), (4, 7), (8, 12), (0, 0)]\nattention_mask: [1, 1, 1, 1, 1]\n" ++
     b!"Decoding: [1, 3, 4, 3, 2]\ntokens: playing play\n", .ok ()) := by decide +kernel

example : printResult ([12, -3, 0].map .num) = b!"[12, -3, 0]\n" := by decide +kernel
example : printResult ([some 0, none, some 10].map .opt) = b!"[0, None, 10]\n" := by decide +kernel
example : printResult ([(0, 3), (3, 14)].map .pair) = b!"[(0, 3), (3, 14)]\n" := by decide +kernel

/-! ### Tokens -/

/-- **C82 refuted for tokens**: two token lists that are printed alike. -/
theorem C82_tokens_violated : printResult ([b!"a', 'b"].map .str) = printResult ([b!"a", b!"b"].map .str) := by decide +kernel

theorem cli_commas_length : ∀ (l : List Str), (commaSeparated l).length = (l.map List.length).sum + 2 * (l.length - 1) := by
  intro l
  induction l with
  | nil => rfl
  | cons s l ih =>
    cases l with
    | nil => simp [commaSeparated]
    | cons t l => simp [commaSeparated] at ih ⊢; omega

theorem cli_commas_inj {α : Type} {f g : α → Str} : ∀ (l : List α), (∀ a ∈ l, (f a).length = (g a).length) →
    commaSeparated (l.map f) = commaSeparated (l.map g) → ∀ a ∈ l, f a = g a := by
  intro l
  induction l with
  | nil => intro _ _ a h; cases h
  | cons a l ih =>
    intro hlen h x hx
    cases l with
    | nil =>
      simp at hx; subst hx
      simpa [commaSeparated] using h
    | cons b l =>
      simp only [List.map_cons, commaSeparated, List.append_assoc] at h
      obtain ⟨e, h⟩ := List.append_inj h (hlen a (by simp))
      rcases List.mem_cons.1 hx with rfl | hx
      · exact e
      · exact ih (fun x hx => hlen x (by simp [hx])) (by simpa [commaSeparated] using h) x hx

theorem cli_escape_length (q : Nat) : ∀ s : Str, s.length ≤ (s.flatMap fun c => if c = 0x5C ∨ c = q then [0x5C, c] else [c]).length ∧
    ((s.flatMap fun c => if c = 0x5C ∨ c = q then [0x5C, c] else [c]).length = s.length → 0x5C ∉ s ∧ q ∉ s) ∧
    (0x5C ∉ s → q ∉ s → (s.flatMap fun c => if c = 0x5C ∨ c = q then [0x5C, c] else [c]) = s) := by
  intro s
  induction s with
  | nil => simp
  | cons a s ih =>
    obtain ⟨h1, h2, h3⟩ := ih
    simp only [List.flatMap_cons, List.length_append, List.length_cons]
    by_cases h : a = 0x5C ∨ a = q
    · simp only [if_pos h, List.length_cons, List.length_nil]
      refine ⟨by omega, fun h' => by omega, fun g1 g2 => ?_⟩
      simp at g1 g2
      rcases h with h | h
      · exact absurd h.symm g1.1
      · exact absurd h.symm g2.1
    · simp only [if_neg h, List.length_cons, List.length_nil]
      refine ⟨by omega, fun h' => ?_, fun g1 g2 => ?_⟩
      · obtain ⟨g1, g2⟩ := h2 (by omega)
        simp only [not_or] at h
        simp only [List.mem_cons, not_or]
        exact ⟨⟨fun e => h.1 e.symm, g1⟩, fun e => h.2 e.symm, g2⟩
      · simp only [List.mem_cons, not_or] at g1 g2
        rw [h3 g1.2 g2.2]; rfl

theorem cli_show_str (s : Str) : (showElem (.str s)).length = s.length + 2 := by
  simp only [showElem]
  split <;> simp

theorem cli_repr_length (s : Str) : (showElem (.str s)).length ≤ (pyRepr s).length := by
  rw [cli_show_str]
  unfold pyRepr
  have := (cli_escape_length (if 0x27 ∈ s ∧ 0x22 ∉ s then 0x22 else 0x27) s).1
  simp only [List.length_append, List.length_cons, List.length_nil]
  omega

theorem cli_repr_iff (s : Str) : showElem (.str s) = pyRepr s ↔ s = b!"'" ∨ (0x27 ∉ s ∧ 0x5C ∉ s) := by
  constructor
  · intro h
    have hl := congrArg List.length h
    rw [cli_show_str] at hl
    unfold pyRepr at h hl
    have he := (cli_escape_length (if 0x27 ∈ s ∧ 0x22 ∉ s then 0x22 else 0x27) s).2.1 (by
      simp only [List.length_append, List.length_cons, List.length_nil] at hl; omega)
    by_cases hs : s = b!"'"
    · exact .inl hs
    · refine .inr ⟨fun hq => ?_, he.1⟩
      by_cases hd : 0x22 ∈ s
      · rw [if_neg (by simp [hd])] at he
        exact he.2 hq
      · simp only [hq, hd, not_false_eq_true, and_self, if_true] at h
        simp only [showElem, if_neg hs, List.cons_append, List.nil_append] at h
        simp at h
  · rintro (rfl | ⟨h1, h2⟩)
    · decide
    · have hs : s ≠ b!"'" := by rintro rfl; simp at h1
      unfold pyRepr
      simp only [h1, false_and, if_false]
      rw [(cli_escape_length 0x27 s).2.2 h2 h1]
      simp only [showElem, if_neg hs]

/-- **C83.** For tokens of printable ASCII characters, the printed list is what Python prints for the same list exactly if
every token is the single quote alone or has neither a single quote nor a backslash. -/
theorem C83_python_iff (l : List Str) (_h : ∀ s ∈ l, ∀ c ∈ s, AsciiPrintable c) :
    printResult (l.map .str) = pyPrint l ↔ ∀ s ∈ l, s = b!"'" ∨ (0x27 ∉ s ∧ 0x5C ∉ s) := by
  rw [cli_print]
  unfold pyPrint
  simp only [List.map_map, List.append_assoc, List.append_cancel_left_eq, List.append_cancel_right_eq]
  constructor
  · intro h s hs
    refine (cli_repr_iff s).1 ?_
    have hlen : ∀ s ∈ l, (showElem (.str s)).length = (pyRepr s).length := by
      have hsum := congrArg List.length h
      rw [cli_commas_length, cli_commas_length] at hsum
      simp only [List.length_map, List.map_map, Function.comp_def] at hsum
      clear h hs
      have key : ∀ l : List Str, (l.map fun s => (showElem (.str s)).length).sum ≤ (l.map fun s => (pyRepr s).length).sum ∧
          ((l.map fun s => (showElem (.str s)).length).sum = (l.map fun s => (pyRepr s).length).sum →
            ∀ s ∈ l, (showElem (.str s)).length = (pyRepr s).length) := by
        intro l
        induction l with
        | nil => exact ⟨Nat.le_refl _, fun _ s hs => by cases hs⟩
        | cons a l ih =>
          have := cli_repr_length a
          obtain ⟨h1, h2⟩ := ih
          simp only [List.map_cons, List.sum_cons]
          refine ⟨by omega, fun he s hs => ?_⟩
          rcases List.mem_cons.1 hs with rfl | hs
          · omega
          · exact h2 (by omega) s hs
      exact (key l).2 (by omega)
    exact cli_commas_inj l hlen h s hs
  · intro h
    congr 1
    apply List.map_congr_left
    intro s hs
    exact (cli_repr_iff s).2 (h s hs)

/-- Both cases occur. -/
example : printResult ([b!"it", b!"'", b!"s"].map .str) = pyPrint [b!"it", b!"'", b!"s"] :=
  (C83_python_iff _ (by unfold AsciiPrintable; decide)).2 (by decide)
theorem C83_violated : printResult ([b!"'s"].map .str) = b!"[''s']\n" ∧ pyPrint [b!"'s"] = b!"[\"'s\"]\n" := by decide +kernel

/-! ### The masked position -/

theorem cli_masked (l : List Int) : ∀ (i : Int), 0 ≤ i →
    (∀ k : Nat, maskedLoop i l = i + k ↔ l[k]? = some 103 ∧ ∀ j < k, l[j]? ≠ some 103) ∧
    (maskedLoop i l = -1 ↔ 103 ∉ l) := by
  induction l with
  | nil =>
    intro i hi
    refine ⟨fun k => ⟨fun h => ?_, fun h => by simp at h⟩, by simp [maskedLoop]⟩
    simp only [maskedLoop] at h; omega
  | cons a l ih =>
    intro i hi
    obtain ⟨h1, h2⟩ := ih (i + 1) (by omega)
    unfold maskedLoop
    by_cases ha : a = 103
    · rw [if_pos ha]
      refine ⟨fun k => ⟨fun h => ?_, fun h => ?_⟩, ⟨fun h => by omega, fun h => absurd ha.symm (fun e => h (by simp [e]))⟩⟩
      · have : k = 0 := by omega
        subst this
        exact ⟨by simp [ha], fun j hj => by omega⟩
      · cases k with
        | zero => simp
        | succ k => exact absurd (by simp [ha]) (h.2 0 (by omega))
    · rw [if_neg ha]
      refine ⟨fun k => ?_, ?_⟩
      · cases k with
        | zero =>
          refine ⟨fun h => ?_, fun h => by simp at h; exact absurd h ha⟩
          exfalso
          by_cases hm : 103 ∈ l
          · have hge : ∀ (l : List Int) (i : Int), maskedLoop i l = -1 ∨ i ≤ maskedLoop i l := by
              intro l
              induction l with
              | nil => intro i; exact .inl rfl
              | cons b l ih =>
                intro i
                unfold maskedLoop
                split
                · exact .inr (Int.le_refl _)
                · rcases ih (i + 1) with h | h
                  · exact .inl h
                  · exact .inr (by omega)
            rcases hge l (i + 1) with g | g
            · exact (h2.1 g) hm
            · omega
          · have := h2.2 hm; omega
        | succ k =>
          have := h1 k
          rw [show i + ((k + 1 : Nat) : Int) = i + 1 + k by omega, this]
          refine ⟨fun ⟨g1, g2⟩ => ⟨by simpa using g1, fun j hj => ?_⟩, fun ⟨g1, g2⟩ => ⟨by simpa using g1, fun j hj => ?_⟩⟩
          · cases j with
            | zero => simpa using ha
            | succ j => simpa using g2 j (by omega)
          · simpa using g2 (j + 1) (by omega)
      · rw [h2]
        simp [Ne.symm ha]

/-- **C84.** The position whose prediction is shown is the first one with the id 103; it is -1, which the tensor takes as the
last position, exactly if no position has that id. -/
theorem C84_masked (e : Enc) :
    (∀ k : Nat, maskedIndex e = k ↔ e.ids[k]? = some 103 ∧ ∀ j < k, e.ids[j]? ≠ some 103) ∧
    (maskedIndex e = -1 ↔ 103 ∉ e.ids) := by
  obtain ⟨h1, h2⟩ := cli_masked e.ids 0 (by omega)
  refine ⟨fun k => ?_, h2⟩
  have := h1 k
  rw [Int.zero_add] at this
  exact this

example : maskedIndex { ids := [101, 7, 103, 8, 103, 102] } = 2 ∧ maskedIndex { ids := [101, 7, 102] } = -1 := by decide

end Tok
