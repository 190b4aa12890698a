import Verif.Spec.Apostrophe
import Verif.Props.Pipeline

set_option autoImplicit false

/-!
C131: with `use_regex`, ByteLevel separates words at apostrophes and nowhere else.
-/

namespace Tok
open Spec

/-! ### The matches -/

theorem ap_other {c : Nat} {r : U16} {pos : Nat} (h : c ≠ 0x27) : apostrophes pos (c :: r) = apostrophes (pos + 1) r := by
  rw [apostrophes.eq_def]
  split
  · rename_i e; cases e
  · rename_i e; cases e; exact absurd rfl h
  · rename_i e; cases e; exact absurd rfl h
  · rename_i e; cases e; rfl

theorem ap_single {r : U16} {pos : Nat} (h : r.head? ≠ some 0x73) : apostrophes pos (0x27 :: r) = (pos, pos + 1) :: apostrophes (pos + 1) r := by
  rw [apostrophes.eq_def]
  split
  · rename_i e; cases e
  · rename_i e; cases e; exact absurd rfl h
  · rename_i e; cases e; rfl
  · rename_i h1 h2 e; cases e; exact (h2 rfl).elim

theorem ap_units (c : Nat) : (c = 0x27 ∧ utf16Enc1 c = [0x27]) ∨ (c ≠ 0x27 ∧ ∀ x ∈ utf16Enc1 c, x ≠ 0x27) := by
  unfold utf16Enc1
  by_cases h : c = 0x27
  · subst h; exact .inl ⟨rfl, by decide⟩
  · refine .inr ⟨h, ?_⟩
    split
    · intro x hx; rw [List.mem_singleton] at hx; rw [hx]; exact h
    · intro x hx; simp only [List.mem_cons, List.not_mem_nil, or_false] at hx
      omega

theorem ap_skip : ∀ (g : U16) (r : U16) (pos : Nat), (∀ x ∈ g, x ≠ 0x27) → apostrophes pos (g ++ r) = apostrophes (pos + g.length) r := by
  intro g
  induction g with
  | nil => intro r pos _; rfl
  | cons x g ih =>
    intro r pos h
    rw [List.cons_append, ap_other (h x (List.mem_cons_self ..)), ih _ _ fun y hy => h y (List.mem_cons_of_mem _ hy)]
    rw [List.length_cons]; congr 1; omega

theorem ap_skip_text {g : WStr} (h : 0x27 ∉ g) (w : WStr) (pos : Nat) :
    apostrophes pos (utf16 (g ++ w)) = apostrophes (pos + units g) (utf16 w) := by
  rw [utf16_append, ap_skip, ← units_eq]
  intro x hx
  unfold utf16 at hx
  obtain ⟨c, hc, hx⟩ := List.mem_flatMap.1 hx
  rcases ap_units c with ⟨rfl, _⟩ | ⟨_, h2⟩
  · exact absurd hc h
  · exact h2 x hx

theorem ap_head {w : WStr} (h : w.head? ≠ some 0x73) : (utf16 w).head? ≠ some 0x73 := by
  cases w with
  | nil => simp
  | cons c w =>
    simp only [utf16_cons]
    unfold utf16Enc1
    simp only [List.head?_cons, ne_eq, Option.some.injEq] at h
    split <;> simp only [List.cons_append, List.head?_cons, ne_eq, Option.some.injEq] <;> omega

theorem ap_cons (w : WStr) (c : Nat) (h : c < 0x10000) : utf16 (c :: w) = c :: utf16 w := by
  rw [utf16_cons]; unfold utf16Enc1; rw [if_pos h]; rfl

/-- Every text can be cut at its apostrophes. -/
theorem ap_total : ∀ (n : Nat) (w : WStr), w.length ≤ n → ∃ l, ApostropheWords w l := by
  intro n
  induction n with
  | zero => intro w h; cases w with
    | nil => exact ⟨[], .nil⟩
    | cons => cases h
  | succ n ih =>
    intro w h
    by_cases hw : w = []
    · subst hw; exact ⟨[], .nil⟩
    by_cases h1 : w.head? = some 0x27
    · obtain ⟨c, r, rfl⟩ := List.exists_cons_of_ne_nil hw
      simp only [List.head?_cons, Option.some.injEq] at h1
      subst h1
      by_cases h2 : r.head? = some 0x73
      · cases r with
        | nil => cases h2
        | cons d r =>
          simp only [List.head?_cons, Option.some.injEq] at h2
          subst h2
          obtain ⟨l, hl⟩ := ih r (by simp only [List.length_cons] at h; omega)
          exact ⟨_, .possessive hl⟩
      · obtain ⟨l, hl⟩ := ih r (by simp only [List.length_cons] at h; omega)
        exact ⟨_, .apostrophe h2 hl⟩
    · have hg : w.takeWhile (· ≠ 0x27) ≠ [] := by
        obtain ⟨c, r, rfl⟩ := List.exists_cons_of_ne_nil hw
        simp only [List.head?_cons, Option.some.injEq] at h1
        rw [List.takeWhile_cons, if_pos (by simp [h1])]
        simp
      have e := List.takeWhile_append_dropWhile (p := fun x : Nat => decide (x ≠ 0x27)) (l := w)
      obtain ⟨l, hl⟩ := ih (w.dropWhile (· ≠ 0x27)) (by
        have := congrArg List.length e
        rw [List.length_append] at this
        have := List.length_pos_iff.2 hg
        omega)
      have := ApostropheWords.stretch hg (fun hm => by simpa using List.all_takeWhile (p := fun x : Nat => decide (x ≠ 0x27)) (l := w) |> List.all_eq_true.1 |> (· _ hm)) (by
        cases hd : w.dropWhile (· ≠ 0x27) with
        | nil => exact .inl rfl
        | cons c r =>
          right
          have := List.head?_dropWhile_not (p := fun x : Nat => decide (x ≠ 0x27)) (l := w)
          rw [hd] at this
          simpa using this) hl
      rw [e] at this
      exact ⟨_, this⟩

/-- Cutting at the matches is cutting at the apostrophes. -/
theorem ap_cuts {w : WStr} {l : List WStr} (h : ApostropheWords w l) : ∀ pos, CutsAt true pos (apostrophes pos (utf16 w)) w l := by
  induction h with
  | nil => intro pos; exact .done
  | @possessive w l _ ih =>
    intro pos
    rw [ap_cons _ _ (by decide), ap_cons _ _ (by decide)]
    have := CutsAt.here (keep := true) (a := pos) (b := pos + 2) (m := [0x27, 0x73]) (by simp [units]) (ih (pos + 2))
    simpa [apostrophes] using this
  | @apostrophe w l hw _ ih =>
    intro pos
    rw [ap_cons _ _ (by decide), ap_single (ap_head hw)]
    have := CutsAt.here (keep := true) (a := pos) (b := pos + 1) (m := [0x27]) (by simp [units]) (ih (pos + 1))
    simpa using this
  | @stretch g w l hg hn hw h ih =>
    intro pos
    rw [ap_skip_text hn]
    rcases hw with rfl | hw
    · have : l = [] := by
        generalize hv : ([] : WStr) = v at h
        cases h with
        | nil => rfl
        | possessive => cases hv
        | apostrophe => cases hv
        | stretch h1 => exact absurd (List.append_eq_nil_iff.1 hv.symm).1 h1
      subst this
      rw [List.append_nil]
      exact .rest hg
    · have k := ih (pos + units g)
      have e : ∃ b ms, apostrophes (pos + units g) (utf16 w) = (pos + units g, b) :: ms := by
        cases w with
        | nil => cases hw
        | cons c w =>
          simp only [List.head?_cons, Option.some.injEq] at hw
          subst hw
          rw [ap_cons _ _ (by decide)]
          cases hu : utf16 w with
          | nil => exact ⟨_, _, rfl⟩
          | cons d u =>
            by_cases hd : d = 0x73
            · subst hd; exact ⟨_, _, rfl⟩
            · exact ⟨_, _, ap_single (by simpa using hd)⟩
      obtain ⟨b, ms, e⟩ := e
      rw [e] at k ⊢
      exact .gap hg rfl k

theorem ap_ordered {keep : Bool} {pos : Nat} {ms : List (Nat × Nat)} {v : WStr} {l : List WStr} (h : CutsAt keep pos ms v l) :
    Ordered (pos + units v) pos ms ∧ ∀ pre : WStr, units pre = pos → ∀ m ∈ ms, Boundary (pre ++ v) m.1 ∧ Boundary (pre ++ v) m.2 := by
  induction h with
  | done => exact ⟨by simp [Ordered], by intro _ _ m hm; cases hm⟩
  | rest => exact ⟨by simp [Ordered], by intro _ _ m hm; cases hm⟩
  | @gap pos a b ms g w l hg ha _ ih =>
    refine ⟨?_, fun pre hp m hm => ?_⟩
    · have h1 := ih.1
      simp only [Ordered] at h1 ⊢
      rw [units_append, ← Nat.add_assoc, ← ha]
      exact ⟨by omega, h1.2.1, h1.2.2⟩
    · have := ih.2 (pre ++ g) (by rw [units_append]; omega) m hm
      rwa [List.append_assoc] at this
  | @here a b ms m w l hb _ ih =>
    refine ⟨?_, fun pre hp x hx => ?_⟩
    · have h1 := ih.1
      simp only [Ordered]
      rw [units_append, ← Nat.add_assoc, ← hb]
      exact ⟨Nat.le_refl _, by omega, h1⟩
    · rcases List.mem_cons.1 hx with rfl | hx
      · exact ⟨⟨pre, m ++ w, rfl, hp.symm⟩, ⟨pre ++ m, w, by simp, by rw [units_append]; simp only; omega⟩⟩
      · have := ih.2 (pre ++ m) (by rw [units_append]; omega) x hx
        rwa [List.append_assoc] at this

/-- The engine described by `apostrophes` reports matches as engines do. -/
theorem C131_engine : GoodEngine (apostrophes 0) := by
  intro w u hu
  obtain ⟨_, rfl⟩ := utf16Text_iff.1 hu
  obtain ⟨l, hl⟩ := ap_total w.length w (Nat.le_refl _)
  have h := ap_ordered (ap_cuts hl 0)
  rw [Nat.zero_add, units_eq] at h
  exact ⟨h.1, h.2 [] rfl⟩

/-! ### The words -/

/-- The pattern cuts a text at its apostrophes. -/
theorem C131_cut {P : Platform} (hp : KnowsApostrophes P) {w : WStr} (hw : Scalars w) (l : List WStr) :
    CutByRegex P true byteLevelPattern w l ↔ ApostropheWords w l := by
  have main : ∀ l, ApostropheWords w l → CutByRegex P true byteLevelPattern w l := fun l h =>
    ⟨_, utf16 w, by rw [C62_violated.1]; exact hp, utf16Text_iff.2 ⟨hw, rfl⟩, ap_cuts h 0⟩
  refine ⟨fun h => ?_, main l⟩
  obtain ⟨l', hl'⟩ := ap_total w.length w (Nat.le_refl _)
  rw [pl_regex_unique w l l' h (main l' hl')]
  exact hl'

/-- A text can be cut at its apostrophes in one way. -/
theorem C131_unique {w : WStr} {l l' : List WStr} (h : ApostropheWords w l) (h' : ApostropheWords w l') : l = l' :=
  pl_cuts_unique (ap_cuts h 0) (ap_cuts h' 0)

/-- A platform with the same behaviour whose engine knows one pattern. -/
def apPlatform (P : Platform) : Platform := { P with regex := fun p => if p = b!"'s|'" then some (apostrophes 0) else none }

theorem ap_good (P : Platform) : GoodRegexes (apPlatform P) := by
  intro pattern find h
  unfold apPlatform at h
  simp only at h
  split at h
  · cases h; exact C131_engine
  · cases h

theorem ap_knows (P : Platform) : KnowsApostrophes (apPlatform P) := by
  unfold KnowsApostrophes apPlatform
  simp

theorem ap_written : ∀ {l1 l' : List (WStr × Bool)} {l : List Split}, Each (fun (x y : WStr × Bool) => InBytes x.1 y.1 ∧ y.2 = x.2) l1 l' →
    Each RfItem l' l → Each (fun x q => WrittenInBytes x.1 q) l1 l := by
  intro l1 l' l j1 j2
  induction j1 generalizing l with
  | nil => cases j2; exact .nil
  | cons hx _ ih =>
    cases j2 with
    | cons hy hr =>
      obtain ⟨⟨bytes, b1, b2⟩, _⟩ := hx
      exact .cons ⟨bytes, b1, b2 ▸ hy.1⟩ (ih hr)

theorem ap_run {P : Platform} (hp : KnowsApostrophes P) {a : Bool} {s : Stage} {p p' : PTS} (hs : AtStage s p)
    (h : (PreTokenizer.byteLevel a true).run P p = .ok p') :
    ∃ s0 l1, PrefixSpace P a s s0 ∧ CutItems ApostropheWords s0.2 l1 ∧ Each (fun x q => WrittenInBytes x.1 q) l1 p'.splits := by
  rw [C62_only_prefix P (apPlatform P) a true p (by rw [hp]; exact (ap_knows P).symm) rfl rfl] at h
  simp only [PreTokenizer.run, pl_byteLevel_eq] at h
  obtain ⟨p1, h1, h⟩ := res_bind_ok.1 h
  obtain ⟨p2, h2, h⟩ := res_bind_ok.1 h
  obtain ⟨l, h3, h⟩ := res_bind_ok.1 h
  cases h
  obtain ⟨s0, k1, k2⟩ := pl_prefix hs h1
  obtain ⟨e1, l1, i1, i2⟩ := pl_split (R := ApostropheWords) (by
    intro s v part hv hq
    obtain ⟨hsc, hn⟩ := utf8Text_iff.1 hv
    simp only [if_true] at hq
    obtain ⟨l, l1, l2⟩ := pl_regex (ap_good P) byteLevelPattern .isolated s v part hv hq
    exact ⟨l, (C131_cut (ap_knows P) hsc l).1 l1, l2⟩) k2.2 h2
  obtain ⟨l', j1, j2⟩ := pl_bytes i2 h3
  refine ⟨s0, l1, ?_, i1, ?_⟩
  · cases k1 with
    | off => exact .off
    | blank hc => exact .blank hc
    | added hc => exact .added hc
  · exact ap_written j1 j2

/-- **C131** The words that a ByteLevel tokenizer with `use_regex` gives to its model: the ordinary pieces between added
tokens, cut at apostrophes and nowhere else, in the byte alphabet.  With `add_prefix_space` the pieces are the text with a
space in front, unless it begins with white space. -/
theorem C131_words {P : Platform} (hp : KnowsApostrophes P) {t : Tokenizer} {a : Bool} (hpt : t.preTokenizer = some (.byteLevel a true))
    {w : WStr} {p : PTS} (hd : DescribableText P t w) (h : (t.preTokenized P w).1 = .ok p) :
    ∃ items w' pieces words, FirstItems P t w items ∧ PrefixSpace P a (w, items) (w', pieces) ∧ CutItems ApostropheWords pieces words ∧
      Each (fun x s => WrittenInBytes x.1 s) words p.splits := by
  unfold Tokenizer.preTokenized at h
  split at h
  · cases h
  · rename_i p0 hp0
    cases ha : t.added with
    | none =>
      simp only [ha, res_ok_bind, hpt] at h
      have hs : AtStage (w, [(w, false)]) p0 := by
        unfold PTS.ofNS at hp0
        obtain ⟨x, e, hp0⟩ := res_bind_ok.1 hp0
        cases hp0
        exact ⟨rfl, .cons ⟨(C02_to_string_iff _ _).1 e, by simp⟩ .nil⟩
      obtain ⟨⟨w', l0⟩, l1, k1, k2, k3⟩ := ap_run hp hs h
      exact ⟨_, w', l0, l1, by unfold FirstItems; rw [ha], k1, k2, k3⟩
    | some v =>
      simp only [ha, hpt] at h
      obtain ⟨p1, h1, h⟩ := res_bind_ok.1 h
      obtain ⟨d1, d2, d3⟩ := hd v ha
      obtain ⟨items, i1, i2⟩ := rf_extract P (N := Normalizes P t.normalizer) (pl_normalizes P t.normalizer) d2 d1
        (fun x y n hn => d3 x y _ (pl_normalizes P _ _ _ hn)) h1
      obtain ⟨⟨w', l0⟩, l1, k1, k2, k3⟩ := ap_run hp (s := (w, items)) ⟨pl_whole P _ v w p1 h1, i2⟩ h
      exact ⟨items, w', l0, l1, by unfold FirstItems; rw [ha]; exact i1, k1, k2, k3⟩

/-- **C131** Without an added vocabulary and `add_prefix_space`: the words are the text cut at its apostrophes. -/
theorem C131_plain {P : Platform} (hp : KnowsApostrophes P) {t : Tokenizer} (hpt : t.preTokenizer = some (.byteLevel false true))
    (ha : t.added = none) {w : WStr} {p : PTS} (h : (t.preTokenized P w).1 = .ok p) :
    ∃ words, ApostropheWords w words ∧ Each WrittenInBytes words p.splits := by
  obtain ⟨items, w', pieces, words, h1, h2, h3, h4⟩ := C131_words hp hpt (fun a e => by rw [ha] at e; cases e) h
  unfold FirstItems at h1; rw [ha] at h1
  simp only at h1
  subst h1
  cases h2
  obtain ⟨g, g1, rfl⟩ := h3
  cases g1 with
  | cons hx hr =>
    cases hr
    simp only [Bool.false_eq_true, if_false] at hx
    obtain ⟨l, l1, rfl⟩ := hx
    refine ⟨l, l1, ?_⟩
    rw [List.flatten_cons, List.flatten_nil, List.append_nil] at h4
    clear l1 h
    generalize p.splits = q at h4
    induction l generalizing q with
    | nil => cases h4; exact .nil
    | cons v l ih =>
      cases h4 with
      | cons hv hr => exact .cons hv (ih _ hr)

/-- **C131** A text without apostrophes is one word, however many blanks it contains. -/
theorem C131_one_word {P : Platform} (hp : KnowsApostrophes P) {t : Tokenizer} (hpt : t.preTokenizer = some (.byteLevel false true))
    (ha : t.added = none) {w : WStr} (hw : w ≠ []) (hq : 0x27 ∉ w) {p : PTS} (h : (t.preTokenized P w).1 = .ok p) :
    ∃ s, p.splits = [s] ∧ WrittenInBytes w s := by
  obtain ⟨words, h1, h2⟩ := C131_plain hp hpt ha h
  have e := C131_unique h1 (by simpa using ApostropheWords.stretch hw hq (.inl rfl) .nil)
  subst e
  generalize p.splits = q at h2
  cases h2 with
  | cons hs hr => cases hr; exact ⟨_, rfl, hs⟩

/-- A tokenizer in the manner of GPT-2: entries for `a`, `b`, a blank followed by `b`, and `'s`. -/
def apTk : Tokenizer :=
  { preTokenizer := some (.byteLevel false true)
    model := some (.bpe { vocab := [(b!"a", 0), (b!"b", 1), (b!"Ġb", 2), (b!"'s", 3)], merges := [], ignoreMerges := true, unkToken := [], pre := [], suf := [], fuseUnk := false, byteFallback := false
                          dropout := { on := false, draw := fun _ => false } }) }

/-- **C131 contradicts the usual meaning**: the pattern in the source separates `a b` into `a` and ` b`; in the code the blank
is lost, because `a b` is one word, which is not an entry. -/
theorem C131_violated : (apTk.encode (apPlatform ascii) w!"a b" false).1.map (·.ids) = .ok [0, 1] ∧
    (apTk.encode (apPlatform ascii) w!"a's b" false).1.map (·.ids) = .ok [0, 3, 2] := by
  refine ⟨?_, ?_⟩ <;> decide +kernel

/-- The hypotheses are met: an engine that knows the pattern, texts with and without apostrophes. -/
example : KnowsApostrophes (apPlatform ascii) ∧ ((apTk.preTokenized (apPlatform ascii) w!"a b").1.map fun p => p.splits.length) = .ok 1 ∧
    ((apTk.preTokenized (apPlatform ascii) w!"a's b").1.map fun p => p.splits.length) = .ok 3 ∧ ApostropheWords w!"a's b" [w!"a", w!"'s", w!" b"] ∧
    (0x27 : Nat) ∉ w!"a b" := by
  refine ⟨ap_knows _, by decide +kernel, by decide +kernel, ?_, by decide⟩
  exact .stretch (g := w!"a") (by decide) (by decide) (.inr rfl)
    (.possessive (.stretch (g := w!" b") (w := []) (by decide) (by decide) (.inl rfl) .nil))

end Tok
