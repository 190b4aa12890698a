import Verif.Props.Chunks
import Verif.Spec.Applied

set_option autoImplicit false

/-!
C63: a text is encoded piece by piece, every ordinary piece as the normalized piece is by the tokenizer without normalizer.
-/

namespace Tok
open Spec

theorem pw_times_add {j k : Nat} {v x y : WStr} (h : InBytesTimes j v x) (h' : InBytesTimes k x y) : InBytesTimes (j + k) v y := by
  induction h with
  | zero => simpa using h'
  | more hb _ ih => rw [show ∀ j : Nat, j + 1 + k = (j + k) + 1 by omega]; exact .more hb (ih h')

theorem pw_cut_split {R : WStr → List WStr → Prop} {a b l : List (WStr × Bool)} (h : CutItems R (a ++ b) l) :
    ∃ la lb, l = la ++ lb ∧ CutItems R a la ∧ CutItems R b lb := by
  obtain ⟨g, h1, rfl⟩ := h
  obtain ⟨g1, g2, rfl, h2, h3⟩ := ck_each_left h1
  exact ⟨g1.flatten, g2.flatten, by simp, ⟨g1, h2, rfl⟩, ⟨g2, h3, rfl⟩⟩

mutual
/-- Pre-tokenization without `add_prefix_space` treats the pieces one by one. -/
theorem pw_pre_split (P : Platform) : (t : PreTokenizer) → t.NoPrefixSpace → ∀ {w w' : WStr} {a b l : List (WStr × Bool)},
    PreTokenizes P t (w, a ++ b) (w', l) → ∃ la lb, l = la ++ lb ∧ (∀ v, PreTokenizes P t (v, a) (v, la)) ∧ ∀ v, PreTokenizes P t (v, b) (v, lb)
  | .bert, _, _, _, _, _, _, .bert h => by
    obtain ⟨la, lb, e, h1, h2⟩ := pw_cut_split h
    exact ⟨la, lb, e, fun v => .bert h1, fun v => .bert h2⟩
  | .split .., _, _, _, _, _, _, .split h => by
    obtain ⟨la, lb, e, h1, h2⟩ := pw_cut_split h
    exact ⟨la, lb, e, fun v => .split h1, fun v => .split h2⟩
  | .byteLevel p u, ha, _, _, _, _, _, .byteLevel h1 h2 h3 => by
    have ha : p = false := by simpa [PreTokenizer.NoPrefixSpace] using ha
    subst ha
    cases h1
    obtain ⟨la, lb, rfl, k1, k2⟩ := pw_cut_split h2
    obtain ⟨ma, mb, e, k3, k4⟩ := ck_each_left h3
    exact ⟨ma, mb, e, fun v => .byteLevel .off k1 k3, fun v => .byteLevel .off k2 k4⟩
  | .seq ts, hl, _, _, _, _, _, .seq h => by
    obtain ⟨la, lb, e, h1, h2⟩ := pw_pres_split P ts (by simpa [PreTokenizer.NoPrefixSpace] using hl) h
    exact ⟨la, lb, e, fun v => .seq (h1 v), fun v => .seq (h2 v)⟩
/-- The same for a list. -/
theorem pw_pres_split (P : Platform) : (ts : List PreTokenizer) → NoPrefixSpaceList ts → ∀ {w w' : WStr} {a b l : List (WStr × Bool)},
    PreTokenizesAll P ts (w, a ++ b) (w', l) →
    ∃ la lb, l = la ++ lb ∧ (∀ v, PreTokenizesAll P ts (v, a) (v, la)) ∧ ∀ v, PreTokenizesAll P ts (v, b) (v, lb)
  | [], _, _, _, a, b, _, .nil => ⟨a, b, rfl, fun _ => .nil, fun _ => .nil⟩
  | x :: ts, h, _, _, _, _, _, .cons h1 h2 => by
    simp only [NoPrefixSpaceList] at h
    obtain ⟨la, lb, e, k1, k2⟩ := pw_pre_split P x h.1 h1
    rename_i s'
    obtain ⟨w1, l1⟩ := s'
    simp only at e
    subst e
    obtain ⟨ma, mb, e', k3, k4⟩ := pw_pres_split P ts h.2 h2
    exact ⟨ma, mb, e', fun v => .cons (k1 v) (k3 v), fun v => .cons (k2 v) (k4 v)⟩
end

theorem pw_cut_nil {R : WStr → List WStr → Prop} {l : List (WStr × Bool)} (h : CutItems R [] l) : l = [] := by
  obtain ⟨g, h1, rfl⟩ := h
  cases h1; rfl

theorem pw_cut_token {R : WStr → List WStr → Prop} {v : WStr} {l : List (WStr × Bool)} (h : CutItems R [(v, true)] l) : l = [(v, true)] := by
  obtain ⟨g, h1, rfl⟩ := h
  cases h1 with
  | cons h1 h2 => cases h2; simp only [if_true] at h1; subst h1; rfl

mutual
/-- Pre-tokenization leaves an added token alone, but for writing it in bytes. -/
theorem pw_pre_token (P : Platform) : (t : PreTokenizer) → t.NoPrefixSpace → ∀ {w w' v : WStr} {l : List (WStr × Bool)},
    PreTokenizes P t (w, [(v, true)]) (w', l) → ∃ g, InBytesTimes (byteLevels t) v g ∧ l = [(g, true)]
  | .bert, _, _, _, v, _, .bert h => ⟨v, .zero, pw_cut_token h⟩
  | .split .., _, _, _, v, _, .split h => ⟨v, .zero, pw_cut_token h⟩
  | .byteLevel p u, ha, _, _, v, _, .byteLevel h1 h2 h3 => by
    have ha : p = false := by simpa [PreTokenizer.NoPrefixSpace] using ha
    subst ha
    cases h1
    have := pw_cut_token h2
    subst this
    cases h3 with
    | @cons _ y _ _ h3 h4 =>
      cases h4
      obtain ⟨y1, y2⟩ := y
      simp only at h3
      obtain ⟨h3, rfl⟩ := h3
      exact ⟨y1, .more h3 .zero, rfl⟩
  | .seq ts, hl, _, _, _, _, .seq h => pw_pres_token P ts (by simpa [PreTokenizer.NoPrefixSpace] using hl) h
/-- The same for a list. -/
theorem pw_pres_token (P : Platform) : (ts : List PreTokenizer) → NoPrefixSpaceList ts → ∀ {w w' v : WStr} {l : List (WStr × Bool)},
    PreTokenizesAll P ts (w, [(v, true)]) (w', l) → ∃ g, InBytesTimes (byteLevelsAll ts) v g ∧ l = [(g, true)]
  | [], _, _, _, v, _, .nil => ⟨v, .zero, rfl⟩
  | x :: ts, h, _, _, _, _, .cons h1 h2 => by
    simp only [NoPrefixSpaceList] at h
    obtain ⟨g, k1, e⟩ := pw_pre_token P x h.1 h1
    rename_i s'
    obtain ⟨w1, l1⟩ := s'
    simp only at e
    subst e
    obtain ⟨g', k2, e'⟩ := pw_pres_token P ts h.2 h2
    exact ⟨g', pw_times_add k1 k2, e'⟩
end

mutual
theorem pw_pre_nil (P : Platform) : (t : PreTokenizer) → t.NoPrefixSpace → ∀ {w w' : WStr} {l : List (WStr × Bool)},
    PreTokenizes P t (w, []) (w', l) → l = []
  | .bert, _, _, _, _, .bert h => pw_cut_nil h
  | .split .., _, _, _, _, .split h => pw_cut_nil h
  | .byteLevel p u, ha, _, _, _, .byteLevel h1 h2 h3 => by
    have ha : p = false := by simpa [PreTokenizer.NoPrefixSpace] using ha
    subst ha
    cases h1
    have := pw_cut_nil h2
    subst this
    cases h3; rfl
  | .seq ts, hl, _, _, _, .seq h => pw_pres_nil P ts (by simpa [PreTokenizer.NoPrefixSpace] using hl) h
theorem pw_pres_nil (P : Platform) : (ts : List PreTokenizer) → NoPrefixSpaceList ts → ∀ {w w' : WStr} {l : List (WStr × Bool)},
    PreTokenizesAll P ts (w, []) (w', l) → l = []
  | [], _, _, _, _, .nil => rfl
  | x :: ts, h, _, _, _, .cons h1 h2 => by
    simp only [NoPrefixSpaceList] at h
    have e := pw_pre_nil P x h.1 h1
    rename_i s'
    obtain ⟨w1, l1⟩ := s'
    simp only at e
    subst e
    exact pw_pres_nil P ts h.2 h2
end

/-- What the configured pre-tokenizer makes of some pieces. -/
def pwPre (P : Platform) (t : Tokenizer) (a b : List (WStr × Bool)) : Prop :=
  match t.preTokenizer with
  | some x => ∀ v, PreTokenizes P x (v, a) (v, b)
  | none => b = a

theorem pw_opt_split (P : Platform) {t : Tokenizer} (hpt : ∀ pt, t.preTokenizer = some pt → pt.NoPrefixSpace) {a b l : List (WStr × Bool)}
    (h : pwPre P t (a ++ b) l) : ∃ la lb, l = la ++ lb ∧ pwPre P t a la ∧ pwPre P t b lb := by
  unfold pwPre at h ⊢
  cases hx : t.preTokenizer with
  | none => rw [hx] at h; exact ⟨a, b, h, rfl, rfl⟩
  | some x =>
    rw [hx] at h
    obtain ⟨la, lb, e, h1, h2⟩ := pw_pre_split P x (hpt x hx) (h [])
    exact ⟨la, lb, e, h1, h2⟩

theorem pw_opt_flatten (P : Platform) {t : Tokenizer} (hpt : ∀ pt, t.preTokenizer = some pt → pt.NoPrefixSpace) :
    ∀ {gs : List (List (WStr × Bool))} {l : List (WStr × Bool)}, pwPre P t gs.flatten l →
      ∃ ls, l = ls.flatten ∧ Each (pwPre P t) gs ls
  | [], l, h => by
    refine ⟨[], ?_, .nil⟩
    unfold pwPre at h
    cases hx : t.preTokenizer with
    | none => rw [hx] at h; exact h
    | some x => rw [hx] at h; exact pw_pre_nil P x (hpt x hx) (h [])
  | g :: gs, l, h => by
    rw [List.flatten_cons] at h
    obtain ⟨la, lb, rfl, h1, h2⟩ := pw_opt_split P hpt h
    obtain ⟨ls, rfl, h3⟩ := pw_opt_flatten P hpt h2
    exact ⟨la :: ls, by simp, .cons h1 h3⟩

theorem pw_textAt_whole (n : WStr) : textAt n 0 (units n) = n := by
  unfold textAt between
  rw [if_pos (Nat.zero_le _), List.drop_zero, Nat.sub_zero, List.take_of_length_le]
  rw [units_eq]
  exact utf16_length_ge n

theorem pw_from {a a' : AddedVocab} (hf : ∀ i, flagsOf a' i = flagsOf a i) {s : Str} {total p : Nat} {occ : List (Nat × Nat × Int)} {cuts : List Cut}
    (h : CutFrom a s total p occ cuts) : CutFrom a' s total p occ cuts := by
  induction h with
  | rest h => exact .rest h
  | done => exact .done
  | skip h _ ih => exact .skip (by unfold CountsIn at h ⊢; rw [hf]; exact h) ih
  | take h1 h2 h3 _ ih =>
    exact .take (by unfold CountsIn at h1 ⊢; rw [hf]; exact h1) (by unfold LeftEnd at h2 ⊢; rw [hf]; exact h2)
      (by unfold RightEnd at h3 ⊢; rw [hf]; exact h3) ih

theorem pw_cutUp {a a' : AddedVocab} (hf : ∀ i, flagsOf a' i = flagsOf a i) {T : List (Str × Int)} {w : WStr} {cuts : List Cut} (h : CutUp a T w cuts) :
    CutUp a' T w cuts := by
  obtain ⟨u, s, occ, h1, h2, h3, h4, h5⟩ := h
  exact ⟨u, s, occ, h1, h2, h3, h4, pw_from hf h5⟩

/-- The pieces of a text that has been normalized. -/
theorem pw_first (P : Platform) {t : Tokenizer} {a : AddedVocab} (ha : t.added = some a) {n : WStr} (hn : Scalars n) {cuts : List Cut}
    (h : CutUp a a.normTrie n cuts) : AnyFirst P (afterNormalizing t) n (itemsAt n cuts) := by
  unfold AnyFirst afterNormalizing
  rw [ha]
  simp only [Option.map_some]
  by_cases h0 : n = []
  · subst h0
    refine ⟨[], [], ck_cut_nil _ _, .nil, ?_⟩
    have : cuts = [] := by
      obtain ⟨u, s, occ, c1, c2, c3, c4, c5⟩ := h
      obtain ⟨-, rfl⟩ := utf16Text_iff.1 c1
      have hocc : occ = [] := by
        cases occ with
        | nil => rfl
        | cons o r =>
          have := ck_occ c4 o (by simp)
          simp [utf16] at this
          omega
      subst hocc
      cases c5 with
      | rest h => simp [utf16] at h
      | done => rfl
    subst this
    simp [itemsAt]
  · refine ⟨[(none, (0, units n))], [itemsAt n cuts], ?_, .cons ⟨n, cuts, ?_, by refine pw_cutUp (a := a) ?_ h; intro i; rfl, rfl⟩ .nil, ?_⟩
    · refine ⟨utf16 n, utf8 n, [], utf16Text_iff.2 ⟨hn, rfl⟩, utf8Text_iff.2 ⟨hn, rfl⟩, .nil, fun x y i => ?_, ?_⟩
      · constructor
        · intro h; cases h
        · intro h
          have no : ∀ {x y i}, ¬ ShortestIn ([] : List (Str × Int)) (utf16 n) x y i := by
            rintro x y i ⟨-, ⟨-, z, k, -, -, hk⟩, -⟩; cases hk
          cases h with
          | first h => exact absurd h no
          | word _ h => exact absurd h no
          | next _ h => exact absurd h no
      · rw [← units_eq]
        exact .rest (by rw [units_eq]; exact at_units_ne h0)
    · exact (pw_textAt_whole n).symm
    · simp only [List.flatten_cons, List.flatten_nil, List.append_nil]
      split
      · rename_i he
        rw [he]
        exfalso
        have : cuts = [] := by unfold itemsAt at he; simpa using he
        obtain ⟨u, s, occ, c1, -, -, -, c5⟩ := h
        obtain ⟨-, rfl⟩ := utf16Text_iff.1 c1
        exact at_cuts_ne c5 (at_units_ne h0) this
      · rfl

theorem pw_normalizes_unique (P : Platform) {norm : Option Normalizer} {w x y : WStr} (h : Normalizes P norm w x) (h' : Normalizes P norm w y) : x = y := by
  unfold Normalizes at h h'
  cases norm with
  | none => exact Eq.trans h (Eq.symm h')
  | some n => exact C104_unique P n h h'

theorem pw_cut_scalars {a : AddedVocab} {T : List (Str × Int)} {n : WStr} {cuts : List Cut} (h : CutUp a T n cuts) :
    Scalars n := by
  obtain ⟨u, s, occ, h1, -⟩ := h
  exact (utf16Text_iff.1 h1).1

/-- **C63, the words.** With an added vocabulary, and without `add_prefix_space`: the words given to the model are those of the pieces
of the text in a row, where an added token is one word, and an ordinary piece has the words of the normalized piece for the
tokenizer without normalizer. -/
theorem C63_words (P : Platform) {t : Tokenizer} {a : AddedVocab} {w : WStr} {words : List WStr} (ha : t.added = some a)
    (hpt : ∀ pt, t.preTokenizer = some pt → pt.NoPrefixSpace) (h : AnyWords P t w words) :
    ∃ cuts, CutUp a a.nonNormTrie w cuts ∧
      (SomethingLeft P t w cuts → ∃ groups, Each (PieceWords P t w) cuts groups ∧ words = groups.flatten) := by
  obtain ⟨items, w', items', h1, rfl, h2⟩ := h
  unfold AnyFirst at h1
  rw [ha] at h1
  obtain ⟨cuts, groups, hc, hg, rfl⟩ := h1
  refine ⟨cuts, hc, fun hl => ?_⟩
  have hne : groups.flatten ≠ [] := by
    obtain ⟨c, hcm, hc'⟩ := hl
    have : ∃ g ∈ groups, g ≠ [] := by
      clear h2 hc
      induction hg with
      | nil => cases hcm
      | @cons c' g cuts groups hg1 hg2 ih =>
        rcases List.mem_cons.1 hcm with rfl | hm
        · refine ⟨g, by simp, ?_⟩
          cases hcc : c.1 with
          | some i => rw [hcc] at hg1; simp only at hg1; rw [hg1]; simp
          | none =>
            rw [hcc] at hg1
            obtain ⟨n, cuts', k1, k2, rfl⟩ := hg1
            rcases hc' with hc' | ⟨n', k3, k4⟩
            · exact absurd hcc hc'
            · have := pw_normalizes_unique P k1 k3
              subst this
              intro he
              have : cuts' = [] := by unfold itemsAt at he; simpa using he
              obtain ⟨u, s, occ, c1, -, -, -, c5⟩ := k2
              obtain ⟨-, rfl⟩ := utf16Text_iff.1 c1
              exact at_cuts_ne c5 (at_units_ne k4) this
        · obtain ⟨g', m1, m2⟩ := ih hm
          exact ⟨g', by simp [m1], m2⟩
    obtain ⟨g, m1, m2⟩ := this
    intro he
    exact m2 (List.flatten_eq_nil_iff.1 he g m1)
  rw [if_neg hne] at h2
  have h3 : pwPre P t groups.flatten items' := by
    unfold pwPre
    cases hx : t.preTokenizer with
    | none => rw [hx] at h2; exact h2
    | some x =>
      rw [hx] at h2
      obtain ⟨la, lb, e, k1, k2⟩ := pw_pre_split P x (hpt x hx) (a := groups.flatten) (b := []) (by simpa using h2)
      have := pw_pre_nil P x (hpt x hx) (k2 [])
      subst this
      rw [List.append_nil] at e
      subst e
      exact k1
  obtain ⟨ls, rfl, h4⟩ := pw_opt_flatten P hpt h3
  refine ⟨ls.map (·.map (·.1)), ?_, by simp [List.map_flatten]⟩
  clear h2 h3 hl hne hc
  induction hg generalizing ls with
  | nil => cases h4; exact .nil
  | @cons c g cuts groups hg1 hg2 ih =>
    cases h4 with
    | @cons _ l _ ls h5 h6 =>
      refine .cons ?_ (ih _ h6)
      unfold PieceWords
      unfold pwPre at h5
      cases hcc : c.1 with
      | some i =>
        rw [hcc] at hg1
        simp only at hg1
        subst hg1
        unfold KeptAs
        cases hx : t.preTokenizer with
        | none => rw [hx] at h5; simp only at h5; subst h5; exact ⟨_, .zero, rfl⟩
        | some x =>
          rw [hx] at h5
          obtain ⟨g, k1, rfl⟩ := pw_pre_token P x (hpt x hx) (h5 [])
          exact ⟨g, k1, rfl⟩
      | none =>
        rw [hcc] at hg1
        obtain ⟨n, cuts', k1, k2, rfl⟩ := hg1
        refine ⟨n, k1, itemsAt n cuts', n, l, pw_first P ha (pw_cut_scalars k2) k2, rfl, ?_⟩
        have : (afterNormalizing t).preTokenizer = t.preTokenizer := rfl
        rw [this]
        cases hx : t.preTokenizer with
        | none => rw [hx] at h5; exact h5
        | some x => rw [hx] at h5; exact h5 n

/-- If nothing is left of the text after normalization, the text as it is goes through. -/
theorem C63_nothing_left (P : Platform) {t : Tokenizer} {a : AddedVocab} {w : WStr} {words : List WStr} (ha : t.added = some a) (hw : w ≠ [])
    {cuts : List Cut} (hc : CutUp a a.nonNormTrie w cuts) (hl : ¬ SomethingLeft P t w cuts) (h : AnyWords P t w words) :
    AnyWords P { t with added := none, normalizer := none } w words := by
  obtain ⟨items, w', items', h1, rfl, h2⟩ := h
  refine ⟨[(w, false)], w', items', rfl, rfl, ?_⟩
  have he : items = [(w, false)] := by
    unfold AnyFirst at h1
    rw [ha] at h1
    obtain ⟨cuts', groups, hc', hg, rfl⟩ := h1
    have := C108_cuts_unique hc hc'
    subst this
    have hnone : ∀ c ∈ cuts, c.1 = none := by
      intro c hm
      by_cases h0 : c.1 = none
      · exact h0
      · exact absurd ⟨c, hm, .inl h0⟩ hl
    have h0 : groups.flatten = [] := by
      rw [List.flatten_eq_nil_iff]
      have hl' : ∀ c ∈ cuts, ∀ n, Normalizes P t.normalizer (textAt w c.2.1 c.2.2) n → n = [] := by
        intro c hm n hn
        by_cases h0 : n = []
        · exact h0
        · exact absurd ⟨c, hm, .inr ⟨n, hn, h0⟩⟩ hl
      clear hl h2 hc hc'
      induction hg with
      | nil => intro g hm; cases hm
      | @cons c g cuts groups hg1 hg2 ih =>
        intro g' hm
        rcases List.mem_cons.1 hm with rfl | hm
        · rw [hnone c (by simp)] at hg1
          obtain ⟨n, cuts', k1, k2, rfl⟩ := hg1
          have := hl' c (by simp) n k1
          subst this
          rw [C108_cuts_unique k2 (ck_cut_nil _ _)]
          rfl
        · exact ih (fun c hm => hnone c (by simp [hm])) (fun c hm => hl' c (by simp [hm])) g' hm
    rw [if_pos h0]
    obtain ⟨u, s, occ, c1, -, -, -, c5⟩ := hc
    obtain ⟨-, rfl⟩ := utf16Text_iff.1 c1
    have key : ∀ {p : Nat} {occ : List (Nat × Nat × Int)} {cuts : List Cut}, p ≠ (utf16 w).length → CutFrom a s (utf16 w).length p occ cuts →
        (∀ c ∈ cuts, c.1 = none) → cuts = [(none, (p, (utf16 w).length))] := by
      intro p occ cuts hp h hn
      induction h with
      | rest _ => rfl
      | done => exact absurd rfl hp
      | skip _ _ ih => exact ih hp hn
      | take _ _ _ _ _ =>
        have := hn _ (by simp; exact .inr (.inl rfl))
        cases this
    rw [key (Ne.symm (at_units_ne hw).symm) c5 hnone]
    simp only [itemsAt, List.map_cons, List.map_nil, Option.isSome_none]
    rw [← units_eq, pw_textAt_whole]
  rw [he] at h2
  exact h2

/-! ### Encodings -/

theorem pw_both {α β : Type} {R S : α → β → Prop} {l : List α} {r : List β} (h : Each R l r) (h' : Each S l r) : Each (fun x y => R x y ∧ S x y) l r := by
  induction h with
  | nil => exact .nil
  | cons h _ ih => cases h' with | cons h1 h2 => exact .cons ⟨h, h1⟩ (ih h2)

/-- What the model answers is a function of the word. -/
theorem pw_model (P : Platform) {lines : List Str} {m x : Model} (hm : ModelIs P lines m x) :
    ∃ R : WStr → List Token → Prop, (∀ v l l', R v l → R v l' → l = l') ∧ (∀ v l, R v l → ModelTokens lines m v l) ∧
      ∀ {ws : List WStr} {p q : PTS}, Each (fun v s => HasText s v) ws p.splits → (x.tokenize P p).1 = .ok q →
        Each R ws (q.splits.map (·.tokens)) := by
  obtain ⟨R, hR, hM⟩ := ck_model P hm
  exact ⟨fun v l => R v l ∧ ModelTokens lines m v l, fun v l l' h h' => hR v l l' h.1 h'.1, fun v l h => h.2,
    fun hw h => pw_both (hM hw h) (pl_model P hm hw h)⟩

theorem pw_words_nil (P : Platform) {t : Tokenizer} {a : AddedVocab} (ha : t.added = some a)
    (hpt : ∀ pt, t.preTokenizer = some pt → pt.NoPrefixSpace) {ws : List WStr} (h : AnyWords P (afterNormalizing t) [] ws) : ws = [] := by
  obtain ⟨items, w', items', h1, rfl, h2⟩ := h
  unfold AnyFirst afterNormalizing at h1
  rw [ha] at h1
  obtain ⟨cuts, groups, hc, hg, rfl⟩ := h1
  have := C108_cuts_unique hc (ck_cut_nil _ _)
  subst this
  cases hg
  have : (afterNormalizing t).preTokenizer = t.preTokenizer := rfl
  rw [this] at h2
  simp only [List.flatten_nil, itemsAt, List.map_nil, if_true] at h2
  cases hx : t.preTokenizer with
  | none => rw [hx] at h2; simp only at h2; rw [h2]; rfl
  | some x => rw [hx] at h2; rw [pw_pre_nil P x (hpt x hx) h2]; rfl

/-- **C63** Without truncation and padding: an encoding consists of what the model makes of the added tokens, and of the
encodings, by the tokenizer without normalizer, of what the normalizer makes of the ordinary pieces, in the order of the text. -/
theorem C63_pieces (P : Platform) (hg : GoodRegexes P) {t : Tokenizer} {a : AddedVocab} {m x : Model} {lines : List Str}
    {w : WStr} {b : Bool} {e : Encoding} (hx : t.model = some x) (hm : ModelIs P lines m x) (ha : t.added = some a) (hP : PlainTables a)
    (hpt : ∀ pt, t.preTokenizer = some pt → pt.NoPrefixSpace) (htr : t.truncation = none) (hpad : t.padding = none)
    {cuts : List Cut} (hc : CutUp a a.nonNormTrie w cuts) (hl : SomethingLeft P t w cuts)
    (hparts : ∀ c ∈ cuts, c.1 = none → ∀ n, Normalizes P t.normalizer (textAt w c.2.1 c.2.2) n → n ≠ [] →
      ∃ e', ((afterNormalizing t).encode P n b).1 = .ok e')
    (h : (t.encode P w b).1 = .ok e) :
    ∃ parts : List (List Token), Each (PieceTokens P t lines m w b) cuts parts ∧
      e.ids = laidOutBy t.postProcessor b (·.ids) (parts.flatten.map (·.id)) ∧
      e.tokens = laidOutBy t.postProcessor b (·.tokens) (parts.flatten.map (·.value)) := by
  obtain ⟨R, hR, hRm, hM⟩ := pw_model P hm
  have one : ∀ {t : Tokenizer} {w : WStr} {e : Encoding}, t.model = some x → (∀ a, t.added = some a → PlainTables a) → t.truncation = none →
      t.padding = none → (t.encode P w b).1 = .ok e → ∃ ws parts, AnyWords P t w ws ∧ Each R ws parts ∧
      e.ids = laidOutBy t.postProcessor b (·.ids) (parts.flatten.map (·.id)) ∧
      e.tokens = laidOutBy t.postProcessor b (·.tokens) (parts.flatten.map (·.value)) := by
    intro t w e hx hd htr hpad h
    obtain ⟨q, y, ⟨p, hp, hq⟩, hy, hpost⟩ := encode_ok h
    rw [hx] at hq
    obtain ⟨ws, k1, k2⟩ := at_words P hg hd hp
    exact ⟨ws, _, k1, hM k2 hq, ck_entries hy hpost htr hpad⟩
  obtain ⟨ws, parts, a1, a2, a3, a4⟩ := one hx (fun a' h => by rw [ha] at h; cases h; exact hP) htr hpad h
  obtain ⟨cuts', b1, b2⟩ := C63_words P ha hpt a1
  have := C108_cuts_unique hc b1
  subst this
  obtain ⟨groups, b3, rfl⟩ := b2 hl
  have hd' : ∀ a', (afterNormalizing t).added = some a' → PlainTables a' := by
    intro a' h
    unfold afterNormalizing at h
    rw [ha] at h
    cases h
    rintro T (rfl | rfl)
    · refine ⟨fun p h => absurd h List.not_mem_nil, fun k i j h => absurd h List.not_mem_nil⟩
    · exact hP _ (.inr rfl)
  have split : ∀ {gs : List (List WStr)} {ps : List (List Token)}, Each R gs.flatten ps → ∃ pss : List (List (List Token)), ps = pss.flatten ∧ Each (Each R) gs pss := by
    intro gs
    induction gs with
    | nil => intro ps h; cases h; exact ⟨[], rfl, .nil⟩
    | cons g gs ih =>
      intro ps h
      rw [List.flatten_cons] at h
      obtain ⟨l1, l2, rfl, h1, h2⟩ := ck_each_left h
      obtain ⟨pss, rfl, h3⟩ := ih h2
      exact ⟨l1 :: pss, by simp, .cons h1 h3⟩
  obtain ⟨pss, rfl, b4⟩ := split a2
  refine ⟨pss.map List.flatten, ?_, ?_, ?_⟩
  · clear hc hl h a1 a2 a3 a4 b1 b2
    induction b3 generalizing pss with
    | nil => cases b4; exact .nil
    | @cons c g cuts groups c1 c2 ih =>
      cases b4 with
      | @cons _ ps _ pss d1 d2 =>
        refine .cons ?_ (ih (fun c h => hparts c (by simp [h])) _ d2)
        unfold PieceWords at c1
        unfold PieceTokens
        cases hcc : c.1 with
        | some i =>
          rw [hcc] at c1
          obtain ⟨v, k1, rfl⟩ := c1
          cases d1 with
          | cons d1 d3 => cases d3; exact ⟨v, k1, by simpa using hRm _ _ d1⟩
        | none =>
          rw [hcc] at c1
          obtain ⟨n, k1, k2⟩ := c1
          refine ⟨n, k1, ?_⟩
          by_cases h0 : n = []
          · subst h0
            have := pw_words_nil P ha hpt k2
            subst this
            cases d1
            exact .inl ⟨rfl, rfl⟩
          · obtain ⟨e', he'⟩ := hparts c (by simp) hcc n k1 h0
            obtain ⟨ws', parts', e1, e2, e3, e4⟩ := one (t := afterNormalizing t) hx hd' htr hpad he'
            have := C108_words_unique P k2 e1
            subst this
            have := rf_each_unique hR e2 d1
            subst this
            exact .inr ⟨e', he', e3, e4⟩
  · rw [a3]
    congr 1
    simp [List.map_flatten, Function.comp_def, List.flatten_flatten]
  · rw [a4]
    congr 1
    simp [List.map_flatten, Function.comp_def, List.flatten_flatten]

/-! ### The hypotheses are met -/

/-- `HELLOs [X] B`, where `[X]` is an added token, is cut in three. -/
theorem pw_cuts : CutUp psAdded psAdded.nonNormTrie w!"HELLOs [X] B" [(none, (0, 7)), (some 4, (7, 10)), (none, (10, 12))] := by
  obtain ⟨cuts, e, h⟩ := at_findMatches (a := psAdded) (T := psAdded.nonNormTrie) (w := w!"HELLOs [X] B") (by unfold Scalars isScalar; decide)
    (ps_plain _ (.inl rfl)).1 (ps_plain _ (.inl rfl)).2
  have e' : (psAdded.findMatches (utf8 w!"HELLOs [X] B") psAdded.nonNormTrie).1 = .ok [(none, (0, 7)), (some 4, (7, 10)), (none, (10, 12))] := by
    decide +kernel
  rw [e'] at e
  cases e
  exact h

example : CutUp psAdded psAdded.nonNormTrie w!"HELLOs [X] B" [(none, (0, 7)), (some 4, (7, 10)), (none, (10, 12))] ∧
    SomethingLeft spacePlatform (uncasedTk true true true true) w!"HELLOs [X] B" [(none, (0, 7)), (some 4, (7, 10)), (none, (10, 12))] ∧
    GoodRegexes spacePlatform ∧ PlainTables psAdded :=
  ⟨pw_cuts, ⟨(some 4, (7, 10)), by simp, .inl (by simp)⟩, pl_space_good, ps_plain⟩
-- The whole, and the two ordinary pieces in lower case for the tokenizer without normalizer.
example : ((uncasedTk true true true true).encode spacePlatform w!"HELLOs [X] B" true).1.map (·.ids) = .ok [1, 2, 4, 5] ∧
    ((afterNormalizing (uncasedTk true true true true)).encode spacePlatform w!"hellos " true).1.map (·.ids) = .ok [1, 2] ∧
    ((afterNormalizing (uncasedTk true true true true)).encode spacePlatform w!" b" true).1.map (·.ids) = .ok [5] := by
  refine ⟨?_, ?_, ?_⟩ <;> decide +kernel

/-- A tokenizer that strips the text and has a token for two spaces. -/
def spacesTk : Tokenizer := { lowerTk (some (AddedVocab.init [])) none with
  model := some (.wordPiece { vocab := [(b!"[UNK]", 0), (b!"  ", 1), (b!"go", 2)], unkToken := b!"[UNK]", maxChars := 100, pre := b!"##" })
  normalizer := some (.strip true true) }

/-- **C63 is violated** by a text of which the normalizer leaves nothing: the text goes to the model as it is.  Stripped of white space,
two spaces are nothing, but are encoded as two spaces. -/
theorem C63_violated_nothing_left :
    (spacesTk.encode ascii w!"  " true).1.map (·.ids) = .ok [1] ∧ (spacesTk.encode ascii w!"  go" true).1.map (·.ids) = .ok [2] ∧
    ((Normalizer.strip true true).run ascii (NS.ofText w!"  ")).map (·.normalized) = .ok [] := by
  refine ⟨?_, ?_, ?_⟩ <;> decide +kernel

-- What `C63_nothing_left` says of it: the words are those of the tokenizer without added vocabulary and normalizer.
example : (({ spacesTk with added := none, normalizer := none } : Tokenizer).encode ascii w!"  " true).1.map (·.ids) = .ok [1] := by decide +kernel

end Tok
