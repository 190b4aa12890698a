import Verif.Props.Chunks

set_option autoImplicit false

/-!
C139: added tokens separate the text.
-/

namespace Tok
open Spec

theorem se_shortest_left {T : List (Str × Int)} {v r : U16} {i j : Nat} {k : Int} (hj : j ≤ v.length) :
    ShortestIn T (v ++ r) i j k ↔ ShortestIn T v i j k := by
  unfold ShortestIn
  rw [ck_between_left hj, ck_entry_left hj]
  constructor
  · rintro ⟨h1, h2, h3, h4⟩
    exact ⟨h1, h2, h3, fun c l hc hc' h => h4 c l hc hc' ((ck_entry_left (by omega)).2 h)⟩
  · rintro ⟨h1, h2, h3, h4⟩
    exact ⟨h1, h2, h3, fun c l hc hc' h => h4 c l hc hc' ((ck_entry_left (by omega)).1 h)⟩

/-- What is recognized in a piece is recognized in the text, if recognition can begin where the piece begins. -/
theorem se_lift {T : List (Str × Int)} {w l v r : U16} {p i j : Nat} {k : Int} (hw : w = l ++ (v ++ r)) (hp : p = l.length)
    (hs : ∀ b k, ShortestIn T w p b k → RecognizedIn T w p b k) (h : RecognizedIn T v i j k) : RecognizedIn T w (p + i) (p + j) k := by
  have up : ∀ {i j k}, ShortestIn T v i j k → ShortestIn T w (p + i) (p + j) k := by
    intro i j k h
    rw [hw]
    exact (ck_shortest_right hp).2 ((se_shortest_left h.2.1.1).2 h)
  induction h with
  | first h => exact hs _ _ (up h)
  | @word a b i h0 h =>
    refine .word (a := p + a) ?_ (up h)
    have ha : a < v.length := (List.getElem?_eq_some_iff.1 h0).1
    rw [hw, List.getElem?_append_right (by omega), hp, Nat.add_sub_cancel_left, List.getElem?_append_left ha]
    exact h0
  | next _ h ih => exact .next ih (up h)

theorem se_start {T : List (Str × Int)} {w : U16} {x y : Nat} {i : Int} (h : RecognizedIn T w x y i) :
    ShortestIn T w x y i ∧ ∀ b k, ShortestIn T w x b k → RecognizedIn T w x b k := by
  cases h with
  | first h => exact ⟨h, fun b k h => .first h⟩
  | word h0 h => exact ⟨h, fun b k h => .word h0 h⟩
  | next h0 h => exact ⟨h, fun b k h => .next h0 h⟩

/-- A piece is a recognized occurrence, or it begins at the beginning or at the end of one and touches none. -/
theorem se_where {a : AddedVocab} (hf : FlagFree a) {s : Str} {total : Nat} : ∀ (occ : List (Nat × Nat × Int)) {p : Nat} {cuts : List Cut},
    (∀ o ∈ occ, p ≤ o.1 ∧ o.1 < o.2.1) → occ.Pairwise (fun o o' : Nat × Nat × Int => o.2.1 ≤ o'.1) → CutFrom a s total p occ cuts →
    ∀ c ∈ cuts, (∃ i, c.1 = some i ∧ (c.2.1, c.2.2, i) ∈ occ) ∨
      (c.1 = none ∧ (c.2.1 = p ∨ ∃ o ∈ occ, o.2.1 = c.2.1) ∧ ∀ o ∈ occ, o.2.1 ≤ c.2.1 ∨ c.2.2 ≤ o.1)
  | [], p, cuts, _, _, h => by
    generalize ho : ([] : List (Nat × Nat × Int)) = o at h
    cases h with
    | rest hne =>
      intro c hc
      simp only [List.mem_singleton] at hc
      subst hc
      exact .inr ⟨rfl, .inl rfl, fun o ho => nomatch ho⟩
    | done => intro c hc; cases hc
    | skip => cases ho
    | take => cases ho
  | (x, y, i) :: occ, p, cuts, hl, hp, h => by
    obtain ⟨cuts', h1, rfl⟩ := ck_take_inv hf h
    rw [List.pairwise_cons] at hp
    have hx := hl (x, y, i) (by simp)
    have hy : ∀ o ∈ occ, y ≤ o.1 := fun o ho => hp.1 o ho
    simp only at hx
    intro c hc
    simp only [List.mem_append, List.mem_cons] at hc
    rcases hc with hc | rfl | hc
    · split at hc
      · simp only [List.mem_singleton] at hc
        subst hc
        refine .inr ⟨rfl, .inl rfl, ?_⟩
        intro o ho
        rw [List.mem_cons] at ho
        rcases ho with rfl | ho
        · exact .inr (Nat.le_refl _)
        · have := hy o ho
          exact .inr (by show x ≤ o.1; omega)
      · cases hc
    · exact .inl ⟨i, rfl, by simp⟩
    · rcases se_where hf occ (fun o ho => ⟨hy o ho, (hl o (by simp [ho])).2⟩) hp.2 h1 c hc with ⟨k, k1, k2⟩ | ⟨k1, k2, k3⟩
      · exact .inl ⟨k, k1, by simp [k2]⟩
      · have hc : y ≤ c.2.1 := by
          rcases k2 with k2 | ⟨o, ho, k2⟩
          · omega
          · have := hy o ho; have := (hl o (by simp [ho])).2; omega
        refine .inr ⟨k1, .inr ?_, ?_⟩
        · rcases k2 with k2 | ⟨o, ho, k2⟩
          · exact ⟨(x, y, i), by simp, k2.symm⟩
          · exact ⟨o, by simp [ho], k2⟩
        · intro o ho
          rw [List.mem_cons] at ho
          rcases ho with rfl | ho
          · exact .inl hc
          · exact k3 o ho

theorem se_split {w : WStr} {x y : Nat} (hxy : x ≤ y) (hy : y ≤ w.length) : w = w.take x ++ (textAt w x y ++ w.drop y) ∧
    (w.take x).length = x ∧ (textAt w x y).length = y - x := by
  unfold textAt between
  rw [if_pos hxy]
  refine ⟨?_, by simp; omega, by simp; omega⟩
  conv => lhs; rw [← List.take_append_drop x w]
  congr 1
  conv => lhs; rw [← List.take_append_drop (y - x) (w.drop x)]
  rw [List.drop_drop, show x + (y - x) = y by omega]

/-- **C139** A piece on its own is cut as one piece of the same kind: a recognized token is recognized again, and nothing is
recognized in what is between them. -/
theorem C139_alone {a : AddedVocab} (hf : FlagFree a) {T : List (Str × Int)} {w : WStr} (hw : Bmp w) {cuts : List Cut} (h : CutUp a T w cuts) :
    ∀ c ∈ cuts, c.2.1 < c.2.2 ∧ c.2.2 ≤ w.length ∧ CutUp a T (textAt w c.2.1 c.2.2) [(c.1, (0, (textAt w c.2.1 c.2.2).length))] := by
  obtain ⟨u, s, occ, h1, h2, h3, h4, h5⟩ := h
  obtain ⟨hsc, rfl⟩ := utf16Text_iff.1 h1
  rw [utf16_bmp hw] at h4 h5
  have hl := ck_occ h4
  intro c hc
  obtain ⟨b1, b2⟩ := ck_bounds hf occ (Nat.zero_le _) hl h5 c hc
  refine ⟨b1, b2, ?_⟩
  obtain ⟨e1, e2, e3⟩ := se_split (Nat.le_of_lt b1) b2
  generalize hv : textAt w c.2.1 c.2.2 = v at e1 e3 ⊢
  have sub : ∀ z ∈ v, z ∈ w := fun z hz => by rw [e1]; simp [hz]
  have hvb : Bmp v := fun z hz => hw z (sub z hz)
  have hvs : Scalars v := fun z hz => hsc z (sub z hz)
  have hu := utf16_bmp hvb
  -- what is recognized in the piece is recognized there in the text
  rcases se_where hf occ (fun o ho => ⟨Nat.zero_le _, (hl o ho).1⟩) h3 h5 c hc with ⟨i, k1, k2⟩ | ⟨k1, k2, k3⟩
  · obtain ⟨s1, s2⟩ := se_start ((h4 _ _ _).1 k2)
    have here : ShortestIn T v 0 v.length i := by
      rw [e1] at s1
      have : ShortestIn T (w.take c.2.1 ++ (v ++ w.drop c.2.2)) (c.2.1 + 0) (c.2.1 + v.length) i := by
        rw [show c.2.1 + 0 = c.2.1 by omega, show c.2.1 + v.length = c.2.2 by omega]; exact s1
      exact (se_shortest_left (Nat.le_refl _)).1 ((ck_shortest_right e2.symm).1 this)
    refine ⟨v, utf8 v, [(0, v.length, i)], by rw [utf16Text_iff]; exact ⟨hvs, hu.symm⟩, utf8Text_iff.2 ⟨hvs, rfl⟩, by simp, ?_, ?_⟩
    · intro x y j
      rw [List.mem_singleton]
      constructor
      · intro e
        cases e
        exact .first here
      · intro hr
        have hb := at_le hr
        have hr' := (h4 _ _ _).2 (se_lift (p := c.2.1) e1 e2.symm s2 hr)
        -- two recognized occurrences that meet are the same
        have same : (c.2.1 + x, c.2.1 + y, j) = (c.2.1, c.2.2, i) := by
          clear h4 h5 hl
          induction h3 with
          | nil => cases k2
          | @cons o l ho _ ih =>
            rw [List.mem_cons] at k2 hr'
            rcases k2 with k2 | k2 <;> rcases hr' with hr' | hr'
            · rw [k2, hr']
            · have := ho _ hr'; rw [← k2] at this; simp only at this; omega
            · have := ho _ k2; rw [← hr'] at this; simp only at this; omega
            · exact ih k2 hr'
        simp only [Prod.mk.injEq] at same ⊢
        exact ⟨by omega, by omega, same.2.2⟩
    · have := ck_take hf (s := utf8 v) (p := 0) (x := 0) (i := i) (CutFrom.done (a := a) (s := utf8 v) (total := v.length))
      rw [k1]
      simpa using this
  · have s2 : ∀ b k, ShortestIn T w c.2.1 b k → RecognizedIn T w c.2.1 b k := by
      intro b k hs
      rcases k2 with k2 | ⟨o, ho, k2⟩
      · rw [k2] at hs ⊢
        exact .first hs
      · rw [← k2] at hs ⊢
        exact .next ((h4 _ _ _).1 ho) hs
    refine ⟨v, utf8 v, [], by rw [utf16Text_iff]; exact ⟨hvs, hu.symm⟩, utf8Text_iff.2 ⟨hvs, rfl⟩, .nil, ?_, ?_⟩
    · intro x y j
      constructor
      · intro e; cases e
      · intro hr
        have hb := at_le hr
        have hr' := (h4 _ _ _).2 (se_lift (p := c.2.1) e1 e2.symm s2 hr)
        have := k3 _ hr'
        simp only at this
        omega
    · rw [k1]
      exact .rest (by omega)

/-- The pieces of the text are those of its parts. -/
theorem se_items {a : AddedVocab} (hf : FlagFree a) {N : WStr → WStr → Prop} {w : WStr} (hw : Bmp w) (hN : LeavesSome N w) {cuts : List Cut}
    (h : CutUp a a.nonNormTrie w cuts) {groups : List (List (WStr × Bool))}
    (hg : Each (fun (i : WStr × Bool) g => AnyItems a N i.1 g) (itemsAt w cuts) groups) : AnyItems a N w groups.flatten := by
  have hp := C139_alone hf hw h
  have h0 : Each (ckGroup a N w) cuts groups := by
    clear h
    unfold itemsAt at hg
    induction cuts generalizing groups with
    | nil => cases hg; exact .nil
    | cons c cuts ih =>
      rw [List.map_cons] at hg
      cases hg with
      | @cons _ g _ gs h1 h2 =>
        refine .cons ?_ (ih h2 fun c hc => hp c (by simp [hc]))
        obtain ⟨p1, p2, p3⟩ := hp c (by simp)
        obtain ⟨e1, e2, e3⟩ := se_split (Nat.le_of_lt p1) p2
        obtain ⟨cuts', gs', q1, q2, q3⟩ := h1
        have hle : LeavesSome N (textAt w c.2.1 c.2.2) := by
          intro l v r n e
          exact hN (w.take c.2.1 ++ l) v (r ++ w.drop c.2.2) n (by
            conv => lhs; rw [e1, e]
            simp)
        have hbv : Bmp (textAt w c.2.1 c.2.2) := fun z hz => hw z (by rw [e1]; simp [hz])
        rw [ck_items_eq hf hbv hle q1 q2] at q3
        have := C108_cuts_unique q1 p3
        subst this
        cases q2 with
        | cons r1 r2 =>
          cases r2
          simp only [List.flatten_cons, List.flatten_nil, List.append_nil] at q3
          subst q3
          refine ck_group_congr (w := textAt w c.2.1 c.2.2) (c := (c.1, (0, (textAt w c.2.1 c.2.2).length))) rfl ?_ r1
          simp only
          generalize textAt w c.2.1 c.2.2 = v
          simp [textAt, between]
  exact ⟨cuts, groups, h, h0, (ck_items_eq hf hw hN h h0).symm⟩

mutual
theorem se_pre_nil (P : Platform) : (t : PreTokenizer) → t.NoPrefixSpace → ∀ v, PreTokenizes P t (v, []) (v, [])
  | .bert, _, _ => .bert ⟨[], .nil, rfl⟩
  | .split .., _, _ => .split ⟨[], .nil, rfl⟩
  | .byteLevel a u, ha, v => by
    have ha : a = false := by simpa [PreTokenizer.NoPrefixSpace] using ha
    subst ha
    exact .byteLevel .off ⟨[], .nil, rfl⟩ .nil
  | .seq l, hl, v => .seq (se_pres_nil P l (by simpa [PreTokenizer.NoPrefixSpace] using hl) v)
theorem se_pres_nil (P : Platform) : (ts : List PreTokenizer) → NoPrefixSpaceList ts → ∀ v, PreTokenizesAll P ts (v, []) (v, [])
  | [], _, _ => .nil
  | t :: ts, h, v => by
    simp only [NoPrefixSpaceList] at h
    exact .cons (se_pre_nil P t h.1 v) (se_pres_nil P ts h.2 v)
end

/-- The words of the text are those of its pieces. -/
theorem se_words {P : Platform} {t : Tokenizer} {a : AddedVocab} (ha : t.added = some a) (hf : FlagFree a)
    (hpt : ∀ pt, t.preTokenizer = some pt → pt.NoPrefixSpace) {w : WStr} (hw : Bmp w) (hN : LeavesSome (Normalizes P t.normalizer) w) {cuts : List Cut}
    (h : CutUp a a.nonNormTrie w cuts) {ws : List (List WStr)} (hg : Each (fun (i : WStr × Bool) l => AnyWords P t i.1 l) (itemsAt w cuts) ws) :
    AnyWords P t w ws.flatten := by
  have key : ∀ {l : List (WStr × Bool)} {ws : List (List WStr)}, Each (fun (i : WStr × Bool) l => AnyWords P t i.1 l) l ws →
      ∃ groups items', Each (fun (i : WStr × Bool) g => AnyItems a (Normalizes P t.normalizer) i.1 g) l groups ∧ ws.flatten = items'.map (·.1) ∧
        match t.preTokenizer with
        | some x => PreTokenizes P x (w, groups.flatten) (w, items')
        | none => items' = groups.flatten := by
    intro l ws h
    induction h with
    | nil =>
      refine ⟨[], [], .nil, rfl, ?_⟩
      cases hp : t.preTokenizer with
      | none => rfl
      | some pt => exact se_pre_nil P pt (hpt pt hp) w
    | cons h1 _ ih =>
      obtain ⟨gs, its, b1, b2, b3⟩ := ih
      obtain ⟨i, v, j, a1, rfl, a2⟩ := h1
      unfold AnyFirst at a1
      rw [ha] at a1
      refine ⟨i :: gs, j ++ its, .cons a1 b1, by simp [b2], ?_⟩
      cases hp : t.preTokenizer with
      | none =>
        rw [hp] at a2 b3
        simp only at a2 b3
        simp [a2, b3]
      | some pt =>
        rw [hp] at a2 b3
        exact ck_pre_append P pt (hpt pt hp) a2 b3 w
  obtain ⟨gs, its, b1, b2, b3⟩ := key hg
  refine ⟨gs.flatten, w, its, ?_, b2, b3⟩
  unfold AnyFirst
  rw [ha]
  exact se_items hf hw hN h b1

/-- **C139** Added tokens separate the text: without truncation and padding, the ids and tokens of a text are those of its pieces in
a row, laid out by the post-processor.  The pieces are the recognized added tokens and what is between them; each is encoded
by itself. -/
theorem C139_separate (P : Platform) (hg : GoodRegexes P) {t : Tokenizer} {a : AddedVocab} {m x : Model} {lines : List Str}
    {w : WStr} {cuts : List Cut} {b : Bool} {e : Encoding} (hx : t.model = some x) (hm : ModelIs P lines m x) (ha : t.added = some a)
    (hf : FlagFree a) (hd : PlainTables a) (hpt : ∀ pt, t.preTokenizer = some pt → pt.NoPrefixSpace) (htr : t.truncation = none)
    (hpad : t.padding = none) (hw : Bmp w) (hN : LeavesSome (Normalizes P t.normalizer) w) (hc : CutUp a a.nonNormTrie w cuts)
    (hparts : ∀ i ∈ itemsAt w cuts, ∃ ec, (t.encode P i.1 b).1 = .ok ec) (h : (t.encode P w b).1 = .ok e) :
    ∃ (ids : List (List Int)) (tokens : List (List Str)),
      Each (fun (i : WStr × Bool) l => ∃ ec, (t.encode P i.1 b).1 = .ok ec ∧ ec.ids = laidOutBy t.postProcessor b (·.ids) l) (itemsAt w cuts) ids ∧
      Each (fun (i : WStr × Bool) l => ∃ ec, (t.encode P i.1 b).1 = .ok ec ∧ ec.tokens = laidOutBy t.postProcessor b (·.tokens) l) (itemsAt w cuts) tokens ∧
      e.ids = laidOutBy t.postProcessor b (·.ids) ids.flatten ∧ e.tokens = laidOutBy t.postProcessor b (·.tokens) tokens.flatten := by
  obtain ⟨R, hR, hM⟩ := ck_model P hm
  have hd' : ∀ a, t.added = some a → PlainTables a := by
    intro a' h'; rw [ha] at h'; cases h'; exact hd
  have one : ∀ {w : WStr} {e : Encoding}, (t.encode P w b).1 = .ok e → ∃ ws parts, AnyWords P t w ws ∧ Each R ws parts ∧
      e.ids = laidOutBy t.postProcessor b (·.ids) (parts.flatten.map (·.id)) ∧
      e.tokens = laidOutBy t.postProcessor b (·.tokens) (parts.flatten.map (·.value)) := by
    intro w e h
    obtain ⟨q, y, ⟨p, hp, hq⟩, hy, hpost⟩ := encode_ok h
    rw [hx] at hq
    obtain ⟨ws, k1, k2⟩ := at_words P hg hd' hp
    exact ⟨ws, _, k1, hM k2 hq, ck_entries hy hpost htr hpad⟩
  have all : ∀ cs : List (WStr × Bool), (∀ c ∈ cs, ∃ ec, (t.encode P c.1 b).1 = .ok ec) → ∃ (ws : List (List WStr)) (parts : List (List (List Token))),
      Each (fun (i : WStr × Bool) l => AnyWords P t i.1 l) cs ws ∧ Each (Each R) ws parts ∧
      Each (fun (c : WStr × Bool) l => ∃ ec, (t.encode P c.1 b).1 = .ok ec ∧ ec.ids = laidOutBy t.postProcessor b (·.ids) l) cs
        (parts.map fun p => p.flatten.map (·.id)) ∧
      Each (fun (c : WStr × Bool) l => ∃ ec, (t.encode P c.1 b).1 = .ok ec ∧ ec.tokens = laidOutBy t.postProcessor b (·.tokens) l) cs
        (parts.map fun p => p.flatten.map (·.value)) := by
    intro cs
    induction cs with
    | nil => intro _; exact ⟨[], [], .nil, .nil, .nil, .nil⟩
    | cons c cs ih =>
      intro h
      obtain ⟨ec, hec⟩ := h c (by simp)
      obtain ⟨ws, parts, a1, a2, a3, a4⟩ := one hec
      obtain ⟨ws', parts', b1, b2, b3, b4⟩ := ih fun c hc => h c (by simp [hc])
      exact ⟨ws :: ws', parts :: parts', .cons a1 b1, .cons a2 b2, .cons ⟨ec, hec, a3⟩ b3, .cons ⟨ec, hec, a4⟩ b4⟩
  obtain ⟨ws, parts, a1, a2, a3, a4⟩ := all _ hparts
  obtain ⟨ws', parts', b1, b2, b3, b4⟩ := one h
  have e1 := C108_words_unique P b1 (se_words ha hf hpt hw hN hc a1)
  subst e1
  have flat : ∀ {l : List (List WStr)} {r : List (List (List Token))}, Each (Each R) l r → Each R l.flatten r.flatten := by
    intro l r h
    induction h with
    | nil => exact .nil
    | cons h _ ih => exact rf_append h ih
  have e2 := rf_each_unique hR b2 (flat a2)
  subst e2
  refine ⟨_, _, a3, a4, ?_, ?_⟩
  · rw [b3]
    congr 1
    simp [List.map_flatten, Function.comp_def, List.flatten_flatten]
  · rw [b4]
    congr 1
    simp [List.map_flatten, Function.comp_def, List.flatten_flatten]

/-! ### The hypotheses are met -/

theorem se_plain : PlainFor spacePlatform w!"HELLOs [X][X]hello" where
  chars := by unfold Scalar Dropped; decide +kernel
  nfd := fun _ _ => rfl

theorem se_cuts : CutUp psAdded psAdded.nonNormTrie w!"HELLOs [X][X]hello" [(none, (0, 7)), (some 4, (7, 10)), (some 4, (10, 13)), (none, (13, 18))] := by
  obtain ⟨h1, h2⟩ := ps_plain _ (.inl rfl)
  obtain ⟨cuts, f1, f2⟩ := at_findMatches (a := psAdded) (w := w!"HELLOs [X][X]hello") (by unfold Scalars isScalar; decide) h1 h2
  have : (psAdded.findMatches (utf8 w!"HELLOs [X][X]hello") psAdded.nonNormTrie).1 =
      .ok [(none, (0, 7)), (some 4, (7, 10)), (some 4, (10, 13)), (none, (13, 18))] := by decide +kernel
  rw [this] at f1
  cases f1
  exact f2

/-- The hypotheses of `C139_separate` are met by a BERT tokenizer and a text with two added tokens next to each other. -/
example : FlagFree psAdded ∧ PlainTables psAdded ∧ Bmp w!"HELLOs [X][X]hello" ∧
    LeavesSome (Normalizes spacePlatform (uncasedTk true true true true).normalizer) w!"HELLOs [X][X]hello" ∧ GoodRegexes spacePlatform ∧
    itemsAt w!"HELLOs [X][X]hello" [(none, (0, 7)), (some 4, (7, 10)), (some 4, (10, 13)), (none, (13, 18))] =
      [(w!"HELLOs ", false), (w!"[X]", true), (w!"[X]", true), (w!"hello", false)] := by
  have hf : FlagFree psAdded := by intro i t h; cases h
  obtain ⟨h1, -, h3, h4, -⟩ := C112_bert (t := uncasedTk true true true true) ck_ascii_space rfl (fun a h => by cases h; exact hf) se_plain psAdded rfl
  exact ⟨h1, ps_plain, h3, h4, pl_space_good, by decide +kernel⟩

example : ((uncasedTk true true true true).encode spacePlatform w!"HELLOs " true).1.map (·.ids) = .ok [1, 2] ∧
    ((uncasedTk true true true true).encode spacePlatform w!"[X]" true).1.map (·.ids) = .ok [4] ∧
    ((uncasedTk true true true true).encode spacePlatform w!"hello" true).1.map (·.ids) = .ok [1] ∧
    ((uncasedTk true true true true).encode spacePlatform w!"HELLOs [X][X]hello" true).1.map (·.ids) = .ok [1, 2, 4, 4, 1] := by
  refine ⟨?_, ?_, ?_, ?_⟩ <;> decide +kernel

/-- An accent that the normalizer removes disappears behind an added token, but not on its own. -/
theorem C139_violated : ∃ (t : Tokenizer) (a : AddedVocab) (w w' : WStr) (cuts : List Cut), t.added = some a ∧ FlagFree a ∧ PlainTables a ∧ Bmp (w ++ w') ∧
    t.truncation = none ∧ t.padding = none ∧ t.postProcessor = none ∧ CutUp a a.nonNormTrie (w ++ w') cuts ∧
    itemsAt (w ++ w') cuts = [(w, true), (w', false)] ∧ (t.encode ascii w true).1.map (·.ids) = .ok [4] ∧
    (t.encode ascii w' true).1.map (·.ids) = .ok [0] ∧ (t.encode ascii (w ++ w') true).1.map (·.ids) = .ok [4] := by
  refine ⟨{ uncasedTk true true true true with normalizer := some .stripAccents }, psAdded, w!"[X]", [0x301], [(some 4, (0, 3)), (none, (3, 4))],
    rfl, fun i t h => (by cases h), ps_plain, by unfold Bmp Scalar; decide, rfl, rfl, rfl, ?_, ?_, ?_, ?_, ?_⟩
  · obtain ⟨h1, h2⟩ := ps_plain _ (.inl rfl)
    obtain ⟨cuts, f1, f2⟩ := at_findMatches (a := psAdded) (w := w!"[X]" ++ [0x301]) (by unfold Scalars isScalar; decide) h1 h2
    have : (psAdded.findMatches (utf8 (w!"[X]" ++ [0x301])) psAdded.nonNormTrie).1 = .ok [(some 4, (0, 3)), (none, (3, 4))] := by decide +kernel
    rw [this] at f1
    cases f1
    exact f2
  all_goals decide +kernel

end Tok
