import Verif.Props.AnyText
import Verif.Spec.Alike

set_option autoImplicit false

/-!
C111: what `encode` returns depends on the text only through its normalized form.
-/

namespace Tok
open Spec

/-! ### Truncation, post-processing and padding do not look at the offsets -/

theorem al_refl (e : Enc) : SameButOffsets e e := ⟨rfl, rfl, rfl, rfl, rfl, rfl, rfl⟩

theorem al_append {a a' b b' : Enc} (h : SameButOffsets a a') (h' : SameButOffsets b b') :
    SameButOffsets (a.append b) (a'.append b') := by
  refine ⟨?_, ?_, ?_, ?_, ?_, ?_, ?_⟩ <;> simp only [Enc.append, List.length_append]
  · rw [h.ids, h'.ids]
  · rw [h.typeIds, h'.typeIds]
  · rw [h.tokens, h'.tokens]
  · rw [h.words, h'.words]
  · rw [h.specialTokensMask, h'.specialTokensMask]
  · rw [h.attentionMask, h'.attentionMask]
  · rw [h.offsets, h'.offsets]

theorem al_same {α : Type} (x : Res α) : ResRel (fun a b => a = b) x x := by
  cases x <;> simp [ResRel]

theorem al_slice {α : Type} {l l' : List α} (h : l.length = l'.length) (a b : Int) :
    ResRel (fun x y : List α => x.length = y.length) (sliceI l a b) (sliceI l' a b) := by
  unfold sliceI slice
  rw [h]
  split
  · split
    · simp [ResRel, h]
    · rfl
  · rfl

theorem al_window {e e' : Enc} (h : SameButOffsets e e') (r : Int × Int) : ResRel SameButOffsets (e.window r) (e'.window r) := by
  unfold Enc.window
  rw [h.ids, h.typeIds, h.tokens, h.words, h.specialTokensMask, h.attentionMask]
  refine ResRel.bind (al_same _) fun x1 y1 e1 => ?_
  refine ResRel.bind (al_same _) fun x2 y2 e2 => ?_
  refine ResRel.bind (al_same _) fun x3 y3 e3 => ?_
  refine ResRel.bind (al_same _) fun x4 y4 e4 => ?_
  refine ResRel.bind (al_slice h.offsets _ _) fun x5 y5 e5 => ?_
  refine ResRel.bind (al_same _) fun x6 y6 e6 => ?_
  refine ResRel.bind (al_same _) fun x7 y7 e7 => ?_
  exact ⟨e1, e2, e3, e4, e6, e7, e5⟩

theorem al_windows {e e' : Enc} (h : SameButOffsets e e') (rs : List (Int × Int)) :
    ResRel (Each SameButOffsets) (windows e rs) (windows e' rs) := by
  induction rs with
  | nil => exact Each.nil
  | cons r rs ih =>
    unfold windows
    refine ResRel.bind (al_window h r) fun x y hxy => ?_
    exact ResRel.bind ih fun l l' hl => Each.cons hxy hl

theorem al_truncate {e e' : Encoding} (h : AlikeEncodings e e') (m s : Int) (d : TDir) :
    ResRel AlikeEncodings (truncate e m s d) (truncate e' m s d) := by
  unfold truncate
  rw [h.1.ids]
  split
  · exact h
  · split
    · exact ⟨h.1, .nil⟩
    · refine ResRel.bind (al_same _) fun x y hxy => ?_
      subst hxy
      cases x with
      | nil => rfl
      | cons r rs =>
        refine ResRel.bind (al_window h.1 r) fun x y hxy => ?_
        exact ResRel.bind (al_windows h.1 rs) fun l l' hl => ⟨hxy, hl⟩

theorem al_truncation {e e' : Encoding} (h : AlikeEncodings e e') (t : Truncation) :
    ResRel AlikeEncodings (t.run e) (t.run e') := by
  unfold Truncation.run
  rw [h.1.ids]
  split
  · exact al_truncate h _ _ _
  · split
    · exact h
    · split
      · exact al_truncate h _ _ _
      · simp only
        split
        · exact al_truncate h _ _ _
        · exact h
      · exact h

theorem al_parts (sp : List SpecialToken) (b : Bool) : ∀ (l : List Piece) {e e' : Enc}, SameButOffsets e e' →
    Each SameButOffsets (templateParts sp b l e) (templateParts sp b l e')
  | [], _, _, _ => .nil
  | p :: r, e, e', h => by
    unfold templateParts
    have h1 : SameButOffsets (if p.id = b!"A" then { e with typeIds := List.replicate e.typeIds.length p.typeId } else e)
        (if p.id = b!"A" then { e' with typeIds := List.replicate e'.typeIds.length p.typeId } else e') := by
      split
      · exact ⟨h.ids, by simp only [h.typeIds], h.tokens, h.words, h.specialTokensMask, h.attentionMask, h.offsets⟩
      · exact h
    split
    · exact .cons h1 (al_parts sp b r h1)
    · split
      · split
        · exact .cons (al_refl _) (al_parts sp b r h)
        · exact al_parts sp b r h
      · exact al_parts sp b r h

theorem al_foldl {l l' : List Enc} (h : Each SameButOffsets l l') : ∀ {e e' : Enc}, SameButOffsets e e' →
    SameButOffsets (l.foldl Enc.append e) (l'.foldl Enc.append e') := by
  induction h with
  | nil => exact fun h => h
  | cons h _ ih => exact fun h' => ih (al_append h' h)

theorem al_trimLoop (p : Bool) (tokens : List Str) : ∀ (n i : Nat) {o o' : List (Int × Int)}, o.length = o'.length →
    ResRel (fun x y : List (Int × Int) => x.length = y.length) (trimLoop p tokens n i o) (trimLoop p tokens n i o')
  | 0, _, _, _, h => h
  | n + 1, i, o, o', h => by
    unfold trimLoop
    refine ResRel.bind (al_same _) fun x y hxy => ?_
    subst hxy
    have hv : ResRel (fun _ _ => True) (vecAt o i) (vecAt o' i) := by
      unfold vecAt
      by_cases hi : i < o.length
      · rw [List.getElem?_eq_getElem hi, List.getElem?_eq_getElem (h ▸ hi)]
        trivial
      · rw [List.getElem?_eq_none (by omega), List.getElem?_eq_none (by omega)]
        rfl
    refine ResRel.bind hv fun x' y' _ => ?_
    exact al_trimLoop p tokens n (i + 1) (by simp [h])

theorem al_offsets (p : Bool) {e e' : Enc} (h : SameButOffsets e e') : ResRel SameButOffsets (processOffsets p e) (processOffsets p e') := by
  unfold processOffsets
  rw [h.ids, h.tokens]
  refine ResRel.bind (al_trimLoop p _ _ _ h.offsets) fun x y hxy => ?_
  exact ⟨rfl, h.typeIds, rfl, h.words, h.specialTokensMask, h.attentionMask, hxy⟩

theorem al_processAll (p : Bool) {l l' : List Enc} (h : Each SameButOffsets l l') :
    ResRel (Each SameButOffsets) (processAll p l) (processAll p l') := by
  induction h with
  | nil => exact Each.nil
  | cons h _ ih =>
    unfold processAll
    refine ResRel.bind (al_offsets p h) fun x y hxy => ?_
    exact ResRel.bind ih fun l l' hl => Each.cons hxy hl

mutual
theorem al_process (b : Bool) : (p : PostProcessor) → {e e' : Encoding} → AlikeEncodings e e' →
    ResRel AlikeEncodings (p.run b e) (p.run b e')
  | .template s _ t, _, _, h => by
    unfold PostProcessor.run templateProcess
    exact ⟨al_foldl (al_parts t b s h.1) (al_refl _), .nil⟩
  | .byteLevel a t, _, _, h => by
    unfold PostProcessor.run byteLevelProcess
    split
    · refine ResRel.bind (al_offsets a h.1) fun x y hxy => ?_
      exact ResRel.bind (al_processAll a h.2) fun l l' hl => ⟨hxy, hl⟩
    · exact h
  | .seq l, _, _, h => by
    unfold PostProcessor.run
    exact al_processes b l h
theorem al_processes (b : Bool) : (l : List PostProcessor) → {e e' : Encoding} → AlikeEncodings e e' →
    ResRel AlikeEncodings (PostProcessor.runList b l e) (PostProcessor.runList b l e')
  | [], _, _, h => by unfold PostProcessor.runList; exact h
  | p :: r, _, _, h => by
    unfold PostProcessor.runList
    exact ResRel.bind (al_process b p h) fun _ _ h' => al_processes b r h'
end

theorem al_padEnc (p : Padding) (n : Int) {e e' : Enc} (h : SameButOffsets e e') : ResRel SameButOffsets (padEnc p n e) (padEnc p n e') := by
  unfold padEnc
  rw [h.ids]
  split
  · exact h
  · simp only
    split
    · exact h
    · split
      · rfl
      · exact ⟨by simp, by simp [h.typeIds], by simp [h.tokens], by simp [h.words], by simp [h.specialTokensMask], by simp [h.attentionMask],
          by simp [h.offsets]⟩
    · split
      · rfl
      · exact ⟨by simp, by simp [h.typeIds], by simp [h.tokens], by simp [h.words], by simp [h.specialTokensMask], by simp [h.attentionMask],
          by simp [h.offsets]⟩

theorem al_padAll (p : Padding) (n : Int) {l l' : List Enc} (h : Each SameButOffsets l l') :
    ResRel (Each SameButOffsets) (padAll p n l) (padAll p n l') := by
  induction h with
  | nil => exact Each.nil
  | cons h _ ih =>
    unfold padAll
    refine ResRel.bind (al_padEnc p n h) fun x y hxy => ?_
    exact ResRel.bind ih fun l l' hl => Each.cons hxy hl

theorem al_padding (p : Padding) {e e' : Encoding} (h : AlikeEncodings e e') : ResRel AlikeEncodings (p.run e) (p.run e') := by
  unfold Padding.run pad
  rw [h.1.ids]
  refine ResRel.bind (al_padAll p _ h.2) fun l l' hl => ?_
  exact ResRel.bind (al_padEnc p _ h.1) fun x y hxy => ⟨hxy, hl⟩

theorem al_post (t : Tokenizer) (b : Bool) {e e' : Encoding} (h : AlikeEncodings e e') :
    ResRel AlikeEncodings (t.doPostProcess e b) (t.doPostProcess e' b) := by
  unfold Tokenizer.doPostProcess
  have h1 : ResRel AlikeEncodings (match t.truncation with | some x => x.run e | none => .ok e : Res Encoding)
      (match t.truncation with | some x => x.run e' | none => .ok e' : Res Encoding) := by
    cases t.truncation with
    | none => exact h
    | some x => exact al_truncation h x
  have h2 : ∀ {e e' : Encoding}, AlikeEncodings e e' →
      ResRel AlikeEncodings (match t.postProcessor with | some x => x.run b e | none => .ok e : Res Encoding)
      (match t.postProcessor with | some x => x.run b e' | none => .ok e' : Res Encoding) := by
    intro e e' h
    cases t.postProcessor with
    | none => exact h
    | some x => exact al_process b x h
  have h3 : ∀ {e e' : Encoding}, AlikeEncodings e e' →
      ResRel AlikeEncodings (match t.padding with | some x => x.run e | none => .ok e : Res Encoding)
      (match t.padding with | some x => x.run e' | none => .ok e' : Res Encoding) := by
    intro e e' h
    cases t.padding with
    | none => exact h
    | some x => exact al_padding x h
  cases ht : t.truncation <;> cases hp : t.postProcessor <;> rw [ht] at h1 <;> simp only [hp] at h2 <;>
    exact ResRel.bind h1 fun _ _ h => ResRel.bind (h2 h) fun _ _ h => h3 h

/-! ### The vectors made of the splits -/

theorem al_into {ns ns' : NS} (k : Option Int) (ty : Int) : ∀ {l l' : List Split} (i : Nat) {x x' : Enc},
    l.map (·.tokens) = l'.map (·.tokens) → intoLoop ns k ty i l = .ok x → intoLoop ns' k ty i l' = .ok x' → SameButOffsets x x'
  | [], [], _, _, _, _, h, h' => by cases h; cases h'; exact al_refl _
  | [], _ :: _, _, _, _, e, _, _ => by cases e
  | _ :: _, [], _, _, _, e, _, _ => by cases e
  | s :: r, s' :: r', i, x, x', e, h, h' => by
    simp only [List.map_cons, List.cons.injEq] at e
    unfold intoLoop at h h'
    obtain ⟨rng, -, h⟩ := res_bind_ok.1 h
    obtain ⟨base, -, h⟩ := res_bind_ok.1 h
    obtain ⟨y, hy, h⟩ := res_bind_ok.1 h
    obtain ⟨rng', -, h'⟩ := res_bind_ok.1 h'
    obtain ⟨base', -, h'⟩ := res_bind_ok.1 h'
    obtain ⟨y', hy', h'⟩ := res_bind_ok.1 h'
    cases h; cases h'
    refine al_append ?_ (al_into k ty (i + 1) e.2 hy hy')
    rw [e.1]
    generalize s'.tokens = ts
    induction ts with
    | nil => exact al_refl _
    | cons a ts ih =>
      simp only [List.map_cons, List.foldr_cons]
      refine al_append ⟨rfl, rfl, rfl, rfl, rfl, rfl, rfl⟩ ih

/-! ### The model answers word by word -/

/-- The tokens the model gives for a word. -/
theorem al_model (P : Platform) {lines : List Str} {m x : Model} (hm : ModelIs P lines m x) {ws : List WStr} {p p' q q' : PTS}
    (hw : Each (fun v s => HasText s v) ws p.splits) (hw' : Each (fun v s => HasText s v) ws p'.splits)
    (h : (x.tokenize P p).1 = .ok q) (h' : (x.tokenize P p').1 = .ok q') : q.splits.map (·.tokens) = q'.splits.map (·.tokens) := by
  cases m with
  | wordPiece m =>
    exact rf_each_unique (R := ModelTokens lines (.wordPiece m)) (fun v x y hx hy => rf_answer_unique (m := m) hx hy)
      (pl_model P hm hw h) (pl_model P hm hw' h')
  | bpe m =>
    obtain ⟨hmade, hkeys, before, rfl⟩ := hm
    have h : ((usedBPE P m before).tokenize P p).1 = .ok q := h
    have h' : ((usedBPE P m before).tokenize P p').1 = .ok q' := h'
    obtain ⟨-, he⟩ := (bpe_tokenize P hmade before p q).1 h
    obtain ⟨-, he'⟩ := (bpe_tokenize P hmade before p' q').1 h'
    clear h h'
    generalize p.splits = l at hw he
    generalize p'.splits = l1 at hw' he'
    generalize q.splits = l' at he
    generalize q'.splits = l1' at he'
    induction hw generalizing l1 l' l1' with
    | nil => cases hw'; cases he; cases he'; rfl
    | cons hv _ ih =>
      cases hw' with
      | cons hv' hw' =>
        cases he with
        | cons hs he =>
          cases he' with
          | cons hs' he' =>
            have e1 := (utf8Text_iff.1 hv).2
            have e2 := (utf8Text_iff.1 hv').2
            have h1 := hs.2.2
            have h2 := hs'.2.2
            rw [e1] at h1; rw [e2, h1] at h2
            simp only [List.map_cons, List.cons.injEq]
            exact ⟨Except.ok.inj h2, ih _ hw' _ he _ he'⟩

/-- Texts with the same words get the same encoding up to the offsets. -/
theorem al_words (P : Platform) (hg : GoodRegexes P) {t : Tokenizer} {m x : Model} {lines : List Str} {w w' : WStr} {b : Bool}
    {e e' : Encoding} (hx : t.model = some x) (hm : ModelIs P lines m x) (hd : ∀ a, t.added = some a → PlainTables a)
    (hw : ∀ ws ws', AnyWords P t w ws → AnyWords P t w' ws' → ws = ws')
    (h : (t.encode P w b).1 = .ok e) (h' : (t.encode P w' b).1 = .ok e') : AlikeEncodings e e' := by
  obtain ⟨q, y, ⟨p, hp, hq⟩, hy, hpost⟩ := encode_ok h
  obtain ⟨q', y', ⟨p', hp', hq'⟩, hy', hpost'⟩ := encode_ok h'
  rw [hx] at hq hq'
  obtain ⟨ws, k1, k2⟩ := at_words P hg hd hp
  obtain ⟨ws', k1', k2'⟩ := at_words P hg hd hp'
  obtain rfl := hw _ _ k1 k1'
  have e1 := al_into none 0 0 (al_model P hm k2 k2' hq hq') hy hy'
  have := al_post t b (e := { toEnc := y, overflowing := [] }) (e' := { toEnc := y', overflowing := [] }) ⟨e1, .nil⟩
  rw [hpost, hpost'] at this
  exact this

/-! ### Same normalized text, same words -/

mutual
/-- Without `add_prefix_space` a pre-tokenizer looks only at the pieces. -/
theorem al_pre (P : Platform) : (t : PreTokenizer) → t.NoPrefixSpace → {s s' : Stage} → PreTokenizes P t s s' →
    ∀ v, PreTokenizes P t (v, s.2) (v, s'.2)
  | .bert, _, _, _, .bert h, _ => .bert h
  | .split .., _, _, _, .split h, _ => .split h
  | .byteLevel a u, ha, _, _, .byteLevel h1 h2 h3, v => by
    have ha : a = false := by simpa [PreTokenizer.NoPrefixSpace] using ha
    subst ha
    cases h1
    exact .byteLevel .off h2 h3
  | .seq l, hl, _, _, .seq h, v => .seq (al_pres P l (by simpa [PreTokenizer.NoPrefixSpace] using hl) h v)
theorem al_pres (P : Platform) : (ts : List PreTokenizer) → NoPrefixSpaceList ts → {s s' : Stage} → PreTokenizesAll P ts s s' →
    ∀ v, PreTokenizesAll P ts (v, s.2) (v, s'.2)
  | [], _, _, _, .nil, _ => .nil
  | t :: ts, h, _, _, .cons h1 h2, v => by
    simp only [NoPrefixSpaceList] at h
    exact .cons (al_pre P t h.1 h1 v) (al_pres P ts h.2 h2 v)
end

/-- Without `add_prefix_space` the words depend only on the pieces the pre-tokenizer starts with. -/
theorem al_same_items (P : Platform) {t : Tokenizer} {w w' : WStr} (hpt : ∀ pt, t.preTokenizer = some pt → pt.NoPrefixSpace)
    (hi : ∀ items items', AnyFirst P t w items → AnyFirst P t w' items' → items = items') {ws ws' : List WStr}
    (h : AnyWords P t w ws) (h' : AnyWords P t w' ws') : ws = ws' := by
  obtain ⟨i, v, j, h1, rfl, h2⟩ := h
  obtain ⟨i', v', j', h1', rfl, h2'⟩ := h'
  obtain rfl := hi _ _ h1 h1'
  cases hp : t.preTokenizer with
  | none => rw [hp] at h2 h2'; rw [h2, h2']
  | some pt =>
    rw [hp] at h2 h2'
    have e := C105_pre_unique P pt (al_pre P pt (hpt pt hp) h2 []) (al_pre P pt (hpt pt hp) h2' [])
    simp only [Prod.mk.injEq, true_and] at e
    rw [e]

/-- A text in which nothing is recognized is one piece. -/
theorem al_nothing {a : AddedVocab} {T : List (Str × Int)} {w : WStr} {cuts : List Cut}
    (hn : ∀ u x y i, Utf16Text w u → ¬ RecognizedIn T u x y i) (h : CutUp a T w cuts) :
    (w = [] ∧ cuts = []) ∨ (w ≠ [] ∧ cuts = [(none, (0, units w))] ∧ textAt w 0 (units w) = w) := by
  obtain ⟨u, s, occ, h1, h2, h3, h4, h5⟩ := h
  have : occ = [] := by
    cases occ with
    | nil => rfl
    | cons o r => exact absurd ((h4 o.1 o.2.1 o.2.2).1 (by simp)) (hn u _ _ _ h1)
  subst this
  obtain ⟨hw, rfl⟩ := utf16Text_iff.1 h1
  generalize hq : (0 : Nat) = z at h5
  generalize ho : ([] : List (Nat × Nat × Int)) = o at h5
  cases h5 with
  | rest hne =>
    subst hq
    rw [← units_eq] at hne ⊢
    refine .inr ⟨?_, rfl, ?_⟩
    · rintro rfl; simp [units] at hne
    · have hle := length_le_units w
      simp [textAt, between, List.take_of_length_le hle]
  | done =>
    rw [← units_eq] at hq
    exact .inl ⟨units_eq_zero.1 hq.symm, rfl⟩
  | skip => cases ho
  | take => cases ho

theorem al_normalizes_unique (P : Platform) (norm : Option Normalizer) {w n n' : WStr} (h : Normalizes P norm w n)
    (h' : Normalizes P norm w n') : n = n' := by
  unfold Normalizes at h h'
  cases norm with
  | none => exact Eq.trans h (Eq.symm h')
  | some x => exact C104_unique P x h h'

theorem al_items {P : Platform} {a : AddedVocab} {norm : Option Normalizer} {w w' n : WStr} {items items' : List (WStr × Bool)}
    (hb : NothingBefore a w) (hb' : NothingBefore a w') (hw : w ≠ []) (hw' : w' ≠ [])
    (hn : Normalizes P norm w n) (hn' : Normalizes P norm w' n) (hne : n ≠ [])
    (h : AnyItems a (Normalizes P norm) w items) (h' : AnyItems a (Normalizes P norm) w' items') : items = items' := by
  have key : ∀ {w items}, NothingBefore a w → w ≠ [] → Normalizes P norm w n → AnyItems a (Normalizes P norm) w items →
      ∃ cuts, CutUp a a.normTrie n cuts ∧ items = itemsAt n cuts := by
    intro w items hb hw hn h
    obtain ⟨cuts, groups, h1, h2, h3⟩ := h
    rcases al_nothing hb h1 with ⟨e, -⟩ | ⟨-, rfl, e⟩
    · exact absurd e hw
    · cases h2 with
      | cons hg h2 =>
        cases h2
        simp only [e] at hg
        obtain ⟨n', cuts', g1, g2, rfl⟩ := hg
        obtain rfl := al_normalizes_unique P norm hn g1
        refine ⟨cuts', g2, ?_⟩
        rw [h3, if_neg]
        · simp
        · simp only [List.flatten_cons, List.flatten_nil, List.append_nil]
          intro e0
          have : cuts' = [] := by
            unfold itemsAt at e0
            simpa using e0
          obtain ⟨u, s, occ, c1, -, -, -, c5⟩ := g2
          refine at_cuts_ne c5 (fun h0 => hne ?_) this
          obtain ⟨hw, rfl⟩ := utf16Text_iff.1 c1
          rw [← units_eq] at h0
          exact units_eq_zero.1 h0.symm
  obtain ⟨c, k1, rfl⟩ := key hb hw hn h
  obtain ⟨c', k1', rfl⟩ := key hb' hw' hn' h'
  rw [C108_cuts_unique k1 k1']

/-- **C111** Two texts with the same, non-empty normalized form get the same encoding up to the offsets - the same ids, type ids,
tokens, word indices and masks, and overflowing windows - for every configuration with an added vocabulary and without
`add_prefix_space`, if none of the tokens matched before normalization is recognized in them. -/
theorem C111_same_normalized (P : Platform) (hg : GoodRegexes P) {t : Tokenizer} {m x : Model} {lines : List Str} {a : AddedVocab} {w w' n : WStr}
    {b : Bool} {e e' : Encoding} (hx : t.model = some x) (hm : ModelIs P lines m x) (ha : t.added = some a) (hd : PlainTables a)
    (hpt : ∀ pt, t.preTokenizer = some pt → pt.NoPrefixSpace) (hb : NothingBefore a w) (hb' : NothingBefore a w')
    (hn : Normalizes P t.normalizer w n) (hn' : Normalizes P t.normalizer w' n) (hne : n ≠ [])
    (h : (t.encode P w b).1 = .ok e) (h' : (t.encode P w' b).1 = .ok e') : AlikeEncodings e e' := by
  have ne : ∀ {w : WStr} {e : Encoding}, (t.encode P w b).1 = .ok e → w ≠ [] := by
    rintro w e h rfl
    obtain ⟨e1, k, -⟩ := C53_violated P t b a ha
    rw [k] at h
    cases h
  refine al_words P hg hx hm (fun a' ha' => by rw [ha] at ha'; cases ha'; exact hd) ?_ h h'
  intro ws ws' k k'
  refine al_same_items P hpt ?_ k k'
  intro items items' i1 i2
  unfold AnyFirst at i1 i2
  rw [ha] at i1 i2
  exact al_items hb hb' (ne h) (ne h') hn hn' hne i1 i2

/-- **C111** Encoding the normalized text gives what encoding the text gives, up to the offsets, if normalizing it again changes
nothing. -/
theorem C111_normalized_text (P : Platform) (hg : GoodRegexes P) {t : Tokenizer} {m x : Model} {lines : List Str} {a : AddedVocab} {w n : WStr}
    {b : Bool} {e e' : Encoding} (hx : t.model = some x) (hm : ModelIs P lines m x) (ha : t.added = some a) (hd : PlainTables a)
    (hpt : ∀ pt, t.preTokenizer = some pt → pt.NoPrefixSpace) (hb : NothingBefore a w) (hb' : NothingBefore a n)
    (hn : Normalizes P t.normalizer w n) (hn' : Normalizes P t.normalizer n n) (hne : n ≠ [])
    (h : (t.encode P w b).1 = .ok e) (h' : (t.encode P n b).1 = .ok e') : AlikeEncodings e e' :=
  C111_same_normalized P hg hx hm ha hd hpt hb hb' hn hn' hne h h'

/-- With lower-casing (and no other step but cleaning and accent stripping switched off) normalization is lower-casing of the
decomposed text without accents. -/
theorem al_lower {P : Platform} {w : WStr} (hs : w.map sanitize = w) (hnf : P.nf .nfd w = w) (hm : ∀ c ∈ w, P.isNSM c = false) :
    Normalizes P (some (.bert false false false true)) w (w.map P.towlower) := by
  refine NormalizesTo.bert ⟨w, w, w, by simp, by simp, ?_, by simp⟩
  simp only [Bool.or_true, if_true, hs, hnf]
  rw [eq_comm, List.filter_eq_self]
  intro c hc
  simp [hm c hc]

/-- **C111** A lower-casing tokenizer does not distinguish texts that differ in case only (texts that are already decomposed and
have no accents). -/
theorem C111_case (P : Platform) (hg : GoodRegexes P) {t : Tokenizer} {m x : Model} {lines : List Str} {a : AddedVocab} {w w' : WStr}
    {b : Bool} {e e' : Encoding} (hx : t.model = some x) (hm : ModelIs P lines m x) (ha : t.added = some a) (hd : PlainTables a)
    (hpt : ∀ pt, t.preTokenizer = some pt → pt.NoPrefixSpace) (hn : t.normalizer = some (.bert false false false true))
    (hb : NothingBefore a w) (hb' : NothingBefore a w')
    (hp : ∀ v, v = w ∨ v = w' → v.map sanitize = v ∧ P.nf .nfd v = v ∧ ∀ c ∈ v, P.isNSM c = false)
    (hc : w.map P.towlower = w'.map P.towlower)
    (h : (t.encode P w b).1 = .ok e) (h' : (t.encode P w' b).1 = .ok e') : AlikeEncodings e e' := by
  obtain ⟨p1, p2, p3⟩ := hp w (.inl rfl)
  obtain ⟨q1, q2, q3⟩ := hp w' (.inr rfl)
  have hw : w ≠ [] := by
    rintro rfl
    obtain ⟨e1, k, -⟩ := C53_violated P t b a ha
    rw [k] at h
    cases h
  exact C111_same_normalized P hg hx hm ha hd hpt hb hb' (by rw [hn]; exact al_lower p1 p2 p3)
    (by rw [hn, hc]; exact al_lower q1 q2 q3) (by simpa using hw) h h'

theorem al_noTokens {a : AddedVocab} (h : a.nonNormTrie = []) (w : WStr) : NothingBefore a w := by
  intro u x y i _ hr
  rw [h] at hr
  have no : ∀ {x y i}, ¬ ShortestIn [] u x y i := by
    rintro x y i ⟨-, ⟨-, _, _, -, -, hm⟩, -⟩
    cases hm
  cases hr with
  | first h => exact no h
  | word _ h => exact no h
  | next _ h => exact no h

/-- The hypotheses can be met: `Go` and `gO` for a lower-casing tokenizer. -/
example : AddedVocab.nonNormTrie (AddedVocab.init []) = [] ∧ PlainTables (AddedVocab.init []) ∧
    w!"Go".map ascii.towlower = w!"gO".map ascii.towlower ∧
    ((lowerTk (some (AddedVocab.init [])) (some .bert)).encode ascii w!"Go" true).1.map (·.ids) = .ok [1] ∧
    ((lowerTk (some (AddedVocab.init [])) (some .bert)).encode ascii w!"gO" true).1.map (·.ids) = .ok [1] := by
  refine ⟨by decide, ?_, by decide +kernel, by decide +kernel, by decide +kernel⟩
  intro T hT
  have : T = [] := by rcases hT with rfl | rfl <;> rfl
  subst this
  exact ⟨by simp, by simp⟩

/-- Without an added vocabulary nothing is normalized, and `add_prefix_space` goes back to the text as given: `GO` and `go` differ. -/
theorem C111_violated :
    (((lowerTk none none).encode ascii w!"GO" true).1.map (·.ids) = .ok [2] ∧ ((lowerTk none none).encode ascii w!"go" true).1.map (·.ids) = .ok [1]) ∧
    (((lowerTk (some (AddedVocab.init [])) (some (.byteLevel true false))).encode ascii w!"GO" true).1.map (·.ids) = .ok [3] ∧
      ((lowerTk (some (AddedVocab.init [])) (some (.byteLevel true false))).encode ascii w!"go" true).1.map (·.ids) = .ok [0]) := by
  refine ⟨⟨?_, ?_⟩, ?_, ?_⟩ <;> decide +kernel

/-- A tokenizer that strips blanks, and has a token for one of them. -/
def blankTk : Tokenizer := { tkOf [(b!"[UNK]", 0), (b!"\t", 1)] with added := some (AddedVocab.init []), normalizer := some (.strip true true) }

/-- Two texts of which normalization leaves nothing can differ: they are used as they are. -/
theorem C111_violated_empty :
    NormalizesTo ascii (.strip true true) w!"\t" [] ∧ NormalizesTo ascii (.strip true true) w!"\n" [] ∧
    (blankTk.encode ascii w!"\t" true).1.map (·.ids) = .ok [1] ∧ (blankTk.encode ascii w!"\n" true).1.map (·.ids) = .ok [0] := by
  have ns : ∀ c, WhiteSpace (c % 256) → NormalizesTo ascii (.strip true true) [c] [] := by
    intro c hc
    exact .strip ⟨[c], [], by simp, by simpa using hc, by simp, by simp, by simp, by simp⟩
  refine ⟨ns 9 ?_, ns 10 ?_, ?_, ?_⟩
  · unfold WhiteSpace; decide
  · unfold WhiteSpace; decide
  · decide +kernel
  · decide +kernel

end Tok
