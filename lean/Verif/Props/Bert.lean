import Verif.Props.Split
import Verif.Spec.Bert

set_option autoImplicit false

/-!
C09: the BERT pre-tokenizer.
-/

namespace Tok
open Spec

/-! ### Properties of the specification -/

theorem flush_text (start : Nat) (cur : WStr) : ((flush start cur).map (·.2)).flatten = cur := by
  unfold flush; split <;> simp_all

theorem wsWords_text (space : Nat → Bool) (w : WStr) : ∀ (start : Nat) (cur : WStr),
    (∀ c ∈ cur, space c = false) →
    ((wsWords space start cur w).map (·.2)).flatten = cur ++ w.filter (fun c => !space c) := by
  induction w with
  | nil => intro s cur _; simp [wsWords, flush_text]
  | cons c r ih =>
    intro s cur hc
    simp only [wsWords]
    split
    · rename_i h
      simp [flush_text, ih _ [] (by simp), h]
    · rename_i h
      rw [ih s (cur ++ [c]) (by intro d hd; simp at hd; rcases hd with hd | rfl; exact hc d hd; simpa using h)]
      simp [h]

theorem flush_mem {start : Nat} {cur : WStr} {x : Nat × WStr} (h : x ∈ flush start cur) :
    x = (start, cur) ∧ cur ≠ [] := by
  unfold flush at h; split at h
  · simp at h
  · rename_i hne; simp at h; exact ⟨h, hne⟩

theorem wsWords_mem (space : Nat → Bool) (w : WStr) : ∀ (start : Nat) (cur l : WStr),
    (∀ c ∈ cur, space c = false) → start = units l →
    ∀ x ∈ wsWords space start cur w, x.2 ≠ [] ∧ (∀ c ∈ x.2, space c = false) ∧
      PartOf (l ++ cur ++ w) x.1 (x.1 + units x.2) x.2 := by
  induction w with
  | nil =>
    intro s cur l hc hs x hx
    obtain ⟨rfl, hne⟩ := flush_mem hx
    exact ⟨hne, hc, l, [], by simp, hs, by simp [hs]⟩
  | cons c r ih =>
    intro s cur l hc hs x hx
    simp only [wsWords] at hx
    split at hx
    · simp only [List.mem_append] at hx
      rcases hx with hx | hx
      · obtain ⟨rfl, hne⟩ := flush_mem hx
        exact ⟨hne, hc, l, c :: r, rfl, hs, by simp [hs]⟩
      · have := ih (s + units cur + units [c]) [] (l ++ cur ++ [c]) (by simp)
          (by simp [units_append, hs, Nat.add_assoc]) x hx
        simpa using this
    · rename_i h
      have := ih s (cur ++ [c]) l
        (by intro d hd; simp at hd; rcases hd with hd | rfl; exact hc d hd; simpa using h) hs x hx
      simpa using this

theorem punctWords_text (punct : Nat → Bool) (w : WStr) : ∀ (start : Nat) (cur : WStr),
    ((punctWords punct start cur w).map (·.2)).flatten = cur ++ w := by
  induction w with
  | nil => intro s cur; simp [punctWords, flush_text]
  | cons c r ih =>
    intro s cur
    simp only [punctWords]
    split <;> simp [flush_text, ih]

theorem punctWords_mem (punct : Nat → Bool) (w : WStr) : ∀ (start : Nat) (cur l : WStr),
    (∀ c ∈ cur, punct c = false) → start = units l →
    ∀ x ∈ punctWords punct start cur w, x.2 ≠ [] ∧
      ((∀ c ∈ x.2, punct c = false) ∨ ∃ c, x.2 = [c] ∧ punct c = true) ∧
      PartOf (l ++ cur ++ w) x.1 (x.1 + units x.2) x.2 := by
  induction w with
  | nil =>
    intro s cur l hc hs x hx
    obtain ⟨rfl, hne⟩ := flush_mem hx
    exact ⟨hne, .inl hc, l, [], by simp, hs, by simp [hs]⟩
  | cons c r ih =>
    intro s cur l hc hs x hx
    simp only [punctWords] at hx
    split at hx
    · rename_i h
      simp only [List.mem_append, List.mem_cons] at hx
      rcases hx with hx | rfl | hx
      · obtain ⟨rfl, hne⟩ := flush_mem hx
        exact ⟨hne, .inl hc, l, c :: r, rfl, hs, by simp [hs]⟩
      · exact ⟨by simp, .inr ⟨c, rfl, h⟩, l ++ cur, r, by simp, by simp [units_append, hs],
          by simp [units_append, hs]⟩
      · have := ih (s + units cur + units [c]) [] (l ++ cur ++ [c]) (by simp)
          (by simp [units_append, hs, Nat.add_assoc]) x hx
        simpa using this
    · rename_i h
      have := ih s (cur ++ [c]) l
        (by intro d hd; simp at hd; rcases hd with hd | rfl; exact hc d hd; simpa using h) hs x hx
      simpa using this

/-! ### The model follows the specification -/

theorem flush_ranges (start : Nat) (cur : WStr) :
    (flush start cur).map (fun x => (x.1, x.1 + units x.2)) =
      if start ≠ start + units cur then [(start, start + units cur)] else [] := by
  unfold flush
  by_cases h : cur = []
  · simp [h, units]
  · have := units_pos h
    have h2 : start ≠ start + units cur := by omega
    rw [if_neg h, if_pos h2]; rfl

theorem gapsOf_spaceRuns (P : Platform) (len : Nat) (w : WStr) : ∀ (start : Nat) (cur : WStr),
    start + units cur + units w = len →
    gapsOf len start (spaceRuns P (start + units cur) w) =
      (wsWords P.reSpace start cur w).map fun x => (x.1, x.1 + units x.2) := by
  induction w with
  | nil =>
    intro s cur hl
    simp only [units] at hl
    simp only [spaceRuns, gapsOf_nil, wsWords, flush_ranges]
    by_cases h : units cur = 0
    · have : ¬ s < len := by omega
      simp [h, this]
    · have : s < len := by omega
      have h2 : s ≠ s + units cur := by omega
      simp only [this, h2, if_true, ne_eq, not_false_eq_true]
      rw [← hl]; simp
  | cons c r ih =>
    intro s cur hl
    have hl' : s + units cur + units [c] + units r = len := by
      rw [← hl]; simp only [units]; omega
    simp only [wsWords, spaceRuns, unitLen_eq]
    split
    · have hrec := ih (s + units cur + units [c]) [] (by simpa [units] using hl')
      simp only [units_eq_zero.2, Nat.add_zero] at hrec
      rw [List.map_append, flush_ranges, ← hrec]
      split
      · rename_i h; rw [gapsOf_cons, h]
      · rename_i a b rest h
        split
        · rename_i hs
          rw [h, gapsOf_cons, gapsOf_cons, hs]; simp
        · rw [gapsOf_cons, h]
    · have := ih s (cur ++ [c]) (by rw [units_append]; omega)
      rw [units_append, ← Nat.add_assoc] at this
      exact this

theorem segments_punct (P : Platform) (len : Nat) (w : WStr) : ∀ (start : Nat) (cur : WStr),
    start + units cur + units w = len →
    (segments len start (punctMatches P (start + units cur) w)).map (·.1) =
      (punctWords P.rePunct start cur w).map fun x => (x.1, x.1 + units x.2) := by
  induction w with
  | nil =>
    intro s cur hl
    simp only [units] at hl
    simp only [punctMatches, segments, punctWords, flush_ranges]
    by_cases h : units cur = 0
    · have : ¬ s < len := by omega
      simp [h, this]
    · have : s < len := by omega
      have h2 : s ≠ s + units cur := by omega
      simp only [this, h2, if_true, ne_eq, not_false_eq_true]
      rw [← hl]; simp
  | cons c r ih =>
    intro s cur hl
    have hl' : s + units cur + units [c] + units r = len := by
      rw [← hl]; simp only [units]; omega
    simp only [punctWords, punctMatches, unitLen_eq]
    split
    · have hrec := ih (s + units cur + units [c]) [] (by simpa [units] using hl')
      simp only [units_eq_zero.2, Nat.add_zero] at hrec
      rw [List.map_append, flush_ranges, segments, List.map_append, List.map_cons, List.map_cons, hrec]
      split <;> rfl
    · have := ih s (cur ++ [c]) (by rw [units_append]; omega)
      rw [units_append, ← Nat.add_assoc] at this
      exact this

/-- The splits for words of a text. -/
def wordSplits (base : Nat) (ws : List (Nat × WStr)) : List Split :=
  ws.map fun x => { normalized := utf8 x.2, offsets := (x.1 + base, x.1 + units x.2 + base) }

theorem splitNormalized_words {s : Split} {w : WStr} (hw : Scalars w) (hs : s.normalized = utf8 w)
    {fn : U16 → Res (List Seg)} {segs : List Seg} (hfn : fn (utf16 w) = .ok segs) (b : Behavior)
    {ws : List (Nat × WStr)} (hpart : ∀ x ∈ ws, PartOf w x.1 (x.1 + units x.2) x.2)
    (hr : (match b with
      | .removed => (segs.filter fun m => !m.2).map (·.1)
      | .isolated => segs.map (·.1)) = ws.map fun x => (x.1, x.1 + units x.2)) :
    splitNormalized s fn b = .ok (wordSplits s.offsets.1 ws) := by
  let mk : Nat × Nat → Split := fun m =>
    { normalized := toUTF8String (tempSubStringBetween (utf16 w) m.1 m.2)
      offsets := (m.1 + s.offsets.1, m.2 + s.offsets.1) }
  have hmk : (ws.map fun x => (x.1, x.1 + units x.2)).map mk = wordSplits s.offsets.1 ws := by
    rw [List.map_map]
    unfold wordSplits
    apply List.map_congr_left
    intro x hx
    obtain ⟨l, r, e, e1, e2⟩ := hpart x hx
    have hv : Scalars x.2 := hw.sub (by intro c hc; rw [e]; simp [hc])
    simp only [Function.comp, mk]
    have := tempSub_utf16 l x.2 r
    rw [← e, ← e1] at this
    rw [this, toUTF8String_utf16 hv]
  rw [← hmk, ← hr]
  unfold splitNormalized
  simp only [hs, fromUTF8_utf8 hw, hfn, res_ok_bind, res_pure]
  cases b with
  | removed => simp only [List.map_map]; rfl
  | isolated =>
    simp only [List.map_map, List.filter_map]
    congr 1
    rw [List.filter_eq_self.2 (by simp)]
    rfl

theorem splitNormalized_space (P : Platform) {s : Split} {w : WStr} (hw : Scalars w)
    (hs : s.normalized = utf8 w) :
    splitNormalized s (isWhitespaceSegs P) .removed = .ok (wordSplits s.offsets.1 (wsWords P.reSpace 0 [] w)) := by
  refine splitNormalized_words hw hs (by rfl) .removed ?_ ?_
  · intro x hx
    have := (wsWords_mem P.reSpace w 0 [] [] (by simp) rfl x hx).2.2
    simpa using this
  · rw [u16Points_utf16 hw, ← units_eq]
    exact gapsOf_spaceRuns P (units w) w 0 [] (by simp [units])

theorem splitNormalized_punct (P : Platform) {s : Split} {w : WStr} (hw : Scalars w)
    (hs : s.normalized = utf8 w) :
    splitNormalized s (isBertPuncSegs P) .isolated = .ok (wordSplits s.offsets.1 (punctWords P.rePunct 0 [] w)) := by
  refine splitNormalized_words hw hs (by rfl) .isolated ?_ ?_
  · intro x hx
    have := (punctWords_mem P.rePunct w 0 [] [] (by simp) rfl x hx).2.2
    simpa using this
  · rw [u16Points_utf16 hw, ← units_eq]
    exact segments_punct P (units w) w 0 [] (by simp [units])

theorem splitLoop_append {fn : U16 → Res (List Seg)} {b : Behavior} {l m l' m' : List Split}
    (h1 : splitLoop fn b l = .ok l') (h2 : splitLoop fn b m = .ok m') :
    splitLoop fn b (l ++ m) = .ok (l' ++ m') := by
  induction l generalizing l' with
  | nil => simp [splitLoop] at h1; subst h1; simpa using h2
  | cons s r ih =>
    simp only [splitLoop, res_ite_bind] at h1
    obtain ⟨here, e1, h1⟩ := res_bind_ok.1 h1
    obtain ⟨rest, e2, h1⟩ := res_bind_ok.1 h1
    simp at h1; subst h1
    rw [List.cons_append, splitLoop]
    simp only [ih e2, res_ok_bind, res_pure, ← List.append_assoc]
    by_cases h : s.tokens.length = 0
    · simp only [h, ne_eq, not_true_eq_false, if_false] at e1 ⊢
      simp only [e1, res_ok_bind]
    · simp only [h, ne_eq, not_false_eq_true, if_true] at e1 ⊢
      cases e1; rfl

/-- The punctuation pass over the words of one split. -/
theorem splitLoop_punct (P : Platform) (base : Nat) (ws : List (Nat × WStr))
    (hws : ∀ x ∈ ws, Scalars x.2) :
    splitLoop (isBertPuncSegs P) .isolated (wordSplits base ws) = .ok (wordSplits base
      (ws.flatMap fun (a, x) => (punctWords P.rePunct 0 [] x).map fun (b, y) => (a + b, y))) := by
  induction ws with
  | nil => rfl
  | cons x ws ih =>
    obtain ⟨a, x⟩ := x
    have h1 := ih (fun y hy => hws y (by simp [hy]))
    have h2 := splitNormalized_punct P (s := { normalized := utf8 x, offsets := (a + base, a + units x + base) })
      (hws (a, x) (by simp)) rfl
    show splitLoop _ _ (_ :: wordSplits base ws) = _
    simp only [splitLoop, h1, h2]
    simp only [List.length_nil, ne_eq, not_true_eq_false, if_false, res_ok_bind, res_pure,
      List.flatMap_cons, Except.ok.injEq]
    simp only [wordSplits, List.map_append, List.map_map]
    congr 1
    apply List.map_congr_left
    intro y _
    simp only [Function.comp, Split.mk.injEq, Prod.mk.injEq, and_true, true_and]
    omega

/-- **C09** The BERT pre-tokenizer never fails, keeps splits that carry tokens, and cuts
every other split into exactly the pieces of the specification. -/
theorem C09_bert_pieces (P : Platform) (p : PTS) (htext : ∀ s ∈ p.splits, ∃ w, HasText s w) :
    ∃ p' parts, PreTokenizer.bert.run P p = .ok p' ∧ p'.normalized = p.normalized ∧
      p'.splits = parts.flatten ∧ Each (BertSplit P.reSpace P.rePunct) p.splits parts := by
  have key : ∀ l : List Split, (∀ s ∈ l, ∃ w, HasText s w) → ∃ mid parts,
      splitLoop (isWhitespaceSegs P) .removed l = .ok mid ∧
      splitLoop (isBertPuncSegs P) .isolated mid = .ok parts.flatten ∧
      Each (BertSplit P.reSpace P.rePunct) l parts := by
    intro l
    induction l with
    | nil => intro _; exact ⟨[], [], rfl, rfl, .nil⟩
    | cons s r ih =>
      intro h
      obtain ⟨mid, parts, h1, h2, h3⟩ := ih (fun s hs => h s (by simp [hs]))
      by_cases ht : s.tokens = []
      · obtain ⟨w, hw⟩ := h s (by simp)
        obtain ⟨hsc, hn⟩ := utf8Text_iff.1 hw
        have e1 := splitNormalized_space P hsc hn
        have hmem : ∀ x ∈ wsWords P.reSpace 0 [] w, Scalars x.2 := by
          intro x hx
          obtain ⟨l, r, e, _, _⟩ := (wsWords_mem P.reSpace w 0 [] [] (by simp) rfl x hx).2.2
          simp at e
          exact hsc.sub (by intro c hc; rw [e]; simp [hc])
        have e2 := splitLoop_punct P s.offsets.1 _ hmem
        refine ⟨wordSplits s.offsets.1 (wsWords P.reSpace 0 [] w) ++ mid,
          wordSplits s.offsets.1 (bertPieces P.reSpace P.rePunct w) :: parts, ?_, ?_,
          .cons (.inr ⟨ht, w, hw, ?_⟩) h3⟩
        · simp [splitLoop, ht, e1, h1]
        · exact splitLoop_append e2 h2
        · have hsc2 : ∀ x ∈ bertPieces P.reSpace P.rePunct w, Scalars x.2 := by
            intro x hx
            simp only [bertPieces, List.mem_flatMap, List.mem_map] at hx
            obtain ⟨⟨a, v⟩, hv, ⟨b, y⟩, hy, rfl⟩ := hx
            obtain ⟨l, r, e, _, _⟩ := (punctWords_mem P.rePunct v 0 [] [] (by simp) rfl _ hy).2.2
            simp at e
            exact (hmem _ hv).sub (by intro c hc; simp only at hc ⊢; rw [e]; simp [hc])
          clear e2 hmem e1
          unfold wordSplits
          revert hsc2
          generalize bertPieces P.reSpace P.rePunct w = ws
          intro hsc2
          induction ws with
          | nil => exact .nil
          | cons x ws ihw =>
            refine .cons ⟨rfl, utf8Text_iff.2 ⟨hsc2 x (by simp), rfl⟩, ?_⟩
              (ihw fun y hy => hsc2 y (by simp [hy]))
            simp only [Prod.mk.injEq]; omega
      · exact ⟨s :: mid, [s] :: parts, by simp [splitLoop, ht, h1], by simp [splitLoop, ht, h2],
          .cons (.inl ⟨ht, rfl⟩) h3⟩
  obtain ⟨mid, parts, h1, h2, h3⟩ := key p.splits htext
  exact ⟨{ p with splits := parts.flatten }, parts,
    by simp [PreTokenizer.run, bertPreTokenize, PTS.split, h1, h2], rfl, rfl, h3⟩

/-- **C09** What the pieces of the specification are: non-empty, free of white space,
either free of punctuation or one punctuation character, found in the text at their
position; and together they are the text without its white space. -/
theorem C09_pieces_postcondition (space punct : Nat → Bool) (w : WStr) :
    (∀ x ∈ bertPieces space punct w, x.2 ≠ [] ∧ (∀ c ∈ x.2, space c = false) ∧
      ((∀ c ∈ x.2, punct c = false) ∨ ∃ c, x.2 = [c] ∧ punct c = true) ∧
      PartOf w x.1 (x.1 + units x.2) x.2) ∧
    ((bertPieces space punct w).map (·.2)).flatten = w.filter (fun c => !space c) := by
  constructor
  · intro x hx
    simp only [bertPieces, List.mem_flatMap, List.mem_map] at hx
    obtain ⟨⟨a, v⟩, hv, ⟨b, y⟩, hy, rfl⟩ := hx
    obtain ⟨_, hsp, l1, r1, e1, ea, _⟩ := wsWords_mem space w 0 [] [] (by simp) rfl _ hv
    obtain ⟨hne, hp, l2, r2, e2, eb, _⟩ := punctWords_mem punct v 0 [] [] (by simp) rfl _ hy
    simp only [List.nil_append] at e1 e2 ea eb hsp
    refine ⟨hne, ?_, hp, l1 ++ l2, r2 ++ r1, ?_, ?_, ?_⟩
    · intro c hc; exact hsp c (by rw [e2]; simp only at hc; simp [hc])
    · rw [e1, e2]; simp
    · simp [units_append, ea, eb]
    · simp [units_append, ea, eb]
  · have := wsWords_text space w 0 [] (by simp)
    simp only [List.nil_append] at this
    rw [← this]
    simp only [bertPieces, List.map_flatMap, List.map_map]
    generalize wsWords space 0 [] w = ws
    induction ws with
    | nil => rfl
    | cons x ws ih =>
      simp only [List.flatMap_cons, List.flatten_append, ih, List.map_cons, List.flatten_cons]
      congr 1
      have := punctWords_text punct x.2 0 []
      simpa [Function.comp_def] using this

example := C09_bert_pieces ascii samplePTS samplePTS_text
example : bertPieces asciiSpace asciiPunct w!"Hey, 😀 you!" =
    [(0, w!"Hey"), (3, w!","), (5, w!"😀"), (8, w!"you"), (11, w!"!")] := by decide

end Tok
