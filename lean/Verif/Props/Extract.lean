import Verif.Proofs.Extract2
import Verif.Props.Added

set_option autoImplicit false

/-!
Properties C31 and C32: extraction of added tokens.
-/

namespace Tok
open Spec

theorem isToken_mono {a : AddedVocab} {T T' : List (Str × Int)} (h : ∀ p ∈ T, p ∈ T') {s : Split} (hs : IsToken a T s) :
    IsToken a T' s := by
  obtain ⟨i, k, l, r, h1, h2⟩ := hs
  exact ⟨i, k, l, r, h _ h1, h2⟩

/-- The two passes of the extraction. -/
theorem extract_passes (P : Platform) (norm : Option Normalizer) {a : AddedVocab} {w : WStr} {p : PTS}
    (hw : Cuttable a w)
    (hn : ∀ v s, Cuttable a v → normalizeOpt P norm (NS.ofText v) = .ok s → Cuttable a s.normalized)
    (h : (a.extract P norm w).1 = .ok p) :
    ∃ first cuts out groups, (a.firstSplits w).1 = .ok first ∧ (cuts.map (·.1)).flatten = w ∧
      Each (Holds a) cuts first.splits ∧ (∀ s ∈ first.splits, s.tokens = [] ∨ IsToken a a.nonNormTrie s) ∧
      Tiles 0 (first.splits.map (·.offsets)) w.length ∧
      (first.splits.map (·.normalized)).flatten = utf8 w ∧
      out = groups.flatten ∧ Each (Becomes P norm a) cuts groups ∧
      p.splits = (if out = [] then first.splits else out) ∧
      (∃ e, Tiles 0 (out.map (·.offsets)) e ∧ (AsciiSplits out → e = textLen out)) ∧
      (∀ segs x y i, (a.findMatches (utf8 w) a.nonNormTrie).1 = .ok segs → (some i, (x, y)) ∈ segs →
        ∃ L R, cuts = L ++ (part w x y, some i) :: R ∧ (L.map (·.1)).flatten = w.take x) := by
  obtain ⟨first, cuts, h1, h2, h3, h4, h5, h6, h7, h8⟩ := firstSplits_bmp hw
  have ht := firstSplits_touched a w
  unfold AddedVocab.extract at h
  generalize hR : a.firstSplits w = R at h h1 ht
  obtain ⟨r, a'⟩ := R
  simp only at h1 ht
  subst h1
  simp only at h
  have hg := fun ns' out => normalizeLoop_groups P norm h3 hn a' first.normalized ns' 0 out ht
  generalize normalizeLoop P norm a' first.normalized 0 first.splits = R' at h hg
  obtain ⟨r', a''⟩ := R'
  cases r' with
  | error e => cases h
  | ok q =>
    obtain ⟨ns, out⟩ := q
    simp only [Except.ok.injEq] at h
    subst h
    obtain ⟨groups, g1, g2, e, g3, g4⟩ := hg ns out rfl
    exact ⟨first, cuts, out, groups, rfl, h2, h3, h4, h7, h6, g1, g2, rfl, ⟨e, g3, by simpa using g4⟩, h8⟩

/-- **C31** (without normalizer, for texts without code points above U+FFFF) The pieces of the extraction
concatenate to the text; their offsets follow each other from 0 on without gap or overlap, up to the end of the
text if it is ASCII; and a piece that carries a token is an occurrence of the added token with that id. -/
theorem C31_lossless_partial (P : Platform) {a : AddedVocab} {w : WStr} {p : PTS} (hw : Cuttable a w)
    (h : (a.extract P none w).1 = .ok p) :
    Utf8Text w (p.splits.map (·.normalized)).flatten ∧
    (∃ e, Tiles 0 (p.splits.map (·.offsets)) e ∧ (Ascii w → e = w.length)) ∧
    ∀ s ∈ p.splits, s.tokens = [] ∨ IsToken a (a.nonNormTrie ++ a.normTrie) s := by
  obtain ⟨first, cuts, out, groups, h1, h2, h3, h4, h5, h6, rfl, h7, h8, ⟨e, h9, h10⟩, -⟩ :=
    extract_passes P none hw (fun v s hv hs => by cases hs; exact hv) h
  have hs := bmp_scalars hw.1
  have hfirst : ∀ s ∈ first.splits, s.tokens = [] ∨ IsToken a (a.nonNormTrie ++ a.normTrie) s := fun s hs =>
    (h4 s hs).imp id fun x => isToken_mono (fun p hp => List.mem_append_left _ hp) x
  rw [h8]
  by_cases ho : groups.flatten = []
  · rw [if_pos ho]
    exact ⟨utf8Text_iff.2 ⟨hs, h6⟩, ⟨_, h5, fun _ => rfl⟩, hfirst⟩
  · rw [if_neg ho]
    have htext : (groups.flatten.map (·.normalized)).flatten = utf8 (cuts.map (·.1)).flatten := by
      clear h3 h8 h9 h10 h2 ho
      induction h7 with
      | nil => rfl
      | @cons cut g cuts groups hb _ ih =>
        simp only [List.flatten_cons, List.map_append, List.flatten_append, List.map_cons, utf8_append, ih]
        congr 1
        unfold Becomes at hb
        split at hb
        · obtain ⟨s, rfl, hs, _⟩ := hb; simpa using hs
        · obtain ⟨sub, hsub, ht, _⟩ := hb; cases hsub; exact ht
    rw [h2] at htext
    refine ⟨utf8Text_iff.2 ⟨hs, htext⟩, ⟨e, h9, ?_⟩, ?_⟩
    · intro hasc
      rw [h10 ?_]
      · unfold textLen; rw [htext, utf8_ascii hasc]
      · intro s hs b hb
        have : b ∈ utf8 w := by
          rw [← htext]; exact List.mem_flatten.2 ⟨_, List.mem_map.2 ⟨s, hs, rfl⟩, hb⟩
        rw [utf8_ascii hasc] at this
        exact hasc b this
    · intro s hs
      -- tokens of the first pass
      have hgen : ∀ (l : List Split) (cuts : List (WStr × Option Int)) (groups : List (List Split)),
          Each (Holds a) cuts l → Each (Becomes P none a) cuts groups →
          (∀ s ∈ l, s.tokens = [] ∨ IsToken a (a.nonNormTrie ++ a.normTrie) s) →
          ∀ s ∈ groups.flatten, s.tokens = [] ∨ IsToken a (a.nonNormTrie ++ a.normTrie) s := by
        intro l cuts groups hl hg
        induction hl generalizing groups with
        | nil => cases hg; intro _ s hs; cases hs
        | @cons cut s0 cuts l hh _ ih =>
          cases hg with
          | @cons _ g _ groups hb hg =>
            intro hall s hs
            rw [List.flatten_cons] at hs
            rcases List.mem_append.1 hs with hs | hs
            · unfold Becomes at hb
              obtain ⟨q1, q2, q3⟩ := hh
              split at hb
              · rename_i i hi
                obtain ⟨s', rfl, hs1, hs2⟩ := hb
                simp only [List.mem_singleton] at hs
                subst hs
                right
                rw [hi] at q3
                simp only at q3
                rcases hall s0 (by simp) with h | ⟨j, k, l', r, e1, e2, e3, e4, e5, e6, e7⟩
                · rw [h] at q3; cases q3
                · rw [q3] at e7
                  simp only [List.cons.injEq, Token.mk.injEq, and_true] at e7
                  refine ⟨j, k, l', r, e1, by rw [hs1, ← q1]; exact e2, e3, e4, e5, e6, ?_⟩
                  rw [hs2, e7]
              · obtain ⟨sub, _, _, hs'⟩ := hb
                exact (hs' s hs).imp id fun x => isToken_mono (fun p hp => List.mem_append_right _ hp) x
            · exact ih groups hg (fun s hs => hall s (by simp [hs])) s hs
      exact hgen _ _ _ h3 h7 hfirst s hs

theorem extract_normalized (P : Platform) (norm : Option Normalizer) {a : AddedVocab} {w : WStr} {p : PTS}
    (hw : Cuttable a w)
    (hn : ∀ v n, Cuttable a v → normalizeOpt P norm (NS.ofText v) = .ok n → Cuttable a n.normalized)
    (h : (a.extract P norm w).1 = .ok p) :
    ∃ cuts groups, (cuts.map (·.1)).flatten = w ∧ Each (Extracted P norm a) cuts groups ∧
      (groups.flatten ≠ [] → p.splits = groups.flatten ∧ ∃ e, Tiles 0 (p.splits.map (·.offsets)) e) ∧
      (∀ segs x y i, (a.findMatches (utf8 w) a.nonNormTrie).1 = .ok segs → (some i, (x, y)) ∈ segs →
        ∃ L R, cuts = L ++ (part w x y, some i) :: R ∧ (L.map (·.1)).flatten = w.take x) := by
  obtain ⟨first, cuts, out, groups, h1, h2, h3, h4, h5, h6, rfl, h7, h8, ⟨e, h9, h10⟩, h11⟩ := extract_passes P norm hw hn h
  refine ⟨cuts, groups, h2, ?_, ?_, h11⟩
  · clear h1 h2 h5 h6 h8 h9 h10 h11
    generalize first.splits = l at h3 h4
    induction h3 generalizing groups with
    | nil => cases h7; exact .nil
    | @cons cut s0 cuts l hh _ ih =>
      cases h7 with
      | @cons _ g _ groups hb hg =>
        refine .cons ?_ (ih groups hg fun s hs => h4 s (by simp [hs]))
        obtain ⟨q1, q2, q3⟩ := hh
        unfold Becomes at hb
        unfold Extracted
        split at hb
        · rename_i i hi
          rw [hi]
          obtain ⟨s', rfl, hs1, hs2⟩ := hb
          refine ⟨s', rfl, utf8Text_iff.2 ⟨bmp_scalars q2.1, hs1⟩, ?_, by rw [hs2]; rfl⟩
          rw [hi] at q3
          simp only at q3
          rcases h4 s0 (by simp) with h | ⟨j, k, l', r, e1, e2, e3, e4, e5, e6, e7⟩
          · rw [h] at q3; cases q3
          · rw [q3] at e7
            simp only [List.cons.injEq, Token.mk.injEq, and_true] at e7
            refine ⟨j, k, l', r, e1, by rw [hs1, ← q1]; exact e2, e3, e4, e5, e6, ?_⟩
            rw [hs2, e7]
        · rename_i hi
          rw [hi]
          obtain ⟨sub, hsub, ht, hs'⟩ := hb
          exact ⟨sub, hsub, utf8Text_iff.2 ⟨bmp_scalars (hn _ _ q2 hsub).1, ht⟩, hs'⟩
  · intro hne
    rw [if_neg hne] at h8
    exact ⟨h8, e, h8 ▸ h9⟩


/-- **C31** (with any normalizer that keeps to such texts) The text is cut into pieces that concatenate to it; the
pieces that are added tokens are kept, the others are normalized and their normalized text is cut into pieces that
concatenate to it.  The offsets of the result follow each other from 0 on. -/
theorem C31_normalized_partial (P : Platform) (norm : Option Normalizer) {a : AddedVocab} {w : WStr} {p : PTS}
    (hw : Cuttable a w)
    (hn : ∀ v n, Cuttable a v → normalizeOpt P norm (NS.ofText v) = .ok n → Cuttable a n.normalized)
    (h : (a.extract P norm w).1 = .ok p) :
    ∃ cuts groups, (cuts.map (·.1)).flatten = w ∧ Each (Extracted P norm a) cuts groups ∧
      (groups.flatten ≠ [] → p.splits = groups.flatten ∧ ∃ e, Tiles 0 (p.splits.map (·.offsets)) e) := by
  obtain ⟨cuts, groups, h1, h2, h3, _⟩ := extract_normalized P norm hw hn h
  exact ⟨cuts, groups, h1, h2, h3⟩

/-- The added vocabulary after adding tokens to an empty one. -/
def addedOf (v : Vocab) (l : List AddedToken) : AddedVocab :=
  match (AddedVocab.init []).addTokens (some v) l with
  | .ok (_, a) => a
  | .error _ => AddedVocab.init []

/-- The texts and tokens of the splits of the extraction without normalizer. -/
def extracted (a : AddedVocab) (w : WStr) : Res (List (Str × (Nat × Nat) × List Int)) := do
  let p ← (a.extract ascii none w).1
  return p.splits.map fun s => (s.normalized, s.offsets, s.tokens.map (·.id))

/-- A vocabulary with some special-looking entries. -/
def tagVocab : Vocab := [(b!"<s>", 0), (b!"A", 1), (b!"\tB", 2), (b!"hi", 3)]

def tagAdded : AddedVocab := addedOf tagVocab [{ content := b!"<s>", special := true }, { content := b!"A", rstrip := true, normalized := false }]

/-- Hypotheses and a non-trivial outcome of C31. -/
example : Cuttable tagAdded w!"hi <s>A  x" := by
  refine ⟨?_, .inr ⟨?_, ?_⟩⟩
  · unfold Bmp Scalar; decide
  · unfold Ascii; decide
  · unfold BlankByte; decide +kernel
example : extracted tagAdded w!"hi <s>A  x <s>" = .ok [(b!"hi ", (0, 3), []), (b!"<s>", (3, 6), [0]),
    (b!"A  x ", (6, 11), []), (b!"<s>", (11, 14), [0])] := by decide +kernel
example : extracted tagAdded w!"hi A  x <s>" = .ok [(b!"hi ", (0, 3), []), (b!"A  ", (3, 6), [1]),
    (b!"x ", (6, 8), []), (b!"<s>", (8, 11), [0])] := by decide +kernel

/-- **C31** is false for code points above U+FFFF: positions in UTF-16 units are used to cut the code points, so
that the piece taken for the token starts one character too late: `s> ` gets the id of `<s>`. -/
theorem C31_violated_supplementary :
    extracted tagAdded w!"😀 <s> hi" = .ok [(b!"😀 <", (0, 3), []), (b!"s> ", (3, 6), [0]), (b!"hi", (6, 9), [])] := by
  decide +kernel

/-- **C31** is false for a stripping token followed by a token that starts with a blank: the pieces
overlap. -/
theorem C31_violated_overlap :
    extracted (addedOf tagVocab [{ content := b!"A", rstrip := true }, { content := b!"\tB" }]) w!"A\tB"
      = .ok [(b!"A\t", (0, 2), [1]), (b!"\tB", (1, 3), [2])] := by
  decide +kernel

/-- **C31** is false for a stripping token in a text that is not ASCII: byte positions are mixed with character
positions, the piece extends beyond the text and the call throws. -/
theorem C31_violated_throws :
    extracted (addedOf tagVocab [{ content := b!"A", rstrip := true }]) w!"éé  A" = .error (.throws .outOfRange) := by
  decide +kernel

/-- **C32** (what holds) An added token `k` that is in the table matched before normalization is recognized where it
starts the text or follows a space, provided no other entry is a prefix of it, it contains no space and has no flags
set: the piece `k` of the text becomes one split with the id of the token. -/
theorem C32_word_start_partial (P : Platform) (norm : Option Normalizer) {a : AddedVocab} {A k B : WStr} {p : PTS}
    {bytes : Str} {i : Int} (hw : Cuttable a (A ++ k ++ B))
    (hn : ∀ v n, Cuttable a v → normalizeOpt P norm (NS.ofText v) = .ok n → Cuttable a n.normalized)
    (hA : A = [] ∨ A.getLast? = some 0x20) (hk : k ≠ []) (hsp : ∀ c ∈ k, c ≠ 0x20)
    (hbytes : Utf8Text k bytes) (hin : (bytes, i) ∈ a.nonNormTrie) (hu : ∀ j, (bytes, j) ∈ a.nonNormTrie → j = i)
    (hpre : ∀ q j, (q, j) ∈ a.nonNormTrie → q <+: bytes → q = bytes)
    (hflag : ∀ t, mapFind a.mapR i = some t → t.singleWord = false ∧ t.lstrip = false ∧ t.rstrip = false)
    (h : (a.extract P norm (A ++ k ++ B)).1 = .ok p) :
    ∃ L R before after s, (L.map (·.1)).flatten = A ∧ (R.map (·.1)).flatten = B ∧
      Each (Extracted P norm a) L before ∧ Each (Extracted P norm a) R after ∧
      p.splits = before.flatten ++ s :: after.flatten ∧
      s.normalized = bytes ∧ s.tokens = [{ id := i, value := bytes, offsets := (0, bytes.length) }] := by
  obtain ⟨-, rfl⟩ := utf8Text_iff.1 hbytes
  obtain ⟨cuts, groups, h1, h2, h3, h4⟩ := extract_normalized P norm hw hn h
  obtain ⟨segs, f1, -, -⟩ := findMatches_bmp (T := a.nonNormTrie) hw fun p hp => List.mem_append_left _ hp
  have hflag' : ((mapFind a.mapR i).getD {}).singleWord = false ∧ ((mapFind a.mapR i).getD {}).lstrip = false ∧
      ((mapFind a.mapR i).getD {}).rstrip = false := by
    cases hf : mapFind a.mapR i with
    | none => exact ⟨rfl, rfl, rfl⟩
    | some t => exact hflag t hf
  have hseg := find_word hw.1 hA hk hsp hin hu hpre hflag' f1
  obtain ⟨L, R, hc, hL⟩ := h4 segs _ _ _ f1 hseg
  have hpk : part (A ++ k ++ B) A.length (A.length + k.length) = k := by
    unfold part
    rw [List.append_assoc, List.drop_left, Nat.add_sub_cancel_left, List.take_left]
  have hLA : (A ++ k ++ B).take A.length = A := by rw [List.append_assoc, List.take_left]
  rw [hpk] at hc
  rw [hLA] at hL
  subst hc
  -- split the groups
  have hsplit : ∀ (L : List (WStr × Option Int)) (groups : List (List Split)),
      Each (Extracted P norm a) (L ++ (k, some i) :: R) groups →
      ∃ before g after, groups = before ++ g :: after ∧ Each (Extracted P norm a) L before ∧
        Extracted P norm a (k, some i) g ∧ Each (Extracted P norm a) R after := by
    intro L
    induction L with
    | nil => intro groups h; cases h with | cons h1 h2 => exact ⟨[], _, _, rfl, .nil, h1, h2⟩
    | cons c L ih =>
      intro groups h
      cases h with
      | cons h1 h2 =>
        obtain ⟨b, g, af, rfl, e1, e2, e3⟩ := ih _ h2
        exact ⟨_ :: b, g, af, rfl, .cons h1 e1, e2, e3⟩
  obtain ⟨before, g, after, rfl, e1, ⟨s, rfl, e2, e3, e4⟩, e5⟩ := hsplit L groups h2
  have hbk := (utf8Text_iff.1 e2).2
  have hne : (before ++ [s] :: after).flatten ≠ [] := by simp
  refine ⟨L, R, before, after, s, hL, ?_, e1, e5, ?_, hbk, ?_⟩
  · simp only [List.map_append, List.map_cons, List.flatten_append, List.flatten_cons, hL] at h1
    rw [List.append_assoc] at h1
    exact List.append_cancel_left (List.append_cancel_left h1)
  · rw [(h3 hne).1]; simp
  · obtain ⟨j, _, _, _, _, _, _, _, _, _, e⟩ := e3
    rw [e] at e4 ⊢
    simp only [List.map_cons, List.map_nil, List.cons.injEq, and_true] at e4
    rw [e4, hbk]

/-- The hypotheses of `C32_word_start_partial` are met by a concrete case. -/
example : extracted tagAdded w!"hi A" = .ok [(b!"hi ", (0, 3), []), (b!"A", (3, 4), [1])] := by decide +kernel

/-- The ids of a text after adding tokens, for a tokenizer. -/
def idsAfter (t : Tokenizer) (l : List AddedToken) (w : WStr) : Res (List Int) := do
  let (_, t) ← t.addTokens l
  return (← (t.encode ascii w false).1).ids

/-- A tokenizer over a small word-piece vocabulary. -/
def smallTk : Tokenizer := tkOf [(b!"[UNK]", 0), (b!"x", 1), (b!"<s>", 2)]

/-- A tokenizer over a small byte-pair vocabulary without merges. -/
def smallBpeTk : Tokenizer :=
  { tkOf [] with model := some (.bpe { vocab := [(b!"<unk>", 0), (b!"x", 1), (b!"<", 2), (b!"s", 3), (b!">", 4), (b!"<s>", 5)], merges := [], dropout := { on := false, draw := fun _ => false }, unkToken := b!"<unk>", pre := [], suf := [], fuseUnk := false, byteFallback := false, ignoreMerges := false }) }

/-- **C32** is false in three ways: a token that is not in the model's vocabulary is not recognized (although it is
given an id, 3); a token is not recognized inside a word, as a word of the model is; and the byte-pair model splits a
recognized token again. -/
theorem C32_violated :
    idsAfter smallTk (plain [b!"new"]) w!"new" = .ok [0] ∧
    recordedAfter smallTk [plain [b!"new"]] [b!"new"] = .ok [some 3] ∧
    idsAfter smallTk (plain [b!"<s>"]) w!"<s>x" = .ok [2, 1] ∧
    idsAfter smallTk (plain [b!"<s>"]) w!"x<s>" = .ok [0] ∧
    idsAfter smallBpeTk (plain [b!"<s>"]) w!"<s>" = .ok [2, 3, 4] := by
  decide +kernel

end Tok
