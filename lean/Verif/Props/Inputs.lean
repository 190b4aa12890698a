import Verif.Proofs.Encoding
import Verif.Proofs.History
import Verif.Props.Encoding
import Verif.Props.Unicode
import Verif.Props.PreTokenizer

set_option autoImplicit false

/-!
# Unusual inputs: the empty text (C53), Java strings (C57), the normalizer (C63)
-/

namespace Tok
open Spec

/-! ### The empty text -/

theorem ofText_nil : NS.ofText [] = { normalized := [], offsets := [], ranges := [] } := by decide

theorem ofNS_nil : PTS.ofNS (NS.ofText []) =
    .ok { normalized := NS.ofText [], splits := [{ normalized := [], offsets := (0, 0) }] } := by decide

theorem findMatches_nil (a : AddedVocab) (T : List (Str × Int)) : (a.findMatches [] T).1 = .ok [] ∧ (a.findMatches [] T).2 = a := by
  constructor <;> simp [AddedVocab.findMatches, fromUTF8, utf8LossyFuel, utf16, scan, matchSegs, touchIds]

theorem firstSplits_nil (a : AddedVocab) : a.firstSplits [] =
    (.ok { normalized := NS.ofText [], splits := [{ normalized := [], offsets := (0, 0) }] }, a) := by
  unfold AddedVocab.firstSplits
  rw [ofNS_nil]
  have h := findMatches_nil a a.nonNormTrie
  simp only [convertToString, h.1, h.2, res_ok_bind, segSplits, res_pure, if_pos]

theorem extract_nil (P : Platform) (norm : Option Normalizer) (a : AddedVocab) :
    ∃ e, (a.extract P norm []).1 = .error e ∧
      ((∃ s, normalizeOpt P norm (NS.ofText []) = .ok s) → e = .ub .outOfBounds) ∧
      (∀ e', normalizeOpt P norm (NS.ofText []) = .error e' → e = e') := by
  unfold AddedVocab.extract
  rw [firstSplits_nil]
  simp only [normalizeLoop]
  have hc : convertFromString [] = .ok [] := by decide
  cases hN : normalizeOpt P norm (NS.ofText []) with
  | error e =>
    refine ⟨e, ?_, fun ⟨s, h⟩ => (by cases h), fun e' h => by cases h; rfl⟩
    simp [normalizeSplit, hc, hN]
  | ok s =>
    refine ⟨.ub .outOfBounds, ?_, fun _ => rfl, fun e' h => by cases h⟩
    simp only [normalizeSplit, hc, hN, res_ok_bind]
    simp [NS.transformRange, ofText_nil, vecAt]

/-- **C53 refuted for every tokenizer that has an added vocabulary** (that is, whose configuration lists
`added_tokens`, even an empty list): encoding the empty text never returns.  Unless the normalizer itself fails first,
the call reads the first entry of an empty vector. -/
theorem C53_violated (P : Platform) (t : Tokenizer) (b : Bool) (a : AddedVocab) (ha : t.added = some a) :
    ∃ e, (t.encode P [] b).1 = .error e ∧
      (t.normalizer = none → e = .ub .outOfBounds) ∧
      (∀ n s, t.normalizer = some n → n.run P (NS.ofText []) = .ok s → e = .ub .outOfBounds) := by
  obtain ⟨e, h1, h2, _⟩ := extract_nil P t.normalizer a
  refine ⟨e, ?_, fun h => h2 ⟨_, by rw [h]; rfl⟩, fun n s hn hs => h2 ⟨s, by rw [hn]; exact hs⟩⟩
  unfold Tokenizer.encode Tokenizer.preTokenized
  rw [ofNS_nil, ha]
  simp only [h1, res_error_bind]

-- a WordPiece tokenizer whose configuration lists no added token and has no normalizer
example : (({ tkOf [(b!"[UNK]", 0)] with added := some (AddedVocab.init []) } : Tokenizer).encode ascii [] true).1.map (·.ids)
    = .error (.ub .outOfBounds) := by decide +kernel

mutual
/-- A pre-tokenizer leaves the (empty) offset table of an empty text alone. -/
theorem run_empty (P : Platform) : ∀ (pt : PreTokenizer) (p q : PTS), p.normalized = NS.ofText [] → pt.run P p = .ok q →
    q.normalized = NS.ofText []
  | .bert, p, q, hp, h => by
    simp only [PreTokenizer.run, bertPreTokenize, PTS.split, res_pure, res_bind_ok] at h
    obtain ⟨_, ⟨_, _, h1⟩, ⟨_, _, h2⟩⟩ := h
    cases h1; cases h2; exact hp
  | .split pat b i, p, q, hp, h => by
    simp only [PreTokenizer.run, splitPreTokenize, PTS.split, res_pure, res_bind_ok] at h
    obtain ⟨_, _, h2⟩ := h
    cases h2; exact hp
  | .byteLevel a u, p, q, hp, h => by
    simp only [PreTokenizer.run, byteLevelPreTokenize, hp, ofText_nil] at h
    cases a
    · simp only [Bool.false_eq_true, if_false, res_ok_bind] at h
      obtain ⟨p2, h2, h⟩ := res_bind_ok.1 h
      obtain ⟨p3, h3, h⟩ := res_bind_ok.1 h
      cases h
      simp only [PTS.split, res_pure, res_bind_ok] at h2
      obtain ⟨_, _, h2⟩ := h2
      cases h2
      exact hp
    · cases h
  | .seq l, p, q, hp, h => runList_empty P l p q hp h
theorem runList_empty (P : Platform) : ∀ (l : List PreTokenizer) (p q : PTS), p.normalized = NS.ofText [] →
    PreTokenizer.runList P l p = .ok q → q.normalized = NS.ofText []
  | [], p, q, hp, h => by simp only [PreTokenizer.runList] at h; cases h; exact hp
  | x :: r, p, q, hp, h => by
    simp only [PreTokenizer.runList, res_bind_ok] at h
    obtain ⟨p1, h1, h2⟩ := h
    exact runList_empty P r p1 q (run_empty P x p p1 hp h1) h2
end

theorem splitsLoop_length (P : Platform) : ∀ (l : List Split) (m m' : BPE) (l' : List Split),
    BPE.splitsLoop P m l = (.ok l', m') → l'.length = l.length := by
  intro l
  induction l with
  | nil => intro m m' l' h; simp only [BPE.splitsLoop] at h; cases h; rfl
  | cons s r ih =>
    intro m m' l' h
    simp only [BPE.splitsLoop] at h
    split at h
    · cases h
    · split at h
      · cases h
      · rename_i h2
        cases h
        simp [ih _ _ _ h2]

theorem tokenize_shape {P : Platform} {m : Model} {p q : PTS} (h : (m.tokenize P p).1 = .ok q) :
    q.normalized = p.normalized ∧ q.splits.length = p.splits.length := by
  cases m with
  | wordPiece m => simp only [Model.tokenize, WordPiece.tokenize] at h; cases h; simp
  | bpe m =>
    simp only [Model.tokenize, BPE.tokenize] at h
    split at h
    · cases h
    · rename_i h1
      cases h
      exact ⟨rfl, splitsLoop_length _ _ _ _ _ h1⟩

theorem tokenize_none (m : Model) (P : Platform) (n : NS) :
    m.tokenize P { normalized := n, splits := [] } = (.ok { normalized := n, splits := [] }, m) := by
  cases m with
  | wordPiece m => rfl
  | bpe m => simp [Model.tokenize, BPE.tokenize, BPE.splitsLoop]

/-- What is handed to the pre-tokenizer for the empty text: one empty piece. -/
def emptyPiece : PTS := { normalized := NS.ofText [], splits := [{ normalized := [], offsets := (0, 0) }] }

/-- **C53** Without an added vocabulary, encoding the empty text returns exactly when a pre-tokenizer is configured
that turns the one empty piece into no piece at all (and truncation, post-processing and padding then accept the empty
encoding); the result is the post-processed empty encoding. -/
theorem C53_returns_iff (P : Platform) (t : Tokenizer) (b : Bool) (e : Encoding) (ha : t.added = none) :
    (t.encode P [] b).1 = .ok e ↔
      ∃ pt q, t.preTokenizer = some pt ∧ pt.run P emptyPiece = .ok q ∧ q.splits = [] ∧
        t.doPostProcess { toEnc := {}, overflowing := [] } b = .ok e := by
  constructor
  · intro h
    obtain ⟨q, x, ⟨p, hp, hm⟩, hi, hpost⟩ := encode_ok h
    have hq : q.normalized = p.normalized ∧ q.splits.length = p.splits.length := by
      cases hmod : t.model with
      | none => rw [hmod] at hm; simp only at hm; subst hm; exact ⟨rfl, rfl⟩
      | some m => rw [hmod] at hm; exact tokenize_shape hm
    unfold Tokenizer.preTokenized at hp
    rw [ofNS_nil, ha] at hp
    simp only [res_ok_bind] at hp
    have hn : p.normalized = NS.ofText [] := by
      cases hpt : t.preTokenizer with
      | none => rw [hpt] at hp; cases hp; rfl
      | some pt => rw [hpt] at hp; exact run_empty P pt _ _ rfl hp
    have hnil : q.splits = [] := by
      cases hs : q.splits with
      | nil => rfl
      | cons s r =>
        rw [hs] at hi
        simp [intoLoop, hq.1, hn, ofText_nil, vecAt] at hi
    rw [hnil] at hi
    cases hi
    cases hpt : t.preTokenizer with
    | none => rw [hpt] at hp; cases hp; simp [hnil] at hq
    | some pt =>
      rw [hpt] at hp
      refine ⟨pt, p, rfl, hp, ?_, hpost⟩
      rw [hnil] at hq
      exact List.length_eq_zero_iff.1 hq.2.symm
  · rintro ⟨pt, q, hpt, hrun, hq, hpost⟩
    obtain ⟨n, sp⟩ := q
    simp only at hq
    subst hq
    unfold Tokenizer.encode Tokenizer.preTokenized
    rw [ofNS_nil, ha]
    have hrun' : pt.run P { normalized := NS.ofText [], splits := [{ normalized := [], offsets := (0, 0) }] } =
      .ok { normalized := n, splits := [] } := hrun
    simp only [res_ok_bind, hpt, hrun', Tokenizer.doTokenize]
    cases hm : t.model with
    | none => simpa [intoEncoding, intoLoop] using hpost
    | some m =>
      simp only [tokenize_none, res_ok_bind, intoEncoding, intoLoop, res_pure]
      rw [← hpost]; rfl

mutual
/-- Pre-tokenizers that produce no piece from an empty piece: BERT; a pattern that does not match the empty text. -/
def DropsEmpty (P : Platform) : PreTokenizer → Prop
  | .bert => True
  | .split pat _ _ => ∃ find, P.regex pat = some find ∧ find [] = []
  | .byteLevel prefixSpace useRegex => prefixSpace = false ∧ useRegex = true ∧
      ∃ find, P.regex byteLevelPattern = some find ∧ find [] = []
  | .seq l => l ≠ [] ∧ DropEmpty P l
def DropEmpty (P : Platform) : List PreTokenizer → Prop
  | [] => True
  | p :: r => DropsEmpty P p ∧ DropEmpty P r
end

mutual
theorem dropsEmpty (P : Platform) : ∀ (pt : PreTokenizer), DropsEmpty P pt → ∀ l : List Split,
    l = [] ∨ l = emptyPiece.splits → pt.run P { normalized := NS.ofText [], splits := l } = .ok { normalized := NS.ofText [], splits := [] }
  | .bert, _, l, hl => by
    rcases hl with rfl | rfl <;>
      simp [PreTokenizer.run, bertPreTokenize, PTS.split, splitLoop, splitNormalized, emptyPiece, fromUTF8,
        utf8LossyFuel, utf16, isWhitespaceSegs, spaceRuns, u16Points, segments]
  | .split pat b i, h, l, hl => by
    obtain ⟨find, h1, h2⟩ := h
    rcases hl with rfl | rfl <;> cases b <;>
      simp [PreTokenizer.run, splitPreTokenize, PTS.split, splitLoop, splitNormalized, emptyPiece, fromUTF8,
        utf8LossyFuel, utf16, findMatches, h1, h2, segments]
  | .byteLevel a u, h, l, hl => by
    obtain ⟨rfl, rfl, find, h1, h2⟩ := h
    rcases hl with rfl | rfl <;>
      simp [PreTokenizer.run, byteLevelPreTokenize, PTS.split, splitLoop, splitNormalized, emptyPiece, fromUTF8,
        utf8LossyFuel, utf16, findMatches, h1, h2, segments, mapSplits]
  | .seq [], h, l, hl => absurd rfl h.1
  | .seq (p :: r), h, l, hl => by
    simp only [PreTokenizer.run, PreTokenizer.runList]
    rw [dropsEmpty P p h.2.1 l hl]
    exact dropEmpty P r h.2.2
theorem dropEmpty (P : Platform) : ∀ (l : List PreTokenizer), DropEmpty P l →
    PreTokenizer.runList P l { normalized := NS.ofText [], splits := [] } = .ok { normalized := NS.ofText [], splits := [] }
  | [], _ => rfl
  | p :: r, h => by
    simp only [PreTokenizer.runList]
    rw [dropsEmpty P p h.1 [] (.inl rfl)]
    exact dropEmpty P r h.2
end

/-- **C53** (what holds) Without an added vocabulary, and with a pre-tokenizer built from BERT splitting, patterns that
do not match the empty text and sequences of them, encoding the empty text gives what post-processing makes of the
empty encoding. -/
theorem C53_empty_partial (P : Platform) (t : Tokenizer) (b : Bool) (pt : PreTokenizer) (ha : t.added = none)
    (hpt : t.preTokenizer = some pt) (hd : DropsEmpty P pt) (e : Encoding) :
    (t.encode P [] b).1 = .ok e ↔ t.doPostProcess { toEnc := {}, overflowing := [] } b = .ok e := by
  rw [C53_returns_iff P t b e ha]
  constructor
  · rintro ⟨_, _, _, _, _, h⟩; exact h
  · intro h; exact ⟨pt, _, hpt, dropsEmpty P pt hd _ (.inr rfl), rfl, h⟩

-- a BERT-style tokenizer without added vocabulary answers `[CLS] [SEP]`; without pre-tokenizer it does not return
example : (({ bertLike none (some sampleTemplate) none with added := none } : Tokenizer).encode ascii [] true).1.map (·.ids)
    = .ok [101, 102] := by decide +kernel
example : (({ bertLike none (some sampleTemplate) none with added := none, preTokenizer := none } : Tokenizer).encode ascii [] true).1.map (·.ids)
    = .error (.ub .outOfBounds) := by decide +kernel

/-! ### Java strings -/

/-- A sequence of UTF-16 units that is well-formed, with the code points `w`, contains a surrogate exactly when some
code point is outside the basic multilingual plane. -/
theorem utf16Text_bmp {w : WStr} {s : U16} (h : Utf16Text w s) (hb : ∀ c ∈ w, c < 0x10000) : s = w := by
  induction h with
  | nil => rfl
  | bmp _ _ _ ih => rw [ih fun c hc => hb c (List.mem_cons_of_mem _ hc)]
  | pair hx hy _ _ => have := hb _ List.mem_cons_self; omega

/-- **C57** (what holds) A Java string of the basic multilingual plane is encoded to the ids of its code points. -/
theorem C57_bmp_partial (P : Platform) (t : Tokenizer) (s : U16) (w : WStr) (b : Bool) (hs : Utf16Text w s)
    (hb : ∀ c ∈ w, c < 0x10000) :
    (t.encodeJava P s b).1 = (t.encode P w b).1.map (·.ids) ∧ (t.encodeJava P s b).2 = (t.encode P w b).2 := by
  rw [utf16Text_bmp hs hb]
  refine ⟨?_, rfl⟩
  simp only [Tokenizer.encodeJava]
  cases (t.encode P w b).1 <;> rfl

/-- **C57 refuted** A Java string with a character outside the basic multilingual plane (any surrogate unit) cannot be
encoded at all, by any tokenizer: the call throws `range_error`. -/
theorem C57_violated (P : Platform) (t : Tokenizer) (s : U16) (b : Bool) (w : WStr) (hs : Utf16Text w s)
    (c : Nat) (hc : c ∈ w) (hbig : 0x10000 ≤ c) :
    (t.encodeJava P s b).1 = .error (.throws .rangeError) ∧ (t.encodeJava P s b).2 = t := by
  have hsur : ∃ u ∈ s, ¬ Scalar u := by
    induction hs with
    | nil => cases hc
    | @bmp c' w u h1 _ _ ih =>
      rcases List.mem_cons.1 hc with rfl | hc
      · omega
      · obtain ⟨u', hu, h⟩ := ih hc
        exact ⟨u', List.mem_cons_of_mem _ hu, h⟩
    | @pair x y w u hx hy _ _ =>
      exact ⟨0xD800 + x, List.mem_cons_self, by unfold Scalar; omega⟩
  have hconv := (C02_to_string_throws_iff s).1.2 hsur
  have hns : PTS.ofNS (NS.ofText s) = .error (.throws .rangeError) := by
    unfold PTS.ofNS
    rw [show (NS.ofText s).normalized = s from rfl, hconv]; rfl
  have he : t.encode P s b = (.error (.throws .rangeError), t) := by
    unfold Tokenizer.encode Tokenizer.preTokenized
    rw [hns]
  simp [Tokenizer.encodeJava, he]

-- "hi 😀": four code points, five units
example : Utf16Text w!"hi 😀" [0x68, 0x69, 0x20, 0xD83D, 0xDE00] :=
  .bmp (by omega) (by omega) <| .bmp (by omega) (by omega) <| .bmp (by omega) (by omega) <|
    .pair (x := 0x3D) (y := 0x200) (by omega) (by omega) .nil
example : ((bertLike none none none).encodeJava ascii w!"go playing" true).1 = .ok [3, 1, 2] := by decide +kernel

/-! ### The normalizer -/

theorem scan_nil (u : U16) (rest : U16) : ∀ i cur, scan [] u rest i cur = [] := by
  induction rest with
  | nil => intro i cur; simp [scan, mapFind]
  | cons c r ih => intro i cur; simp [scan, mapFind, ih]

theorem findMatches_noTrie (a : AddedVocab) (s : Str) :
    a.findMatches s [] = (.ok (if (fromUTF8 s).length = 0 then [] else [(none, (0, (fromUTF8 s).length))]), a) := by
  unfold AddedVocab.findMatches
  simp only [wordIds, List.foldl_nil, scan_nil, matchSegs, touchIds]
  congr 2
  by_cases h : (fromUTF8 s).length = 0
  · simp [h]
  · rw [if_neg h, if_pos (Ne.symm h)]

theorem matchSegs_nil {mapR : List (Int × AddedToken)} {s : Str} {total : Nat} : ∀ {ms : List (Nat × Nat × Int)} {start : Nat},
    matchSegs mapR s total ms start = .ok [] → start = total := by
  intro ms
  induction ms with
  | nil =>
    intro start h
    simp only [matchSegs] at h
    by_cases he : start ≠ total
    · rw [if_pos he] at h; cases h
    · omega
  | cons m r ih =>
    intro start h
    obtain ⟨x, y, i⟩ := m
    simp only [matchSegs, res_bind_ok] at h
    obtain ⟨ok, _, h⟩ := h
    split at h
    · split at h
      · obtain ⟨sub, _, h⟩ := res_bind_ok.1 h
        obtain ⟨_, _, h⟩ := res_bind_ok.1 h
        obtain ⟨rest, _, h⟩ := res_bind_ok.1 h
        simp at h
      · obtain ⟨_, _, h⟩ := res_bind_ok.1 h
        obtain ⟨rest, _, h⟩ := res_bind_ok.1 h
        simp at h
    · exact ih h

theorem segSplits_eq_nil {w : WStr} {base : Nat} {segs : List TSeg} (h : segSplits w base segs = .ok []) : segs = [] := by
  cases segs with
  | nil => rfl
  | cons x r =>
    obtain ⟨i, a, b⟩ := x
    simp only [segSplits, res_bind_ok] at h
    obtain ⟨_, _, _, _, _, _, h⟩ := h
    cases h

theorem fromUTF8_length_ge {w : WStr} (hw : Scalars w) : w.length ≤ (fromUTF8 (utf8 w)).length := by
  rw [fromUTF8_utf8 hw]
  induction w with
  | nil => simp
  | cons c r ih =>
    have := ih (Scalars.cons.1 hw).2
    simp only [utf16, List.flatMap_cons, List.length_append, List.length_cons] at this ⊢
    have h1 : 0 < (utf16Enc1 c).length := List.length_pos_iff.2 (utf16Enc1_ne_nil c)
    omega

/-- The pieces of a non-empty text when no token is matched before normalization: the added tokens found in the
normalized text, whatever the original text was. -/
theorem extract_pieces {P : Platform} {norm : Option Normalizer} {a : AddedVocab} {w : WStr} {p : PTS} (ha : a.nonNormTrie = [])
    (hw : w ≠ []) (h : (a.extract P norm w).1 = .ok p) {s : NS} (hs : normalizeOpt P norm (NS.ofText w) = .ok s)
    (hne : s.normalized ≠ []) :
    ∃ text segs, convertToString s.normalized = .ok text ∧ (a.findMatches text a.normTrie).1 = .ok segs ∧
      segSplits s.normalized 0 segs = .ok p.splits := by
  unfold AddedVocab.extract AddedVocab.firstSplits at h
  cases hp0 : PTS.ofNS (NS.ofText w) with
  | error e => rw [hp0] at h; cases h
  | ok p0 =>
  have hsc : Scalars w := by
    unfold PTS.ofNS at hp0
    obtain ⟨x, hx, _⟩ := res_bind_ok.1 hp0
    exact (convertToString_ok_iff.1 hx).1
  have hlen : ¬ (fromUTF8 (utf8 w)).length = 0 := by
    have := fromUTF8_length_ge hsc
    have := List.length_pos_iff.2 hw
    omega
  rw [hp0] at h
  simp only [convertToString_scalars hsc, ha, findMatches_noTrie, res_ok_bind, if_neg hlen, segSplits] at h
  have hlen' : w.length ≤ (fromUTF8 (utf8 w)).length := fromUTF8_length_ge hsc
  simp only [wsubstr, Nat.zero_le, if_true, List.drop_zero, Nat.sub_zero, res_ok_bind, List.take_of_length_le hlen',
    convertToString_scalars hsc, res_pure, List.cons_ne_nil, if_false, normalizeLoop, ne_eq, not_true_eq_false,
    normalizeSplit, convertFromString_utf8 hsc, hs, Nat.add_zero, Nat.zero_add, Nat.not_lt_zero] at h
  cases h1 : p0.normalized.transformRange 0 (fromUTF8 (utf8 w)).length s with
  | error e => rw [h1] at h; cases h
  | ok ns =>
  rw [h1] at h
  simp only [res_ok_bind] at h
  cases h2 : convertToString s.normalized with
  | error e => rw [h2] at h; cases h
  | ok text =>
  rw [h2] at h
  simp only [res_ok_bind] at h
  refine ⟨text, ?_⟩
  cases h3 : (a.findMatches text a.normTrie).1 with
  | error e => rw [h3] at h; cases h
  | ok segs =>
  rw [h3] at h
  simp only [res_ok_bind] at h
  cases h4 : segSplits s.normalized 0 segs with
  | error e => rw [h4] at h; cases h
  | ok sp =>
  rw [h4] at h
  simp only [res_ok_bind, List.append_nil] at h
  cases h
  refine ⟨segs, rfl, rfl, ?_⟩
  have hspne : sp ≠ [] := by
    rintro rfl
    have := segSplits_eq_nil h4
    subst this
    have hz := matchSegs_nil h3
    obtain ⟨hsc', rfl⟩ := convertToString_ok_iff.1 h2
    have := fromUTF8_length_ge hsc'
    have := List.length_pos_iff.2 hne
    omega
  simp only [if_neg hspne]
  exact h4

mutual
/-- Without `add_prefix_space`, the pieces made by a pre-tokenizer depend on the pieces it is given only. -/
theorem run_splits (P : Platform) : ∀ (pt : PreTokenizer), pt.NoPrefixSpace → ∀ (p p' q q' : PTS), p.splits = p'.splits →
    pt.run P p = .ok q → pt.run P p' = .ok q' → q.splits = q'.splits
  | .bert, _, p, p', q, q', hp, h, h' => by
    simp only [PreTokenizer.run, bertPreTokenize, PTS.split, res_pure, res_bind_ok] at h h'
    obtain ⟨_, ⟨l, e1, f1⟩, ⟨m, e2, f2⟩⟩ := h
    obtain ⟨_, ⟨l', e1', f1'⟩, ⟨m', e2', f2'⟩⟩ := h'
    cases f1; cases f2; cases f1'; cases f2'
    rw [hp] at e1; rw [e1] at e1'; cases e1'
    simp only at e2 e2'
    rw [e2] at e2'; cases e2'; rfl
  | .split pat b i, _, p, p', q, q', hp, h, h' => by
    simp only [PreTokenizer.run, splitPreTokenize, PTS.split, res_pure, res_bind_ok] at h h'
    obtain ⟨l, e1, f1⟩ := h
    obtain ⟨l', e1', f1'⟩ := h'
    cases f1; cases f1'
    rw [hp] at e1; rw [e1] at e1'; cases e1'; rfl
  | .byteLevel a u, ha, p, p', q, q', hp, h, h' => by
    simp only [PreTokenizer.NoPrefixSpace] at ha
    subst ha
    simp only [PreTokenizer.run, byteLevelPreTokenize, Bool.false_eq_true, if_false, res_ok_bind, PTS.split, res_pure, res_bind_ok] at h h'
    obtain ⟨_, ⟨l, e1, f1⟩, ⟨m, e2, f2⟩⟩ := h
    obtain ⟨_, ⟨l', e1', f1'⟩, ⟨m', e2', f2'⟩⟩ := h'
    cases f1; cases f2; cases f1'; cases f2'
    rw [hp] at e1; rw [e1] at e1'; cases e1'
    simp only at e2 e2'
    rw [e2] at e2'; cases e2'; rfl
  | .seq l, hl, p, p', q, q', hp, h, h' => runList_splits P l hl p p' q q' hp h h'
theorem runList_splits (P : Platform) : ∀ (l : List PreTokenizer), NoPrefixSpaceList l → ∀ (p p' q q' : PTS), p.splits = p'.splits →
    PreTokenizer.runList P l p = .ok q → PreTokenizer.runList P l p' = .ok q' → q.splits = q'.splits
  | [], _, p, p', q, q', hp, h, h' => by simp only [PreTokenizer.runList] at h h'; cases h; cases h'; exact hp
  | x :: r, hl, p, p', q, q', hp, h, h' => by
    simp only [PreTokenizer.runList, res_bind_ok] at h h'
    obtain ⟨p1, h1, h2⟩ := h
    obtain ⟨p1', h1', h2'⟩ := h'
    exact runList_splits P r hl.2 p1 p1' q q' (run_splits P x hl.1 p p' p1 p1' hp h1 h1') h2 h2'
end

theorem tokenize_splits {P : Platform} {m : Model} {p p' q q' : PTS} (hp : p.splits = p'.splits)
    (h : (m.tokenize P p).1 = .ok q) (h' : (m.tokenize P p').1 = .ok q') : q.splits = q'.splits := by
  cases m with
  | wordPiece m => simp only [Model.tokenize, WordPiece.tokenize] at h h'; cases h; cases h'; rw [hp]
  | bpe m =>
    simp only [Model.tokenize, BPE.tokenize] at h h'
    rw [hp] at h
    split at h
    · cases h
    · split at h'
      · cases h'
      · rename_i e1 _ _ _ e2
        rw [e1] at e2; cases e2
        cases h; cases h'; rfl

/-- **C63** (what holds) With an added vocabulary without tokens matched before normalization, and without
`add_prefix_space`: for a text whose normalization is not empty, the pre-tokens and their tokens — texts, ids and
positions in the normalized text — are those of the normalized text under the same tokenizer without normalizer. -/
theorem C63_applied_partial (P : Platform) (t : Tokenizer) (a : AddedVocab) (n : Normalizer) (w : WStr) (s : NS) (q q' : PTS)
    (ha : t.added = some a) (hT : a.nonNormTrie = []) (hn : t.normalizer = some n) (hs : n.run P (NS.ofText w) = .ok s)
    (hw : w ≠ []) (hne : s.normalized ≠ []) (hpt : ∀ pt, t.preTokenizer = some pt → pt.NoPrefixSpace)
    (h : TokenizedInto P t w q) (h' : TokenizedInto P { t with normalizer := none } s.normalized q') :
    q.splits = q'.splits := by
  obtain ⟨p, hp, hm⟩ := h
  obtain ⟨p', hp', hm'⟩ := h'
  have key : ∀ (t0 : Tokenizer) (v : WStr) (p0 : PTS), t0.added = some a → (t0.preTokenized P v).1 = .ok p0 →
      ∃ r, (a.extract P t0.normalizer v).1 = .ok r ∧
        match t0.preTokenizer with
        | none => p0 = r
        | some pt => pt.run P r = .ok p0 := by
    intro t0 v p0 ha0 h0
    unfold Tokenizer.preTokenized at h0
    split at h0
    · cases h0
    · rw [ha0] at h0
      simp only at h0
      obtain ⟨r, hr, h0⟩ := res_bind_ok.1 h0
      refine ⟨r, hr, ?_⟩
      cases hx : t0.preTokenizer with
      | none => rw [hx] at h0; cases h0; rfl
      | some pt => rw [hx] at h0; exact h0
  obtain ⟨r, hr, hq⟩ := key t w p ha hp
  obtain ⟨r', hr', hq'⟩ := key _ _ p' (by exact ha) hp'
  have hsp : r.splits = r'.splits := by
    obtain ⟨text, segs, e1, e2, e3⟩ := extract_pieces hT hw hr (s := s) (by rw [hn]; exact hs) hne
    obtain ⟨text', segs', e1', e2', e3'⟩ := extract_pieces hT hne hr' (s := NS.ofText s.normalized) rfl hne
    rw [show (NS.ofText s.normalized).normalized = s.normalized from rfl] at e1' e3'
    rw [e1] at e1'; cases e1'
    rw [e2] at e2'; cases e2'
    rw [e3] at e3'; exact Except.ok.inj e3'
  have hps : p.splits = p'.splits := by
    simp only at hq'
    cases hx : t.preTokenizer with
    | none => rw [hx] at hq hq'; subst hq; subst hq'; exact hsp
    | some pt => rw [hx] at hq hq'; exact run_splits P pt (hpt pt hx) r r' p p' hsp hq hq'
  cases hx : t.model with
  | none => simp only [hx] at hm hm'; subst hm; subst hm'; exact hps
  | some m => simp only [hx] at hm hm'; exact tokenize_splits hps hm hm'

/-- **C63 refuted** for every tokenizer without added vocabulary (`"added_tokens": null`): the normalizer is never
applied. -/
theorem C63_violated (P : Platform) (t : Tokenizer) (w : WStr) (b : Bool) (ha : t.added = none) :
    (t.encode P w b).1 = (({ t with normalizer := none } : Tokenizer).encode P w b).1 := by
  obtain ⟨tr, pad, added, norm, pt, m, d, pp⟩ := t
  simp only at ha
  subst ha
  unfold Tokenizer.encode Tokenizer.preTokenized
  cases PTS.ofNS (NS.ofText w) with
  | error => rfl
  | ok p =>
    simp only [res_ok_bind]
    have key : ∀ q : Res PTS, (match ((q, ⟨tr, pad, none, norm, pt, m, d, pp⟩) : Res PTS × Tokenizer) with
        | (.error e, t') => ((.error e, t') : Res Encoding × Tokenizer)
        | (.ok p, t') => match t'.doTokenize P p with
          | (.error e, t'') => (.error e, t'')
          | (.ok e, t'') => (t''.doPostProcess e b, t'')).1 =
      (match ((q, ⟨tr, pad, none, none, pt, m, d, pp⟩) : Res PTS × Tokenizer) with
        | (.error e, t') => ((.error e, t') : Res Encoding × Tokenizer)
        | (.ok p, t') => match t'.doTokenize P p with
          | (.error e, t'') => (.error e, t'')
          | (.ok e, t'') => (t''.doPostProcess e b, t'')).1 := by
      intro q
      cases q with
      | error => rfl
      | ok q =>
        cases m with
        | none =>
          simp only [Tokenizer.doTokenize]
          cases intoEncoding q none 0 <;> rfl
        | some m =>
          simp only [Tokenizer.doTokenize]
          cases (m.tokenize P q).1 with
          | error => rfl
          | ok q' => simp only [res_ok_bind]; cases intoEncoding q' none 0 <;> rfl
    exact key _

/-- A lower-casing tokenizer (WordPiece, vocabulary `[UNK]`, `go`). -/
def lowerTk (a : Option AddedVocab) (pt : Option PreTokenizer) : Tokenizer :=
  { tkOf [(b!"[UNK]", 0), (b!"go", 1), (b!"GO", 2), ([0xC4, 0xA0] ++ b!"GO", 3)] with
    added := a, normalizer := some (.bert false false false true), preTokenizer := pt }

-- C63: the hypotheses of the positive part can be met, "GO" becomes "go"; without added vocabulary it stays
-- "GO"; with `add_prefix_space` the pieces are made from the original text again
example : ((lowerTk (some (AddedVocab.init [])) none).encode ascii w!"GO" true).1.map (·.ids) = .ok [1] := by decide +kernel
example : ((lowerTk none none).encode ascii w!"GO" true).1.map (·.ids) = .ok [2] := by decide +kernel

/-- **C63 refuted** for ByteLevel pre-tokenization with `add_prefix_space`, which starts again from the text before
normalization: a lower-casing tokenizer with an added vocabulary encodes `GO` as the token `ĠGO`. -/
theorem C63_violated_prefix :
    ((lowerTk (some (AddedVocab.init [])) (some (.byteLevel true false))).encode ascii w!"GO" true).1.map (·.ids) = .ok [3] := by
  decide +kernel

end Tok
