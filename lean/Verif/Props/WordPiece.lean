import Verif.Proofs.WordPiece
import Verif.Decoder

set_option autoImplicit false

/-!
C10–C14, C50: WordPiece.
-/

namespace Tok
open Spec

/-- WordPiece tokenizes each split on its own and changes nothing but its tokens. -/
theorem wordPiece_splits (m : WordPiece) (p : PTS) :
    (m.tokenize p).normalized = p.normalized ∧
    Each (fun s q => q.normalized = s.normalized ∧ q.offsets = s.offsets ∧ q.tokens = m.word s.normalized)
      p.splits (m.tokenize p).splits := by
  refine ⟨rfl, ?_⟩
  simp only [WordPiece.tokenize]
  generalize p.splits = l
  induction l with
  | nil => exact .nil
  | cons s l ih => exact .cons ⟨rfl, rfl, rfl⟩ ih

/-- **C10** The offsets of the tokens of a word tile it: contiguous from 0 to the length of
the word in UTF-16 units, none empty (unless the word itself is). -/
theorem C10_offsets_tile (m : WordPiece) (s : Str) (w : WStr) (hs : Utf8Text w s) (hw : w ≠ []) :
    Tiles 0 ((m.word s).map (·.offsets)) (units w) ∧ ∀ t ∈ m.word s, t.offsets.1 < t.offsets.2 := by
  obtain ⟨hsc, rfl⟩ := utf8Text_iff.1 hs
  have hpos := units_pos hw
  have hunk : Tiles 0 ((m.unk (utf16 w).length).map (·.offsets)) (units w) ∧
      ∀ t ∈ m.unk (utf16 w).length, t.offsets.1 < t.offsets.2 := by
    rw [word_unk (m := m) _ w (units_eq w)]
    simp [UnkAnswer, Tiles, hpos]
  unfold WordPiece.word
  simp only [fromUTF8_utf8 hsc]
  split
  · exact hunk
  · split
    · exact hunk
    · rename_i ts h
      have := loop_tiles _ 0 (Nat.zero_le _) h
      rw [units_eq]; exact this

/-- **C12, C13** For every word, WordPiece answers with the unknown token when the word is
too long or greedy longest-match-first segmentation gets stuck, and with the greedy
segmentation otherwise. -/
theorem C12_C13_answer (m : WordPiece) (s : Str) (w : WStr) (hs : Utf8Text w s)
    (hclean : CleanWord (tokenToId m.vocab) w) :
    WordPieceAnswer (tokenToId m.vocab) m.pre m.unkToken m.maxChars w (m.word s) := by
  obtain ⟨hsc, rfl⟩ := utf8Text_iff.1 hs
  unfold WordPiece.word WordPieceAnswer
  simp only [fromUTF8_utf8 hsc, ← units_eq]
  by_cases hlong : (units w : Int) > m.maxChars
  · simp only [hlong, if_true]
    exact .inl ⟨trivial, word_unk _ w rfl⟩
  · simp only [hlong, if_false]
    have := loop_spec hsc hclean (units w) [] w rfl (Nat.le_refl _)
    simp only [units, decide_true] at this
    split
    · rename_i h
      rw [h] at this
      exact .inr (.inl ⟨by omega, this, word_unk _ w rfl⟩)
    · rename_i ts h
      rw [h] at this
      exact .inr (.inr ⟨by omega, this⟩)

/-- The longest step is unique. -/
theorem longest_unique {V : Str → Option Int} {pre : Str} {first : Bool} {v1 r1 v2 r2 : WStr} {k1 k2 : Str}
    {i1 i2 : Int} (h1 : Longest V pre first v1 r1 k1 i1) (h2 : Longest V pre first v2 r2 k2 i2)
    (e : v1 ++ r1 = v2 ++ r2) : v1 = v2 ∧ r1 = r2 ∧ k1 = k2 ∧ i1 = i2 := by
  have hlen : v1.length = v2.length := by
    rcases Nat.lt_trichotomy v1.length v2.length with h | h | h
    · have := h1.longest v2 r2 k2 e h h2.key_of; rw [h2.known] at this; cases this
    · exact h
    · have := h2.longest v1 r1 k1 e.symm h h1.key_of; rw [h1.known] at this; cases this
  obtain ⟨rfl, rfl⟩ := List.append_inj e hlen
  have hk : k1 = k2 := by
    obtain ⟨s1, a1, b1⟩ := h1.key_of
    obtain ⟨s2, a2, b2⟩ := h2.key_of
    rw [utf8Text_iff] at a1 a2
    rw [b1, b2, a1.2, a2.2]
  subst hk
  have := h1.known.symm.trans h2.known
  exact ⟨rfl, rfl, rfl, by simpa using this⟩

/-- **C12** The specification determines the segmentation. -/
theorem C12_greedy_unique {V : Str → Option Int} {pre : Str} {first : Bool} {pos : Nat} {w : WStr}
    {ts ts' : List Token} (h : Greedy V pre first pos w ts) (h' : Greedy V pre first pos w ts') : ts = ts' := by
  induction h generalizing ts' with
  | done =>
    generalize hw : ([] : WStr) = w at h'
    cases h' with
    | done => rfl
    | take hL _ => simp at hw; exact absurd hw.1 hL.nonempty
  | take hL _ ih =>
    rename_i v r _ _ _ _
    generalize hw : v ++ r = w at h'
    cases h' with
    | done => simp at hw; exact absurd hw.1 hL.nonempty
    | take hL' hG' =>
      obtain ⟨rfl, rfl, rfl, rfl⟩ := longest_unique hL hL' hw
      rw [ih hG']

/-- **C13** A word that can be segmented greedily does not get stuck. -/
theorem C13_greedy_not_stuck {V : Str → Option Int} {pre : Str} {first : Bool} {pos : Nat} {w : WStr}
    {ts : List Token} (h : Greedy V pre first pos w ts) : ¬ Stuck V pre first w := by
  induction h with
  | done =>
    intro h
    generalize hw : ([] : WStr) = w at h
    cases h with
    | here h1 _ => exact h1 hw.symm
    | later hL _ => simp at hw; exact hL.nonempty hw.1
  | take hL _ ih =>
    rename_i v r key _ _ _
    intro h
    generalize hw : v ++ r = w at h
    cases h with
    | here h1 h2 =>
      have := h2 v r key hw.symm hL.nonempty hL.key_of
      rw [hL.known] at this; cases this
    | later hL' h' =>
      obtain ⟨rfl, rfl, _, _⟩ := longest_unique hL hL' hw
      exact ih h'

/-- **C11** Every token of a greedy segmentation is a vocabulary entry with its id, it is
the covered piece of the word (with the continuation prefix unless it is first), and the
pieces concatenate to the word. -/
theorem C11_greedy_spells {V : Str → Option Int} {pre : Str} {first : Bool} {pos : Nat} {w : WStr}
    {ts : List Token} (h : Greedy V pre first pos w ts) :
    (∀ t ∈ ts, V t.value = some t.id) ∧
    ∃ vs : List WStr, vs.flatten = w ∧ Each (fun v (t : Token) => t.offsets.2 = t.offsets.1 + units v) vs ts ∧
      ∀ i v t, vs[i]? = some v → ts[i]? = some t → PieceKey pre (first && decide (i = 0)) v t.value := by
  induction h with
  | done => exact ⟨by simp, [], rfl, .nil, by simp⟩
  | take hL _ ih =>
    rename_i first pos v r key id ts _
    obtain ⟨h1, vs, h2, h3, h4⟩ := ih
    refine ⟨?_, v :: vs, by simp [h2], .cons rfl h3, ?_⟩
    · intro t ht; simp at ht; rcases ht with rfl | ht
      · exact hL.known
      · exact h1 t ht
    · intro i v' t hv ht
      cases i with
      | zero => simp at hv ht; subst hv ht; simpa using hL.key_of
      | succ i =>
        have := h4 i v' t (by simpa using hv) (by simpa using ht)
        simpa using this

/-- **C11** If WordPiece does not answer with the unknown token then its tokens are
vocabulary entries and spell the word. -/
theorem C11_tokens_spell_word (m : WordPiece) (s : Str) (w : WStr) (hs : Utf8Text w s)
    (hclean : CleanWord (tokenToId m.vocab) w)
    (hunk : m.word s ≠ UnkAnswer (tokenToId m.vocab) m.unkToken w) :
    (∀ t ∈ m.word s, tokenToId m.vocab t.value = some t.id) ∧
    ∃ vs : List WStr, vs.flatten = w ∧
      Each (fun v (t : Token) => t.offsets.2 = t.offsets.1 + units v) vs (m.word s) ∧
      ∀ i v t, vs[i]? = some v → (m.word s)[i]? = some t → PieceKey m.pre (decide (i = 0)) v t.value := by
  rcases C12_C13_answer m s w hs hclean with ⟨_, h⟩ | ⟨_, _, h⟩ | ⟨_, h⟩
  · exact absurd h hunk
  · exact absurd h hunk
  · simpa using C11_greedy_spells h

/-- **C14** A non-empty word within the limit that is itself a vocabulary entry stays
whole. -/
theorem C14_vocab_word_whole (m : WordPiece) (s : Str) (w : WStr) (hs : Utf8Text w s) (hne : w ≠ [])
    (hlen : (units w : Int) ≤ m.maxChars) (id : Int) (hid : tokenToId m.vocab s = some id) :
    m.word s = [{ id := id, value := s, offsets := (0, units w) }] := by
  obtain ⟨hsc, rfl⟩ := utf8Text_iff.1 hs
  have hpos := units_pos hne
  unfold WordPiece.word
  simp only [fromUTF8_utf8 hsc, ← units_eq]
  have : ¬ (units w : Int) > m.maxChars := by omega
  simp only [this, if_false]
  have hpiece : m.piece (utf16 w) 0 (units w) = utf8 w := by
    unfold WordPiece.piece tempSubString
    simp only [Nat.sub_zero, List.drop_zero, Nat.lt_irrefl, if_false, gt_iff_lt]
    rw [units_eq, List.take_length, toUTF8String_utf16 hsc]
  obtain ⟨n, hn⟩ : ∃ n, units w = n + 1 := ⟨units w - 1, by omega⟩
  have hlongest : m.longest (utf16 w) 0 (units w) = some { id := id, value := utf8 w, offsets := (0, units w) } := by
    rw [hn] at hpiece ⊢
    simp only [WordPiece.longest, Nat.zero_add, hpiece]
    rw [tokenToId] at hid
    simp [hid]
  have hloop : m.loop (utf16 w) (units w) 0 = some [{ id := id, value := utf8 w, offsets := (0, units w) }] := by
    unfold WordPiece.loop
    have h0 : 0 < (utf16 w).length := by rw [← units_eq]; exact hpos
    simp only [h0, if_true, Nat.sub_zero]
    rw [← units_eq, hn]
    simp only
    rw [← hn, hlongest]
    simp only
    have : m.loop (utf16 w) n (units w) = some [] := by
      unfold WordPiece.loop
      have : ¬ units w < (utf16 w).length := by rw [← units_eq]; omega
      simp [this]
    rw [this]; rfl
  rw [hloop]

/-- A small vocabulary. -/
def sampleWP : WordPiece :=
  { vocab := [(b!"[UNK]", 7), (b!"un", 1), (b!"##aff", 2), (b!"##able", 3), (b!"##é😀", 4), (b!"una", 5)]
    unkToken := b!"[UNK]", maxChars := 100, pre := b!"##" }

example : sampleWP.word b!"unaffable" = [⟨7, b!"[UNK]", (0, 9)⟩] := by decide +kernel
example : sampleWP.word b!"uné😀able" =
    [⟨1, b!"un", (0, 2)⟩, ⟨4, b!"##é😀", (2, 5)⟩, ⟨3, b!"##able", (5, 9)⟩] := by decide +kernel

theorem mapFind_absent {κ ν : Type} [DecidableEq κ] {m : List (κ × ν)} {k : κ} (h : ∀ p ∈ m, p.1 ≠ k) :
    mapFind m k = none := by
  cases hf : mapFind m k with
  | none => rfl
  | some v => exact absurd rfl (h _ (mapFind_mem hf))

theorem sampleWP_clean (w : WStr) : CleanWord (tokenToId sampleWP.vocab) w := by
  refine .inr ?_
  rintro key ⟨x, y, rfl⟩
  refine mapFind_absent ?_
  intro p hp e
  have hno : ∀ p ∈ sampleWP.vocab, 0xEF ∉ p.1 := by decide
  exact hno p hp (by rw [e]; simp)

theorem sample_text : Utf8Text w!"uné😀able" b!"uné😀able" := (C02_to_string_iff _ _).1 (by decide)

example := C10_offsets_tile sampleWP _ _ sample_text (by decide)
example := C12_C13_answer sampleWP _ _ sample_text (sampleWP_clean _)
example := C11_tokens_spell_word sampleWP _ _ sample_text (sampleWP_clean _) (by decide +kernel)
example := C14_vocab_word_whole sampleWP b!"una" w!"una" ((C02_to_string_iff _ _).1 (by decide)) (by decide) (by decide)
  5 (by decide)

/-- The restriction to words of the basic multilingual plane or vocabularies without
U+FFFD is needed for C11: half a code point is looked up as U+FFFD. -/
theorem C11_needs_clean : ({ sampleWP with vocab := [(b!"�", 1), (b!"##�", 2)] } : WordPiece).word b!"😀" =
    [⟨1, b!"�", (0, 1)⟩, ⟨2, b!"##�", (1, 2)⟩] := by decide +kernel

/-! ### C50 -/

theorem findSub_prefix {pat s : Str} : findSub pat s = some 0 ↔ pat <+: s := by
  cases s with
  | nil =>
    simp only [findSub]
    split
    · rename_i h; subst h; simp
    · rename_i h; simp [h]
  | cons c r =>
    simp only [findSub]
    split
    · rename_i h; simpa using h
    · rename_i h
      have h' : ¬ pat <+: c :: r := by intro hp; exact h (List.isPrefixOf_iff_prefix.2 hp)
      simp only [h', iff_false]
      intro he
      simp only [Option.map_eq_some_iff] at he
      obtain ⟨n, _, hn⟩ := he; omega

theorem strFind_zero {pat s : Str} : strFind s pat 0 = some 0 ↔ pat <+: s := by
  simp only [strFind, Nat.zero_le, if_true, List.drop_zero, Nat.add_zero]
  rw [← findSub_prefix]; simp

theorem wpDecodeTok_cont {pre v : Str} {i : Nat} (hi : i ≠ 0) : wpDecodeTok pre false i (pre ++ v) = .ok v := by
  have : strFind (pre ++ v) pre 0 = some 0 := strFind_zero.2 (by simp)
  simp [wpDecodeTok, hi, this]

theorem wpDecodeLoop_cons (pre : Str) (i : Nat) (t : Str) (r : List Str) {x : Str} {xs : List Str}
    (h1 : wpDecodeTok pre false i t = .ok x) (h2 : wpDecodeLoop pre false (i + 1) r = .ok xs) :
    wpDecodeLoop pre false i (t :: r) = .ok (x :: xs) := by
  simp [wpDecodeLoop, h1, h2]

/-- Decoding the pieces of one word, then the rest. -/
theorem decode_greedy {V : Str → Option Int} {pre : Str} {first : Bool} {pos : Nat} {w : WStr} {ts : List Token}
    (h : Greedy V pre first pos w ts) : ∀ (i : Nat) (rest : List Str) (xs : List Str),
    (i = 0 → first = true) →
    (first = true → i ≠ 0 → w ≠ [] → ¬ pre <+: utf8 w) →
    (∀ j, j ≠ 0 → i ≤ j → wpDecodeLoop pre false j rest = .ok xs) → (w = [] → i ≠ 0) →
    ∃ out, wpDecodeLoop pre false i (ts.map (·.value) ++ rest) = .ok out ∧
      out.flatten = (if first = true ∧ i ≠ 0 ∧ w ≠ [] then [0x20] else []) ++ utf8 w ++ xs.flatten := by
  induction h with
  | done =>
    intro i rest xs _ _ hrest hi0
    refine ⟨xs, by simpa using hrest i (hi0 rfl) (Nat.le_refl _), by simp⟩
  | take hL _ ih =>
    rename_i first pos v r key id ts _
    intro i rest xs hi hpre hrest _
    obtain ⟨s, hs, hkey⟩ := hL.key_of
    obtain ⟨_, rfl⟩ := utf8Text_iff.1 hs
    obtain ⟨out, h1, h2⟩ := ih (i + 1) rest xs (by simp) (by simp)
      (fun j hj hij => hrest j hj (by omega)) (by simp)
    simp only [Bool.false_eq_true, false_and, if_false, List.nil_append] at h2
    have hne : ¬ (v ++ r = []) := by simp [hL.nonempty]
    cases first with
    | false =>
      simp only [Bool.false_eq_true, if_false] at hkey
      have hi' : i ≠ 0 := by intro e; have := hi e; simp at this
      refine ⟨utf8 v :: out, ?_, ?_⟩
      · exact wpDecodeLoop_cons _ _ _ _ (by rw [hkey]; exact wpDecodeTok_cont hi') h1
      · simp [h2]
    | true =>
      simp only [if_true] at hkey
      by_cases hi' : i = 0
      · subst hi'
        refine ⟨utf8 v :: out, ?_, ?_⟩
        · exact wpDecodeLoop_cons _ _ _ _ (by rw [hkey]; rfl) h1
        · simp [h2]
      · refine ⟨(0x20 :: utf8 v) :: out, ?_, ?_⟩
        · refine wpDecodeLoop_cons _ _ _ _ ?_ h1
          have hnp := hpre rfl hi' hne
          have : ¬ strFind (utf8 v) pre 0 = some 0 := by
            rw [strFind_zero]
            rintro ⟨z, hz⟩
            exact hnp ⟨z ++ utf8 r, by rw [utf8_append, ← hz]; simp⟩
          rw [hkey]; simp [wpDecodeTok, hi', this]
        · simp [h2, hi', hL.nonempty]

/-- **C50** Words segmented by WordPiece, decoded with the WordPiece decoder (cleanup off),
come back separated by single spaces.  Every word after the first must not begin with the
continuation prefix. -/
theorem C50_roundtrip (m : WordPiece) (ws : List WStr) (ss : List Str)
    (hs : Each (fun w s => Utf8Text w s) ws ss) (hne : ∀ w ∈ ws, w ≠ [])
    (hclean : ∀ w ∈ ws, CleanWord (tokenToId m.vocab) w)
    (hunk : ∀ w ∈ ws, (units w : Int) ≤ m.maxChars ∧ ¬ Stuck (tokenToId m.vocab) m.pre true w)
    (hpre : ∀ s ∈ ss.drop 1, ¬ m.pre <+: s) :
    ∃ out, (Decoder.wordPiece m.pre false).run (ss.flatMap fun s => (m.word s).map (·.value)) = .ok out ∧
      Utf8Text (spaced ws) out.flatten := by
  -- the words after the first
  have tail : ∀ (ws : List WStr) (ss : List Str), Each (fun w s => Utf8Text w s) ws ss →
      (∀ w ∈ ws, w ≠ []) → (∀ w ∈ ws, CleanWord (tokenToId m.vocab) w) →
      (∀ w ∈ ws, (units w : Int) ≤ m.maxChars ∧ ¬ Stuck (tokenToId m.vocab) m.pre true w) →
      (∀ s ∈ ss, ¬ m.pre <+: s) → ∀ k, ∃ xs, (∀ j, j ≠ 0 → k ≤ j →
        wpDecodeLoop m.pre false j (ss.flatMap fun s => (m.word s).map (·.value)) = .ok xs) ∧
        xs.flatten = utf8 (ws.flatMap fun w => 0x20 :: w) := by
    intro ws ss he
    induction he with
    | nil => intro _ _ _ _ k; exact ⟨[], fun j _ _ => by simp [wpDecodeLoop], rfl⟩
    | cons h1 _ ih =>
      rename_i w s ws ss _
      intro hne hcl hun hp k
      obtain ⟨hsc, rfl⟩ := utf8Text_iff.1 h1
      obtain ⟨xs, hx1, hx2⟩ := ih (fun w hw => hne w (by simp [hw])) (fun w hw => hcl w (by simp [hw]))
        (fun w hw => hun w (by simp [hw])) (fun s hs => hp s (by simp [hs])) 0
      obtain ⟨hu1, hu2⟩ := hun w (by simp)
      have hG : Greedy (tokenToId m.vocab) m.pre true 0 w (m.word (utf8 w)) := by
        rcases C12_C13_answer m (utf8 w) w h1 (hcl w (by simp)) with ⟨h, _⟩ | ⟨_, h, _⟩ | ⟨_, h⟩
        · omega
        · exact absurd h hu2
        · exact h
      have hdec := fun i (hi : i ≠ 0) => decode_greedy hG i (ss.flatMap fun s => (m.word s).map (·.value)) xs
        (by simp) (fun _ _ _ => hp _ (by simp)) (fun j hj _ => hx1 j hj (Nat.zero_le _))
        (fun h => absurd h (hne w (by simp)))
      -- the output does not depend on the (positive) index
      have hindep : ∀ (l : List Str) (i j : Nat), i ≠ 0 → j ≠ 0 →
          wpDecodeLoop m.pre false i l = wpDecodeLoop m.pre false j l := by
        intro l
        induction l with
        | nil => intro i j _ _; rfl
        | cons t l ihl =>
          intro i j hi hj
          have : wpDecodeTok m.pre false i t = wpDecodeTok m.pre false j t := by simp [wpDecodeTok, hi, hj]
          simp only [wpDecodeLoop, this, ihl (i + 1) (j + 1) (by simp) (by simp)]
      obtain ⟨out, h3, h4⟩ := hdec 1 (by simp)
      refine ⟨out, fun j hj _ => ?_, ?_⟩
      · rw [List.flatMap_cons, hindep _ j 1 hj (by simp)]; exact h3
      · rw [h4, hx2]; simp [hne w (by simp), utf8Enc1]
  have hspaced : ∀ (w : WStr) (ws : List WStr), spaced (w :: ws) = w ++ ws.flatMap fun w => 0x20 :: w := by
    intro w ws
    induction ws generalizing w with
    | nil => simp [spaced]
    | cons x ws ih => rw [spaced, ih]; simp; simp
  cases hs with
  | nil => exact ⟨[], by simp [Decoder.run, wpDecodeLoop], .nil⟩
  | cons h1 he =>
    rename_i w s ws ss
    obtain ⟨hsc, rfl⟩ := utf8Text_iff.1 h1
    obtain ⟨xs, hx1, hx2⟩ := tail ws ss he (fun w hw => hne w (by simp [hw])) (fun w hw => hclean w (by simp [hw]))
      (fun w hw => hunk w (by simp [hw])) (fun s hs => hpre s (by simpa using hs)) 0
    obtain ⟨hu1, hu2⟩ := hunk w (by simp)
    have hG : Greedy (tokenToId m.vocab) m.pre true 0 w (m.word (utf8 w)) := by
      rcases C12_C13_answer m (utf8 w) w h1 (hclean w (by simp)) with ⟨h, _⟩ | ⟨_, h, _⟩ | ⟨_, h⟩
      · omega
      · exact absurd h hu2
      · exact h
    obtain ⟨out, h3, h4⟩ := decode_greedy hG 0 (ss.flatMap fun s => (m.word s).map (·.value)) xs
      (by simp) (by simp) (fun j hj _ => hx1 j hj (Nat.zero_le _)) (fun h => absurd h (hne w (by simp)))
    refine ⟨out, by simpa [Decoder.run] using h3, utf8Text_iff.2 ⟨?_, ?_⟩⟩
    · rw [hspaced, Scalars.append]
      refine ⟨hsc, ?_⟩
      clear h3 h4 hG hx1 hx2 tail
      intro c hc
      simp only [List.mem_flatMap, List.mem_cons] at hc
      obtain ⟨v, hv, rfl | hc⟩ := hc
      · rfl
      · have : ∀ {ws : List WStr} {ss : List Str}, Each (fun w s => Utf8Text w s) ws ss → v ∈ ws → Scalars v := by
          intro ws ss he
          induction he with
          | nil => simp
          | cons h _ ih =>
            intro hv; simp at hv; rcases hv with rfl | hv
            · exact (utf8Text_iff.1 h).1
            · exact ih hv
        exact this he hv c hc
    · rw [h4, hspaced, hx2]; simp

/-- Segmenting a word greedily in the sample vocabulary. -/
theorem sampleWP_greedy (w : WStr) (s : Str) (hs : Utf8Text w s) (hlen : (units w : Int) ≤ 100)
    (hunk : sampleWP.word s ≠ UnkAnswer (tokenToId sampleWP.vocab) sampleWP.unkToken w) :
    ¬ Stuck (tokenToId sampleWP.vocab) sampleWP.pre true w := by
  rcases C12_C13_answer sampleWP s w hs (sampleWP_clean w) with ⟨h, _⟩ | ⟨_, _, h⟩ | ⟨_, h⟩
  · have : sampleWP.maxChars = 100 := rfl
    omega
  · exact absurd h hunk
  · exact C13_greedy_not_stuck h

example : ∃ out, (Decoder.wordPiece b!"##" false).run [b!"un", b!"##é😀", b!"##able", b!"una"] = .ok out ∧
    Utf8Text w!"uné😀able una" out.flatten :=
  C50_roundtrip sampleWP [w!"uné😀able", w!"una"] [b!"uné😀able", b!"una"]
    (.cons sample_text (.cons ((C02_to_string_iff _ _).1 (by decide)) .nil)) (by decide)
    (fun w _ => sampleWP_clean w)
    (by intro w hw
        simp only [List.mem_cons, List.not_mem_nil, or_false] at hw
        rcases hw with rfl | rfl
        · exact ⟨by decide, sampleWP_greedy _ _ sample_text (by decide) (by decide +kernel)⟩
        · exact ⟨by decide, sampleWP_greedy _ b!"una" ((C02_to_string_iff _ _).1 (by decide)) (by decide) (by decide +kernel)⟩)
    (by decide)

end Tok
