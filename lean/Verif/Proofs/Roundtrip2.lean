import Verif.Proofs.Roundtrip
import Verif.Props.WordPiece
import Verif.Props.Bert

set_option autoImplicit false

/-!
A text in which no added token occurs is left in one piece; the words of a spaced text.
-/

namespace Tok
open Spec

theorem rt_part_infix (w : WStr) (a b : Nat) : utf8 (part w a b) <:+: utf8 w := by
  have h : part w a b <:+: w := by
    unfold part
    exact ((List.take_prefix _ _).isInfix).trans (List.drop_suffix _ _).isInfix
  obtain ⟨x, y, e⟩ := h
  refine ⟨utf8 x, utf8 y, ?_⟩
  rw [← utf8_append, ← utf8_append, e]

theorem rt_findMatches_absent {a : AddedVocab} {T : List (Str × Int)} {w : WStr} (hw : Bmp w)
    (hT : ∀ p ∈ T, ¬ p.1 <:+: utf8 w) (hne : w ≠ []) : a.findMatches (utf8 w) T = (.ok [(none, (0, w.length))], a) := by
  have hu : fromUTF8 (utf8 w) = w := by rw [fromUTF8_utf8 (bmp_scalars hw), utf16_bmp hw]
  unfold AddedVocab.findMatches
  simp only [hu]
  have htext : scan (wordIds T) w w 0 0 = [] := by
    rw [List.eq_nil_iff_forall_not_mem]
    intro m hm
    have := wordIds_mem (scan_text (wordIds T) w w 0 0 m hm)
    have e : toUTF8String (tempSubString w m.1 (m.2.1 - m.1)) = utf8 (part w m.1 m.2.1) := by
      have hp : Bmp (part w m.1 m.2.1) := bmp_sub hw fun c hc => part_mem hc
      have := toUTF8String_utf16 (bmp_scalars hp)
      rw [utf16_bmp hp] at this
      exact this
    rw [e] at this
    exact hT _ this (rt_part_infix w _ _)
  rw [htext]
  simp only [matchSegs, touchIds]
  have : (0 : Nat) ≠ w.length := by have := List.length_pos_iff.2 hne; omega
  rw [if_pos this]

/-- A text without added tokens is one split, whatever the tables hold. -/
theorem rt_extract_absent (P : Platform) {a : AddedVocab} {w : WStr} (hw : Bmp w) (hne : w ≠ [])
    (hT : ∀ p ∈ a.nonNormTrie ++ a.normTrie, ¬ p.1 <:+: utf8 w) :
    ∃ ns, (a.extract P none w).1 = .ok { normalized := ns, splits := [{ normalized := utf8 w, offsets := (0, w.length) }] } := by
  have hs := bmp_scalars hw
  have hwsub : wsubstr w 0 w.length = .ok w := by simp [wsubstr]
  have hseg : segSplits w 0 [(none, (0, w.length))] = .ok [{ normalized := utf8 w, offsets := (0, w.length) }] := by
    simp only [segSplits, hwsub, res_ok_bind, convertToString_scalars hs, res_pure]
    rfl
  have hfirst : a.firstSplits w = (.ok { normalized := NS.ofText w, splits := [{ normalized := utf8 w, offsets := (0, w.length) }] }, a) := by
    unfold AddedVocab.firstSplits PTS.ofNS
    simp only [NS.ofText, convertToString_scalars hs, res_ok_bind, res_pure]
    rw [rt_findMatches_absent hw (fun p hp => hT p (List.mem_append_left _ hp)) hne]
    simp only [hseg, res_ok_bind]
    rfl
  unfold AddedVocab.extract
  rw [hfirst]
  simp only
  obtain ⟨ns2, htr⟩ : ∃ ns', (NS.ofText w).transformRange 0 w.length (NS.ofText w) = .ok ns' := by
    have hg : GT ([] ++ w.map byteLen ++ []) (NS.ofText w) := by
      rw [List.nil_append, List.append_nil, ← unitLens_bmp hw]; exact ofText_gt w
    obtain ⟨ns', h⟩ := transformRange_total hg (by simpa using hne) (ofText_bmp hw).1 (ofText_bmp hw).2
    simp only [List.length_nil, List.length_map, Nat.zero_add] at h
    exact ⟨ns', h⟩
  have hcf : convertFromString (utf8 w) = .ok w := (C02_from_string_iff _ _).2 (utf8Text_iff.2 ⟨hs, rfl⟩)
  have hnorm : normalizeSplit P none a (NS.ofText w) 0 { normalized := utf8 w, offsets := (0, w.length) } =
      (.ok (ns2, [{ normalized := utf8 w, offsets := (0, w.length) }], w.length), a) := by
    unfold normalizeSplit
    simp only [hcf, res_ok_bind, normalizeOpt, Nat.zero_add, Nat.not_lt_zero, if_false, Nat.sub_zero, htr]
    have htxt : convertToString (NS.ofText w).normalized = .ok (utf8 w) := convertToString_scalars hs
    simp only [htxt, res_ok_bind, res_pure]
    rw [rt_findMatches_absent hw (fun p hp => hT p (List.mem_append_right _ hp)) hne]
    simp only [res_ok_bind]
    have : (NS.ofText w).normalized = w := rfl
    rw [this, hseg]; rfl
  refine ⟨ns2, ?_⟩
  simp only [normalizeLoop, ne_eq, not_true_eq_false, if_false, hnorm]
  rfl

/-- The split that holds the whole text reaches the pre-tokenizer. -/
theorem rt_preTokenized_absent (P : Platform) (t : Tokenizer) {w : WStr} (hn : t.normalizer = none ∨ t.added = none)
    (hw : ∀ c ∈ w, Scalar c) (hT : ∀ a, t.added = some a → Bmp w ∧ w ≠ [] ∧ ∀ p ∈ a.nonNormTrie ++ a.normTrie, ¬ p.1 <:+: utf8 w) :
    ∃ ns, (t.preTokenized P w).1 =
      (match t.preTokenizer with
       | none => .ok { normalized := ns, splits := [{ normalized := utf8 w, offsets := (0, w.length) }] }
       | some pt => pt.run P { normalized := ns, splits := [{ normalized := utf8 w, offsets := (0, w.length) }] }) := by
  have hs : Scalars w := scalars_iff.1 hw
  unfold Tokenizer.preTokenized PTS.ofNS
  have htxt : convertToString (NS.ofText w).normalized = .ok (utf8 w) := convertToString_scalars hs
  rw [htxt]
  simp only [res_ok_bind, res_pure]
  cases ha : t.added with
  | none => exact ⟨NS.ofText w, by simp only [res_ok_bind]; rfl⟩
  | some a =>
    obtain ⟨h1, h2, h3⟩ := hT a ha
    obtain ⟨ns, h⟩ := rt_extract_absent P h1 h2 h3
    have hn' : t.normalizer = none := by rcases hn with h | h; exact h; rw [ha] at h; cases h
    refine ⟨ns, ?_⟩
    simp only [hn']
    rw [h]
    rfl

/-! ### The words of a spaced text -/

theorem rt_wsWords_word {space : Nat → Bool} : ∀ (x cur : WStr) (start : Nat) (r : WStr), (∀ c ∈ x, space c = false) →
    wsWords space start cur (x ++ r) = wsWords space start (cur ++ x) r := by
  intro x
  induction x with
  | nil => intro cur start r _; simp
  | cons c x ih =>
    intro cur start r h
    rw [List.cons_append, wsWords, h c (by simp)]
    simp only [Bool.false_eq_true, if_false]
    rw [ih _ _ _ fun c hc => h c (by simp [hc])]
    simp

theorem rt_punct_word {punct : Nat → Bool} : ∀ (x cur : WStr) (start : Nat), (∀ c ∈ x, punct c = false) →
    punctWords punct start cur x = flush start (cur ++ x) := by
  intro x
  induction x with
  | nil => intro cur start _; simp [punctWords]
  | cons c x ih =>
    intro cur start h
    rw [punctWords, h c (by simp)]
    simp only [Bool.false_eq_true, if_false]
    rw [ih _ _ fun c hc => h c (by simp [hc])]
    simp

/-- The pieces BERT pre-tokenization finds in words separated by single spaces are the words. -/
theorem rt_bertPieces {space punct : Nat → Bool} (hsp : space 0x20 = true) : ∀ (ws : List WStr) (start : Nat),
    (∀ w ∈ ws, w ≠ [] ∧ ∀ c ∈ w, space c = false ∧ punct c = false) →
    ((wsWords space start [] (spaced ws)).flatMap fun (a, x) => (punctWords punct 0 [] x).map fun (b, y) => (a + b, y)).map (·.2) = ws := by
  have one : ∀ (w : WStr) (a : Nat), (w ≠ [] ∧ ∀ c ∈ w, space c = false ∧ punct c = false) →
      ((flush a w).flatMap fun (a, x) => (punctWords punct 0 [] x).map fun (b, y) => (a + b, y)) = [(a, w)] := by
    intro w a h
    simp only [flush, if_neg h.1, List.flatMap_cons, List.flatMap_nil, List.append_nil]
    rw [rt_punct_word w [] 0 fun c hc => (h.2 c hc).2]
    simp [flush, h.1]
  intro ws
  induction ws with
  | nil => intro start _; simp [spaced, wsWords, flush]
  | cons w ws ih =>
    intro start h
    have hw := h w (by simp)
    cases ws with
    | nil =>
      have := rt_wsWords_word (space := space) w [] start [] fun c hc => (hw.2 c hc).1
      rw [List.append_nil, List.nil_append] at this
      simp only [spaced]
      rw [this, wsWords, one w start hw]; rfl
    | cons w' ws' =>
      simp only [spaced]
      rw [rt_wsWords_word _ _ _ _ fun c hc => (hw.2 c hc).1, List.nil_append, wsWords, if_pos hsp, List.flatMap_append,
        List.map_append, one w start hw, ih _ fun w hw => h w (by simp [hw])]
      rfl

theorem rt_each_map {α β γ : Type} {R : β → γ → Prop} {f : α → β} : ∀ {l : List α} {m : List γ},
    Each (fun a c => R (f a) c) l m → Each R (l.map f) m := by
  intro l m h
  induction h with
  | nil => exact .nil
  | cons h _ ih => exact .cons h ih

/-- The splits of such a text are the words. -/
theorem rt_bert_words (P : Platform) (hsp : P.reSpace 0x20 = true) (ws : List WStr) (ns : NS) (hs : Scalars (spaced ws))
    (h : ∀ w ∈ ws, w ≠ [] ∧ ∀ c ∈ w, P.reSpace c = false ∧ P.rePunct c = false) :
    ∃ p, PreTokenizer.bert.run P { normalized := ns, splits := [{ normalized := utf8 (spaced ws), offsets := (0, (spaced ws).length) }] } = .ok p ∧
      Each (fun w (q : Split) => Utf8Text w q.normalized) ws p.splits := by
  have ht : Utf8Text (spaced ws) (utf8 (spaced ws)) := utf8Text_iff.2 ⟨hs, rfl⟩
  obtain ⟨p, parts, h1, _, h3, h4⟩ := C09_bert_pieces P
    { normalized := ns, splits := [{ normalized := utf8 (spaced ws), offsets := (0, (spaced ws).length) }] }
    (by intro s hs'; simp only [List.mem_singleton] at hs'; subst hs'; exact ⟨_, ht⟩)
  refine ⟨p, h1, ?_⟩
  rw [h3]
  cases h4 with
  | @cons _ part _ _ hb hnil =>
    cases hnil
    rcases hb with ⟨hb, _⟩ | ⟨_, w, hw, he⟩
    · exact absurd rfl hb
    · have hw' : Utf8Text w (utf8 (spaced ws)) := hw
      have hscal := (utf8Text_iff.1 hw')
      have e : w = spaced ws := utf8_injective hscal.1 hs hscal.2.symm
      subst e
      have hp := rt_bertPieces hsp ws 0 h (punct := P.rePunct)
      have he' : Each (fun (x : Nat × WStr) (q : Split) => Utf8Text x.2 q.normalized)
          (bertPieces P.reSpace P.rePunct (spaced ws)) part := by
        refine Each.imp ?_ he
        intro a b h; exact h.2.1
      have := rt_each_map (f := fun x : Nat × WStr => x.2) (R := fun w (q : Split) => Utf8Text w q.normalized) he'
      unfold bertPieces at this
      rw [hp] at this
      simpa using this

end Tok
