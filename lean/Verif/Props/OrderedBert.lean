import Verif.Props.Ordered
import Verif.Props.Traced

set_option autoImplicit false

/-!
C88 behind a BERT normalizer.
-/

namespace Tok
open Spec

theorem ob_low {g : Nat → WStr} {i : Nat} {w w' : WStr} {pos : List Nat} (h : Traced g i w w' pos) : ∀ o ∈ pos, i ≤ o := by
  induction h with
  | nil => simp
  | @kept i c w w' pos _ ih =>
    intro o ho
    rcases List.mem_cons.1 ho with rfl | ho
    · exact Nat.le_refl _
    · have := ih o ho; omega
  | @changed i c w w' pos _ ih =>
    intro o ho
    rcases List.mem_append.1 ho with ho | ho
    · obtain ⟨_, _, rfl⟩ := List.mem_map.1 ho; exact Nat.le_refl _
    · have := ih o ho; omega

/-- Characters other than the space come from different characters, in order. -/
theorem ob_strict {g : Nat → WStr} {i : Nat} {w w' : WStr} {pos : List Nat} (h : Traced g i w w' pos) (hs : ∀ c ∈ w, Simple g c) :
    ((w'.zip pos).filter fun p => p.1 ≠ 0x20).Pairwise (fun p q => p.2 < q.2) := by
  induction h with
  | nil => exact .nil
  | @kept i c w w' pos h ih =>
    have ih := ih fun c hc => hs c (by simp [hc])
    have low : ∀ p ∈ (w'.zip pos).filter fun p => p.1 ≠ 0x20, i < p.2 := by
      intro p hp
      have := ob_low h p.2 (List.of_mem_zip (List.mem_filter.1 hp).1).2
      omega
    rw [List.zip_cons_cons, List.filter_cons]
    split
    · exact List.pairwise_cons.2 ⟨low, ih⟩
    · exact ih
  | @changed i c w w' pos h ih =>
    have ih := ih fun c hc => hs c (by simp [hc])
    have low : ∀ p ∈ (w'.zip pos).filter fun p => p.1 ≠ 0x20, i < p.2 := by
      intro p hp
      have := ob_low h p.2 (List.of_mem_zip (List.mem_filter.1 hp).1).2
      omega
    rcases hs c (by simp) with ⟨x, hx⟩ | ⟨x, hx⟩
    · rw [hx]
      simp only [List.map_cons, List.map_nil, List.cons_append, List.nil_append, List.zip_cons_cons, List.filter_cons]
      split
      · exact List.pairwise_cons.2 ⟨low, ih⟩
      · exact ih
    · rw [hx]
      simp only [List.map_cons, List.map_nil, List.cons_append, List.nil_append, List.zip_cons_cons]
      rw [List.filter_cons_of_neg (by simp), List.filter_cons]
      split
      · rw [List.filter_cons_of_neg (by simp)]
        exact List.pairwise_cons.2 ⟨low, ih⟩
      · rw [List.filter_cons_of_neg (by simp)]
        exact ih

theorem ob_index {g : Nat → WStr} {w w' : WStr} {pos : List Nat} (h : Traced g 0 w w' pos) (hs : ∀ c ∈ w, Simple g c)
    {x y c d p q : Nat} (hxy : x < y) (hc : w'[x]? = some c) (hd : w'[y]? = some d) (hp : pos[x]? = some p) (hq : pos[y]? = some q)
    (hc' : c ≠ 0x20) (hd' : d ≠ 0x20) : p < q := by
  have := ob_strict h hs
  rw [List.pairwise_filter] at this
  have zx : (w'.zip pos)[x]? = some (c, p) := by rw [List.getElem?_zip_eq_some]; exact ⟨hc, hp⟩
  have zy : (w'.zip pos)[y]? = some (d, q) := by rw [List.getElem?_zip_eq_some]; exact ⟨hd, hq⟩
  obtain ⟨hx', ex⟩ := List.getElem?_eq_some_iff.1 zx
  obtain ⟨hy', ey⟩ := List.getElem?_eq_some_iff.1 zy
  have := (List.pairwise_iff_getElem.1 this) x y hx' hy' hxy
  rw [ex, ey] at this
  exact this (by simpa using hc') (by simpa using hd')

/-- The `k`-th character of a stretch without spaces comes from at least `k` characters after the first one. -/
theorem ob_far {g : Nat → WStr} {w w' : WStr} {pos : List Nat} (h : Traced g 0 w w' pos) (hs : ∀ c ∈ w, Simple g c)
    (hlen : pos.length = w'.length) {x n p : Nat} (hp : pos[x]? = some p) (hv : ∀ k, k < n → ∃ c, w'[x + k]? = some c ∧ c ≠ 0x20) :
    ∀ k, k < n → ∃ q, pos[x + k]? = some q ∧ p + k ≤ q := by
  intro k
  induction k with
  | zero => intro _; exact ⟨p, by simpa using hp, by omega⟩
  | succ k ih =>
    intro hk
    obtain ⟨q, h1, h2⟩ := ih (by omega)
    obtain ⟨c, c1, c2⟩ := hv k (by omega)
    obtain ⟨d, d1, d2⟩ := hv (k + 1) hk
    have hl : x + (k + 1) < pos.length := by rw [hlen]; exact (List.getElem?_eq_some_iff.1 d1).1
    have hq' : pos[x + (k + 1)]? = some pos[x + (k + 1)] := List.getElem?_eq_getElem hl
    have := ob_index h hs (by omega) c1 d1 h1 hq' c2 d2
    exact ⟨_, hq', by omega⟩

theorem ob_rows {g : Nat → WStr} {w w' : WStr} {es : List (Nat × Nat)} (h : Traced g 0 w w' (es.map (·.2))) (hs : ∀ c ∈ w, Simple g c)
    (hlen : es.length = w'.length) (hb : Bmp w') {ns : NS} (htbl : Tbl es ns) {k : Nat} {l : List Split} {rows : List Row} (hr : TextRows ns k l rows) :
    ∀ {a e : Nat}, Laid w' a e l →
    (∀ s ∈ l, ∀ v, HasText s v → v ≠ [] ∧ (∀ c ∈ v, c ≠ 0x20) ∧ Ordered (units v) 0 (s.tokens.map (·.offsets))) →
    ∀ B : Nat, (∀ y d q, a ≤ y → w'[y]? = some d → d ≠ 0x20 → (es.map (·.2))[y]? = some q → B ≤ q) →
    rows.Pairwise (fun r r' => r.offsets.2 ≤ r'.offsets.1) ∧
    ∀ r ∈ rows, (B : Int) ≤ r.offsets.1 ∧ r.offsets.1 ≤ r.offsets.2 ∧ r.offsets.2 ≤ w.length := by
  induction hr with
  | nil => intro a e _ _ _ _; exact ⟨.nil, by simp⟩
  | @cons k s l rows gg o h1 h2 _ ih =>
    intro a e hl ht B hB
    cases hl with
    | @cons _ b _ _ v _ l1 l2 l3 l4 =>
      obtain ⟨t0, t1, t2⟩ := ht s (by simp) v l3
      obtain ⟨X, Y, hw', ex, eb⟩ := l2
      have hbX : Bmp X := bmp_sub hb fun c hc => by rw [hw']; simp [hc]
      have hbv : Bmp v := bmp_sub hb fun c hc => by rw [hw']; simp [hc]
      have hu : units v = v.length := units_bmp hbv
      rw [units_bmp hbX] at ex eb
      rw [hu] at t2
      have hvpos : 0 < v.length := List.length_pos_iff.2 t0
      have hchar : ∀ k, k < v.length → ∃ c, w'[X.length + k]? = some c ∧ c ≠ 0x20 := by
        intro k hk
        refine ⟨v[k], ?_, t1 _ (List.getElem_mem hk)⟩
        rw [hw', List.append_assoc, List.getElem?_append_right (by omega), show X.length + k - X.length = k by omega,
          List.getElem?_append_left hk]
        exact List.getElem?_eq_getElem hk
      have hwl : X.length + v.length ≤ w'.length := by rw [hw']; simp
      have hi : s.offsets.1 < es.length := by rw [hlen]; omega
      obtain ⟨g', hg', ho'⟩ := htbl.lookup hi
      rw [h1] at hg'; cases hg'
      rw [h2] at ho'; cases ho'
      have hp : (es.map (·.2))[X.length]? = some es[s.offsets.1].2 := by simp [← ex, hi]
      generalize es[s.offsets.1].2 = p at hp h2 ⊢
      have far := ob_far h hs (by simpa using hlen) hp hchar
      obtain ⟨q, q1, q2⟩ := far (v.length - 1) (by omega)
      have hqw := traced_pos h q (List.mem_of_getElem? q1)
      have hBp : B ≤ p := by
        obtain ⟨c, c1, c2⟩ := hchar 0 hvpos
        exact hB X.length c p (by omega) (by simpa using c1) c2 hp
      obtain ⟨i1, i2⟩ := ih l4 (fun s hs => ht s (by simp [hs])) (p + v.length) (by
        intro y d r hy hd hd' hr
        obtain ⟨c, c1, c2⟩ := hchar (v.length - 1) (by omega)
        have := ob_index h hs (by rw [hu] at eb; omega) c1 hd q1 hr c2 hd'
        omega)
      obtain ⟨u1, u2, _⟩ := od_token t2
      have key : ∀ r ∈ s.tokens.map (textRow k p), (p : Int) ≤ r.offsets.1 ∧ r.offsets.1 ≤ r.offsets.2 ∧ r.offsets.2 ≤ p + v.length := by
        intro r hr
        obtain ⟨tk, htk, rfl⟩ := List.mem_map.1 hr
        have := u1 _ (List.mem_map_of_mem htk)
        simp only [textRow]
        omega
      refine ⟨List.pairwise_append.2 ⟨?_, i1, ?_⟩, ?_⟩
      · rw [List.pairwise_map] at u2 ⊢
        refine u2.imp ?_
        intro x y hxy
        simp only [textRow]; omega
      · intro r hr r' hr'
        have := key r hr; have := i2 r' hr'; omega
      · intro r hr
        rcases List.mem_append.1 hr with hr | hr
        · have := key r hr; omega
        · have := i2 r hr; omega

/-- **C88 behind a BERT normalizer** (partial: text that is not dropped or decomposed, as in C74).  BERT normalizer, BERT pre-tokenizer, WordPiece,
added tokens without spaces that do not strip: the offsets of the tokens of the text lie in the text and follow each other without overlap, also
when ideographs were padded, when offsets are trimmed, and in every overflowing window. -/
theorem C88_bert_partial (P : Platform) (t : Tokenizer) (m : WordPiece) (a : AddedVocab) (w : WStr)
    (b clean cjk strip lower : Bool) (e : Encoding) (hS : ∀ s ∈ Specials t, s.ids.length = s.tokens.length)
    (hO : ∀ p, t.postProcessor = some p → SequenceOnce p)
    (ha : t.added = some a) (hn : t.normalizer = some (.bert clean cjk strip lower))
    (hw : BertText P clean cjk strip lower a w) (hsp : P.reSpace 0x20 = true)
    (hns : ∀ i t, mapFind a.mapR i = some t → t.lstrip = false ∧ t.rstrip = false)
    (hnb : ∀ p ∈ a.nonNormTrie ++ a.normTrie, ∀ c ∈ p.1, c ≠ 0x20)
    (hpt : t.preTokenizer = some .bert) (hm : t.model = some (.wordPiece m)) (h : (t.encode P w b).1 = .ok e) :
    ∀ x, x = e.toEnc ∨ x ∈ e.overflowing → InOrder (units w) x := by
  obtain ⟨q, text, ⟨p, hp, hqp⟩, ht, g1, g2⟩ := encode_rows hS h
  obtain ⟨p0, w', es, h1, h2, h3, h4, h5, h6, h7, hbw, _⟩ := preTokenized_bert P ha hn hw
  rw [hm] at hqp
  simp only [Model.tokenize, Except.ok.injEq] at hqp
  rw [hpt, hp] at h1
  replace h1 : Except.ok p = PreTokenizer.run P .bert p0 := h1
  have hlaid : Laid w' 0 (units w') p.splits := preTokenizer_laid P .bert trivial p0 p (h5.laid hbw [] rfl rfl) h1.symm
  have htext : ∀ s ∈ p0.splits, ∃ w, HasText s w := fun s hs => by
    obtain ⟨_, v, _, hv⟩ := h5.located hbw [] rfl rfl s hs
    exact ⟨v, hv⟩
  obtain ⟨p', parts, k1, k0, k2, k3⟩ := C09_bert_pieces P p0 htext
  rw [k1] at h1
  cases h1
  have utf8ne : ∀ {s : Split} {v : WStr}, HasText s v → s.normalized ≠ [] → v ≠ [] := by
    rintro s v hv hne rfl
    exact hne (utf8Text_iff.1 hv).2
  have hmid : ∀ s ∈ p.splits, ∀ v, HasText s v → v ≠ [] ∧ ∀ c ∈ v, c ≠ 0x20 := by
    intro s hs v hv
    have main : s.normalized ≠ [] ∧ ∀ c ∈ s.normalized, c ≠ 0x20 := by
      rw [k2] at hs
      obtain ⟨part, hpart, hs⟩ := List.mem_flatten.1 hs
      obtain ⟨s0, hs0, hb⟩ := each_mem_right k3 part hpart
      rcases hb with ⟨ht, rfl⟩ | ⟨_, v, hv, hE⟩
      · obtain rfl := List.mem_singleton.1 hs
        refine ⟨h6 s hs0, ?_⟩
        rcases h7 s hs0 with h7 | ⟨i, k, l, r, i1, i2, _, _, i3, i4, _⟩
        · exact absurd h7 ht
        · have hl : l = [] := by
            refine Classical.byContradiction fun hl => ?_
            obtain ⟨t, t1, t2⟩ := i3 hl
            rw [(hns i t t1).1] at t2; cases t2
          have hr : r = [] := by
            refine Classical.byContradiction fun hr => ?_
            obtain ⟨t, t1, t2⟩ := i4 hr
            rw [(hns i t t1).2] at t2; cases t2
          rw [i2, hl, hr]
          simpa using hnb _ i1
      · obtain ⟨x, hx, _, hxt, _⟩ := each_mem_right hE s hs
        have hpost := (C09_pieces_postcondition P.reSpace P.rePunct v).1 x hx
        refine ⟨?_, no_space hxt fun c hc hcc => ?_⟩
        · intro he
          obtain ⟨_, e2⟩ := utf8Text_iff.1 hxt
          rw [he] at e2
          exact utf8_ne hpost.1 e2.symm
        · have := hpost.2.1 c hc
          rw [hcc, hsp] at this; cases this
    refine ⟨utf8ne hv main.1, fun c hc hcc => ?_⟩
    subst hcc
    obtain ⟨_, hsn⟩ := utf8Text_iff.1 hv
    refine main.2 0x20 ?_ rfl
    rw [hsn]
    exact List.mem_flatMap.2 ⟨0x20, hc, by decide⟩
  have hsplits := wordPiece_splits m p
  rw [hqp] at hsplits
  have htbl : Tbl es q.normalized := by rw [hsplits.1, k0]; exact h4
  have hl := hlaid.each (Each.imp (fun _ _ h => ⟨h.1, h.2.1⟩) hsplits.2)
  have hsimple : ∀ c ∈ w, Simple (bertChar P clean cjk lower) c := fun c _ => bert_simple hw.space c
  obtain ⟨r1, r2⟩ := ob_rows h2 hsimple h3 hbw htbl ht hl (by
    intro s hs v hv
    obtain ⟨s0, hs0, d1, _, d3⟩ := each_mem_right hsplits.2 s hs
    have hv0 : HasText s0 v := by unfold HasText at hv ⊢; rw [← d1]; exact hv
    obtain ⟨n1, n2⟩ := hmid s0 hs0 v hv0
    refine ⟨n1, n2, ?_⟩
    rw [d3]; exact od_wordPiece m hv0) 0 (fun _ _ _ _ _ _ _ => Nat.zero_le _)
  have r2' : ∀ r ∈ text, (0 : Int) ≤ r.offsets.1 ∧ r.offsets.1 ≤ r.offsets.2 ∧ r.offsets.2 ≤ (units w : Nat) := by
    rw [units_bmp hw.before.1]
    intro r hr
    have := r2 r hr
    omega
  rintro x (rfl | hx)
  · exact od_good r1 r2' hO g1
  · exact od_good r1 r2' hO (g2 x hx)

/-- The hypotheses are met. -/
example : ∃ e, ((uncasedTk true true true true).encode ascii w!"HELLOs [X] \u4e2dB \u4e2d!" true).1 = .ok e ∧
    e.offsets = [(0, 5), (5, 6), (7, 10), (11, 12), (12, 13), (14, 15), (15, 16)] ∧
    ∀ x, x = e.toEnc ∨ x ∈ e.overflowing → InOrder (units w!"HELLOs [X] \u4e2dB \u4e2d!") x := by
  obtain ⟨e, he⟩ := C73_bert_partial ascii (uncasedTk true true true true) _ w!"HELLOs [X] \u4e2dB \u4e2d!" true _ _ _ _
    rfl rfl uncased_text (fun pt h => by cases h; exact .cuts (by unfold CutsCleanly; trivial)) ⟨fun _ h => (by cases h), fun _ h => (by cases h), fun _ h => (by cases h)⟩ (.inr ⟨_, rfl⟩)
  refine ⟨e, he, ?_, C88_bert_partial ascii (uncasedTk true true true true) _ _ _ _ _ _ _ _ e (by intro s hs; cases hs) (fun p h => by cases h) rfl rfl uncased_text rfl
      (fun i t h => by cases h) (by decide) rfl rfl he⟩
  have : ((uncasedTk true true true true).encode ascii w!"HELLOs [X] \u4e2dB \u4e2d!" true).1.map (·.offsets) =
    .ok [(0, 5), (5, 6), (7, 10), (11, 12), (12, 13), (14, 15), (15, 16)] := by decide +kernel
  rw [he] at this
  exact Except.ok.inj this

/-- A platform whose compatibility decomposition takes the ligature U+FB03 apart. -/
def ligaturePlatform : Platform := { spacePlatform with nf := fun f w => if f = .nfkd then w.flatMap fun c => if c = 0xFB03 then w!"ffi" else [c] else w }

/-- A tokenizer with the normalizer NFKD. -/
def ligatureTk : Tokenizer :=
  { model := some (.wordPiece { vocab := [(b!"[UNK]", 0), (b!"ffi", 1), (b!"a", 2)], unkToken := b!"[UNK]", maxChars := 100, pre := b!"##" })
    added := some (AddedVocab.init [])
    normalizer := some (.nf .nfkd)
    preTokenizer := some .bert }

/-- **C88 is violated** behind a normalizer that makes several characters of one: the three characters made from a ligature are counted from its
place, so that the token overlaps the next one, or leaves the text. -/
theorem C88_violated_normalizer :
    (ligatureTk.encode ligaturePlatform w!"\ufb03 a" true).1.map (fun e => (e.tokens, e.offsets)) = .ok ([b!"ffi", b!"a"], [(0, 3), (2, 3)]) ∧
    (ligatureTk.encode ligaturePlatform w!"\ufb03" true).1.map (fun e => (e.tokens, e.offsets)) = .ok ([b!"ffi"], [(0, 3)]) ∧
    units w!"\ufb03" = 1 := by
  refine ⟨?_, ?_, ?_⟩ <;> decide +kernel

end Tok
