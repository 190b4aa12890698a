import Verif.Proofs.Traced3
import Verif.Props.Total

set_option autoImplicit false

/-!
C74: offsets under BERT normalization; C73 with a BERT normalizer.
-/

namespace Tok
open Spec

/-- **C73 with a BERT normalizer and added tokens** (partial: text that is not dropped or decomposed).  `encode` returns. -/
theorem C73_bert_partial (P : Platform) (t : Tokenizer) (a : AddedVocab) (w : WStr) (b clean cjk strip lower : Bool)
    (ha : t.added = some a) (hn : t.normalizer = some (.bert clean cjk strip lower))
    (hw : BertText P clean cjk strip lower a w)
    (hpt : ∀ pt, t.preTokenizer = some pt → SafePre P (w ++ w.flatMap (bertChar P clean cjk lower)) pt) (hend : SafeEnd t)
    (hm : t.model = none ∨ ∃ m, t.model = some (.wordPiece m)) : ∃ e, (t.encode P w b).1 = .ok e := by
  obtain ⟨p0, w', es, h1, h2, h3, h4, h5, h6, h7, hbw, hmem⟩ := preTokenized_bert P ha hn hw
  have hfill : ∀ s ∈ p0.splits, Filled es.length (Ascii (w ++ w.flatMap (bertChar P clean cjk lower))) s := by
    have gen : ∀ (r : WStr) (pos : Nat) (l : List Split), Placed r pos l → (∀ c ∈ r, c ∈ w') → pos + r.length ≤ w'.length →
        (∀ s ∈ l, s.normalized ≠ []) → ∀ s ∈ l, Filled es.length (Ascii (w ++ w.flatMap (bertChar P clean cjk lower))) s := by
      intro r pos l h
      induction h with
      | nil => simp
      | @cons v r pos s l g1 g2 _ ih =>
        intro hm hb hne q hq
        have hbv : Bmp v := bmp_sub hbw fun c hcv => hm c (by simp [hcv])
        simp only [List.length_append] at hb
        rcases List.mem_cons.1 hq with rfl | hq
        · refine ⟨v, ?_, bmp_scalars hbv, g1, ?_, fun ha c hcv => ha c (hmem c (hm c (by simp [hcv])))⟩
          · rintro rfl; exact hne q (by simp) (by rw [g1]; rfl)
          · rw [g2, units_bmp hbv, h3]; simp only; omega
        · exact ih (fun c hcr => hm c (by simp [hcr])) (by omega) (fun s hs => hne s (by simp [hs])) q hq
    exact gen w' 0 _ h5 (fun _ h => h) (by omega) h6
  obtain ⟨p, e1, e2, e3⟩ : ∃ p, (t.preTokenized P w).1 = .ok p ∧ p.normalized = p0.normalized ∧ ∀ s ∈ p.splits, Startable es.length s := by
    rw [h1]
    cases hq : t.preTokenizer with
    | none => exact ⟨p0, rfl, rfl, fun s hs => (hfill s hs).startable⟩
    | some pt => exact safePre_total P (hpt pt hq) p0 hfill
  rw [← e2] at h4
  rcases hm with hm | ⟨m, hm⟩
  · exact encode_total_tbl hend ⟨p, e1, by rw [hm]⟩ h4 fun s hs => (e3 s hs).1
  · refine encode_total_tbl (q := m.tokenize p) hend ⟨p, e1, by rw [hm]; rfl⟩ h4 fun s hs => ?_
    obtain ⟨s0, hs0, rfl⟩ := List.mem_map.1 hs
    exact (e3 s0 hs0).1

theorem traced_pos {g : Nat → WStr} {i : Nat} {w w' : WStr} {pos : List Nat} (h : Traced g i w w' pos) :
    ∀ o ∈ pos, o < i + w.length := by
  induction h with
  | nil => simp
  | @kept i c w w' pos _ ih =>
    intro o ho
    simp only [List.length_cons]
    rcases List.mem_cons.1 ho with rfl | ho
    · omega
    · have := ih o ho; omega
  | @changed i c w w' pos _ ih =>
    intro o ho
    simp only [List.length_cons]
    rcases List.mem_append.1 ho with ho | ho
    · obtain ⟨_, _, rfl⟩ := List.mem_map.1 ho; omega
    · have := ih o ho; omega

/-- Where a stretch of a stretch of the normalized text comes from. -/
theorem stretch_origin {g : Nat → WStr} {w w' : WStr} {pos : List Nat} (h : Traced g 0 w w' pos) (hs : ∀ c ∈ w, Simple g c)
    (hb : Bmp w) (hb' : Bmp w') {x y c d : Nat} {v v1 : WStr} (h1 : PartOf w' x y v) (h2 : PartOf v c d v1) (hv0 : v ≠ [])
    (hv : (∀ c ∈ v, c ≠ 0x20) ∨ (∀ c ∈ w, ∃ x, g c = [x])) {o : Nat} (ho : pos[x]? = some o) :
    ∃ u, PartOf w (o + c) (o + d) u ∧ MadeFrom g u v1 := by
  obtain ⟨X, Y, rfl, rfl, rfl⟩ := h1
  have hbX : Bmp X := bmp_sub hb' fun c hc => by simp [hc]
  have hbv : Bmp v := bmp_sub hb' fun c hc => by simp [hc]
  obtain ⟨l, u, r, rfl, hu, hp⟩ := traced_stretch h hs X v Y (by simp) hv0 hv
  rw [units_bmp hbX] at ho
  rw [hp] at ho
  obtain ⟨L, R, rfl, rfl, rfl⟩ := h2
  rw [List.append_assoc] at hu
  obtain ⟨u1, u23, rfl, m1, m23⟩ := madeFrom_split hu
  obtain ⟨u2, u3, rfl, m2, m3⟩ := madeFrom_split m23
  have hl : o = l.length := by simpa using (Option.some.inj ho).symm
  have b1 : Bmp l := bmp_sub hb fun c hc => by simp [hc]
  have b2 : Bmp u1 := bmp_sub hb fun c hc => by simp [hc]
  have b3 : Bmp u2 := bmp_sub hb fun c hc => by simp [hc]
  have c1 : Bmp L := bmp_sub hbv fun c hc => by simp [hc]
  have c2 : Bmp v1 := bmp_sub hbv fun c hc => by simp [hc]
  refine ⟨u2, ⟨l ++ u1, u3 ++ r, by simp, ?_, ?_⟩, m2⟩
  · rw [units_append, units_bmp b1, units_bmp b2, units_bmp c1, hl, madeFrom_length m1]
  · rw [units_append, units_bmp b1, units_bmp b2, units_bmp c1, units_bmp b3, units_bmp c2, hl, madeFrom_length m1,
      madeFrom_length m2]; omega

/-- **C74** (partial: text that is not dropped or decomposed, no offset trimming).  With a BERT normalizer and WordPiece, the
text between the offsets of every token of the text is what the token (without continuation prefix) was made from by
cleaning and lower-casing; for the unknown token, what a pre-token was made from.  If ideographs are padded, this is claimed
only when no pre-token has a space in it. -/
theorem C74_wordPiece_partial (P : Platform) (t : Tokenizer) (m : WordPiece) (a : AddedVocab) (w : WStr)
    (b clean cjk strip lower : Bool) (e : Encoding) (hS : ∀ s ∈ Specials t, s.ids.length = s.tokens.length)
    (ha : t.added = some a) (hn : t.normalizer = some (.bert clean cjk strip lower))
    (hw : BertText P clean cjk strip lower a w)
    (hpt : ∀ pt, t.preTokenizer = some pt → OnlyCuts P pt) (hm : t.model = some (.wordPiece m))
    (htr : ∀ p, t.postProcessor = some p → ¬ Trims p) (h : (t.encode P w b).1 = .ok e) :
    ∃ q, TokenizedInto P t w q ∧
      ((cjk = false ∨ ∀ s ∈ q.splits, ∀ c ∈ s.normalized, c ≠ 0x20) → ∀ i : Nat, e.specialTokensMask[i]? = some 0 →
      ∃ tok o u v, e.tokens[i]? = some tok ∧ e.offsets[i]? = some o ∧ TextAt w o u ∧ MadeFrom (bertChar P clean cjk lower) u v ∧
        ((∃ f, PieceKey m.pre f v tok) ∨ (tok = m.unkToken ∧ ∃ s ∈ q.splits, HasText s v))) := by
  obtain ⟨q, text, hq, ht, hr1, _⟩ := encode_rows hS h
  refine ⟨q, hq, fun hsp => ?_⟩
  obtain ⟨p0, w', es, h1, h2, h3, h4, h5, h6, h7, hbw, hmem⟩ := preTokenized_bert P ha hn hw
  obtain ⟨p, hp, hqp⟩ := hq
  rw [hm] at hqp
  simp only [Model.tokenize, Except.ok.injEq] at hqp
  have hloc : p.normalized = p0.normalized ∧ ∀ s ∈ p.splits, Located w' s := by
    have h0 : ∀ s ∈ p0.splits, Located w' s := h5.located hbw [] rfl rfl
    rw [hp] at h1
    cases hpt' : t.preTokenizer with
    | none => rw [hpt'] at h1; cases h1; exact ⟨rfl, h0⟩
    | some pt =>
      rw [hpt'] at h1
      exact preTokenizer_located P pt (hpt pt hpt') p0 p h0 h1.symm
  have hsplits := wordPiece_splits m p
  rw [hqp] at hsplits
  have htbl : Tbl es q.normalized := by rw [hsplits.1, hloc.1]; exact h4
  obtain ⟨rows, ⟨hids, hty, htk, hwd, ho, hspm, hat⟩, hk, _⟩ := hr1
  intro i hi
  rw [hspm, List.getElem?_map, Option.map_eq_some_iff] at hi
  obtain ⟨r, hr, h0⟩ := hi
  have hnt : ¬ ∃ p, t.postProcessor = some p ∧ Trims p := fun ⟨p, hp, ht⟩ => htr p hp ht
  cases hk r (List.mem_of_getElem? hr) with
  | special _ _ _ _ _ _ _ h => rw [h0] at h; cases h
  | padding _ _ _ _ _ _ h => rw [h0] at h; cases h
  | content r0 hm0 hro _ _ =>
    obtain ⟨s, hs, tk, htks, e1, _, o, e2, e3⟩ := textRows_tbl htbl ht r0 hm0
    obtain ⟨s0, hs0, d1, d2, d3⟩ := each_mem_right hsplits.2 s hs
    obtain ⟨bb, v, hv, htx⟩ := hloc.2 s0 hs0
    have htx' : HasText s v := by unfold HasText at htx ⊢; rw [d1]; exact htx
    rw [← d2] at hv
    rw [d3, ← d1] at htks
    have hbv : Bmp v := by
      obtain ⟨l, r, rfl, _⟩ := hv
      exact bmp_sub hbw fun c hc => by simp [hc]
    have hcv : CleanWord (tokenToId m.vocab) v := .inl fun c hc => (hbv c hc).2
    have hvs : (∀ c ∈ v, c ≠ 0x20) ∨ (∀ c ∈ w, ∃ x, bertChar P clean cjk lower c = [x]) := by
      rcases hsp with hc | hsp
      · right
        intro c _
        rw [hc]
        simp [bertChar]
      · left
        intro c hc hcc
        subst hcc
        obtain ⟨_, hsn⟩ := utf8Text_iff.1 htx'
        refine hsp s hs 0x20 ?_ rfl
        rw [hsn]
        exact List.mem_flatMap.2 ⟨0x20, hc, by decide⟩
    have hsimple : ∀ c ∈ w, Simple (bertChar P clean cjk lower) c := fun c _ => bert_simple hw.space c
    refine ⟨r.token, r.offsets, ?_⟩
    rw [htk, ho, List.getElem?_map, List.getElem?_map, hr, Option.map_some, Option.map_some]
    rw [hro.2.1, hro.2.2.2.2.2.2 hnt, e1, e3]
    have orig : ∀ v1, PartOf v tk.offsets.1 tk.offsets.2 v1 → ∃ u, TextAt w (((o + tk.offsets.1 : Nat) : Int), ((o + tk.offsets.2 : Nat) : Int)) u ∧
        MadeFrom (bertChar P clean cjk lower) u v1 := by
      intro v1 hp1
      by_cases hv0 : v = []
      · subst hv0
        obtain ⟨L, R, hL, k1, k2⟩ := hp1
        obtain ⟨hL1, hR⟩ := List.append_eq_nil_iff.1 hL.symm
        obtain ⟨rfl, rfl⟩ := List.append_eq_nil_iff.1 hL1
        rw [k1, k2]
        have hol := traced_pos h2 o (List.mem_of_getElem? e2)
        refine ⟨[], ⟨o, o, by simp [units], w.take o, w.drop o, by simp, ?_, ?_⟩, .nil⟩
        · rw [units_bmp (bmp_sub hw.before.1 fun c hc => List.mem_of_mem_take hc)]; simp; omega
        · rw [units_bmp (bmp_sub hw.before.1 fun c hc => List.mem_of_mem_take hc)]; simp [units]; omega
      obtain ⟨u, g1, g2⟩ := stretch_origin h2 hsimple hw.before.1 hbw hv hp1 hv0 hvs e2
      exact ⟨u, ⟨_, _, rfl, g1⟩, g2⟩
    have hunk : tk ∈ UnkAnswer (tokenToId m.vocab) m.unkToken v → tk.value = m.unkToken ∧ PartOf v tk.offsets.1 tk.offsets.2 v := by
      intro h
      simp only [UnkAnswer, List.mem_singleton] at h
      subst h
      exact ⟨rfl, [], [], by simp, rfl, by simp [units]⟩
    rcases C12_C13_answer m s.normalized v htx' hcv with ⟨_, ha'⟩ | ⟨_, _, ha'⟩ | ⟨_, ha'⟩
    · rw [ha'] at htks
      obtain ⟨k1, k2⟩ := hunk htks
      obtain ⟨u, g1, g2⟩ := orig v k2
      exact ⟨u, v, rfl, rfl, g1, g2, .inr ⟨k1, s, hs, htx'⟩⟩
    · rw [ha'] at htks
      obtain ⟨k1, k2⟩ := hunk htks
      obtain ⟨u, g1, g2⟩ := orig v k2
      exact ⟨u, v, rfl, rfl, g1, g2, .inr ⟨k1, s, hs, htx'⟩⟩
    · obtain ⟨v1, f, p1, p2⟩ := greedy_partOf ha' [] rfl tk htks
      obtain ⟨u, g1, g2⟩ := orig v1 (by simpa using p1)
      exact ⟨u, v1, rfl, rfl, g1, g2, .inl ⟨f, p2⟩⟩

/-- A split whose text contains no character U+0020. -/
theorem no_space {s : Split} {v : WStr} (h : HasText s v) (hv : ∀ c ∈ v, c ≠ 0x20) : ∀ c ∈ s.normalized, c ≠ 0x20 := by
  obtain ⟨hs, hn⟩ := utf8Text_iff.1 h
  rw [hn]
  intro c hc hcc
  subst hcc
  obtain ⟨d, hd, hc⟩ := List.mem_flatMap.1 hc
  refine hv d hd ?_
  have hsd := hs d hd
  unfold utf8Enc1 at hc
  split at hc
  · exact (List.mem_singleton.1 hc).symm
  · exfalso
    split at hc
    · simp only [List.mem_cons, List.not_mem_nil, or_false] at hc; omega
    · split at hc <;> simp only [List.mem_cons, List.not_mem_nil, or_false] at hc <;> omega

/-- **C74 for a BERT tokenizer** (partial: text that is not dropped or decomposed, no offset trimming).  BERT normalizer,
BERT pre-tokenizer, WordPiece, added tokens without spaces that do not strip: the text between the offsets of every token
of the text is what the token (without continuation prefix) was made from by cleaning and lower-casing, also when ideographs
were padded; for the unknown token, what a piece of the normalized text without white space was made from. -/
theorem C74_bert_partial (P : Platform) (t : Tokenizer) (m : WordPiece) (a : AddedVocab) (w : WStr)
    (b clean cjk strip lower : Bool) (e : Encoding) (hS : ∀ s ∈ Specials t, s.ids.length = s.tokens.length)
    (ha : t.added = some a) (hn : t.normalizer = some (.bert clean cjk strip lower))
    (hw : BertText P clean cjk strip lower a w) (hsp : P.reSpace 0x20 = true)
    (hns : ∀ i t, mapFind a.mapR i = some t → t.lstrip = false ∧ t.rstrip = false)
    (hnb : ∀ p ∈ a.nonNormTrie ++ a.normTrie, ∀ c ∈ p.1, c ≠ 0x20)
    (hpt : t.preTokenizer = some .bert) (hm : t.model = some (.wordPiece m))
    (htr : ∀ p, t.postProcessor = some p → ¬ Trims p) (h : (t.encode P w b).1 = .ok e) :
    ∀ i : Nat, e.specialTokensMask[i]? = some 0 →
      ∃ tok o u v, e.tokens[i]? = some tok ∧ e.offsets[i]? = some o ∧ TextAt w o u ∧ MadeFrom (bertChar P clean cjk lower) u v ∧
        ((∃ f, PieceKey m.pre f v tok) ∨ (tok = m.unkToken ∧ ∀ c ∈ v, c ≠ 0x20)) := by
  obtain ⟨q, hq, key⟩ := C74_wordPiece_partial P t m a w b clean cjk strip lower e hS ha hn hw
    (fun pt hp => by rw [hpt] at hp; cases hp; trivial) hm htr h
  have hall : ∀ s ∈ q.splits, ∀ c ∈ s.normalized, c ≠ 0x20 := by
    obtain ⟨p0, w', es, h1, _, _, _, h5, _, h7, hbw, _⟩ := preTokenized_bert P ha hn hw
    obtain ⟨p, hp, hqp⟩ := hq
    rw [hm] at hqp
    simp only [Model.tokenize, Except.ok.injEq] at hqp
    rw [hpt, hp] at h1
    have htext : ∀ s ∈ p0.splits, ∃ w, HasText s w := fun s hs => by
      obtain ⟨_, v, _, hv⟩ := h5.located hbw [] rfl rfl s hs
      exact ⟨v, hv⟩
    obtain ⟨p', parts, k1, _, k2, k3⟩ := C09_bert_pieces P p0 htext
    replace h1 : Except.ok p = PreTokenizer.run P .bert p0 := h1
    rw [k1] at h1
    cases h1
    have hmid : ∀ s ∈ p.splits, ∀ c ∈ s.normalized, c ≠ 0x20 := by
      intro s hs
      rw [k2] at hs
      obtain ⟨part, hpart, hs⟩ := List.mem_flatten.1 hs
      obtain ⟨s0, hs0, hb⟩ := each_mem_right k3 part hpart
      rcases hb with ⟨ht, rfl⟩ | ⟨_, v, hv, hE⟩
      · obtain rfl := List.mem_singleton.1 hs
        rcases h7 s hs0 with h7 | ⟨i, k, l, r, i1, i2, _, _, i3, i4, _⟩
        · exact absurd h7 ht
        · have hl : l = [] := by
            refine Classical.byContradiction fun hl => ?_
            obtain ⟨t, t1, t2⟩ := i3 hl
            rw [(hns i t t1).1] at t2; cases t2
          have hr : r = [] := by
            refine Classical.byContradiction fun hr => ?_
            obtain ⟨t, t1, t2⟩ := i4 hr
            rw [(hns i t t1).2] at t2; cases t2
          rw [i2, hl, hr]
          simpa using hnb _ i1
      · obtain ⟨x, hx, _, hxt, _⟩ := each_mem_right hE s hs
        refine no_space hxt fun c hc hcc => ?_
        have := ((C09_pieces_postcondition P.reSpace P.rePunct v).1 x hx).2.1 c hc
        rw [hcc, hsp] at this; cases this
    have hsplits := wordPiece_splits m p
    rw [hqp] at hsplits
    intro s hs
    obtain ⟨s0, hs0, d1, _⟩ := each_mem_right hsplits.2 s hs
    rw [d1]
    exact hmid s0 hs0
  intro i hi
  obtain ⟨tok, o, u, v, g1, g2, g3, g4, g5⟩ := key (.inr hall) i hi
  refine ⟨tok, o, u, v, g1, g2, g3, g4, ?_⟩
  rcases g5 with g5 | ⟨g5, s, hs, ht⟩
  · exact .inl g5
  · refine .inr ⟨g5, fun c hc hcc => ?_⟩
    subst hcc
    obtain ⟨_, hsn⟩ := utf8Text_iff.1 ht
    refine hall s hs 0x20 ?_ rfl
    rw [hsn]
    exact List.mem_flatMap.2 ⟨0x20, hc, by decide⟩

/-! ### Examples -/

/-- A BERT tokenizer over a small vocabulary; "[X]" is an added token that is special. -/
def uncasedTk (clean cjk strip lower : Bool) : Tokenizer :=
  { model := some (.wordPiece { vocab := [(b!"[UNK]", 0), (b!"hello", 1), (b!"##s", 2), (b!"\u4e2d", 3), (b!"[X]", 4), (b!"b", 5), (b!"e", 6)],
                                unkToken := b!"[UNK]", maxChars := 100, pre := b!"##" })
    added := some { AddedVocab.init [] with nonNormTrie := [(b!"[X]", 4)] }
    normalizer := some (.bert clean cjk strip lower)
    preTokenizer := some .bert }

theorem uncased_text : BertText ascii true true true true { AddedVocab.init [] with nonNormTrie := [(b!"[X]", 4)] }
    w!"HELLOs [X] \u4e2dB \u4e2d!" where
  ne := by decide
  undropped := by
    refine ⟨fun _ => by unfold Dropped; decide, fun _ v hv => ⟨rfl, fun c hc => ?_⟩⟩
    have : ∀ c ∈ 0x20 :: w!"HELLOs [X] \u4e2dB \u4e2d!", ascii.isNSM c = false := by decide
    exact this c (List.mem_cons.2 (hv c hc))
  before := ⟨by unfold Bmp Scalar; decide, .inl fun i t h => by cases h⟩
  after := ⟨by unfold Bmp Scalar; decide, .inl fun i t h => by cases h⟩
  ascii := by unfold Ascii; decide
  filled := by decide
  space := fun _ => rfl

-- the hypotheses of `C74_bert_partial`, and what `encode` returns
example : ∃ e, ((uncasedTk true true true true).encode ascii w!"HELLOs [X] \u4e2dB \u4e2d!" true).1 = .ok e ∧
    (∀ i : Nat, e.specialTokensMask[i]? = some 0 → ∃ tok o u v, e.tokens[i]? = some tok ∧ e.offsets[i]? = some o ∧
      TextAt w!"HELLOs [X] \u4e2dB \u4e2d!" o u ∧ MadeFrom (bertChar ascii true true true) u v ∧
      ((∃ f, PieceKey b!"##" f v tok) ∨ (tok = b!"[UNK]" ∧ ∀ c ∈ v, c ≠ 0x20))) := by
  obtain ⟨e, he⟩ := C73_bert_partial ascii (uncasedTk true true true true) _ w!"HELLOs [X] \u4e2dB \u4e2d!" true _ _ _ _
    rfl rfl uncased_text (fun pt h => by cases h; exact .cuts (by unfold CutsCleanly; trivial)) ⟨fun _ h => (by cases h), fun _ h => (by cases h), fun _ h => (by cases h)⟩ (.inr ⟨_, rfl⟩)
  exact ⟨e, he, C74_bert_partial ascii (uncasedTk true true true true) _ _ _ _ _ _ _ _ e (by intro s hs; cases hs) rfl rfl uncased_text rfl
      (fun i t h => by cases h) (by decide) rfl rfl (fun p h => by cases h) he⟩

example : ((uncasedTk true true true true).encode ascii w!"HELLOs [X] \u4e2dB \u4e2d!" true).1.map
    (fun e => (e.tokens, e.offsets)) =
    .ok ([b!"hello", b!"##s", b!"[X]", b!"\u4e2d", b!"b", b!"\u4e2d", b!"[UNK]"],
      [(0, 5), (5, 6), (7, 10), (11, 12), (12, 13), (14, 15), (15, 16)]) := by decide +kernel

/-- **C74 is violated** by a text with an accent that is stripped, or with a control character that is dropped: the "b" of
"é b" is given the place of the space, that of "e\x01 b" too. -/
theorem C74_violated :
    ((uncasedTk false false true false).encode accentPlatform w!"é b" true).1.map (fun e => (e.tokens, e.offsets)) =
      .ok ([b!"e", b!"b"], [(0, 1), (1, 2)]) ∧ TextAt w!"é b" (1, 2) w!" " ∧
    ((uncasedTk true false false false).encode accentPlatform w!"e\x01 b" true).1.map (fun e => (e.tokens, e.offsets)) =
      .ok ([b!"e", b!"b"], [(0, 1), (2, 3)]) ∧ TextAt w!"e\x01 b" (2, 3) w!" " :=
  ⟨by decide +kernel, ⟨1, 2, rfl, w!"é", w!"b", rfl, rfl, rfl⟩, by decide +kernel, ⟨2, 3, rfl, w!"e\x01", w!"b", rfl, rfl, rfl⟩⟩

end Tok
