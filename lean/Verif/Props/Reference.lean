import Verif.Props.Recognized
import Verif.Props.Clean
import Verif.Props.WordPieceAll
import Verif.Props.PostProcessor
import Verif.Props.Bert
import Verif.Props.Roundtrip
import Verif.Props.Traced
import Verif.Props.Encoding
import Verif.Spec.Reference

set_option autoImplicit false

/-!
C103: a BERT tokenizer computes the ids that the BERT algorithm prescribes.
-/

namespace Tok
open Spec

/-- The piece of text of a split, and whether it is a token. -/
def RfItem (x : WStr × Bool) (s : Split) : Prop := HasText s x.1 ∧ (s.tokens ≠ [] ↔ x.2 = true)

theorem rf_splitOf {w : WStr} {c : Cut} {s : Split} (h : SplitOf w c s) : RfItem (between w c.2.1 c.2.2, c.1.isSome) s := by
  refine ⟨h.1, ?_⟩
  rw [h.2]
  cases c.1 <;> simp

theorem rf_itemsOf {w : WStr} : ∀ {cuts : List Cut} {l : List Split}, Each (SplitOf w) cuts l → Each RfItem (itemsOf w cuts) l
  | _, _, .nil => .nil
  | _, _, .cons h r => .cons (rf_splitOf h) (rf_itemsOf r)

theorem rf_append {α β : Type} {R : α → β → Prop} {l l' : List α} {r r' : List β} (h : Each R l r) (h' : Each R l' r') :
    Each R (l ++ l') (r ++ r') := by
  induction h with
  | nil => exact h'
  | cons h _ ih => exact .cons h ih

theorem rf_bert_value (P : Platform) (clean cjk strip lower : Bool) (x : WStr) {n : NS}
    (h : normalizeOpt P (some (.bert clean cjk strip lower)) (NS.ofText x) = .ok n) :
    n.normalized = bertResult P clean cjk strip lower x := by
  obtain ⟨k, hk, -⟩ := C96_mismatches (prepared P clean cjk (remaining P clean x)) (decomposed P clean cjk (remaining P clean x))
  obtain ⟨h1, h2⟩ := C97_bert P clean cjk strip lower x k hk
  have h : (Normalizer.bert clean cjk strip lower).run P (NS.ofText x) = .ok n := h
  by_cases hf : BertFits P clean cjk strip lower x k
  · obtain ⟨s, e1, e2⟩ := h1 hf
    rw [e1] at h; cases h; exact e2
  · rw [h2 hf] at h; cases h

theorem rf_extract (P : Platform) {a : AddedVocab} {w : WStr} {p : PTS} {norm : Option Normalizer} {N : WStr → WStr → Prop}
    (hN : ∀ x n, normalizeOpt P norm (NS.ofText x) = .ok n → N x n.normalized)
    (hd : Describable a a.nonNormTrie w) (hw0 : w ≠ [])
    (hn : ∀ x y n, normalizeOpt P norm (NS.ofText (between w x y)) = .ok n → Describable a a.normTrie n.normalized)
    (h : (a.extract P norm w).1 = .ok p) :
    ∃ items, Items a N w items ∧ Each RfItem items p.splits := by
  obtain ⟨cuts, groups, h1, h2, h3, h4⟩ := extract_exact P norm hd hw0 hn h
  have key : ∃ gs : List (List (WStr × Bool)), Each (fun (c : Cut) g => match c.1 with
      | some _ => g = [(between w c.2.1 c.2.2, true)]
      | none => ∃ n cuts', N (between w c.2.1 c.2.2) n ∧ CutInto a a.normTrie n cuts' ∧ g = itemsOf n cuts') cuts gs ∧
      Each RfItem gs.flatten groups.flatten := by
    clear h1 h3 h4
    induction h2 with
    | nil => exact ⟨[], .nil, .nil⟩
    | @cons c g l r hc _ ih =>
      obtain ⟨gs, i1, i2⟩ := ih
      obtain ⟨o, x, y⟩ := c
      cases o with
      | some i =>
        obtain ⟨s, rfl, hs⟩ := hc
        exact ⟨[(between w x y, true)] :: gs, .cons rfl i1, .cons (rf_splitOf hs) i2⟩
      | none =>
        obtain ⟨n, cuts', g1, g2, g3⟩ := hc
        refine ⟨itemsOf n.normalized cuts' :: gs, .cons ⟨_, cuts', hN _ _ g1, g2, rfl⟩ i1, ?_⟩
        exact rf_append (rf_itemsOf g3) i2
  obtain ⟨gs, k1, k2⟩ := key
  refine ⟨_, ⟨cuts, gs, h1, k1, rfl⟩, ?_⟩
  by_cases hg : groups.flatten = []
  · rw [hg] at k2
    have : gs.flatten = [] := by
      generalize gs.flatten = z at k2
      cases k2; rfl
    rw [if_pos this]
    exact rf_itemsOf (h4 hg)
  · have : gs.flatten ≠ [] := by
      intro hz
      rw [hz] at k2
      apply hg
      generalize groups.flatten = z at k2
      cases k2; rfl
    rw [if_neg this, h3 hg]
    exact k2

theorem rf_words (P : Platform) {items : List (WStr × Bool)} {l : List Split} (h : Each RfItem items l) : ∀ {parts : List (List Split)},
    Each (BertSplit P.reSpace P.rePunct) l parts → Each (fun v s => HasText s v) (bertWords P items) parts.flatten := by
  induction h with
  | nil => intro parts hp; cases hp; exact .nil
  | @cons x s items l hx _ ih =>
    intro parts hp
    cases hp with
    | @cons _ part _ parts hs hp =>
      have hr := ih hp
      unfold bertWords at hr ⊢
      rw [List.flatMap_cons, List.flatten_cons]
      refine rf_append ?_ hr
      rcases hs with ⟨ht, rfl⟩ | ⟨ht, v, hv, hE⟩
      · rw [if_pos (hx.2.1 ht)]
        exact .cons hx.1 .nil
      · have hx2 : ¬ x.2 = true := fun h => hx.2.2 h ht
        rw [if_neg hx2]
        have : v = x.1 := by
          obtain ⟨s1, e1⟩ := utf8Text_iff.1 hv
          obtain ⟨s2, e2⟩ := utf8Text_iff.1 hx.1
          exact utf8_injective s1 s2 (e1.symm.trans e2)
        rw [this] at hE
        generalize bertPieces P.reSpace P.rePunct x.1 = z at hE
        clear hv hx hx2 this ht ih hr hp
        induction hE with
        | nil => exact .nil
        | cons h _ ih => exact .cons h.2.1 ih

theorem rf_tokens (m : WordPiece) {ws : List WStr} {l : List Split} (h : Each (fun v s => HasText s v) ws l) : ∀ {q : List Split},
    Each (fun s q => q.normalized = s.normalized ∧ q.offsets = s.offsets ∧ q.tokens = m.word s.normalized) l q →
    Each (WordTokens m) ws (q.map (·.tokens)) := by
  induction h with
  | nil => intro q hq; cases hq; exact .nil
  | @cons v s ws l hv _ ih =>
    intro q hq
    cases hq with
    | cons hs hq =>
      refine .cons ?_ (ih hq)
      obtain ⟨hsc, -⟩ := utf8Text_iff.1 hv
      refine ⟨utf16 v, utf16Text_iff.2 ⟨hsc, rfl⟩, ?_⟩
      simp only [hs.2.2]
      exact (C12_answer_all m s.normalized v (utf16 v) hv (utf16Text_iff.2 ⟨hsc, rfl⟩) _).2 rfl

/-- The pre-tokenized and tokenized text of a BERT tokenizer. -/
theorem rf_bert (P : Platform) {t : Tokenizer} {a : AddedVocab} {m : WordPiece} {clean cjk strip lower : Bool} {w : WStr} {q : PTS}
    (ha : t.added = some a) (hn : t.normalizer = some (.bert clean cjk strip lower)) (hpt : t.preTokenizer = some .bert)
    (hm : t.model = some (.wordPiece m)) (hd : Describable a a.nonNormTrie w) (hw0 : w ≠ [])
    (hd' : ∀ x y, Describable a a.normTrie (bertResult P clean cjk strip lower (between w x y)))
    (hq : TokenizedInto P t w q) : BertTokens P clean cjk strip lower a m w (q.splits.map (·.tokens)).flatten := by
  obtain ⟨p, hp, hqp⟩ := hq
  rw [hm] at hqp
  simp only [Model.tokenize, Except.ok.injEq] at hqp
  unfold Tokenizer.preTokenized at hp
  split at hp
  · cases hp
  · simp only [ha, hpt, hn] at hp
    obtain ⟨p0, h0, hp⟩ := res_bind_ok.1 hp
    obtain ⟨items, i1, i2⟩ := rf_extract P (N := fun x n => n = bertResult P clean cjk strip lower x)
      (fun x n h => rf_bert_value P clean cjk strip lower x h) hd hw0
      (fun x y n h => by rw [rf_bert_value P clean cjk strip lower _ h]; exact hd' x y) h0
    obtain ⟨p', parts, k1, k2, k3, k4⟩ := C09_bert_pieces P p0 (fun s hs => by
      obtain ⟨x, _, hx⟩ := each_mem_right i2 s hs
      exact ⟨_, hx.1⟩)
    replace hp : PreTokenizer.run P .bert p0 = .ok p := hp
    rw [k1] at hp
    cases hp
    have hw := rf_words P i2 k4
    rw [← k3] at hw
    have hsp := (wordPiece_splits m p).2
    rw [hqp] at hsp
    exact ⟨items, _, i1, rf_tokens m hw hsp, rfl⟩

theorem rf_encs_tokens (base : Nat) (k ty : Int) (l : List Token) :
    ((l.map (tokenEnc base k ty)).foldr Enc.append {}).tokens = l.map (·.value) := by
  induction l with
  | nil => rfl
  | cons t l ih => simp only [List.map_cons, List.foldr_cons, Enc.append, ih, tokenEnc]; rfl

theorem rf_intoLoop_tokens (ns : NS) (k : Option Int) (ty : Int) : ∀ (l : List Split) (i : Nat) (x : Enc),
    intoLoop ns k ty i l = .ok x → x.tokens = l.flatMap fun s => s.tokens.map (·.value) := by
  intro l
  induction l with
  | nil => intro i x h; cases h; rfl
  | cons s l ih =>
    intro i x h
    simp only [intoLoop] at h
    obtain ⟨g, _, h⟩ := res_bind_ok.1 h
    obtain ⟨o, _, h⟩ := res_bind_ok.1 h
    obtain ⟨y, hy, h⟩ := res_bind_ok.1 h
    cases h
    simp only [Enc.append, rf_encs_tokens, ih _ _ hy, List.flatMap_cons]

theorem rf_joinAll_ids (l : List Enc) : (joinAll l).ids = l.flatMap (·.ids) := by
  induction l with
  | nil => rfl
  | cons e l ih => simp only [joinAll, joined, ih, List.flatMap_cons]

theorem rf_joinAll_tokens (l : List Enc) : (joinAll l).tokens = l.flatMap (·.tokens) := by
  induction l with
  | nil => rfl
  | cons e l ih => simp only [joinAll, joined, ih, List.flatMap_cons]

/-- The ids and tokens of an encoding in terms of those of the text. -/
theorem rf_rows (P : Platform) {t : Tokenizer} {w : WStr} {b : Bool} {e : Encoding} (h : (t.encode P w b).1 = .ok e)
    (htr : CutsRight t) (hpad : t.padding = none) : ∃ q, TokenizedInto P t w q ∧
      let ts := (q.splits.map (·.tokens)).flatten
      (t.postProcessor = none → e.ids = (beginning t ts).map (·.id) ∧ e.tokens = (beginning t ts).map (·.value)) ∧
      (∀ single pair specials, t.postProcessor = some (.template single pair specials) →
        e.ids = laidOut single specials b (·.ids) ((beginning t ts).map (·.id)) ∧
        e.tokens = laidOut single specials b (·.tokens) ((beginning t ts).map (·.value))) := by
  obtain ⟨q, x, hq, hx, hpost⟩ := encode_ok h
  refine ⟨q, hq, ?_⟩
  obtain ⟨rows, -, hrows⟩ := intoLoop_rows _ _ _ _ hx
  have hal := hasRows_aligned hrows
  have hids : x.ids = ((q.splits.map (·.tokens)).flatten).map (·.id) := by
    rw [rt_intoLoop_ids _ _ _ _ _ _ hx]
    simp [List.flatMap, List.map_flatten]
    rfl
  have htok : x.tokens = ((q.splits.map (·.tokens)).flatten).map (·.value) := by
    rw [rf_intoLoop_tokens _ _ _ _ _ _ hx]
    simp [List.flatMap, List.map_flatten]
    rfl
  obtain ⟨e1, e2, h1, h2, h3⟩ := postProcess_ok hpost
  rw [hpad] at h3; cases h3
  have g : e1.ids = ((beginning t (q.splits.map (·.tokens)).flatten)).map (·.id) ∧
      e1.tokens = ((beginning t (q.splits.map (·.tokens)).flatten)).map (·.value) := by
    unfold beginning
    cases hT : t.truncation with
    | none => rw [hT] at h1; cases h1; exact ⟨hids, htok⟩
    | some tr =>
      rw [hT] at h1
      obtain ⟨d1, d2, d3, d4⟩ := htr tr hT
      have hlen : ((q.splits.map (·.tokens)).flatten).length = rows.length := by
        have := hal.1; rw [hids, List.length_map] at this; exact this
      by_cases hfit : (rows.length : Int) ≤ tr.maxLength
      · have := C36_fits_unchanged tr { toEnc := x, overflowing := [] } (by omega) (by
          show (x.ids.length : Int) ≤ _
          rw [hal.1]; exact hfit)
        simp only [this] at h1
        cases h1
        have hall : ((q.splits.map (·.tokens)).flatten).take tr.maxLength.toNat = (q.splits.map (·.tokens)).flatten :=
          List.take_of_length_le (by omega)
        simp only [hall]
        exact ⟨hids, htok⟩
      · obtain ⟨r, ws, k1, -, k2, -⟩ := C34_right_truncation tr { toEnc := x, overflowing := [] } rows.length d1 d2 hal
          (by omega) d3 d4
        simp only [k1] at h1
        cases h1
        obtain ⟨p1, -, p2, -⟩ := k2
        simp only [Spec.part, List.drop_zero] at p1 p2
        rw [p1, p2, hids, htok, List.map_take, List.map_take]
        exact ⟨rfl, rfl⟩
  refine ⟨fun hp => ?_, fun single pair specials hp => ?_⟩
  · rw [hp] at h2; cases h2; exact g
  · rw [hp] at h2
    obtain ⟨r, k1, k2, -⟩ := C39_any_template single pair specials b e1
    simp only [k1] at h2
    cases h2
    have e1' := congrArg Enc.ids k2
    have e2' := congrArg Enc.tokens k2
    simp only at e1' e2'
    rw [e1', e2', rf_joinAll_ids, rf_joinAll_tokens, List.flatMap_map, List.flatMap_map, ← g.1, ← g.2]
    unfold laidOut
    refine ⟨?_, ?_⟩
    · congr 1; funext p
      unfold block
      by_cases hk : p.kind = b!"Sequence"
      · rw [if_pos hk, if_pos hk]
      · rw [if_neg hk, if_neg hk]
        by_cases hk2 : p.kind = b!"SpecialToken" ∧ b = true
        · rw [if_pos hk2, if_pos hk2]
          cases specials.find? fun t => t.id == p.id <;> rfl
        · rw [if_neg hk2, if_neg hk2]
    · congr 1; funext p
      unfold block
      by_cases hk : p.kind = b!"Sequence"
      · rw [if_pos hk, if_pos hk]
      · rw [if_neg hk, if_neg hk]
        by_cases hk2 : p.kind = b!"SpecialToken" ∧ b = true
        · rw [if_pos hk2, if_pos hk2]
          cases specials.find? fun t => t.id == p.id <;> rfl
        · rw [if_neg hk2, if_neg hk2]

/-- **C103** A BERT tokenizer (BERT normalizer and pre-tokenizer, WordPiece, a template) returns the ids and tokens that the
specification prescribes: cut at the added tokens, normalize, split into words, cut greedily, truncate, fill the template. -/
theorem C103_bert (P : Platform) {t : Tokenizer} {a : AddedVocab} {m : WordPiece} {clean cjk strip lower b : Bool} {w : WStr}
    {single pair : List Piece} {specials : List SpecialToken} {e : Encoding}
    (ha : t.added = some a) (hn : t.normalizer = some (.bert clean cjk strip lower)) (hpt : t.preTokenizer = some .bert)
    (hm : t.model = some (.wordPiece m)) (hpp : t.postProcessor = some (.template single pair specials))
    (htr : CutsRight t) (hpad : t.padding = none)
    (hd : Describable a a.nonNormTrie w) (hw0 : w ≠ [])
    (hd' : ∀ x y, Describable a a.normTrie (bertResult P clean cjk strip lower (between w x y)))
    (h : (t.encode P w b).1 = .ok e) :
    ∃ ts, BertTokens P clean cjk strip lower a m w ts ∧
      e.ids = laidOut single specials b (·.ids) ((beginning t ts).map (·.id)) ∧
      e.tokens = laidOut single specials b (·.tokens) ((beginning t ts).map (·.value)) := by
  obtain ⟨q, hq, -, h2⟩ := rf_rows P h htr hpad
  exact ⟨_, rf_bert P ha hn hpt hm hd hw0 hd' hq, h2 single pair specials hpp⟩

theorem rf_answer_unique {m : WordPiece} {v : WStr} {ts ts' : List Token} (h : WordTokens m v ts) (h' : WordTokens m v ts') :
    ts = ts' := by
  obtain ⟨u, h1, h2⟩ := h
  obtain ⟨u', h1', h2'⟩ := h'
  obtain ⟨hs, rfl⟩ := utf16Text_iff.1 h1
  obtain ⟨_, rfl⟩ := utf16Text_iff.1 h1'
  have hu := utf8Text_iff.2 ⟨hs, rfl⟩
  exact ((C12_answer_all m _ v _ hu h1 ts).1 h2).symm.trans ((C12_answer_all m _ v _ hu h1 ts').1 h2')

theorem rf_each_unique {α β : Type} {R : α → β → Prop} (hR : ∀ x y y', R x y → R x y' → y = y') {l : List α} {r r' : List β}
    (h : Each R l r) (h' : Each R l r') : r = r' := by
  induction h generalizing r' with
  | nil => cases h'; rfl
  | cons h _ ih =>
    cases h' with
    | cons h' hr => rw [hR _ _ _ h h', ih hr]

theorem rf_items_unique {a : AddedVocab} (hf : FlagFree a) {N : WStr → WStr → Prop} (hN : ∀ x n n', N x n → N x n' → n = n') {w : WStr}
    {l l' : List (WStr × Bool)} (h : Items a N w l) (h' : Items a N w l') : l = l' := by
  obtain ⟨cuts, groups, h1, h2, rfl⟩ := h
  obtain ⟨cuts', groups', h1', h2', rfl⟩ := h'
  obtain rfl := C85_unique hf h1 h1'
  obtain rfl := rf_each_unique (fun (c : Cut) g g' hg hg' => by
    obtain ⟨o, x, y⟩ := c
    cases o with
    | some i => exact Eq.trans hg (Eq.symm hg')
    | none =>
      obtain ⟨n, c1, k1, k2, rfl⟩ := hg
      obtain ⟨n', c2, k1', k2', rfl⟩ := hg'
      obtain rfl := hN _ _ _ k1 k1'
      rw [C85_unique hf k2 k2']) h2 h2'
  rfl

/-- **C103** The specification prescribes one result. -/
theorem C103_unique (P : Platform) {clean cjk strip lower : Bool} {a : AddedVocab} (hf : FlagFree a) {m : WordPiece} {w : WStr}
    {ts ts' : List Token} (h : BertTokens P clean cjk strip lower a m w ts) (h' : BertTokens P clean cjk strip lower a m w ts') :
    ts = ts' := by
  obtain ⟨items, parts, h1, h2, rfl⟩ := h
  obtain ⟨items', parts', h1', h2', rfl⟩ := h'
  obtain rfl := rf_items_unique (N := fun x n => n = bertResult P clean cjk strip lower x) hf
    (fun _ _ _ e e' => Eq.trans e (Eq.symm e')) h1 h1'
  obtain rfl := rf_each_unique (R := WordTokens m) (fun _ _ _ h h' => rf_answer_unique h h') h2 h2'
  rfl

/-! ### The hypotheses are met -/

/-- Normalization stays below U+10000 on a platform where decomposition and lower-casing do. -/
theorem rf_bmp {P : Platform} (hnf : ∀ v, Bmp v → Bmp (P.nf .nfd v)) (hlow : ∀ c, Scalar c ∧ c < 0x10000 → Scalar (P.towlower c) ∧ P.towlower c < 0x10000)
    (clean cjk strip lower : Bool) {w : WStr} (h : Bmp w) : Bmp (bertResult P clean cjk strip lower w) := by
  have hrem : Bmp (remaining P clean w) := bmp_sub h fun c hc => (List.mem_filter.1 hc).1
  have hsp : Scalar 0x20 ∧ 0x20 < 0x10000 := by unfold Scalar; decide
  have hprep : Bmp (prepared P clean cjk (remaining P clean w)) := by
    intro d hd
    obtain ⟨c, hc, hd⟩ := List.mem_flatMap.1 hd
    have hcs := hrem c hc
    unfold bertChar at hd
    simp only [Bool.false_eq_true, if_false] at hd
    have h1 : Scalar (if clean = true ∧ (c = 9 ∨ c = 10 ∨ c = 13 ∨ P.iswspace c = true) then 0x20 else c) ∧
        (if clean = true ∧ (c = 9 ∨ c = 10 ∨ c = 13 ∨ P.iswspace c = true) then 0x20 else c) < 0x10000 := by
      split
      · exact hsp
      · exact hcs
    generalize (if clean = true ∧ (c = 9 ∨ c = 10 ∨ c = 13 ∨ P.iswspace c = true) then 0x20 else c) = c1 at hd h1
    split at hd
    · simp only [List.mem_cons, List.not_mem_nil, or_false] at hd
      rcases hd with rfl | rfl | rfl
      · exact hsp
      · exact h1
      · exact hsp
    · simp only [List.mem_cons, List.not_mem_nil, or_false] at hd
      subst hd; exact h1
  unfold bertResult
  split
  · have hdec : Bmp (decomposed P clean cjk (remaining P clean w)) := by
      unfold decomposed
      apply hnf
      intro d hd
      obtain ⟨c, hc, rfl⟩ := List.mem_map.1 hd
      have := hprep c hc
      unfold sanitize
      split
      · exact this
      · unfold Scalar; decide
    intro d hd
    unfold stripped at hd
    obtain ⟨c, hc, rfl⟩ := List.mem_map.1 hd
    have := hdec c (List.mem_filter.1 hc).1
    split
    · exact hlow c this
    · exact this
  · exact hprep

theorem rf_ascii_low : ∀ c, Scalar c ∧ c < 0x10000 → Scalar (ascii.towlower c) ∧ ascii.towlower c < 0x10000 := by
  intro c h
  show Scalar (if 0x41 ≤ c ∧ c ≤ 0x5A then c + 32 else c) ∧ (if 0x41 ≤ c ∧ c ≤ 0x5A then c + 32 else c) < 0x10000
  split
  · unfold Scalar; omega
  · exact h

/-- A BERT tokenizer over a small vocabulary, with the added token "[X]" and a template. -/
def refTk (tr : Option Truncation) : Tokenizer :=
  { uncasedTk true true true true with postProcessor := some sampleTemplate, truncation := tr }

/-- The hypotheses of `C103_bert`, and the ids: "[CLS] hello ##s [X] 中 b 中 [UNK] [SEP]", and the first three of them. -/
example : ∃ a m, (refTk none).added = some a ∧ (refTk none).model = some (.wordPiece m) ∧
    Describable a a.nonNormTrie w!"HELLOs [X] \u4e2dB \u4e2d!" ∧
    (∀ x y, Describable a a.normTrie (bertResult ascii true true true true (between w!"HELLOs [X] \u4e2dB \u4e2d!" x y))) ∧
    FlagFree a ∧ CutsRight (refTk (some (cut 3))) := by
  refine ⟨_, _, rfl, rfl, ⟨by unfold Bmp Scalar; decide, by decide, ?_, .inl fun i t h => by cases h⟩, ?_, fun i t h => (by cases h), ?_⟩
  · intro k i j hi hj
    simp only [List.mem_cons, Prod.mk.injEq, List.not_mem_nil, or_false] at hi hj
    rw [hi.2, hj.2]
  · intro x y
    refine ⟨rf_bmp (fun v h => h) rf_ascii_low _ _ _ _ (bmp_sub (w := w!"HELLOs [X] \u4e2dB \u4e2d!") (by unfold Bmp Scalar; decide) ?_),
      by decide, (by intro k i j h; cases h), .inl fun i t h => by cases h⟩
    intro c hc
    exact List.mem_of_mem_drop (List.mem_of_mem_take hc)
  · intro x hx
    cases hx
    exact ⟨rfl, .inl rfl, by decide, by decide⟩

example : ((refTk none).encode ascii w!"HELLOs [X] \u4e2dB \u4e2d!" true).1.map (·.ids) =
    .ok [101, 1, 2, 4, 3, 5, 3, 0, 102] := by decide +kernel
example : ((refTk (some (cut 3))).encode ascii w!"HELLOs [X] \u4e2dB \u4e2d!" true).1.map (·.ids) =
    .ok [101, 1, 2, 4, 102] := by decide +kernel

end Tok
