import Verif.Proofs.AnyText
import Verif.Props.Rows
import Verif.Props.Inputs
import Verif.Props.Extract
import Verif.Proofs.Independent

set_option autoImplicit false

namespace Tok
open Spec

/-! ### The splits -/

/-- The split made of a piece of the text. -/
def AtSplit (w : WStr) (c : Cut) (s : Split) : Prop :=
  Utf8Text (textAt w c.2.1 c.2.2) s.normalized ∧
  s.tokens = (match c.1 with
    | some i => [{ id := i, value := s.normalized, offsets := (0, s.normalized.length) }]
    | none => [])

theorem at_segSplits {w : WStr} {base : Nat} : ∀ {segs : List TSeg} {out : List Split}, segSplits w base segs = .ok out →
    Each (AtSplit w) segs out ∧ ∀ g ∈ segs, g.2.1 ≤ w.length := by
  intro segs
  induction segs with
  | nil => intro out h; cases h; exact ⟨.nil, by simp⟩
  | cons g r ih =>
    intro out h
    obtain ⟨id, x, y⟩ := g
    simp only [segSplits] at h
    obtain ⟨v, h1, h⟩ := res_bind_ok.1 h
    obtain ⟨value, h2, h⟩ := res_bind_ok.1 h
    obtain ⟨rest, h3, h⟩ := res_bind_ok.1 h
    cases h
    obtain ⟨i1, i2⟩ := ih h3
    unfold wsubstr at h1
    split at h1
    case isFalse => cases h1
    rename_i hx
    cases h1
    refine ⟨.cons ⟨(C02_to_string_iff _ _).1 h2, ?_⟩ i1, ?_⟩
    · cases id <;> rfl
    · intro g hg
      rcases List.mem_cons.1 hg with rfl | hg
      · exact hx
      · exact i2 g hg

theorem at_item {w : WStr} {c : Cut} {s : Split} (h : AtSplit w c s) : RfItem (textAt w c.2.1 c.2.2, c.1.isSome) s := by
  refine ⟨h.1, ?_⟩
  rw [h.2]
  cases c.1 <;> simp

theorem at_items {w : WStr} : ∀ {cuts : List Cut} {l : List Split}, Each (AtSplit w) cuts l → Each RfItem (itemsAt w cuts) l
  | _, _, .nil => .nil
  | _, _, .cons h r => .cons (at_item h) (at_items r)

theorem at_touched {a a' : AddedVocab} (h : Touched a a') {T : List (Str × Int)} {w : WStr} {l : List Cut} (hc : CutUp a' T w l) :
    CutUp a T w l := by
  obtain ⟨u, s, occ, h1, h2, h3, h4, h5⟩ := hc
  refine ⟨u, s, occ, h1, h2, h3, h4, ?_⟩
  clear h1 h2 h3 h4
  generalize 0 = p at h5
  induction h5 with
  | rest h => exact .rest h
  | done => exact .done
  | skip h _ ih =>
    refine .skip ?_ ih
    unfold CountsIn at h ⊢
    rw [touched_flags (by assumption)] at h; exact h
  | take h1 h2 h3 _ ih =>
    unfold CountsIn at h1
    unfold LeftEnd at h2
    unfold RightEnd at h3
    rw [touched_flags (by assumption)] at h1 h2 h3
    exact .take h1 h2 h3 ih

/-- What becomes of a piece of the text. -/
def AtGroup (P : Platform) (norm : Option Normalizer) (a : AddedVocab) (w : WStr) (c : Cut) (g : List Split) : Prop :=
  match c.1 with
  | some _ => ∃ s, g = [s] ∧ AtSplit w c s
  | none => ∃ n cuts, normalizeOpt P norm (NS.ofText (textAt w c.2.1 c.2.2)) = .ok n ∧
      CutUp a a.normTrie n.normalized cuts ∧ Each (AtSplit n.normalized) cuts g

theorem at_loop (P : Platform) (norm : Option Normalizer) {a0 : AddedVocab} {w : WStr} {cuts : List Cut} {l : List Split}
    (hP : PlainTables a0) (hcl : Each (AtSplit w) cuts l) :
    ∀ (a : AddedVocab) (ns ns' : NS) (e : Nat) (out : List Split), Touched a0 a →
    (normalizeLoop P norm a ns e l).1 = .ok (ns', out) →
    ∃ groups, out = groups.flatten ∧ Each (AtGroup P norm a0 w) cuts groups := by
  induction hcl with
  | nil =>
    intro a ns ns' e out _ h
    simp only [normalizeLoop, Except.ok.injEq, Prod.mk.injEq] at h
    obtain ⟨-, rfl⟩ := h
    exact ⟨[], rfl, .nil⟩
  | @cons cut s cuts l hcs hcl' ih =>
    intro a ns ns' e out ht h
    obtain ⟨hs1, hs3⟩ := id hcs
    obtain ⟨id, x, y⟩ := cut
    simp only at hs1 hs3
    obtain ⟨hs2, hs1⟩ := utf8Text_iff.1 hs1
    simp only [normalizeLoop] at h
    cases id with
    | some i =>
      simp only at hs3
      rw [if_pos (by rw [hs3]; simp)] at h
      have ih' := fun ns' out => ih a ns ns' (e + s.normalized.length) out ht
      generalize normalizeLoop P norm a ns (e + s.normalized.length) l = R at h ih'
      obtain ⟨r, a'⟩ := R
      cases r with
      | error x => cases h
      | ok q =>
        obtain ⟨ns1, rest⟩ := q
        simp only [Except.ok.injEq, Prod.mk.injEq] at h
        obtain ⟨rfl, rfl⟩ := h
        obtain ⟨groups, h1, h2⟩ := ih' ns1 rest rfl
        exact ⟨[{ s with offsets := (e, e + s.normalized.length) }] :: groups, by simp [h1], .cons ⟨_, rfl, hcs⟩ h2⟩
    | none =>
      simp only at hs3
      rw [if_neg (by rw [hs3]; simp)] at h
      have hsp : ∀ ns1 here n, (normalizeSplit P norm a ns e s).1 = .ok (ns1, here, n) →
          AtGroup P norm a0 w (none, (x, y)) here := by
        intro ns1 here n hh
        unfold normalizeSplit at hh
        simp only at hh
        split at hh
        · cases hh
        · rename_i ns2 sub text hpre
          obtain ⟨w', hw', hpre⟩ := res_bind_ok.1 hpre
          rw [hs1, convertFromString_utf8 hs2] at hw'
          cases hw'
          obtain ⟨sub', hsub, hpre⟩ := res_bind_ok.1 hpre
          split at hpre
          · cases hpre
          · obtain ⟨ns3, _, hpre⟩ := res_bind_ok.1 hpre
            obtain ⟨text', htext, hpre⟩ := res_bind_ok.1 hpre
            have := Except.ok.inj hpre
            simp only [Prod.mk.injEq] at this
            obtain ⟨rfl, rfl, rfl⟩ := this
            have eN : a.normTrie = a0.normTrie := by rw [ht.same]
            obtain ⟨hsc, rfl⟩ := utf8Text_iff.1 ((C02_to_string_iff _ _).1 htext)
            obtain ⟨p1, p2⟩ := hP _ (.inr rfl)
            obtain ⟨segs, f1, f2⟩ := at_findMatches (a := a) hsc p1 p2
            rw [← eN] at f1 f2
            rw [f1, res_ok_bind] at hh
            obtain ⟨out1, g1, hh⟩ := res_bind_ok.1 hh
            have := Except.ok.inj hh
            simp only [Prod.mk.injEq] at this
            obtain ⟨-, rfl, rfl⟩ := this
            rw [eN] at f2
            exact ⟨sub', segs, hsub, at_touched ht f2, (at_segSplits g1).1⟩
      have htch := normalizeSplit_touched P norm a ns e s
      generalize normalizeSplit P norm a ns e s = R at h hsp htch
      obtain ⟨r, a'⟩ := R
      cases r with
      | error x => cases h
      | ok q =>
        obtain ⟨ns1, here, n⟩ := q
        simp only at h hsp htch
        have b1 := hsp ns1 here n rfl
        have ih' := fun ns' out => ih a' ns1 ns' (e + n) out (ht.trans htch)
        generalize normalizeLoop P norm a' ns1 (e + n) l = R at h ih'
        obtain ⟨r, a''⟩ := R
        cases r with
        | error x => cases h
        | ok q =>
          obtain ⟨ns2, rest⟩ := q
          simp only [Except.ok.injEq, Prod.mk.injEq] at h
          obtain ⟨rfl, rfl⟩ := h
          obtain ⟨groups, h1, h2⟩ := ih' ns2 rest rfl
          exact ⟨here :: groups, by simp [h1], .cons b1 h2⟩

theorem at_cuts_ne {a : AddedVocab} {s : Str} {total p : Nat} {occ : List (Nat × Nat × Int)} {cuts : List Cut}
    (h : CutFrom a s total p occ cuts) (hp : p ≠ total) : cuts ≠ [] := by
  induction h with
  | rest => simp
  | done => exact absurd rfl hp
  | skip _ _ ih => exact ih hp
  | take => simp

theorem at_units_ne {w : WStr} (hw : w ≠ []) : 0 ≠ (utf16 w).length := by
  cases w with
  | nil => exact absurd rfl hw
  | cons c w =>
    rw [utf16_cons, List.length_append]
    have : (utf16Enc1 c).length ≠ 0 := by
      unfold utf16Enc1; split <;> simp
    omega

theorem at_extract0 (P : Platform) (norm : Option Normalizer) {a : AddedVocab} {w : WStr} {p : PTS} (hP : PlainTables a)
    (h : (a.extract P norm w).1 = .ok p) :
    ∃ cuts groups, CutUp a a.nonNormTrie w cuts ∧ Each (AtGroup P norm a w) cuts groups ∧
      (groups.flatten ≠ [] → p.splits = groups.flatten) ∧ (groups.flatten = [] → Each (AtSplit w) cuts p.splits) := by
  have hw0 : w ≠ [] := by
    rintro rfl
    obtain ⟨e, he, -⟩ := extract_nil P norm a
    rw [he] at h; cases h
  have ht := firstSplits_touched a w
  unfold AddedVocab.extract at h
  generalize hR : a.firstSplits w = R at h ht
  obtain ⟨r, a'⟩ := R
  cases r with
  | error e => cases h
  | ok first =>
  have hfirst : (a.firstSplits w).1 = .ok first := by rw [hR]
  unfold AddedVocab.firstSplits at hfirst
  split at hfirst
  · cases hfirst
  split at hfirst
  · cases hfirst
  rename_i _ p1 _ _ text htext
  obtain ⟨hsc, rfl⟩ := utf8Text_iff.1 ((C02_to_string_iff _ _).1 htext)
  obtain ⟨t1, t2⟩ := hP _ (.inl rfl)
  obtain ⟨segs, f1, f2⟩ := at_findMatches (a := a) hsc t1 t2
  simp only [f1, res_ok_bind] at hfirst
  obtain ⟨out1, g1, hfirst⟩ := res_bind_ok.1 hfirst
  obtain ⟨g2, g3⟩ := at_segSplits g1
  have hne : out1 ≠ [] := by
    rintro rfl
    cases g2
    obtain ⟨u, s, occ, k1, -, -, -, k5⟩ := f2
    obtain ⟨-, rfl⟩ := utf16Text_iff.1 k1
    exact at_cuts_ne k5 (at_units_ne hw0) rfl
  rw [if_neg hne] at hfirst
  have hfirst := Except.ok.inj hfirst
  subst hfirst
  simp only at h ht
  have hg := fun ns' out => at_loop P norm hP g2 a' p1.normalized ns' 0 out ht
  generalize normalizeLoop P norm a' p1.normalized 0 out1 = R' at h hg
  obtain ⟨r', a''⟩ := R'
  cases r' with
  | error e => cases h
  | ok q =>
    obtain ⟨ns, out⟩ := q
    simp only [Except.ok.injEq] at h
    subst h
    obtain ⟨groups, q1, q2⟩ := hg ns out rfl
    refine ⟨segs, groups, f2, q2, ?_, ?_⟩
    · intro hne'; simp only; rw [if_neg (by rw [q1]; exact hne'), q1]
    · intro he; simp only; rw [if_pos (by rw [q1]; exact he)]; exact g2

theorem at_extract (P : Platform) {a : AddedVocab} {w : WStr} {p : PTS} {norm : Option Normalizer} {N : WStr → WStr → Prop}
    (hN : ∀ x n, normalizeOpt P norm (NS.ofText x) = .ok n → N x n.normalized) (hP : PlainTables a)
    (h : (a.extract P norm w).1 = .ok p) :
    ∃ items, AnyItems a N w items ∧ Each RfItem items p.splits := by
  obtain ⟨cuts, groups, h1, h2, h3, h4⟩ := at_extract0 P norm hP h
  have key : ∃ gs : List (List (WStr × Bool)), Each (fun (c : Cut) g => match c.1 with
      | some _ => g = [(textAt w c.2.1 c.2.2, true)]
      | none => ∃ n cuts', N (textAt w c.2.1 c.2.2) n ∧ CutUp a a.normTrie n cuts' ∧ g = itemsAt n cuts') cuts gs ∧
      Each RfItem gs.flatten groups.flatten := by
    clear h1 h3 h4
    induction h2 with
    | nil => exact ⟨[], .nil, .nil⟩
    | @cons c g l r hc _ ih =>
      obtain ⟨gs, i1, i2⟩ := ih
      obtain ⟨o, x, y⟩ := c
      cases o with
      | some i =>
        obtain ⟨s, rfl, hs⟩ := hc
        exact ⟨[(textAt w x y, true)] :: gs, .cons rfl i1, .cons (at_item hs) i2⟩
      | none =>
        obtain ⟨n, cuts', g1, g2, g3⟩ := hc
        refine ⟨itemsAt n.normalized cuts' :: gs, .cons ⟨_, cuts', hN _ _ g1, g2, rfl⟩ i1, ?_⟩
        exact rf_append (at_items g3) i2
  obtain ⟨gs, k1, k2⟩ := key
  refine ⟨_, ⟨cuts, gs, h1, k1, rfl⟩, ?_⟩
  by_cases hg : groups.flatten = []
  · rw [hg] at k2
    have : gs.flatten = [] := by
      generalize gs.flatten = z at k2
      cases k2; rfl
    rw [if_pos this]
    exact at_items (h4 hg)
  · have : gs.flatten ≠ [] := by
      intro hz
      rw [hz] at k2
      apply hg
      generalize groups.flatten = z at k2
      cases k2; rfl
    rw [if_neg this, h3 hg]
    exact k2

theorem at_words (P : Platform) (hg : GoodRegexes P) {t : Tokenizer} {w : WStr} {p : PTS} (hd : ∀ a, t.added = some a → PlainTables a)
    (h : (t.preTokenized P w).1 = .ok p) : ∃ ws, AnyWords P t w ws ∧ Each (fun v s => HasText s v) ws p.splits := by
  have fin : ∀ items p0, AnyFirst P t w items → AtStage (w, items) p0 →
      (match t.preTokenizer with | none => .ok p0 | some pt => pt.run P p0 : Res PTS) = .ok p →
      ∃ ws, AnyWords P t w ws ∧ Each (fun v s => HasText s v) ws p.splits := by
    intro items p0 h1 h2 h3
    have fin' : ∀ (s' : Stage), AtStage s' p → Each (fun v s => HasText s v) (s'.2.map (·.1)) p.splits := by
      intro s' hs'
      have := hs'.2
      generalize s'.2 = l at this
      generalize p.splits = l' at this
      induction this with
      | nil => exact .nil
      | cons h _ ih => exact .cons h.1 ih
    cases hp : t.preTokenizer with
    | none =>
      rw [hp] at h3; cases h3
      refine ⟨items.map (·.1), ⟨items, w, items, h1, rfl, by rw [hp]⟩, fin' _ h2⟩
    | some pt =>
      rw [hp] at h3
      obtain ⟨⟨w', items'⟩, k1, k2⟩ := pl_run P hg pt h2 h3
      exact ⟨_, ⟨items, w', items', h1, rfl, by rw [hp]; exact k1⟩, fin' _ k2⟩
  unfold Tokenizer.preTokenized at h
  split at h
  · cases h
  · rename_i p0 hp0
    cases ha : t.added with
    | none =>
      simp only [ha, res_ok_bind] at h
      refine fin [(w, false)] p0 (by unfold AnyFirst; rw [ha]) ?_ ?_
      · unfold PTS.ofNS at hp0
        obtain ⟨x, e, hp0⟩ := res_bind_ok.1 hp0
        cases hp0
        exact ⟨rfl, .cons ⟨(C02_to_string_iff _ _).1 e, by simp⟩ .nil⟩
      · exact h
    | some a =>
      simp only [ha] at h
      obtain ⟨p1, h1, h⟩ := res_bind_ok.1 h
      obtain ⟨items, i1, i2⟩ := at_extract P (N := Normalizes P t.normalizer) (pl_normalizes P t.normalizer) (hd a ha) h1
      exact fin items p1 (by unfold AnyFirst; rw [ha]; exact i1) ⟨pl_whole P _ a w p1 h1, i2⟩ h

/-- **C108** Whatever the configuration, the text and the flags of the added tokens: all seven vectors of the encoding `encode`
returns, and of each of its overflow windows, are what the specification makes of the words of the text. -/
theorem C108_encode (P : Platform) (hg : GoodRegexes P) {t : Tokenizer} {m x : Model} {lines : List Str} {w : WStr} {b : Bool}
    {e : Encoding} (hx : t.model = some x) (hm : ModelIs P lines m x) (hd : ∀ a, t.added = some a → PlainTables a)
    (hS : ∀ s ∈ Specials t, s.ids.length = s.tokens.length)
    (hi : ∀ tr, t.truncation = some tr → IsInt tr.maxLength ∧ IsInt tr.stride)
    (h : (t.encode P w b).1 = .ok e) :
    ∃ (words : List WStr) (parts : List (List Token)) (starts : List Nat), AnyWords P t w words ∧
      Each (ModelTokens lines m) words parts ∧ starts.length = words.length ∧
      let text := wordRows 0 (starts.zip parts)
      (IsInt text.length → ∃ out, Finished t b text out ∧ Each HasRows (e.toEnc :: e.overflowing) out) := by
  obtain ⟨q, y, ⟨p, hp, hq⟩, hy, hpost⟩ := encode_ok h
  rw [hx] at hq
  obtain ⟨ws, hw1, hw2⟩ := at_words P hg hd hp
  obtain ⟨rows, hr, hrows⟩ := intoLoop_rows _ _ _ _ hy
  obtain ⟨starts, hs1, hs2⟩ := ro_textRows hr
  have hE := pl_model P hm hw2 hq
  refine ⟨ws, _, starts, hw1, hE, ?_, fun hlen => ?_⟩
  · rw [hs1]; have := ro_length hE; simp at this; omega
  · rw [← hs2] at hlen ⊢
    exact ro_finished hS hi hrows hlen hpost

/-- **C106** The full statement. -/
theorem C106_encode (P : Platform) (hg : GoodRegexes P) {t : Tokenizer} {m x : Model} {lines : List Str} {w : WStr} {b : Bool}
    {e : Encoding} (hx : t.model = some x) (hm : ModelIs P lines m x) (hd : ∀ a, t.added = some a → PlainTables a)
    (hS : ∀ s ∈ Specials t, s.ids.length = s.tokens.length)
    (hi : ∀ tr, t.truncation = some tr → IsInt tr.maxLength ∧ IsInt tr.stride)
    (h : (t.encode P w b).1 = .ok e) :
    ∃ (words : List WStr) (parts : List (List Token)) (starts : List Nat), AnyWords P t w words ∧
      Each (ModelTokens lines m) words parts ∧ starts.length = words.length ∧
      let text := wordRows 0 (starts.zip parts)
      (IsInt text.length → ∃ out, Finished t b text out ∧ Each HasRows (e.toEnc :: e.overflowing) out) :=
  C108_encode P hg hx hm hd hS hi h

/-- **C105** The full statement: the ids and tokens `encode` returns, for every configuration and every text. -/
theorem C105_encode (P : Platform) (hg : GoodRegexes P) {t : Tokenizer} {m x : Model} {lines : List Str} {w : WStr} {b : Bool}
    {e : Encoding} (hx : t.model = some x) (hm : ModelIs P lines m x) (hd : ∀ a, t.added = some a → PlainTables a)
    (hi : ∀ tr, t.truncation = some tr → IsInt tr.maxLength ∧ IsInt tr.stride)
    (h : (t.encode P w b).1 = .ok e) :
    ∃ (words : List WStr) (parts : List (List Token)), AnyWords P t w words ∧ Each (ModelTokens lines m) words parts ∧
      let ts := parts.flatten
      (IsInt ts.length →
        let ids := laidOutBy t.postProcessor b (·.ids) (mainPart t.truncation (ts.map (·.id)))
        let tokens := laidOutBy t.postProcessor b (·.tokens) (mainPart t.truncation (ts.map (·.value)))
        PaddedBy t.padding ids.length (·.padId) ids e.ids ∧ PaddedBy t.padding ids.length (·.padToken) tokens e.tokens) := by
  obtain ⟨q, y, ⟨p, hp, hq⟩, hy, hpost⟩ := encode_ok h
  rw [hx] at hq
  obtain ⟨ws, hw1, hw2⟩ := at_words P hg hd hp
  exact ⟨ws, _, hw1, pl_model P hm hw2 hq, fun hlen => pl_entries hy hpost hi hlen⟩

/-- **C103** The full statement: a BERT tokenizer returns the ids and tokens of the reference algorithm, for every text. -/
theorem C103_bert_all (P : Platform) {t : Tokenizer} {a : AddedVocab} {m : WordPiece} {clean cjk strip lower b : Bool} {w : WStr}
    {single pair : List Piece} {specials : List SpecialToken} {e : Encoding}
    (ha : t.added = some a) (hn : t.normalizer = some (.bert clean cjk strip lower)) (hpt : t.preTokenizer = some .bert)
    (hm : t.model = some (.wordPiece m)) (hpp : t.postProcessor = some (.template single pair specials))
    (htr : CutsRight t) (hpad : t.padding = none) (hP : PlainTables a)
    (h : (t.encode P w b).1 = .ok e) :
    ∃ (items : List (WStr × Bool)) (parts : List (List Token)),
      AnyItems a (fun x n => n = bertResult P clean cjk strip lower x) w items ∧ Each (WordTokens m) (bertWords P items) parts ∧
      let ts := parts.flatten
      e.ids = laidOut single specials b (·.ids) ((beginning t ts).map (·.id)) ∧
      e.tokens = laidOut single specials b (·.tokens) ((beginning t ts).map (·.value)) := by
  obtain ⟨q, ⟨p, hp, hqp⟩, -, h2⟩ := rf_rows P h htr hpad
  rw [hm] at hqp
  simp only [Model.tokenize, Except.ok.injEq] at hqp
  unfold Tokenizer.preTokenized at hp
  split at hp
  · cases hp
  · simp only [ha, hpt, hn] at hp
    obtain ⟨p0, h0, hp⟩ := res_bind_ok.1 hp
    obtain ⟨items, i1, i2⟩ := at_extract P (N := fun x n => n = bertResult P clean cjk strip lower x)
      (fun x n h => rf_bert_value P clean cjk strip lower x h) hP h0
    obtain ⟨p', parts, k1, k2, k3, k4⟩ := C09_bert_pieces P p0 (fun s hs => by
      obtain ⟨x, _, hx⟩ := each_mem_right i2 s hs
      exact ⟨_, hx.1⟩)
    replace hp : PreTokenizer.run P .bert p0 = .ok p := hp
    rw [k1] at hp
    cases hp
    have hw := rf_words P i2 k4
    rw [← k3] at hw
    have hsp := (wordPiece_splits m p).2
    rw [hqp] at hsp
    exact ⟨items, _, i1, rf_tokens m hw hsp, h2 single pair specials hpp⟩

/-! ### The specification prescribes one result -/

theorem at_sorted_unique {α : Type} {R : α → α → Prop} (l : List α) : ∀ l' : List α,
    (∀ a ∈ l, ¬ R a a) → (∀ a ∈ l, ∀ b ∈ l, R a b → ¬ R b a) → l.Pairwise R → l'.Pairwise R → (∀ x, x ∈ l ↔ x ∈ l') → l = l' := by
  induction l with
  | nil =>
    intro l' _ _ _ _ h
    cases l' with
    | nil => rfl
    | cons y r => exact absurd ((h y).2 (by simp)) (by simp)
  | cons x l ih =>
    intro l' hi ha hl hl' h
    cases l' with
    | nil => exact absurd ((h x).1 (by simp)) (by simp)
    | cons y r =>
      rw [List.pairwise_cons] at hl hl'
      have hyl : y ∈ x :: l := (h y).2 (by simp)
      have hxr : x ∈ y :: r := (h x).1 (by simp)
      have hxy : x = y := by
        rcases List.mem_cons.1 hyl with e | hy
        · exact e.symm
        · rcases List.mem_cons.1 hxr with e | hx
          · exact e
          · exact absurd (hl'.1 x hx) (ha x (by simp) y (by simp [hy]) (hl.1 y hy))
      subst hxy
      rw [ih r (fun a h => hi a (by simp [h])) (fun a h b h' => ha a (by simp [h]) b (by simp [h'])) hl.2 hl'.2]
      intro z
      have hz := h z
      constructor
      · intro hzl
        rcases List.mem_cons.1 (hz.1 (by simp [hzl])) with rfl | hzr
        · exact absurd (hl.1 z hzl) (hi z (by simp))
        · exact hzr
      · intro hzr
        rcases List.mem_cons.1 (hz.2 (by simp [hzr])) with rfl | hzl
        · exact absurd (hl'.1 z hzr) (hi z (by simp))
        · exact hzl

theorem at_left_unique {a : AddedVocab} {s : Str} {p : Nat} {i : Int} {x y z : Nat} (hx : x ≤ s.length) (h : LeftEnd a s p i x y)
    (h' : LeftEnd a s p i x z) : y = z := by
  unfold LeftEnd at h h'
  split at h
  · rename_i hf
    rw [if_pos hf] at h'
    obtain ⟨q, h1, h2, h3, rfl⟩ := h
    obtain ⟨q', h1', h2', h3', rfl⟩ := h'
    have key : ∀ q q', q ≤ x → q' ≤ x → (∀ c ∈ between s q x, BlankByte c) → (q' = 0 ∨ ∃ c, s[q' - 1]? = some c ∧ ¬ BlankByte c) → ¬ q < q' := by
      intro q q' hq hq' hb hs hlt
      rcases hs with rfl | ⟨c, hc, hn⟩
      · omega
      · obtain ⟨d, hd, hs⟩ := (between_blank hx).1 hb (q' - 1) (by omega) (by omega)
        rw [hc] at hd; cases hd
        exact hn ((blankByte_iff _).1 hs)
    have k1 := key q q' h1 h1' h2 h3'
    have k2 := key q' q h1' h1 h2' h3
    omega
  · rename_i hf
    rw [if_neg hf] at h'
    omega

theorem at_right_unique {a : AddedVocab} {s : Str} {i : Int} {x y z : Nat} (h : RightEnd a s i x y) (h' : RightEnd a s i x z) : y = z := by
  unfold RightEnd at h h'
  split at h
  · rename_i hf
    rw [if_pos hf] at h'
    obtain ⟨h1, h2, h3, h4⟩ := h
    obtain ⟨h1', h2', h3', h4'⟩ := h'
    have key : ∀ y z, x ≤ y → y < z → z ≤ s.length → (∀ c ∈ between s x z, BlankByte c) → (∀ c, s[y]? = some c → ¬ BlankByte c) → False := by
      intro y z hxy hyz hz hb hn
      obtain ⟨d, hd, hs⟩ := (between_blank hz).1 hb y hxy hyz
      exact hn d hd ((blankByte_iff _).1 hs)
    have k1 : ¬ y < z := fun h => key y z h1 h h2' h3' h4
    have k2 : ¬ z < y := fun h => key z y h1' h h2 h3 h4'
    omega
  · rename_i hf
    rw [if_neg hf] at h'
    omega

theorem at_from_unique {a : AddedVocab} {s : Str} {total p : Nat} {occ : List (Nat × Nat × Int)} {l l' : List Cut}
    (hocc : ∀ o ∈ occ, o.1 ≤ s.length) (h : CutFrom a s total p occ l) (h' : CutFrom a s total p occ l') : l = l' := by
  induction h generalizing l' with
  | rest hp =>
    cases h' with
    | rest => rfl
    | done => exact absurd rfl hp
  | done =>
    cases h' with
    | rest hp => exact absurd rfl hp
    | done => rfl
  | skip hc _ ih =>
    cases h' with
    | skip _ h' => exact ih (fun o ho => hocc o (by simp [ho])) h'
    | take hc' => exact absurd hc' hc
  | take hc hl hr _ ih =>
    cases h' with
    | skip hc' => exact absurd hc hc'
    | take _ hl' hr' h' =>
      obtain rfl := at_left_unique (hocc _ (List.mem_cons_self ..)) hl hl'
      obtain rfl := at_right_unique hr hr'
      rw [ih (fun o ho => hocc o (by simp [ho])) h']

/-- **C108** Where a text is cut at its added tokens is prescribed without ambiguity, whatever their flags. -/
theorem C108_cuts_unique {a : AddedVocab} {T : List (Str × Int)} {w : WStr} {l l' : List Cut} (h : CutUp a T w l) (h' : CutUp a T w l') :
    l = l' := by
  obtain ⟨u, s, occ, h1, h2, h3, h4, h5⟩ := h
  obtain ⟨u', s', occ', h1', h2', h3', h4', h5'⟩ := h'
  obtain ⟨hw, rfl⟩ := utf16Text_iff.1 h1
  obtain ⟨-, rfl⟩ := utf16Text_iff.1 h1'
  obtain ⟨-, rfl⟩ := utf8Text_iff.1 h2
  obtain ⟨-, rfl⟩ := utf8Text_iff.1 h2'
  have hle : ∀ o ∈ occ, o.1 < o.2.1 ∧ o.2.1 ≤ (utf16 w).length := by
    rintro ⟨x, y, i⟩ ho
    exact at_le ((h4 x y i).1 ho)
  have hu := at_units_le hw
  obtain rfl : occ = occ' := by
    refine at_sorted_unique occ occ' ?_ ?_ h3 h3' ?_
    · intro o ho; have := hle o ho; omega
    · intro o ho o' ho'; have := hle o ho; have := hle o' ho'; omega
    · rintro ⟨x, y, i⟩; rw [h4, h4']
  refine at_from_unique ?_ h5 h5'
  intro o ho
  have := hle o ho
  omega

theorem at_items_unique {a : AddedVocab} {N : WStr → WStr → Prop} (hN : ∀ x n n', N x n → N x n' → n = n') {w : WStr}
    {l l' : List (WStr × Bool)} (h : AnyItems a N w l) (h' : AnyItems a N w l') : l = l' := by
  obtain ⟨cuts, groups, h1, h2, rfl⟩ := h
  obtain ⟨cuts', groups', h1', h2', rfl⟩ := h'
  obtain rfl := C108_cuts_unique h1 h1'
  obtain rfl := rf_each_unique (fun (c : Cut) g g' hg hg' => by
    obtain ⟨o, x, y⟩ := c
    cases o with
    | some i => exact Eq.trans hg (Eq.symm hg')
    | none =>
      obtain ⟨n, c1, k1, k2, rfl⟩ := hg
      obtain ⟨n', c2, k1', k2', rfl⟩ := hg'
      obtain rfl := hN _ _ _ k1 k1'
      rw [C108_cuts_unique k2 k2']) h2 h2'
  rfl

/-- **C108** The words given to the model are prescribed without ambiguity. -/
theorem C108_words_unique (P : Platform) {t : Tokenizer} {w : WStr} {ws ws' : List WStr} (h : AnyWords P t w ws) (h' : AnyWords P t w ws') :
    ws = ws' := by
  obtain ⟨i, v, j, h1, rfl, h2⟩ := h
  obtain ⟨i', v', j', h1', rfl, h2'⟩ := h'
  have e : i = i' := by
    unfold AnyFirst at h1 h1'
    cases ha : t.added with
    | none => rw [ha] at h1 h1'; exact Eq.trans h1 (Eq.symm h1')
    | some a =>
      rw [ha] at h1 h1'
      refine at_items_unique (N := Normalizes P t.normalizer) ?_ h1 h1'
      intro x n n' hn hn'
      unfold Normalizes at hn hn'
      cases hnorm : t.normalizer with
      | none => rw [hnorm] at hn hn'; exact Eq.trans hn (Eq.symm hn')
      | some nm =>
        rw [hnorm] at hn hn'
        exact C104_unique P nm hn hn'
  subst e
  cases hp : t.preTokenizer with
  | none => rw [hp] at h2 h2'; rw [h2, h2']
  | some x =>
    rw [hp] at h2 h2'
    have := C105_pre_unique P x h2 h2'
    simp only [Prod.mk.injEq] at this
    rw [this.2]

/-- **C108** Every text (of scalar values) is cut in exactly one way. -/
theorem C108_cuts_exist {a : AddedVocab} {T : List (Str × Int)} {w : WStr} (hw : Scalars w) (hT : ∀ p ∈ T, p.1 ≠ [])
    (hf : ∀ k i j, (k, i) ∈ T → (k, j) ∈ T → i = j) : ∃ cuts, CutUp a T w cuts ∧ ∀ cuts', CutUp a T w cuts' → cuts' = cuts := by
  obtain ⟨cuts, -, h⟩ := at_findMatches (a := a) hw hT hf
  exact ⟨cuts, h, fun _ h' => C108_cuts_unique h' h⟩

/-- **C108** For the texts of C85 - up to U+FFFF, and ASCII if a token has flags - this is the cutting described there: what
is cut out is the occurrence with its blanks, and the pieces concatenate to the text. -/
theorem C108_agrees {a : AddedVocab} {T : List (Str × Int)} {w : WStr} {cuts : List Cut} (hd : Describable a T w)
    (h : CutUp a T w cuts) : CutInto a T w cuts := by
  obtain ⟨c1, e1, k1⟩ := findMatches_cut hd
  obtain ⟨c2, e2, k2⟩ := at_findMatches (a := a) (bmp_scalars hd.1) hd.2.1 hd.2.2.1
  rw [e1] at e2
  cases e2
  rw [C108_cuts_unique h k2]
  exact k1

/-! ### The tables of a tokenizer that was constructed and used -/

theorem at_history {P : Platform} {t t1 : Tokenizer} {cs : List Call} (h : History P t cs t1) (hK : KTok t) :
    KTok t1 ∧ t1.vocab? = t.vocab? := by
  induction h with
  | nil t => exact ⟨hK, rfl⟩
  | @cons t t' t'' c cs h1 _ ih =>
    have hA := after_added h1
    have hstep : KTok t' := by
      intro b hb
      rw [hA.1]
      rcases hA.2 with h | ⟨a, a', ha, ha', h⟩
      · exact hK b (by rw [← h]; exact hb)
      · rw [ha'] at hb; cases hb
        obtain ⟨k1, k2⟩ := hK a ha
        rcases h with h | ⟨l, n, _, h⟩
        · exact touched_kinv k1 k2 h
        · exact core_kinv h (fun t ht hne => .inr (k1.found t ht hne)) k1.model k1.back
    obtain ⟨i1, i2⟩ := ih hstep
    exact ⟨i1, i2.trans hA.1⟩

/-- **C108** The hypothesis about the tables holds of every tokenizer that was constructed, whatever calls followed, if the
model's vocabulary has no empty entry. -/
theorem C108_tables {P : Platform} {t t1 : Tokenizer} {cs : List Call} (hc : Constructed t)
    (hM : ∀ v, t.vocab? = some v → tokenToId v [] = none) (h : History P t cs t1) : ∀ a, t1.added = some a → PlainTables a := by
  obtain ⟨hK, hv⟩ := at_history h (constructed_ktok hc)
  intro a ha T hT
  obtain ⟨-, hk⟩ := hK a ha
  have hin : ∀ p ∈ T, ∃ v, t1.vocab? = some v ∧ tokenToId v p.1 = some p.2 := by
    intro p hp
    obtain ⟨v, h1, h2, -⟩ := hk p (by rcases hT with rfl | rfl <;> simp [hp])
    exact ⟨v, h1, h2⟩
  refine ⟨fun p hp he => ?_, fun k i j hi hj => ?_⟩
  · obtain ⟨v, h1, h2⟩ := hin p hp
    rw [he, hM v (by rw [← hv]; exact h1)] at h2
    cases h2
  · obtain ⟨v, h1, h2⟩ := hin _ hi
    obtain ⟨v', h1', h2'⟩ := hin _ hj
    rw [h1] at h1'; cases h1'
    simp only at h2 h2'
    rw [h2] at h2'
    exact Option.some.inj h2'

/-! ### Positions beyond the text -/

theorem at_segSplits_throws {w : WStr} (hw : Scalars w) (base : Nat) (segs : List TSeg) (h : ∃ g ∈ segs, w.length < g.2.1) :
    segSplits w base segs = .error (.throws .outOfRange) := by
  induction segs with
  | nil => obtain ⟨g, hg, -⟩ := h; cases hg
  | cons g r ih =>
    obtain ⟨id, x, y⟩ := g
    simp only [segSplits]
    by_cases hx : x ≤ w.length
    · have hr : ∃ g ∈ r, w.length < g.2.1 := by
        obtain ⟨g, hg, hl⟩ := h
        rcases List.mem_cons.1 hg with rfl | hg
        · simp only at hl; omega
        · exact ⟨g, hg, hl⟩
      have hs : Scalars (if x ≤ y then (w.drop x).take (y - x) else w.drop x) := by
        intro c hc
        refine hw c ?_
        split at hc
        · exact List.mem_of_mem_drop (List.mem_of_mem_take hc)
        · exact List.mem_of_mem_drop hc
      simp only [wsubstr, if_pos hx, res_ok_bind, convertToString_scalars hs, ih hr]
      rfl
    · simp only [wsubstr, if_neg hx]
      rfl

/-- **C108** When a piece of the text starts beyond its last code point - as after a character above U+FFFF, or when a stripping
token follows text that is not ASCII - `encode` throws `out_of_range`. -/
theorem C108_throws (P : Platform) {t : Tokenizer} {a : AddedVocab} (ha : t.added = some a) (hP : PlainTables a) {w : WStr}
    {cuts : List Cut} (hc : CutUp a a.nonNormTrie w cuts) (hb : ∃ c ∈ cuts, w.length < c.2.1) (b : Bool) :
    (t.encode P w b).1 = .error (.throws .outOfRange) := by
  have hw : Scalars w := by
    obtain ⟨u, s, occ, h1, -⟩ := hc
    exact (utf16Text_iff.1 h1).1
  obtain ⟨t1, t2⟩ := hP _ (.inl rfl)
  obtain ⟨segs, f1, f2⟩ := at_findMatches (a := a) hw t1 t2
  obtain rfl := C108_cuts_unique hc f2
  have hfirst : (a.firstSplits w).1 = .error (.throws .outOfRange) := by
    unfold AddedVocab.firstSplits PTS.ofNS
    simp only [NS.ofText, convertToString_scalars hw, res_ok_bind, res_pure]
    rw [f1, res_ok_bind, at_segSplits_throws hw 0 cuts hb]
    rfl
  have hext : (a.extract P t.normalizer w).1 = .error (.throws .outOfRange) := by
    unfold AddedVocab.extract
    generalize a.firstSplits w = R at hfirst
    obtain ⟨r, a'⟩ := R
    simp only at hfirst
    subst hfirst
    rfl
  have hpre : (t.preTokenized P w).1 = .error (.throws .outOfRange) := by
    unfold Tokenizer.preTokenized PTS.ofNS
    simp only [NS.ofText, convertToString_scalars hw, res_ok_bind, res_pure, ha, hext, res_error_bind]
  unfold Tokenizer.encode
  generalize t.preTokenized P w = R at hpre
  obtain ⟨r, t'⟩ := R
  simp only at hpre
  subst hpre
  rfl

/-! ### The hypotheses are met -/

theorem at_tagAdded : PlainTables tagAdded := by
  have e1 : tagAdded.nonNormTrie = [(b!"A", 1)] := by decide +kernel
  have e2 : tagAdded.normTrie = [(b!"<s>", 0)] := by decide +kernel
  intro T hT
  rcases hT with rfl | rfl
  · rw [e1]
    refine ⟨by decide, fun k i j hi hj => ?_⟩
    simp only [List.mem_singleton, Prod.mk.injEq] at hi hj
    rw [hi.2, hj.2]
  · rw [e2]
    refine ⟨by decide, fun k i j hi hj => ?_⟩
    simp only [List.mem_singleton, Prod.mk.injEq] at hi hj
    rw [hi.2, hj.2]

/-- A tokenizer with these added tokens, one of which has a flag. -/
def anyTk : Tokenizer := { tkOf [(b!"[UNK]", 0), (b!"hi", 3), (b!"A", 1), (b!"s", 4), (b!"##>", 5)] with preTokenizer := some .bert, added := some tagAdded }

/-- The hypotheses of `C108_encode` are met, for every text. -/
example : (∃ m, anyTk.model = some (.wordPiece m)) ∧
    (∀ a, anyTk.added = some a → PlainTables a) ∧ (∀ s ∈ Specials anyTk, s.ids.length = s.tokens.length) ∧
    (∀ tr, anyTk.truncation = some tr → IsInt tr.maxLength ∧ IsInt tr.stride) :=
  ⟨⟨_, rfl⟩, fun a h => by cases h; exact at_tagAdded, by simp [Specials, anyTk, tkOf], fun tr h => by cases h⟩

/-- A text with a character above U+FFFF is cut one character too late. -/
example : CutUp tagAdded tagAdded.normTrie w!"😀 <s> hi" [(none, (0, 3)), (some 0, (3, 6)), (none, (6, 9))] := by
  obtain ⟨h1, h2⟩ := at_tagAdded _ (.inr rfl)
  obtain ⟨cuts, f1, f2⟩ := at_findMatches (a := tagAdded) (w := w!"😀 <s> hi") (by unfold Scalars isScalar; decide) h1 h2
  have : (tagAdded.findMatches (utf8 w!"😀 <s> hi") tagAdded.normTrie).1 = .ok [(none, (0, 3)), (some 0, (3, 6)), (none, (6, 9))] := by
    decide +kernel
  rw [this] at f1
  cases f1
  exact f2

/-- The tokens of that text: the added token is now the word `s> `, which the model takes for unknown. -/
example : (anyTk.encode ascii w!"😀 <s> hi" true).1.map (·.tokens) = .ok [b!"[UNK]", b!"[UNK]", b!"[UNK]", b!"hi"] := by
  decide +kernel

/-- A stripping token in a text that is not ASCII: `A` ends at unit 4, and takes along the blank at *byte* 4 (the one in front of
it, as `é` takes two bytes). -/
example : (anyTk.encode ascii w!"éé A  hi" true).1.map (·.tokens) = .ok [b!"[UNK]", b!"[UNK]", b!"hi"] := by
  decide +kernel

/-- The hypothesis of `C108_throws` is met: four characters above U+FFFF take eight units, so that the token is
looked for behind the last code point. -/
example : ∃ cuts, CutUp tagAdded tagAdded.nonNormTrie w!"😀😀😀😀 A" cuts ∧ ∃ c ∈ cuts, w!"😀😀😀😀 A".length < c.2.1 := by
  obtain ⟨h1, h2⟩ := at_tagAdded _ (.inl rfl)
  obtain ⟨cuts, f1, f2⟩ := at_findMatches (a := tagAdded) (w := w!"😀😀😀😀 A") (by unfold Scalars isScalar; decide) h1 h2
  have : (tagAdded.findMatches (utf8 w!"😀😀😀😀 A") tagAdded.nonNormTrie).1 = .ok [(none, (0, 9)), (some 1, (9, 10))] := by
    decide +kernel
  rw [this] at f1
  cases f1
  exact ⟨_, f2, (some 1, (9, 10)), by simp, by decide⟩

end Tok
