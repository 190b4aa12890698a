import Verif.Spec.Roundtrip
import Verif.Proofs.Total2
import Verif.Props.ByteLevel
import Verif.Props.Streaming
import Verif.Props.Utils

set_option autoImplicit false

/-!
From a text through `encode` and `decode` back to the text.
-/

namespace Tok
open Spec

/-! ### The ids of the text survive post-processing -/

theorem rt_encs_ids (base : Nat) (k ty : Int) (l : List Token) :
    ((l.map (tokenEnc base k ty)).foldr Enc.append {}).ids = l.map (·.id) := by
  induction l with
  | nil => rfl
  | cons t l ih => simp only [List.map_cons, List.foldr_cons, Enc.append, ih, tokenEnc]; rfl

theorem rt_intoLoop_ids (ns : NS) (k : Option Int) (ty : Int) : ∀ (l : List Split) (i : Nat) (x : Enc),
    intoLoop ns k ty i l = .ok x → x.ids = l.flatMap fun s => s.tokens.map (·.id) := by
  intro l
  induction l with
  | nil => intro i x h; cases h; rfl
  | cons s l ih =>
    intro i x h
    simp only [intoLoop] at h
    obtain ⟨g, _, h⟩ := res_bind_ok.1 h
    obtain ⟨o, _, h⟩ := res_bind_ok.1 h
    obtain ⟨y, hy, h⟩ := res_bind_ok.1 h
    cases h
    simp only [Enc.append, rt_encs_ids, ih _ _ hy, List.flatMap_cons]

theorem rt_foldl_ids (l : List Enc) : ∀ (a : Enc), (l.foldl Enc.append a).ids = a.ids ++ l.flatMap (·.ids) := by
  induction l with
  | nil => intro a; simp
  | cons e l ih => intro a; simp only [List.foldl_cons, ih, Enc.append, List.flatMap_cons, List.append_assoc]

theorem rt_filter_none {f : Int → Bool} {l : List Int} (h : ∀ i ∈ l, f i = false) : l.filter f = [] :=
  List.filter_eq_nil_iff.2 fun i hi => by simp [h i hi]

theorem rt_specialEnc_ids {f : Int → Bool} {S : List SpecialToken} (hS : ∀ s ∈ S, ∀ i ∈ s.ids, f i = false) (p : Piece) :
    (specialEnc S p).ids.filter f = [] := by
  unfold specialEnc
  cases h : S.find? fun s => s.id == p.id with
  | none => rfl
  | some s => exact rt_filter_none (hS s (List.mem_of_find?_eq_some h))

/-- A template keeps the ids that are not those of special tokens: as many copies as it names the sequence. -/
theorem rt_template_ids {f : Int → Bool} {S : List SpecialToken} {add : Bool}
    (hS : add = true → ∀ s ∈ S, ∀ i ∈ s.ids, f i = false) : ∀ (ps : List Piece) (e : Enc),
    ((templateParts S add ps e).flatMap (·.ids)).filter f =
      (List.replicate (ps.filter fun p => p.kind = b!"Sequence").length (e.ids.filter f)).flatten := by
  intro ps
  induction ps with
  | nil => intro e; rfl
  | cons p ps ih =>
    intro e
    simp only [templateParts]
    by_cases hs : p.kind = b!"Sequence"
    · simp only [hs, if_true, List.filter_cons, decide_true, List.length_cons, List.replicate_succ, List.flatten_cons,
        List.flatMap_cons, List.filter_append]
      rw [ih]
      split <;> rfl
    · have hn : decide (p.kind = b!"Sequence") = false := decide_eq_false hs
      simp only [if_neg hs, List.filter_cons, hn, Bool.false_eq_true, if_false]
      split
      · cases add with
        | false => simp only [Bool.false_eq_true, if_false]; exact ih e
        | true =>
          simp only [if_true, List.flatMap_cons, List.filter_append, rt_specialEnc_ids (hS rfl), List.nil_append]
          exact ih e
      · exact ih e

theorem rt_byteLevel_ids {a tr : Bool} {e e' : Encoding} (h : byteLevelProcess a tr e = .ok e') : e'.ids = e.ids := by
  unfold byteLevelProcess at h
  split at h
  · obtain ⟨m, hm, h⟩ := res_bind_ok.1 h
    obtain ⟨o, _, h⟩ := res_bind_ok.1 h
    cases h
    unfold processOffsets at hm
    obtain ⟨x, _, hm⟩ := res_bind_ok.1 hm
    cases hm; rfl
  · cases h; rfl

theorem rt_post_ids {f : Int → Bool} {add : Bool} (pp : PostProcessor) :
    NamesSequence pp → (add = true → ∀ s ∈ specialsOf pp, ∀ i ∈ s.ids, f i = false) →
    ∀ (e e' : Encoding), pp.run add e = .ok e' → e'.ids.filter f = e.ids.filter f := by
  refine PostProcessor.rec
    (motive_1 := fun pp => NamesSequence pp → (add = true → ∀ s ∈ specialsOf pp, ∀ i ∈ s.ids, f i = false) →
      ∀ (e e' : Encoding), pp.run add e = .ok e' → e'.ids.filter f = e.ids.filter f)
    (motive_2 := fun l => NamesSequenceList l → (add = true → ∀ s ∈ specialsOfList l, ∀ i ∈ s.ids, f i = false) →
      ∀ (e e' : Encoding), PostProcessor.runList add l e = .ok e' → e'.ids.filter f = e.ids.filter f) ?_ ?_ ?_ ?_ ?_ pp
  · intro s p S hn hS e e' h
    simp only [NamesSequence] at hn
    simp only [specialsOf] at hS
    simp only [PostProcessor.run] at h
    cases h
    simp only [templateProcess, rt_foldl_ids, List.nil_append]
    rw [rt_template_ids hS, hn]
    simp
  · intro a tr _ _ e e' h
    simp only [PostProcessor.run] at h
    rw [rt_byteLevel_ids h]
  · intro l ih hn hS e e' h
    simp only [NamesSequence] at hn
    simp only [specialsOf] at hS
    simp only [PostProcessor.run] at h
    exact ih hn hS e e' h
  · intro _ _ e e' h
    simp only [PostProcessor.runList] at h
    cases h; rfl
  · intro p r ih1 ih2 hn hS e e' h
    simp only [NamesSequenceList] at hn
    simp only [specialsOfList, List.mem_append] at hS
    simp only [PostProcessor.runList] at h
    obtain ⟨e1, h1, h2⟩ := res_bind_ok.1 h
    rw [ih2 hn.2 (fun ha s hs => hS ha s (.inr hs)) e1 e' h2, ih1 hn.1 (fun ha s hs => hS ha s (.inl hs)) e e1 h1]

theorem rt_pad_ids {f : Int → Bool} {p : Padding} (hp : f p.padId = false) {target : Int} {e e' : Enc}
    (h : padEnc p target e = .ok e') : e'.ids.filter f = e.ids.filter f := by
  have hr : ∀ k, (List.replicate k p.padId).filter f = [] := fun k =>
    rt_filter_none fun i hi => by rw [(List.mem_replicate.1 hi).2, hp]
  unfold padEnc at h
  split at h
  · cases h; rfl
  · simp only at h
    split at h
    · cases h; rfl
    · split at h
      · cases h
      · cases h; simp [List.filter_append, hr]
    · split at h
      · cases h
      · cases h; simp [List.filter_append, hr]

/-- What survives of the ids: those that are neither special tokens of the template nor padding are exactly those of the
tokens of the text. -/
theorem rt_encode_ids {f : Int → Bool} {P : Platform} {t : Tokenizer} {w : WStr} {b : Bool} {e : Encoding}
    (h : (t.encode P w b).1 = .ok e) (hfit : Fit P t w) (hpp : ∀ p, t.postProcessor = some p → NamesSequence p)
    (hS : b = true → ∀ s ∈ Specials t, ∀ i ∈ s.ids, f i = false) (hpad : ∀ p, t.padding = some p → f p.padId = false) :
    ∃ q, TokenizedInto P t w q ∧ e.ids.filter f = (textIds q).filter f := by
  obtain ⟨q, x, hq, hx, hpost⟩ := encode_ok h
  refine ⟨q, hq, ?_⟩
  have hids : x.ids = textIds q := rt_intoLoop_ids _ _ _ _ _ _ hx
  obtain ⟨e1, e2, h1, h2, h3⟩ := postProcess_ok hpost
  have g1 : e1.ids = x.ids := by
    cases hT : t.truncation with
    | none => rw [hT] at h1; cases h1; rfl
    | some tr =>
      rw [hT] at h1
      obtain ⟨hp, hl⟩ := hfit tr hT
      have := C36_fits_unchanged tr { toEnc := x, overflowing := [] } hp (by simp only [hids]; exact hl q hq)
      simp only [this] at h1
      cases h1; rfl
  have g2 : e2.ids.filter f = e1.ids.filter f := by
    cases hP : t.postProcessor with
    | none => rw [hP] at h2; cases h2; rfl
    | some p =>
      rw [hP] at h2
      have hSp : Specials t = specialsOf p := by simp [Specials, hP]
      rw [hSp] at hS
      exact rt_post_ids p (hpp p hP) hS e1 e2 h2
  have g3 : e.ids.filter f = e2.ids.filter f := by
    cases hp : t.padding with
    | none => rw [hp] at h3; cases h3; rfl
    | some p =>
      rw [hp] at h3
      simp only [Padding.run, pad] at h3
      obtain ⟨o, _, h3⟩ := res_bind_ok.1 h3
      obtain ⟨m, hm, h3⟩ := res_bind_ok.1 h3
      cases h3
      exact rt_pad_ids (hpad p hp) hm
  rw [g3, g2, g1, hids]

/-- Decoding the ids of tokens that the vocabulary shows. -/
theorem rt_idTokens {t : Tokenizer} {skip : Bool} : ∀ (l : List Token), (∀ k ∈ l, t.idToken k.id = .ok k.value) →
    (skip = true → ∀ k ∈ l, t.isSpecial k.value = false) → t.idTokens skip (l.map (·.id)) = .ok (l.map (·.value)) := by
  intro l
  induction l with
  | nil => intro _ _; rfl
  | cons k l ih =>
    intro h1 h2
    simp only [List.map_cons, Tokenizer.idTokens, h1 k (by simp), res_ok_bind,
      ih (fun k hk => h1 k (by simp [hk])) (fun hs k hk => h2 hs k (by simp [hk]))]
    cases skip with
    | false => simp
    | true => simp [h2 rfl k (by simp)]

theorem rt_textIds (q : PTS) : textIds q = (q.splits.flatMap (·.tokens)).map (·.id) := by
  simp [textIds, List.map_flatMap]

theorem rt_textTokens (q : PTS) : textTokens q = (q.splits.flatMap (·.tokens)).map (·.value) := by
  simp [textTokens, List.map_flatMap]

/-! ### The bytes of the text survive pre-tokenization -/

/-- The text of a list of splits. -/
def rtJoin (l : List Split) : Str := (l.map (·.normalized)).flatten

theorem rt_join_append (l m : List Split) : rtJoin (l ++ m) = rtJoin l ++ rtJoin m := by simp [rtJoin]

theorem rt_isolated {l : List Split} {parts : List (List Split)} (h : Each IsolatedPieces l parts)
    (ht : ∀ s ∈ l, ∃ w, HasText s w) : rtJoin parts.flatten = rtJoin l ∧ ∀ s ∈ parts.flatten, ∃ w, HasText s w := by
  induction h with
  | nil => exact ⟨rfl, by simp⟩
  | @cons s part l parts h1 _ ih =>
    obtain ⟨i1, i2⟩ := ih fun s hs => ht s (by simp [hs])
    have key : rtJoin part = s.normalized ∧ ∀ q ∈ part, ∃ w, HasText q w := by
      rcases h1 with ⟨_, rfl⟩ | ⟨_, h2, h3, _⟩
      · exact ⟨by simp [rtJoin], fun q hq => ht q (by simp at hq; simp [hq])⟩
      · exact ⟨h3, fun q hq => (h2 q hq).2⟩
    refine ⟨?_, ?_⟩
    · rw [List.flatten_cons, rt_join_append, key.1, i1]; simp [rtJoin]
    · intro q hq
      rw [List.flatten_cons] at hq
      rcases List.mem_append.1 hq with hq | hq
      · exact key.2 q hq
      · exact i2 q hq

theorem rt_splits (P : Platform) : ∀ (l : List PreTokenizer), (∀ x ∈ l, ∃ pat inv, x = .split pat .isolated inv ∧ Matches P pat True) →
    ∀ (p : PTS), (∀ s ∈ p.splits, ∃ w, HasText s w) → ∃ p', PreTokenizer.runList P l p = .ok p' ∧
      rtJoin p'.splits = rtJoin p.splits ∧ ∀ s ∈ p'.splits, ∃ w, HasText s w := by
  intro l
  induction l with
  | nil => intro _ p ht; exact ⟨p, by simp only [PreTokenizer.runList], rfl, ht⟩
  | cons x l ih =>
    intro hx p ht
    obtain ⟨pat, inv, rfl, find, hf, hg, _⟩ := hx x (by simp)
    obtain ⟨p1, parts, h1, _, h3, h4⟩ := C06_isolated_lossless P pat inv find hf hg p ht
    obtain ⟨g1, g2⟩ := rt_isolated h4 ht
    obtain ⟨p', k1, k2, k3⟩ := ih (fun x hx' => hx x (by simp [hx'])) p1 (by rw [h3]; exact g2)
    refine ⟨p', by simp only [PreTokenizer.runList, h1, res_ok_bind]; exact k1, ?_, k3⟩
    rw [k2, h3, g1]

theorem rt_byteLevel_engine {P : Platform} {u : Bool} (hu : u = true → Matches P b!"'s|'" True) (p : PTS)
    (ht : ∀ s ∈ p.splits, ∃ w, HasText s w) (hk : KeySafe P p.splits) :
    ∃ p' parts, (PreTokenizer.byteLevel false u).run P p = .ok p' ∧ p'.splits = parts.flatten ∧
      Each CodedPieces p.splits parts := by
  cases u with
  | true =>
    obtain ⟨find, hf, hg, _⟩ := hu rfl
    have hb : byteLevelPattern = b!"'s|'" := C62_violated.1
    rw [← hb] at hf
    obtain ⟨p', parts, h1, _, h3, h4⟩ := C04_lossless_partial P true find hf hg p ht hk
    exact ⟨p', parts, h1, h3, h4⟩
  | false =>
    -- the engine is not used; take one that never matches
    let Q : Platform := { P with regex := fun _ => some fun _ => [] }
    have hg : GoodEngine fun _ => [] := fun w u _ => ⟨Nat.zero_le _, by simp⟩
    obtain ⟨p', parts, h1, _, h3, h4⟩ := C04_lossless_partial Q false _ rfl hg p ht hk
    refine ⟨p', parts, ?_, h3, h4⟩
    rw [← h1]
    have hm : ∀ s, mapBytes P s = mapBytes Q s := by
      intro s; induction s with
      | nil => rfl
      | cons b s ih => simp only [mapBytes, charKey, ih]; rfl
    have hs : ∀ l, mapSplits P l = mapSplits Q l := by
      intro l; induction l with
      | nil => rfl
      | cons s l ih => simp only [mapSplits, hm, ih]
    simp only [PreTokenizer.run, byteLevelPreTokenize, Bool.false_eq_true, if_false, hs]

theorem rt_coded {l : List Split} {parts : List (List Split)} (h : Each CodedPieces l parts) :
    ∃ bss : List Str, Each (fun b (q : Split) => q.normalized = utf8 (byteText b)) bss parts.flatten ∧
      bss.flatten = rtJoin l := by
  induction h with
  | nil => exact ⟨[], .nil, rfl⟩
  | @cons s part l parts h1 _ ih =>
    obtain ⟨bss, i1, i2⟩ := ih
    have app : ∀ {a b : List Str} {x y : List Split}, Each (fun b (q : Split) => q.normalized = utf8 (byteText b)) a x →
        Each (fun b (q : Split) => q.normalized = utf8 (byteText b)) b y →
        Each (fun b (q : Split) => q.normalized = utf8 (byteText b)) (a ++ b) (x ++ y) := by
      intro a b x y h1 h2
      induction h1 with
      | nil => exact h2
      | cons h _ ih => exact .cons h ih
    rcases h1 with ⟨_, q, rfl, _, _, h2⟩ | ⟨_, bs, h2, h3, _⟩
    · exact ⟨[s.normalized] ++ bss, app (.cons (utf8Text_iff.1 h2).2 .nil) i1, by simp [rtJoin, i2]⟩
    · refine ⟨bs ++ bss, app (Each.imp (fun b q h => (utf8Text_iff.1 h.2).2) h3) i1, ?_⟩
      rw [List.flatten_append, h2, i2]; simp [rtJoin]

theorem rt_runList_append (P : Platform) : ∀ (l m : List PreTokenizer) (p : PTS),
    PreTokenizer.runList P (l ++ m) p = (do PreTokenizer.runList P m (← PreTokenizer.runList P l p)) := by
  intro l
  induction l with
  | nil => intro m p; simp only [List.nil_append, PreTokenizer.runList, res_ok_bind]
  | cons x l ih =>
    intro m p
    simp only [List.cons_append, PreTokenizer.runList]
    cases PreTokenizer.run P x p with
    | error e => rfl
    | ok q => simp only [res_ok_bind]; exact ih m q

theorem rt_byteSplits {P : Platform} {pt : PreTokenizer} (h : ByteSplits P pt) (p : PTS)
    (ht : ∀ s ∈ p.splits, ∃ w, HasText s w) (hk : P.charSigned = true → ∀ b ∈ rtJoin p.splits, b < 128) :
    ∃ p' bss, pt.run P p = .ok p' ∧ Each (fun b (q : Split) => q.normalized = utf8 (byteText b)) bss p'.splits ∧
      bss.flatten = rtJoin p.splits := by
  have key : ∀ (q : PTS), (P.charSigned = true → ∀ b ∈ rtJoin q.splits, b < 128) → KeySafe P q.splits := by
    intro q hq hc s hs b hb
    exact hq hc b (by simp only [rtJoin, List.mem_flatten, List.mem_map]; exact ⟨_, ⟨s, hs, rfl⟩, hb⟩)
  cases h with
  | byteLevel hu =>
    obtain ⟨p', parts, h1, h2, h3⟩ := rt_byteLevel_engine hu p ht (key p hk)
    obtain ⟨bss, g1, g2⟩ := rt_coded h3
    exact ⟨p', bss, h1, by rw [h2]; exact g1, g2⟩
  | @seq l u hl hu =>
    obtain ⟨p1, k1, k2, k3⟩ := rt_splits P l hl p ht
    obtain ⟨p', parts, h1, h2, h3⟩ := rt_byteLevel_engine hu p1 k3 (key p1 (by rw [k2]; exact hk))
    obtain ⟨bss, g1, g2⟩ := rt_coded h3
    refine ⟨p', bss, ?_, by rw [h2]; exact g1, by rw [g2, k2]⟩
    simp only [PreTokenizer.run]
    rw [rt_runList_append, k1, res_ok_bind]
    simp only [PreTokenizer.runList, h1, res_ok_bind]

theorem rt_safePre {P : Platform} {w : WStr} {pt : PreTokenizer} (h : ByteSplits P pt) (hA : P.charSigned = true → Ascii w) :
    SafePre P w pt := by
  cases h with
  | byteLevel hu => exact .byteLevel hA hu
  | @seq l u hl hu =>
    refine .seq ?_ (.byteLevel hA hu)
    induction l with
    | nil => trivial
    | cons x l ih =>
      obtain ⟨pat, inv, rfl, hm⟩ := hl x (by simp)
      refine ⟨?_, ih fun x hx => hl x (by simp [hx])⟩
      obtain ⟨find, h1, h2, h3⟩ := hm
      exact ⟨find, h1, h2, fun _ => h3 trivial⟩

theorem rt_placed {r : WStr} {pos : Nat} {l : List Split} (h : Placed r pos l) (hs : Scalars r) :
    rtJoin l = utf8 r ∧ ∀ s ∈ l, ∃ w, HasText s w := by
  induction h with
  | nil => exact ⟨rfl, by simp⟩
  | @cons v r pos s l h1 h2 _ ih =>
    have hv : Scalars v := fun c hc => hs c (by simp [hc])
    obtain ⟨i1, i2⟩ := ih fun c hc => hs c (by simp [hc])
    refine ⟨?_, ?_⟩
    · rw [utf8_append, ← i1, ← h1]; simp [rtJoin]
    · intro q hq
      rcases List.mem_cons.1 hq with rfl | hq
      · exact ⟨v, utf8Text_iff.2 ⟨hv, h1⟩⟩
      · exact i2 q hq

/-- The pre-tokens of a text under byte-level pre-tokenization: the bytes of the text, in order, written in the byte
alphabet. -/
theorem rt_preTokenized {P : Platform} {t : Tokenizer} {w : WStr} {pt : PreTokenizer} (hw : SafeText t w)
    (hpt : t.preTokenizer = some pt) (hb : ByteSplits P pt) (hA : P.charSigned = true → Ascii w) :
    ∃ p bss, (t.preTokenized P w).1 = .ok p ∧ Each (fun b (q : Split) => q.normalized = utf8 (byteText b)) bss p.splits ∧
      bss.flatten = utf8 w ∧ (∀ s ∈ p.splits, s.normalized ≠ []) ∧ w ≠ [] ∧ Scalars w := by
  obtain ⟨p, lens, h1, _, h3⟩ := preTokenized_total P t w hw (by
    intro x hx; rw [hpt] at hx; cases hx; exact rt_safePre hb hA)
  have hscal : Scalars w ∧ w ≠ [] := by
    unfold SafeText at hw
    cases ha : t.added with
    | none => rw [ha] at hw; exact ⟨scalars_iff.1 hw.2, hw.1⟩
    | some a => rw [ha] at hw; exact ⟨bmp_scalars hw.2.2.1.1, hw.2.1⟩
  have main : ∀ p0 : PTS, rtJoin p0.splits = utf8 w → (∀ s ∈ p0.splits, ∃ w, HasText s w) → pt.run P p0 = .ok p →
      ∃ bss, Each (fun b (q : Split) => q.normalized = utf8 (byteText b)) bss p.splits ∧ bss.flatten = utf8 w := by
    intro p0 e1 e2 e3
    obtain ⟨p', bss, g1, g2, g3⟩ := rt_byteSplits hb p0 e2 (by
      intro hc b hb'
      rw [e1, utf8_ascii (hA hc)] at hb'
      exact hA hc b hb')
    rw [e3] at g1; cases g1
    exact ⟨bss, g2, by rw [g3, e1]⟩
  suffices ∃ bss, Each (fun b (q : Split) => q.normalized = utf8 (byteText b)) bss p.splits ∧ bss.flatten = utf8 w by
    obtain ⟨bss, g1, g2⟩ := this
    exact ⟨p, bss, h1, g1, g2, fun s hs => (h3 s hs).2, hscal.2, hscal.1⟩
  have h1' := h1
  unfold Tokenizer.preTokenized PTS.ofNS at h1
  simp only [show (NS.ofText w).normalized = w from rfl, convertToString_scalars hscal.1, res_ok_bind, res_pure] at h1
  cases ha : t.added with
  | none =>
    simp only [ha, hpt, res_ok_bind] at h1
    refine main _ ?_ ?_ h1
    · simp [rtJoin]
    · intro s hs; simp at hs; subst hs; exact ⟨w, utf8Text_iff.2 ⟨hscal.1, rfl⟩⟩
  | some a =>
    unfold SafeText at hw
    rw [ha] at hw
    obtain ⟨hn, hw0, hc, hA', hne⟩ := hw
    obtain ⟨p0, g1, _, g3, _⟩ := extract_total P hc hw0 hA' hne
    simp only [ha, hn, g1, hpt, res_ok_bind] at h1
    obtain ⟨k1, k2⟩ := rt_placed g3 hscal.1
    exact main p0 k1 k2 h1

end Tok
