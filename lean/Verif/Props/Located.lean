import Verif.Proofs.Located
import Verif.Props.Encoding
import Verif.Props.WordPiece
import Verif.Props.BPE

set_option autoImplicit false

/-!
# Offsets (C45)
-/

namespace Tok
open Spec

/-- The tokenized text: every pre-token is found in the text where it says, and the table gives positions back. -/
theorem tokenized_located (P : Platform) (t : Tokenizer) (w : WStr) (q : PTS) (hw : Positioned t w)
    (hpt : ∀ pt, t.preTokenizer = some pt → OnlyCuts P pt) (h : TokenizedInto P t w q)
    (hm : ∀ m p, t.model = some m → (m.tokenize P p).1 = .ok q → q.normalized = p.normalized ∧
      Each (fun s s' => s'.normalized = s.normalized ∧ s'.offsets = s.offsets) p.splits q.splits) :
    Points q.normalized ∧ ∀ s ∈ q.splits, Located w s := by
  obtain ⟨p, hp, hq⟩ := h
  obtain ⟨h1, h2⟩ := preTokenized_located P t w p hw hpt hp
  cases hmod : t.model with
  | none => rw [hmod] at hq; subst hq; exact ⟨h1, h2⟩
  | some m =>
    rw [hmod] at hq
    obtain ⟨a1, a2⟩ := hm m p hmod hq
    refine ⟨by rw [a1]; exact h1, fun s hs => ?_⟩
    obtain ⟨s0, hs0, e1, e2⟩ := each_mem_right a2 s hs
    obtain ⟨b, v, hb, hv⟩ := h2 s0 hs0
    exact ⟨b, v, by rw [e2]; exact hb, by unfold HasText at hv ⊢; rw [e1]; exact hv⟩

/-- The rows of the text: a token of a pre-token, at the start of the pre-token. -/
theorem textRows_start {ns : NS} (hp : Points ns) {k : Nat} {l : List Split} {rows : List Row} (h : TextRows ns k l rows) :
    ∀ r ∈ rows, ∃ s ∈ l, ∃ tk ∈ s.tokens, r.token = tk.value ∧ r.id = tk.id ∧
      r.offsets = (((s.offsets.1 + tk.offsets.1 : Nat) : Int), ((s.offsets.1 + tk.offsets.2 : Nat) : Int)) := by
  induction h with
  | nil => simp
  | @cons k s l rows g o h1 h2 _ ih =>
    intro r hr
    simp only [List.mem_append, List.mem_map] at hr
    rcases hr with ⟨tk, ht, rfl⟩ | hr
    · have := hp _ _ _ h1 h2
      exact ⟨s, by simp, tk, ht, rfl, rfl, by simp [textRow, this]⟩
    · obtain ⟨s', hs, rest⟩ := ih r hr
      exact ⟨s', by simp [hs], rest⟩

/-- The text between the offsets of the tokens of a greedy segmentation. -/
theorem greedy_partOf {V : Str → Option Int} {pre : Str} {first : Bool} {pos : Nat} {w : WStr} {ts : List Token}
    (h : Greedy V pre first pos w ts) : ∀ l, units l = pos → ∀ t ∈ ts, ∃ v f, PartOf (l ++ w) t.offsets.1 t.offsets.2 v ∧
      PieceKey pre f v t.value := by
  induction h with
  | done => simp
  | @take first pos v r key id ts hL _ ih =>
    intro l hl t ht
    rcases List.mem_cons.1 ht with rfl | ht
    · exact ⟨v, first, ⟨l, r, by simp, hl.symm, by rw [hl]⟩, hL.key_of⟩
    · obtain ⟨v', f, h1, h2⟩ := ih (l ++ v) (by rw [units_append, hl]) t ht
      exact ⟨v', f, by simpa using h1, h2⟩

/-- **C45** for WordPiece (partial: see `Positioned`, `OnlyCuts`; offsets not trimmed).  Between the offsets (UTF-16
units) of every token of the text stands the text of the token, without the continuation prefix; for the unknown token,
the text of a pre-token. -/
theorem C45_wordPiece_partial (P : Platform) (t : Tokenizer) (m : WordPiece) (w : WStr) (b : Bool) (e : Encoding)
    (hS : ∀ s ∈ Specials t, s.ids.length = s.tokens.length) (hw : Positioned t w)
    (hpt : ∀ pt, t.preTokenizer = some pt → OnlyCuts P pt) (hm : t.model = some (.wordPiece m))
    (hclean : CleanWord (tokenToId m.vocab) w) (htr : ∀ p, t.postProcessor = some p → ¬ Trims p)
    (h : (t.encode P w b).1 = .ok e) :
    ∃ q, TokenizedInto P t w q ∧ ∀ i : Nat, e.specialTokensMask[i]? = some 0 →
      ∃ tok o v, e.tokens[i]? = some tok ∧ e.offsets[i]? = some o ∧ TextAt w o v ∧
        ((∃ f, PieceKey m.pre f v tok) ∨ (tok = m.unkToken ∧ ∃ s ∈ q.splits, HasText s v)) := by
  obtain ⟨q, text, hq, ht, h1, _⟩ := encode_rows hS h
  refine ⟨q, hq, ?_⟩
  have hcontent : ∀ m' p, t.model = some m' → (m'.tokenize P p).1 = .ok q → q.normalized = p.normalized ∧
      Each (fun s s' => s'.normalized = s.normalized ∧ s'.offsets = s.offsets ∧ s'.tokens = m.word s.normalized)
        p.splits q.splits := by
    intro m' p hm' hr
    rw [hm] at hm'; cases hm'
    simp only [Model.tokenize] at hr
    cases hr
    exact wordPiece_splits m p
  obtain ⟨hP, hL⟩ := tokenized_located P t w q hw hpt hq fun m' p hm' hr => by
    obtain ⟨a, c⟩ := hcontent m' p hm' hr
    exact ⟨a, Each.imp (fun _ _ h => ⟨h.1, h.2.1⟩) c⟩
  have htok : ∀ s ∈ q.splits, s.tokens = m.word s.normalized := by
    obtain ⟨p, _, hr⟩ := hq
    rw [hm] at hr
    obtain ⟨_, hE⟩ := hcontent _ p hm hr
    intro s hs
    obtain ⟨s0, _, e1, _, e3⟩ := each_mem_right hE s hs
    rw [e3, e1]
  obtain ⟨rows, ⟨hids, hty, htk, hwd, ho, hsp, hat⟩, hk, _⟩ := h1
  intro i hi
  rw [hsp, List.getElem?_map, Option.map_eq_some_iff] at hi
  obtain ⟨r, hr, h0⟩ := hi
  have hnt : ¬ ∃ p, t.postProcessor = some p ∧ Trims p := fun ⟨p, hp, ht⟩ => htr p hp ht
  cases hk r (List.mem_of_getElem? hr) with
  | special _ _ _ _ _ _ _ h => rw [h0] at h; cases h
  | padding _ _ _ _ _ _ h => rw [h0] at h; cases h
  | content r0 hm0 hro _ _ =>
    obtain ⟨s, hs, tk, htks, e1, _, e3⟩ := textRows_start hP ht r0 hm0
    obtain ⟨bb, v, hv, htx⟩ := hL s hs
    rw [htok s hs] at htks
    have hcv : CleanWord (tokenToId m.vocab) v := by
      rcases hclean with h | h
      · left; intro c hc
        obtain ⟨l, r, rfl, _⟩ := hv
        exact h c (by simp [hc])
      · exact .inr h
    refine ⟨r.token, r.offsets, ?_⟩
    rw [htk, ho, List.getElem?_map, List.getElem?_map, hr, Option.map_some, Option.map_some]
    rw [hro.2.1, hro.2.2.2.2.2.2 hnt, e1, e3]
    have hunk : tk ∈ UnkAnswer (tokenToId m.vocab) m.unkToken v → ∃ v', PartOf w (s.offsets.1 + tk.offsets.1) (s.offsets.1 + tk.offsets.2) v' ∧
        (tk.value = m.unkToken ∧ HasText s v') := by
      intro h
      simp only [UnkAnswer, List.mem_singleton] at h
      subst h
      refine ⟨v, ?_, rfl, htx⟩
      exact partOf_trans hv ⟨[], [], by simp, rfl, by simp [units]⟩
    rcases C12_C13_answer m s.normalized v htx hcv with ⟨_, ha⟩ | ⟨_, _, ha⟩ | ⟨_, ha⟩
    · rw [ha] at htks
      obtain ⟨v', p1, p2, p3⟩ := hunk htks
      exact ⟨v', rfl, rfl, ⟨_, _, rfl, p1⟩, .inr ⟨p2, s, hs, p3⟩⟩
    · rw [ha] at htks
      obtain ⟨v', p1, p2, p3⟩ := hunk htks
      exact ⟨v', rfl, rfl, ⟨_, _, rfl, p1⟩, .inr ⟨p2, s, hs, p3⟩⟩
    · obtain ⟨v', f, p1, p2⟩ := greedy_partOf ha [] rfl tk htks
      exact ⟨v', rfl, rfl, ⟨_, _, rfl, partOf_trans hv p1⟩, .inl ⟨f, p2⟩⟩

/-- The hypotheses of `C45_wordPiece_partial` for a text with an added token table (empty here) and a template. -/
example : ∃ e, ((bertLike none (some sampleTemplate) none).encode ascii w!"playing é go" true).1 = .ok e ∧
    e.specialTokensMask = [1, 0, 0, 0, 0, 1] ∧ e.offsets = [(0, 0), (0, 4), (4, 7), (8, 9), (10, 12), (0, 0)] ∧
    Positioned (bertLike none (some sampleTemplate) none) w!"playing é go" ∧
    (∀ pt, (bertLike none (some sampleTemplate) none).preTokenizer = some pt → OnlyCuts ascii pt) ∧
    (∀ p, (bertLike none (some sampleTemplate) none).postProcessor = some p → ¬ Trims p) ∧
    CleanWord (tokenToId [(b!"[UNK]", 0), (b!"play", 1), (b!"##ing", 2), (b!"go", 3)]) w!"playing é go" := by
  refine ⟨_, rfl, by decide +kernel, by decide +kernel, ⟨rfl, ⟨?_, .inl ?_⟩, ?_⟩, ?_, ?_, ?_⟩
  · unfold Bmp Scalar; decide
  · intro i t h; cases h
  · intro p h; cases h
  · intro p h; cases h; exact True.intro
  · intro p h; cases h; exact id
  · left; decide

/-- Every position that is a token of the text is a token of some pre-token, counted from the start of the pre-token. -/
theorem content_located (P : Platform) (t : Tokenizer) (w : WStr) (b : Bool) (e : Encoding)
    (hS : ∀ s ∈ Specials t, s.ids.length = s.tokens.length) (hw : Positioned t w)
    (hpt : ∀ pt, t.preTokenizer = some pt → OnlyCuts P pt) (htr : ∀ p, t.postProcessor = some p → ¬ Trims p)
    (hm : ∀ m p q, t.model = some m → (m.tokenize P p).1 = .ok q → q.normalized = p.normalized ∧
      Each (fun s s' => s'.normalized = s.normalized ∧ s'.offsets = s.offsets) p.splits q.splits)
    (h : (t.encode P w b).1 = .ok e) :
    ∃ q, TokenizedInto P t w q ∧ ∀ i : Nat, e.specialTokensMask[i]? = some 0 →
      ∃ s tk, s ∈ q.splits ∧ tk ∈ s.tokens ∧ Located w s ∧ e.tokens[i]? = some tk.value ∧ e.ids[i]? = some tk.id ∧
        e.offsets[i]? = some (((s.offsets.1 + tk.offsets.1 : Nat) : Int), ((s.offsets.1 + tk.offsets.2 : Nat) : Int)) := by
  obtain ⟨q, text, hq, ht, h1, _⟩ := encode_rows hS h
  refine ⟨q, hq, ?_⟩
  obtain ⟨hP, hL⟩ := tokenized_located P t w q hw hpt hq fun m p => hm m p q
  obtain ⟨rows, ⟨hids, hty, htk, hwd, ho, hsp, hat⟩, hk, _⟩ := h1
  intro i hi
  rw [hsp, List.getElem?_map, Option.map_eq_some_iff] at hi
  obtain ⟨r, hr, h0⟩ := hi
  have hnt : ¬ ∃ p, t.postProcessor = some p ∧ Trims p := fun ⟨p, hp, ht⟩ => htr p hp ht
  cases hk r (List.mem_of_getElem? hr) with
  | special _ _ _ _ _ _ _ h => rw [h0] at h; cases h
  | padding _ _ _ _ _ _ h => rw [h0] at h; cases h
  | content r0 hm0 hro _ _ =>
    obtain ⟨s, hs, tk, htks, e1, e2, e3⟩ := textRows_start hP ht r0 hm0
    refine ⟨s, tk, hs, htks, hL s hs, ?_, ?_, ?_⟩
    · rw [htk, List.getElem?_map, hr, Option.map_some, hro.2.1, e1]
    · rw [hids, List.getElem?_map, hr, Option.map_some, hro.1, e2]
    · rw [ho, List.getElem?_map, hr, Option.map_some, hro.2.2.2.2.2.2 hnt, e3]

theorem utf8Text_ascii {v : WStr} {s : Str} (h : Utf8Text v s) (hv : Ascii v) : s = v := by
  induction h with
  | nil => rfl
  | @cons c b w s hc _ ih =>
    rw [ih fun c h => hv c (by simp [h])]
    have h0 := hv c (by simp)
    cases hc with
    | one => rfl
    | two x y h1 h2 h3 => omega
    | three x y z h1 h2 h3 h4 h5 =>
      have : x = 0 := by omega
      have := h4 this; omega
    | four x y z t h1 h2 h3 h4 h5 h6 =>
      have : x = 0 := by omega
      have := h5 this; omega

theorem tiles_mem_le {l : List (Nat × Nat)} : ∀ {a b : Nat}, Tiles a l b → ∀ o ∈ l, o.2 ≤ b := by
  induction l with
  | nil => simp
  | cons o l ih =>
    intro a b h x hx
    obtain ⟨x1, x2⟩ := o
    simp only [Tiles] at h
    rcases List.mem_cons.1 hx with rfl | hx
    · exact tiles_le h.2.2
    · exact ih h.2.2 x hx

theorem units_ascii {v : WStr} (hv : Ascii v) : units v = v.length := units_bmp (ascii_bmp hv)

/-- **C45** for byte-pair encoding (partial: ASCII text with an entry for every byte, no prefix or suffix, no
`ignore_merges`; see also `Positioned`, `OnlyCuts`; offsets not trimmed).  Between the offsets of every token of the
text stands exactly the token, whatever was encoded before. -/
theorem C45_bpe_partial (P : Platform) (t : Tokenizer) {lines : List Str} {m : BPE} (hm : Made lines m) (before : List PTS)
    (w : WStr) (b : Bool) (e : Encoding) (hmod : t.model = some (.bpe (usedBPE P m before)))
    (hS : ∀ s ∈ Specials t, s.ids.length = s.tokens.length) (hw : Positioned t w) (hasc : Ascii w)
    (hpt : ∀ pt, t.preTokenizer = some pt → OnlyCuts P pt) (htr : ∀ p, t.postProcessor = some p → ¬ Trims p)
    (hpre : m.pre = []) (hsuf : m.suf = []) (hig : m.ignoreMerges = false) (hfit : w.length < 2 ^ 31)
    (hkeys : (m.vocab.map (·.1)).Nodup) (hids : DistinctIds (tokenToId m.vocab))
    (hall : ∀ c ∈ w, ∃ id, tokenToId m.vocab [c] = some id) (h : (t.encode P w b).1 = .ok e) :
    ∀ i : Nat, e.specialTokensMask[i]? = some 0 → ∃ v o, e.tokens[i]? = some v ∧ e.offsets[i]? = some o ∧ TextAt w o v := by
  have hsplit : ∀ m' p q, t.model = some m' → (m'.tokenize P p).1 = .ok q → q.normalized = p.normalized ∧
      Each (fun s s' => s'.normalized = s.normalized ∧ s'.offsets = s.offsets ∧ (m.word P s.normalized).1 = .ok s'.tokens)
        p.splits q.splits := by
    intro m' p q hm' hr
    rw [hmod] at hm'; cases hm'
    have hr' : ((usedBPE P m before).tokenize P p).1 = .ok q := hr
    exact (bpe_tokenize P hm before p q).1 hr'
  obtain ⟨q, hq, hrest⟩ := content_located P t w b e hS hw hpt htr (fun m' p q h1 h2 =>
    ⟨(hsplit m' p q h1 h2).1, Each.imp (fun _ _ h => ⟨h.1, h.2.1⟩) (hsplit m' p q h1 h2).2⟩) h
  intro i hi
  obtain ⟨s, tk, hs, htk, ⟨bb, v, hv, htx⟩, g1, _, g2⟩ := hrest i hi
  have hav : Ascii v := by
    obtain ⟨l, r, rfl, _⟩ := hv
    exact fun c hc => hasc c (by simp [hc])
  have hsv : s.normalized = v := utf8Text_ascii htx hav
  obtain ⟨p, _, hr⟩ := hq
  rw [hmod] at hr
  obtain ⟨s0, _, e1, _, e3⟩ := each_mem_right (hsplit _ p q hmod hr).2 s hs
  rw [← e1, hsv] at e3
  have hnd : ¬ Direct m v := by rintro ⟨_, h, _⟩; rw [hig] at h; cases h
  have hv0 : v ≠ [] := by
    rintro rfl
    rw [C23_violated P hm [] (by simp) hnd] at e3
    cases e3
  have hlen : v.length ≤ w.length := by
    obtain ⟨l, r, rfl, _⟩ := hv
    simp only [List.length_append]; omega
  obtain ⟨ts, k1, k2, k3⟩ := C18_lossless P hm v hv0 (by simp only [Fits, hpre, hsuf, List.length_nil]; omega) hkeys hids (by
    intro j hj
    have hm : v[j] ∈ w := by
      obtain ⟨l, r, rfl, _⟩ := hv
      simp only [List.mem_append]
      exact .inl (.inr (List.getElem_mem hj))
    obtain ⟨id, h⟩ := hall _ hm
    refine ⟨id, ?_⟩
    rw [← h]; congr 1
    simp only [spelling, hpre, hsuf, ite_self, List.nil_append, List.append_nil]
    rw [List.drop_eq_getElem_cons hj, show j + 1 - j = 1 by omega]; rfl) hnd
  rw [k1] at e3; cases e3
  obtain ⟨l1, l2⟩ := k3 tk htk
  refine ⟨_, _, g1, g2, _, _, rfl, ?_⟩
  refine partOf_trans hv ?_
  have hle : tk.offsets.2 ≤ v.length := tiles_mem_le k2 tk.offsets (List.mem_map_of_mem htk)
  rw [l2]
  simp only [spelling, hpre, hsuf, ite_self, List.nil_append, List.append_nil]
  refine ⟨v.take tk.offsets.1, v.drop tk.offsets.2, ?_, ?_, ?_⟩
  · conv => lhs; rw [← List.take_append_drop tk.offsets.1 v]
    rw [List.append_assoc]; congr 1
    conv => lhs; rw [← List.take_append_drop (tk.offsets.2 - tk.offsets.1) (v.drop tk.offsets.1)]
    congr 1
    rw [List.drop_drop]; congr 1; omega
  · rw [units_ascii (fun c hc => hav c (List.mem_of_mem_take hc)), List.length_take]; omega
  · rw [units_ascii (fun c hc => hav c (List.mem_of_mem_take hc)),
      units_ascii (fun c hc => hav c (List.mem_of_mem_drop (List.mem_of_mem_take hc)))]
    simp only [List.length_take, List.length_drop]; omega

/-- A byte-pair tokenizer over a, b, c that pre-tokenizes on white space. -/
def abcTk (v : Vocab) (ig : Bool) (pt : PreTokenizer) : Tokenizer :=
  { preTokenizer := some pt, model := some (.bpe { abcBPE with vocab := abcBPE.vocab ++ v, ignoreMerges := ig }) }

/-- The hypotheses of `C45_bpe_partial`. -/
example : ∃ e, ((abcTk [] false .bert).encode ascii w!"aab bcc" false).1 = .ok e ∧
    e.tokens = [b!"a", b!"ab", b!"bc", b!"c"] ∧ e.offsets = [(0, 1), (1, 3), (4, 6), (6, 7)] ∧
    (abcTk [] false .bert).model = some (.bpe (usedBPE ascii abcBPE [])) ∧ Positioned (abcTk [] false .bert) w!"aab bcc" ∧
    Ascii w!"aab bcc" :=
  ⟨_, rfl, by decide +kernel, by decide +kernel, rfl, by show ∀ c ∈ _, Scalar c; unfold Scalar; decide,
    by unfold Ascii; decide⟩

/-- The tokens and offsets of a text. -/
def placesOf (t : Tokenizer) (w : WStr) : Res (List (Str × (Int × Int))) := do
  let e ← (t.encode ascii w false).1
  return e.tokens.zip e.offsets

/-- **C45** is false in five ways: a word that `ignore_merges` answers has empty offsets; after a character above U+FFFF
the offsets are too large by one (they count UTF-16 units, the text is given in code points); ByteLevel makes two
bytes of a space, and offsets count them; cleaning the text shifts all offsets (the text is form feed, `a`, form feed,
space, `b`); and an added token that is not ASCII
and not normalized makes the positions run past the end of the text, an out-of-bounds access. -/
theorem C45_violated :
    placesOf (abcTk [] true .bert) w!"ab ab" = .ok [(b!"ab", (0, 0)), (b!"ab", (3, 3))] ∧
    placesOf { tkOf [(b!"[UNK]", 0), (b!"b", 2)] with preTokenizer := some .bert, added := none } w!"😀 b" =
      .ok [(b!"[UNK]", (0, 2)), (b!"b", (3, 4))] ∧
    placesOf (abcTk [([0xC4], 5), ([0xA0], 6)] false (.byteLevel false false)) w!" ab" =
      .ok [([0xC4], (0, 1)), ([0xA0], (1, 2)), (b!"ab", (2, 4))] ∧
    placesOf { tkOf [(b!"[UNK]", 0), (b!"a", 1), (b!"b", 2)] with
        preTokenizer := some .bert, normalizer := some (.bert true false false false) } [0x0C, 0x61, 0x0C, 0x20, 0x62] =
      .ok [(b!"a", (0, 1)), (b!"b", (2, 3))] ∧
    (do let (_, t) ← { tkOf [(b!"[UNK]", 0), (b!"é", 1), (b!"b", 2)] with preTokenizer := some .bert }.addTokens [{ content := b!"é", normalized := false }]
        placesOf t w!"é b") = .error (.ub .outOfBounds) := by
  refine ⟨?_, ?_, ?_, ?_, ?_⟩ <;> decide +kernel

end Tok
