import Verif.Props.Pruned

set_option autoImplicit false

/-!
C138: merge rules that a text does not need.
-/

namespace Tok
open Spec

/-- **C138** Merge rules (and vocabulary entries) that the words of a text do not need make no difference: if two models differ in
their vocabularies and merge lists only, agree on every entry that is looked up for a word of the text, and the lines about pieces that can
meet in a word have the same numbers in both lists, then `encode` returns the same - the same encoding or the same failure. -/
theorem C138_encode (P : Platform) (hg : GoodRegexes P) {t : Tokenizer} {m m' x x' : Model} {lines lines' : List Str} {v : Vocab} {w : WStr}
    {b : Bool} (hx : t.model = some x) (hm : ModelIs P lines m x) (hm' : ModelIs P lines' m' x') (hv : WithVocab v m m')
    (hd : ∀ a, t.added = some a → PlainTables a) (hi : ∀ n, m = .bpe n → OneTokenPerId n.vocab ∧ OneTokenPerId v)
    (h : ∀ ws, AnyWords P t w ws → ∀ y ∈ ws, ShortEnough m y ∧ (∀ k, LookedUp m y k → tokenToId m.vocab k = tokenToId v k) ∧
      ∀ p q, MergesFor m y p q → ∀ r, AboutPair lines r p q ↔ AboutPair lines' r p q) :
    (t.encode P w b).1 = (({ t with model := some x' } : Tokenizer).encode P w b).1 :=
  pr_encode P hx hm hm' hv hi fun _ hp => by
    obtain ⟨ws, k1, k2⟩ := at_words P hg hd hp
    exact ⟨ws, k2, h ws k1⟩

/-- **C138** When the text is only cut (no normalizer, pre-tokenizers that only cut), it is enough to look at the parts of the text. -/
theorem C138_text (P : Platform) {t : Tokenizer} {m m' x x' : Model} {lines lines' : List Str} {v : Vocab} {w : WStr}
    {b : Bool} (hx : t.model = some x) (hm : ModelIs P lines m x) (hm' : ModelIs P lines' m' x') (hv : WithVocab v m m')
    (hi : ∀ n, m = .bpe n → OneTokenPerId n.vocab ∧ OneTokenPerId v)
    (hw : Positioned t w) (hpt : ∀ pt, t.preTokenizer = some pt → OnlyCuts P pt) (hs : ShortEnough m w)
    (h : ∀ p y q, w = p ++ y ++ q → (∀ k, LookedUp m y k → tokenToId m.vocab k = tokenToId v k) ∧
      ∀ p q, MergesFor m y p q → ∀ r, AboutPair lines r p q ↔ AboutPair lines' r p q) :
    (t.encode P w b).1 = (({ t with model := some x' } : Tokenizer).encode P w b).1 :=
  pr_encode P hx hm hm' hv hi fun p hp => by
    obtain ⟨ws, k1, k2⟩ := pr_laid (preTokenized_laid P t w p hw hpt hp)
    refine ⟨ws, k1, fun y hy => ?_⟩
    obtain ⟨a, c, e⟩ := k2 y hy
    exact ⟨cn_short m (by rw [e, List.append_assoc]; exact (List.sublist_append_left _ _).trans (List.sublist_append_right _ _)) hs, h a y c e⟩

/-- **C138** For a byte-level BPE tokenizer (no prefix, no suffix, an entry for each byte of the text) only the rules `p q` count for which
`p` followed by `q` is written in the text, and only the entries that are written in the text. -/
theorem C138_bpe (P : Platform) {t : Tokenizer} {m m' : BPE} {before before' : List PTS} {lines lines' : List Str} {v : Vocab} {w : WStr} {s : Str}
    {b : Bool} (hx : t.model = some (.bpe (usedBPE P m before))) (hm : Made lines m) (hm' : Made lines' m')
    (hv : ∃ ms, m' = { m with vocab := v, merges := ms }) (hk : (m.vocab.map (·.1)).Nodup) (hk' : (v.map (·.1)).Nodup)
    (hi : OneTokenPerId m.vocab) (hi' : OneTokenPerId v) (hp : m.pre = []) (hs : m.suf = [])
    (hw : Positioned t w) (hpt : ∀ pt, t.preTokenizer = some pt → OnlyCuts P pt) (hu : Utf8Text w s) (hlen : s.length < 2 ^ 31)
    (hb : ∀ c ∈ s, tokenToId m.vocab [c] ≠ none)
    (h : ∀ k, (∃ p q, s = p ++ k ++ q) → tokenToId m.vocab k = tokenToId v k)
    (hl : ∀ p q, (∃ a c, s = a ++ (p ++ q) ++ c) → ∀ r, AboutPair lines r p q ↔ AboutPair lines' r p q) :
    (t.encode P w b).1 = (({ t with model := some (.bpe (usedBPE P m' before')) } : Tokenizer).encode P w b).1 := by
  obtain ⟨ms, rfl⟩ := hv
  refine C138_text P (m := .bpe m) (m' := .bpe { m with vocab := v, merges := ms }) hx ⟨hm, hk, before, rfl⟩ ⟨hm', hk', before', rfl⟩ ⟨ms, rfl⟩
    (by rintro n hn; cases hn; exact ⟨hi, hi'⟩) hw hpt (by show octets w * _ < _; rw [hp, hs, ← cn_octets hu]; simpa using hlen) ?_
  rintro p y q rfl
  obtain ⟨hsc, rfl⟩ := utf8Text_iff.1 hu
  rw [utf8_append, utf8_append] at hb h hl
  have hby : ∀ c ∈ utf8 y, tokenToId m.vocab [c] ≠ none := fun c hc => hb c (by simp [hc])
  constructor
  · rintro k ⟨sy, hy, hkey⟩
    obtain ⟨-, rfl⟩ := utf8Text_iff.1 hy
    obtain ⟨a, c, e⟩ := pr_bpe_key hp hs hi hby hkey
    exact h k ⟨utf8 p ++ a, c ++ utf8 q, by rw [e]; simp⟩
  · rintro p' q' ⟨sy, hy, hkey⟩
    obtain ⟨-, rfl⟩ := utf8Text_iff.1 hy
    obtain ⟨a, c, e⟩ := pr_bpe_pair hp hs hi hby hkey
    exact hl p' q' ⟨utf8 p ++ a, c ++ utf8 q, by rw [e]; simp⟩

/-- **C138** A byte-level BPE tokenizer that is given further entries, and further rules at the end of its merge list, encodes a text as before
if no further entry is written in the text and no further rule `p q` has `p` followed by `q` written in it. -/
theorem C138_extended (P : Platform) {t : Tokenizer} {m m' : BPE} {before before' : List PTS} {lines more : List Str} {v : Vocab} {w : WStr} {s : Str}
    {b : Bool} (hx : t.model = some (.bpe (usedBPE P m before))) (hm : Made lines m) (hm' : Made (lines ++ more) m')
    (hv : ∃ ms, m' = { m with vocab := m.vocab ++ v, merges := ms }) (hk : ((m.vocab ++ v).map (·.1)).Nodup)
    (hi : OneTokenPerId (m.vocab ++ v)) (hp : m.pre = []) (hs : m.suf = [])
    (hw : Positioned t w) (hpt : ∀ pt, t.preTokenizer = some pt → OnlyCuts P pt) (hu : Utf8Text w s) (hlen : s.length < 2 ^ 31)
    (hb : ∀ c ∈ s, tokenToId m.vocab [c] ≠ none) (h : ∀ e ∈ v, ¬ e.1 <:+: s)
    (hl : ∀ line ∈ more, ∀ p q, Fields line p q → ¬ p ++ q <:+: s) :
    (t.encode P w b).1 = (({ t with model := some (.bpe (usedBPE P m' before')) } : Tokenizer).encode P w b).1 := by
  have hk1 : (m.vocab.map (·.1)).Nodup := (List.nodup_append.1 (by rw [List.map_append] at hk; exact hk)).1
  refine C138_bpe P hx hm hm' hv hk1 hk ?_ hi hp hs hw hpt hu hlen hb ?_ ?_
  · unfold OneTokenPerId at hi ⊢
    rw [List.map_append] at hi
    exact (List.nodup_append.1 hi).1
  · rintro k ⟨p, q, e⟩
    have hv' : mapFind v k = none := mapFind_absent fun x hx hxk => h x hx ⟨p, q, by rw [hxk, e]⟩
    unfold tokenToId
    rw [mapFind_append, hv']
    cases mapFind m.vocab k <;> rfl
  · rintro p q ⟨a, c, e⟩ r
    constructor
    · rintro ⟨line, h1, h2⟩
      refine ⟨line, ?_, h2⟩
      rw [List.getElem?_append_left (List.getElem?_eq_some_iff.1 h1).1]; exact h1
    · rintro ⟨line, h1, h2⟩
      by_cases hr : r < lines.length
      · exact ⟨line, by rw [List.getElem?_append_left hr] at h1; exact h1, h2⟩
      · rw [List.getElem?_append_right (by omega)] at h1
        exact absurd ⟨a, c, e.symm⟩ (hl line (List.mem_of_getElem? h1) p q h2)

/-! ### The hypotheses are met -/

/-- Entries a, b, c, ab, bc and abc; merge list "a b", "b c", "a bc". -/
def rulesBPE : BPE := { abcBPE with vocab := abcBPE.vocab ++ [(b!"abc", 5)], merges := [((0, 1), (0, 3)), ((1, 2), (1, 4)), ((0, 4), (2, 5))] }

theorem rulesBPE_made : Made ([b!"a b", b!"b c"] ++ [b!"a bc"]) rulesBPE := by simp only [Made]; rfl

/-- The entry `abc` and the rule "a bc" do not matter for this text … -/
example : ((abcTk [] false .bert).encode ascii w!"ababbc" true).1 =
    (({ abcTk [] false .bert with model := some (.bpe (usedBPE ascii rulesBPE [])) } : Tokenizer).encode ascii w!"ababbc" true).1 := by
  refine C138_extended ascii (t := abcTk [] false .bert) (m := abcBPE) (before := []) (lines := [b!"a b", b!"b c"]) (more := [b!"a bc"]) (m' := rulesBPE)
    (v := [(b!"abc", 5)]) (s := b!"ababbc") rfl abcBPE_made rulesBPE_made ⟨_, rfl⟩ (by decide) (by unfold OneTokenPerId; decide) rfl rfl ?_ ?_
    ((C02_to_string_iff _ _).1 rfl) (by decide) (by decide) (by decide) ?_
  · show ∀ c ∈ _, Scalar c
    unfold Scalar; decide
  · intro p h; cases h; exact True.intro
  · intro line hl p q hf
    simp at hl
    subst hl
    obtain ⟨rfl, rfl⟩ := fields_unique hf (p' := b!"a") (q' := b!"bc") ⟨[], b!" ", [], by decide, by decide, by decide, by decide, by simp,
      by unfold BlankByte; decide, by unfold BlankByte; decide, by unfold BlankByte; decide, by simp⟩
    decide

/-- … and for this one they do. -/
example : ((abcTk [] false .bert).encode ascii w!"abc" true).1.map (·.tokens) = .ok [b!"a", b!"bc"] ∧
    (({ abcTk [] false .bert with model := some (.bpe (usedBPE ascii rulesBPE [])) } : Tokenizer).encode ascii w!"abc" true).1.map (·.tokens) = .ok [b!"abc"] := by
  refine ⟨?_, ?_⟩ <;> decide +kernel

end Tok
