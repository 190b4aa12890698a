import Verif.Props.ByteLevel
import Verif.Props.Bert
import Verif.Spec.Keeps

set_option autoImplicit false

/-!
C08: pre-tokenizers and recognized added tokens.
-/

namespace Tok
open Spec

mutual
/-- No ByteLevel pre-tokenizer anywhere in the tree. -/
def PreTokenizer.NoByteLevel : PreTokenizer → Prop
  | .bert => True
  | .split _ _ _ => True
  | .byteLevel _ _ => False
  | .seq l => NoByteLevelList l
def NoByteLevelList : List PreTokenizer → Prop
  | [] => True
  | t :: r => t.NoByteLevel ∧ NoByteLevelList r
end

mutual
/-- No ByteLevel pre-tokenizer with `add_prefix_space` anywhere in the tree. -/
def PreTokenizer.NoPrefixSpace : PreTokenizer → Prop
  | .bert => True
  | .split _ _ _ => True
  | .byteLevel a _ => a = false
  | .seq l => NoPrefixSpaceList l
def NoPrefixSpaceList : List PreTokenizer → Prop
  | [] => True
  | t :: r => t.NoPrefixSpace ∧ NoPrefixSpaceList r
end

theorem KeepsTokens.refl {same : Split → Split → Prop} (h : ∀ s, same s s) (l : List Split) :
    KeepsTokens same l l := by
  induction l with
  | nil => exact .nil
  | cons s l ih =>
    by_cases hs : s.tokens = []
    · exact .cut (part := [s]) hs (by simpa using hs) ih
    · exact .keep hs hs (h s) ih

theorem KeepsTokens.cut_inv {same : Split → Split → Prop} {part l l' : List Split}
    (hp : ∀ q ∈ part, q.tokens = []) (h : KeepsTokens same (part ++ l) l') :
    ∃ part' m, l' = part' ++ m ∧ (∀ q ∈ part', q.tokens = []) ∧ KeepsTokens same l m := by
  induction part generalizing l' with
  | nil => exact ⟨[], l', rfl, by simp, h⟩
  | cons s part ih =>
    cases h with
    | keep h1 _ _ _ => exact absurd (hp s (by simp)) h1
    | cut h1 h2 h3 =>
      rename_i q m
      obtain ⟨part', m', e, h4, h5⟩ := ih (fun q hq => hp q (by simp [hq])) h3
      refine ⟨q ++ part', m', by simp [e], ?_, h5⟩
      intro x hx; simp at hx; rcases hx with hx | hx
      · exact h2 x hx
      · exact h4 x hx

theorem KeepsTokens.trans {same : Split → Split → Prop} (ht : ∀ a b c, same a b → same b c → same a c)
    {l1 l2 l3 : List Split} (h1 : KeepsTokens same l1 l2) (h2 : KeepsTokens same l2 l3) :
    KeepsTokens same l1 l3 := by
  induction h1 generalizing l3 with
  | nil => exact h2
  | keep a b c _ ih =>
    cases h2 with
    | keep d e f g => exact .keep a e (ht _ _ _ c f) (ih g)
    | cut d e f => exact absurd d b
  | cut a b _ ih =>
    obtain ⟨part', m, rfl, h4, h5⟩ := KeepsTokens.cut_inv b h2
    exact .cut a h4 (ih h5)

theorem splitNormalized_untokenized {s : Split} {fn : U16 → Res (List Seg)} {b : Behavior}
    {part : List Split} (h : splitNormalized s fn b = .ok part) : ∀ q ∈ part, q.tokens = [] := by
  unfold splitNormalized at h
  obtain ⟨segs, _, h⟩ := res_bind_ok.1 h
  simp at h; subst h
  intro q hq
  simp only [List.mem_map] at hq
  obtain ⟨_, _, rfl⟩ := hq
  rfl

theorem splitLoop_keeps {same : Split → Split → Prop} (hr : ∀ s, same s s)
    {fn : U16 → Res (List Seg)} {b : Behavior} {l out : List Split}
    (h : splitLoop fn b l = .ok out) : KeepsTokens same l out := by
  obtain ⟨parts, rfl, he⟩ := splitLoop_ok_iff.1 h
  clear h
  induction he with
  | nil => exact .nil
  | cons h1 _ ih =>
    rcases h1 with ⟨ht, rfl⟩ | ⟨ht, hs⟩
    · exact .keep ht ht (hr _) ih
    · exact .cut ht (splitNormalized_untokenized hs) ih

theorem PTS.split_keeps {same : Split → Split → Prop} (hr : ∀ s, same s s) {p p' : PTS}
    {fn : U16 → Res (List Seg)} {b : Behavior} (h : p.split fn b = .ok p') :
    KeepsTokens same p.splits p'.splits := by
  unfold PTS.split at h
  obtain ⟨l, h1, h⟩ := res_bind_ok.1 h
  simp at h; subst h
  exact splitLoop_keeps hr h1

/-- Same tokens and offsets. -/
def SameTokens (s q : Split) : Prop := q.tokens = s.tokens ∧ q.offsets = s.offsets

theorem mapSplits_keeps {P : Platform} {l out : List Split} (h : mapSplits P l = .ok out) :
    KeepsTokens SameTokens l out := by
  induction l generalizing out with
  | nil => simp [mapSplits] at h; subst h; exact .nil
  | cons s l ih =>
    simp only [mapSplits] at h
    obtain ⟨n, _, h⟩ := res_bind_ok.1 h
    obtain ⟨rest, h2, h⟩ := res_bind_ok.1 h
    simp at h; subst h
    by_cases hs : s.tokens = []
    · exact .cut (part := [{ s with normalized := n }]) hs (by simpa using hs) (ih h2)
    · exact .keep hs hs ⟨rfl, rfl⟩ (ih h2)

theorem bert_keeps {same : Split → Split → Prop} (hr : ∀ s, same s s)
    (ht : ∀ a b c, same a b → same b c → same a c) {P : Platform} {p p' : PTS}
    (h : bertPreTokenize P p = .ok p') : KeepsTokens same p.splits p'.splits := by
  unfold bertPreTokenize at h
  obtain ⟨q, h1, h2⟩ := res_bind_ok.1 h
  exact KeepsTokens.trans ht (PTS.split_keeps hr h1) (PTS.split_keeps hr h2)

/-- **C08** (partial: trees without a ByteLevel pre-tokenizer.)  Every split that carries
tokens comes out unchanged and in its place among the pieces of the other splits. -/
theorem C08_tokens_kept_partial (P : Platform) (t : PreTokenizer) (ht : t.NoByteLevel) (p p' : PTS)
    (h : t.run P p = .ok p') : KeepsTokens (fun s q => q = s) p.splits p'.splits := by
  have tr : ∀ a b c : Split, b = a → c = b → c = a := by rintro _ _ _ rfl rfl; rfl
  refine PreTokenizer.rec (motive_1 := fun t => t.NoByteLevel → ∀ p p' : PTS, t.run P p = .ok p' →
      KeepsTokens (fun s q => q = s) p.splits p'.splits)
    (motive_2 := fun l => NoByteLevelList l → ∀ p p' : PTS, PreTokenizer.runList P l p = .ok p' →
      KeepsTokens (fun s q => q = s) p.splits p'.splits)
    ?_ ?_ ?_ ?_ ?_ ?_ t ht p p' h
  · intro _ p p' h
    exact bert_keeps (same := fun s q => q = s) (fun _ => rfl) tr (by simpa [PreTokenizer.run] using h)
  · intro pat b i _ p p' h
    exact PTS.split_keeps (same := fun s q => q = s) (fun _ => rfl) (by simpa [PreTokenizer.run, splitPreTokenize] using h)
  · intro a u h; exact absurd h (by simp [PreTokenizer.NoByteLevel])
  · intro l ih hl p p' h
    exact ih (by simpa [PreTokenizer.NoByteLevel] using hl) p p' (by simpa [PreTokenizer.run] using h)
  · intro _ p p' h
    simp [PreTokenizer.runList] at h; subst h
    exact KeepsTokens.refl (same := fun s q => q = s) (fun _ => rfl) _
  · intro t l ih1 ih2 hl p p' h
    simp only [NoByteLevelList] at hl
    simp only [PreTokenizer.runList] at h
    obtain ⟨q, h1, h2⟩ := res_bind_ok.1 h
    exact KeepsTokens.trans tr (ih1 hl.1 _ _ h1) (ih2 hl.2 _ _ h2)

/-- **C08** (partial: the text may be rewritten.)  Every tree whose ByteLevel members have
`add_prefix_space` off keeps the tokens and the offsets of splits that carry tokens. -/
theorem C08_token_ids_kept_partial (P : Platform) (t : PreTokenizer) (ht : t.NoPrefixSpace) (p p' : PTS)
    (h : t.run P p = .ok p') :
    KeepsTokens (fun s q => q.tokens = s.tokens ∧ q.offsets = s.offsets) p.splits p'.splits := by
  have rf : ∀ s, SameTokens s s := fun _ => ⟨rfl, rfl⟩
  have tr : ∀ a b c, SameTokens a b → SameTokens b c → SameTokens a c :=
    fun a b c h1 h2 => ⟨h2.1.trans h1.1, h2.2.trans h1.2⟩
  refine PreTokenizer.rec (motive_1 := fun t => t.NoPrefixSpace → ∀ p p' : PTS, t.run P p = .ok p' →
      KeepsTokens SameTokens p.splits p'.splits)
    (motive_2 := fun l => NoPrefixSpaceList l → ∀ p p' : PTS, PreTokenizer.runList P l p = .ok p' →
      KeepsTokens SameTokens p.splits p'.splits)
    ?_ ?_ ?_ ?_ ?_ ?_ t ht p p' h
  · intro _ p p' h
    exact bert_keeps rf tr (by simpa [PreTokenizer.run] using h)
  · intro pat b i _ p p' h
    exact PTS.split_keeps rf (by simpa [PreTokenizer.run, splitPreTokenize] using h)
  · intro a u ha p p' h
    simp only [PreTokenizer.NoPrefixSpace] at ha
    subst ha
    simp only [PreTokenizer.run, byteLevelPreTokenize, Bool.false_eq_true, if_false, res_ok_bind] at h
    obtain ⟨q, h1, h⟩ := res_bind_ok.1 h
    obtain ⟨l, h2, h⟩ := res_bind_ok.1 h
    simp at h; subst h
    exact KeepsTokens.trans tr (PTS.split_keeps rf h1) (mapSplits_keeps h2)
  · intro l ih hl p p' h
    exact ih (by simpa [PreTokenizer.NoPrefixSpace] using hl) p p' (by simpa [PreTokenizer.run] using h)
  · intro _ p p' h
    simp [PreTokenizer.runList] at h; subst h
    exact KeepsTokens.refl rf _
  · intro t l ih1 ih2 hl p p' h
    simp only [NoPrefixSpaceList] at hl
    simp only [PreTokenizer.runList] at h
    obtain ⟨q, h1, h2⟩ := res_bind_ok.1 h
    exact KeepsTokens.trans tr (ih1 hl.1 _ _ h1) (ih2 hl.2 _ _ h2)

/-- Text "a [X]" with the added token "[X]" recognized. -/
def tokenPTS : PTS :=
  { normalized := NS.ofText w!"a [X]"
    splits := [{ normalized := b!"a ", offsets := (0, 2) },
               { normalized := b!"[X]", offsets := (2, 5), tokens := [⟨5, b!"[X]", (0, 3)⟩] }] }

/-- **C08 is violated** by ByteLevel: the text of the recognized token "é" is rewritten
(platform with unsigned `char`). -/
theorem C08_violated_text (p : PTS)
    (hp : p.splits = [{ normalized := b!"é", offsets := (0, 1), tokens := [⟨5, b!"é", (0, 1)⟩] }]) :
    ∃ p', (PreTokenizer.byteLevel false false).run unsignedPlatform p = .ok p' ∧
      p'.splits ≠ p.splits := by
  obtain ⟨p', parts, h1, _, h2, h3⟩ := C04_lossless_partial unsignedPlatform false _ rfl spaceFind_good p
    (by intro s hs; rw [hp] at hs; simp at hs; subst hs; exact ⟨w!"é", (C02_to_string_iff _ _).1 (by decide)⟩)
    (fun h => by simp [unsignedPlatform] at h)
  refine ⟨p', h1, ?_⟩
  rw [h2, hp]
  rw [hp] at h3
  cases h3 with
  | cons h h' =>
    cases h'
    rcases h with ⟨_, q, rfl, _, _, h⟩ | ⟨h, _⟩
    · simp only [List.flatten_cons, List.flatten_nil, List.append_nil]
      intro e
      simp only [List.cons.injEq, and_true] at e
      rw [e] at h
      obtain ⟨_, h⟩ := utf8Text_iff.1 h
      exact absurd h (by decide +kernel)
    · simp at h

/-- **C08 is violated** by ByteLevel with `add_prefix_space`: the recognized token is
forgotten. -/
theorem C08_violated_prefix : ∃ p', (PreTokenizer.byteLevel true false).run unsignedPlatform tokenPTS = .ok p' ∧
    ∀ s ∈ p'.splits, s.tokens = [] := by
  obtain ⟨n, s, _, hs, e⟩ := C04_prefix_space_added unsignedPlatform false tokenPTS 0x61 w!" [X]" rfl
    (by intro x hx; simp only [List.mem_cons, List.not_mem_nil, or_false] at hx
        rcases hx with rfl | rfl | rfl | rfl | rfl <;> simp [Scalar])
    rfl 0 1 [(1, 1), (2, 1), (3, 1), (4, 1)] (by decide) (by decide)
  rw [e]
  obtain ⟨p', parts, h1, _, h2, h3⟩ := C04_lossless_partial unsignedPlatform false _ rfl spaceFind_good
    { normalized := n, splits := [{ normalized := s, offsets := (0, 6) }] }
    (by intro q hq; simp at hq; subst hq; exact ⟨_, hs⟩)
    (fun h => by simp [unsignedPlatform] at h)
  refine ⟨p', h1, ?_⟩
  rw [h2]
  cases h3 with
  | cons h h' =>
    cases h'
    rcases h with ⟨h, _⟩ | ⟨_, bs, hbs, he, hrest⟩
    · simp at h
    · intro q hq
      simp only [List.flatten_cons, List.flatten_nil, List.append_nil] at hq
      clear h2 h1 hbs hrest
      induction he with
      | nil => simp at hq
      | cons h1 _ ih =>
        simp at hq; rcases hq with rfl | hq
        · exact h1.1
        · exact ih hq

example : ∃ p', (PreTokenizer.seq [.bert, .split b!" " .isolated false]).run spacePlatform tokenPTS = .ok p' ∧
    (PreTokenizer.seq [.bert, .split b!" " .isolated false]).NoByteLevel := by
  refine ⟨_, rfl, ?_⟩
  simp [PreTokenizer.NoByteLevel, NoByteLevelList]

end Tok
