import Verif.Proofs.Split
import Verif.Sample

set_option autoImplicit false

/-!
C06, C07: the Split pre-tokenizer.
-/

namespace Tok
open Spec

/-- The specification's engine assumption, applied to the text of a split. -/
theorem goodEngine_text {find : U16 → List (Nat × Nat)} (hg : GoodEngine find) {w : WStr}
    (hw : Scalars w) : Ordered (units w) 0 (find (utf16 w)) ∧
      ∀ m ∈ find (utf16 w), Boundary w m.1 ∧ Boundary w m.2 := by
  have := hg w (utf16 w) (utf16Text_iff.2 ⟨hw, rfl⟩)
  rw [units_eq]; exact this

/-- **C06** With behaviour Isolated the Split pre-tokenizer does not fail and loses
nothing: every split is replaced by pieces as described by `IsolatedPieces`. -/
theorem C06_isolated_lossless (P : Platform) (pattern : Str) (invert : Bool)
    (find : U16 → List (Nat × Nat)) (hfind : P.regex pattern = some find) (hgood : GoodEngine find)
    (p : PTS) (htext : ∀ s ∈ p.splits, ∃ w, HasText s w) :
    ∃ p' parts, (PreTokenizer.split pattern .isolated invert).run P p = .ok p' ∧
      p'.normalized = p.normalized ∧ p'.splits = parts.flatten ∧
      Each IsolatedPieces p.splits parts := by
  obtain ⟨parts, h1, h2⟩ := splitLoop_total (R := IsolatedPieces) (fn := findMatches P pattern)
    (b := .isolated) p.splits (by
      intro s hs
      refine ⟨fun ht => .inl ⟨ht, rfl⟩, fun ht => ?_⟩
      obtain ⟨w, hw⟩ := htext s hs
      obtain ⟨hsc, hn⟩ := utf8Text_iff.1 hw
      obtain ⟨ho, hb⟩ := goodEngine_text hgood hsc
      obtain ⟨ps, hp1, hp2⟩ := segments_parts (find (utf16 w)) [] w rfl ho hb
      have hfn : findMatches P pattern (utf16 w) = .ok (place 0 ps) := by
        simp only [findMatches, hfind]
        rw [← units_eq]; exact congrArg Except.ok hp2
      have hs := splitNormalized_parts hsc hn hp1 hfn .isolated
      simp only at hs
      obtain ⟨e1, e2, e3⟩ := pieceSplits_isolated s.offsets.1 (ps.map fun p => (p.1, false))
        (by simp) 0
      have htx : partsText (ps.map fun p => (p.1, false)) = w := by
        rw [← hp1]; simp only [partsText, List.map_map]; rfl
      have hmem : ∀ q ∈ ps.map (fun p => (p.1, false)), Scalars q.1 := by
        intro q hq
        refine hsc.sub fun c hc => ?_
        rw [← htx]; simp only [partsText, List.mem_flatten]
        exact ⟨q.1, List.mem_map_of_mem hq, hc⟩
      rw [htx] at e1 e2
      refine ⟨_, hs, .inr ⟨ht, ?_, by rw [e1, hn], w, hw, by simpa using e2⟩⟩
      intro q hq
      obtain ⟨a, p, hp, e⟩ := e3 q hq
      exact ⟨a, p.1, utf8Text_iff.2 ⟨hmem p hp, e⟩⟩)
  exact ⟨{ p with splits := parts.flatten }, parts,
    by simp [PreTokenizer.run, splitPreTokenize, PTS.split, h1], rfl, rfl, h2⟩

/-- **C07** With behaviour Removed, the Split pre-tokenizer does not fail and the pieces
of an untokenized split are exactly the stretches between the matches of the pattern. -/
theorem C07_removed_gaps (P : Platform) (pattern : Str) (invert : Bool)
    (find : U16 → List (Nat × Nat)) (hfind : P.regex pattern = some find) (hgood : GoodEngine find)
    (p : PTS) (htext : ∀ s ∈ p.splits, ∃ w, HasText s w) :
    ∃ p' parts, (PreTokenizer.split pattern .removed invert).run P p = .ok p' ∧
      p'.normalized = p.normalized ∧ p'.splits = parts.flatten ∧
      Each (RemovedPieces find) p.splits parts := by
  obtain ⟨parts, h1, h2⟩ := splitLoop_total (R := RemovedPieces find) (fn := findMatches P pattern)
    (b := .removed) p.splits (by
      intro s hs
      refine ⟨fun ht => .inl ⟨ht, rfl⟩, fun ht => ?_⟩
      obtain ⟨w, hw⟩ := htext s hs
      obtain ⟨hsc, hn⟩ := utf8Text_iff.1 hw
      obtain ⟨ho, hb⟩ := goodEngine_text hgood hsc
      obtain ⟨ps, hp1, hp2⟩ := segments_parts (find (utf16 w)) [] w rfl ho hb
      have hpart := place_partOf ps [] (w := w) (by simp [hp1])
      rw [← hp2] at hpart
      let mk : Seg → Split := fun m =>
        { normalized := toUTF8String (tempSubStringBetween (utf16 w) m.1.1 m.1.2)
          offsets := (m.1.1 + s.offsets.1, m.1.2 + s.offsets.1) }
      have hsp : splitNormalized s (findMatches P pattern) .removed =
          .ok (((segments (units w) 0 (find (utf16 w))).filter fun m => !m.2).map mk) := by
        simp only [splitNormalized, hn, fromUTF8_utf8 hsc, findMatches, hfind, res_ok_bind,
          res_pure, ← units_eq]
        rfl
      refine ⟨_, hsp, .inr ⟨ht, w, utf16 w, gapsOf (units w) 0 (find (utf16 w)), hw,
        utf16Text_iff.2 ⟨hsc, rfl⟩, gapsOf_gaps ho, ?_⟩⟩
      have : ∀ segs : List Seg, (∀ m ∈ segs, ∃ v, PartOf w m.1.1 m.1.2 v) →
          Each (fun (r : Nat × Nat) (q : Split) => q.tokens = [] ∧
            q.offsets = (s.offsets.1 + r.1, s.offsets.1 + r.2) ∧
            ∃ v, PartOf w r.1 r.2 v ∧ HasText q v) (segs.map (·.1)) (segs.map mk) := by
        intro segs
        induction segs with
        | nil => intro _; exact .nil
        | cons m segs ih2 =>
          intro hm
          refine .cons ⟨rfl, ?_, ?_⟩ (ih2 fun x hx => hm x (by simp [hx]))
          · simp [mk, Nat.add_comm]
          · obtain ⟨v, a, b, e, ea, eb⟩ := hm m (by simp)
            refine ⟨v, ⟨a, b, e, ea, eb⟩, ?_⟩
            have hv : Scalars v := hsc.sub (by intro c hc; rw [e]; simp [hc])
            refine utf8Text_iff.2 ⟨hv, ?_⟩
            simp only [mk]
            rw [ea, eb, e, tempSub_utf16, toUTF8String_utf16 hv]
      exact this _ fun m hm => hpart m (List.mem_filter.1 hm).1)
  exact ⟨{ p with splits := parts.flatten }, parts,
    by simp [PreTokenizer.run, splitPreTokenize, PTS.split, h1], rfl, rfl, h2⟩

/-! ### The hypotheses can be met -/

/-- A regex engine for a pattern that is one space. -/
def spaceFind : Nat → U16 → List (Nat × Nat)
  | _, [] => []
  | pos, c :: r => if c = 0x20 then (pos, pos + 1) :: spaceFind (pos + 1) r else spaceFind (pos + 1) r

theorem spaceFind_mem {pos : Nat} {u : U16} : ∀ m ∈ spaceFind pos u,
    m.2 = m.1 + 1 ∧ pos ≤ m.1 ∧ u[m.1 - pos]? = some 0x20 := by
  induction u generalizing pos with
  | nil => intro m hm; simp [spaceFind] at hm
  | cons c r ih =>
    intro m hm
    simp only [spaceFind] at hm
    have hrec : m ∈ spaceFind (pos + 1) r → m.2 = m.1 + 1 ∧ pos ≤ m.1 ∧ (c :: r)[m.1 - pos]? = some 0x20 := by
      intro h
      obtain ⟨h1, h2, h3⟩ := ih m h
      refine ⟨h1, by omega, ?_⟩
      rw [show m.1 - pos = (m.1 - (pos + 1)) + 1 by omega, List.getElem?_cons_succ]; exact h3
    split at hm
    · rename_i hc
      simp only [List.mem_cons] at hm
      rcases hm with rfl | hm
      · simp [hc]
      · exact hrec hm
    · exact hrec hm

theorem spaceFind_ordered {pos : Nat} {u : U16} {len : Nat} (h : pos + u.length = len) (cur : Nat)
    (hc : cur ≤ pos) : Ordered len cur (spaceFind pos u) := by
  induction u generalizing pos cur with
  | nil => simp only [spaceFind, Ordered]; simp at h; omega
  | cons c r ih =>
    simp only [List.length_cons] at h
    simp only [spaceFind]
    split
    · exact ⟨hc, by simp, ih (by omega) _ (Nat.le_refl _)⟩
    · exact ih (by omega) _ (by omega)

/-- A position that holds a unit below the surrogates is a boundary, and so is the next. -/
theorem boundary_of_unit {w : WStr} (hw : Scalars w) : ∀ i, (utf16 w)[i]? = some 0x20 →
    Boundary w i ∧ Boundary w (i + 1) := by
  induction w with
  | nil => intro i h; simp at h
  | cons c w ih =>
    intro i h
    rw [Scalars.cons] at hw
    have lift : ∀ j, Boundary w j → Boundary (c :: w) (units [c] + j) := by
      rintro j ⟨v, r, e, rfl⟩
      exact ⟨c :: v, r, by simp [e], by rw [← units_append]; rfl⟩
    have big : ∀ a b : Nat, 0x20 < a → a + b ≠ 0x20 := by intro a b h1 h2; omega
    simp only [utf16_cons] at h
    rw [List.getElem?_append] at h
    have hlen : (utf16Enc1 c).length = units [c] := (unitLen_eq c)
    split at h
    · rename_i hi
      unfold utf16Enc1 at h hi
      split at h
      · rename_i hc
        simp only [hc, if_true, List.length_cons, List.length_nil] at hi
        obtain rfl : i = 0 := by omega
        exact ⟨⟨[], c :: w, rfl, rfl⟩, ⟨[c], w, rfl, by simp [units, hc]⟩⟩
      · generalize hx : 0xD800 + (c - 0x10000) / 1024 = x at h
        generalize hy : 0xDC00 + (c - 0x10000) % 1024 = y at h
        have hx' : x ≠ 0x20 := by rw [← hx]; exact big _ _ (by decide)
        have hy' : y ≠ 0x20 := by rw [← hy]; exact big _ _ (by decide)
        rcases i with _ | _ | i
        · simp at h; exact absurd h hx'
        · simp at h; exact absurd h hy'
        · simp at h
    · rename_i hi
      rw [hlen] at h hi
      obtain ⟨h1, h2⟩ := ih hw.2 _ h
      have e1 : i = units [c] + (i - units [c]) := by omega
      have e2 : i + 1 = units [c] + (i - units [c] + 1) := by omega
      rw [e2]
      exact ⟨by rw [e1]; exact lift _ h1, lift _ h2⟩

theorem spaceFind_good : GoodEngine (spaceFind 0) := by
  intro w u h
  obtain ⟨hw, rfl⟩ := utf16Text_iff.1 h
  refine ⟨spaceFind_ordered (by simp) 0 (Nat.le_refl _), fun m hm => ?_⟩
  obtain ⟨h1, _, h3⟩ := spaceFind_mem m hm
  have := boundary_of_unit hw m.1 (by simpa using h3)
  rw [h1]; exact this

/-- A platform whose regex engine knows the pattern " ". -/
def spacePlatform : Platform := { ascii with regex := fun _ => some (spaceFind 0) }

def samplePTS : PTS :=
  { normalized := NS.ofText w!"a é😀 b"
    splits := [{ normalized := b!"a é😀 b", offsets := (0, 7) },
               { normalized := b!"[X]", offsets := (7, 10), tokens := [⟨5, b!"[X]", (0, 3)⟩] }] }

theorem samplePTS_text : ∀ s ∈ samplePTS.splits, ∃ w, HasText s w := by
  intro s hs
  simp only [samplePTS, List.mem_cons, List.not_mem_nil, or_false] at hs
  rcases hs with rfl | rfl
  · exact ⟨w!"a é😀 b", (C02_to_string_iff _ _).1 (by decide)⟩
  · exact ⟨w!"[X]", (C02_to_string_iff _ _).1 (by decide)⟩

example := C06_isolated_lossless spacePlatform b!" " false _ rfl spaceFind_good _ samplePTS_text
example := C07_removed_gaps spacePlatform b!" " false _ rfl spaceFind_good _ samplePTS_text

end Tok
