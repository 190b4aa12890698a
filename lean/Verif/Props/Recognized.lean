import Verif.Proofs.Recognized
import Verif.Props.Extract

set_option autoImplicit false

/-!
Property C85: which occurrences of added tokens are recognized.
-/

namespace Tok
open Spec

/-- **C85** (exact, for texts and tables as in `Describable`) The extraction cuts the text exactly at the recognized
occurrences of the tokens matched before normalization (the shortest token that starts the text, follows a space, or
follows another recognized token, and that contains no space; `single_word` tokens only between non-word characters;
with the blanks a stripping token takes along); it normalizes every other piece and cuts the result in the same way at
the tokens matched after normalization. -/
theorem C85_cut_partial (P : Platform) (norm : Option Normalizer) {a : AddedVocab} {w : WStr} {p : PTS}
    (hd : Describable a a.nonNormTrie w) (hw0 : w ≠ [])
    (hn : ∀ x y n, normalizeOpt P norm (NS.ofText (between w x y)) = .ok n → Describable a a.normTrie n.normalized)
    (h : (a.extract P norm w).1 = .ok p) :
    ∃ cuts groups, CutInto a a.nonNormTrie w cuts ∧ Each (Continued P norm a w) cuts groups ∧
      (groups.flatten ≠ [] → p.splits = groups.flatten) ∧ (groups.flatten = [] → Each (SplitOf w) cuts p.splits) :=
  extract_exact P norm hd hw0 hn h

/-- No flag is set for any recorded token. -/
def FlagFree (a : AddedVocab) : Prop :=
  ∀ i t, mapFind a.mapR i = some t → t.singleWord = false ∧ t.lstrip = false ∧ t.rstrip = false

theorem flagFree_of {a : AddedVocab} (h : FlagFree a) (i : Int) :
    (flagsOf a i).singleWord = false ∧ (flagsOf a i).lstrip = false ∧ (flagsOf a i).rstrip = false := by
  unfold flagsOf
  cases hf : mapFind a.mapR i with
  | none => exact ⟨rfl, rfl, rfl⟩
  | some t => exact h i t hf

/-- **C85** Without flags, the pieces taken as tokens are exactly the recognized occurrences. -/
theorem C85_tokens {a : AddedVocab} (h : FlagFree a) {T : List (Str × Int)} {w : WStr} {cuts : List Cut}
    (hc : CutInto a T w cuts) (i : Int) (x y : Nat) :
    (some i, (x, y)) ∈ cuts ↔ Recognized T w x y i := by
  obtain ⟨h1, h2, h3⟩ := flagFree_of h i
  constructor
  · intro hm
    obtain ⟨x', y', hr, -, -, -, -, -, q1, q2, -⟩ := hc.only i x y hm
    rw [q1 h2, q2 h3]; exact hr
  · intro hr
    obtain ⟨x', y', hm, -, -, -, -, q1, q2, -⟩ := hc.all i x y hr (by intro h; rw [h1] at h; cases h)
    rw [q1 h2, q2 h3] at hm; exact hm

theorem cut_unique : ∀ (l1 l2 : List Cut) (pos n : Nat), Tiles pos (l1.map (·.2)) n → Tiles pos (l2.map (·.2)) n →
    (∀ c ∈ l1, c.2.1 < c.2.2) → (∀ c ∈ l2, c.2.1 < c.2.2) → Alternate l1 → Alternate l2 →
    (∀ i r, (some i, r) ∈ l1 ↔ (some i, r) ∈ l2) → l1 = l2 := by
  have tail : ∀ {c : Cut} {l : List Cut}, Alternate (c :: l) → Alternate l := by
    intro c l h
    cases l with
    | nil => trivial
    | cons d r => exact h.2
  have after : ∀ {c : Cut} {l : List Cut} {pos n : Nat}, Tiles pos ((c :: l).map (·.2)) n → c.2.1 < c.2.2 →
      ∀ d ∈ l, c.2.1 < d.2.1 ∧ c.2.2 ≤ d.2.1 := by
    rintro ⟨_, x, y⟩ l pos n h hf d hd
    simp only [List.map_cons, Tiles] at h hf ⊢
    have := rc_tiles_mem h.2.2 d.2 (List.mem_map.2 ⟨_, hd, rfl⟩)
    omega
  intro l1
  induction l1 with
  | nil =>
    intro l2 pos n h1 h2 _ f2 _ _ _
    cases l2 with
    | nil => rfl
    | cons c l =>
      simp only [List.map_nil, Tiles] at h1
      have := rc_tiles_mem h2 c.2 (by simp)
      have := f2 c (by simp)
      omega
  | cons c t1 ih =>
    intro l2 pos n h1 h2 f1 f2 a1 a2 hm
    cases l2 with
    | nil =>
      simp only [List.map_nil, Tiles] at h2
      have := rc_tiles_mem h1 c.2 (by simp)
      have := f1 c (by simp)
      omega
    | cons d t2 =>
      have hc1 := f1 c (by simp)
      have hd1 := f2 d (by simp)
      have ac := after h1 hc1
      have ad := after h2 hd1
      have sc : c.2.1 = pos := by simp only [List.map_cons, Tiles] at h1; exact h1.1
      have sd : d.2.1 = pos := by simp only [List.map_cons, Tiles] at h2; exact h2.1
      have hcd : c = d := by
        obtain ⟨ic, xc, yc⟩ := c
        obtain ⟨jd, xd, yd⟩ := d
        simp only at sc sd ac ad hc1 hd1
        subst sc
        subst sd
        cases ic with
        | some i =>
          have := (hm i (xd, yc)).1 (by simp)
          rcases List.mem_cons.1 this with h | h
          · exact h
          · have := ad _ h; simp only at this; omega
        | none =>
          cases jd with
          | some j =>
            have := (hm j (xd, yd)).2 (by simp)
            rcases List.mem_cons.1 this with h | h
            · exact h.symm
            · have := ac _ h; simp only at this; omega
          | none =>
            have key : ∀ (t t' : List Cut) (y y' : Nat), xd < y → xd < y' → Tiles xd (((none, (xd, y)) :: t).map (fun c : Cut => c.2)) n →
                Tiles xd (((none, (xd, y')) :: t').map (fun c : Cut => c.2)) n → Alternate ((none, (xd, y)) :: t) →
                (∀ d ∈ t', xd < d.2.1 ∧ y' ≤ d.2.1) →
                (∀ i r, (some i, r) ∈ (none, (xd, y)) :: t → (some i, r) ∈ (none, (xd, y')) :: t') → y' ≤ y := by
              intro t t' y y' _ _ ht ht' hal hat hmm
              cases t with
              | nil =>
                simp only [List.map_cons, List.map_nil, Tiles] at ht
                have := rc_tiles_mem ht' (xd, y') (by simp)
                simp only at this
                omega
              | cons e t =>
                obtain ⟨ie, xe, ye⟩ := e
                simp only [List.map_cons, Tiles] at ht
                obtain ⟨-, -, rfl, -⟩ := ht
                cases ie with
                | none => have := hal.1; simp at this
                | some i =>
                  have := hmm i (xe, ye) (by simp)
                  rcases List.mem_cons.1 this with h | h
                  · simp at h
                  · have := hat _ h; simp only at this; exact this.2
            have e1 := key t1 t2 yc yd hc1 hd1 h1 h2 a1 ad fun i r => (hm i r).1
            have e2 := key t2 t1 yd yc hd1 hc1 h2 h1 a2 ac fun i r => (hm i r).2
            have : yc = yd := by omega
            rw [this]
      subst hcd
      congr 1
      simp only [List.map_cons, Tiles] at h1 h2
      refine ih t2 c.2.2 n h1.2.2 h2.2.2 (fun e he => f1 e (by simp [he])) (fun e he => f2 e (by simp [he])) (tail a1) (tail a2) ?_
      intro i r
      constructor
      · intro h
        rcases List.mem_cons.1 ((hm i r).1 (List.mem_cons_of_mem _ h)) with e | h'
        · have := ac _ h; rw [e] at this; omega
        · exact h'
      · intro h
        rcases List.mem_cons.1 ((hm i r).2 (List.mem_cons_of_mem _ h)) with e | h'
        · have := ad _ h; rw [e] at this; omega
        · exact h'

/-- **C85** Without flags, there is only one way to cut the text as described. -/
theorem C85_unique {a : AddedVocab} (h : FlagFree a) {T : List (Str × Int)} {w : WStr} {l l' : List Cut}
    (h1 : CutInto a T w l) (h2 : CutInto a T w l') : l = l' :=
  cut_unique l l' 0 w.length h1.tiles h2.tiles h1.filled h2.filled h1.alternate h2.alternate fun i r => by
    obtain ⟨x, y⟩ := r
    rw [C85_tokens h h1, C85_tokens h h2]

/-- **C85** The recognized occurrences do not overlap. -/
theorem C85_disjoint {a : AddedVocab} (h : FlagFree a) {T : List (Str × Int)} {w : WStr} (hd : Describable a T w)
    {x y x' y' : Nat} {i j : Int} (h1 : Recognized T w x y i) (h2 : Recognized T w x' y' j) :
    (x = x' ∧ y = y' ∧ i = j) ∨ y ≤ x' ∨ y' ≤ x := by
  obtain ⟨cuts, -, hc⟩ := findMatches_cut hd
  have m1 := (C85_tokens h hc i x y).2 h1
  have m2 := (C85_tokens h hc j x' y').2 h2
  have gen : ∀ (l : List Cut) (pos : Nat), Tiles pos (l.map (·.2)) w.length → (some i, (x, y)) ∈ l → (some j, (x', y')) ∈ l →
      (x = x' ∧ y = y' ∧ i = j) ∨ y ≤ x' ∨ y' ≤ x := by
    intro l
    induction l with
    | nil => intro _ _ h; cases h
    | cons c r ih =>
      intro pos ht m1 m2
      obtain ⟨c1, c2, c3⟩ := c
      simp only [List.map_cons, Tiles] at ht
      have hin := fun q hq => rc_tiles_mem ht.2.2 q hq
      rcases List.mem_cons.1 m1 with e0 | m1 <;> rcases List.mem_cons.1 m2 with e | m2
      · rw [← e0] at e
        simp only [Prod.mk.injEq, Option.some.injEq] at e
        exact .inl ⟨e.2.1.symm, e.2.2.symm, e.1.symm⟩
      · simp only [Prod.mk.injEq] at e0
        have := (hin (x', y') (List.mem_map.2 ⟨_, m2, rfl⟩)).1
        rw [← e0.2.2] at this
        exact .inr (.inl this)
      · simp only [Prod.mk.injEq] at e
        have := (hin (x, y) (List.mem_map.2 ⟨_, m1, rfl⟩)).1
        rw [← e.2.2] at this
        exact .inr (.inr this)
      · exact ih _ ht.2.2 m1 m2
  exact gen cuts 0 hc.tiles m1 m2

/-! ### The tables of an added vocabulary -/

theorem trieOf_mem {v : Vocab} {b : Bool} {l : List AddedToken} {k : Str} {i : Int} (h : (k, i) ∈ trieOf v b l) :
    tokenToId v k = some i ∧ ∃ t ∈ l, t.content = k := by
  unfold trieOf at h
  obtain ⟨t, ht, h⟩ := List.mem_filterMap.1 h
  split at h
  · rename_i j hj
    split at h
    · simp only [Option.some.injEq, Prod.mk.injEq] at h
      obtain ⟨rfl, rfl⟩ := h
      exact ⟨hj, t, ht, rfl⟩
    · cases h
  · cases h

/-- **C85** The tables made by `add_tokens` have one id per entry, and no empty entry if no token of the vocabulary
is empty: the conditions of `Describable` on the table. -/
theorem C85_tables {a a' : AddedVocab} {M : Option Vocab} {al : Bool} {l : List AddedToken} {n : Nat}
    (h : a.addTokensCore M al l = .ok (n, a')) (T : List (Str × Int)) (hT : T = a'.nonNormTrie ∨ T = a'.normTrie) :
    (∀ k i j, (k, i) ∈ T → (k, j) ∈ T → i = j) ∧
    ((∀ t ∈ a'.addedTokens ++ a'.specialTokens, t.content ≠ []) → ∀ p ∈ T, p.1 ≠ []) := by
  unfold AddedVocab.addTokensCore at h
  obtain ⟨a1, -, h⟩ := res_bind_ok.1 h
  obtain ⟨a2, h2, h⟩ := res_bind_ok.1 h
  have h := Except.ok.inj h
  simp only [Prod.mk.injEq] at h
  obtain ⟨-, rfl⟩ := h
  unfold AddedVocab.refresh at h2
  cases M with
  | none =>
    simp only at h2
    split at h2
    · have h2 := Except.ok.inj h2
      subst h2
      simp only [or_self] at hT
      subst hT
      exact ⟨fun _ _ _ h => (by cases h), fun _ _ h => (by cases h)⟩
    · cases h2
  | some v =>
    have h2 := Except.ok.inj h2
    subst h2
    have main : ∀ k i, (k, i) ∈ T → tokenToId v k = some i ∧ ∃ t ∈ a1.addedTokens ++ a1.specialTokens, t.content = k := by
      intro k i hk
      rcases hT with rfl | rfl
      · rcases List.mem_append.1 hk with hk | hk
        · obtain ⟨q, t, ht, e⟩ := trieOf_mem hk; exact ⟨q, t, by simp [ht], e⟩
        · obtain ⟨q, t, ht, e⟩ := trieOf_mem hk; exact ⟨q, t, by simp [ht], e⟩
      · rcases List.mem_append.1 hk with hk | hk
        · obtain ⟨q, t, ht, e⟩ := trieOf_mem hk; exact ⟨q, t, by simp [ht], e⟩
        · obtain ⟨q, t, ht, e⟩ := trieOf_mem hk; exact ⟨q, t, by simp [ht], e⟩
    refine ⟨fun k i j hi hj => ?_, fun hne p hp => ?_⟩
    · have e1 := (main k i hi).1
      have e2 := (main k j hj).1
      rw [e1] at e2
      exact Option.some.inj e2
    · obtain ⟨-, t, ht, e⟩ := main p.1 p.2 hp
      rw [← e]; exact hne t ht

/-! ### Examples -/

def recVocab : Vocab := [(b!"a", 0), (b!"ab", 1), (b!"abc", 2), (b!"x", 3), (b!"[M]", 4)]

/-- Tokens matched before normalization, without flags. -/
def recAdded : AddedVocab := addedOf recVocab ([b!"ab", b!"abc", b!"x"].map fun k => { content := k, normalized := false })

theorem recAdded_describable : Describable recAdded recAdded.nonNormTrie w!"abc xab éx abé" := by
  have e : recAdded.nonNormTrie = [(b!"ab", 1), (b!"abc", 2), (b!"x", 3)] := by decide +kernel
  refine ⟨by unfold Bmp Scalar; decide, by rw [e]; decide, ?_, .inl ?_⟩
  · rw [e]
    intro k i j hi hj
    simp only [List.mem_cons, Prod.mk.injEq, List.not_mem_nil, or_false] at hi hj
    rcases hi with ⟨rfl, rfl⟩ | ⟨rfl, rfl⟩ | ⟨rfl, rfl⟩ <;> rcases hj with ⟨h, rfl⟩ | ⟨h, rfl⟩ | ⟨h, rfl⟩ <;>
      first | rfl | (exact absurd h (by decide))
  · intro i t ht
    have hm := mapFind_mem ht
    have : ∀ q ∈ recAdded.mapR, q.2.singleWord = false ∧ q.2.lstrip = false ∧ q.2.rstrip = false := by decide +kernel
    exact this _ hm

/-- The hypotheses of `C85_cut_partial` are met, and the text is cut as described: `abc` gives `ab` (the shortest) and
`c`; `xab` gives `x` and, after it, `ab`; the `x` after `é` is not recognized. -/
example : extracted recAdded w!"abc xab éx abé" = .ok [(b!"ab", (0, 2), [1]), (b!"c ", (2, 4), []), (b!"x", (4, 5), [3]),
    (b!"ab", (5, 7), [1]), (b!" éx ", (7, 11), []), (b!"ab", (11, 13), [1]), (b!"é", (13, 14), [])] := by
  decide +kernel

/-- **C85** is false as a user of added tokens expects it (the longest token wherever it occurs): a shorter token hides
a longer one, a token inside a word is not recognized, and neither is a token that contains a space. -/
theorem C85_violated :
    extracted recAdded w!"abc" = .ok [(b!"ab", (0, 2), [1]), (b!"c", (2, 3), [])] ∧
    extracted recAdded w!"cab" = .ok [(b!"cab", (0, 3), [])] ∧
    extracted recAdded w!"\tx" = .ok [(b!"\tx", (0, 2), [])] ∧
    extracted (addedOf [(b!"a b", 7), (b!"a", 0)] (plain [b!"a b"])) w!"a b" = .ok [(b!"a b", (0, 3), [])] := by
  refine ⟨?_, ?_, ?_, ?_⟩ <;> decide +kernel

/-- Tokens with flags. -/
def flagAdded : AddedVocab := addedOf recVocab [{ content := b!"x", normalized := false, singleWord := true },
  { content := b!"[M]", normalized := false, lstrip := true, rstrip := true }]

/-- The hypotheses of `C85_cut_partial` are met with flags too: `[M]` takes the blanks on both sides along, `x` is only
taken as a whole word. -/
theorem flagAdded_describable : Describable flagAdded flagAdded.nonNormTrie w!"a  [M] \tx xa x" := by
  have e : flagAdded.nonNormTrie = [(b!"x", 3), (b!"[M]", 4)] := by decide +kernel
  refine ⟨by unfold Bmp Scalar; decide, by rw [e]; decide, ?_, .inr ⟨by unfold Ascii; decide, ?_⟩⟩
  · rw [e]
    intro k i j hi hj
    simp only [List.mem_cons, Prod.mk.injEq, List.not_mem_nil, or_false] at hi hj
    rcases hi with ⟨rfl, rfl⟩ | ⟨rfl, rfl⟩ <;> rcases hj with ⟨h, rfl⟩ | ⟨h, rfl⟩ <;>
      first | rfl | (exact absurd h (by decide))
  · rw [e]; unfold BlankByte; decide

example : extracted flagAdded w!"a  [M] \tx xa x" = .ok [(b!"a", (0, 1), []), (b!"  [M] \t", (1, 8), [4]),
    (b!"x xa ", (8, 13), []), (b!"x", (13, 14), [3])] := by
  decide +kernel

end Tok
