import Verif.Props.BPE

set_option autoImplicit false

/-!
C101: the tokens byte-pair encoding starts from, in every case, and their order.
-/

namespace Tok
open Spec

/-- **C101** In every case - whatever the vocabulary, the affixes, the unknown token, fusing, byte fallback and dropout - the tokens
of a word that `ignore_merges` does not answer come from its pieces by listed merges. -/
theorem C101_pieces (P : Platform) {lines : List Str} {m : BPE} (hm : Made lines m) (s : Str)
    (hy : ∃ i, i < s.length ∧ Yields (tokenToId m.vocab) m.pre m.suf m.unkToken m.byteFallback s i)
    (hfit : Fits m s) (hnd : ¬ Direct m s) :
    ∃ ts l, (m.word P s).1 = .ok ts ∧ Initial m s l ∧ MergeMany (Listed (tokenToId m.vocab) m.pre lines) l (piecesOf ts) := by
  obtain ⟨ts, h1, h2, _⟩ := word_spec P hm s hy hfit hnd
  exact ⟨ts, _, h1, initial_symList m s, h2⟩

/-- **C101** The pieces are determined by the word. -/
theorem C101_unique {m : BPE} {s : Str} {l l' : List (Int × Nat)} (h : Initial m s l) (h' : Initial m s l') : l = l' := by
  rw [pieces_machine.1 h, pieces_machine.1 h']

/-- What a byte becomes when the order of the text is kept; `u` is the unknown token. -/
def inPlace (unk : Option Int) : Found → List (Int × Nat)
  | .entry i => [(i, 1)]
  | .bytes ids => ids.map fun i => (i, 1)
  | .nothing => unk.toList.map fun u => (u, 1)

theorem fb_inPlace {unk : Option Int} {es : List Found} {l : List (Int × Nat)} {fuse : Bool} (h : Pieces unk fuse es l) :
    (.nothing ∉ es ∨ (fuse = false ∧ ∀ ids, .bytes ids ∉ es)) → l = es.flatMap (inPlace unk) := by
  induction h with
  | nil => intro _; rfl
  | known _ ih =>
    intro ho
    rw [List.flatMap_cons, ← ih]
    · rfl
    · rcases ho with h | h
      · exact .inl fun hm => h (by simp [hm])
      · exact .inr ⟨h.1, fun ids hm => h.2 ids (by simp [hm])⟩
  | @bytes ids r l _ ih =>
    intro ho
    rw [List.flatMap_cons, ← ih]
    · rw [byteTokens_one]; rfl
    · rcases ho with h | h
      · exact .inl fun hm => h (by simp [hm])
      · exact absurd (by simp) (h.2 ids)
  | @dropped r l hu _ ih =>
    intro ho
    rcases ho with h | h
    · exact absurd (by simp) h
    · rw [List.flatMap_cons, ← ih (.inr ⟨h.1, fun ids hm => h.2 ids (by simp [hm])⟩), hu]; rfl
  | @single u fs r l hu hf h1 h2 _ ih =>
    intro ho
    rcases ho with h | h
    · exact absurd (by simp) h
    · have e : fs = [] := by
        cases fs with
        | nil => rfl
        | cons f fs =>
          obtain ⟨ids, rfl⟩ := h1 f (by simp)
          exact absurd (by simp) (h.2 ids)
      subst e
      rw [List.cons_append, List.flatMap_cons, List.nil_append, ← ih (.inr ⟨h.1, fun ids hm => h.2 ids (by simp [hm])⟩), hu]
      rfl
  | run _ hf =>
    intro ho
    rcases ho with h | h
    · exact absurd (by simp) h
    · rw [hf] at h; cases h.1

/-- **C101** The pieces stand in the order of the bytes they stand for when no byte is unknown, and, without fusing, when no byte
has byte tokens. -/
theorem C101_in_order {m : BPE} {s : Str} {l : List (Int × Nat)} (h : Initial m s l)
    (ho : (∀ i, i < s.length → found (tokenToId m.vocab) m.pre m.suf m.byteFallback s i ≠ .nothing) ∨
      (m.fuseUnk = false ∧ ∀ i ids, i < s.length → found (tokenToId m.vocab) m.pre m.suf m.byteFallback s i ≠ .bytes ids)) :
    l = (foundAll (tokenToId m.vocab) m.pre m.suf m.byteFallback s).flatMap (inPlace (unknownId m)) := by
  refine fb_inPlace h ?_
  simp only [foundAll, List.mem_map, List.mem_range]
  rcases ho with h | h
  · exact .inl fun ⟨i, hi, e⟩ => h i hi e
  · exact .inr ⟨h.1, fun ids ⟨i, hi, e⟩ => h.2 i ids hi e⟩

/-- **C101** is violated in all other cases: the pieces of a word in which an unknown byte is followed by a byte that has byte
tokens start with the byte tokens of the second. -/
theorem C101_violated {m : BPE} {x y : Nat} {ids : List Int} {u : Int} {l : List (Int × Nat)} (h : Initial m [x, y] l)
    (hu : unknownId m = some u) (hx : found (tokenToId m.vocab) m.pre m.suf m.byteFallback [x, y] 0 = .nothing)
    (hy : found (tokenToId m.vocab) m.pre m.suf m.byteFallback [x, y] 1 = .bytes ids) :
    l = (ids.map fun i => (i, 1)) ++ [(u, 1)] := by
  have e : foundAll (tokenToId m.vocab) m.pre m.suf m.byteFallback [x, y] = [.nothing, .bytes ids] := by
    show [found _ _ _ _ _ 0, found _ _ _ _ _ 1] = _
    rw [hx, hy]
  unfold Initial at h
  rw [pieces_machine.1 h, e, hu, machine_start, machine, byteTokens_one]
  rfl

/-! ### Examples -/

/-- A vocabulary with a byte token in the form the code looks up. -/
def fallBPE (fuse : Bool) : BPE :=
  { vocab := [(b!"<unk>", 0), (b!"a", 1), (b!"<000b>", 2), (b!"<000c>", 3)], merges := [], dropout := ⟨false, fun _ => false⟩,
    unkToken := b!"<unk>", pre := [], suf := [], fuseUnk := fuse, byteFallback := true, ignoreMerges := false }

theorem fallBPE_made (fuse : Bool) : Made [] (fallBPE fuse) := by simp only [Made]; rfl

/-- In "xbycax", x and y are unknown, b and c have byte tokens. -/
example : foundAll (tokenToId (fallBPE true).vocab) [] [] true b!"xbycax" =
    [.nothing, .bytes [2], .nothing, .bytes [3], .entry 1, .nothing] := by decide +kernel

example : ((fallBPE true).word ascii b!"xbycax").1.map (·.map (·.id)) = .ok [2, 3, 0, 1, 0] ∧
    ((fallBPE false).word ascii b!"xbycax").1.map (·.map (·.id)) = .ok [2, 0, 3, 0, 1, 0] := by
  refine ⟨?_, ?_⟩ <;> decide +kernel

/-- The offsets say that the byte token of "b" is at "x". -/
example : ((fallBPE true).word ascii b!"xb").1 = .ok [⟨2, b!"<000b>", (0, 1)⟩, ⟨0, b!"<unk>", (1, 2)⟩] := by decide +kernel

example (fuse : Bool) : ∃ ts l, ((fallBPE fuse).word ascii b!"xbycax").1 = .ok ts ∧ Initial (fallBPE fuse) b!"xbycax" l ∧
    MergeMany (Listed (tokenToId (fallBPE fuse).vocab) [] []) l (piecesOf ts) :=
  C101_pieces ascii (fallBPE_made fuse) _ ⟨4, by decide, .inl ⟨1, rfl⟩⟩ (by simp [Fits, fallBPE]) (by rintro ⟨_, h, _⟩; cases h)

example (l : List (Int × Nat)) (h : Initial (fallBPE true) b!"xb" l) : l = [(2, 1), (0, 1)] :=
  C101_violated (ids := [2]) (u := 0) h (by decide +kernel) (by decide +kernel) (by decide +kernel)

example (l : List (Int × Nat)) (h : Initial (fallBPE true) b!"abc" l) : l = [(1, 1), (2, 1), (3, 1)] := by
  have := C101_in_order h (.inl (by decide +kernel))
  rw [this]; decide +kernel

end Tok
