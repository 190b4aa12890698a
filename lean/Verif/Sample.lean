import Verif.Config

set_option autoImplicit false

/-
A concrete instance of the platform services, used to evaluate the model on examples
(and to show that the hypotheses of theorems can be met).
-/

namespace Tok

/-- Remove the first entry of largest rank. -/
def popMax : List Merge → Option (Merge × List Merge)
  | [] => none
  | m :: r =>
    match popMax r with
    | none => some (m, [])
    | some (x, r') => if m.rank < x.rank then some (x, m :: r') else some (m, r)

theorem popMax_none {q : List Merge} (h : popMax q = none) : q = [] := by
  cases q with
  | nil => rfl
  | cons m r =>
    simp only [popMax] at h
    split at h
    · simp at h
    · split at h <;> simp at h

theorem popMax_perm : ∀ {q : List Merge} {m r}, popMax q = some (m, r) → q.Perm (m :: r) := by
  intro q
  induction q with
  | nil => intro m r h; simp [popMax] at h
  | cons a q ih =>
    intro m r h
    simp only [popMax] at h
    split at h
    · rename_i h'
      have := popMax_none h'; subst this
      simp at h; obtain ⟨rfl, rfl⟩ := h; exact .refl _
    · rename_i x r' h'
      split at h
      · simp at h; obtain ⟨rfl, rfl⟩ := h
        exact ((ih h').cons a).trans (.swap _ _ _)
      · simp at h; obtain ⟨rfl, rfl⟩ := h; exact .refl _

theorem popMax_max : ∀ {q : List Merge} {m r}, popMax q = some (m, r) → ∀ x ∈ q, x.rank ≤ m.rank := by
  intro q
  induction q with
  | nil => intro m r h; simp [popMax] at h
  | cons a q ih =>
    intro m r h y hy
    simp only [popMax] at h
    split at h
    · rename_i h'
      have := popMax_none h'; subst this
      simp at h hy; obtain ⟨rfl, rfl⟩ := h; subst hy; omega
    · rename_i x r' h'
      have := ih h'
      split at h
      · simp at h; obtain ⟨rfl, rfl⟩ := h
        simp at hy; rcases hy with rfl | hy
        · omega
        · exact this y hy
      · simp at h; obtain ⟨rfl, rfl⟩ := h
        simp at hy; rcases hy with rfl | hy
        · omega
        · have := this y hy; omega

/-- A priority queue kept as an unsorted list. -/
def listPQ : PQ where
  push q m := q ++ [m]
  pop := popMax
  inv _ := True
  inv_nil := trivial
  push_inv _ _ _ := trivial
  push_perm q m _ := by simp
  pop_nil := rfl
  pop_some q _ hne := by
    cases h : popMax q with
    | none => exact absurd (popMax_none h) hne
    | some p => exact ⟨p.1, p.2, rfl⟩
  pop_inv _ _ _ _ _ := trivial
  pop_perm _ _ _ _ h := popMax_perm h
  pop_max _ _ _ _ h := popMax_max h

/-- ASCII white space (also a rough `\s`). -/
def asciiSpace (c : Nat) : Bool := c = 0x20 || (9 ≤ c && c ≤ 13)

/-- ASCII punctuation in the Unicode category P. -/
def asciiPunct (c : Nat) : Bool :=
  (0x21 ≤ c && c ≤ 0x23) || (0x25 ≤ c && c ≤ 0x2A) || (0x2C ≤ c && c ≤ 0x2F) ||
  c = 0x3A || c = 0x3B || c = 0x3F || c = 0x40 || (0x5B ≤ c && c ≤ 0x5D) || c = 0x5F ||
  c = 0x7B || c = 0x7D

/-- Matches of a literal pattern, left to right without overlap (a regex engine for
patterns without metacharacters). -/
def literalMatches (pat : List Nat) : Nat → Nat → List Nat → List (Nat × Nat)
  | _, _, [] => []
  | 0, pos, s@(_ :: r) =>
    if pat.isPrefixOf s ∧ pat ≠ [] then
      (pos, pos + pat.length) :: literalMatches pat (pat.length - 1) (pos + 1) r
    else literalMatches pat 0 (pos + 1) r
  | k + 1, pos, _ :: r => literalMatches pat k (pos + 1) r

/-- A platform that knows ASCII only; `\s+` is recognised by the regex engine, every
other pattern is taken literally. -/
def ascii : Platform where
  iswspace := asciiSpace
  iswcntrl c := c < 0x20 || c = 0x7F
  towlower c := if 0x41 ≤ c ∧ c ≤ 0x5A then c + 32 else c
  isNSM c := 0x300 ≤ c && c ≤ 0x36F
  nf _ w := w
  wregex p := some fun w => (literalMatches p 0 0 w).map fun m => (m.1, m.2 - m.1)
  regex p := some fun u => literalMatches (fromUTF8 p) 0 0 u
  reSpace := asciiSpace
  rePunct := asciiPunct
  charSigned := true
  pq := listPQ
  dropout _ := { on := false, draw := fun _ => false }

end Tok
