import Verif.Proofs.ByteLevel
import Verif.WordPiece

set_option autoImplicit false

/-!
Lemmas on association lists, the model of `std::unordered_map`.
-/

namespace Tok

variable {κ ν : Type} [DecidableEq κ]

theorem mapFind_set (m : List (κ × ν)) (k k' : κ) (v : ν) :
    mapFind (mapSet m k v) k' = if k = k' then some v else mapFind m k' := by
  induction m with
  | nil => simp [mapSet, mapFind]
  | cons p r ih =>
    simp only [mapSet]
    split
    · rename_i h; subst h; simp only [mapFind]; split <;> rfl
    · rename_i h
      simp only [mapFind, ih]
      split
      · rename_i h'; subst h'; rw [if_neg (Ne.symm h)]
      · rfl

theorem mapFind_append (m m' : List (κ × ν)) (k : κ) :
    mapFind (m ++ m') k = (mapFind m k).or (mapFind m' k) := by
  induction m with
  | nil => simp [mapFind]
  | cons p r ih => simp only [List.cons_append, mapFind, ih]; split <;> simp

theorem mapFind_isSome_iff (m : List (κ × ν)) (k : κ) :
    (mapFind m k).isSome ↔ ∃ p ∈ m, p.1 = k := by
  induction m with
  | nil => simp [mapFind]
  | cons p r ih =>
    simp only [mapFind]
    split
    · rename_i h; simp [h]
    · rename_i h; simp [ih, h]

/-- With distinct keys, a map finds exactly its entries. -/
theorem mapFind_iff_mem {m : List (κ × ν)} (h : (m.map (·.1)).Nodup) (k : κ) (v : ν) :
    mapFind m k = some v ↔ (k, v) ∈ m := by
  refine ⟨mapFind_mem, ?_⟩
  induction m with
  | nil => simp
  | cons p r ih =>
    intro hm
    simp only [List.map_cons, List.nodup_cons] at h
    simp only [mapFind]
    simp at hm
    rcases hm with rfl | hm
    · simp
    · rw [if_neg, ih h.2 hm]
      intro e; subst e
      exact h.1 (List.mem_map.2 ⟨_, hm, rfl⟩)

theorem foldl_set_find (l : List (Str × Int)) : ∀ (m : List (Int × Str)) (i : Int),
    mapFind (l.foldl (fun m p => mapSet m p.2 p.1) m) i =
      ((l.reverse.find? fun p => p.2 = i).map (·.1)).or (mapFind m i) := by
  induction l with
  | nil => intro m i; simp
  | cons p r ih =>
    intro m i
    simp only [List.foldl_cons, ih, mapFind_set, List.reverse_cons, List.find?_append]
    by_cases h : p.2 = i
    · simp only [h, List.find?_cons]
      cases r.reverse.find? (fun p => p.2 = i) <;> simp
    · simp only [h, List.find?_cons]
      cases r.reverse.find? (fun p => p.2 = i) <;> simp

theorem vocabR_some {v : Vocab} {i : Int} {k : Str} (h : mapFind (vocabR v) i = some k) : (k, i) ∈ v := by
  rw [vocabR, foldl_set_find] at h
  simp only [mapFind, Option.or_none, Option.map_eq_some_iff] at h
  obtain ⟨p, hp, rfl⟩ := h
  have h1 := List.find?_some hp
  have h2 := List.mem_of_find?_eq_some hp
  simp at h1 h2; subst h1; exact h2

theorem vocabR_isSome {v : Vocab} {i : Int} {k : Str} (h : (k, i) ∈ v) : ∃ k', mapFind (vocabR v) i = some k' := by
  rw [vocabR, foldl_set_find]
  cases hf : v.reverse.find? (fun p => p.2 = i) with
  | some p => exact ⟨p.1, by simp⟩
  | none =>
    have := List.find?_eq_none.1 hf (k, i) (by simpa using h)
    simp at this

end Tok
