import Verif.Proofs.BPETable

set_option autoImplicit false

/-!
Lemmas on the tokens of a BPE word: from the trace of `merge_all` to the specification of
merging, and from the merged word to tokens.
-/

namespace Tok
open Spec

/-- The merge table of a model, as the specification sees it. -/
def tableOf (merges : Merges) : Table := fun r a b n => mapFind merges (a, b) = some ((r : Int), n)

/-- All ranks of the table are natural numbers. -/
def NatRanks (merges : Merges) : Prop := ∀ k r n, mapFind merges k = some (r, n) → 0 ≤ r

theorem bare_append (A B : List Cell) : bare (A ++ B) = bare A ++ bare B := by simp [bare]

theorem bare_cons (x : Cell) (B : List Cell) : bare (x :: B) = (x.c, x.len) :: bare B := rfl

theorem merged_once {merges : Merges} {live live' : List Cell} {rank : Int} (hn : NatRanks merges)
    (h : Merged merges live live' rank) :
    0 ≤ rank ∧ MergeOnce (tableOf merges) rank.toNat (bare live) (bare live') := by
  obtain ⟨pos, newId, A, x, y, B, hm, rfl⟩ := h
  have h0 := hn _ _ _ hm.listed
  refine ⟨h0, ?_⟩
  have e := hm.eq
  subst e
  simp only [bare_append, bare_cons]
  refine MergeOnce.mk (a := (x.c, x.len)) (b := (y.c, y.len)) ?_
  simp only [tableOf]
  rw [hm.listed]
  congr 2; omega

theorem once_applicable {merges : Merges} {live : List Cell} {l' : List (Int × Nat)} {r : Nat}
    (h : MergeOnce (tableOf merges) r (bare live) l') : Applicable merges live r := by
  generalize he : bare live = l at h
  cases h with
  | mk ht =>
    simp only [bare, List.map_eq_append_iff, List.map_eq_cons_iff] at he
    obtain ⟨l₁, l₂, h1, h2, x, l₃, h3, h4, y, B, h5, h6, h7⟩ := he
    subst h1 h3 h5
    rename_i n
    refine ⟨x.pos, n, l₁, x, y, B, rfl, rfl, ?_⟩
    have h4a : x.c = _ := congrArg Prod.fst h4
    have h6a : y.c = _ := congrArg Prod.fst h6
    rw [h4a, h6a]; exact ht

theorem trace_many {merges : Merges} {d : Dropout} {a b : List Cell} (hn : NatRanks merges)
    (h : Trace merges d a b) : MergeMany (tableOf merges) (bare a) (bare b) := by
  induction h with
  | refl => exact .refl _
  | step h1 h2 _ ih => exact ih.step (merged_once hn h2).2

theorem trace_worst {merges : Merges} {d : Dropout} {a b : List Cell} (hn : NatRanks merges)
    (hoff : d.on = false) (hd : DistinctNew merges)
    (h : Trace merges d a b) : WorstFirst (tableOf merges) (bare a) (bare b) := by
  induction h with
  | refl => exact .refl _
  | step h1 h2 hg ih =>
    obtain ⟨h0, hm⟩ := merged_once hn h2
    refine ih.step hm ?_
    intro r c' hr
    have := hg hoff hd r (once_applicable hr)
    omega

theorem many_sum {T : Table} {a b : List (Int × Nat)} (h : MergeMany T a b) :
    (b.map (·.2)).sum = (a.map (·.2)).sum := by
  induction h with
  | refl => rfl
  | step _ h ih =>
    cases h with
    | mk => rw [← ih]; simp [Nat.add_assoc]

/-- Everything about the merged word. -/
theorem mergeWord_spec (P : Platform) (m : BPE) (s : Str) (hn : NatRanks m.merges)
    (hne : symList m true s none ≠ [])
    (hlen : s.length * (m.pre.length + m.suf.length + 1) < 2 ^ 31) :
    ∃ out l, m.mergeWord P s = .ok out ∧ out.map (fun s => (s.c, s.len)) = l ∧
      MergeMany (tableOf m.merges) (symList m true s none) l ∧ (∀ p ∈ l, 0 < p.2) ∧
      (m.dropout.on = false → Final (tableOf m.merges) l) ∧
      (m.dropout.on = false → DistinctNew m.merges → WorstFirst (tableOf m.merges) (symList m true s none) l) := by
  obtain ⟨h1, h2⟩ := symList_spec m s true none (goodPend_none m)
  obtain ⟨out, live, g1, g2, g3, g4, g5⟩ := mergeAll_spec P m.merges m.dropout (symList m true s none) hne
    (fun p hp => (h1 p hp).1) (by simp only [pend, Option.toList, List.length_nil] at h2; omega)
  refine ⟨out, bare live, ?_, g2, ?_, ?_, ?_, ?_⟩
  · rw [BPE.mergeWord, symbols_chain, g1]
  · have := trace_many hn g3; rw [bare_cells] at this; exact this
  · intro p hp
    simp only [bare, List.mem_map] at hp
    obtain ⟨x, hx, rfl⟩ := hp
    exact g4 x hx
  · intro hoff r l' hl
    exact g5 hoff _ (once_applicable hl)
  · intro hoff hd
    have := trace_worst hn hoff hd g3; rw [bare_cells] at this; exact this

theorem wordToTokens_spec (m : BPE) (out : List Symbol) : ∀ (pos : Nat),
    (∀ s ∈ out, ∃ v, mapFind (vocabR m.vocab) s.c = some v) →
    ∃ ts, m.wordToTokens pos out = .ok ts ∧ piecesOf ts = out.map (fun s => (s.c, s.len)) ∧
      Tiles pos (ts.map (·.offsets)) (pos + (out.map (·.len)).sum) ∧
      ∀ t ∈ ts, mapFind (vocabR m.vocab) t.id = some t.value := by
  induction out with
  | nil => intro pos _; exact ⟨[], rfl, rfl, by simp [Tiles], by simp⟩
  | cons s r ih =>
    intro pos h
    obtain ⟨v, hv⟩ := h s (by simp)
    obtain ⟨ts, h1, h2, h3, h4⟩ := ih (pos + s.len) (fun x hx => h x (by simp [hx]))
    refine ⟨{ id := s.c, value := v, offsets := (pos, pos + s.len) } :: ts, ?_, ?_, ?_, ?_⟩
    · simp only [BPE.wordToTokens, hv, h1]; rfl
    · simp only [piecesOf, List.map_cons, List.cons.injEq]
      exact ⟨by simp, h2⟩
    · simp only [List.map_cons, Tiles, List.sum_cons, true_and]
      refine ⟨by omega, ?_⟩
      rw [← Nat.add_assoc]; exact h3
    · intro t ht
      simp only [List.mem_cons] at ht
      rcases ht with rfl | ht
      · exact hv
      · exact h4 t ht

/-- The tokens of a word are known entries, whatever the merged word. -/
theorem wordToTokens_values (m : BPE) (out : List Symbol) : ∀ (pos : Nat) (ts : List Token),
    m.wordToTokens pos out = .ok ts → ∀ t ∈ ts, mapFind (vocabR m.vocab) t.id = some t.value := by
  induction out with
  | nil => intro pos ts h; cases h; simp
  | cons s r ih =>
    intro pos ts h
    simp only [BPE.wordToTokens] at h
    split at h
    · cases h
    · rename_i v hv
      obtain ⟨rest, h1, h2⟩ := res_bind_ok.1 h
      cases h2
      intro t ht
      simp only [List.mem_cons] at ht
      rcases ht with rfl | ht
      · exact hv
      · exact ih _ _ h1 t ht

/-- Ids of the merged word are ids of the vocabulary. -/
theorem many_known {T : Table} {V : Str → Option Int} (hT : ∀ r a b n, T r a b n → ∃ k, V k = some n)
    {a b : List (Int × Nat)} (h : MergeMany T a b) (ha : ∀ p ∈ a, ∃ k, V k = some p.1) :
    ∀ p ∈ b, ∃ k, V k = some p.1 := by
  induction h with
  | refl => exact ha
  | step _ h ih =>
    cases h with
    | mk ht =>
      rename_i A B x y n
      intro p hp
      simp only [List.mem_append, List.mem_cons] at hp ih
      rcases hp with hp | rfl | hp
      · exact ih p (.inl hp)
      · exact hT _ _ _ _ ht
      · exact ih p (.inr (.inr (.inr hp)))

/-- The new ids of the table are ids of the vocabulary. -/
def KnownNew (m : BPE) : Prop := NatRanks m.merges ∧
  ∀ k r n, mapFind m.merges k = some (r, n) → ∃ t, mapFind m.vocab t = some n

/-- Everything about the tokens of a word that is not served by `ignore_merges` or the
cache. -/
theorem freshTokens_spec (P : Platform) (m : BPE) (s : Str) (hk : KnownNew m)
    (hne : symList m true s none ≠ [])
    (hlen : s.length * (m.pre.length + m.suf.length + 1) < 2 ^ 31) :
    ∃ out ts, m.mergeWord P s = .ok out ∧ m.wordToTokens 0 out = .ok ts ∧
      MergeMany (tableOf m.merges) (symList m true s none) (piecesOf ts) ∧
      Tiles 0 (ts.map (·.offsets)) ((symList m true s none).map (·.2)).sum ∧
      (∀ t ∈ ts, t.offsets.1 < t.offsets.2) ∧
      (∀ t ∈ ts, mapFind (vocabR m.vocab) t.id = some t.value) ∧
      (m.dropout.on = false → Final (tableOf m.merges) (piecesOf ts)) ∧
      (m.dropout.on = false → DistinctNew m.merges →
        WorstFirst (tableOf m.merges) (symList m true s none) (piecesOf ts)) := by
  obtain ⟨out, l, h1, h2, h3, h4, h5, h6⟩ := mergeWord_spec P m s hk.1 hne hlen
  have hin : ∀ p ∈ l, ∃ k, tokenToId m.vocab k = some p.1 :=
    many_known (V := tokenToId m.vocab) (fun r a b n ht => hk.2 _ _ _ ht) h3
      (fun p hp => ((symList_spec m s true none (goodPend_none m)).1 p hp).2)
  obtain ⟨ts, g1, g2, g3, g4⟩ := wordToTokens_spec m out 0 (by
    intro x hx
    obtain ⟨k, hk'⟩ := hin (x.c, x.len) (by rw [← h2]; exact List.mem_map.2 ⟨x, hx, rfl⟩)
    exact vocabR_isSome (mapFind_mem hk'))
  rw [h2] at g2
  refine ⟨out, ts, h1, g1, by rw [g2]; exact h3, ?_, ?_, g4, by rw [g2]; exact h5, by rw [g2]; exact h6⟩
  · have hs := many_sum h3
    rw [← h2, List.map_map] at hs
    have : (out.map (·.len)).sum = ((symList m true s none).map (·.2)).sum := hs
    rw [this, Nat.zero_add] at g3; exact g3
  · intro t ht
    have := h4 (t.id, t.offsets.2 - t.offsets.1) (by rw [← g2]; exact List.mem_map.2 ⟨t, ht, rfl⟩)
    simp only at this; omega

end Tok
