import Verif.Proofs.Total
import Verif.Props.Utils
import Verif.Props.BPE
import Verif.Proofs.Encoding

set_option autoImplicit false

/-!
The rest of `encode` returns: `into_encoding`, truncation, post-processing, padding, the models.
-/

namespace Tok
open Spec

theorem GT.lookup {lens : List Nat} {ns : NS} (h : GT lens ns) {i : Nat} (hi : i < lens.length) :
    ∃ g o, ns.ranges[i]? = some g ∧ ns.offsets[g.1]? = some o := by
  obtain ⟨tail, ht⟩ := h.offsets
  obtain ⟨A, k, B, rfl, hl⟩ : ∃ A k B, lens = A ++ k :: B ∧ A.length = i :=
    ⟨lens.take i, lens[i], lens.drop (i + 1), by
      rw [← List.drop_eq_getElem_cons hi]; exact (List.take_append_drop i lens).symm, by simp; omega⟩
  obtain ⟨k', rfl⟩ : ∃ k', k = k' + 1 := ⟨k - 1, by have := h.pos k (by simp); omega⟩
  refine ⟨(A.sum, k' + 1), (A.length, A.length + 1), ?_, ?_⟩
  · rw [h.ranges, mkRanges_append, List.getElem?_append_right (by simp; omega)]
    simp [mkRanges, hl]
  · rw [ht, mkOffsets_append, List.append_assoc, List.getElem?_append_right (by simp)]
    simp [mkOffsets, List.replicate_succ]

theorem intoLoop_total {lens : List Nat} {ns : NS} (h : GT lens ns) : ∀ (l : List Split) (k : Nat),
    (∀ s ∈ l, s.offsets.1 < lens.length) → ∃ x, intoLoop ns none 0 k l = .ok x := by
  intro l
  induction l with
  | nil => intro k _; exact ⟨_, rfl⟩
  | cons s r ih =>
    intro k hs
    obtain ⟨x, hx⟩ := ih (k + 1) fun s hs' => hs s (by simp [hs'])
    obtain ⟨g, o, hg, ho⟩ := h.lookup (hs s (by simp))
    exact ⟨Enc.append ((s.tokens.map (tokenEnc o.1 ((none : Option Int).getD k) 0)).foldr Enc.append {}) x, by
      simp only [intoLoop, vecAt, hg, ho, res_ok_bind, hx, res_pure]⟩

/-- The converse of `encode_ok`. -/
theorem encode_of {P : Platform} {t : Tokenizer} {w : WStr} {b : Bool} {q : PTS} {x : Enc} {e : Encoding}
    (h1 : TokenizedInto P t w q) (h2 : intoLoop q.normalized none 0 0 q.splits = .ok x)
    (h3 : t.doPostProcess { toEnc := x, overflowing := [] } b = .ok e) : (t.encode P w b).1 = .ok e := by
  obtain ⟨p, hp, hq⟩ := h1
  have hst := preTokenized_state P t w
  unfold Tokenizer.encode
  generalize hR : t.preTokenized P w = R at hp hst
  obtain ⟨r, t1⟩ := R
  simp only at hp; subst hp
  simp only
  have hm : t1.model = t.model ∧ t1.truncation = t.truncation ∧ t1.postProcessor = t.postProcessor ∧ t1.padding = t.padding := by
    simp only at hst
    rcases hst with rfl | ⟨a, _, rfl⟩ <;> exact ⟨rfl, rfl, rfl, rfl⟩
  have hinto : intoEncoding q none 0 = .ok { toEnc := x, overflowing := [] } := by
    unfold intoEncoding; rw [h2]; rfl
  have hdo := doTokenize_state P t1 p
  have hres : (t1.doTokenize P p).1 = .ok { toEnc := x, overflowing := [] } := by
    unfold Tokenizer.doTokenize
    rw [hm.1]
    cases hmod : t.model with
    | none => rw [hmod] at hq; simp only at hq; subst hq; exact hinto
    | some m => rw [hmod] at hq; simp only at hq ⊢; rw [hq]; exact hinto
  generalize t1.doTokenize P p = D at hres hdo
  obtain ⟨r2, t2⟩ := D
  simp only at hres hdo; subst hres
  simp only
  rw [← h3, hdo]
  unfold Tokenizer.doPostProcess; simp only [hm.2.1, hm.2.2.1, hm.2.2.2]

theorem truncation_total {t : Truncation} {e : Encoding} {n : Nat} (ht : SafeTruncation t) (hal : Aligned e.toEnc n) :
    ∃ r, t.run e = .ok r := by
  by_cases h0 : t.maxLength = 0
  · by_cases he : e.ids = []
    · refine ⟨e, ?_⟩
      unfold Truncation.run truncate
      rw [if_pos h0, if_pos (by simp [he])]
    · exact ⟨_, C36_violated_zero t e h0 he⟩
  · by_cases hst : t.strategy = .onlySecond ∨ t.strategy = .unknown
    · exact ⟨_, C36_violated_strategy t e h0 hst⟩
    · have hst' : t.strategy = .longestFirst ∨ t.strategy = .onlyFirst := by
        cases hs : t.strategy <;> simp_all
      rcases ht with h | h | h | ⟨hs, h⟩
      · exact absurd h h0
      · exact absurd (.inl h) hst
      · exact absurd (.inr h) hst
      · by_cases hfit : t.maxLength < n
        · rcases h with ⟨hd, hlt⟩ | ⟨hd, hlt⟩
          · obtain ⟨r, _, h, _⟩ := C34_right_truncation t e n hd hst' hal hfit hs hlt
            exact ⟨r, h⟩
          · obtain ⟨r, _, h, _⟩ := C35_left_truncation_partial t e n hd hst' hal hfit hs hlt
            exact ⟨r, h⟩
        · have : e.ids.length = n := hal.1
          exact ⟨_, C36_fits_unchanged t e (by omega) (by omega)⟩

theorem good_aligned {q once : Prop} {text : List Row} {S : List SpecialToken} {pad : Option Padding} {x : Enc}
    (h : Good q once text S pad x) : ∃ n, Aligned x n := by
  obtain ⟨rows, h1, _⟩ := h
  exact ⟨_, hasRows_aligned h1⟩

theorem postProcessor_total {text : List Row} {S : List SpecialToken} {add : Bool} (p : PostProcessor)
    (hS : ∀ s ∈ specialsOf p, s.ids.length = s.tokens.length ∧ s ∈ S)
    {e : Encoding} (h : AllEnc (Good True False text S none) e) : ∃ e', p.run add e = .ok e' := by
  refine PostProcessor.rec
    (motive_1 := fun p => (∀ s ∈ specialsOf p, s.ids.length = s.tokens.length ∧ s ∈ S) →
      ∀ e : Encoding, AllEnc (Good True False text S none) e → ∃ e', p.run add e = .ok e')
    (motive_2 := fun l => (∀ s ∈ specialsOfList l, s.ids.length = s.tokens.length ∧ s ∈ S) →
      ∀ e : Encoding, AllEnc (Good True False text S none) e → ∃ e', PostProcessor.runList add l e = .ok e')
      ?_ ?_ ?_ ?_ ?_ p hS e h
  · intro s _ S0 _ e _; exact ⟨_, rfl⟩
  · intro a trim _ e h
    obtain ⟨n, hn⟩ := good_aligned h.1
    obtain ⟨r, hr, _⟩ := C41_only_narrows a trim add e n hn fun w hw => good_aligned (h.2 w hw)
    exact ⟨r, hr⟩
  · intro l ih hS e h; exact ih hS e h
  · intro _ e _; exact ⟨e, rfl⟩
  · intro p l ih1 ih2 hS e h
    have hS1 : ∀ s ∈ specialsOf p, s.ids.length = s.tokens.length ∧ s ∈ S := fun s hs => hS s (by simp [specialsOfList, hs])
    obtain ⟨e1, h1⟩ := ih1 hS1 e h
    obtain ⟨e2, h2⟩ := ih2 (fun s hs => hS s (by simp [specialsOfList, hs])) e1
      (good_postProcessor p hS1 (by simp) (by simp) h h1)
    exact ⟨e2, by simp only [PostProcessor.runList, h1, res_ok_bind, h2]⟩

theorem doPostProcess_total {t : Tokenizer} (ht : SafeEnd t) {text : List Row} {x : Enc} {ns : NS} {l : List Split}
    (h1 : TextRows ns 0 l text) (h2 : HasRows x text) (b : Bool) :
    ∃ e, t.doPostProcess { toEnc := x, overflowing := [] } b = .ok e := by
  have g0 : AllEnc (Good True False text (Specials t) none) ({ toEnc := x, overflowing := [] } : Encoding) :=
    ⟨text_good h1 h2 _ _ _, by simp⟩
  obtain ⟨e1, hr1, g1⟩ : ∃ e1, (match t.truncation with | some y => y.run { toEnc := x, overflowing := [] } | none => .ok { toEnc := x, overflowing := [] }) = .ok e1 ∧
      AllEnc (Good True False text (Specials t) none) e1 := by
    cases hT : t.truncation with
    | none => exact ⟨_, rfl, g0⟩
    | some tr =>
      obtain ⟨r, hr⟩ := truncation_total (e := { toEnc := x, overflowing := [] }) (ht.1 tr hT) (hasRows_aligned h2)
      exact ⟨r, hr, good_truncation g0 hr⟩
  obtain ⟨e2, hr2⟩ : ∃ e2, (match t.postProcessor with | some y => y.run b e1 | none => .ok e1) = .ok e2 := by
    cases hP : t.postProcessor with
    | none => exact ⟨_, rfl⟩
    | some p =>
      have hSp : Specials t = specialsOf p := by simp [Specials, hP]
      rw [hSp] at g1
      exact postProcessor_total p (fun s hs => ⟨ht.2.1 s (by rw [hSp]; exact hs), hs⟩) g1
  obtain ⟨e3, hr3⟩ : ∃ e3, (match t.padding with | some y => y.run e2 | none => .ok e2) = .ok e3 := by
    cases hp : t.padding with
    | none => exact ⟨_, rfl⟩
    | some p =>
      obtain ⟨_, r, hr, _⟩ := C37_C38_padding p e2 (ht.2.2 p hp)
      exact ⟨r, hr⟩
  refine ⟨e3, ?_⟩
  unfold Tokenizer.doPostProcess
  revert hr1 hr2 hr3
  cases t.truncation <;> cases t.postProcessor <;> cases t.padding <;> intro hr1 hr2 hr3 <;>
    simp only at hr1 hr2 hr3 ⊢ <;> simp only [hr1, res_ok_bind, hr2, hr3]

/-- If the model returns with splits that start where the pre-tokens did, `encode` returns. -/
theorem encode_total {P : Platform} {t : Tokenizer} {w : WStr} {b : Bool} {q : PTS} {lens : List Nat} (ht : SafeEnd t)
    (h1 : TokenizedInto P t w q) (h2 : GT lens q.normalized) (h3 : ∀ s ∈ q.splits, s.offsets.1 < lens.length) :
    ∃ e, (t.encode P w b).1 = .ok e := by
  obtain ⟨x, hx⟩ := intoLoop_total h2 q.splits 0 h3
  obtain ⟨text, ht1, ht2⟩ := intoLoop_rows _ _ _ _ hx
  obtain ⟨e, he⟩ := doPostProcess_total ht ht1 ht2 b
  exact ⟨e, encode_of h1 hx he⟩

end Tok
