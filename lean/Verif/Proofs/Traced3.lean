import Verif.Proofs.Traced2
import Verif.Proofs.Total2
import Verif.Props.Bert

set_option autoImplicit false

namespace Tok
open Spec

/-! ### Stretches of the normalized text -/

/-- A character becomes one character, or one between spaces. -/
def Simple (g : Nat → WStr) (c : Nat) : Prop := (∃ x, g c = [x]) ∨ ∃ x, g c = [0x20, x, 0x20]

theorem traced_prefix {g : Nat → WStr} {i : Nat} {w w' : WStr} {pos : List Nat} (h : Traced g i w w' pos) :
    (∀ c ∈ w, Simple g c) → ∀ (v y : WStr), w' = v ++ y → (∀ c ∈ v, c ≠ 0x20) ∨ (∀ c ∈ w, ∃ x, g c = [x]) →
    ∃ u r, w = u ++ r ∧ MadeFrom g u v ∧ (v ≠ [] → pos[0]? = some i) := by
  induction h with
  | nil i =>
    intro _ v y he _
    simp at he
    obtain ⟨rfl, rfl⟩ := he
    exact ⟨[], [], rfl, .nil, by simp⟩
  | @kept i c w w' pos _ ih =>
    intro hs v y he hv
    cases v with
    | nil => exact ⟨[], c :: w, rfl, .nil, by simp⟩
    | cons d v =>
      simp only [List.cons_append, List.cons.injEq] at he
      obtain ⟨rfl, he⟩ := he
      obtain ⟨u, r, rfl, h1, _⟩ := ih (fun c hc => hs c (by simp [hc])) v y he
        (hv.imp (fun h d hd => h d (by simp [hd])) fun h d hd => h d (by simp [hd]))
      exact ⟨c :: u, r, rfl, .cons (.inl rfl) h1, by simp⟩
  | @changed i c w w' pos _ ih =>
    intro hs v y he hv
    have one : ∀ x, g c = [x] → ∃ u r, c :: w = u ++ r ∧ MadeFrom g u v ∧
        (v ≠ [] → ((g c).map (fun _ => i) ++ pos)[0]? = some i) := by
      intro x hx
      cases v with
      | nil => exact ⟨[], c :: w, rfl, .nil, by simp⟩
      | cons d v =>
        rw [hx] at he
        simp only [List.cons_append, List.nil_append, List.cons.injEq] at he
        obtain ⟨rfl, he⟩ := he
        obtain ⟨u, r, rfl, h1, _⟩ := ih (fun c hc => hs c (by simp [hc])) v y he
          (hv.imp (fun h d hd => h d (by simp [hd])) fun h d hd => h d (by simp [hd]))
        exact ⟨c :: u, r, rfl, .cons (.inr (by simp [hx])) h1, by simp [hx]⟩
    rcases hs c (by simp) with ⟨x, hx⟩ | ⟨x, hx⟩
    · exact one x hx
    · rcases hv with hv | hv
      · cases v with
        | nil => exact ⟨[], c :: w, rfl, .nil, by simp⟩
        | cons d v =>
          rw [hx] at he
          simp only [List.cons_append, List.nil_append, List.cons.injEq] at he
          exact absurd he.1.symm (hv d (by simp))
      · obtain ⟨x, hx⟩ := hv c (by simp)
        exact one x hx

theorem traced_stretch {g : Nat → WStr} {i : Nat} {w w' : WStr} {pos : List Nat} (h : Traced g i w w' pos) :
    (∀ c ∈ w, Simple g c) → ∀ (x v y : WStr), w' = x ++ (v ++ y) → v ≠ [] → (∀ c ∈ v, c ≠ 0x20) ∨ (∀ c ∈ w, ∃ x, g c = [x]) →
    ∃ l u r, w = l ++ (u ++ r) ∧ MadeFrom g u v ∧ pos[x.length]? = some (i + l.length) := by
  have start : ∀ {i : Nat} {w w' : WStr} {pos : List Nat}, Traced g i w w' pos → (∀ c ∈ w, Simple g c) → ∀ (v y : WStr),
      w' = v ++ y → v ≠ [] → (∀ c ∈ v, c ≠ 0x20) ∨ (∀ c ∈ w, ∃ x, g c = [x]) →
      ∃ l u r, w = l ++ (u ++ r) ∧ MadeFrom g u v ∧ pos[([] : WStr).length]? = some (i + l.length) := by
    intro i w w' pos h hs v y he hv0 hv
    obtain ⟨u, r, h1, h2, h3⟩ := traced_prefix h hs v y he hv
    exact ⟨[], u, r, h1, h2, by simpa using h3 hv0⟩
  induction h with
  | nil i =>
    intro _ x v y he hv0
    simp at he
    exact absurd he.2.1 hv0
  | @kept i c w w' pos h' ih =>
    intro hs x v y he hv0 hv
    cases x with
    | nil => exact start (.kept h') hs v y (by simpa using he) hv0 hv
    | cons d x =>
      simp only [List.cons_append, List.cons.injEq] at he
      obtain ⟨l, u, r, h1, h2, h3⟩ := ih (fun c hc => hs c (by simp [hc])) x v y he.2 hv0
        (hv.imp id fun h d hd => h d (by simp [hd]))
      exact ⟨c :: l, u, r, by simp [h1], h2, by simp [h3]; omega⟩
  | @changed i c w w' pos h' ih =>
    intro hs x v y he hv0 hv
    cases x with
    | nil => exact start (.changed h') hs v y (by simpa using he) hv0 hv
    | cons d x =>
      have hs' : ∀ c ∈ w, Simple g c := fun c hc => hs c (by simp [hc])
      have hv' : (∀ c ∈ v, c ≠ 0x20) ∨ (∀ c ∈ w, ∃ x, g c = [x]) := hv.imp id fun h d hd => h d (by simp [hd])
      have one : ∀ z, g c = [z] → ∃ l u r, c :: w = l ++ (u ++ r) ∧ MadeFrom g u v ∧
          ((g c).map (fun _ => i) ++ pos)[(d :: x).length]? = some (i + l.length) := by
        intro z hz
        rw [hz] at he
        simp only [List.cons_append, List.nil_append, List.cons.injEq] at he
        obtain ⟨l, u, r, h1, h2, h3⟩ := ih hs' x v y he.2 hv0 hv'
        exact ⟨c :: l, u, r, by simp [h1], h2, by simp [hz, h3]; omega⟩
      rcases hs c (by simp) with ⟨z, hz⟩ | ⟨z, hz⟩
      · exact one z hz
      · rcases hv with hvs | hvs
        · rw [hz] at he
          cases x with
          | nil =>
            obtain ⟨e, v, rfl⟩ : ∃ e v2, v = e :: v2 := by cases v with | nil => exact absurd rfl hv0 | cons e v2 => exact ⟨e, v2, rfl⟩
            simp only [List.cons_append, List.nil_append, List.cons.injEq] at he
            obtain ⟨rfl, rfl, he⟩ := he
            cases v with
            | nil => exact ⟨[], [c], w, rfl, .cons (.inr (by simp [hz])) .nil, by simp [hz]⟩
            | cons e2 v2 =>
              simp only [List.cons_append, List.cons.injEq] at he
              exact absurd he.1.symm (hvs e2 (by simp))
          | cons d2 x =>
            cases x with
            | nil =>
              obtain ⟨e, v, rfl⟩ : ∃ e v2, v = e :: v2 := by cases v with | nil => exact absurd rfl hv0 | cons e v2 => exact ⟨e, v2, rfl⟩
              simp only [List.cons_append, List.nil_append, List.cons.injEq] at he
              exact absurd he.2.2.1.symm (hvs e (by simp))
            | cons d3 x =>
              simp only [List.cons_append, List.nil_append, List.cons.injEq] at he
              obtain ⟨l, u, r, h1, h2, h3⟩ := ih hs' x v y he.2.2.2 hv0 hv'
              exact ⟨c :: l, u, r, by simp [h1], h2, by simp [hz, h3]; omega⟩
        · obtain ⟨z, hz⟩ := hvs c (by simp)
          exact one z hz

theorem madeFrom_split {g : Nat → WStr} {u : WStr} : ∀ {a b : WStr}, MadeFrom g u (a ++ b) →
    ∃ u1 u2, u = u1 ++ u2 ∧ MadeFrom g u1 a ∧ MadeFrom g u2 b := by
  intro a
  induction a generalizing u with
  | nil => intro b h; exact ⟨[], u, rfl, .nil, h⟩
  | cons x a ih =>
    intro b h
    cases h with
    | @cons c _ u' _ h1 h2 =>
      obtain ⟨u1, u2, rfl, g1, g2⟩ := ih h2
      exact ⟨c :: u1, u2, rfl, .cons h1 g1, g2⟩

theorem madeFrom_length {g : Nat → WStr} {u v : WStr} (h : MadeFrom g u v) : u.length = v.length := by
  induction h with
  | nil => rfl
  | cons _ _ ih => simp [ih]

/-! ### The table leads back -/

theorem Tbl.lookup {es : List (Nat × Nat)} {ns : NS} (h : Tbl es ns) {i : Nat} (hi : i < es.length) :
    ∃ g, ns.ranges[i]? = some g ∧ ns.offsets[g.1]? = some (es[i].2, es[i].2 + 1) := by
  obtain ⟨tail, ht⟩ := h.offsets
  obtain ⟨A, e, B, hes, hl⟩ : ∃ A e B, es = A ++ e :: B ∧ A.length = i :=
    ⟨es.take i, es[i], es.drop (i + 1), by
      rw [← List.drop_eq_getElem_cons hi]; exact (List.take_append_drop i es).symm, by simp; omega⟩
  obtain ⟨k, o⟩ := e
  have hk : 0 < k := h.pos (k, o) (by rw [hes]; simp)
  obtain ⟨k', rfl⟩ : ∃ k', k = k' + 1 := ⟨k - 1, by omega⟩
  have hei : es[i] = (k' + 1, o) := by
    have : es[i]? = some (k' + 1, o) := by rw [hes, ← hl]; simp
    rw [List.getElem?_eq_getElem hi] at this
    exact Option.some.inj this
  rw [hei]
  refine ⟨((A.map (·.1)).sum, k' + 1), ?_, ?_⟩
  · rw [h.ranges, hes, List.map_append, mkRanges_append, List.getElem?_append_right (by simp; omega)]
    simp [mkRanges, hl]
  · rw [ht, hes, tblOffs_append, List.append_assoc, List.getElem?_append_right (by simp)]
    simp [tblOffs, List.replicate_succ]

theorem intoLoop_tbl {es : List (Nat × Nat)} {ns : NS} (h : Tbl es ns) : ∀ (l : List Split) (k : Nat),
    (∀ s ∈ l, s.offsets.1 < es.length) → ∃ x, intoLoop ns none 0 k l = .ok x := by
  intro l
  induction l with
  | nil => intro k _; exact ⟨_, rfl⟩
  | cons s r ih =>
    intro k hs
    obtain ⟨x, hx⟩ := ih (k + 1) fun s hs' => hs s (by simp [hs'])
    have hi := hs s (by simp)
    obtain ⟨g, hg, ho⟩ := h.lookup hi
    exact ⟨Enc.append ((s.tokens.map (tokenEnc es[s.offsets.1].2 ((none : Option Int).getD k) 0)).foldr Enc.append {}) x, by
      simp only [intoLoop, vecAt, hg, ho, res_ok_bind, hx, res_pure]⟩

theorem encode_total_tbl {P : Platform} {t : Tokenizer} {w : WStr} {b : Bool} {q : PTS} {es : List (Nat × Nat)} (ht : SafeEnd t)
    (h1 : TokenizedInto P t w q) (h2 : Tbl es q.normalized) (h3 : ∀ s ∈ q.splits, s.offsets.1 < es.length) :
    ∃ e, (t.encode P w b).1 = .ok e := by
  obtain ⟨x, hx⟩ := intoLoop_tbl h2 q.splits 0 h3
  obtain ⟨text, ht1, ht2⟩ := intoLoop_rows _ _ _ _ hx
  obtain ⟨e, he⟩ := doPostProcess_total ht ht1 ht2 b
  exact ⟨e, encode_of h1 hx he⟩

theorem textRows_tbl {es : List (Nat × Nat)} {ns : NS} (hp : Tbl es ns) {k : Nat} {l : List Split} {rows : List Row}
    (h : TextRows ns k l rows) : ∀ r ∈ rows, ∃ s ∈ l, ∃ tk ∈ s.tokens, r.token = tk.value ∧ r.id = tk.id ∧
      ∃ o, (es.map (·.2))[s.offsets.1]? = some o ∧
        r.offsets = (((o + tk.offsets.1 : Nat) : Int), ((o + tk.offsets.2 : Nat) : Int)) := by
  induction h with
  | nil => simp
  | @cons k s l rows g o h1 h2 _ ih =>
    intro r hr
    simp only [List.mem_append, List.mem_map] at hr
    rcases hr with ⟨tk, ht, rfl⟩ | hr
    · have hi : s.offsets.1 < es.length := by
        have := (List.getElem?_eq_some_iff.1 h1).1
        rw [hp.ranges] at this
        simpa using this
      obtain ⟨g', hg', ho'⟩ := hp.lookup hi
      rw [h1] at hg'; cases hg'
      rw [h2] at ho'; cases ho'
      exact ⟨s, by simp, tk, ht, rfl, rfl, es[s.offsets.1].2, by simp [hi], by simp [textRow]⟩
    · obtain ⟨s', hs, rest⟩ := ih r hr
      exact ⟨s', by simp [hs], rest⟩

/-! ### Pre-tokenization of a normalized text -/

theorem img_bert (P : Platform) (clean cjk lower : Bool) (w : WStr) :
    img (bertG P clean cjk lower) w = w.flatMap (bertChar P clean cjk lower) := by
  unfold img
  congr 1
  funext c
  exact bertG_fst P clean cjk lower c

theorem bert_simple {P : Platform} {clean cjk lower : Bool} (h : lower = true → P.towlower 0x20 = 0x20) (c : Nat) :
    Simple (bertChar P clean cjk lower) c := by
  have hl : (if lower = true then P.towlower 0x20 else 0x20) = 0x20 := by
    split
    · exact h (by assumption)
    · rfl
  unfold Simple bertChar
  simp only [hl]
  generalize (if clean = true ∧ (c = 9 ∨ c = 10 ∨ c = 13 ∨ P.iswspace c = true) then 0x20 else c) = c1
  split
  · exact .inr ⟨_, rfl⟩
  · exact .inl ⟨_, rfl⟩

theorem ofNS_text {w : WStr} (h : Scalars w) : PTS.ofNS (NS.ofText w) =
    .ok { normalized := NS.ofText w, splits := [{ normalized := utf8 w, offsets := (0, w.length) }] } := by
  unfold PTS.ofNS
  simp only [show (NS.ofText w).normalized = w from rfl, convertToString_scalars h, res_ok_bind, res_pure]

/-- What pre-tokenization starts from. -/
theorem preTokenized_bert (P : Platform) {t : Tokenizer} {a : AddedVocab} {w : WStr} {clean cjk strip lower : Bool}
    (ha : t.added = some a) (hn : t.normalizer = some (.bert clean cjk strip lower))
    (hw : BertText P clean cjk strip lower a w) :
    ∃ p0 w' es, (t.preTokenized P w).1 = (match t.preTokenizer with | none => .ok p0 | some pt => pt.run P p0) ∧
      Traced (bertChar P clean cjk lower) 0 w w' (es.map (·.2)) ∧ es.length = w'.length ∧ Tbl es p0.normalized ∧
      Placed w' 0 p0.splits ∧ (∀ s ∈ p0.splits, s.normalized ≠ []) ∧
      (∀ s ∈ p0.splits, s.tokens = [] ∨ IsToken a (a.nonNormTrie ++ a.normTrie) s) ∧
      Bmp w' ∧ ∀ c ∈ w', c ∈ w ++ w.flatMap (bertChar P clean cjk lower) := by
  have hb := hw.before.1
  obtain ⟨p0, w', es, h1, h2, h3, h4, h5, h6, _⟩ := extract_traced P (bert_acts P clean cjk strip lower hb hw.undropped) hw.before
    (by rw [img_bert]; exact hw.after) hw.ne hw.ascii hw.filled
  have hmem : ∀ c ∈ w', c ∈ w ++ w.flatMap (bertChar P clean cjk lower) := by
    have := h2.mem; rw [img_bert] at this; exact this
  refine ⟨p0, w', es, ?_, ?_, h2.length, h3, h4, h5, h6, ?_, hmem⟩
  · unfold Tokenizer.preTokenized
    rw [ofNS_text (bmp_scalars hb)]
    simp only [ha, hn, h1, res_ok_bind]
    rfl
  · have := h2.traced
    have e : (fun c => (bertG P clean cjk lower c).map (·.1)) = bertChar P clean cjk lower := by
      funext c; exact bertG_fst P clean cjk lower c
    rw [e] at this; exact this
  · intro c hc
    rcases List.mem_append.1 (hmem c hc) with h | h
    · exact hb c h
    · exact hw.after.1 c h

end Tok
