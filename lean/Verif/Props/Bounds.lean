import Verif.Props.Count
import Verif.Props.Throws
import Verif.Props.Rows
import Verif.Spec.Bounds

set_option autoImplicit false

/-!
C133: offsets are ranges, and not far behind the end of the text.
-/

namespace Tok
open Spec

/-! ### Runs of equal entries -/

/-- The number of runs of equal elements. -/
def runsIn {α : Type} [DecidableEq α] : List α → Nat
  | [] => 0
  | a :: l => (if l.head? = some a then 0 else 1) + runsIn l

section
variable {α : Type} [DecidableEq α]

theorem bd_congr (A : List α) {l l' : List α} (h : l.head? = l'.head?) (hr : runsIn l ≤ runsIn l') : runsIn (A ++ l) ≤ runsIn (A ++ l') := by
  induction A with
  | nil => exact hr
  | cons a A ih =>
    have e : (A ++ l).head? = (A ++ l').head? := by
      cases A with
      | nil => exact h
      | cons => rfl
    simp only [List.cons_append, runsIn, e]
    omega

theorem bd_copies (o : α) (n : Nat) (B : List α) : runsIn (List.replicate n o ++ o :: B) ≤ runsIn (o :: B) := by
  induction n with
  | zero => exact Nat.le_refl _
  | succ n ih =>
    have : (List.replicate n o ++ o :: B).head? = some o := by cases n <;> rfl
    rw [List.replicate_succ, List.cons_append, runsIn, if_pos this]
    omega

theorem bd_insert (A B : List α) (o : α) (n : Nat) : runsIn (A ++ (List.replicate n o ++ o :: B)) ≤ runsIn (A ++ o :: B) :=
  bd_congr A (by cases n <;> rfl) (bd_copies o n B)

theorem bd_drop (a b : α) (l : List α) : runsIn (a :: l) ≤ runsIn (a :: b :: l) := by
  simp only [runsIn, List.head?_cons, Option.some.injEq]
  split <;> split <;> split <;> first | omega | skip
  rename_i h1 h2 h3
  subst h2
  exact absurd h3 h1

theorem bd_cons2 (y x : α) (l : List α) : runsIn (y :: x :: l) = (if x = y then 0 else 1) + runsIn (x :: l) := by
  rw [runsIn]
  by_cases e : x = y
  · rw [if_pos e, if_pos (by simp [e])]
  · rw [if_neg e, if_neg (by simp [e])]

theorem bd_sublist_cons {l l' : List α} (h : l'.Sublist l) : ∀ y : α, runsIn (y :: l') ≤ runsIn (y :: l) := by
  induction h with
  | slnil => intro y; exact Nat.le_refl _
  | cons x _ ih => intro y; exact Nat.le_trans (ih y) (bd_drop y x _)
  | cons_cons x _ ih =>
    intro y
    have := ih x
    rw [bd_cons2, bd_cons2]
    omega

theorem bd_sublist {l l' : List α} (h : l'.Sublist l) : runsIn l' ≤ runsIn l := by
  induction h with
  | slnil => exact Nat.le_refl _
  | cons x _ ih => exact Nat.le_trans ih (by simp only [runsIn]; omega)
  | cons_cons x h _ => exact bd_sublist_cons h x

theorem bd_append (A B : List α) : runsIn (A ++ B) ≤ runsIn A + runsIn B := by
  induction A with
  | nil => simp [runsIn]
  | cons a A ih =>
    cases A with
    | nil => simp only [List.cons_append, List.nil_append, runsIn, List.head?_nil]; split <;> simp
    | cons b A => simp only [List.cons_append, bd_cons2] at ih ⊢; omega

theorem bd_replicate (n : Nat) (o : α) : runsIn (List.replicate n o) ≤ 1 := by
  induction n with
  | zero => simp [runsIn]
  | succ n ih =>
    rw [List.replicate_succ, runsIn]
    cases n with
    | zero => simp [runsIn]
    | succ n => rw [if_pos (by rw [List.replicate_succ]; rfl)]; omega

end

/-! ### The table of positions -/

/-- The entries of the table are ranges up to `n`. -/
def Within (n : Nat) (s : NS) : Prop := ∀ o ∈ s.offsets, o.1 ≤ o.2 ∧ o.2 ≤ n

/-- The table has no new entries and no more runs. -/
def Thinned (s s' : NS) : Prop := (∀ o ∈ s'.offsets, o ∈ s.offsets) ∧ runsIn s'.offsets ≤ runsIn s.offsets

theorem Thinned.refl (s : NS) : Thinned s s := ⟨fun _ h => h, Nat.le_refl _⟩
theorem Thinned.trans {a b c : NS} (h : Thinned a b) (h' : Thinned b c) : Thinned a c :=
  ⟨fun o ho => h.1 o (h'.1 o ho), Nat.le_trans h'.2 h.2⟩
theorem Thinned.within {s s' : NS} (h : Thinned s s') {n : Nat} (hw : Within n s) : Within n s' := fun o ho => hw o (h.1 o ho)

theorem bd_erase {α : Type} [DecidableEq α] {l l' : List α} {a b : Nat} (h : eraseRange l a b = .ok l') :
    (∀ o ∈ l', o ∈ l) ∧ runsIn l' ≤ runsIn l := by
  unfold eraseRange at h
  split at h
  · rename_i hab
    cases h
    have : (l.take a ++ l.drop b).Sublist l := by
      have h1 : (l.drop b).Sublist (l.drop a) := by
        have : l.drop b = (l.drop a).drop (b - a) := by rw [List.drop_drop]; congr 1; omega
        rw [this]; exact List.drop_sublist _ _
      have := (List.Sublist.refl (l.take a)).append h1
      rwa [List.take_append_drop] at this
    exact ⟨fun o ho => this.subset ho, bd_sublist this⟩
  · cases h

theorem bd_insertAt {α : Type} [DecidableEq α] {l l' : List α} {a n : Nat} {o : α} (ho : vecAt l a = .ok o)
    (h : insertAt l a (List.replicate n o) = .ok l') : (∀ x ∈ l', x ∈ l) ∧ runsIn l' ≤ runsIn l := by
  have hv := vecAt_ok ho
  unfold insertAt at h
  split at h
  · cases h
    have hd : l.drop a = o :: l.drop (a + 1) := by
      obtain ⟨hlt, e⟩ := List.getElem?_eq_some_iff.1 hv
      rw [List.drop_eq_getElem_cons hlt, e]
    have e : l = l.take a ++ o :: l.drop (a + 1) := by rw [← hd, List.take_append_drop]
    constructor
    · intro x hx
      simp only [List.mem_append, List.mem_replicate] at hx
      rcases hx with (hx | ⟨-, rfl⟩) | hx
      · exact List.mem_of_mem_take hx
      · exact List.mem_of_getElem? hv
      · exact List.mem_of_mem_drop hx
    · rw [hd, List.append_assoc]
      refine Nat.le_trans (bd_insert _ _ _ _) ?_
      rw [← e]; exact Nat.le_refl _
  · cases h

theorem bd_transform {s s' : NS} {i n : Nat} {op : TOp} (h : s.transform i op n = .ok s') : Thinned s s' := by
  unfold NS.transform at h
  obtain ⟨⟨start, limit⟩, -, h⟩ := res_bind_ok.1 h
  cases op with
  | erase =>
    obtain ⟨o, h1, h⟩ := res_bind_ok.1 h
    obtain ⟨r, -, h⟩ := res_bind_ok.1 h
    cases h
    exact bd_erase h1
  | pad =>
    obtain ⟨o, h1, h⟩ := res_bind_ok.1 h
    obtain ⟨l, h2, h⟩ := res_bind_ok.1 h
    cases h
    exact bd_insertAt (n := 2) h1 h2
  | grow => cases h; exact .refl _
  | shrink => cases h; exact .refl _
  | add =>
    obtain ⟨o, h1, h⟩ := res_bind_ok.1 h
    obtain ⟨l, h2, h⟩ := res_bind_ok.1 h
    cases h
    exact bd_insertAt h1 h2
  | replace =>
    obtain ⟨o, h1, h⟩ := res_bind_ok.1 h
    split at h
    · cases h
    · obtain ⟨l, h2, h⟩ := res_bind_ok.1 h
      cases h
      exact bd_insertAt h1 h2

theorem bd_grow : ∀ {l : List Nat} {k : Nat} {s s' : NS}, applyGrow l k s = .ok s' → Thinned s s'
  | [], _, _, _, h => by cases h; exact .refl _
  | _ :: _, _, _, _, h => by
    simp only [applyGrow] at h
    obtain ⟨m, h1, h⟩ := res_bind_ok.1 h
    exact (bd_transform h1).trans (bd_grow h)

theorem bd_pad : ∀ {l : List Nat} {k : Nat} {s s' : NS}, applyPad l k s = .ok s' → Thinned s s'
  | [], _, _, _, h => by cases h; exact .refl _
  | _ :: _, _, _, _, h => by
    simp only [applyPad] at h
    obtain ⟨m, h1, h⟩ := res_bind_ok.1 h
    exact (bd_transform h1).trans (bd_pad h)

theorem bd_shrink : ∀ {l : List Nat} {k : Nat} {s s' : NS}, applyShrink l k s = .ok s' → Thinned s s'
  | [], _, _, _, h => by cases h; exact .refl _
  | _ :: _, _, _, _, h => by
    simp only [applyShrink] at h
    obtain ⟨m, h1, h⟩ := res_bind_ok.1 h
    exact (bd_transform h1).trans (bd_shrink h)

theorem bd_applyReplace : ∀ {l : List Nat} {k st n : Nat} {s s' : NS}, applyReplace l k st n s = .ok s' → Thinned s s'
  | [], _, _, _, _, _, h => by cases h; exact .refl _
  | _ :: _, _, _, _, _, _, h => by
    simp only [applyReplace] at h
    obtain ⟨m, h1, h⟩ := res_bind_ok.1 h
    exact (bd_transform h1).trans (bd_applyReplace h)

theorem bd_clean (P : Platform) : ∀ {w : WStr} {i : Nat} {acc : WStr} {s : NS} {r : WStr × NS}, cleanLoop P w i acc s = .ok r → Thinned s r.2
  | [], _, _, _, _, h => by cases h; exact .refl _
  | _ :: _, _, _, _, _, h => by
    simp only [cleanLoop] at h
    split at h
    · exact bd_clean P h
    · obtain ⟨m, h1, h⟩ := res_bind_ok.1 h
      exact (bd_transform h1).trans (bd_clean P h)

theorem bd_nf (P : Platform) {k : NFKind} {s s' : NS} (h : nfNormalize P k s = .ok s') : Thinned s s' := by
  unfold nfNormalize at h
  obtain ⟨m, h1, h⟩ := res_bind_ok.1 h
  cases h
  have t := bd_grow h1
  exact ⟨t.1, t.2⟩

theorem bd_accents (P : Platform) {s s' : NS} (h : doStripAccents P s = .ok s') : Thinned s s' := by
  unfold doStripAccents at h
  obtain ⟨m, h1, h⟩ := res_bind_ok.1 h
  obtain ⟨m', h2, h⟩ := res_bind_ok.1 h
  cases h
  have t := (bd_nf P h1).trans (bd_shrink h2)
  exact ⟨t.1, t.2⟩

theorem bd_chinese {s s' : NS} (h : doHandleChineseChars s = .ok s') : Thinned s s' := by
  unfold doHandleChineseChars at h
  obtain ⟨m, h1, h⟩ := res_bind_ok.1 h
  obtain ⟨m', -, h⟩ := res_bind_ok.1 h
  cases h
  have t := bd_pad h1
  exact ⟨t.1, t.2⟩

theorem bd_cleanText (P : Platform) {s s' : NS} (h : doCleanText P s = .ok s') : Thinned s s' := by
  unfold doCleanText at h
  obtain ⟨m, h1, h⟩ := res_bind_ok.1 h
  cases h
  have t := bd_clean P h1
  exact ⟨t.1, t.2⟩

theorem bd_if {c : Bool} {f : NS → Res NS} {s s' : NS} (hf : f s = .ok s' → Thinned s s') (h : (if c then f s else .ok s) = .ok s') :
    Thinned s s' := by
  cases c with
  | true => exact hf h
  | false => cases h; exact .refl _

theorem bd_bert (P : Platform) {a b c d : Bool} {s s' : NS} (h : bertNormalize P a b c d s = .ok s') : Thinned s s' := by
  have e : bertNormalize P a b c d s = ((if a then doCleanText P s else .ok s) >>= fun s =>
      (if b then doHandleChineseChars s else .ok s) >>= fun s =>
      (if c || d then doStripAccents P s else .ok s) >>= fun s => .ok (if d then doLowercase P s else s)) := by
    unfold bertNormalize
    cases a <;> cases b <;> cases c <;> cases d <;> rfl
  rw [e] at h
  obtain ⟨m1, h1, h⟩ := res_bind_ok.1 h
  obtain ⟨m2, h2, h⟩ := res_bind_ok.1 h
  obtain ⟨m3, h3, h⟩ := res_bind_ok.1 h
  have t := ((bd_if (bd_cleanText P) h1).trans (bd_if bd_chinese h2)).trans (bd_if (bd_accents P) h3)
  cases d with
  | true => cases h; exact ⟨t.1, t.2⟩
  | false => cases h; exact t

theorem bd_prepend {pre : Str} {s s' : NS} (h : prependNormalize pre s = .ok s') : Thinned s s' := by
  unfold prependNormalize at h
  obtain ⟨m, -, h⟩ := res_bind_ok.1 h
  obtain ⟨m', h1, h⟩ := res_bind_ok.1 h
  cases h
  have t := bd_transform h1
  exact ⟨t.1, t.2⟩

theorem bd_replace (P : Platform) {p c : Str} {s s' : NS} (h : replaceNormalize P p c s = .ok s') : Thinned s s' := by
  unfold replaceNormalize at h
  obtain ⟨m, -, h⟩ := res_bind_ok.1 h
  split at h
  · cases h
  · obtain ⟨wc, -, h⟩ := res_bind_ok.1 h
    split at h
    · cases h; exact .refl _
    · obtain ⟨w', -, h⟩ := res_bind_ok.1 h
      exact bd_applyReplace (s := { s with normalized := w' }) h
    · cases h

mutual
theorem bd_normalizer (P : Platform) : (n : Normalizer) → {s s' : NS} → n.run P s = .ok s' → Thinned s s'
  | .bert .., _, _, h => bd_bert P h
  | .prepend _, _, _, h => bd_prepend h
  | .replace .., _, _, h => bd_replace P h
  | .nf _, _, _, h => bd_nf P h
  | .strip .., _, _, h => by cases h; exact .refl _
  | .stripAccents, _, _, h => by cases h; exact .refl _
  | .seq l, _, _, h => bd_normalizers P l h
theorem bd_normalizers (P : Platform) : (l : List Normalizer) → {s s' : NS} → Normalizer.runList P l s = .ok s' → Thinned s s'
  | [], _, _, h => by cases h; exact .refl _
  | n :: r, _, _, h => by
    simp only [Normalizer.runList] at h
    obtain ⟨m, h1, h⟩ := res_bind_ok.1 h
    exact (bd_normalizer P n h1).trans (bd_normalizers P r h)
end

theorem bd_normalizeOpt (P : Platform) {n : Option Normalizer} {s s' : NS} (h : normalizeOpt P n s = .ok s') : Thinned s s' := by
  cases n with
  | none => cases h; exact .refl _
  | some n => exact bd_normalizer P n h

/-! ### A new table -/

theorem bd_mkOffsets : ∀ (lens : List Nat) (i : Nat), (∀ o ∈ mkOffsets i lens, o.1 ≤ o.2 ∧ o.2 ≤ i + lens.length) ∧
    runsIn (mkOffsets i lens) ≤ lens.length
  | [], i => ⟨by simp [mkOffsets], by simp [mkOffsets, runsIn]⟩
  | k :: r, i => by
    obtain ⟨h1, h2⟩ := bd_mkOffsets r (i + 1)
    simp only [mkOffsets, List.length_cons]
    constructor
    · intro o ho
      rcases List.mem_append.1 ho with ho | ho
      · obtain ⟨-, rfl⟩ := List.mem_replicate.1 ho
        simp only; omega
      · have := h1 o ho; omega
    · have := bd_append (List.replicate k (i, i + 1)) (mkOffsets (i + 1) r)
      have := bd_replicate k (i, i + 1)
      omega

theorem bd_units (w : WStr) : (unitLens (fromUTF32 w)).length ≤ units w := by
  rw [unitLens_length, fromUTF32, ← units_eq]
  induction w with
  | nil => exact Nat.le_refl _
  | cons c w ih =>
    simp only [List.map_cons, units]
    have : (if sanitize c < 0x10000 then 1 else 2) ≤ (if c < 0x10000 then 1 else 2) := by
      unfold sanitize
      by_cases h : isScalar c = true
      · rw [if_pos h]; exact Nat.le_refl _
      · rw [if_neg h]; split <;> split <;> omega
    omega

theorem bd_ofText (w : WStr) : Within (units w) (NS.ofText w) ∧ runsIn (NS.ofText w).offsets ≤ units w := by
  have h := bd_mkOffsets (unitLens (fromUTF32 w)) 0
  have e := bd_units w
  exact ⟨fun o ho => by have := h.1 o ho; omega, Nat.le_trans h.2 e⟩

theorem bd_one (o : Nat × Nat) (l : List (Nat × Nat)) : 1 ≤ runsIn (o :: l) := by
  induction l generalizing o with
  | nil => simp [runsIn]
  | cons x l ih => rw [runsIn]; have := ih x; omega

theorem bd_regroup : ∀ (l : List (Nat × Nat)) (prev last : Nat × Nat), last.1 ≤ last.2 →
    ∀ o ∈ regroup prev last l, o.1 ≤ o.2 ∧ o.2 + 1 ≤ last.2 + runsIn (prev :: l)
  | [], prev, last, _, o, ho => by simp [regroup] at ho
  | x :: r, prev, last, hl, o, ho => by
    have hr := bd_one x r
    simp only [regroup] at ho
    split at ho
    · rename_i e
      have e1 : runsIn (prev :: x :: r) = runsIn (x :: r) := by rw [runsIn, if_pos (by simp [e])]; omega
      rw [e1]
      rcases List.mem_cons.1 ho with rfl | ho
      · omega
      · have := bd_regroup r prev last hl o ho
        rw [← e]; exact this
    · rename_i e
      have e1 : runsIn (prev :: x :: r) = 1 + runsIn (x :: r) := by
        rw [runsIn, if_neg (by simpa using fun h => e h.symm)]
      rcases List.mem_cons.1 ho with rfl | ho
      · simp only; omega
      · have := bd_regroup r x (last.2, last.2 + 1) (by simp) o ho
        simp only at this
        omega

/-- Putting a normalized piece into the table adds at most as many positions as the piece has runs. -/
theorem bd_range {s s' sub : NS} {a b n : Nat} (hs : Within n s) (h : s.transformRange a b sub = .ok s') :
    Within (n + runsIn sub.offsets) s' := by
  obtain ⟨st, x, en, y, new, er, out, -, -, -, h1, h2, h3, rfl⟩ := transformRange_ok h
  · skip
    have hnew : ∀ o ∈ new, o.1 ≤ o.2 ∧ o.2 ≤ n + runsIn sub.offsets := by
      split at h1
      · cases h1; simp
      · rename_i o r e
        obtain ⟨first, hf, h1⟩ := res_bind_ok.1 h1
        cases h1
        have hm := hs _ (List.mem_of_getElem? (vecAt_ok hf))
        intro x hx
        rw [e]
        rcases List.mem_cons.1 hx with rfl | hx
        · omega
        · have := bd_regroup r o first hm.1 x hx
          omega
    intro o ho
    unfold insertAt at h3
    split at h3
    · cases h3
      have her : ∀ o ∈ er, o.1 ≤ o.2 ∧ o.2 ≤ n + runsIn sub.offsets := by
        intro o ho
        have := hs o ((bd_erase h2).1 o ho)
        omega
      simp only [List.mem_append] at ho
      rcases ho with (ho | ho) | ho
      · exact her o (List.mem_of_mem_take ho)
      · exact hnew o ho
      · exact her o (List.mem_of_mem_drop ho)
    · cases h3

/-! ### The pieces -/

theorem bd_within_mono {n m : Nat} {s : NS} (h : Within n s) (hm : n ≤ m) : Within m s := fun o ho => by
  have := h o ho; omega

theorem bd_split (P : Platform) {norm : Option Normalizer} {a : AddedVocab} {ns ns' : NS} {e n k : Nat} {s : Split} {l : List Split}
    {v : WStr} (hv : Utf8Text v s.normalized) (hs : Within n ns) (h : (normalizeSplit P norm a ns e s).1 = .ok (ns', l, k)) :
    Within (n + units v) ns' := by
  unfold normalizeSplit at h
  simp only at h
  split at h
  · cases h
  · rename_i ns2 sub text hpre
    obtain ⟨w', hw', hpre⟩ := res_bind_ok.1 hpre
    obtain ⟨hs2, hs1⟩ := utf8Text_iff.1 hv
    rw [hs1, convertFromString_utf8 hs2] at hw'
    cases hw'
    obtain ⟨sub', hsub, hpre⟩ := res_bind_ok.1 hpre
    split at hpre
    · cases hpre
    · obtain ⟨ns3, hr, hpre⟩ := res_bind_ok.1 hpre
      obtain ⟨text', htext, hpre⟩ := res_bind_ok.1 hpre
      have := Except.ok.inj hpre
      simp only [Prod.mk.injEq] at this
      obtain ⟨rfl, rfl, rfl⟩ := this
      obtain ⟨segs, -, h⟩ := res_bind_ok.1 h
      obtain ⟨out, -, h⟩ := res_bind_ok.1 h
      have := Except.ok.inj h
      simp only [Prod.mk.injEq] at this
      obtain ⟨rfl, -, -⟩ := this
      have h1 := bd_range hs hr
      have h2 := (bd_normalizeOpt P hsub).2
      have h3 := (bd_ofText v).2
      exact bd_within_mono h1 (by omega)

theorem bd_loop (P : Platform) (norm : Option Normalizer) {w : WStr} {cuts : List Cut} {l : List Split}
    (hcl : Each (AtSplit w) cuts l) :
    ∀ (a : AddedVocab) (ns ns' : NS) (e n : Nat) (out : List Split), Within n ns →
    (normalizeLoop P norm a ns e l).1 = .ok (ns', out) → Within (n + ordinaryUnits w cuts) ns' := by
  induction hcl with
  | nil =>
    intro a ns ns' e n out hn h
    simp only [normalizeLoop, Except.ok.injEq, Prod.mk.injEq] at h
    obtain ⟨rfl, -⟩ := h
    exact hn
  | @cons cut s cuts l hcs hcl' ih =>
    intro a ns ns' e n out hn h
    obtain ⟨hs1, hs3⟩ := id hcs
    obtain ⟨id, x, y⟩ := cut
    simp only at hs1 hs3
    simp only [normalizeLoop] at h
    cases id with
    | some i =>
      simp only at hs3
      rw [if_pos (by rw [hs3]; simp)] at h
      have ih' := fun ns' out => ih a ns ns' (e + s.normalized.length) n out hn
      generalize normalizeLoop P norm a ns (e + s.normalized.length) l = R at h ih'
      obtain ⟨r, a'⟩ := R
      cases r with
      | error x => cases h
      | ok q =>
        obtain ⟨ns1, rest⟩ := q
        simp only [Except.ok.injEq, Prod.mk.injEq] at h
        obtain ⟨rfl, -⟩ := h
        exact ih' ns1 rest rfl
    | none =>
      simp only at hs3
      rw [if_neg (by rw [hs3]; simp)] at h
      have hsp : ∀ ns1 here k, (normalizeSplit P norm a ns e s).1 = .ok (ns1, here, k) → Within (n + units (textAt w x y)) ns1 :=
        fun ns1 here k hh => bd_split P hs1 hn hh
      generalize normalizeSplit P norm a ns e s = R at h hsp
      obtain ⟨r, a'⟩ := R
      cases r with
      | error x => cases h
      | ok q =>
        obtain ⟨ns1, here, k⟩ := q
        simp only at h hsp
        have b1 := hsp ns1 here k rfl
        have ih' := fun ns' out => ih a' ns1 ns' (e + k) _ out b1
        generalize normalizeLoop P norm a' ns1 (e + k) l = R at h ih'
        obtain ⟨r, a''⟩ := R
        cases r with
        | error x => cases h
        | ok q =>
          obtain ⟨ns2, rest⟩ := q
          simp only [Except.ok.injEq, Prod.mk.injEq] at h
          obtain ⟨rfl, -⟩ := h
          have := ih' ns2 rest rfl
          simp only [ordinaryUnits]
          rw [← Nat.add_assoc]
          exact this

theorem bd_extract (P : Platform) (norm : Option Normalizer) {a : AddedVocab} {w : WStr} {p : PTS} (hP : PlainTables a)
    (h : (a.extract P norm w).1 = .ok p) :
    ∃ cuts, CutUp a a.nonNormTrie w cuts ∧ Within (units w + ordinaryUnits w cuts) p.normalized := by
  have hw0 : w ≠ [] := by
    rintro rfl
    obtain ⟨e, he, -⟩ := extract_nil P norm a
    rw [he] at h; cases h
  unfold AddedVocab.extract at h
  generalize hR : a.firstSplits w = R at h
  obtain ⟨r, a'⟩ := R
  cases r with
  | error e => cases h
  | ok first =>
  have hfirst : (a.firstSplits w).1 = .ok first := by rw [hR]
  unfold AddedVocab.firstSplits at hfirst
  split at hfirst
  · cases hfirst
  split at hfirst
  · cases hfirst
  rename_i _ p1 hp1 _ text htext
  obtain ⟨s1, -, hp1⟩ := res_bind_ok.1 hp1
  cases hp1
  obtain ⟨hsc, rfl⟩ := utf8Text_iff.1 ((C02_to_string_iff _ _).1 htext)
  obtain ⟨t1, t2⟩ := hP _ (.inl rfl)
  obtain ⟨segs, f1, f2⟩ := at_findMatches (a := a) hsc t1 t2
  simp only [f1, res_ok_bind] at hfirst
  obtain ⟨out1, g1, hfirst⟩ := res_bind_ok.1 hfirst
  obtain ⟨g2, g3⟩ := at_segSplits g1
  have hne : out1 ≠ [] := by
    rintro rfl
    cases g2
    obtain ⟨u, s, occ, k1, -, -, -, k5⟩ := f2
    obtain ⟨-, rfl⟩ := utf16Text_iff.1 k1
    exact at_cuts_ne k5 (at_units_ne hw0) rfl
  rw [if_neg hne] at hfirst
  have hfirst := Except.ok.inj hfirst
  subst hfirst
  simp only at h
  have hg := fun ns' out => bd_loop P norm g2 a' (NS.ofText w) ns' 0 (units w) out (bd_ofText w).1
  generalize normalizeLoop P norm a' (NS.ofText w) 0 out1 = R' at h hg
  obtain ⟨r', a''⟩ := R'
  cases r' with
  | error e => cases h
  | ok q =>
    obtain ⟨ns, out⟩ := q
    simp only [Except.ok.injEq] at h
    subst h
    exact ⟨segs, f2, hg ns out rfl⟩

theorem bd_cut {p q : PTS} {f : U16 → Res (List Seg)} {b : Behavior} {n : Nat} (hp : Within n p.normalized) (h : p.split f b = .ok q) :
    Within n q.normalized := by
  unfold PTS.split at h
  obtain ⟨l, -, h⟩ := res_bind_ok.1 h
  cases h
  exact hp

mutual
theorem bd_pre (P : Platform) {n : Nat} : (t : PreTokenizer) → {p q : PTS} → Within n p.normalized → t.run P p = .ok q → Within n q.normalized
  | .bert, p, q, hp, h => by
    simp only [PreTokenizer.run, bertPreTokenize] at h
    obtain ⟨p1, h1, h⟩ := res_bind_ok.1 h
    exact bd_cut (bd_cut hp h1) h
  | .split pat b i, p, q, hp, h => by
    simp only [PreTokenizer.run, splitPreTokenize] at h
    exact bd_cut hp h
  | .byteLevel a u, p, q, hp, h => by
    simp only [PreTokenizer.run, byteLevelPreTokenize] at h
    have key : ∀ p1 : PTS, Within n p1.normalized →
        (p1.split (fun w => if u = true then findMatches P byteLevelPattern w else .ok [((0, w.length), false)]) .isolated >>= fun p =>
          mapSplits P p.splits >>= fun splits => (.ok { p with splits } : Res PTS)) = .ok q → Within n q.normalized := by
      intro p1 hp1 h
      obtain ⟨p2, h1, h⟩ := res_bind_ok.1 h
      obtain ⟨l, -, h⟩ := res_bind_ok.1 h
      cases h
      exact bd_cut (q := p2) hp1 h1
    cases a with
    | false =>
      simp only [Bool.false_eq_true, if_false, res_ok_bind] at h
      exact key p hp h
    | true =>
      simp only [if_true] at h
      split at h
      · cases h
      · split at h
        · simp only [res_ok_bind] at h
          exact key p hp h
        · obtain ⟨m, h2, h⟩ := res_bind_ok.1 h
          obtain ⟨p1, h1, h⟩ := res_bind_ok.1 h
          obtain ⟨z, -, h1⟩ := res_bind_ok.1 h1
          cases h1
          refine key _ ?_ h
          have t := bd_transform h2
          exact fun o ho => hp o (t.1 o ho)
  | .seq l, p, q, hp, h => bd_pres P l hp h
theorem bd_pres (P : Platform) {n : Nat} : (l : List PreTokenizer) → {p q : PTS} → Within n p.normalized → PreTokenizer.runList P l p = .ok q →
    Within n q.normalized
  | [], p, q, hp, h => by cases h; exact hp
  | t :: r, p, q, hp, h => by
    simp only [PreTokenizer.runList] at h
    obtain ⟨p1, h1, h⟩ := res_bind_ok.1 h
    exact bd_pres P r (bd_pre P t hp h1) h
end

theorem bd_preTokenized (P : Platform) {t : Tokenizer} {w : WStr} {p : PTS} (hd : ∀ a, t.added = some a → PlainTables a)
    (h : (t.preTokenized P w).1 = .ok p) : ∃ n, Extent t w n ∧ Within n p.normalized := by
  have fin : ∀ n p0, Within n p0.normalized →
      (match t.preTokenizer with | none => .ok p0 | some pt => pt.run P p0 : Res PTS) = .ok p → Within n p.normalized := by
    intro n p0 h1 h2
    cases hp : t.preTokenizer with
    | none => rw [hp] at h2; cases h2; exact h1
    | some pt => rw [hp] at h2; exact bd_pre P pt h1 h2
  unfold Tokenizer.preTokenized at h
  split at h
  · cases h
  · rename_i p0 hp0
    unfold Extent
    cases ha : t.added with
    | none =>
      rw [ha] at h
      simp only [res_ok_bind] at h
      obtain ⟨s1, -, hp0⟩ := res_bind_ok.1 hp0
      cases hp0
      exact ⟨_, rfl, fin _ _ (bd_ofText w).1 h⟩
    | some a =>
      rw [ha] at h
      simp only at h
      obtain ⟨p1, h1, h⟩ := res_bind_ok.1 h
      obtain ⟨cuts, k1, k2⟩ := bd_extract P t.normalizer (hd a ha) h1
      exact ⟨_, ⟨cuts, k1, rfl⟩, fin _ _ k2 h⟩

/-! ### The tokens of a word -/

theorem bd_tiles : ∀ {l : List (Nat × Nat)} {a b : Nat}, Tiles a l b → b = a + (l.map fun o => o.2 - o.1).sum
  | [], _, _, h => by cases h; simp
  | (x, y) :: l, a, b, h => by
    obtain ⟨rfl, h1, h2⟩ := h
    have := bd_tiles h2
    simp only [List.map_cons, List.sum_cons]
    omega

theorem bd_sum {α : Type} {f : α → Nat} {k : Nat} : ∀ {l : List α}, (∀ a ∈ l, f a ≤ k) → (l.map f).sum ≤ l.length * k
  | [], _ => by simp
  | a :: l, h => by
    have := bd_sum (l := l) fun x hx => h x (by simp [hx])
    have := h a (by simp)
    simp only [List.map_cons, List.sum_cons, List.length_cons, Nat.add_mul]
    omega

theorem bd_greedy {V : Str → Option Int} {pre : Str} {first : Bool} {pos : Nat} {u : U16} {ts : List Token}
    (h : GreedyUnits V pre first pos u ts) : ∀ t ∈ ts, t.offsets.1 ≤ t.offsets.2 ∧ t.offsets.2 ≤ pos + u.length := by
  induction h with
  | done => simp
  | @take first pos v r key id ts hl _ ih =>
    intro t ht
    rw [List.length_append]
    rcases List.mem_cons.1 ht with rfl | ht
    · simp only; omega
    · have := ih t ht; omega

theorem bd_word {lines : List Str} {m : Model} {v : WStr} (hv : ShortEnough m v) {ts : List Token}
    (h : ModelTokens lines m v ts) : ∀ t ∈ ts, t.offsets.1 ≤ t.offsets.2 ∧ t.offsets.2 ≤ mostTokens m v := by
  cases m with
  | wordPiece m =>
    obtain ⟨u, hu, h⟩ := h
    obtain ⟨_, rfl⟩ := utf16Text_iff.1 hu
    simp only [mostTokens, units_eq]
    rcases h with ⟨_, rfl⟩ | ⟨_, _, h⟩
    · intro t ht
      obtain rfl := List.mem_singleton.1 ht
      simp
    · intro t ht
      have := bd_greedy h t ht
      omega
  | bpe m =>
    obtain ⟨s, hu, h⟩ := h
    simp only [ShortEnough, ← cn_octets hu] at hv
    simp only [mostTokens, ← cn_octets hu]
    rcases h hv with ⟨i, _, h1, h2, rfl⟩ | ⟨_, l, h1, h2, h3, _, _, stop, h4⟩
    · intro t ht
      obtain rfl := List.mem_singleton.1 ht
      simp
    · have e1 := bd_tiles h4
      have e2 := many_sum h2
      have e3 := pieces_sum h1
      have e4 : ((piecesOf ts).map (·.2)) = ((ts.map (·.offsets)).map fun o => o.2 - o.1) := by
        simp [piecesOf, Function.comp_def]
      have e5 : (foundAll (tokenToId m.vocab) m.pre m.suf m.byteFallback s).length = s.length := by simp [foundAll]
      rw [e4] at e2
      have hc : ∀ k, 1 ≤ k → (∀ ids, Found.bytes ids ∈ foundAll (tokenToId m.vocab) m.pre m.suf m.byteFallback s → ids.length ≤ k) →
          stop ≤ s.length * k := by
        intro k hk hb
        rw [e1, e2, e3, ← e5, Nat.zero_add]
        refine bd_sum fun f hf => ?_
        cases f with
        | entry i => exact hk
        | bytes ids => exact hb ids hf
        | nothing =>
          refine Nat.le_trans ?_ hk
          simp only [counted]; generalize (if m.unkToken = [] then none else tokenToId m.vocab m.unkToken) = z
          cases z <;> simp
      intro t ht
      have := rc_tiles_mem h4 t.offsets (List.mem_map_of_mem ht)
      refine ⟨this.2.1, Nat.le_trans this.2.2 ?_⟩
      split
      · exact hc _ (by omega) fun ids hm => (cn_found hm).2
      · rename_i hf
        have := hc 1 (Nat.le_refl _) fun ids hm => absurd (cn_found hm).1 hf
        omega

theorem bd_rows {ns : NS} {k : Nat} {l : List Split} {rows : List Row} (h : TextRows ns k l rows) :
    ∀ r ∈ rows, ∃ s ∈ l, ∃ t ∈ s.tokens, ∃ o ∈ ns.offsets, ∃ j, r = textRow j o.1 t := by
  induction h with
  | nil => simp
  | @cons k s l rows g o _ h2 _ ih =>
    intro r hr
    rcases List.mem_append.1 hr with hr | hr
    · obtain ⟨t, ht, rfl⟩ := List.mem_map.1 hr
      exact ⟨s, by simp, t, ht, o, List.mem_of_getElem? h2, k, rfl⟩
    · obtain ⟨s', h1, h2⟩ := ih r hr
      exact ⟨s', by simp [h1], h2⟩

theorem bd_table (P : Platform) {lines : List Str} {m x : Model} (hm : ModelIs P lines m x) {p q : PTS}
    (h : (x.tokenize P p).1 = .ok q) : q.normalized = p.normalized := by
  cases m with
  | wordPiece m =>
    cases hm
    simp only [Model.tokenize, Except.ok.injEq] at h
    rw [← h]; exact (wordPiece_splits m p).1
  | bpe m =>
    obtain ⟨hmade, hkeys, before, rfl⟩ := hm
    have h : ((usedBPE P m before).tokenize P p).1 = .ok q := h
    exact ((bpe_tokenize P hmade before p q).1 h).1

/-! ### The encoding -/

/-- **C133** The two offsets of every entry, in the encoding and in each overflow window, are 0 or a range of positions that is not
negative, not reversed, and not further behind the last place where a word can start than the word is long. -/
theorem C133_ranges (P : Platform) (hg : GoodRegexes P) {t : Tokenizer} {m x : Model} {lines : List Str} {w : WStr} {b : Bool}
    {e : Encoding} (hx : t.model = some x) (hm : ModelIs P lines m x) (hd : ∀ a, t.added = some a → PlainTables a)
    (hS : ∀ s ∈ Specials t, s.ids.length = s.tokens.length) (h : (t.encode P w b).1 = .ok e) :
    ∃ ws n, AnyWords P t w ws ∧ Extent t w n ∧ ((∀ v ∈ ws, ShortEnough m v) → ∀ y, y = e.toEnc ∨ y ∈ e.overflowing →
      ∀ o ∈ y.offsets, o = (0, 0) ∨ ∃ v ∈ ws, RangeUpTo (n + mostTokens m v) o) := by
  obtain ⟨q, text, ⟨p, hp, hq⟩, ht, g⟩ := C43_rows P t w b e hS h
  rw [hx] at hq
  obtain ⟨ws, k1, k2⟩ := at_words P hg hd hp
  obtain ⟨n, k3, k4⟩ := bd_preTokenized P hd hp
  refine ⟨ws, n, k1, k3, fun hv y hy o ho => ?_⟩
  obtain ⟨rows, r1, r2⟩ := g y hy
  rw [r1.2.2.2.2.1] at ho
  obtain ⟨r, hr, rfl⟩ := List.mem_map.1 ho
  cases r2 r hr with
  | special _ _ _ _ _ _ h0 => exact .inl h0
  | padding _ _ _ _ _ h0 => exact .inl h0
  | content r0 h0 h1 =>
    right
    obtain ⟨s, hs, t', ht', o', ho', j, rfl⟩ := bd_rows ht r0 h0
    obtain ⟨v, hvm, hmt⟩ := each_mem_right (pl_model P hm k2 hq) s.tokens (List.mem_map_of_mem hs)
    have i1 := bd_word (hv v hvm) hmt t' ht'
    rw [bd_table P hm hq] at ho'
    have i2 := k4 o' ho'
    have i3 := h1.2.2.2.2.2.1
    simp only [textRow, Narrowed] at i3
    refine ⟨v, hvm, ?_⟩
    unfold RangeUpTo
    omega

/-- Without an added vocabulary no word starts behind the end of the text. -/
theorem C133_plain (P : Platform) (hg : GoodRegexes P) {t : Tokenizer} {m x : Model} {lines : List Str} {w : WStr} {b : Bool}
    {e : Encoding} (hx : t.model = some x) (hm : ModelIs P lines m x) (ha : t.added = none)
    (hS : ∀ s ∈ Specials t, s.ids.length = s.tokens.length) (h : (t.encode P w b).1 = .ok e) :
    ∃ ws, AnyWords P t w ws ∧ ((∀ v ∈ ws, ShortEnough m v) → ∀ y, y = e.toEnc ∨ y ∈ e.overflowing →
      ∀ o ∈ y.offsets, o = (0, 0) ∨ ∃ v ∈ ws, RangeUpTo (units w + mostTokens m v) o) := by
  obtain ⟨ws, n, h1, h2, h3⟩ := C133_ranges P hg hx hm (by intro a h; rw [ha] at h; cases h) hS h
  simp only [Extent, ha] at h2
  subst h2
  exact ⟨ws, h1, h3⟩

/-- "The offsets stay inside the text" is false: the two bytes of `é` count as two positions. -/
theorem C133_violated : ((abcTk [([0xC3], 5), ([0xA9], 6)] false .bert).encode ascii w!"é" true).1.map (·.offsets) =
    .ok [(0, 1), (1, 2)] ∧ units w!"é" = 1 := by
  refine ⟨?_, ?_⟩ <;> decide +kernel

/-! ### The hypotheses are met -/

theorem bd_spaceAdded : PlainTables spaceAdded := by
  intro T hT
  rcases hT with rfl | rfl
  · exact ⟨by decide, by intro k i j h; exact absurd h (by show ¬ (k, i) ∈ ([] : List (Str × Int)); simp)⟩
  · refine ⟨by decide, fun k i j hi hj => ?_⟩
    have hkeys : (spaceAdded.normTrie.map (·.1)).Nodup := by decide
    have h1 := (mapFind_iff_mem hkeys k i).2 hi
    have h2 := (mapFind_iff_mem hkeys k j).2 hj
    rw [h1] at h2; cases h2; rfl

/-- The hypotheses of `C133_ranges`: a normalizer, a pre-tokenizer, added tokens, windows, trimming and padding. -/
example (e : Encoding) (h : (rowsTk.encode spacePlatform w!"ab bc [CLS] abc " true).1 = .ok e) :
    ∃ ws n, AnyWords spacePlatform rowsTk w!"ab bc [CLS] abc " ws ∧ Extent rowsTk w!"ab bc [CLS] abc " n ∧
      ((∀ v ∈ ws, ShortEnough (.bpe spaceBPE) v) → ∀ y, y = e.toEnc ∨ y ∈ e.overflowing →
        ∀ o ∈ y.offsets, o = (0, 0) ∨ ∃ v ∈ ws, RangeUpTo (n + mostTokens (.bpe spaceBPE) v) o) :=
  C133_ranges spacePlatform pl_space_good (lines := [b!"a b", b!"b c"]) rfl ⟨spaceBPE_made, by decide, [], rfl⟩
    (by intro a h; cases h; exact bd_spaceAdded) (by simp [Specials, rowsTk, specialsOf]) h

/-- The offsets of the three windows. -/
example : (rowsTk.encode spacePlatform w!"ab bc [CLS] abc " true).1.map (fun e => e.offsets :: e.overflowing.map (·.offsets)) =
    .ok [[(0, 1), (1, 3), (3, 3), (0, 0)], [(3, 3), (6, 6), (12, 13), (0, 0)], [(12, 13), (13, 15), (0, 0), (0, 0)]] := by
  decide +kernel

end Tok
