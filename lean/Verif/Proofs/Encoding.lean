import Verif.Spec.Encoding
import Verif.Props.PostProcessor
import Verif.Proofs.History

set_option autoImplicit false

namespace Tok
open Spec

theorem each_append_right {α β : Type} {R : α → β → Prop} {a b : List β} : ∀ {l : List α}, Each R l (a ++ b) →
    ∃ l1 l2, l = l1 ++ l2 ∧ Each R l1 a ∧ Each R l2 b := by
  induction a with
  | nil => intro l h; exact ⟨[], l, rfl, .nil, h⟩
  | cons x a ih =>
    intro l h
    cases h with
    | cons hx h =>
      obtain ⟨l1, l2, rfl, h1, h2⟩ := ih h
      exact ⟨_ :: l1, l2, rfl, .cons hx h1, h2⟩

theorem each_infix {α β : Type} {R : α → β → Prop} {l : List α} {m m' : List β} (h : Each R l m) (hi : m' <:+: m) :
    ∃ l', l' <:+: l ∧ Each R l' m' := by
  obtain ⟨a, b, rfl⟩ := hi
  obtain ⟨l1, l2, rfl, h1, h2⟩ := each_append_right h
  obtain ⟨l3, l4, rfl, h3, h4⟩ := each_append_right h1
  exact ⟨l4, ⟨l3, l2, rfl⟩, h4⟩

theorem each_map_self {α β : Type} {R : α → β → Prop} (f : α → β) (l : List α) (h : ∀ a ∈ l, R a (f a)) : Each R l (l.map f) := by
  induction l with
  | nil => exact .nil
  | cons a l ih => exact .cons (h a (by simp)) (ih fun x hx => h x (by simp [hx]))

/-- Windows and similar edits keep this. -/
def Good (q once : Prop) (text : List Row) (S : List SpecialToken) (pad : Option Padding) (x : Enc) : Prop :=
  ∃ rows, HasRows x rows ∧ (∀ r ∈ rows, RowKind q text S pad r) ∧ (once → HoldsPart q text rows)

theorem rowOf_refl (q : Prop) (r : Row) : RowOf q r r :=
  ⟨rfl, rfl, rfl, rfl, rfl, narrowed_refl _, fun _ => rfl⟩

theorem narrowed_trans {a b c : Int × Int} (h1 : Narrowed a b) (h2 : Narrowed b c) : Narrowed a c := by
  intro h
  have := h1 h
  have := h2 this.2.1
  omega

theorem rowOf_trans {q : Prop} {a b c : Row} (h1 : RowOf q a b) (h2 : RowOf q b c) : RowOf q a c := by
  obtain ⟨a1, a2, a3, a4, a5, a6, a7⟩ := h1
  obtain ⟨b1, b2, b3, b4, b5, b6, b7⟩ := h2
  exact ⟨b1.trans a1, b2.trans a2, b3.trans a3, b4.trans a4, b5.trans a5, narrowed_trans a6 b6,
    fun h => (b7 h).trans (a7 h)⟩

theorem hasRows_nil : HasRows {} [] := ⟨rfl, rfl, rfl, rfl, rfl, rfl, rfl⟩

theorem hasRows_append {a b : Enc} {ra rb : List Row} (ha : HasRows a ra) (hb : HasRows b rb) :
    HasRows (a.append b) (ra ++ rb) := by
  obtain ⟨a1, a2, a3, a4, a5, a6, a7⟩ := ha
  obtain ⟨b1, b2, b3, b4, b5, b6, b7⟩ := hb
  simp only [HasRows, Enc.append, List.map_append]
  exact ⟨by rw [a1, b1], by rw [a2, b2], by rw [a3, b3], by rw [a4, b4], by rw [a5, b5], by rw [a6, b6], by rw [a7, b7]⟩

theorem hasRows_aligned {x : Enc} {rows : List Row} (h : HasRows x rows) : Aligned x rows.length := by
  obtain ⟨a1, a2, a3, a4, a5, a6, a7⟩ := h
  exact ⟨by rw [a1]; simp, by rw [a2]; simp, by rw [a3]; simp, by rw [a4]; simp, by rw [a5]; simp, by rw [a6]; simp,
    by rw [a7]; simp⟩

/-! ### From splits to rows -/

theorem tokens_rows (ts : List Token) (k start : Nat) :
    HasRows ((ts.map (tokenEnc start k 0)).foldr Enc.append {}) (ts.map (textRow k start)) := by
  induction ts with
  | nil => exact hasRows_nil
  | cons t ts ih =>
    simp only [List.map_cons, List.foldr_cons]
    exact hasRows_append (ra := [textRow k start t]) ⟨rfl, rfl, rfl, rfl, rfl, rfl, rfl⟩ ih

theorem intoLoop_rows (ns : NS) : ∀ (l : List Split) (k : Nat) (x : Enc), intoLoop ns none 0 k l = .ok x →
    ∃ rows, TextRows ns k l rows ∧ HasRows x rows := by
  intro l
  induction l with
  | nil => intro k x h; cases h; exact ⟨[], .nil k, hasRows_nil⟩
  | cons s l ih =>
    intro k x h
    simp only [intoLoop] at h
    obtain ⟨g, hg, h⟩ := res_bind_ok.1 h
    obtain ⟨o, ho, h⟩ := res_bind_ok.1 h
    obtain ⟨y, hy, h⟩ := res_bind_ok.1 h
    obtain ⟨rows, h1, h2⟩ := ih _ _ hy
    have hg' : ns.ranges[s.offsets.1]? = some g := by
      unfold vecAt at hg; split at hg
      · rename_i h'; cases hg; exact h'
      · cases hg
    have ho' : ns.offsets[g.1]? = some o := by
      unfold vecAt at ho; split at ho
      · rename_i h'; cases ho; exact h'
      · cases ho
    refine ⟨_, .cons hg' ho' h1, ?_⟩
    cases h
    exact hasRows_append (tokens_rows s.tokens k o.1) h2

theorem textRows_content {ns : NS} {k : Nat} {l : List Split} {rows : List Row} (h : TextRows ns k l rows) :
    ∀ r ∈ rows, r.special = 0 ∧ r.attention = 1 := by
  induction h with
  | nil => simp
  | cons _ _ _ ih =>
    intro r hr
    rcases List.mem_append.1 hr with hr | hr
    · obtain ⟨t, _, rfl⟩ := List.mem_map.1 hr; exact ⟨rfl, rfl⟩
    · exact ih r hr

theorem text_good {ns : NS} {k : Nat} {l : List Split} {rows : List Row} (h : TextRows ns k l rows) {x : Enc}
    (hx : HasRows x rows) (q once : Prop) (S : List SpecialToken) : Good q once rows S none x := by
  have hc := textRows_content h
  refine ⟨rows, hx, fun r hr => .content r hr (rowOf_refl q r) (hc r hr).1 (hc r hr).2, fun _ => ⟨rows, List.infix_refl _, ?_⟩⟩
  have : contentRows rows = rows := by
    unfold contentRows; rw [List.filter_eq_self]; intro r hr; simp [(hc r hr).1]
  rw [this]
  exact each_refl (rowOf_refl q) rows

/-! ### Truncation -/

theorem sliceI_map {α β : Type} (f : α → β) (l : List α) {a b : Int} {x : List β} (h : sliceI (l.map f) a b = .ok x) :
    x = ((l.drop a.toNat).take (b.toNat - a.toNat)).map f := by
  unfold sliceI slice at h
  split at h
  · split at h
    · cases h; simp [List.map_drop, List.map_take]
    · cases h
  · cases h

theorem window_rows {x y : Enc} {rows : List Row} (h : HasRows x rows) {r : Int × Int} (hw : x.window r = .ok y) :
    HasRows y ((rows.drop r.1.toNat).take (r.2.toNat - r.1.toNat)) := by
  obtain ⟨a1, a2, a3, a4, a5, a6, a7⟩ := h
  unfold Enc.window at hw
  rw [a1, a2, a3, a4, a5, a6, a7] at hw
  obtain ⟨b1, h1, hw⟩ := res_bind_ok.1 hw
  obtain ⟨b2, h2, hw⟩ := res_bind_ok.1 hw
  obtain ⟨b3, h3, hw⟩ := res_bind_ok.1 hw
  obtain ⟨b4, h4, hw⟩ := res_bind_ok.1 hw
  obtain ⟨b5, h5, hw⟩ := res_bind_ok.1 hw
  obtain ⟨b6, h6, hw⟩ := res_bind_ok.1 hw
  obtain ⟨b7, h7, hw⟩ := res_bind_ok.1 hw
  cases hw
  exact ⟨sliceI_map _ _ h1, sliceI_map _ _ h2, sliceI_map _ _ h3, sliceI_map _ _ h4, sliceI_map _ _ h5,
    sliceI_map _ _ h6, sliceI_map _ _ h7⟩

theorem holdsPart_infix {q : Prop} {text rows rows' : List Row} (h : HoldsPart q text rows) (hi : rows' <:+: rows) :
    HoldsPart q text rows' := by
  obtain ⟨part, h1, h2⟩ := h
  obtain ⟨part', h3, h4⟩ := each_infix h2 (m' := contentRows rows') (hi.filter _)
  exact ⟨part', h3.trans h1, h4⟩

theorem good_window {q once : Prop} {text : List Row} {S : List SpecialToken} {pad : Option Padding} {x y : Enc}
    (h : Good q once text S pad x) {r : Int × Int} (hw : x.window r = .ok y) : Good q once text S pad y := by
  obtain ⟨rows, h1, h2, h3⟩ := h
  have hi : ((rows.drop r.1.toNat).take (r.2.toNat - r.1.toNat)) <:+: rows :=
    (List.take_prefix _ _).isInfix.trans (List.drop_suffix _ _).isInfix
  exact ⟨_, window_rows h1 hw, fun x hx => h2 x (hi.subset hx), fun ho => holdsPart_infix (h3 ho) hi⟩

theorem truncate_cases {e e' : Encoding} {m s : Int} {d : TDir} (h : truncate e m s d = .ok e') :
    (e'.toEnc = e.toEnc ∧ (e'.overflowing = e.overflowing ∨ e'.overflowing = [])) ∨
    ((∃ r, e.toEnc.window r = .ok e'.toEnc) ∧ ∀ y ∈ e'.overflowing, ∃ r, e.toEnc.window r = .ok y) := by
  unfold truncate at h
  split at h
  · cases h; exact .inl ⟨rfl, .inl rfl⟩
  · split at h
    · cases h; exact .inl ⟨rfl, .inr rfl⟩
    · obtain ⟨rs, _, h⟩ := res_bind_ok.1 h
      cases rs with
      | nil => cases h
      | cons r rs =>
        simp only at h
        obtain ⟨f, hf, h⟩ := res_bind_ok.1 h
        obtain ⟨o, ho, h⟩ := res_bind_ok.1 h
        cases h
        exact .inr ⟨⟨r, hf⟩, fun y hy => by obtain ⟨r, _, hr⟩ := windows_mem ho y hy; exact ⟨r, hr⟩⟩

theorem truncation_cases {t : Truncation} {e e' : Encoding} (h : t.run e = .ok e') :
    (e'.toEnc = e.toEnc ∧ (e'.overflowing = e.overflowing ∨ e'.overflowing = [])) ∨
    ((∃ r, e.toEnc.window r = .ok e'.toEnc) ∧ ∀ y ∈ e'.overflowing, ∃ r, e.toEnc.window r = .ok y) := by
  unfold Truncation.run at h
  split at h
  · exact truncate_cases h
  · split at h
    · cases h; exact .inl ⟨rfl, .inl rfl⟩
    · simp only at h
      split at h
      · exact truncate_cases h
      · split at h
        · exact truncate_cases h
        · cases h; exact .inl ⟨rfl, .inl rfl⟩
      · cases h; exact .inl ⟨rfl, .inl rfl⟩

/-- Every part of the encoding satisfies `p`. -/
def AllEnc (p : Enc → Prop) (e : Encoding) : Prop := p e.toEnc ∧ ∀ x ∈ e.overflowing, p x

theorem good_truncation {q once : Prop} {text : List Row} {S : List SpecialToken} {pad : Option Padding} {t : Truncation}
    {e e' : Encoding} (h : AllEnc (Good q once text S pad) e) (hr : t.run e = .ok e') :
    AllEnc (Good q once text S pad) e' := by
  rcases truncation_cases hr with ⟨h1, h2⟩ | ⟨⟨r, h1⟩, h2⟩
  · refine ⟨by rw [h1]; exact h.1, ?_⟩
    rcases h2 with h2 | h2
    · rw [h2]; exact h.2
    · rw [h2]; simp
  · exact ⟨good_window h.1 h1, fun y hy => by obtain ⟨r, hr⟩ := h2 y hy; exact good_window h.1 hr⟩

/-! ### Padding -/

/-- The row of a padding entry. -/
def padRow (p : Padding) : Row :=
  { id := p.padId, typeId := p.padTypeId, token := p.padToken, word := some 0, offsets := (0, 0), special := 1, attention := 0 }

theorem padEnc_rows {p : Padding} {target : Int} {x y : Enc} {rows : List Row} (h : HasRows x rows)
    (hp : padEnc p target x = .ok y) :
    ∃ j k, HasRows y (List.replicate j (padRow p) ++ rows ++ List.replicate k (padRow p)) := by
  unfold padEnc at hp
  obtain ⟨a1, a2, a3, a4, a5, a6, a7⟩ := h
  split at hp
  · cases hp; exact ⟨0, 0, by simp [HasRows]; exact ⟨a1, a2, a3, a4, a5, a6, a7⟩⟩
  · simp only at hp
    split at hp
    · cases hp; exact ⟨0, 0, by simp [HasRows]; exact ⟨a1, a2, a3, a4, a5, a6, a7⟩⟩
    · split at hp
      · cases hp
      · cases hp
        refine ⟨(target - ↑x.ids.length).toNat, 0, ?_⟩
        simp only [HasRows, List.replicate_zero, List.append_nil, List.map_append, List.map_replicate, ← a1, ← a2, ← a3,
          ← a4, ← a5, ← a6, ← a7]
        exact ⟨rfl, rfl, rfl, rfl, rfl, rfl, rfl⟩
    · split at hp
      · cases hp
      · cases hp
        refine ⟨0, (target - ↑x.ids.length).toNat, ?_⟩
        simp only [HasRows, List.replicate_zero, List.nil_append, List.map_append, List.map_replicate, ← a1, ← a2, ← a3,
          ← a4, ← a5, ← a6, ← a7]
        exact ⟨rfl, rfl, rfl, rfl, rfl, rfl, rfl⟩

theorem rowKind_pad {q : Prop} {text : List Row} {S : List SpecialToken} {p : Option Padding} {r : Row}
    (h : RowKind q text S none r) : RowKind q text S p r := by
  cases h with
  | content r0 h1 h2 h3 h4 => exact .content r0 h1 h2 h3 h4
  | special s j h1 h2 h3 h4 h5 h6 h7 => exact .special s j h1 h2 h3 h4 h5 h6 h7
  | padding p h => cases h

theorem good_pad {q once : Prop} {text : List Row} {S : List SpecialToken} {p : Padding} {target : Int} {x y : Enc}
    (h : Good q once text S none x) (hp : padEnc p target x = .ok y) : Good q once text S (some p) y := by
  obtain ⟨rows, h1, h2, h3⟩ := h
  obtain ⟨j, k, hr⟩ := padEnc_rows h1 hp
  refine ⟨_, hr, ?_, ?_⟩
  · intro r hr
    have hrep : ∀ n, r ∈ List.replicate n (padRow p) → RowKind q text S (some p) r := by
      intro n hn
      obtain ⟨_, rfl⟩ := List.mem_replicate.1 hn
      exact .padding p rfl rfl rfl rfl rfl rfl rfl
    rcases List.mem_append.1 hr with hr | hr
    · rcases List.mem_append.1 hr with hr | hr
      · exact hrep _ hr
      · exact rowKind_pad (h2 r hr)
    · exact hrep _ hr
  · intro ho
    obtain ⟨part, g1, g2⟩ := h3 ho
    refine ⟨part, g1, ?_⟩
    have : contentRows (List.replicate j (padRow p) ++ rows ++ List.replicate k (padRow p)) = contentRows rows := by
      unfold contentRows
      have hz : ∀ n, (List.replicate n (padRow p)).filter (fun r => decide (r.special = 0)) = [] := by
        intro n; rw [List.filter_eq_nil_iff]; intro r hr
        obtain ⟨_, rfl⟩ := List.mem_replicate.1 hr; simp [padRow]
      simp [List.filter_append, hz]
    rw [this]; exact g2

theorem good_padAll {q once : Prop} {text : List Row} {S : List SpecialToken} {p : Padding} {target : Int} :
    ∀ {l m : List Enc}, (∀ x ∈ l, Good q once text S none x) → padAll p target l = .ok m →
      ∀ x ∈ m, Good q once text S (some p) x := by
  intro l
  induction l with
  | nil => intro m _ h; cases h; simp
  | cons a l ih =>
    intro m hl h x hx
    obtain ⟨b, hb, h⟩ := res_bind_ok.1 h
    obtain ⟨m', hm, h⟩ := res_bind_ok.1 h
    cases h
    rcases List.mem_cons.1 hx with rfl | hx
    · exact good_pad (hl a (by simp)) hb
    · exact ih (fun y hy => hl y (by simp [hy])) hm x hx

theorem good_padding {q once : Prop} {text : List Row} {S : List SpecialToken} {p : Padding} {e e' : Encoding}
    (h : AllEnc (Good q once text S none) e) (hr : p.run e = .ok e') : AllEnc (Good q once text S (some p)) e' := by
  unfold Padding.run pad at hr
  obtain ⟨o, ho, hr⟩ := res_bind_ok.1 hr
  obtain ⟨m, hm, hr⟩ := res_bind_ok.1 hr
  cases hr
  exact ⟨good_pad h.1 hm, good_padAll h.2 ho⟩

/-! ### Trimming -/

theorem trimLoop_length (a : Bool) (tokens : List Str) : ∀ (n i : Nat) (offsets out : List (Int × Int)),
    trimLoop a tokens n i offsets = .ok out → out.length = offsets.length ∧
      ∀ (j : Nat) (o o' : Int × Int), offsets[j]? = some o → out[j]? = some o' →
        o' = o ∨ ∃ i t, o' = trimOffsets a i t o := by
  intro n
  induction n with
  | zero =>
    intro i offsets out h; cases h
    refine ⟨rfl, fun j o o' h1 h2 => ?_⟩
    rw [h1] at h2; cases h2; exact .inl rfl
  | succ n ih =>
    intro i offsets out h
    simp only [trimLoop] at h
    obtain ⟨t, ht, h⟩ := res_bind_ok.1 h
    obtain ⟨o, ho, h⟩ := res_bind_ok.1 h
    have hrec := trimLoop_set a tokens n (i + 1) _ _ h i (by omega)
    obtain ⟨h1, h2⟩ := ih _ _ _ h
    have hi : offsets[i]? = some o := by
      unfold vecAt at ho; split at ho
      · rename_i h'; cases ho; exact h'
      · cases ho
    have hlt : i < offsets.length := (List.getElem?_eq_some_iff.1 hi).1
    refine ⟨by simpa using h1, fun j x x' hx hx' => ?_⟩
    by_cases hij : i = j
    · subst hij
      rw [hi] at hx; cases hx
      rw [hrec, List.getElem?_set_self hlt] at hx'
      cases hx'
      exact .inr ⟨i, t, rfl⟩
    · exact h2 j x x' (by rw [List.getElem?_set_ne hij]; exact hx) hx'
where
  trimLoop_set (a : Bool) (tokens : List Str) : ∀ (n i : Nat) (offsets out : List (Int × Int)),
    trimLoop a tokens n i offsets = .ok out → ∀ j < i, out[j]? = offsets[j]? := by
    intro n
    induction n with
    | zero => intro i offsets out h j _; cases h; rfl
    | succ n ih =>
      intro i offsets out h j hj
      simp only [trimLoop] at h
      obtain ⟨t, ht, h⟩ := res_bind_ok.1 h
      obtain ⟨o, ho, h⟩ := res_bind_ok.1 h
      rw [ih _ _ _ h j (by omega), List.getElem?_set_ne (by omega)]

theorem trim_zero (a : Bool) (i : Nat) (t : Str) : trimOffsets a i t (0, 0) = (0, 0) := by
  unfold trimOffsets
  simp only
  generalize ((fromUTF8 t).takeWhile isSpaceUnit).length = l
  generalize ((fromUTF8 t).reverse.takeWhile isSpaceUnit).length = m
  split
  · congr 1
    · split
      · split <;> omega
      · rfl
    · rw [if_neg (by omega)]
  · rfl

/-- Replace the offsets of rows. -/
def setOffsets : List Row → List (Int × Int) → List Row
  | r :: rs, o :: os => { r with offsets := o } :: setOffsets rs os
  | _, _ => []

theorem setOffsets_rows {x : Enc} {rows : List Row} (h : HasRows x rows) {os : List (Int × Int)}
    (hl : os.length = x.offsets.length) : HasRows { x with offsets := os } (setOffsets rows os) := by
  obtain ⟨a1, a2, a3, a4, a5, a6, a7⟩ := h
  have hlen : os.length = rows.length := by rw [hl, a5]; simp
  have key : ∀ (rows : List Row) (os : List (Int × Int)), os.length = rows.length →
      (setOffsets rows os).map (·.id) = rows.map (·.id) ∧ (setOffsets rows os).map (·.typeId) = rows.map (·.typeId) ∧
      (setOffsets rows os).map (·.token) = rows.map (·.token) ∧ (setOffsets rows os).map (·.word) = rows.map (·.word) ∧
      (setOffsets rows os).map (·.offsets) = os ∧ (setOffsets rows os).map (·.special) = rows.map (·.special) ∧
      (setOffsets rows os).map (·.attention) = rows.map (·.attention) := by
    intro rows
    induction rows with
    | nil => intro os h; cases os with
      | nil => exact ⟨rfl, rfl, rfl, rfl, rfl, rfl, rfl⟩
      | cons => simp at h
    | cons r rows ih => intro os h; cases os with
      | nil => simp at h
      | cons o os =>
        obtain ⟨b1, b2, b3, b4, b5, b6, b7⟩ := ih os (by simpa using h)
        simp only [setOffsets, List.map_cons, b1, b2, b3, b4, b5, b6, b7]
        exact ⟨trivial, trivial, trivial, trivial, trivial, trivial, trivial⟩
  obtain ⟨b1, b2, b3, b4, b5, b6, b7⟩ := key rows os hlen
  exact ⟨by rw [b1]; exact a1, by rw [b2]; exact a2, by rw [b3]; exact a3, by rw [b4]; exact a4, b5.symm,
    by rw [b6]; exact a6, by rw [b7]; exact a7⟩

/-- Pointwise edit of the offsets of rows. -/
theorem setOffsets_each {R : Row → Row → Prop} : ∀ (rows : List Row) (os : List (Int × Int)), os.length = rows.length →
    (∀ (j : Nat) (r : Row) (o : Int × Int), rows[j]? = some r → os[j]? = some o → R r { r with offsets := o }) →
    Each R rows (setOffsets rows os) := by
  intro rows
  induction rows with
  | nil => intro os h _; cases os with
    | nil => exact .nil
    | cons => simp at h
  | cons r rows ih => intro os h hR; cases os with
    | nil => simp at h
    | cons o os =>
      exact .cons (hR 0 r o rfl rfl) (ih os (by simpa using h) fun j r o hr ho => hR (j + 1) r o hr ho)

theorem contentRows_each {R : Row → Row → Prop} (hR : ∀ r r', R r r' → r'.special = r.special) {l m : List Row}
    (h : Each R l m) : Each R (contentRows l) (contentRows m) := by
  induction h with
  | nil => exact .nil
  | cons hab _ ih =>
    rename_i a b l m _
    unfold contentRows at ih ⊢
    rw [List.filter_cons, List.filter_cons, hR _ _ hab]
    split
    · exact .cons hab ih
    · exact ih

theorem each_comp {α β γ : Type} {R : α → β → Prop} {S : β → γ → Prop} {T : α → γ → Prop}
    (hT : ∀ a b c, R a b → S b c → T a c) {l : List α} {m : List β} {n : List γ} (h1 : Each R l m) (h2 : Each S m n) :
    Each T l n := by
  induction h1 generalizing n with
  | nil => cases h2; exact .nil
  | cons a _ ih => cases h2 with | cons b h2 => exact .cons (hT _ _ _ a b) (ih h2)

theorem good_trim {q once : Prop} (hq : q) {text : List Row} {S : List SpecialToken} {a : Bool} {x y : Enc}
    (h : Good q once text S none x) (hp : processOffsets a x = .ok y) : Good q once text S none y := by
  obtain ⟨rows, h1, h2, h3⟩ := h
  unfold processOffsets at hp
  obtain ⟨os, hos, hp⟩ := res_bind_ok.1 hp
  cases hp
  obtain ⟨hl, ho⟩ := trimLoop_length _ _ _ _ _ _ hos
  have hlr : os.length = rows.length := by rw [hl, h1.2.2.2.2.1]; simp
  have hoff : ∀ (j : Nat) (r : Row) (o : Int × Int), rows[j]? = some r → os[j]? = some o →
      o = r.offsets ∨ ∃ i t, o = trimOffsets a i t r.offsets := by
    intro j r o hr hoj
    refine ho j r.offsets o ?_ hoj
    rw [h1.2.2.2.2.1]; simp [hr]
  have heach : Each (fun r r' => RowOf q r r' ∧ (r.offsets = (0, 0) → r'.offsets = (0, 0))) rows (setOffsets rows os) := by
    refine setOffsets_each rows os hlr ?_
    intro j r o hr hoj
    rcases hoff j r o hr hoj with rfl | ⟨i, t, rfl⟩
    · exact ⟨rowOf_refl q r, fun h => h⟩
    · refine ⟨⟨rfl, rfl, rfl, rfl, rfl, trimOffsets_narrowed _ _ _ _, fun h => absurd hq h⟩, ?_⟩
      intro h0
      show trimOffsets a i t r.offsets = (0, 0)
      rw [h0]; exact trim_zero a i t
  refine ⟨setOffsets rows os, setOffsets_rows h1 hl, ?_, ?_⟩
  · intro r' hr'
    obtain ⟨r, hr, ⟨hro, hz⟩⟩ := each_mem_right heach r' hr'
    obtain ⟨b1, b2, b3, b4, b5, b6, b7⟩ := hro
    cases h2 r hr with
    | content r0 g1 g2 g3 g4 =>
      exact .content r0 g1 (rowOf_trans g2 ⟨b1, b2, b3, b4, b5, b6, b7⟩) (b4.trans g3) (b5.trans g4)
    | special s j g1 g2 g3 g4 g5 g6 g7 =>
      exact .special s j g1 (by rw [b1]; exact g2) (by rw [b2]; exact g3) (b3.trans g4) (hz g5) (b4.trans g6) (b5.trans g7)
    | padding p hp => cases hp
  · intro hon
    obtain ⟨part, g1, g2⟩ := h3 hon
    refine ⟨part, g1, each_comp (T := RowOf q) (fun a b c h1 h2 => rowOf_trans h1 h2.1) g2
      (contentRows_each (fun r r' h => h.1.2.2.2.1) heach)⟩

theorem good_trimAll {q once : Prop} (hq : q) {text : List Row} {S : List SpecialToken} {a : Bool} :
    ∀ {l m : List Enc}, (∀ x ∈ l, Good q once text S none x) → processAll a l = .ok m →
      ∀ x ∈ m, Good q once text S none x := by
  intro l
  induction l with
  | nil => intro m _ h; cases h; simp
  | cons b l ih =>
    intro m hl h x hx
    obtain ⟨c, hc, h⟩ := res_bind_ok.1 h
    obtain ⟨m', hm, h⟩ := res_bind_ok.1 h
    cases h
    rcases List.mem_cons.1 hx with rfl | hx
    · exact good_trim hq (hl b (by simp)) hc
    · exact ih (fun y hy => hl y (by simp [hy])) hm x hx

/-! ### Templates -/

theorem specialEnc_rows {S : List SpecialToken} (hS : ∀ s ∈ S, s.ids.length = s.tokens.length) (p : Piece) :
    ∃ rows, HasRows (specialEnc S p) rows ∧ ∀ r ∈ rows, ∃ s ∈ S, ∃ j : Nat, s.ids[j]? = some r.id ∧ s.tokens[j]? = some r.token ∧
      r.word = none ∧ r.offsets = (0, 0) ∧ r.special = 1 ∧ r.attention = 1 := by
  have key : ∀ t : SpecialToken, t.ids.length = t.tokens.length → ∃ rows : List Row,
      HasRows { ids := t.ids, tokens := t.tokens, typeIds := List.replicate t.ids.length p.typeId,
                words := List.replicate t.ids.length none, offsets := List.replicate t.ids.length (0, 0),
                specialTokensMask := List.replicate t.ids.length 1, attentionMask := List.replicate t.ids.length 1 } rows ∧
      ∀ r ∈ rows, ∃ j : Nat, t.ids[j]? = some r.id ∧ t.tokens[j]? = some r.token ∧
        r.word = none ∧ r.offsets = (0, 0) ∧ r.special = 1 ∧ r.attention = 1 := by
    intro t hl
    refine ⟨(t.ids.zip t.tokens).map fun q =>
      { id := q.1, typeId := p.typeId, token := q.2, word := none, offsets := (0, 0), special := 1, attention := 1 }, ?_, ?_⟩
    · have hz : (t.ids.zip t.tokens).length = t.ids.length := by simp [hl]
      have h1 : (t.ids.zip t.tokens).map Prod.fst = t.ids := List.map_fst_zip (by omega)
      have h2 : (t.ids.zip t.tokens).map Prod.snd = t.tokens := List.map_snd_zip (by omega)
      have hc : ∀ {β : Type} (b : β), (t.ids.zip t.tokens).map (fun _ => b) = List.replicate t.ids.length b := by
        intro β b; rw [← hz, List.map_const']
      simp only [HasRows, List.map_map]
      refine ⟨h1.symm, (hc _).symm, h2.symm, (hc _).symm, (hc _).symm, (hc _).symm, (hc _).symm⟩
    · intro r hr
      obtain ⟨⟨i, k⟩, hq, rfl⟩ := List.mem_map.1 hr
      obtain ⟨j, hj, hjq⟩ := List.getElem_of_mem hq
      rw [List.getElem_zip] at hjq
      rw [List.length_zip] at hj
      simp only [Prod.mk.injEq] at hjq
      refine ⟨j, ?_, ?_, rfl, rfl, rfl, rfl⟩
      · rw [List.getElem?_eq_getElem (by omega), hjq.1]
      · rw [List.getElem?_eq_getElem (by omega), hjq.2]
  unfold specialEnc
  cases hf : S.find? fun s => s.id == p.id with
  | none => exact ⟨[], hasRows_nil, by simp⟩
  | some t =>
    have hm := List.mem_of_find?_eq_some hf
    obtain ⟨rows, h1, h2⟩ := key t (hS t hm)
    exact ⟨rows, h1, fun r hr => ⟨t, hm, h2 r hr⟩⟩

theorem each_kind {q : Prop} {text : List Row} {S : List SpecialToken} {l m : List Row}
    (h : Each (fun r r' => RowOf q r r' ∧ r'.offsets = r.offsets) l m) (hl : ∀ r ∈ l, RowKind q text S none r) :
    ∀ r ∈ m, RowKind q text S none r := by
  intro r' hr'
  obtain ⟨r, hr, hro, ho⟩ := each_mem_right h r' hr'
  obtain ⟨b1, b2, b3, b4, b5, b6, b7⟩ := hro
  cases hl r hr with
  | content r0 g1 g2 g3 g4 =>
    exact .content r0 g1 (rowOf_trans g2 ⟨b1, b2, b3, b4, b5, b6, b7⟩) (b4.trans g3) (b5.trans g4)
  | special s j g1 g2 g3 g4 g5 g6 g7 =>
    exact .special s j g1 (by rw [b1]; exact g2) (by rw [b2]; exact g3) (b3.trans g4) (ho.trans g5) (b4.trans g6) (b5.trans g7)
  | padding p hp => cases hp

/-- Number of `Sequence` pieces. -/
def seqCount (s : List Piece) : Nat := (s.filter fun p => p.kind = b!"Sequence").length

theorem template_rows {q : Prop} {text : List Row} {S S0 : List SpecialToken} (hS : ∀ s ∈ S0, s.ids.length = s.tokens.length)
    (hsub : ∀ s ∈ S0, s ∈ S) (add : Bool) : ∀ (single : List Piece) (e acc : Enc) (rows racc : List Row),
    HasRows e rows → (∀ r ∈ rows, RowKind q text S none r) → HasRows acc racc →
    ∃ out, HasRows ((templateParts S0 add single e).foldl Enc.append acc) (racc ++ out) ∧
      (∀ r ∈ out, RowKind q text S none r) ∧
      (seqCount single = 0 → contentRows out = []) ∧
      (seqCount single ≤ 1 → contentRows out = [] ∨ Each (RowOf q) (contentRows rows) (contentRows out)) := by
  intro single
  induction single with
  | nil =>
    intro e acc rows racc _ _ hacc
    exact ⟨[], by simpa [templateParts] using hacc, by simp, fun _ => rfl, fun _ => .inl rfl⟩
  | cons p single ih =>
    intro e acc rows racc he hk hacc
    by_cases hkind : p.kind = b!"Sequence"
    · have hstep : ∃ e' rows', HasRows e' rows' ∧ Each (fun r r' => RowOf q r r' ∧ r'.offsets = r.offsets) rows rows' ∧
          templateParts S0 add (p :: single) e = e' :: templateParts S0 add single e' := by
        simp only [templateParts, hkind, if_true]
        by_cases hA : p.id = b!"A"
        · refine ⟨{ e with typeIds := List.replicate e.typeIds.length p.typeId },
            rows.map fun r => { r with typeId := p.typeId }, ?_, ?_, by simp only [hA, if_true]⟩
          · obtain ⟨a1, a2, a3, a4, a5, a6, a7⟩ := he
            refine ⟨by simpa [Function.comp_def] using a1, ?_, by simpa [Function.comp_def] using a3, by simpa [Function.comp_def] using a4,
              by simpa [Function.comp_def] using a5, by simpa [Function.comp_def] using a6, by simpa [Function.comp_def] using a7⟩
            simp [a2, Function.comp_def, List.map_const']
          · exact each_map_self _ _ fun r _ => ⟨⟨rfl, rfl, rfl, rfl, rfl, narrowed_refl _, fun _ => rfl⟩, rfl⟩
        · exact ⟨e, rows, he, each_refl (fun r => ⟨rowOf_refl q r, rfl⟩) rows, by simp only [hA, if_false]⟩
      obtain ⟨e', rows', he', heach, hparts⟩ := hstep
      have hk' := each_kind heach hk
      obtain ⟨out, h1, h2, h3, h4⟩ := ih e' (acc.append e') rows' (racc ++ rows') he' hk' (hasRows_append hacc he')
      refine ⟨rows' ++ out, ?_, ?_, ?_, ?_⟩
      · rw [hparts]; simpa using h1
      · intro r hr
        rcases List.mem_append.1 hr with hr | hr
        · exact hk' r hr
        · exact h2 r hr
      · intro hz; simp [seqCount, hkind] at hz
      · intro hz
        have hz' : seqCount single = 0 := by simp [seqCount, hkind] at hz; simp [seqCount]; exact hz
        have hc : contentRows (rows' ++ out) = contentRows rows' := by
          have := h3 hz'
          unfold contentRows at this ⊢
          rw [List.filter_append, this, List.append_nil]
        rw [hc]
        exact .inr (each_comp (T := RowOf q) (fun a b c h1 h2 => rowOf_trans h1 h2.1) (each_refl (rowOf_refl q) _)
          (contentRows_each (fun r r' h => h.1.2.2.2.1) heach))
    · have hcount : seqCount (p :: single) = seqCount single := by simp [seqCount, hkind]
      rw [hcount]
      by_cases hsp : p.kind = b!"SpecialToken" ∧ add = true
      · have hparts : templateParts S0 add (p :: single) e = specialEnc S0 p :: templateParts S0 add single e := by
          simp only [templateParts, if_neg hkind, if_pos hsp.1, hsp.2, if_true]
        obtain ⟨srows, hs1, hs2⟩ := specialEnc_rows hS p
        obtain ⟨out, h1, h2, h3, h4⟩ := ih e (acc.append (specialEnc S0 p)) rows (racc ++ srows) he hk (hasRows_append hacc hs1)
        have hc : contentRows (srows ++ out) = contentRows out := by
          unfold contentRows
          rw [List.filter_append]
          have : srows.filter (fun r => decide (r.special = 0)) = [] := by
            rw [List.filter_eq_nil_iff]; intro r hr
            obtain ⟨s, _, j, _, _, _, _, h, _⟩ := hs2 r hr
            simp [h]
          rw [this, List.nil_append]
        refine ⟨srows ++ out, ?_, ?_, ?_, ?_⟩
        · rw [hparts]; simpa using h1
        · intro r hr
          rcases List.mem_append.1 hr with hr | hr
          · obtain ⟨s, hm, j, g1, g2, g3, g4, g5, g6⟩ := hs2 r hr
            exact .special s j (hsub s hm) g1 g2 g3 g4 g5 g6
          · exact h2 r hr
        · rw [hc]; exact h3
        · rw [hc]; exact h4
      · have hparts : templateParts S0 add (p :: single) e = templateParts S0 add single e := by
          simp only [templateParts, if_neg hkind]
          by_cases h1 : p.kind = b!"SpecialToken"
          · have h2 : ¬ add = true := fun h => hsp ⟨h1, h⟩
            simp only [h1, if_true, h2]
            simp
          · simp only [if_neg h1]
        rw [hparts]
        exact ih e acc rows racc he hk hacc

theorem holds_nil (q : Prop) (text : List Row) {rows : List Row} (h : contentRows rows = []) : HoldsPart q text rows :=
  ⟨[], List.nil_infix, by rw [h]; exact .nil⟩

theorem good_template {q once : Prop} {text : List Row} {S S0 : List SpecialToken}
    (hS : ∀ s ∈ S0, s.ids.length = s.tokens.length) (hsub : ∀ s ∈ S0, s ∈ S) (add : Bool) (single : List Piece)
    (hon : once → seqCount single ≤ 1) {e : Encoding} (h : AllEnc (Good q once text S none) e) :
    AllEnc (Good q once text S none) (templateProcess single S0 add e) := by
  refine ⟨?_, by simp [templateProcess]⟩
  obtain ⟨rows, h1, h2, h3⟩ := h.1
  obtain ⟨out, g1, g2, g3, g4⟩ := template_rows (q := q) (text := text) hS hsub add single e.toEnc {} rows [] h1 h2 hasRows_nil
  refine ⟨out, by simpa [templateProcess] using g1, g2, fun ho => ?_⟩
  rcases g4 (hon ho) with g | g
  · exact holds_nil q text g
  · obtain ⟨part, k1, k2⟩ := h3 ho
    exact ⟨part, k1, each_comp (R := RowOf q) (S := RowOf q) (T := RowOf q) (fun a b c h1 h2 => rowOf_trans h1 h2) k2 g⟩

theorem good_byteLevel {q once : Prop} {text : List Row} {S : List SpecialToken} {a trim : Bool} (hq : trim = true → q)
    {e e' : Encoding} (h : AllEnc (Good q once text S none) e) (hr : byteLevelProcess a trim e = .ok e') :
    AllEnc (Good q once text S none) e' := by
  unfold byteLevelProcess at hr
  cases trim with
  | false => cases hr; exact h
  | true =>
    simp only [if_true] at hr
    obtain ⟨m, hm, hr⟩ := res_bind_ok.1 hr
    obtain ⟨o, ho, hr⟩ := res_bind_ok.1 hr
    cases hr
    exact ⟨good_trim (hq rfl) h.1 hm, good_trimAll (hq rfl) h.2 ho⟩

theorem good_postProcessor {q once : Prop} {text : List Row} {S : List SpecialToken} {add : Bool} (p : PostProcessor)
    (hS : ∀ s ∈ specialsOf p, s.ids.length = s.tokens.length ∧ s ∈ S) (hon : once → SequenceOnce p) (hq : Trims p → q)
    {e e' : Encoding} (h : AllEnc (Good q once text S none) e) (hr : p.run add e = .ok e') :
    AllEnc (Good q once text S none) e' := by
  refine PostProcessor.rec
    (motive_1 := fun p => (∀ s ∈ specialsOf p, s.ids.length = s.tokens.length ∧ s ∈ S) → (once → SequenceOnce p) →
      (Trims p → q) → ∀ e e' : Encoding, AllEnc (Good q once text S none) e → p.run add e = .ok e' →
      AllEnc (Good q once text S none) e')
    (motive_2 := fun l => (∀ s ∈ specialsOfList l, s.ids.length = s.tokens.length ∧ s ∈ S) → (once → SequenceOnceList l) →
      (TrimsList l → q) → ∀ e e' : Encoding, AllEnc (Good q once text S none) e → PostProcessor.runList add l e = .ok e' →
      AllEnc (Good q once text S none) e') ?_ ?_ ?_ ?_ ?_ p hS hon hq e e' h hr
  · intro single _ S0 hS hon _ e e' h hr
    simp only [PostProcessor.run] at hr
    cases hr
    exact good_template (fun s hs => (hS s hs).1) (fun s hs => (hS s hs).2) add single (fun ho => hon ho) h
  · intro a trim _ _ hq e e' h hr
    exact good_byteLevel (fun ht => hq ht) h hr
  · intro l ih hS hon hq e e' h hr
    exact ih hS hon hq e e' h hr
  · intro _ _ _ e e' h hr
    simp only [PostProcessor.runList] at hr
    cases hr; exact h
  · intro p l ih1 ih2 hS hon hq e e' h hr
    simp only [PostProcessor.runList] at hr
    obtain ⟨e1, h1, h2⟩ := res_bind_ok.1 hr
    refine ih2 (fun s hs => hS s (by simp [specialsOfList, hs])) (fun ho => (hon ho).2) (fun ht => hq (.inr ht)) e1 e' ?_ h2
    exact ih1 (fun s hs => hS s (by simp [specialsOfList, hs])) (fun ho => (hon ho).1) (fun ht => hq (.inl ht)) e e1 h h1

/-! ### encode -/

/-- The parts of a successful `encode`. -/
theorem encode_ok {P : Platform} {t : Tokenizer} {w : WStr} {b : Bool} {e : Encoding} (h : (t.encode P w b).1 = .ok e) :
    ∃ (q : PTS) (x : Enc), TokenizedInto P t w q ∧ intoLoop q.normalized none 0 0 q.splits = .ok x ∧
      t.doPostProcess { toEnc := x, overflowing := [] } b = .ok e := by
  have h1 := preTokenized_state P t w
  unfold Tokenizer.encode at h
  generalize hR : t.preTokenized P w = R at h h1
  obtain ⟨r, t1⟩ := R
  cases r with
  | error e => cases h
  | ok p =>
    have hm : t1.model = t.model ∧ t1.truncation = t.truncation ∧ t1.postProcessor = t.postProcessor ∧ t1.padding = t.padding := by
      simp only at h1
      rcases h1 with rfl | ⟨a, _, rfl⟩ <;> exact ⟨rfl, rfl, rfl, rfl⟩
    simp only at h
    have h2 := doTokenize_state P t1 p
    generalize hD : t1.doTokenize P p = D at h h2
    obtain ⟨r2, t2⟩ := D
    cases r2 with
    | error e => cases h
    | ok e0 =>
      simp only at h h2
      have hpost : t.doPostProcess e0 b = .ok e := by
        have : t2.doPostProcess e0 b = t.doPostProcess e0 b := by
          rw [h2]; unfold Tokenizer.doPostProcess; simp only [hm.2.1, hm.2.2.1, hm.2.2.2]
        rw [← this]; exact h
      have hinto : ∀ (q : PTS), intoEncoding q none 0 = .ok e0 → ∃ x, intoLoop q.normalized none 0 0 q.splits = .ok x ∧
          e0 = { toEnc := x, overflowing := [] } := by
        intro q hq
        unfold intoEncoding at hq
        obtain ⟨x, hx, hq⟩ := res_bind_ok.1 hq
        cases hq
        exact ⟨x, hx, rfl⟩
      unfold Tokenizer.doTokenize at hD
      rw [hm.1] at hD
      cases hmod : t.model with
      | none =>
        rw [hmod] at hD
        simp only [Prod.mk.injEq] at hD
        obtain ⟨x, hx, rfl⟩ := hinto p hD.1
        exact ⟨p, x, ⟨p, by rw [hR], by rw [hmod]⟩, hx, hpost⟩
      | some m =>
        rw [hmod] at hD
        simp only [Prod.mk.injEq] at hD
        obtain ⟨q, hq, hi⟩ := res_bind_ok.1 hD.1
        obtain ⟨x, hx, rfl⟩ := hinto q hi
        exact ⟨q, x, ⟨p, by rw [hR], by rw [hmod]; exact hq⟩, hx, hpost⟩

theorem postProcess_ok {t : Tokenizer} {e e' : Encoding} {b : Bool} (h : t.doPostProcess e b = .ok e') :
    ∃ e1 e2, (match t.truncation with | some x => x.run e | none => .ok e) = .ok e1 ∧
      (match t.postProcessor with | some x => x.run b e1 | none => .ok e1) = .ok e2 ∧
      (match t.padding with | some x => x.run e2 | none => .ok e2) = .ok e' := by
  unfold Tokenizer.doPostProcess at h
  cases hT : t.truncation <;> cases hP : t.postProcessor <;> cases hp : t.padding <;>
    simp only [hT, hP, hp, res_ok_bind] at h ⊢
  · exact ⟨e, e, rfl, rfl, h⟩
  · exact ⟨e, e, rfl, rfl, h⟩
  · obtain ⟨e2, h1, h2⟩ := res_bind_ok.1 h; exact ⟨e, e2, rfl, h1, h2⟩
  · obtain ⟨e2, h1, h2⟩ := res_bind_ok.1 h; exact ⟨e, e2, rfl, h1, h2⟩
  · obtain ⟨e2, h1, h2⟩ := res_bind_ok.1 h; exact ⟨e2, e2, h1, rfl, h2⟩
  · obtain ⟨e1, h1, h2⟩ := res_bind_ok.1 h; exact ⟨e1, e1, h1, rfl, h2⟩
  · obtain ⟨e1, h1, h⟩ := res_bind_ok.1 h
    obtain ⟨e2, h2, h3⟩ := res_bind_ok.1 h; exact ⟨e1, e2, h1, h2, h3⟩
  · obtain ⟨e1, h1, h⟩ := res_bind_ok.1 h
    obtain ⟨e2, h2, h3⟩ := res_bind_ok.1 h; exact ⟨e1, e2, h1, h2, h3⟩

/-- Everything about the rows of a successful `encode`. -/
theorem encode_rows {P : Platform} {t : Tokenizer} {w : WStr} {b : Bool} {e : Encoding}
    (hS : ∀ s ∈ Specials t, s.ids.length = s.tokens.length) (h : (t.encode P w b).1 = .ok e) :
    ∃ (q : PTS) (text : List Row), TokenizedInto P t w q ∧ TextRows q.normalized 0 q.splits text ∧
      AllEnc (Good (∃ p, t.postProcessor = some p ∧ Trims p) (∀ p, t.postProcessor = some p → SequenceOnce p) text
        (Specials t) t.padding) e := by
  obtain ⟨q, x, hq, hx, hpost⟩ := encode_ok h
  obtain ⟨text, ht, hrows⟩ := intoLoop_rows _ _ _ _ hx
  refine ⟨q, text, hq, ht, ?_⟩
  obtain ⟨e1, e2, h1, h2, h3⟩ := postProcess_ok hpost
  have g0 : AllEnc (Good (∃ p, t.postProcessor = some p ∧ Trims p) (∀ p, t.postProcessor = some p → SequenceOnce p) text
      (Specials t) none) ({ toEnc := x, overflowing := [] } : Encoding) :=
    ⟨text_good ht hrows _ _ _, by simp⟩
  have g1 : AllEnc (Good (∃ p, t.postProcessor = some p ∧ Trims p) (∀ p, t.postProcessor = some p → SequenceOnce p) text
      (Specials t) none) e1 := by
    cases hT : t.truncation with
    | none => rw [hT] at h1; cases h1; exact g0
    | some tr => rw [hT] at h1; exact good_truncation g0 h1
  have g2 : AllEnc (Good (∃ p, t.postProcessor = some p ∧ Trims p) (∀ p, t.postProcessor = some p → SequenceOnce p) text
      (Specials t) none) e2 := by
    cases hP : t.postProcessor with
    | none => rw [hP] at h2; cases h2; rw [hP] at g1; exact g1
    | some p =>
      rw [hP] at h2
      have hSp : Specials t = specialsOf p := by simp [Specials, hP]
      rw [← hP]
      refine good_postProcessor p (fun s hs => ?_) (fun ho => ho p hP) (fun ht => ⟨p, hP, ht⟩) g1 h2
      exact ⟨hS s (by rw [hSp]; exact hs), by rw [hSp]; exact hs⟩
  cases hp : t.padding with
  | none =>
    rw [hp] at h3
    cases h3; exact g2
  | some pd => rw [hp] at h3; exact good_padding g2 h3

end Tok
