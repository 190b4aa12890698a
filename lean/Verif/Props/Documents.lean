import Verif.Spec.Documents
import Verif.Props.Order

set_option autoImplicit false

/-!
C125: documents with the same content.
-/

namespace Tok
open Spec

mutual
theorem sd_symm {k : Str} {j j' : Json} (h : SameContent k j j') : SameContent k j' j := by
  match h with
  | .same k j => exact .same k j
  | .string h => exact .string fun s => (h s).symm
  | .array h => exact .array (sd_elements h)
  | .record h0 h1 h2 h3 h4 => exact .record h0 h2 h1 (fun n hn => (h3 n hn).symm) fun n v v' hn hv hv' => sd_symm (h4 n v' v hn hv' hv)
  | .vocabulary h1 h2 => exact .vocabulary ((h2.map _).nodup_iff.1 h1) h2.symm
  | .fields h => exact .fields (sd_fields h)
theorem sd_elements {k : Str} {l l' : List Json} (h : SameElements k l l') : SameElements k l' l := by
  match h with
  | .nil => exact .nil
  | .cons h1 h2 => exact .cons (sd_symm h1) (sd_elements h2)
theorem sd_fields {l l' : List (Str × Json)} (h : SameFields l l') : SameFields l' l := by
  match h with
  | .nil => exact .nil
  | .cons h1 h2 => exact .cons (sd_symm h1) (sd_fields h2)
end

theorem sd_first {l : List (Str × Json)} (h : (l.map (·.1)).Nodup) (k : Str) (v : Json) : First l k v ↔ (k, v) ∈ l := by
  rw [← first_iff]
  exact mapFind_iff_mem h k v

theorem sd_same_first {l l' : List (Str × Json)} (h : SameFields l l') (n : Str) : ∀ v, mapFind l n = some v →
    ∃ v', mapFind l' n = some v' ∧ SameContent n v v' := by
  match h with
  | .nil => intro v h; cases h
  | .cons (k := k) h1 h2 =>
    intro v hv
    simp only [mapFind] at hv ⊢
    by_cases e : k = n
    · subst e
      rw [if_pos rfl] at hv
      rw [if_pos rfl]
      cases hv
      exact ⟨_, rfl, h1⟩
    · rw [if_neg e] at hv
      rw [if_neg e]
      exact sd_same_first h2 n v hv

theorem sd_field {k n : Str} {j j' v : Json} (h : SameContent k j j') (hn : n ∈ fieldNames) (hv : Field j n v) :
    ∃ v', Field j' n v' ∧ SameContent n v v' := by
  obtain ⟨l, rfl, hv⟩ := hv
  cases h with
  | same => exact ⟨v, ⟨l, rfl, hv⟩, .same _ _⟩
  | record h0 h1 h2 h3 h4 =>
    rw [sd_first h1] at hv
    obtain ⟨v', hv'⟩ := (h3 n hn).1 ⟨v, hv⟩
    exact ⟨v', ⟨_, rfl, (sd_first h2 n v').2 hv'⟩, h4 n v v' hn hv hv'⟩
  | vocabulary h1 h2 =>
    rw [sd_first h1] at hv
    exact ⟨v, ⟨_, rfl, (sd_first ((h2.map _).nodup_iff.1 h1) n v).2 (h2.mem_iff.1 hv)⟩, .same _ _⟩
  | fields h =>
    obtain ⟨v', g1, g2⟩ := sd_same_first h n v ((first_iff _ _ _).2 hv)
    exact ⟨v', ⟨_, rfl, (first_iff _ _ _).1 g1⟩, g2⟩

theorem sd_null {k : Str} {j j' : Json} (h : SameContent k j j') : j = .null ↔ j' = .null := by
  cases h <;> simp

theorem sd_string {k : Str} {j j' : Json} {s : Str} (h : SameContent k j j') : StringOf j s → StringOf j' s := by
  rintro ⟨raw, rfl, hs⟩
  cases h with
  | same => exact ⟨_, rfl, hs⟩
  | string h => exact ⟨_, rfl, (h s).1 hs⟩

theorem sd_bool {k : Str} {j j' : Json} {b : Bool} (h : SameContent k j j') : BoolOf j b → BoolOf j' b := by
  rintro rfl
  cases h; rfl

theorem sd_int {k : Str} {j j' : Json} {i : Int} (h : SameContent k j j') : IntOf j i → IntOf j' i := by
  rintro ⟨t, n, rfl, hs⟩
  cases h; exact ⟨t, n, rfl, hs⟩

theorem sd_all {α : Type} {R : Json → α → Prop} {k : Str} (hR : ∀ j j' x, SameContent k j j' → R j x → R j' x) {l l' : List Json}
    (h : SameElements k l l') : ∀ {x : List α}, AllOf R l x → AllOf R l' x := by
  match h with
  | .nil => intro x hx; exact hx
  | .cons h1 h2 =>
    intro x hx
    cases hx with
    | cons g1 g2 => exact .cons (hR _ _ _ h1 g1) (sd_all hR h2 g2)

theorem sd_all_refl (k : Str) (l : List Json) : SameElements k l l := by
  induction l with
  | nil => exact .nil
  | cons j l ih => exact .cons (.same _ _) ih

theorem sd_array {α : Type} {R : Json → α → Prop} {k : Str} (hR : ∀ j j' x, SameContent k j j' → R j x → R j' x) {j j' : Json} {x : List α}
    (h : SameContent k j j') : ArrayOf R j x → ArrayOf R j' x := by
  rintro ⟨l, rfl, hx⟩
  cases h with
  | same => exact ⟨l, rfl, hx⟩
  | array h => exact ⟨_, rfl, sd_all hR h hx⟩

theorem sd_arr {k : Str} {l : List Json} {j' : Json} (h : SameContent k (.arr l) j') : ∃ l', j' = .arr l' ∧ SameElements k l l' := by
  cases h with
  | same => exact ⟨l, rfl, sd_all_refl k l⟩
  | array h => exact ⟨_, rfl, h⟩

theorem sd_orNull {α : Type} {R : Json → α → Prop} {d x : α} {n : Str} (hR : ∀ j j' x, SameContent n j j' → R j x → R j' x)
    {v v' : Json} (h : SameContent n v v') : OrNull R d v x → OrNull R d v' x := by
  rintro (⟨h1, h2⟩ | ⟨h1, h2⟩)
  · exact .inl ⟨(sd_null h).1 h1, h2⟩
  · exact .inr ⟨fun e => h1 ((sd_null h).2 e), hR _ _ _ h h2⟩

theorem sd_opt {α : Type} {R : Json → α → Prop} {d x : α} {k n : Str} {j j' : Json} (hR : ∀ j j' x, SameContent n j j' → R j x → R j' x)
    (h : SameContent k j j') (hn : n ∈ fieldNames) : Opt R d j n x → Opt R d j' n x := by
  rintro ⟨v, hv, hx⟩
  obtain ⟨v', g1, g2⟩ := sd_field h hn hv
  exact ⟨v', g1, sd_orNull hR g2 hx⟩

theorem sd_fieldIs {α : Type} {R : Json → α → Prop} {x : α} {k n : Str} {j j' : Json} (hR : ∀ j j' x, SameContent n j j' → R j x → R j' x)
    (h : SameContent k j j') (hn : n ∈ fieldNames) : (∃ v, Field j n v ∧ R v x) → ∃ v, Field j' n v ∧ R v x := by
  rintro ⟨v, hv, hx⟩
  obtain ⟨v', g1, g2⟩ := sd_field h hn hv
  exact ⟨v', g1, hR _ _ _ g2 hx⟩

theorem sd_type {k : Str} {j j' : Json} {s : Str} (h : SameContent k j j') : HasType j s → HasType j' s :=
  sd_fieldIs (fun _ _ _ => sd_string) h (by decide)

/-! ### Components -/

theorem sd_truncation {k : Str} {j j' : Json} {t : Truncation} (h : SameContent k j j') : TruncationOf j t → TruncationOf j' t := by
  rintro ⟨⟨s, a1, a2⟩, ⟨s', b1, b2⟩, c, d⟩
  exact ⟨⟨s, sd_opt (fun _ _ _ => sd_string) h (by decide) a1, a2⟩, ⟨s', sd_opt (fun _ _ _ => sd_string) h (by decide) b1, b2⟩,
    sd_opt (fun _ _ _ => sd_int) h (by decide) c, sd_opt (fun _ _ _ => sd_int) h (by decide) d⟩

theorem sd_snoc {l : List (Str × Json)} {n : Str} {v : Json} : ∀ {l'}, SameFields (l ++ [(n, v)]) l' →
    ∃ l1 v', l' = l1 ++ [(n, v')] ∧ SameFields l l1 ∧ SameContent n v v' := by
  induction l with
  | nil =>
    intro l' h
    cases h with
    | cons h1 h2 => cases h2; exact ⟨[], _, rfl, .nil, h1⟩
  | cons x l ih =>
    intro l' h
    cases h with
    | cons h1 h2 =>
      obtain ⟨l1, v', rfl, g1, g2⟩ := ih h2
      exact ⟨_ :: l1, v', rfl, .cons h1 g1, g2⟩

theorem sd_ints {l l' : List (Str × Json)} (h : SameFields l l') (hl : ∀ f ∈ l, ∃ i, IntOf f.2 i) : ∀ f ∈ l', ∃ i, IntOf f.2 i := by
  match h with
  | .nil => intro f hf; cases hf
  | .cons h1 h2 =>
    intro f hf
    rcases List.mem_cons.1 hf with rfl | hf
    · obtain ⟨i, hi⟩ := hl _ (List.mem_cons_self ..)
      exact ⟨i, sd_int h1 hi⟩
    · exact sd_ints h2 (fun f hf => hl f (List.mem_cons_of_mem _ hf)) f hf

theorem sd_strategy {j j' : Json} {s : Str} {i : Int} (h : SameContent b!"strategy" j j') : PadStrategy j s i → PadStrategy j' s i := by
  rintro (⟨h1, h2⟩ | ⟨h1, h2⟩ | ⟨h1, h2⟩ | ⟨l, v, h1, h2, h3⟩)
  · exact .inl ⟨(sd_null h).1 h1, h2⟩
  · exact .inr (.inl ⟨sd_string h h1, h2⟩)
  · subst h1
    generalize hk : b!"strategy" = k at h
    cases h with
    | same => exact .inr (.inr (.inl ⟨rfl, h2⟩))
    | record h0 => subst hk; exact absurd h0 (by decide)
    | vocabulary => cases hk
    | fields h => cases h; exact .inr (.inr (.inl ⟨rfl, h2⟩))
  · subst h1
    generalize hk : b!"strategy" = k at h
    cases h with
    | same => exact .inr (.inr (.inr ⟨l, v, rfl, h2, h3⟩))
    | record h0 => subst hk; exact absurd h0 (by decide)
    | vocabulary => cases hk
    | fields h =>
      obtain ⟨l1, v', rfl, g1, g2⟩ := sd_snoc h
      exact .inr (.inr (.inr ⟨l1, v', rfl, sd_ints g1 h2, sd_int g2 h3⟩))

theorem sd_padding {k : Str} {j j' : Json} {t : Padding} (h : SameContent k j j') : PaddingOf j t → PaddingOf j' t := by
  rintro ⟨⟨s, a1, a2⟩, ⟨v, s', b1, b2, b3⟩, c1, c2, c3, c4⟩
  obtain ⟨v', g1, g2⟩ := sd_field h (by decide) b1
  exact ⟨⟨s, sd_opt (fun _ _ _ => sd_string) h (by decide) a1, a2⟩, ⟨v', s', g1, sd_strategy g2 b2, b3⟩,
    sd_opt (fun _ _ _ => sd_int) h (by decide) c1, sd_opt (fun _ _ _ => sd_int) h (by decide) c2,
    sd_opt (fun _ _ _ => sd_string) h (by decide) c3, sd_opt (fun _ _ _ => sd_int) h (by decide) c4⟩

theorem sd_keys {n : Str} {l l' : List (Str × Json)} (h : SameFields l l') (hl : ∀ f ∈ l, f.1 ≠ n) : ∀ f ∈ l', f.1 ≠ n := by
  match h with
  | .nil => exact hl
  | .cons h1 h2 =>
    intro f hf
    rcases List.mem_cons.1 hf with rfl | hf
    · exact fun e => hl _ (List.mem_cons_self ..) e
    · exact sd_keys h2 (fun f hf => hl f (List.mem_cons_of_mem _ hf)) f hf

theorem sd_last {α : Type} {R : Json → α → Prop} {d x : α} {l : List (Str × Json)} (hn : (l.map (·.1)).Nodup) (k : Str) :
    LastField R d l k x ↔ ((∀ v, (k, v) ∉ l) ∧ x = d) ∨ ∃ v, (k, v) ∈ l ∧ R v x := by
  constructor
  · rintro ⟨-, ⟨h1, h2⟩ | ⟨A, v, B, rfl, -, h⟩⟩
    · exact .inl ⟨fun v hv => h1 _ hv rfl, h2⟩
    · exact .inr ⟨v, by simp, h⟩
  · have one : ∀ v v', (k, v) ∈ l → (k, v') ∈ l → v = v' := by
      intro v v' h h'
      have := (mapFind_iff_mem hn _ _).2 h
      rw [(mapFind_iff_mem hn _ _).2 h'] at this
      cases this; rfl
    rintro (⟨h1, h2⟩ | ⟨v, hv, h⟩)
    · refine ⟨fun f hf e => ?_, .inl ⟨fun f hf e => ?_, h2⟩⟩ <;>
        exact absurd (show (k, f.2) ∈ l by rw [← e]; exact hf) (h1 _)
    · refine ⟨fun f hf e => ⟨x, ?_⟩, .inr ?_⟩
      · rw [one f.2 v (by rw [← e]; exact hf) hv]; exact h
      · obtain ⟨A, B, rfl⟩ := List.append_of_mem hv
        refine ⟨A, v, B, rfl, ?_, h⟩
        rintro f hf rfl
        rw [List.map_append, List.map_cons, List.nodup_append] at hn
        exact (List.nodup_cons.1 hn.2.1).1 (List.mem_map.2 ⟨f, hf, rfl⟩)

theorem sd_last_fields {α : Type} {R : Json → α → Prop} {d x : α} {n : Str} (hR : ∀ j j' x, SameContent n j j' → R j x → R j' x)
    {l l' : List (Str × Json)} (h : SameFields l l') : LastField R d l n x → LastField R d l' n x := by
  match h with
  | .nil => exact id
  | .cons (k := k) (l := l) (l' := l') (j := j) (j' := j') h1 h2 =>
    rintro ⟨g1, g2⟩
    have tail : ∀ {y}, LastField R d l n y → LastField R d l' n y := sd_last_fields hR h2
    have g1' : ∀ f ∈ l, f.1 = n → ∃ y, R f.2 y := fun f hf => g1 f (List.mem_cons_of_mem _ hf)
    have head : k = n → ∃ y, R j' y := by
      rintro rfl
      obtain ⟨y, hy⟩ := g1 _ (List.mem_cons_self ..) rfl
      exact ⟨y, hR _ _ _ h1 hy⟩
    rcases g2 with ⟨a1, a2⟩ | ⟨A, v, B, e, hB, hv⟩
    · obtain ⟨b1, b2⟩ := tail ⟨g1', .inl ⟨fun f hf => a1 f (List.mem_cons_of_mem _ hf), a2⟩⟩
      refine ⟨fun f hf e => ?_, ?_⟩
      · rcases List.mem_cons.1 hf with rfl | hf
        · exact head e
        · exact b1 f hf e
      · rcases b2 with ⟨b2, b3⟩ | ⟨A, v, B, e, hB, hv⟩
        · refine .inl ⟨fun f hf => ?_, b3⟩
          rcases List.mem_cons.1 hf with rfl | hf
          · exact fun e => a1 _ (List.mem_cons_self ..) e
          · exact b2 f hf
        · exact .inr ⟨_ :: A, v, B, by rw [e]; rfl, hB, hv⟩
    · cases A with
      | nil =>
        cases e
        obtain ⟨b1, b2⟩ := tail (y := d) ⟨g1', .inl ⟨hB, rfl⟩⟩
        refine ⟨fun f hf e => ?_, ?_⟩
        · rcases List.mem_cons.1 hf with rfl | hf
          · exact head e
          · exact b1 f hf e
        · refine .inr ⟨[], j', l', rfl, ?_, hR _ _ _ h1 hv⟩
          exact sd_keys h2 hB
      | cons a A =>
        cases e
        obtain ⟨b1, b2⟩ := tail (y := x) ⟨g1', .inr ⟨A, v, B, rfl, hB, hv⟩⟩
        refine ⟨fun f hf e => ?_, ?_⟩
        · rcases List.mem_cons.1 hf with rfl | hf
          · exact head e
          · exact b1 f hf e
        · rcases b2 with ⟨b2, -⟩ | ⟨A', v, B, e, hB, hv⟩
          · exact absurd rfl (sd_keys (sd_fields h2) b2 (n, v) (by simp))
          · exact .inr ⟨_ :: A', v, B, by rw [e]; rfl, hB, hv⟩

theorem sd_last_record {α : Type} {R : Json → α → Prop} {d x : α} {n : Str} (hR : ∀ j j' x, SameContent n j j' → R j x → R j' x)
    {l l' : List (Str × Json)} (h1 : (l.map (·.1)).Nodup) (h2 : (l'.map (·.1)).Nodup) (hn : n ∈ fieldNames)
    (h3 : ∀ n ∈ fieldNames, (∃ v, (n, v) ∈ l) ↔ ∃ v, (n, v) ∈ l')
    (h4 : ∀ n v v', n ∈ fieldNames → (n, v) ∈ l → (n, v') ∈ l' → SameContent n v v') :
    LastField R d l n x → LastField R d l' n x := by
  rw [sd_last h1, sd_last h2]
  rintro (⟨a, b⟩ | ⟨v, a, b⟩)
  · refine .inl ⟨fun v hv => ?_, b⟩
    obtain ⟨v', hv'⟩ := (h3 n hn).2 ⟨v, hv⟩
    exact a v' hv'
  · obtain ⟨v', hv'⟩ := (h3 n hn).1 ⟨v, a⟩
    exact .inr ⟨v', hv', hR _ _ _ (h4 n v v' hn a hv') b⟩

theorem sd_addedToken {k : Str} {j j' : Json} {t : AddedToken} (hk : k ≠ b!"vocab") (h : SameContent k j j') :
    AddedTokenOf j t → AddedTokenOf j' t := by
  rintro ⟨l, rfl, a1, a2, a3, a4, a5, a6, a7⟩
  cases h with
  | same => exact ⟨l, rfl, a1, a2, a3, a4, a5, a6, a7⟩
  | vocabulary => exact absurd rfl hk
  | fields h =>
    exact ⟨_, rfl, sd_last_fields (R := IntOf) (fun _ _ _ => sd_int) h a1, sd_last_fields (R := StringOf) (fun _ _ _ => sd_string) h a2,
      sd_last_fields (R := BoolOf) (fun _ _ _ => sd_bool) h a3, sd_last_fields (R := BoolOf) (fun _ _ _ => sd_bool) h a4, sd_last_fields (R := BoolOf) (fun _ _ _ => sd_bool) h a5,
      sd_last_fields (R := BoolOf) (fun _ _ _ => sd_bool) h a6, sd_last_fields (R := BoolOf) (fun _ _ _ => sd_bool) h a7⟩
  | record h0 h1 h2 h3 h4 =>
    exact ⟨_, rfl, sd_last_record (R := IntOf) (fun _ _ _ => sd_int) h1 h2 (by decide) h3 h4 a1,
      sd_last_record (R := StringOf) (fun _ _ _ => sd_string) h1 h2 (by decide) h3 h4 a2, sd_last_record (R := BoolOf) (fun _ _ _ => sd_bool) h1 h2 (by decide) h3 h4 a3,
      sd_last_record (R := BoolOf) (fun _ _ _ => sd_bool) h1 h2 (by decide) h3 h4 a4, sd_last_record (R := BoolOf) (fun _ _ _ => sd_bool) h1 h2 (by decide) h3 h4 a5,
      sd_last_record (R := BoolOf) (fun _ _ _ => sd_bool) h1 h2 (by decide) h3 h4 a6, sd_last_record (R := BoolOf) (fun _ _ _ => sd_bool) h1 h2 (by decide) h3 h4 a7⟩

theorem sd_addedTokens {j j' : Json} {t : AddedVocab} (h : SameContent b!"added_tokens" j j') :
    AddedTokensOf j t → AddedTokensOf j' t := by
  rintro ⟨l, hl, ht⟩
  exact ⟨l, sd_array (R := AddedTokenOf) (fun _ _ _ => sd_addedToken (by decide)) h hl, ht⟩

theorem sd_pattern {k kind : Str} {j j' : Json} {s : Str} (hk : kind ∈ fieldNames) (h : SameContent k j j') :
    PatternOf kind j s → PatternOf kind j' s := sd_fieldIs (fun _ _ _ => sd_string) h hk

theorem sd_listed {k n : Str} {j j' : Json} {l : List Json} (h : SameContent k j j') (hn : n ∈ fieldNames) (hv : Field j n (.arr l)) :
    ∃ l', Field j' n (.arr l') ∧ SameElements n l l' := by
  obtain ⟨v', g1, g2⟩ := sd_field h hn hv
  obtain ⟨l', rfl, g3⟩ := sd_arr g2
  exact ⟨l', g1, g3⟩

theorem sd_optString {n k : Str} {j j' : Json} {d s : Str} (h : SameContent k j j') (hn : n ∈ fieldNames) :
    Opt StringOf d j n s → Opt StringOf d j' n s := sd_opt (fun _ _ _ => sd_string) h hn
theorem sd_optBool {n k : Str} {j j' : Json} {d s : Bool} (h : SameContent k j j') (hn : n ∈ fieldNames) :
    Opt BoolOf d j n s → Opt BoolOf d j' n s := sd_opt (fun _ _ _ => sd_bool) h hn
theorem sd_optInt {n k : Str} {j j' : Json} {d s : Int} (h : SameContent k j j') (hn : n ∈ fieldNames) :
    Opt IntOf d j n s → Opt IntOf d j' n s := sd_opt (fun _ _ _ => sd_int) h hn
theorem sd_optPattern {n k kind : Str} {j j' : Json} {d s : Str} (hk : kind ∈ fieldNames) (h : SameContent k j j') (hn : n ∈ fieldNames) :
    Opt (PatternOf kind) d j n s → Opt (PatternOf kind) d j' n s := sd_opt (fun _ _ _ => sd_pattern hk) h hn

mutual
theorem sd_normalizer {j : Json} {x : Option Normalizer} (hx : NormalizerOf j x) : ∀ {k : Str} {j' : Json}, SameContent k j j' →
    NormalizerOf j' x := by
  match hx with
  | .sequence ht hl hs =>
    intro k j' h
    obtain ⟨l', g1, g2⟩ := sd_listed h (by decide) hl
    exact .sequence (sd_type h ht) g1 (sd_normalizers hs g2)
  | .nf ht hk => intro k j' h; exact .nf (sd_type h ht) hk
  | .prepend ht a => intro k j' h; exact .prepend (sd_type h ht) (sd_optString h (by decide) a)
  | .replace ht a b => intro k j' h; exact .replace (sd_type h ht) (sd_optPattern (by decide) h (by decide) a) (sd_optString h (by decide) b)
  | .bert ht a b c d =>
    intro k j' h
    exact .bert (sd_type h ht) (sd_optBool h (by decide) a) (sd_optBool h (by decide) b) (sd_optBool h (by decide) c) (sd_optBool h (by decide) d)
  | .strip ht a b => intro k j' h; exact .strip (sd_type h ht) (sd_optBool h (by decide) a) (sd_optBool h (by decide) b)
  | .stripAccents ht => intro k j' h; exact .stripAccents (sd_type h ht)
  | .other ht hs => intro k j' h; exact .other (sd_type h ht) hs
theorem sd_normalizers {l : List Json} {x : List Normalizer} (hx : NormalizersOf l x) : ∀ {k : Str} {l' : List Json}, SameElements k l l' →
    NormalizersOf l' x := by
  match hx with
  | .nil => intro k l' h; cases h; exact .nil
  | .cons a b => intro k l' h; cases h with | cons h1 h2 => exact .cons (sd_normalizer a h1) (sd_normalizers b h2)
  | .skip a b => intro k l' h; cases h with | cons h1 h2 => exact .skip (sd_normalizer a h1) (sd_normalizers b h2)
end

mutual
theorem sd_preTokenizer {j : Json} {x : Option PreTokenizer} (hx : PreTokenizerOf j x) : ∀ {k : Str} {j' : Json}, SameContent k j j' →
    PreTokenizerOf j' x := by
  match hx with
  | .sequence ht hl hs =>
    intro k j' h
    obtain ⟨l', g1, g2⟩ := sd_listed h (by decide) hl
    exact .sequence (sd_type h ht) g1 (sd_preTokenizers hs g2)
  | .bert ht => intro k j' h; exact .bert (sd_type h ht)
  | .split ht a b c d =>
    intro k j' h
    exact .split (sd_type h ht) (sd_optPattern (by decide) h (by decide) a) (sd_optString h (by decide) b) c (sd_optBool h (by decide) d)
  | .byteLevel ht a b => intro k j' h; exact .byteLevel (sd_type h ht) (sd_optBool h (by decide) a) (sd_optBool h (by decide) b)
  | .other ht hs => intro k j' h; exact .other (sd_type h ht) hs
theorem sd_preTokenizers {l : List Json} {x : List PreTokenizer} (hx : PreTokenizersOf l x) : ∀ {k : Str} {l' : List Json},
    SameElements k l l' → PreTokenizersOf l' x := by
  match hx with
  | .nil => intro k l' h; cases h; exact .nil
  | .cons a b => intro k l' h; cases h with | cons h1 h2 => exact .cons (sd_preTokenizer a h1) (sd_preTokenizers b h2)
  | .skip a b => intro k l' h; cases h with | cons h1 h2 => exact .skip (sd_preTokenizer a h1) (sd_preTokenizers b h2)
end

mutual
theorem sd_decoder {j : Json} {x : Option Decoder} (hx : DecoderOf j x) : ∀ {k : Str} {j' : Json}, SameContent k j j' →
    DecoderOf j' x := by
  match hx with
  | .sequence ht hl hs =>
    intro k j' h
    obtain ⟨l', g1, g2⟩ := sd_listed h (by decide) hl
    exact .sequence (sd_type h ht) g1 (sd_decoders hs g2)
  | .wordPiece ht a b => intro k j' h; exact .wordPiece (sd_type h ht) (sd_optString h (by decide) a) (sd_optBool h (by decide) b)
  | .strip ht a b c =>
    intro k j' h
    exact .strip (sd_type h ht) (sd_optString h (by decide) a) (sd_optInt h (by decide) b) (sd_optInt h (by decide) c)
  | .replace ht a b => intro k j' h; exact .replace (sd_type h ht) (sd_optPattern (by decide) h (by decide) a) (sd_optString h (by decide) b)
  | .byteFallback ht => intro k j' h; exact .byteFallback (sd_type h ht)
  | .fuse ht => intro k j' h; exact .fuse (sd_type h ht)
  | .byteLevel ht => intro k j' h; exact .byteLevel (sd_type h ht)
  | .other ht hs => intro k j' h; exact .other (sd_type h ht) hs
theorem sd_decoders {l : List Json} {x : List Decoder} (hx : DecodersOf l x) : ∀ {k : Str} {l' : List Json}, SameElements k l l' →
    DecodersOf l' x := by
  match hx with
  | .nil => intro k l' h; cases h; exact .nil
  | .cons a b => intro k l' h; cases h with | cons h1 h2 => exact .cons (sd_decoder a h1) (sd_decoders b h2)
  | .skip a b => intro k l' h; cases h with | cons h1 h2 => exact .skip (sd_decoder a h1) (sd_decoders b h2)
end

/-- In the fields of a map the order and the names count. -/
theorem sd_map {k : Str} {l : List (Str × Json)} {j' : Json} (hk : k ∈ mapNames) (hv : k ≠ b!"vocab") (h : SameContent k (.obj l) j') :
    j' = .obj l ∨ ∃ l', j' = .obj l' ∧ SameFields l l' := by
  cases h with
  | same => exact .inl rfl
  | record h0 => exact absurd hk h0
  | vocabulary => exact absurd rfl hv
  | fields h => exact .inr ⟨_, rfl, h⟩

theorem sd_allFields {α : Type} {R : Str × Json → α → Prop} (hR : ∀ n j j' x, SameContent n j j' → R (n, j) x → R (n, j') x)
    {l l' : List (Str × Json)} (h : SameFields l l') : ∀ {x : List α}, AllOf R l x → AllOf R l' x := by
  match h with
  | .nil => intro x hx; exact hx
  | .cons h1 h2 =>
    intro x hx
    cases hx with
    | cons g1 g2 => exact .cons (hR _ _ _ _ h1 g1) (sd_allFields hR h2 g2)

theorem sd_piece (n : Str) (j j' : Json) (x : Piece) (h : SameContent n j j') : PieceOf (n, j) x → PieceOf (n, j') x := by
  rintro ⟨a, b, c⟩
  exact ⟨a, sd_fieldIs (fun _ _ _ => sd_string) h (by decide) b, sd_fieldIs (fun _ _ _ => sd_int) h (by decide) c⟩

theorem sd_template {k : Str} {j j' : Json} {x : List Piece} (hk : k ∈ mapNames) (hv : k ≠ b!"vocab") (h : SameContent k j j') :
    TemplateOf j x → TemplateOf j' x := by
  rintro ⟨pss, h1, h2⟩
  refine ⟨pss, sd_array ?_ h h1, h2⟩
  rintro j j' x h ⟨l, rfl, hl⟩
  rcases sd_map hk hv h with rfl | ⟨l', rfl, h'⟩
  · exact ⟨l, rfl, hl⟩
  · exact ⟨l', rfl, sd_allFields sd_piece h' hl⟩

theorem sd_specialToken (n : Str) (j j' : Json) (x : SpecialToken) (h : SameContent n j j') : SpecialTokenOf j x → SpecialTokenOf j' x := by
  rintro ⟨a, b, c⟩
  exact ⟨sd_fieldIs (fun _ _ _ => sd_string) h (by decide) a,
    sd_fieldIs (fun _ _ _ h => sd_array (R := IntOf) (fun _ _ _ => sd_int) h) h (by decide) b,
    sd_fieldIs (fun _ _ _ h => sd_array (R := StringOf) (fun _ _ _ => sd_string) h) h (by decide) c⟩

theorem sd_specialTokens {j j' : Json} {x : List SpecialToken} (h : SameContent b!"special_tokens" j j') :
    SpecialTokensOf j x → SpecialTokensOf j' x := by
  rintro ⟨l, rfl, hl⟩
  rcases sd_map (by decide) (by decide) h with rfl | ⟨l', rfl, h'⟩
  · exact ⟨l, rfl, hl⟩
  · exact ⟨l', rfl, sd_allFields (fun n j j' x => sd_specialToken n j j' x) h' hl⟩

mutual
theorem sd_postProcessor {j : Json} {x : Option PostProcessor} (hx : PostProcessorOf j x) : ∀ {k : Str} {j' : Json}, SameContent k j j' →
    PostProcessorOf j' x := by
  match hx with
  | .sequence ht hl hs =>
    intro k j' h
    obtain ⟨l', g1, g2⟩ := sd_listed h (by decide) hl
    exact .sequence (sd_type h ht) g1 (sd_postProcessors hs g2)
  | .template ht a b c =>
    intro k j' h
    exact .template (sd_type h ht) (sd_opt (fun _ _ _ => sd_template (by decide) (by decide)) h (by decide) a)
      (sd_opt (fun _ _ _ => sd_template (by decide) (by decide)) h (by decide) b)
      (sd_opt (fun _ _ _ => sd_specialTokens) h (by decide) c)
  | .byteLevel ht a b => intro k j' h; exact .byteLevel (sd_type h ht) (sd_optBool h (by decide) a) (sd_optBool h (by decide) b)
  | .other ht hs => intro k j' h; exact .other (sd_type h ht) hs
theorem sd_postProcessors {l : List Json} {x : List PostProcessor} (hx : PostProcessorsOf l x) : ∀ {k : Str} {l' : List Json},
    SameElements k l l' → PostProcessorsOf l' x := by
  match hx with
  | .nil => intro k l' h; cases h; exact .nil
  | .cons a b => intro k l' h; cases h with | cons h1 h2 => exact .cons (sd_postProcessor a h1) (sd_postProcessors b h2)
  | .skip a b => intro k l' h; cases h with | cons h1 h2 => exact .skip (sd_postProcessor a h1) (sd_postProcessors b h2)
end

/-! ### The model -/

theorem sd_fields_mem {l l' : List (Str × Json)} (h : SameFields l l') : ∀ f ∈ l', ∃ v, (f.1, v) ∈ l ∧ SameContent f.1 v f.2 := by
  match h with
  | .nil => intro f hf; cases hf
  | .cons h1 h2 =>
    intro f hf
    rcases List.mem_cons.1 hf with rfl | hf
    · exact ⟨_, List.mem_cons_self .., h1⟩
    · obtain ⟨v, g1, g2⟩ := sd_fields_mem h2 f hf
      exact ⟨v, List.mem_cons_of_mem _ g1, g2⟩

theorem sd_vocab {j j' : Json} {V : Vocab} (h : SameContent b!"vocab" j j') : VocabOf j V → VocabOf j' V := by
  rintro ⟨l, rfl, h1, h2, h3⟩
  generalize hk : b!"vocab" = k at h
  cases h with
  | same => exact ⟨l, rfl, h1, h2, h3⟩
  | record h0 => subst hk; exact absurd h0 (by decide)
  | vocabulary g1 g2 =>
    refine ⟨_, rfl, fun f hf => h1 f (g2.mem_iff.2 hf), h2, fun k i => ?_⟩
    rw [h3]
    have g1' := (g2.map (·.1)).nodup_iff.1 g1
    simp only [sd_first g1, sd_first g1', g2.mem_iff]
  | fields g =>
    refine ⟨_, rfl, fun f hf => ?_, h2, fun k i => ?_⟩
    · obtain ⟨v, g1, g2⟩ := sd_fields_mem g f hf
      obtain ⟨i, hi⟩ := h1 _ g1
      exact ⟨i, sd_int g2 hi⟩
    · rw [h3]
      constructor
      · rintro ⟨v, a, b⟩
        obtain ⟨v', g1, g2⟩ := sd_same_first g k v ((first_iff _ _ _).2 a)
        exact ⟨v', (first_iff _ _ _).1 g1, sd_int g2 b⟩
      · rintro ⟨v, a, b⟩
        obtain ⟨v', g1, g2⟩ := sd_same_first (sd_fields g) k v ((first_iff _ _ _).2 a)
        exact ⟨v', (first_iff _ _ _).1 g1, sd_int g2 b⟩

theorem sd_dropout {P : Platform} {k : Str} {j j' : Json} {x : Dropout} (h : SameContent k j j') : DropoutOf P j x → DropoutOf P j' x := by
  rintro ⟨t, rfl, e⟩
  cases h; exact ⟨t, rfl, e⟩

theorem sd_strings {k : Str} {j j' : Json} {x : List Str} (h : SameContent k j j') : ArrayOf StringOf j x → ArrayOf StringOf j' x :=
  sd_array (R := StringOf) (fun _ _ _ => sd_string) h

theorem sd_modelOf {P : Platform} {k : Str} {j j' : Json} {x : Option Model} (h : SameContent k j j') : ModelOf P j x → ModelOf P j' x := by
  intro hx
  cases hx with
  | wordPiece ht v a b c =>
    exact .wordPiece (sd_type h ht) (sd_opt (fun _ _ _ => sd_vocab) h (by decide) v) (sd_optString h (by decide) a)
      (sd_optInt h (by decide) b) (sd_optString h (by decide) c)
  | bpe ht v a1 a2 a3 a4 a5 a6 a7 a8 c1 c2 c3 =>
    exact .bpe (sd_type h ht) (sd_opt (fun _ _ _ => sd_vocab) h (by decide) v) (sd_opt (fun _ _ _ => sd_strings) h (by decide) a1)
      (sd_opt (fun _ _ _ => sd_dropout) h (by decide) a2) (sd_optString h (by decide) a3) (sd_optString h (by decide) a4)
      (sd_optString h (by decide) a5) (sd_optBool h (by decide) a6) (sd_optBool h (by decide) a7) (sd_optBool h (by decide) a8) c1 c2 c3
  | other ht hs v => exact .other (sd_type h ht) hs (sd_opt (fun _ _ _ => sd_vocab) h (by decide) v)

theorem sd_some {α : Type} {R : Json → α → Prop} {n : Str} (hR : ∀ j j' x, SameContent n j j' → R j x → R j' x) (j j' : Json) (x : Option α)
    (h : SameContent n j j') : Some' R j x → Some' R j' x := by
  rintro ⟨y, rfl, hy⟩
  exact ⟨y, rfl, hR _ _ _ h hy⟩

theorem sd_describes {P : Platform} {d d' : Json} {t : Tokenizer} {k : Str} (h : SameContent k d d') : Describes P d t → Describes P d' t := by
  rintro ⟨a1, a2, a3, a4, a5, a6, a7, a8⟩
  exact ⟨sd_opt (sd_some fun _ _ _ => sd_truncation) h (by decide) a1, sd_opt (sd_some fun _ _ _ => sd_padding) h (by decide) a2,
    sd_opt (sd_some fun _ _ _ => sd_addedTokens) h (by decide) a3, sd_opt (fun _ _ _ h hx => sd_normalizer hx h) h (by decide) a4,
    sd_opt (fun _ _ _ h hx => sd_preTokenizer hx h) h (by decide) a5, sd_opt (fun _ _ _ => sd_modelOf) h (by decide) a6,
    sd_opt (fun _ _ _ h hx => sd_decoder hx h) h (by decide) a7, sd_opt (fun _ _ _ h hx => sd_postProcessor hx h) h (by decide) a8⟩


theorem sd_transfer {α : Type} {r r' : Res α} {R R' : α → Prop} (h : Reads r R) (h' : Reads r' R') (hi : ∀ x, R x → R' x) {x : α} (hr : r = .ok x) :
    r' = .ok x := (h'.1 x).2 (hi x ((h.1 x).1 hr))

theorem sd_perm {V V' : Vocab} (h : (V.map (·.1)).Nodup) (h' : (V'.map (·.1)).Nodup) (hm : ∀ k i, (k, i) ∈ V ↔ (k, i) ∈ V') : V.Perm V' := by
  have nd : ∀ {V : Vocab}, (V.map (·.1)).Nodup → V.Nodup := fun h =>
    List.Pairwise.of_map (·.1) (fun a b hab e => hab (by rw [e])) h
  exact (List.perm_ext_iff_of_nodup (nd h) (nd h')).2 fun a => hm a.1 a.2

theorem sd_vocabs {j j' : Json} {V : Vocab} {k : Str} (h : SameContent k j j') (hv : vocabField j = .ok V) :
    ∃ V', vocabField j' = .ok V' ∧ V.Perm V' ∧ (V.map (·.1)).Nodup := by
  have h1 := vocabField_sound hv
  have h2 : Opt VocabOf [] j' b!"vocab" V := sd_opt (R := VocabOf) (fun _ _ _ => sd_vocab) h (by decide) h1
  obtain ⟨V', h3, -⟩ := vocabField_complete h2
  have h4 := vocabField_sound h3
  refine ⟨V', h3, ?_⟩
  obtain ⟨v, f1, g1⟩ := h2
  obtain ⟨v', f2, g2⟩ := h4
  have e : v = v' := by
    have a := ((field_reads j' b!"vocab").1 v).2 f1
    rw [((field_reads j' b!"vocab").1 v').2 f2] at a
    cases a; rfl
  subst e
  rcases g1 with ⟨rfl, rfl⟩ | ⟨n1, g1⟩
  · rcases g2 with ⟨-, rfl⟩ | ⟨n2, -⟩
    · exact ⟨.nil, by simp⟩
    · exact absurd rfl n2
  · rcases g2 with ⟨e, -⟩ | ⟨n2, g2⟩
    · exact absurd e n1
    · obtain ⟨l, rfl, -, a1, a2⟩ := g1
      obtain ⟨l', e, -, b1, b2⟩ := g2
      cases e
      exact ⟨sd_perm a1 b1 fun k i => by rw [a2, b2], a1⟩

theorem sd_model {P : Platform} {j j' : Json} {x : Option Model} {k : Str} (h : SameContent k j j') (hx : withModel P j = .ok x) :
    ∃ v', withModel P j' = .ok (x.map (reorderedModel v')) ∧ ∀ m, x = some m → (m.vocab.map (·.1)).Nodup ∧ m.vocab.Perm v' := by
  unfold withModel at hx
  obtain ⟨tj, t1, hx⟩ := res_bind_ok.1 hx
  obtain ⟨ty, t2, hx⟩ := res_bind_ok.1 hx
  obtain ⟨V, hV, hx⟩ := res_bind_ok.1 hx
  obtain ⟨V', hV', hp, hn⟩ := sd_vocabs h hV
  have hs : SameKeys V V' := ⟨or_perm_find hp hn, hp.length_eq⟩
  have ht : HasType j' ty := sd_type h ⟨tj, ((field_reads j _).1 tj).1 t1, ((getString_reads tj).1 ty).1 t2⟩
  obtain ⟨tj', t1', t2'⟩ := ht
  refine ⟨V', ?_⟩
  unfold withModel
  rw [((field_reads j' _).1 tj').2 t1', res_ok_bind, ((getString_reads tj').1 ty).2 t2', res_ok_bind,
    show j'.opt b!"vocab" [] _ = _ from hV', res_ok_bind]
  have str : ∀ {n : Str} {s : Str}, n ∈ fieldNames → j.opt n [] Json.getString = .ok s → j'.opt n [] Json.getString = .ok s := fun hn hs =>
    sd_transfer (string_opt j _) (string_opt j' _) (fun _ => sd_optString h hn) hs
  have int : ∀ {n : Str} {s : Int}, n ∈ fieldNames → j.opt n 0 Json.getInt = .ok s → j'.opt n 0 Json.getInt = .ok s := fun hn hs =>
    sd_transfer (int_opt j _ _) (int_opt j' _ _) (fun _ => sd_optInt h hn) hs
  have bool : ∀ {n : Str} {s : Bool}, n ∈ fieldNames → j.opt n false Json.getBool = .ok s → j'.opt n false Json.getBool = .ok s := fun hn hs =>
    sd_transfer (bool_opt j _ _) (bool_opt j' _ _) (fun _ => sd_optBool h hn) hs
  by_cases c1 : ty = b!"WordPiece"
  · rw [if_pos c1] at hx
    obtain ⟨a, h1, hx⟩ := res_bind_ok.1 hx
    obtain ⟨b, h2, hx⟩ := res_bind_ok.1 hx
    obtain ⟨c, h3, hx⟩ := res_bind_ok.1 hx
    cases hx
    rw [if_pos c1, str (by decide) h1, res_ok_bind, int (by decide) h2, res_ok_bind, str (by decide) h3]
    exact ⟨rfl, by intro m hm; cases hm; exact ⟨hn, hp⟩⟩
  · rw [if_neg c1] at hx
    rw [if_neg c1]
    by_cases c2 : ty = b!"BPE"
    · rw [if_pos c2] at hx
      obtain ⟨lines, a1, hx⟩ := res_bind_ok.1 hx
      obtain ⟨d, a2, hx⟩ := res_bind_ok.1 hx
      obtain ⟨unk, a3, hx⟩ := res_bind_ok.1 hx
      obtain ⟨pre, a4, hx⟩ := res_bind_ok.1 hx
      obtain ⟨suf, a5, hx⟩ := res_bind_ok.1 hx
      obtain ⟨fu, a6, hx⟩ := res_bind_ok.1 hx
      obtain ⟨bf, a7, hx⟩ := res_bind_ok.1 hx
      obtain ⟨ig, a8, hx⟩ := res_bind_ok.1 hx
      obtain ⟨m, a9, hx⟩ := res_bind_ok.1 hx
      cases hx
      rw [if_pos c2,
        sd_transfer (merges_reads j _) (merges_reads j' _) (fun _ => sd_opt (R := ArrayOf StringOf) (fun _ _ _ => sd_strings) h (by decide)) a1, res_ok_bind,
        sd_transfer (dropout_reads P j _) (dropout_reads P j' _) (fun _ => sd_opt (R := DropoutOf P) (fun _ _ _ => sd_dropout) h (by decide)) a2, res_ok_bind,
        str (by decide) a3, res_ok_bind, str (by decide) a4, res_ok_bind, str (by decide) a5, res_ok_bind, bool (by decide) a6, res_ok_bind,
        bool (by decide) a7, res_ok_bind, bool (by decide) a8, res_ok_bind]
      simp only [BPE.make] at a9 ⊢
      rw [or_merges hs]
      obtain ⟨ms, b1, b2⟩ := res_bind_ok.1 a9
      cases b2
      rw [b1]
      exact ⟨rfl, by intro m hm; cases hm; exact ⟨hn, hp⟩⟩
    · rw [if_neg c2] at hx
      cases hx
      rw [if_neg c2]
      exact ⟨rfl, by intro m hm; cases hm⟩

theorem sd_sec_model {P : Platform} {d d' : Json} {x : Option Model} {k : Str} (h : SameContent k d d')
    (hx : section' d b!"model" (withModel P) = .ok x) :
    ∃ v', section' d' b!"model" (withModel P) = .ok (x.map (reorderedModel v')) ∧
      ∀ m, x = some m → (m.vocab.map (·.1)).Nodup ∧ m.vocab.Perm v' := by
  unfold section' at hx ⊢
  obtain ⟨v, hv, hx⟩ := res_bind_ok.1 hx
  obtain ⟨v', g1, g2⟩ := sd_field (n := b!"model") h (by decide) (((field_reads d _).1 v).1 hv)
  rw [((field_reads d' _).1 v').2 g1, res_ok_bind]
  split at hx
  · cases hx
    rw [(sd_null g2).1 rfl]
    exact ⟨[], rfl, by intro m hm; cases hm⟩
  · rename_i hne
    split
    · exact absurd ((sd_null g2).2 rfl) hne
    · exact sd_model g2 hx

theorem sd_parse {P : Platform} {d d' : Json} {t : Tokenizer} {k : Str} (h : SameContent k d d') (ht : parseSections P d.depth d = .ok t) :
    ∃ v', parseSections P d'.depth d' = .ok (reordered v' t) ∧ ∀ m, t.model = some m → (m.vocab.map (·.1)).Nodup ∧ m.vocab.Perm v' := by
  have hd := sd_describes h (parse_sound P d t ht)
  obtain ⟨b1, b2, b3, b4, b5, -, b7, b8⟩ := hd
  unfold parseSections at ht
  obtain ⟨_, a1, ht⟩ := res_bind_ok.1 ht
  obtain ⟨_, a2, ht⟩ := res_bind_ok.1 ht
  obtain ⟨_, a3, ht⟩ := res_bind_ok.1 ht
  obtain ⟨_, a4, ht⟩ := res_bind_ok.1 ht
  obtain ⟨_, a5, ht⟩ := res_bind_ok.1 ht
  obtain ⟨_, a6, ht⟩ := res_bind_ok.1 ht
  obtain ⟨_, a7, ht⟩ := res_bind_ok.1 ht
  obtain ⟨_, a8, ht⟩ := res_bind_ok.1 ht
  cases ht
  obtain ⟨v', c1, c2⟩ := sd_sec_model h a6
  refine ⟨v', ?_, c2⟩
  unfold parseSections
  rw [((sec_truncation d').1 _).2 b1, res_ok_bind, ((sec_padding d').1 _).2 b2, res_ok_bind, ((sec_added d').1 _).2 b3,
    res_ok_bind, ((sec_normalizer d').1 _).2 b4, res_ok_bind, ((sec_preTokenizer d').1 _).2 b5, res_ok_bind, c1, res_ok_bind,
    ((sec_decoder d').1 _).2 b7, res_ok_bind, ((sec_postProcessor d').1 _).2 b8]
  rfl

theorem sd_make {P : Platform} {d d' : Json} {t : Tokenizer} {k : Str} (h : SameContent k d d') (ht : Tokenizer.make P (.document d) = .ok t) :
    ∃ v', Tokenizer.make P (.document d') = .ok (reordered v' t) ∧ ∀ m, t.model = some m → (m.vocab.map (·.1)).Nodup ∧ m.vocab.Perm v' := by
  simp only [Tokenizer.make] at ht ⊢
  cases hp : parseSections P d.depth d with
  | error e => obtain ⟨x, rfl⟩ := parse_tidy P d e hp; rw [hp] at ht; cases ht
  | ok t0 =>
    rw [hp] at ht
    obtain ⟨v', h1, h2⟩ := sd_parse h hp
    rw [h1]
    simp only at ht ⊢
    rw [or_finish fun m hm => ⟨or_perm_find (h2 m hm).2 (h2 m hm).1, (h2 m hm).2.length_eq⟩, ht]
    have e : t.model = t0.model := (congrArg Tokenizer.model (finish_fields ht)).symm
    exact ⟨v', rfl, by rw [e]; exact h2⟩

theorem sd_error {P : Platform} {d d' : Json} {e : Err} {k : Str} (h : SameContent k d d') (ht : Tokenizer.make P (.document d) = .error e) :
    Tokenizer.make P (.document d') = .error e := by
  simp only [Tokenizer.make] at ht ⊢
  cases hp : parseSections P d.depth d with
  | error e0 =>
    rw [hp] at ht
    cases hp' : parseSections P d'.depth d' with
    | ok t' =>
      obtain ⟨v', h1, -⟩ := sd_parse (sd_symm h) hp'
      rw [h1] at hp; cases hp
    | error e1 =>
      obtain ⟨x, rfl⟩ := parse_tidy P d e0 hp
      obtain ⟨x', rfl⟩ := parse_tidy P d' e1 hp'
      exact ht
  | ok t0 =>
    rw [hp] at ht
    obtain ⟨v', h1, h2⟩ := sd_parse h hp
    rw [h1]
    simp only at ht ⊢
    rw [or_finish fun m hm => ⟨or_perm_find (h2 m hm).2 (h2 m hm).1, (h2 m hm).2.length_eq⟩, ht]
    rfl

/-- **C125** Documents with the same content describe the same tokenizers. -/
theorem C125_describes (P : Platform) {d d' : Json} (h : SameContent [] d d') (t : Tokenizer) : Describes P d t ↔ Describes P d' t :=
  ⟨sd_describes h, sd_describes (sd_symm h)⟩

/-- **C125** Two documents with the same content: the constructor fails for one exactly as it fails for the other; otherwise the two
tokenizers answer every call alike, whatever calls have been made on both before, if no two entries of the vocabulary have the same id. -/
theorem C125_documents (P : Platform) {d d' : Json} (h : SameContent [] d d') :
    (∀ e, Tokenizer.make P (.document d) = .error e ↔ Tokenizer.make P (.document d') = .error e) ∧
    ∀ t, Tokenizer.make P (.document d) = .ok t → (∀ m, t.model = some m → OneTokenPerId m.vocab) →
      ∃ t', Tokenizer.make P (.document d') = .ok t' ∧ AlwaysSame P t t' := by
  refine ⟨fun e => ⟨sd_error h, sd_error (sd_symm h)⟩, fun t ht hi => ?_⟩
  obtain ⟨v', h1, h2⟩ := sd_make h ht
  refine ⟨_, h1, fun cs t1 hh => ?_⟩
  obtain ⟨k1, k2⟩ := or_history hh (fun m hm => or_same (h2 m hm).2 (h2 m hm).1 (hi m hm))
  exact ⟨_, k1, or_answers k2⟩

/-! ### Examples -/

theorem sd_record_of {k : Str} {l l' : List (Str × Json)} (hk : k ∉ mapNames) (h1 : (l.map (·.1)).Nodup) (h2 : (l'.map (·.1)).Nodup)
    (h3 : ∀ n ∈ fieldNames, (mapFind l n).isSome = (mapFind l' n).isSome)
    (h4 : ∀ p ∈ l, ∀ v', mapFind l' p.1 = some v' → SameContent p.1 p.2 v') : SameContent k (.obj l) (.obj l') := by
  refine .record hk h1 h2 (fun n hn => ?_) fun n v v' _ hv hv' => h4 (n, v) hv v' ((mapFind_iff_mem h2 n v').2 hv')
  have key : ∀ {l : List (Str × Json)}, (l.map (·.1)).Nodup → ((∃ v, (n, v) ∈ l) ↔ (mapFind l n).isSome = true) := by
    intro l h
    rw [Option.isSome_iff_exists]
    exact exists_congr fun v => (mapFind_iff_mem h n v).symm
  rw [key h1, key h2, h3 n hn]

/-- A document with other fields first, the fields of the model in another order, an escaped character in a string, a field without
meaning, and the vocabulary in another order. -/
def sameDoc : Json :=
  .obj [(b!"model", .obj [(b!"vocab", .obj [(b!"##ing", .num b!"2"), (b!"[UNK]", .num b!"0"), (b!"play", .num b!"1")]),
      (b!"max_input_chars_per_word", .num b!"100"), (b!"comment", .str b!"trained today"), (b!"type", .str b!"WordPiece"),
      (b!"continuing_subword_prefix", .str b!"##"), (b!"unk_token", .str b!"[\\u0055NK]")]),
    (b!"decoder", .null), (b!"truncation", .null), (b!"padding", .null), (b!"post_processor", .null), (b!"added_tokens", .arr []),
    (b!"pre_tokenizer", .obj [(b!"type", .str b!"BertPreTokenizer")]), (b!"normalizer", .null)]

theorem sd_unk (s : Str) : Denotes b!"[UNK]" s ↔ Denotes b!"[\\u0055NK]" s := by
  rw [← jsonText_iff, ← jsonText_iff]
  exact Iff.of_eq (congrArg (· = some s) (by decide))

theorem sd_docs : SameContent [] (wpDoc [(b!"[UNK]", .num b!"0"), (b!"play", .num b!"1"), (b!"##ing", .num b!"2")] (.arr [])) sameDoc := by
  refine sd_record_of (by decide) (by decide) (by decide) (by decide) ?_
  simp only [List.mem_cons, List.not_mem_nil, or_false]
  rintro p (rfl | rfl | rfl | rfl | rfl | rfl | rfl | rfl | rfl) v' hv' <;> cases hv'
  iterate 7 exact .same _ _
  refine sd_record_of (by decide) (by decide) (by decide) (by decide) ?_
  simp only [List.mem_cons, List.not_mem_nil, or_false]
  rintro p (rfl | rfl | rfl | rfl | rfl) v' hv' <;> cases hv'
  · exact .same _ _
  · exact .string sd_unk
  · exact .same _ _
  · exact .same _ _
  · exact .vocabulary (by decide) (List.perm_append_comm (l₁ := [_, _]) (l₂ := [_]))

/-- The hypotheses of `C125_documents` are met: the document makes a tokenizer and no two entries have the same id. -/
example : ∃ t m, Tokenizer.make ascii (.document (wpDoc [(b!"[UNK]", .num b!"0"), (b!"play", .num b!"1"), (b!"##ing", .num b!"2")] (.arr []))) = .ok t ∧
    t.model = some m ∧ OneTokenPerId m.vocab ∧ (t.encode ascii w!"playing x" false).1.map (·.ids) = .ok [1, 2, 0] :=
  ⟨_, _, rfl, rfl, by unfold OneTokenPerId; decide, by decide +kernel⟩

/-- The other document makes a tokenizer that encodes the text alike. -/
example : ∃ t, Tokenizer.make ascii (.document sameDoc) = .ok t ∧ (t.encode ascii w!"playing x" false).1.map (·.ids) = .ok [1, 2, 0] :=
  ⟨_, rfl, by decide +kernel⟩

/-- **C125** What is left out of "the same content" matters: the keys of the vocabulary may not be escaped differently, although
they denote the same strings. -/
theorem C125_violated :
    Denotes b!"\\u0061" b!"a" ∧ Denotes b!"a" b!"a" ∧
    (∃ t, Tokenizer.make ascii (.document (wpDoc [(b!"[UNK]", .num b!"0"), (b!"a", .num b!"1")] (.arr []))) = .ok t ∧
      (t.encode ascii w!"a" false).1.map (·.ids) = .ok [1]) ∧
    ∃ t, Tokenizer.make ascii (.document (wpDoc [(b!"[UNK]", .num b!"0"), (b!"\\u0061", .num b!"1")] (.arr []))) = .ok t ∧
      (t.encode ascii w!"a" false).1.map (·.ids) = .ok [0] := by
  refine ⟨(jsonText_iff _ _).1 (by decide), (jsonText_iff _ _).1 (by decide), ⟨_, rfl, ?_⟩, ⟨_, rfl, ?_⟩⟩ <;> decide +kernel

end Tok
