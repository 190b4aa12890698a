import Verif.Proofs.Base
import Verif.Proofs.Unicode
import Verif.Props.Unicode
import Verif.Spec.Split
import Verif.PreTokenizer

set_option autoImplicit false

/-! Lemmas on splitting. -/

namespace Tok
open Spec

theorem units_eq (w : WStr) : units w = (utf16 w).length := by
  induction w with
  | nil => rfl
  | cons c w ih =>
    simp only [units, utf16_cons, List.length_append, ih, utf16Enc1]
    split <;> simp

theorem units_append (v w : WStr) : units (v ++ w) = units v + units w := by
  simp [units_eq]

theorem units_pos {w : WStr} (h : w ≠ []) : 0 < units w := by
  rw [units_eq, List.length_pos_iff]; simpa [utf16_eq_nil] using h

theorem units_eq_zero {w : WStr} : units w = 0 ↔ w = [] := by
  rw [units_eq, List.length_eq_zero_iff, utf16_eq_nil]

theorem unitLen_eq (c : Nat) : unitLen c = units [c] := by
  simp [units_eq, unitLen]

theorem utf16Text_iff {w : WStr} {u : U16} : Utf16Text w u ↔ Scalars w ∧ u = utf16 w := by
  induction w generalizing u with
  | nil =>
    constructor
    · intro h; cases h; exact ⟨Scalars.nil, rfl⟩
    · rintro ⟨_, rfl⟩; exact .nil
  | cons c w ih =>
    constructor
    · intro h
      cases h with
      | bmp h1 h2 h3 =>
        obtain ⟨hw, rfl⟩ := ih.1 h3
        refine ⟨Scalars.cons.2 ⟨isScalar_iff.2 (by omega), hw⟩, ?_⟩
        simp [utf16Enc1, h1]
      | pair h1 h2 h3 =>
        rename_i x y u
        obtain ⟨hw, rfl⟩ := ih.1 h3
        refine ⟨Scalars.cons.2 ⟨isScalar_iff.2 (by omega), hw⟩, ?_⟩
        have : ¬ (0x10000 + x * 1024 + y < 0x10000) := by omega
        simp only [utf16_cons, utf16Enc1, this, if_false, List.cons_append, List.nil_append,
          List.cons.injEq, and_true]
        omega
    · rintro ⟨hw, rfl⟩
      rw [Scalars.cons, isScalar_iff] at hw
      simp only [utf16_cons, utf16Enc1]
      have hrest := ih.2 ⟨hw.2, rfl⟩
      split
      · rename_i h
        exact .bmp h (by omega) hrest
      · rename_i h
        have := Utf16Text.pair (x := (c - 0x10000) / 1024) (y := (c - 0x10000) % 1024)
          (by omega) (by omega) hrest
        rwa [show 0x10000 + (c - 0x10000) / 1024 * 1024 + (c - 0x10000) % 1024 = c by omega] at this

/-- Prefixes of the same text with the same unit count agree. -/
theorem prefix_units {l1 r1 l2 r2 : WStr} (h : l1 ++ r1 = l2 ++ r2) (hu : units l1 ≤ units l2) :
    ∃ m, l2 = l1 ++ m ∧ r1 = m ++ r2 := by
  induction l1 generalizing l2 with
  | nil => exact ⟨l2, by simp, by simpa using h⟩
  | cons c l1 ih =>
    cases l2 with
    | nil =>
      have : units (c :: l1) = 0 := by have : units ([] : WStr) = 0 := rfl; omega
      rw [units_eq_zero] at this; cases this
    | cons d l2 =>
      simp only [List.cons_append, List.cons.injEq] at h
      obtain ⟨rfl, h⟩ := h
      simp only [units] at hu
      obtain ⟨m, h1, h2⟩ := ih h (by omega)
      exact ⟨m, by simp [h1], h2⟩

theorem units_ext {l1 r1 l2 r2 : WStr} (h : l1 ++ r1 = l2 ++ r2) (hu : units l1 = units l2) :
    l1 = l2 ∧ r1 = r2 := by
  obtain ⟨m, h1, h2⟩ := prefix_units h (by omega)
  have : units m = 0 := by rw [h1, units_append] at hu; omega
  rw [units_eq_zero] at this; subst this
  simp at h1 h2; exact ⟨h1.symm, h2⟩

/-- Cutting a text at code point boundaries. -/
theorem tempSub_utf16 (l v r : WStr) :
    tempSubStringBetween (utf16 (l ++ v ++ r)) (units l) (units l + units v) = utf16 v := by
  unfold tempSubStringBetween
  rw [utf16_append, utf16_append, units_eq, units_eq, List.append_assoc, List.drop_left]
  rw [Nat.add_sub_cancel_left, List.take_left]

/-- Pieces of a text with a match flag. -/
abbrev Parts := List (WStr × Bool)

/-- The text of the pieces. -/
def partsText (ps : Parts) : WStr := (ps.map (·.1)).flatten

@[simp] theorem partsText_nil : partsText [] = [] := rfl
@[simp] theorem partsText_cons (p : WStr × Bool) (ps : Parts) :
    partsText (p :: ps) = p.1 ++ partsText ps := by simp [partsText]
@[simp] theorem partsText_append (ps qs : Parts) :
    partsText (ps ++ qs) = partsText ps ++ partsText qs := by simp [partsText]

/-- The positions of the pieces in UTF-16 units. -/
def place : Nat → Parts → List Seg
  | _, [] => []
  | pos, (v, b) :: r => ((pos, pos + units v), b) :: place (pos + units v) r

theorem place_append (pos : Nat) (ps qs : Parts) :
    place pos (ps ++ qs) = place pos ps ++ place (pos + units (partsText ps)) qs := by
  induction ps generalizing pos with
  | nil => simp [place, units]
  | cons p ps ih =>
    obtain ⟨v, b⟩ := p
    simp [place, ih, units_append, Nat.add_assoc]

theorem place_map_false (pos : Nat) (ps : Parts) :
    (place pos ps).map (fun m => (m.1, false)) = place pos (ps.map fun p => (p.1, false)) := by
  induction ps generalizing pos with
  | nil => rfl
  | cons p ps ih => obtain ⟨v, b⟩ := p; simp [place, ih]

/-- Where matches are ordered and on boundaries, `segments` describes pieces of the
text. -/
theorem segments_parts {w : WStr} : ∀ (ms : List (Nat × Nat)) (l r : WStr), w = l ++ r →
    Ordered (units w) (units l) ms → (∀ m ∈ ms, Boundary w m.1 ∧ Boundary w m.2) →
    ∃ ps : Parts, partsText ps = r ∧ segments (units w) (units l) ms = place (units l) ps := by
  intro ms
  induction ms with
  | nil =>
    intro l r hw _ _
    have hu : units w = units l + units r := by rw [hw, units_append]
    simp only [segments]
    split
    · exact ⟨[(r, false)], by simp, by simp [place, hu]⟩
    · have : units r = 0 := by omega
      rw [units_eq_zero] at this
      exact ⟨[], by simp [this], rfl⟩
  | cons m ms ih =>
    intro l r hw hord hb
    obtain ⟨a, b⟩ := m
    obtain ⟨h1, h2, h3⟩ := hord
    obtain ⟨⟨l1, r1, e1, ea⟩, ⟨l2, r2, e2, eb⟩⟩ := hb (a, b) (by simp)
    simp only at ea eb
    subst ea eb
    obtain ⟨g, hg1, hg2⟩ := prefix_units (hw.symm.trans e1) h1
    obtain ⟨k, hk1, hk2⟩ := prefix_units (e1.symm.trans e2) h2
    obtain ⟨ps, hp1, hp2⟩ := ih l2 r2 e2 h3 (fun m hm => hb m (by simp [hm]))
    have hu1 : units l1 = units l + units g := by rw [hg1, units_append]
    have hu2 : units l2 = units l1 + units k := by rw [hk1, units_append]
    simp only [segments]
    split
    · refine ⟨(g, false) :: (k, true) :: ps, ?_, ?_⟩
      · simp [hp1, hg2, hk2]
      · rw [hu2, hu1] at hp2; simp only [place, hu1, hu2, hp2]; rfl
    · rename_i hne
      have hg0 : units g = 0 := by omega
      rw [units_eq_zero] at hg0
      subst hg0
      refine ⟨(k, true) :: ps, ?_, ?_⟩
      · simp [hp1, hg2, hk2]
      · have : units l = units l1 := by simp [hu1, units]
        rw [hu2] at hp2; simp [place, this, hu2, hp2]

/-- The splits for a list of pieces. -/
def pieceSplits (base : Nat) : Nat → Parts → List Split
  | _, [] => []
  | pos, (v, b) :: r =>
    (if b then [] else [{ normalized := utf8 v, offsets := (pos + base, pos + units v + base) }]) ++
      pieceSplits base (pos + units v) r

theorem splitNormalized_place {w : WStr} (hw : Scalars w) (base : Nat) : ∀ (ps : Parts) (l : WStr),
    w = l ++ partsText ps →
    ((place (units l) ps).filter fun m => !m.2).map (fun (m : Seg) =>
      ({ normalized := toUTF8String (tempSubStringBetween (utf16 w) m.1.1 m.1.2)
         offsets := (m.1.1 + base, m.1.2 + base) } : Split)) = pieceSplits base (units l) ps := by
  intro ps
  induction ps with
  | nil => intro l _; rfl
  | cons p ps ih =>
    intro l he
    obtain ⟨v, b⟩ := p
    have he' : w = (l ++ v) ++ partsText ps := by simpa using he
    have := ih (l ++ v) he'
    rw [units_append] at this
    cases b with
    | true => simp [place, pieceSplits, this]
    | false =>
      have hv : Scalars v := hw.sub (by intro c hc; rw [he']; simp [hc])
      simp only [place, pieceSplits]
      rw [List.filter_cons]
      simp only [Bool.not_false, if_true, List.map_cons, this, Bool.false_eq_true, if_false,
        List.cons_append, List.nil_append, List.cons.injEq, and_true]
      have := tempSub_utf16 l v (partsText ps)
      rw [← he'] at this
      rw [this, toUTF8String_utf16 hv]

theorem splitNormalized_parts {s : Split} {w : WStr} (hw : Scalars w) (hs : s.normalized = utf8 w)
    {fn : U16 → Res (List Seg)} {ps : Parts} (hps : partsText ps = w)
    (hfn : fn (utf16 w) = .ok (place 0 ps)) (b : Behavior) :
    splitNormalized s fn b = .ok (pieceSplits s.offsets.1 0
      (match b with | .removed => ps | .isolated => ps.map fun p => (p.1, false))) := by
  unfold splitNormalized
  simp only [hs, fromUTF8_utf8 hw, hfn]
  cases b with
  | removed =>
    have := splitNormalized_place hw s.offsets.1 ps [] (by simp [hps])
    simp only [units] at this
    simp only [bind, Except.bind, pure, Except.pure, this]
  | isolated =>
    have := splitNormalized_place hw s.offsets.1 (ps.map fun p => (p.1, false)) []
      (by simp only [partsText, List.map_map, List.nil_append] at hps ⊢; rw [← hps]; rfl)
    simp only [units] at this
    simp only [bind, Except.bind, pure, Except.pure, place_map_false, this]

theorem pieceSplits_append (base pos : Nat) (ps qs : Parts) :
    pieceSplits base pos (ps ++ qs) =
      pieceSplits base pos ps ++ pieceSplits base (pos + units (partsText ps)) qs := by
  induction ps generalizing pos with
  | nil => simp [pieceSplits, units]
  | cons p ps ih =>
    obtain ⟨v, b⟩ := p
    simp [pieceSplits, ih, units_append, Nat.add_assoc]

/-- Isolated pieces: text and tiling. -/
theorem pieceSplits_isolated (base : Nat) (ps : Parts) (hps : ∀ p ∈ ps, p.2 = false) : ∀ pos,
    ((pieceSplits base pos ps).map (·.normalized)).flatten = utf8 (partsText ps) ∧
    Tiles (pos + base) ((pieceSplits base pos ps).map (·.offsets)) (pos + base + units (partsText ps)) ∧
    ∀ s ∈ pieceSplits base pos ps, s.tokens = [] ∧ ∃ p ∈ ps, s.normalized = utf8 p.1 := by
  induction ps with
  | nil => intro pos; simp [pieceSplits, Tiles, units]
  | cons p ps ih =>
    intro pos
    obtain ⟨v, b⟩ := p
    have hb : b = false := hps (v, b) (by simp)
    subst hb
    obtain ⟨h1, h2, h3⟩ := ih (fun p hp => hps p (by simp [hp])) (pos + units v)
    refine ⟨?_, ?_, ?_⟩
    · simp [pieceSplits, h1]
    · simp only [pieceSplits, Bool.false_eq_true, if_false, List.cons_append, List.nil_append,
        List.map_cons, Tiles, partsText_cons, units_append]
      refine ⟨trivial, by omega, ?_⟩
      have e : pos + base + (units v + units (partsText ps)) = pos + units v + base + units (partsText ps) := by
        omega
      rw [e]; exact h2
    · intro s hs
      simp only [pieceSplits, Bool.false_eq_true, if_false, List.cons_append, List.nil_append,
        List.mem_cons] at hs
      rcases hs with rfl | hs
      · exact ⟨rfl, (v, false), by simp, rfl⟩
      · obtain ⟨a, p, hp, e⟩ := h3 s hs
        exact ⟨a, p, by simp [hp], e⟩

/-! ### The loop over splits -/

theorem splitLoop_ok_iff {fn : U16 → Res (List Seg)} {b : Behavior} {l out : List Split} :
    splitLoop fn b l = .ok out ↔
      ∃ parts : List (List Split), out = parts.flatten ∧
        Each (fun s part => (s.tokens ≠ [] ∧ part = [s]) ∨
          (s.tokens = [] ∧ splitNormalized s fn b = .ok part)) l parts := by
  induction l generalizing out with
  | nil =>
    simp only [splitLoop]
    constructor
    · intro h; simp at h; subst h; exact ⟨[], rfl, .nil⟩
    · rintro ⟨_, rfl, h⟩; cases h; rfl
  | cons s r ih =>
    simp only [splitLoop, res_ite_bind]
    constructor
    · intro h
      obtain ⟨here, h1, h⟩ := res_bind_ok.1 h
      obtain ⟨rest, h2, h⟩ := res_bind_ok.1 h
      obtain ⟨parts, rfl, hf⟩ := ih.1 h2
      refine ⟨here :: parts, by simp at h; simp [← h], .cons ?_ hf⟩
      split at h1
      · rename_i hne
        simp at h1
        exact .inl ⟨by intro h0; simp [h0] at hne, h1.symm⟩
      · rename_i hne
        exact .inr ⟨by simpa using hne, h1⟩
    · rintro ⟨_, rfl, hf⟩
      cases hf with
      | cons hh hf =>
        rename_i part parts
        have h2 := ih.2 ⟨parts, rfl, hf⟩
        rw [h2]
        rcases hh with ⟨ht, rfl⟩ | ⟨ht, hs⟩
        · simp [ht]
        · simp [ht, hs]

/-- The loop never fails if no split does. -/
theorem splitLoop_total {fn : U16 → Res (List Seg)} {b : Behavior} {R : Split → List Split → Prop}
    (l : List Split) (h : ∀ s ∈ l, (s.tokens ≠ [] → R s [s]) ∧
      (s.tokens = [] → ∃ part, splitNormalized s fn b = .ok part ∧ R s part)) :
    ∃ parts : List (List Split), splitLoop fn b l = .ok parts.flatten ∧ Each R l parts := by
  induction l with
  | nil => exact ⟨[], rfl, .nil⟩
  | cons s r ih =>
    obtain ⟨parts, h1, h2⟩ := ih (fun s hs => h s (by simp [hs]))
    obtain ⟨ha, hb⟩ := h s (by simp)
    by_cases ht : s.tokens = []
    · obtain ⟨part, e1, e2⟩ := hb ht
      exact ⟨part :: parts, by simp [splitLoop, ht, e1, h1], .cons e2 h2⟩
    · exact ⟨[s] :: parts, by simp [splitLoop, ht, h1], .cons (ha ht) h2⟩

/-! ### Stretches between matches -/

/-- The non-match segments. -/
def gapsOf (len cur : Nat) (ms : List (Nat × Nat)) : List (Nat × Nat) :=
  ((segments len cur ms).filter fun m => !m.2).map (·.1)

theorem gapsOf_nil (len cur : Nat) : gapsOf len cur [] = if cur < len then [(cur, len)] else [] := by
  unfold gapsOf; rw [segments]; split <;> simp

theorem gapsOf_cons (len cur : Nat) (m : Nat × Nat) (ms : List (Nat × Nat)) :
    gapsOf len cur (m :: ms) = (if cur ≠ m.1 then [(cur, m.1)] else []) ++ gapsOf len m.2 ms := by
  unfold gapsOf; rw [segments]; split <;> simp

theorem Ordered.le {len : Nat} : ∀ {cur : Nat} {ms : List (Nat × Nat)}, Ordered len cur ms → cur ≤ len := by
  intro cur ms
  induction ms generalizing cur with
  | nil => intro h; exact h
  | cons m ms ih => intro h; have := ih h.2.2; have := h.1; have := h.2.1; omega

theorem Ordered.mem {len : Nat} : ∀ {cur : Nat} {ms : List (Nat × Nat)}, Ordered len cur ms →
    ∀ m ∈ ms, cur ≤ m.1 ∧ m.1 ≤ m.2 ∧ m.2 ≤ len := by
  intro cur ms
  induction ms generalizing cur with
  | nil => intro _ m hm; simp at hm
  | cons m ms ih =>
    intro h x hx
    have h0 := Ordered.le h.2.2
    have h1 := h.1; have h2 := h.2.1
    simp at hx; rcases hx with rfl | hx
    · exact ⟨h1, h2, h0⟩
    · have := ih h.2.2 x hx; omega

theorem Ordered.mono {len cur cur' : Nat} {ms : List (Nat × Nat)} (h : Ordered len cur ms)
    (hc : cur' ≤ cur) : Ordered len cur' ms := by
  cases ms with
  | nil => exact Nat.le_trans hc h
  | cons m ms => exact ⟨Nat.le_trans hc h.1, h.2⟩

theorem gapsOf_spec (len : Nat) : ∀ (ms : List (Nat × Nat)) (cur : Nat), Ordered len cur ms →
    Ordered len cur (gapsOf len cur ms) ∧
    (∀ r ∈ gapsOf len cur ms, r.1 < r.2) ∧
    (∀ r ∈ gapsOf len cur ms, ∀ m ∈ ms, m.2 ≤ r.1 ∨ r.2 ≤ m.1) ∧
    (∀ i, cur ≤ i → i < len → (∀ m ∈ ms, ¬ (m.1 ≤ i ∧ i < m.2)) →
      ∃ r ∈ gapsOf len cur ms, r.1 ≤ i ∧ i < r.2) ∧
    (∀ r ∈ gapsOf len cur ms, (r.1 = cur ∨ ∃ m ∈ ms, r.1 = m.2) ∧
      (r.2 = len ∨ ∃ m ∈ ms, r.2 = m.1)) := by
  intro ms
  induction ms with
  | nil =>
    intro cur h
    rw [gapsOf_nil]
    have hle := Ordered.le h
    split
    · rename_i hlt
      refine ⟨⟨Nat.le_refl _, hle, Nat.le_refl _⟩, by simpa using hlt, by simp, ?_, by simp⟩
      intro i h1 h2 _; exact ⟨(cur, len), by simp, h1, h2⟩
    · exact ⟨hle, by simp, by simp, fun i h1 h2 _ => by omega, by simp⟩
  | cons m ms ih =>
    intro cur h
    obtain ⟨h1, h2, h3⟩ := h
    obtain ⟨a1, a2, a3, a4, a5⟩ := ih m.2 h3
    have hmem := Ordered.mem h3
    have hgmem := Ordered.mem a1
    rw [gapsOf_cons]
    have hcov : ∀ i, cur ≤ i → i < len → (∀ x ∈ m :: ms, ¬ (x.1 ≤ i ∧ i < x.2)) →
        (i < m.1) ∨ ∃ r ∈ gapsOf len m.2 ms, r.1 ≤ i ∧ i < r.2 := by
      intro i hi1 hi2 hi3
      rcases Nat.lt_or_ge i m.1 with hlt | hge
      · exact .inl hlt
      · have := hi3 m (by simp)
        exact .inr (a4 i (by omega) hi2 fun x hx => hi3 x (by simp [hx]))
    split
    · rename_i hne
      refine ⟨⟨Nat.le_refl _, h1, Ordered.mono a1 h2⟩, ?_, ?_, ?_, ?_⟩
      · intro r hr
        simp only [List.cons_append, List.nil_append, List.mem_cons] at hr
        rcases hr with rfl | hr
        · simp only; omega
        · exact a2 r hr
      · intro r hr x hx
        simp only [List.cons_append, List.nil_append, List.mem_cons] at hr hx
        rcases hr with rfl | hr <;> rcases hx with rfl | hx
        · right; exact Nat.le_refl _
        · right; have := hmem x hx; simp only; omega
        · left; exact (hgmem r hr).1
        · exact a3 r hr x hx
      · intro i hi1 hi2 hi3
        rcases hcov i hi1 hi2 hi3 with hlt | ⟨r, hr, hr'⟩
        · exact ⟨(cur, m.1), by simp, hi1, hlt⟩
        · exact ⟨r, by simp [hr], hr'⟩
      · intro r hr
        simp only [List.cons_append, List.nil_append, List.mem_cons] at hr
        rcases hr with rfl | hr
        · exact ⟨.inl rfl, .inr ⟨m, by simp, rfl⟩⟩
        · obtain ⟨b1, b2⟩ := a5 r hr
          refine ⟨.inr ?_, b2.imp id fun ⟨x, hx, e⟩ => ⟨x, by simp [hx], e⟩⟩
          rcases b1 with e | ⟨x, hx, e⟩
          · exact ⟨m, by simp, e⟩
          · exact ⟨x, by simp [hx], e⟩
    · rename_i hne
      simp only [List.nil_append]
      refine ⟨Ordered.mono a1 (by omega), a2, ?_, ?_, ?_⟩
      · intro r hr x hx
        simp only [List.mem_cons] at hx
        rcases hx with rfl | hx
        · left; exact (hgmem r hr).1
        · exact a3 r hr x hx
      · intro i hi1 hi2 hi3
        rcases hcov i hi1 hi2 hi3 with hlt | hr
        · omega
        · exact hr
      · intro r hr
        obtain ⟨b1, b2⟩ := a5 r hr
        refine ⟨.inr ?_, b2.imp id fun ⟨x, hx, e⟩ => ⟨x, by simp [hx], e⟩⟩
        rcases b1 with e | ⟨x, hx, e⟩
        · exact ⟨m, by simp, e⟩
        · exact ⟨x, by simp [hx], e⟩

theorem gapsOf_gaps {len : Nat} {ms : List (Nat × Nat)} (h : Ordered len 0 ms) :
    Gaps len ms (gapsOf len 0 ms) := by
  obtain ⟨a1, a2, a3, a4, a5⟩ := gapsOf_spec len ms 0 h
  exact ⟨a1, a2, a3, fun i hi h => a4 i (Nat.zero_le _) hi h, a5⟩

theorem place_partOf {w : WStr} : ∀ (ps : Parts) (l : WStr), w = l ++ partsText ps →
    ∀ m ∈ place (units l) ps, ∃ v, PartOf w m.1.1 m.1.2 v := by
  intro ps
  induction ps with
  | nil => intro l _ m hm; simp [place] at hm
  | cons p ps ih =>
    intro l he m hm
    obtain ⟨v, b⟩ := p
    have he' : w = (l ++ v) ++ partsText ps := by simpa using he
    simp only [place, List.mem_cons] at hm
    rcases hm with rfl | hm
    · exact ⟨v, l, partsText ps, he', rfl, rfl⟩
    · exact ih (l ++ v) he' m (by rw [units_append]; exact hm)

end Tok
