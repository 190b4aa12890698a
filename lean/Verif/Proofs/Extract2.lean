import Verif.Proofs.Extract
import Verif.Spec.Added
import Verif.Props.PreTokenizer
import Verif.Props.Unicode

set_option autoImplicit false

namespace Tok
open Spec

theorem bmp_scalars {w : WStr} (h : Bmp w) : Scalars w := scalars_iff.1 fun c hc => (h c hc).1

theorem utf16_bmp {w : WStr} (h : Bmp w) : utf16 w = w := by
  induction w with
  | nil => rfl
  | cons c w ih =>
    have h1 := (h c (by simp)).2
    have h2 := ih fun x hx => h x (by simp [hx])
    simp only [utf16, List.flatMap_cons] at h2 ⊢
    rw [h2]
    simp [utf16Enc1, h1]

theorem bmp_sub {v w : WStr} (h : Bmp w) (hs : ∀ c ∈ v, c ∈ w) : Bmp v := fun c hc => h c (hs c hc)

/-- The part of a text from `a` to `b`. -/
def part (w : WStr) (a b : Nat) : WStr := (w.drop a).take (b - a)

theorem part_mem {w : WStr} {a b c : Nat} (h : c ∈ part w a b) : c ∈ w :=
  List.mem_of_mem_drop (List.mem_of_mem_take h)

theorem part_append (w : WStr) {a b c : Nat} (hab : a ≤ b) (hbc : b ≤ c) :
    part w a c = part w a b ++ part w b c := by
  unfold part
  have : c - a = (b - a) + (c - b) := by omega
  rw [this, List.take_add, List.drop_drop]
  congr 3
  omega

theorem part_get {w : WStr} {a b j c : Nat} (h : (part w a b)[j]? = some c) : w[a + j]? = some c ∧ a + j < b := by
  unfold part at h
  rw [List.getElem?_take] at h
  split at h
  · rw [List.getElem?_drop] at h; exact ⟨h, by omega⟩
  · cases h

theorem utf8_ascii {w : WStr} (h : Ascii w) : utf8 w = w := by
  induction w with
  | nil => rfl
  | cons c w ih =>
    have h2 := ih fun x hx => h x (by simp [hx])
    simp only [utf8, List.flatMap_cons] at h2 ⊢
    rw [h2]
    simp [utf8Enc1, h c (by simp)]

theorem utf8_ascii_rev {w : WStr} (h : ∀ b ∈ utf8 w, b < 0x80) : (utf8 w).length = w.length := by
  induction w with
  | nil => rfl
  | cons c w ih =>
    have h2 := ih fun x hx => h x (by simp only [utf8, List.flatMap_cons] at hx ⊢; exact List.mem_append_right _ hx)
    have h3 : ∀ b ∈ utf8Enc1 c, b < 0x80 := fun x hx => h x (by simp only [utf8, List.flatMap_cons]; exact List.mem_append_left _ hx)
    have : (utf8Enc1 c).length = 1 := by
      unfold utf8Enc1 at h3 ⊢
      split
      · rfl
      · rename_i h4
        rw [if_neg h4] at h3
        split at h3
        · have := h3 _ (List.mem_cons_self ..); omega
        · split at h3
          · have := h3 _ (List.mem_cons_self ..); omega
          · have := h3 _ (List.mem_cons_self ..); omega
    simp only [utf8, List.flatMap_cons, List.length_append, List.length_cons] at h2 ⊢
    omega

theorem blankByte_iff (c : Nat) : isspaceC c = true ↔ BlankByte c := isspaceC_iff c

/-! ### `find_matches` on a text -/

/-- What a segment of the text `w` is. -/
def SegText (a : AddedVocab) (T : List (Str × Int)) (w : WStr) (g : TSeg) : Prop :=
  g.1 = none ∨ ∃ (i : Int) (k l r : Str), g.1 = some i ∧ (k, i) ∈ T ∧
    utf8 (part w g.2.1 g.2.2) = l ++ k ++ r ∧ (∀ c ∈ l, BlankByte c) ∧ (∀ c ∈ r, BlankByte c) ∧
    (l ≠ [] → ∃ t, mapFind a.mapR i = some t ∧ t.lstrip = true) ∧
    (r ≠ [] → ∃ t, mapFind a.mapR i = some t ∧ t.rstrip = true)

theorem findMatches_bmp {a : AddedVocab} {T : List (Str × Int)} {w : WStr} (hw : Cuttable a w)
    (hT : ∀ p ∈ T, p ∈ a.nonNormTrie ++ a.normTrie) :
    ∃ segs, (a.findMatches (utf8 w) T).1 = .ok segs ∧ Tiles 0 (segs.map (·.2)) w.length ∧
      ∀ g ∈ segs, SegText a T w g := by
  have hs := bmp_scalars hw.1
  have hu : fromUTF8 (utf8 w) = w := by rw [fromUTF8_utf8 hs, utf16_bmp hw.1]
  unfold AddedVocab.findMatches
  simp only [hu]
  have ho := scan_ordered (wordIds T) w w 0 0 (Nat.le_refl _) (by simp) 0 (Nat.le_refl _)
  have htext : ∀ m ∈ scan (wordIds T) w w 0 0, (utf8 (part w m.1 m.2.1), m.2.2) ∈ T := by
    intro m hm
    have := wordIds_mem (scan_text (wordIds T) w w 0 0 m hm)
    have e : toUTF8String (tempSubString w m.1 (m.2.1 - m.1)) = utf8 (part w m.1 m.2.1) := by
      have hp : Bmp (part w m.1 m.2.1) := bmp_sub hw.1 fun c hc => part_mem hc
      have := toUTF8String_utf16 (bmp_scalars hp)
      rw [utf16_bmp hp] at this
      exact this
    rw [e] at this; exact this
  generalize scan (wordIds T) w w 0 0 = ms at ho htext
  have hmem : ∀ m ∈ ms, m.1 ≤ m.2.1 ∧ m.2.1 ≤ w.length := by
    intro m hm
    have := Ordered.mem ho (m.1, m.2.1) (List.mem_map.2 ⟨m, hm, rfl⟩)
    exact this.2
  have hcond : SegCond a.mapR (utf8 w) w.length ms := by
    refine ⟨utf8_length_ge w, ?_⟩
    rcases hw.2 with h | ⟨h1, h2⟩
    · left
      intro i
      cases hf : mapFind a.mapR i with
      | none => exact ⟨rfl, rfl⟩
      | some t => exact h i t hf
    · right
      rw [utf8_ascii h1]
      refine ⟨rfl, fun m hm => ?_⟩
      obtain ⟨hk, hb⟩ := h2 _ (hT _ (htext m hm))
      have e : utf8 (part w m.1 m.2.1) = part w m.1 m.2.1 := utf8_ascii fun c hc => h1 c (part_mem hc)
      rw [e] at hk hb
      have hlt : m.1 < m.2.1 := by
        rcases Nat.lt_or_ge m.1 m.2.1 with h | h
        · exact h
        · exact absurd (by unfold part; rw [Nat.sub_eq_zero_of_le h]; rfl) hk
      refine ⟨hlt, fun c hc => ?_⟩
      have : c ∈ part w m.1 m.2.1 := by
        refine List.mem_iff_getElem?.2 ⟨0, ?_⟩
        unfold part
        rw [List.getElem?_take, if_pos (by omega), List.getElem?_drop]
        simpa using hc
      have := hb c this
      cases hsp : isspaceC c with
      | false => rfl
      | true => exact absurd ((blankByte_iff c).1 hsp) this
  obtain ⟨segs, h1, h2, h3⟩ := matchSegs_tiles a.mapR (utf8 w) w.length ms 0 hcond ho
  refine ⟨segs, h1, h2, ?_⟩
  intro g hg
  rcases h3 g hg with h | ⟨m, hm, hid, hga, hgb, hl, hr, hbl, hbr⟩
  · exact .inl h
  · refine .inr ⟨m.2.2, utf8 (part w m.1 m.2.1), utf8 (part w g.2.1 m.1), utf8 (part w m.2.1 g.2.2), hid,
      htext m hm, ?_, ?_, ?_, ?_, ?_⟩
    · rw [part_append w (Nat.le_trans hga (hmem m hm).1) hgb, part_append w hga (hmem m hm).1]
      simp
    all_goals
      rcases hw.2 with hns | ⟨hasc, hblank⟩
    · have : ((mapFind a.mapR m.2.2).getD {}).lstrip = false := by
        cases hf : mapFind a.mapR m.2.2 with
        | none => rfl
        | some t => exact (hns _ t hf).1
      rw [hl this]; simp [part]
    · have e : utf8 (part w g.2.1 m.1) = part w g.2.1 m.1 := utf8_ascii fun c hc => hasc c (part_mem hc)
      rw [e]
      intro c hc
      obtain ⟨j, hj⟩ := List.mem_iff_getElem?.1 hc
      obtain ⟨hj1, hj2⟩ := part_get hj
      obtain ⟨c', hc', hb⟩ := hbl (g.2.1 + j) (by omega) hj2
      rw [utf8_ascii hasc, hj1] at hc'
      cases hc'
      exact (blankByte_iff c).1 hb
    · have : ((mapFind a.mapR m.2.2).getD {}).rstrip = false := by
        cases hf : mapFind a.mapR m.2.2 with
        | none => rfl
        | some t => exact (hns _ t hf).2
      rw [hr this]; simp [part]
    · have e : utf8 (part w m.2.1 g.2.2) = part w m.2.1 g.2.2 := utf8_ascii fun c hc => hasc c (part_mem hc)
      rw [e]
      intro c hc
      obtain ⟨j, hj⟩ := List.mem_iff_getElem?.1 hc
      obtain ⟨hj1, hj2⟩ := part_get hj
      obtain ⟨c', hc', hb⟩ := hbr (m.2.1 + j) (by omega) hj2
      rw [utf8_ascii hasc, hj1] at hc'
      cases hc'
      exact (blankByte_iff c).1 hb
    all_goals
      intro hne
      cases hf : mapFind a.mapR m.2.2 with
      | none =>
        rw [hf] at hl hr
        first
        | (rw [hl rfl] at hne; simp [part] at hne)
        | (rw [hr rfl] at hne; simp [part] at hne)
      | some t =>
        rw [hf] at hl hr
        refine ⟨t, rfl, ?_⟩
        first
        | (cases hb : t.lstrip with
           | true => rfl
           | false => rw [hl hb] at hne; simp [part] at hne)
        | (cases hb : t.rstrip with
           | true => rfl
           | false => rw [hr hb] at hne; simp [part] at hne)

/-! ### The splits of the segments -/

theorem segSplits_bmp {a : AddedVocab} {T : List (Str × Int)} {w : WStr} (hw : Bmp w) (base : Nat) (segs : List TSeg) :
    ∀ pos, pos ≤ w.length → Tiles pos (segs.map (·.2)) w.length → (∀ g ∈ segs, SegText a T w g) →
    ∃ out, segSplits w base segs = .ok out ∧ Tiles (pos + base) (out.map (·.offsets)) (w.length + base) ∧
      (out.map (·.normalized)).flatten = utf8 (w.drop pos) ∧
      (∀ s ∈ out, s.tokens = [] ∨ IsToken a T s) ∧
      Each (fun (g : TSeg) (s : Split) => s.normalized = utf8 (part w g.2.1 g.2.2) ∧
        s.tokens = (match g.1 with
          | some i => [{ id := i, value := s.normalized, offsets := (0, s.normalized.length) }]
          | none => [])) segs out := by
  induction segs with
  | nil =>
    intro pos hp ht _
    simp only [List.map_nil, Tiles] at ht
    subst ht
    exact ⟨[], rfl, by simp [Tiles], by simp, by simp, .nil⟩
  | cons g r ih =>
    intro pos hp ht hg
    obtain ⟨id, x, y⟩ := g
    simp only [List.map_cons, Tiles] at ht
    obtain ⟨rfl, hxy, ht⟩ := ht
    have hy : y ≤ w.length := by
      clear ih hg
      induction r generalizing y with
      | nil => simp only [List.map_nil, Tiles] at ht; omega
      | cons g r ih =>
        simp only [List.map_cons, Tiles] at ht
        have := ih _ (Nat.le_trans hxy (by omega)) ht.2.2
        omega
    obtain ⟨out, h1, h2, h3, h4, h5⟩ := ih y hy ht fun g hg' => hg g (by simp [hg'])
    have hs := bmp_scalars (bmp_sub hw (fun c (hc : c ∈ part w x y) => part_mem hc))
    have hsub : wsubstr w x y = .ok (part w x y) := by
      unfold wsubstr part; rw [if_pos hp, if_pos hxy]
    refine ⟨_, by simp only [segSplits, hsub, res_ok_bind, convertToString_scalars hs, h1]; rfl, ?_, ?_, ?_, ?_⟩
    · simp only [List.map_cons, Tiles]
      exact ⟨trivial, by omega, h2⟩
    · simp only [List.map_cons, List.flatten_cons, h3]
      have e : w.drop x = part w x y ++ w.drop y := by
        have : w.drop y = (w.drop x).drop (y - x) := by rw [List.drop_drop]; congr 1; omega
        rw [this]; unfold part; exact (List.take_append_drop _ _).symm
      rw [e]; simp
    · intro s hs'
      rcases List.mem_cons.1 hs' with rfl | hs'
      · rcases hg (id, (x, y)) (by simp) with h | ⟨i, k, l, r', h, hk, ht', hl, hr, hl', hr'⟩
        · simp only at h; subst h; exact .inl rfl
        · simp only at h; subst h
          exact .inr ⟨i, k, l, r', hk, ht', hl, hr, hl', hr', rfl⟩
      · exact h4 s hs'
    · refine .cons ⟨rfl, ?_⟩ h5
      cases id <;> rfl

theorem touched_cuttable {a a' : AddedVocab} (h : Touched a a') {w : WStr} (hw : Cuttable a w) : Cuttable a' w := by
  refine ⟨hw.1, ?_⟩
  have e1 : a'.nonNormTrie = a.nonNormTrie := by rw [h.same]
  have e2 : a'.normTrie = a.normTrie := by rw [h.same]
  rcases hw.2 with h1 | h1
  · left
    intro i t ht
    rcases h.new i t ht with h2 | ⟨_, rfl, _⟩
    · exact h1 i t h2
    · exact ⟨rfl, rfl⟩
  · right
    rw [e1, e2]; exact h1

theorem touched_isToken {a a' : AddedVocab} (h : Touched a a') {T : List (Str × Int)} {s : Split} (hs : IsToken a' T s) :
    IsToken a T s := by
  obtain ⟨i, k, l, r, h1, h2, h3, h4, h5, h6, h7⟩ := hs
  refine ⟨i, k, l, r, h1, h2, h3, h4, ?_, ?_, h7⟩
  · intro hne
    obtain ⟨t, ht, hb⟩ := h5 hne
    rcases h.new i t ht with h8 | ⟨_, rfl, _⟩
    · exact ⟨t, h8, hb⟩
    · cases hb
  · intro hne
    obtain ⟨t, ht, hb⟩ := h6 hne
    rcases h.new i t ht with h8 | ⟨_, rfl, _⟩
    · exact ⟨t, h8, hb⟩
    · cases hb

/-! ### The second loop -/

/-- What becomes of a piece `v` of the text (with the id of an added token, or not). -/
def Becomes (P : Platform) (norm : Option Normalizer) (a : AddedVocab) (cut : WStr × Option Int) (g : List Split) :
    Prop :=
  match cut.2 with
  | some i => ∃ s, g = [s] ∧ s.normalized = utf8 cut.1 ∧
      s.tokens = [{ id := i, value := s.normalized, offsets := (0, s.normalized.length) }]
  | none => ∃ sub, normalizeOpt P norm (NS.ofText cut.1) = .ok sub ∧
      (g.map (·.normalized)).flatten = utf8 sub.normalized ∧
      ∀ s ∈ g, s.tokens = [] ∨ IsToken a a.normTrie s

/-- A split of the first pass and the piece of the text it holds. -/
def Holds (a : AddedVocab) (cut : WStr × Option Int) (s : Split) : Prop :=
  s.normalized = utf8 cut.1 ∧ Cuttable a cut.1 ∧
  s.tokens = (match cut.2 with
    | some i => [{ id := i, value := s.normalized, offsets := (0, s.normalized.length) }]
    | none => [])

theorem tiles_append {a b c : Nat} {l m : List (Nat × Nat)} (h1 : Tiles a l b) (h2 : Tiles b m c) :
    Tiles a (l ++ m) c := by
  induction l generalizing a with
  | nil => simp only [Tiles] at h1; subst h1; exact h2
  | cons x r ih =>
    simp only [Tiles] at h1
    simp only [List.cons_append, Tiles]
    exact ⟨h1.1, h1.2.1, ih h1.2.2⟩

/-- The splits hold ASCII text. -/
def AsciiSplits (l : List Split) : Prop := ∀ s ∈ l, ∀ b ∈ s.normalized, b < 0x80

/-- Length of the text of the splits. -/
def textLen (l : List Split) : Nat := (l.map (·.normalized)).flatten.length

theorem normalizeLoop_groups (P : Platform) (norm : Option Normalizer) {a0 : AddedVocab}
    {cuts : List (WStr × Option Int)} {l : List Split} (hcl : Each (Holds a0) cuts l)
    (hn : ∀ v s, Cuttable a0 v → normalizeOpt P norm (NS.ofText v) = .ok s → Cuttable a0 s.normalized) :
    ∀ (a : AddedVocab) (ns ns' : NS) (e : Nat) (out : List Split), Touched a0 a →
    (normalizeLoop P norm a ns e l).1 = .ok (ns', out) →
    ∃ groups, out = groups.flatten ∧ Each (Becomes P norm a0) cuts groups ∧
      ∃ e', Tiles e (out.map (·.offsets)) e' ∧ (AsciiSplits out → e' = e + textLen out) := by
  induction hcl with
  | nil =>
    intro a ns ns' e out _ h
    simp only [normalizeLoop, Except.ok.injEq, Prod.mk.injEq] at h
    obtain ⟨-, rfl⟩ := h
    exact ⟨[], rfl, .nil, e, rfl, fun _ => rfl⟩
  | @cons cut s cuts l hcs hcl' ih =>
    intro a ns ns' e out ht h
    obtain ⟨hs1, hs2, hs3⟩ := hcs
    obtain ⟨v, id⟩ := cut
    simp only at hs1 hs2 hs3
    simp only [normalizeLoop] at h
    cases id with
    | some i =>
      simp only at hs3
      rw [if_pos (by rw [hs3]; simp)] at h
      have ih' := fun ns' out => ih a ns ns' (e + s.normalized.length) out ht
      generalize normalizeLoop P norm a ns (e + s.normalized.length) l = R at h ih'
      obtain ⟨r, a'⟩ := R
      cases r with
      | error x => cases h
      | ok q =>
        obtain ⟨ns1, rest⟩ := q
        simp only [Except.ok.injEq, Prod.mk.injEq] at h
        obtain ⟨rfl, rfl⟩ := h
        obtain ⟨groups, h1, h2, e', h3, h4⟩ := ih' ns1 rest rfl
        refine ⟨[{ s with offsets := (e, e + s.normalized.length) }] :: groups, by simp [h1], .cons ?_ h2, e', ?_, ?_⟩
        · exact ⟨_, rfl, hs1, hs3⟩
        · simp only [List.map_cons, Tiles]
          exact ⟨trivial, by omega, h3⟩
        · intro has
          have := h4 fun x hx => has x (by simp [hx])
          simp only [textLen, List.map_cons, List.flatten_cons, List.length_append] at this ⊢
          omega
    | none =>
      simp only at hs3
      rw [if_neg (by rw [hs3]; simp)] at h
      have hsp : ∀ ns1 here n, (normalizeSplit P norm a ns e s).1 = .ok (ns1, here, n) →
          Becomes P norm a0 (v, none) here ∧ Tiles e (here.map (·.offsets)) (n + e) ∧
          (AsciiSplits here → n = textLen here) := by
        intro ns1 here n hh
        unfold normalizeSplit at hh
        simp only at hh
        split at hh
        · cases hh
        · rename_i ns2 sub text hpre
          obtain ⟨w', hw', hpre⟩ := res_bind_ok.1 hpre
          rw [hs1, convertFromString_utf8 (bmp_scalars hs2.1)] at hw'
          cases hw'
          obtain ⟨sub', hsub, hpre⟩ := res_bind_ok.1 hpre
          split at hpre
          · cases hpre
          · obtain ⟨ns3, _, hpre⟩ := res_bind_ok.1 hpre
            obtain ⟨text', htext, hpre⟩ := res_bind_ok.1 hpre
            have := Except.ok.inj hpre
            simp only [Prod.mk.injEq] at this
            obtain ⟨rfl, rfl, rfl⟩ := this
            have hcut := hn v sub' hs2 hsub
            have hcut' := touched_cuttable ht hcut
            have ht' := convertToString_scalars (bmp_scalars hcut.1)
            rw [htext] at ht'
            have ht' := Except.ok.inj ht'
            subst ht'
            have eN : a.normTrie = a0.normTrie := by rw [ht.same]
            obtain ⟨segs, f1, f2, f3⟩ := findMatches_bmp (T := a.normTrie) hcut' fun p hp => List.mem_append_right _ hp
            obtain ⟨out1, g1, g2, g3, g4, -⟩ := segSplits_bmp (a := a) (T := a.normTrie) hcut.1 e segs 0 (Nat.zero_le _) f2 f3
            rw [f1, res_ok_bind, g1, res_ok_bind] at hh
            have := Except.ok.inj hh
            simp only [Prod.mk.injEq] at this
            obtain ⟨-, rfl, rfl⟩ := this
            rw [List.drop_zero] at g3
            refine ⟨⟨sub', hsub, g3, ?_⟩, by simpa using g2, ?_⟩
            · intro x hx
              rcases g4 x hx with h | h
              · exact .inl h
              · rw [eN] at h; exact .inr (touched_isToken ht h)
            · intro has
              unfold textLen
              rw [g3]
              refine (utf8_ascii_rev ?_).symm
              rw [← g3]
              intro b hb
              obtain ⟨q, hq, hbq⟩ := List.mem_flatten.1 hb
              obtain ⟨x, hx, rfl⟩ := List.mem_map.1 hq
              exact has x hx b hbq
      have htch := normalizeSplit_touched P norm a ns e s
      generalize normalizeSplit P norm a ns e s = R at h hsp htch
      obtain ⟨r, a'⟩ := R
      cases r with
      | error x => cases h
      | ok q =>
        obtain ⟨ns1, here, n⟩ := q
        simp only at h hsp htch
        obtain ⟨b1, b2, b3⟩ := hsp ns1 here n rfl
        have ih' := fun ns' out => ih a' ns1 ns' (e + n) out (ht.trans htch)
        generalize normalizeLoop P norm a' ns1 (e + n) l = R at h ih'
        obtain ⟨r, a''⟩ := R
        cases r with
        | error x => cases h
        | ok q =>
          obtain ⟨ns2, rest⟩ := q
          simp only [Except.ok.injEq, Prod.mk.injEq] at h
          obtain ⟨rfl, rfl⟩ := h
          obtain ⟨groups, h1, h2, e', h3, h4⟩ := ih' ns2 rest rfl
          refine ⟨here :: groups, by simp [h1], .cons b1 h2, e', ?_, ?_⟩
          · rw [List.map_append]
            exact tiles_append b2 (by rw [Nat.add_comm]; exact h3)
          · intro has
            have t1 := h4 fun x hx => has x (by simp [hx])
            have t2 := b3 fun x hx => has x (by simp [hx])
            simp only [textLen, List.map_append, List.flatten_append, List.length_append] at t1 t2 ⊢
            omega

/-- The first pass. -/
theorem firstSplits_bmp {a : AddedVocab} {w : WStr} (hw : Cuttable a w) :
    ∃ p cuts, (a.firstSplits w).1 = .ok p ∧ (cuts.map (·.1)).flatten = w ∧ Each (Holds a) cuts p.splits ∧
      (∀ s ∈ p.splits, s.tokens = [] ∨ IsToken a a.nonNormTrie s) ∧ p.splits ≠ [] ∧
      (p.splits.map (·.normalized)).flatten = utf8 w ∧ Tiles 0 (p.splits.map (·.offsets)) w.length ∧
      (∀ segs x y i, (a.findMatches (utf8 w) a.nonNormTrie).1 = .ok segs → (some i, (x, y)) ∈ segs →
        ∃ L R, cuts = L ++ (part w x y, some i) :: R ∧ (L.map (·.1)).flatten = w.take x) := by
  have hs := bmp_scalars hw.1
  unfold AddedVocab.firstSplits PTS.ofNS
  simp only [NS.ofText, convertToString_scalars hs, res_ok_bind, res_pure]
  obtain ⟨segs, f1, f2, f3⟩ := findMatches_bmp (T := a.nonNormTrie) hw fun p hp => List.mem_append_left _ hp
  obtain ⟨out1, g1, g2, g3, g4, g5⟩ := segSplits_bmp (a := a) (T := a.nonNormTrie) hw.1 0 segs 0 (Nat.zero_le _) f2 f3
  rw [f1, res_ok_bind, g1, res_ok_bind]
  by_cases ho : out1 = []
  · subst ho
    refine ⟨_, [(w, none)], rfl, by simp, ?_, ?_, by simp, by simp, by simp [Tiles], ?_⟩
    rotate_left
    rotate_left
    · intro segs' x y i h hg
      have h := Except.ok.inj h
      subst h
      cases g5; cases hg
    · simp only [if_true]
      exact .cons ⟨rfl, hw, rfl⟩ .nil
    · simp
  · refine ⟨_, segs.map fun g => (part w g.2.1 g.2.2, g.1), rfl, ?_, ?_, ?_, ?_, ?_, ?_, ?_⟩
    · -- the parts make up the text
      have gen : ∀ (segs : List TSeg) pos, pos ≤ w.length → Tiles pos (segs.map (·.2)) w.length →
          ((segs.map fun g => (part w g.2.1 g.2.2, g.1)).map (·.1)).flatten = w.drop pos := by
        intro segs
        induction segs with
        | nil => intro pos _ h; simp only [List.map_nil, Tiles] at h; simp [h]
        | cons g r ih =>
          intro pos hp h
          obtain ⟨id, x, y⟩ := g
          simp only [List.map_cons, Tiles] at h
          obtain ⟨h1, h2, h3⟩ := h
          subst h1
          simp only [List.map_cons, List.flatten_cons]
          have hy : y ≤ w.length := by
            have gen : ∀ (l : List (Nat × Nat)) a b, Tiles a l b → a ≤ b := by
              intro l
              induction l with
              | nil => intro a b h; simp only [Tiles] at h; omega
              | cons x r ih => intro a b h; simp only [Tiles] at h; have := ih _ _ h.2.2; omega
            exact gen _ _ _ h3
          rw [ih _ hy h3]
          have : w.drop y = (w.drop x).drop (y - x) := by rw [List.drop_drop]; congr 1; omega
          rw [this]; unfold part; exact List.take_append_drop _ _
      simpa using gen segs 0 (Nat.zero_le _) f2
    · simp only [if_neg ho]
      refine Each.map_left ?_
      refine Each.imp ?_ g5
      rintro g s ⟨h1, h2⟩
      refine ⟨h1, ?_, h2⟩
      refine ⟨bmp_sub hw.1 fun c hc => part_mem hc, ?_⟩
      rcases hw.2 with h | ⟨h, h'⟩
      · exact .inl h
      · exact .inr ⟨fun c hc => h c (part_mem hc), h'⟩
    · simp only [if_neg ho]; exact g4
    · simp only [if_neg ho]; exact ho
    · simp only [if_neg ho]; exact g3
    · simp only [if_neg ho]; exact g2
    · intro segs' x y i h hg
      have h := Except.ok.inj h
      subst h
      obtain ⟨L, R, rfl⟩ := List.append_of_mem hg
      refine ⟨L.map fun g => (part w g.2.1 g.2.2, g.1), R.map fun g => (part w g.2.1 g.2.2, g.1), by simp, ?_⟩
      have gen : ∀ (L : List TSeg) pos, Tiles pos ((L ++ (some i, (x, y)) :: R).map (·.2)) w.length →
          pos ≤ x ∧ ((L.map fun g => (part w g.2.1 g.2.2, g.1)).map (·.1)).flatten = part w pos x := by
        intro L
        induction L with
        | nil =>
          intro pos h
          simp only [List.nil_append, List.map_cons, Tiles] at h
          obtain ⟨rfl, -⟩ := h
          exact ⟨Nat.le_refl _, by simp [part]⟩
        | cons g L ih =>
          intro pos h
          obtain ⟨id, x', y'⟩ := g
          simp only [List.cons_append, List.map_cons, Tiles] at h
          obtain ⟨rfl, h2, h3⟩ := h
          obtain ⟨q1, q2⟩ := ih _ h3
          refine ⟨by omega, ?_⟩
          simp only [List.map_cons, List.flatten_cons, q2]
          exact (part_append w h2 q1).symm
      have := (gen L 0 f2).2
      simpa [part] using this

/-! ### Which matches are found -/

/-- Up to a space, the scan does not look back. -/
theorem scan_after_space (ids : List (Str × Int)) (u : U16) (rest : U16) : ∀ (A : U16) (i cur : Nat),
    A ≠ [] → A.getLast? = some 0x20 →
    ∃ ms, scan ids u (A ++ rest) i cur = ms ++ scan ids u rest (i + A.length) (i + A.length) := by
  intro A
  induction A with
  | nil => intro i cur h; exact absurd rfl h
  | cons c A ih =>
    intro i cur _ hl
    by_cases hA : A = []
    · subst hA
      simp only [List.getLast?_singleton, Option.some.injEq] at hl
      subst hl
      simp only [List.cons_append, List.nil_append, scan, if_true, List.length_cons, List.length_nil, Nat.zero_add]
      split
      · exact ⟨[_], rfl⟩
      · exact ⟨[], rfl⟩
    · have hl' : A.getLast? = some 0x20 := by
        cases A with
        | nil => exact absurd rfl hA
        | cons c' A => rw [List.getLast?_cons_cons] at hl; exact hl
      have e : i + (c :: A).length = i + 1 + A.length := by simp only [List.length_cons]; omega
      simp only [List.cons_append, scan]
      rw [e]
      split
      · rename_i k _
        obtain ⟨ms, h⟩ := ih (i + 1) (if c = 0x20 then i + 1 else i) hA hl'
        exact ⟨(cur, i, k) :: ms, by rw [h]; rfl⟩
      · exact ih (i + 1) (if c = 0x20 then i + 1 else cur) hA hl'

/-- From the start of a word, the first prefix in the table is found. -/
theorem scan_word (ids : List (Str × Int)) (u B : U16) (id : Int) (cur : Nat) : ∀ (k : U16) (i : Nat),
    (∀ c ∈ k, c ≠ 0x20) → cur ≤ i → (k = [] → cur < i) →
    (∀ j, i ≤ j → j < i + k.length → mapFind ids (toUTF8String (tempSubString u cur (j - cur))) = none) →
    mapFind ids (toUTF8String (tempSubString u cur (i + k.length - cur))) = some id →
    (cur, i + k.length, id) ∈ scan ids u (k ++ B) i cur := by
  intro k
  induction k with
  | nil =>
    intro i _ _ hlt _ hf
    have := hlt rfl
    simp only [List.length_nil, Nat.add_zero, List.nil_append] at hf ⊢
    cases B with
    | nil => simp only [scan]; rw [if_pos (by omega), hf]; simp
    | cons c B => simp only [scan, hf]; simp
  | cons c k ih =>
    intro i hns hci _ hno hf
    have h0 := hno i (Nat.le_refl _) (by simp)
    simp only [List.cons_append, scan]
    rw [h0]
    simp only [if_neg (hns c (by simp))]
    have e : i + (c :: k).length = i + 1 + k.length := by simp only [List.length_cons]; omega
    rw [e] at hf ⊢
    exact ih (i + 1) (fun x hx => hns x (by simp [hx])) (by omega) (fun _ => by omega)
      (fun j h1 h2 => hno j (by omega) (by rw [e]; omega)) hf

/-- A match whose token has no flags becomes a segment. -/
theorem matchSegs_mem (mapR : List (Int × AddedToken)) (s : Str) (total : Nat) {x y : Nat} {id : Int}
    (hflag : ((mapFind mapR id).getD {}).singleWord = false ∧ ((mapFind mapR id).getD {}).lstrip = false ∧
      ((mapFind mapR id).getD {}).rstrip = false) (ms : List (Nat × Nat × Int)) :
    ∀ start segs, matchSegs mapR s total ms start = .ok segs → (x, y, id) ∈ ms → (some id, (x, y)) ∈ segs := by
  induction ms with
  | nil => intro start segs _ h; cases h
  | cons m r ih =>
    intro start segs h hm
    obtain ⟨a, b, i⟩ := m
    simp only [matchSegs] at h
    obtain ⟨ok, hok, h⟩ := res_bind_ok.1 h
    rcases List.mem_cons.1 hm with heq | hm
    · simp only [Prod.mk.injEq] at heq
      obtain ⟨rfl, rfl, rfl⟩ := heq
      have : ok = true := by
        unfold wordOk at hok
        rw [hflag.1] at hok
        exact (Except.ok.inj hok).symm
      subst this
      simp only [if_true, hflag.2.1, hflag.2.2, Bool.false_eq_true, if_false, res_pure, res_ok_bind] at h
      obtain ⟨rest, _, h⟩ := res_bind_ok.1 h
      have h := Except.ok.inj h
      subst h
      simp
    · cases ok with
      | false =>
        simp only [Bool.false_eq_true, if_false] at h
        exact ih _ _ h hm
      | true =>
        simp only [if_true] at h
        split at h
        · obtain ⟨q, _, h⟩ := res_bind_ok.1 h
          obtain ⟨st, _, h⟩ := res_bind_ok.1 h
          obtain ⟨rest, hr, h⟩ := res_bind_ok.1 h
          have h := Except.ok.inj h
          subst h
          have := ih _ _ hr hm
          simp [this]
        · obtain ⟨st, _, h⟩ := res_bind_ok.1 h
          obtain ⟨rest, hr, h⟩ := res_bind_ok.1 h
          have h := Except.ok.inj h
          subst h
          have := ih _ _ hr hm
          simp [this]

theorem wordIds_find {T : List (Str × Int)} {k : Str} {i : Int} (h : (k, i) ∈ T) (hu : ∀ j, (k, j) ∈ T → j = i) :
    mapFind (wordIds T) k = some i := by
  cases hf : mapFind (wordIds T) k with
  | some j => rw [hu j (wordIds_mem hf)]
  | none =>
    exfalso
    have gen : ∀ (l m : List (Str × Int)), (k ∈ l.map (·.1) ∨ mapFind m k ≠ none) →
        mapFind (l.foldl (fun m p => mapSet m p.1 p.2) m) k ≠ none := by
      intro l
      induction l with
      | nil => rintro m (h | h); · cases h
               exact h
      | cons p r ih =>
        intro m h
        refine ih _ ?_
        rw [mapFind_set]
        rcases h with h | h
        · rcases List.mem_cons.1 h with h | h
          · exact .inr (by simp [h])
          · exact .inl h
        · exact .inr (by split <;> simp_all)
    exact gen T [] (.inl (List.mem_map.2 ⟨_, h, rfl⟩)) hf

theorem find_word {a : AddedVocab} {T : List (Str × Int)} {A k B : WStr} {i : Int} (hw : Bmp (A ++ k ++ B))
    (hA : A = [] ∨ A.getLast? = some 0x20) (hk : k ≠ []) (hsp : ∀ c ∈ k, c ≠ 0x20)
    (hin : (utf8 k, i) ∈ T) (hu : ∀ j, (utf8 k, j) ∈ T → j = i)
    (hpre : ∀ q j, (q, j) ∈ T → q <+: utf8 k → q = utf8 k)
    (hflag : ((mapFind a.mapR i).getD {}).singleWord = false ∧ ((mapFind a.mapR i).getD {}).lstrip = false ∧
      ((mapFind a.mapR i).getD {}).rstrip = false) {segs : List TSeg}
    (h : (a.findMatches (utf8 (A ++ k ++ B)) T).1 = .ok segs) :
    (some i, (A.length, A.length + k.length)) ∈ segs := by
  have hs := bmp_scalars hw
  have hufs : fromUTF8 (utf8 (A ++ k ++ B)) = A ++ k ++ B := by rw [fromUTF8_utf8 hs, utf16_bmp hw]
  unfold AddedVocab.findMatches at h
  simp only [hufs] at h
  refine matchSegs_mem _ _ _ hflag _ _ _ h ?_
  -- prefixes of the word
  have hpart : ∀ n, n ≤ k.length → toUTF8String (tempSubString (A ++ k ++ B) A.length n) = utf8 (k.take n) := by
    intro n hn
    have e : tempSubString (A ++ k ++ B) A.length n = k.take n := by
      unfold tempSubString
      rw [List.append_assoc, List.drop_left, List.take_append_of_le_length hn]
    rw [e]
    have hb : Bmp (k.take n) := bmp_sub hw fun c hc => by simp [List.mem_of_mem_take hc]
    have := toUTF8String_utf16 (bmp_scalars hb)
    rwa [utf16_bmp hb] at this
  have main : (A.length, A.length + k.length, i) ∈
      scan (wordIds T) (A ++ k ++ B) (k ++ B) A.length A.length := by
    refine scan_word _ _ B i A.length k A.length hsp (Nat.le_refl _) (fun h => absurd h hk) ?_ ?_
    · intro j h1 h2
      rw [hpart (j - A.length) (by omega)]
      cases hf : mapFind (wordIds T) (utf8 (k.take (j - A.length))) with
      | none => rfl
      | some x =>
        exfalso
        have hmem := wordIds_mem hf
        have hb1 : Scalars (k.take (j - A.length)) := bmp_scalars (bmp_sub hw fun c hc => by simp [List.mem_of_mem_take hc])
        have hb2 : Scalars k := bmp_scalars (bmp_sub hw fun c hc => by simp [hc])
        have he := hpre _ _ hmem ⟨utf8 (k.drop (j - A.length)), by rw [← utf8_append, List.take_append_drop]⟩
        have := utf8_injective hb1 hb2 he
        have := congrArg List.length this
        simp at this
        omega
    · have : A.length + k.length - A.length = k.length := by omega
      rw [this, hpart _ (Nat.le_refl _), List.take_length]
      exact wordIds_find hin hu
  rcases hA with rfl | hA
  · simpa using main
  · have hne : A ≠ [] := by rintro rfl; cases hA
    obtain ⟨ms, he⟩ := scan_after_space (wordIds T) (A ++ k ++ B) (k ++ B) A 0 0 hne hA
    have : A ++ k ++ B = A ++ (k ++ B) := List.append_assoc ..
    rw [this] at he main ⊢
    rw [he]
    simp only [Nat.zero_add]
    exact List.mem_append_right _ main

end Tok
