import Verif.Props.Chunks
import Verif.Props.Limits
import Verif.Props.Settings
import Verif.Props.Rounds
import Verif.Spec.Behind

set_option autoImplicit false

/-!
C136: what lies behind the limit does not matter.
-/

namespace Tok
open Spec

theorem bh_padded_unique {α : Type} {pad : Option Padding} {n : Nat} {fill : Padding → α} {l l1 l2 : List α} (h1 : PaddedBy pad n fill l l1)
    (h2 : PaddedBy pad n fill l l2) : l1 = l2 := by
  unfold PaddedBy at h1 h2
  cases pad with
  | none => exact Eq.trans h1 (Eq.symm h2)
  | some p =>
    obtain ⟨s1, r1, rfl⟩ := h1
    obtain ⟨s2, r2, rfl⟩ := h2
    rw [ro_rounded_unique r1 r2]

/-- The ids and tokens of an encoding are a function of what truncation keeps of the tokens of the text. -/
theorem bh_same (P : Platform) {t : Tokenizer} {b : Bool} {x1 x2 : WStr} {e1 e2 : Encoding}
    (hi : ∀ tr, t.truncation = some tr → IsInt tr.maxLength ∧ IsInt tr.stride)
    (hn : ∀ x e0, x = x1 ∨ x = x2 → ((bareOf t).encode P x false).1 = .ok e0 → IsInt e0.ids.length)
    (hk : ∀ y1 y2, ((bareOf t).encode P x1 false).1 = .ok y1 → ((bareOf t).encode P x2 false).1 = .ok y2 →
      mainPart t.truncation y1.ids = mainPart t.truncation y2.ids ∧ mainPart t.truncation y1.tokens = mainPart t.truncation y2.tokens)
    (h1 : (t.encode P x1 b).1 = .ok e1) (h2 : (t.encode P x2 b).1 = .ok e2) : e1.ids = e2.ids ∧ e1.tokens = e2.tokens := by
  have one : ∀ {x : WStr} {e : Encoding}, (t.encode P x b).1 = .ok e →
      (∀ e0, ((bareOf t).encode P x false).1 = .ok e0 → IsInt e0.ids.length) →
      ∃ y, ((bareOf t).encode P x false).1 = .ok y ∧
        (let ids := laidOutBy t.postProcessor b (·.ids) (mainPart t.truncation y.ids)
         let tokens := laidOutBy t.postProcessor b (·.tokens) (mainPart t.truncation y.tokens)
         PaddedBy t.padding ids.length (·.padId) ids e.ids ∧ PaddedBy t.padding ids.length (·.padToken) tokens e.tokens) := by
    intro x e h hn
    obtain ⟨y, hy, hpost⟩ := st_bare h
    refine ⟨y, hy false, ?_⟩
    obtain ⟨hov, rows, hrows, -⟩ := st_text (hy false)
    have hal := hasRows_aligned hrows
    have hlen : IsInt rows.length := by have := hn y (hy false); rwa [hal.1] at this
    obtain ⟨c1, c2, g1, g2, g3⟩ := postProcess_ok hpost
    have hy' : y = { toEnc := y.toEnc, overflowing := [] } := by cases y; simp only at hov; rw [hov]
    rw [hy'] at g1
    obtain ⟨i1, i2⟩ := pl_truncation t.truncation hal hlen g1 hi
    have hl : c2.ids = laidOutBy t.postProcessor b (·.ids) c1.ids ∧ c2.tokens = laidOutBy t.postProcessor b (·.tokens) c1.tokens := by
      unfold laidOutBy
      cases hpp : t.postProcessor with
      | none => rw [hpp] at g2; cases g2; exact ⟨rfl, rfl⟩
      | some pp => rw [hpp] at g2; exact pl_arranged b pp g2
    obtain ⟨j1, j2⟩ := pl_padding t.padding g3
    rw [hl.1, hl.2, i1, i2] at j2
    rw [hl.1, i1] at j1
    exact ⟨j1, j2⟩
  obtain ⟨y1, a1, a2, a3⟩ := one h1 fun e0 h => hn _ e0 (.inl rfl) h
  obtain ⟨y2, b1, b2, b3⟩ := one h2 fun e0 h => hn _ e0 (.inr rfl) h
  obtain ⟨k1, k2⟩ := hk y1 y2 a1 b1
  rw [← k1] at b2 b3
  rw [← k2] at b3
  exact ⟨bh_padded_unique a2 b2, bh_padded_unique a3 b3⟩

theorem bh_right {α : Type} {tr : Truncation} (hl : Limits tr) (hd : tr.direction = .right) {l r : List α} (h : tr.maxLength ≤ l.length) :
    mainPart (some tr) (l ++ r) = l.take tr.maxLength.toNat := by
  have h0 := hl.1
  unfold mainPart
  simp only [hd]
  split
  · rename_i ha
    rw [lm_left hl, List.length_append] at ha
    have : r = [] := List.length_eq_zero_iff.1 (by omega)
    subst this
    rw [List.append_nil, List.take_of_length_le (by omega)]
  · rw [List.take_append_of_le_length (by omega)]

theorem bh_left {α : Type} {tr : Truncation} (hl : Limits tr) (hd : tr.direction = .left) {l r : List α} (h : tr.maxLength ≤ l.length) :
    mainPart (some tr) (r ++ l) = l.drop (l.length - tr.maxLength.toNat) := by
  have h0 := hl.1
  unfold mainPart
  simp only [hd]
  split
  · rename_i ha
    rw [lm_left hl, List.length_append] at ha
    have : r = [] := List.length_eq_zero_iff.1 (by omega)
    subst this
    rw [List.nil_append, show l.length - tr.maxLength.toNat = 0 by omega, List.drop_zero]
  · rw [List.drop_append, List.drop_eq_nil_of_le (by rw [List.length_append]; omega), List.nil_append, List.length_append]
    congr 1
    omega

/-- **C136** Text behind the limit does not matter.  If truncation keeps the beginning and a text has at least as many tokens as
are kept, then whatever follows it after a space, the ids and tokens are the same. -/
theorem C136_behind (P : Platform) (hg : GoodRegexes P) (hs : P.reSpace 0x20 = true) {t : Tokenizer} {m x : Model} {lines : List Str} {pt : PreTokenizer}
    {tr : Truncation} {w x1 x2 : WStr} {b : Bool} {ew e1 e2 : Encoding} (hx : t.model = some x) (hm : ModelIs P lines m x)
    (hd : ∀ a, t.added = some a → PlainTables a) (hpt : t.preTokenizer = some pt) (hb : BertFirst pt)
    (htr : t.truncation = some tr) (hl : Limits tr) (hdir : tr.direction = .right) (hi : IsInt tr.maxLength ∧ IsInt tr.stride)
    (hw : ((bareOf t).encode P w false).1 = .ok ew) (hlong : tr.maxLength ≤ ew.ids.length)
    (hx1 : GoesOn P t w x1) (hx2 : GoesOn P t w x2) (hc1 : ChunkSafe P t x1) (hc2 : ChunkSafe P t x2)
    (hn : ∀ x e0, x = x1 ∨ x = x2 → ((bareOf t).encode P x false).1 = .ok e0 → IsInt e0.ids.length)
    (h1 : (t.encode P x1 b).1 = .ok e1) (h2 : (t.encode P x2 b).1 = .ok e2) : e1.ids = e2.ids ∧ e1.tokens = e2.tokens := by
  have key : ∀ {x' : WStr} {y : Encoding}, GoesOn P t w x' → ChunkSafe P t x' → ((bareOf t).encode P x' false).1 = .ok y →
      mainPart (some tr) y.ids = ew.ids.take tr.maxLength.toNat ∧ mainPart (some tr) y.tokens = ew.tokens.take tr.maxLength.toNat := by
    intro x' y hc hsafe hy
    have hlong' : tr.maxLength ≤ ew.tokens.length := by
      obtain ⟨-, rows, hrows, -⟩ := st_text hw
      have hal := hasRows_aligned hrows
      rw [hal.2.2.1]; rw [hal.1] at hlong; exact hlong
    rcases hc with rfl | ⟨v, rfl, ev, hv⟩
    · rw [hw] at hy; cases hy
      have := bh_right (r := []) hl hdir hlong
      have := bh_right (r := []) hl hdir hlong'
      simp only [List.append_nil] at *
      exact ⟨by assumption, by assumption⟩
    · obtain ⟨k1, k2⟩ := C112_append P hg hs (t := bareOf t) hx hm hd hpt hb rfl rfl rfl hsafe hw hv hy
      rw [k1, k2]
      exact ⟨bh_right hl hdir hlong, bh_right hl hdir hlong'⟩
  refine bh_same P (fun tr' h => by rw [htr] at h; cases h; exact hi) hn ?_ h1 h2
  intro y1 y2 a1 a2
  obtain ⟨k1, k2⟩ := key hx1 hc1 a1
  obtain ⟨k3, k4⟩ := key hx2 hc2 a2
  rw [htr, k1, k2, k3, k4]
  exact ⟨rfl, rfl⟩

/-- **C136** If truncation keeps the end, the same holds for what precedes the text. -/
theorem C136_before (P : Platform) (hg : GoodRegexes P) (hs : P.reSpace 0x20 = true) {t : Tokenizer} {m x : Model} {lines : List Str} {pt : PreTokenizer}
    {tr : Truncation} {w x1 x2 : WStr} {b : Bool} {ew e1 e2 : Encoding} (hx : t.model = some x) (hm : ModelIs P lines m x)
    (hd : ∀ a, t.added = some a → PlainTables a) (hpt : t.preTokenizer = some pt) (hb : BertFirst pt)
    (htr : t.truncation = some tr) (hl : Limits tr) (hdir : tr.direction = .left) (hi : IsInt tr.maxLength ∧ IsInt tr.stride)
    (hw : ((bareOf t).encode P w false).1 = .ok ew) (hlong : tr.maxLength ≤ ew.ids.length)
    (hx1 : ComesAfter P t w x1) (hx2 : ComesAfter P t w x2) (hc1 : ChunkSafe P t x1) (hc2 : ChunkSafe P t x2)
    (hn : ∀ x e0, x = x1 ∨ x = x2 → ((bareOf t).encode P x false).1 = .ok e0 → IsInt e0.ids.length)
    (h1 : (t.encode P x1 b).1 = .ok e1) (h2 : (t.encode P x2 b).1 = .ok e2) : e1.ids = e2.ids ∧ e1.tokens = e2.tokens := by
  have key : ∀ {x' : WStr} {y : Encoding}, ComesAfter P t w x' → ChunkSafe P t x' → ((bareOf t).encode P x' false).1 = .ok y →
      mainPart (some tr) y.ids = ew.ids.drop (ew.ids.length - tr.maxLength.toNat) ∧
      mainPart (some tr) y.tokens = ew.tokens.drop (ew.tokens.length - tr.maxLength.toNat) := by
    intro x' y hc hsafe hy
    have hlong' : tr.maxLength ≤ ew.tokens.length := by
      obtain ⟨-, rows, hrows, -⟩ := st_text hw
      have hal := hasRows_aligned hrows
      rw [hal.2.2.1]; rw [hal.1] at hlong; exact hlong
    rcases hc with rfl | ⟨v, rfl, ev, hv⟩
    · rw [hw] at hy; cases hy
      have := bh_left (r := []) hl hdir hlong
      have := bh_left (r := []) hl hdir hlong'
      simp only [List.nil_append] at *
      exact ⟨by assumption, by assumption⟩
    · obtain ⟨k1, k2⟩ := C112_append P hg hs (t := bareOf t) hx hm hd hpt hb rfl rfl rfl hsafe hv hw hy
      rw [k1, k2]
      exact ⟨bh_left hl hdir hlong, bh_left hl hdir hlong'⟩
  refine bh_same P (fun tr' h => by rw [htr] at h; cases h; exact hi) hn ?_ h1 h2
  intro y1 y2 a1 a2
  obtain ⟨k1, k2⟩ := key hx1 hc1 a1
  obtain ⟨k3, k4⟩ := key hx2 hc2 a2
  rw [htr, k1, k2, k3, k4]
  exact ⟨rfl, rfl⟩

/-! ### The hypotheses are met -/

/-- A BERT tokenizer that keeps two tokens. -/
def shortTk (d : TDir) : Tokenizer :=
  { uncasedTk true true true true with truncation := some ⟨d, .longestFirst, 2, 0⟩ }

theorem bh_safe {d : TDir} {w : WStr} (h : w = w!"HELLOs" ∨ w = w!"HELLOs [X]" ∨ w = w!"HELLOs B \u4e2d!" ∨ w = w!"[X] HELLOs" ∨ w = w!"\u4e2d! B HELLOs") :
    ChunkSafe spacePlatform (shortTk d) w := by
  refine C112_bert ck_ascii_space rfl (fun a h => by cases h; intro i t h; cases h) ⟨?_, fun _ _ => rfl⟩
  unfold Scalar Dropped
  rcases h with rfl | rfl | rfl | rfl | rfl <;> decide +kernel

theorem bh_ok {t : Tokenizer} {w : WStr} {b : Bool} {l : List Int} (h : (t.encode spacePlatform w b).1.map (·.ids) = .ok l) :
    ∃ e, (t.encode spacePlatform w b).1 = .ok e ∧ e.ids = l := by
  cases hr : (t.encode spacePlatform w b).1 with
  | error x => rw [hr] at h; cases h
  | ok e => rw [hr] at h; exact ⟨e, rfl, Except.ok.inj h⟩

theorem bh_int {l : List Int} (h : l.length < 10) : IsInt l.length := by
  unfold IsInt; omega

/-- Whatever follows `HELLOs`, a recognized token or other words, the two tokens are those of `HELLOs`. -/
example : ∃ e1 e2, ((shortTk .right).encode spacePlatform w!"HELLOs [X]" true).1 = .ok e1 ∧
    ((shortTk .right).encode spacePlatform w!"HELLOs B \u4e2d!" true).1 = .ok e2 ∧ e1.ids = [1, 2] ∧ e1.ids = e2.ids ∧ e1.tokens = e2.tokens := by
  obtain ⟨e1, h1, k1⟩ := bh_ok (t := shortTk .right) (w := w!"HELLOs [X]") (b := true) (l := [1, 2]) (by decide +kernel)
  obtain ⟨e2, h2, k2⟩ := bh_ok (t := shortTk .right) (w := w!"HELLOs B \u4e2d!") (b := true) (l := [1, 2]) (by decide +kernel)
  obtain ⟨ew, hw, kw⟩ := bh_ok (t := bareOf (shortTk .right)) (w := w!"HELLOs") (b := false) (l := [1, 2]) (by decide +kernel)
  obtain ⟨v1, q1, -⟩ := bh_ok (t := bareOf (shortTk .right)) (w := w!"[X]") (b := false) (l := [4]) (by decide +kernel)
  obtain ⟨v2, q2, -⟩ := bh_ok (t := bareOf (shortTk .right)) (w := w!"B \u4e2d!") (b := false) (l := [5, 3, 0]) (by decide +kernel)
  refine ⟨e1, e2, h1, h2, k1, C136_behind spacePlatform pl_space_good rfl (lines := []) (m := .wordPiece _) rfl rfl
    (fun a h => by cases h; exact ps_plain) rfl .bert rfl ⟨by decide, .inl rfl⟩ rfl (by refine ⟨?_, ?_⟩ <;> (unfold IsInt; decide)) hw
    (by rw [kw]; decide) (.inr ⟨_, rfl, v1, q1⟩) (.inr ⟨_, rfl, v2, q2⟩) (bh_safe (.inr (.inl rfl))) (bh_safe (.inr (.inr (.inl rfl)))) ?_ h1 h2⟩
  rintro x e0 (rfl | rfl) he
  · obtain ⟨e', he', k⟩ := bh_ok (t := bareOf (shortTk .right)) (w := w!"HELLOs [X]") (b := false) (l := [1, 2, 4]) (by decide +kernel)
    cases Except.ok.inj (he'.symm.trans he); rw [k]; exact bh_int (by decide)
  · obtain ⟨e', he', k⟩ := bh_ok (t := bareOf (shortTk .right)) (w := w!"HELLOs B \u4e2d!") (b := false) (l := [1, 2, 5, 3, 0]) (by decide +kernel)
    cases Except.ok.inj (he'.symm.trans he); rw [k]; exact bh_int (by decide)

/-- Whatever precedes it, when the end is kept. -/
example : ∃ e1 e2, ((shortTk .left).encode spacePlatform w!"[X] HELLOs" true).1 = .ok e1 ∧
    ((shortTk .left).encode spacePlatform w!"\u4e2d! B HELLOs" true).1 = .ok e2 ∧ e1.ids = [1, 2] ∧ e1.ids = e2.ids ∧ e1.tokens = e2.tokens := by
  obtain ⟨e1, h1, k1⟩ := bh_ok (t := shortTk .left) (w := w!"[X] HELLOs") (b := true) (l := [1, 2]) (by decide +kernel)
  obtain ⟨e2, h2, k2⟩ := bh_ok (t := shortTk .left) (w := w!"\u4e2d! B HELLOs") (b := true) (l := [1, 2]) (by decide +kernel)
  obtain ⟨ew, hw, kw⟩ := bh_ok (t := bareOf (shortTk .left)) (w := w!"HELLOs") (b := false) (l := [1, 2]) (by decide +kernel)
  obtain ⟨v1, q1, -⟩ := bh_ok (t := bareOf (shortTk .left)) (w := w!"[X]") (b := false) (l := [4]) (by decide +kernel)
  obtain ⟨v2, q2, -⟩ := bh_ok (t := bareOf (shortTk .left)) (w := w!"\u4e2d! B") (b := false) (l := [3, 0, 5]) (by decide +kernel)
  refine ⟨e1, e2, h1, h2, k1, C136_before spacePlatform pl_space_good rfl (lines := []) (m := .wordPiece _) rfl rfl
    (fun a h => by cases h; exact ps_plain) rfl .bert rfl ⟨by decide, .inl rfl⟩ rfl (by refine ⟨?_, ?_⟩ <;> (unfold IsInt; decide)) hw
    (by rw [kw]; decide) (.inr ⟨_, rfl, v1, q1⟩) (.inr ⟨_, rfl, v2, q2⟩) (bh_safe (.inr (.inr (.inr (.inl rfl))))) (bh_safe (.inr (.inr (.inr (.inr rfl))))) ?_ h1 h2⟩
  rintro x e0 (rfl | rfl) he
  · obtain ⟨e', he', k⟩ := bh_ok (t := bareOf (shortTk .left)) (w := w!"[X] HELLOs") (b := false) (l := [4, 1, 2]) (by decide +kernel)
    cases Except.ok.inj (he'.symm.trans he); rw [k]; exact bh_int (by decide)
  · obtain ⟨e', he', k⟩ := bh_ok (t := bareOf (shortTk .left)) (w := w!"\u4e2d! B HELLOs") (b := false) (l := [3, 0, 5, 1, 2]) (by decide +kernel)
    cases Except.ok.inj (he'.symm.trans he); rw [k]; exact bh_int (by decide)

/-- **C136** With fewer tokens than are kept, what follows does show; and so it does when the other end is kept. -/
theorem C136_violated :
    ((shortTk .right).encode spacePlatform w!"[X] HELLOs" true).1.map (·.ids) = .ok [4, 1] ∧
    ((shortTk .right).encode spacePlatform w!"[X] B" true).1.map (·.ids) = .ok [4, 5] ∧
    ((shortTk .left).encode spacePlatform w!"HELLOs [X]" true).1.map (·.ids) = .ok [2, 4] ∧
    ((shortTk .left).encode spacePlatform w!"HELLOs B" true).1.map (·.ids) = .ok [2, 5] := by
  refine ⟨?_, ?_, ?_, ?_⟩ <;> decide +kernel

end Tok
