import Verif.Spec.Config
import Verif.Proofs.BPETable
import Verif.Props.Unicode

set_option autoImplicit false

/-!
Lemmas on the construction of a tokenizer: the readers of JSON values against `Spec.Config`.
-/

namespace Tok
open Spec

/-! ### Strings -/

theorem hexVal_iff (c v : Nat) : hexVal c = some v ↔ HexDigit c v := by
  unfold hexVal HexDigit
  split
  · simp only [Option.some.injEq]; omega
  · split
    · simp only [Option.some.injEq]; omega
    · split
      · simp only [Option.some.injEq]; omega
      · simp only [reduceCtorEq, false_iff]; omega

theorem hex4_iff (a b c d v : Nat) : hex4 a b c d = some v ↔ Hex4 a b c d v := by
  unfold hex4 Hex4
  simp only [Option.bind_eq_bind, Option.bind_eq_some_iff, Option.pure_def, Option.some.injEq, hexVal_iff]
  constructor
  · rintro ⟨p, hp, q, hq, r, hr, s, hs, rfl⟩; exact ⟨p, q, r, s, hp, hq, hr, hs, rfl⟩
  · rintro ⟨p, q, r, s, hp, hq, hr, hs, rfl⟩; exact ⟨p, hp, q, hq, r, hr, s, hs, rfl⟩

theorem hex4_lt {a b c d v : Nat} (h : hex4 a b c d = some v) : v < 65536 := by
  obtain ⟨p, q, r, s, ⟨hp, _⟩, ⟨hq, _⟩, ⟨hr, _⟩, ⟨hs, _⟩, rfl⟩ := (hex4_iff _ _ _ _ _).1 h
  omega

theorem simpleEscape_iff (x y : Nat) : simpleEscape x = some y ↔ ShortEscape x y := by
  unfold ShortEscape
  constructor
  · unfold simpleEscape
    intro h
    split at h
    · rename_i hx
      cases h
      rcases hx with rfl | rfl | rfl <;> simp
    · (repeat' split at h) <;> first | (cases h; done) | (cases h; simp_all)
  · intro h
    simp only [List.mem_cons, Prod.mk.injEq, List.not_mem_nil, or_false] at h
    rcases h with ⟨rfl, rfl⟩ | ⟨rfl, rfl⟩ | ⟨rfl, rfl⟩ | ⟨rfl, rfl⟩ | ⟨rfl, rfl⟩ | ⟨rfl, rfl⟩ | ⟨rfl, rfl⟩ | ⟨rfl, rfl⟩ <;> rfl

theorem not_shortEscape_u (y : Nat) : ¬ ShortEscape 0x75 y := by
  rw [← simpleEscape_iff]; simp [simpleEscape]

theorem unescape_iff : ∀ (n : Nat) (raw s : Str), raw.length ≤ n → (unescape n raw = some s ↔ Denotes raw s) := by
  intro n
  induction n with
  | zero =>
    intro raw s h
    have : raw = [] := by simpa using h
    subst this
    simp only [unescape, Option.some.injEq]
    constructor
    · rintro rfl; exact .nil
    · intro h; cases h; rfl
  | succ n ih =>
    intro raw s h
    cases raw with
    | nil =>
      simp only [unescape, Option.some.injEq]
      constructor
      · rintro rfl; exact .nil
      · intro h; cases h; rfl
    | cons c r =>
      simp only [List.length_cons, Nat.add_le_add_iff_right] at h
      simp only [unescape]
      split
      · rename_i hc
        simp only [Option.map_eq_some_iff]
        constructor
        · rintro ⟨t, ht, rfl⟩; exact .plain hc ((ih _ _ h).1 ht)
        · intro hd
          cases hd with
          | plain _ hd => exact ⟨_, (ih _ _ h).2 hd, rfl⟩
          | short => exact absurd rfl hc
          | unit => exact absurd rfl hc
          | pair => exact absurd rfl hc
      · rename_i hc
        simp at hc; subst hc
        split
        · rename_i a b e f r'
          simp only [List.length_cons] at h
          simp only [Option.bind_eq_bind, Option.bind_eq_some_iff]
          constructor
          · rintro ⟨v, hv, h'⟩
            have hlt := hex4_lt hv
            split at h'
            · rename_i hl
              split at h'
              · rename_i a' b' e' f' r''
                simp only [Option.bind_eq_some_iff] at h'
                obtain ⟨v', hv', h'⟩ := h'
                have hlt' := hex4_lt hv'
                split at h'
                · rename_i ht
                  simp only [Option.bind_eq_some_iff, Option.pure_def, Option.some.injEq] at h'
                  obtain ⟨t, ht', rfl⟩ := h'
                  simp only [isLead, isTrail, Bool.and_eq_true, decide_eq_true_eq] at hl ht
                  obtain ⟨x, rfl⟩ : ∃ x, v = 0xD800 + x := ⟨v - 0xD800, by omega⟩
                  obtain ⟨y, rfl⟩ : ∃ y, v' = 0xDC00 + y := ⟨v' - 0xDC00, by omega⟩
                  refine .pair ((hex4_iff _ _ _ _ _).1 hv) (by omega) ((hex4_iff _ _ _ _ _).1 hv') (by omega)
                    (utf8Char_iff.2 ⟨?_, ?_⟩) ((ih _ _ (by simp only [List.length_cons] at h; omega)).1 ht')
                  · simp only [isScalar, Bool.or_eq_true, Bool.and_eq_true, decide_eq_true_eq]; omega
                  · rw [show pairCode (0xD800 + x) (0xDC00 + y) = 0x10000 + x * 1024 + y from by unfold pairCode; omega]
                · cases h'
              · cases h'
            · rename_i hl
              split at h'
              · cases h'
              · rename_i ht
                simp only [Option.bind_eq_some_iff, Option.pure_def, Option.some.injEq] at h'
                obtain ⟨t, ht', rfl⟩ := h'
                simp only [isLead, isTrail, Bool.and_eq_true, decide_eq_true_eq] at hl ht
                refine .unit ((hex4_iff _ _ _ _ _).1 hv) (utf8Char_iff.2 ⟨?_, rfl⟩) ((ih _ _ (by omega)).1 ht')
                simp only [isScalar, Bool.or_eq_true, Bool.and_eq_true, decide_eq_true_eq]; omega
          · intro hd
            generalize hraw : (0x5C :: 0x75 :: a :: b :: e :: f :: r' : Str) = raw at hd
            cases hd with
            | nil => cases hraw
            | plain hc _ => simp at hraw; exact absurd hraw.1.symm hc
            | short hs _ => simp at hraw; obtain ⟨rfl, _⟩ := hraw; exact absurd hs (not_shortEscape_u _)
            | @unit a b e f v u r s hv hu hd =>
              simp at hraw; obtain ⟨rfl, rfl, rfl, rfl, rfl⟩ := hraw
              obtain ⟨hsc, rfl⟩ := utf8Char_iff.1 hu
              refine ⟨v, (hex4_iff _ _ _ _ _).2 hv, ?_⟩
              simp only [isScalar, Bool.or_eq_true, Bool.and_eq_true, decide_eq_true_eq] at hsc
              rw [if_neg (by simp only [isLead, Bool.and_eq_true, decide_eq_true_eq]; omega),
                if_neg (by simp only [isTrail, Bool.and_eq_true, decide_eq_true_eq]; omega)]
              simp only [Option.bind_eq_some_iff, Option.pure_def, Option.some.injEq]
              exact ⟨_, (ih _ _ (by omega)).2 hd, rfl⟩
            | @pair a b e f a' b' e' f' x y u r s hv hx hv' hy hu hd =>
              simp at hraw; obtain ⟨rfl, rfl, rfl, rfl, rfl⟩ := hraw
              obtain ⟨hsc, rfl⟩ := utf8Char_iff.1 hu
              refine ⟨_, (hex4_iff _ _ _ _ _).2 hv, ?_⟩
              simp only [isScalar, Bool.or_eq_true, Bool.and_eq_true, decide_eq_true_eq] at hsc
              rw [if_pos (by simp only [isLead, Bool.and_eq_true, decide_eq_true_eq]; omega)]
              simp only [Option.bind_eq_some_iff]
              refine ⟨_, (hex4_iff _ _ _ _ _).2 hv', ?_⟩
              rw [if_pos (by simp only [isTrail, Bool.and_eq_true, decide_eq_true_eq]; omega)]
              simp only [Option.bind_eq_some_iff, Option.pure_def, Option.some.injEq]
              refine ⟨_, (ih _ _ (by simp only [List.length_cons] at h; omega)).2 hd, ?_⟩
              rw [show pairCode (0xD800 + x) (0xDC00 + y) = 0x10000 + x * 1024 + y from by unfold pairCode; omega]
        · rename_i x r' hne
          simp only [Option.bind_eq_bind, Option.bind_eq_some_iff, Option.pure_def, Option.some.injEq, simpleEscape_iff]
          simp only [List.length_cons] at h
          constructor
          · rintro ⟨y, hy, t, ht, rfl⟩; exact .short hy ((ih _ _ (by omega)).1 ht)
          · intro hd
            generalize hraw : (0x5C :: x :: r' : Str) = raw at hd
            cases hd with
            | nil => cases hraw
            | plain hc _ => simp at hraw; exact absurd hraw.1.symm hc
            | short hs hd =>
              simp at hraw; obtain ⟨rfl, rfl⟩ := hraw
              exact ⟨_, hs, _, (ih _ _ (by omega)).2 hd, rfl⟩
            | unit => simp at hraw; obtain ⟨rfl, rfl⟩ := hraw; exact absurd rfl (hne _ _ _ _ _ rfl)
            | pair => simp at hraw; obtain ⟨rfl, rfl⟩ := hraw; exact absurd rfl (hne _ _ _ _ _ rfl)
        · simp only [reduceCtorEq, false_iff]
          intro hd
          generalize hraw : ([0x5C] : Str) = raw at hd
          cases hd with
          | nil => cases hraw
          | plain hc _ => simp at hraw; exact absurd hraw.1.symm hc
          | short hs hd => simp at hraw
          | unit => simp at hraw
          | pair => simp at hraw

theorem jsonText_iff (raw s : Str) : jsonText raw = some s ↔ Denotes raw s := unescape_iff _ _ _ (Nat.le_refl _)

/-! ### Numbers -/

theorem digitsVal_snoc (t : Str) (c : Nat) : ∀ acc, digitsVal (t ++ [c]) acc =
    (digitsVal t acc).bind fun n => if 0x30 ≤ c ∧ c ≤ 0x39 then some (n * 10 + (c - 0x30)) else none := by
  induction t with
  | nil => intro acc; simp [digitsVal]
  | cons d t ih => intro acc; simp only [List.cons_append, digitsVal]; split <;> simp [ih]

theorem list_snoc_cases {α : Type} (l : List α) : l = [] ∨ ∃ t c, l = t ++ [c] := by
  cases h : l.reverse with
  | nil => left; simpa using h
  | cons c t => right; exact ⟨t.reverse, c, by rw [← List.reverse_reverse l, h]; simp⟩

theorem digitsVal_iff : ∀ (k : Nat) (t : Str) (n : Nat), t.length = k → t ≠ [] →
    (digitsVal t 0 = some n ↔ Digits t n) := by
  intro k
  induction k with
  | zero => intro t n h h0; simp at h; exact absurd h h0
  | succ k ih =>
    intro t n h h0
    rcases list_snoc_cases t with rfl | ⟨t, c, rfl⟩
    · exact absurd rfl h0
    · simp at h
      rw [digitsVal_snoc]
      constructor
      · intro h'
        simp only [Option.bind_eq_some_iff] at h'
        obtain ⟨m, hm, h'⟩ := h'
        split at h'
        · rename_i hc
          simp at h'; subst h'
          cases t with
          | nil => simp [digitsVal] at hm; subst hm; simpa using Digits.one hc.1 hc.2
          | cons x t => exact .snoc ((ih _ _ h (by simp)).1 hm) hc.1 hc.2
        · cases h'
      · intro hd
        generalize hraw : t ++ [c] = w at hd
        cases hd with
        | one h1 h2 =>
          cases t with
          | nil => simp at hraw; subst hraw; simp [digitsVal, h1, h2]
          | cons x t => simp at hraw
        | snoc hd h1 h2 =>
          rw [List.append_eq_append_iff_of_size_eq_right (by simp)] at hraw
          obtain ⟨rfl, hc⟩ := hraw
          simp at hc; subst hc
          have hne : t ≠ [] := by
            rintro rfl
            generalize hw : ([] : Str) = w at hd
            cases hd <;> simp at hw
          simp [(ih _ _ h hne).2 hd, h1, h2]

theorem natOf_iff (t : Str) (n : Nat) : natOf t = some n ↔ Natural t n := by
  cases t with
  | nil =>
    simp only [natOf, reduceCtorEq, false_iff]
    rintro ⟨hd, _⟩
    generalize hraw : ([] : Str) = w at hd
    cases hd <;> simp at hraw
  | cons c r =>
    simp only [natOf, Natural]
    split
    · rename_i h
      simp only [reduceCtorEq, false_iff]
      rintro ⟨_, h'⟩
      exact h.2 (h' r (by rw [h.1]))
    · rename_i h
      rw [digitsVal_iff _ _ _ rfl (by simp)]
      constructor
      · intro hd
        refine ⟨hd, ?_⟩
        intro r' hr; simp at hr; obtain ⟨rfl, rfl⟩ := hr
        simpa using h
      · exact fun h => h.1

theorem natural_not_minus {r : Str} {n : Nat} (h : Natural (0x2D :: r) n) : False := by
  have := (natOf_iff _ _).2 h
  simp [natOf, digitsVal] at this

theorem intOf_iff (t : Str) (i : Int) : intOf t = some i ↔ Integer t i := by
  unfold intOf Integer
  split
  · rename_i r
    simp only [Option.map_eq_some_iff, natOf_iff]
    constructor
    · rintro ⟨n, hn, rfl⟩; exact .inr ⟨r, n, rfl, hn, rfl⟩
    · rintro (⟨n, hn, _⟩ | ⟨r', n, hr, hn, rfl⟩)
      · exact (natural_not_minus hn).elim
      · simp at hr; subst hr; exact ⟨n, hn, rfl⟩
  · rename_i hne
    simp only [Option.map_eq_some_iff, natOf_iff]
    constructor
    · rintro ⟨n, hn, rfl⟩; exact .inl ⟨n, hn, rfl⟩
    · rintro (⟨n, hn, rfl⟩ | ⟨r', n, rfl, hn, rfl⟩)
      · exact ⟨n, hn, rfl⟩
      · exact absurd rfl (hne r')

/-! ### Readers -/

/-- The reader succeeds exactly on the values of `R`, and every failure is an exception. -/
def Reads {α : Type} (r : Res α) (R : α → Prop) : Prop :=
  (∀ x, r = .ok x ↔ R x) ∧ ∀ e, r = .error e → ∃ ex, e = .throws ex

namespace Reads
variable {α β : Type}

theorem congr {r : Res α} {R S : α → Prop} (h : Reads r R) (he : ∀ x, R x ↔ S x) : Reads r S :=
  ⟨fun x => (h.1 x).trans (he x), h.2⟩

theorem ok (a : α) : Reads (.ok a) (fun x => x = a) :=
  ⟨fun x => by simp [eq_comm], fun e h => by cases h⟩

theorem fail : Reads (jfail : Res α) (fun _ => False) :=
  ⟨fun x => by simp [jfail], fun e h => by cases h; exact ⟨_, rfl⟩⟩

theorem bind {r : Res α} {f : α → Res β} {R : α → Prop} {S : α → β → Prop} (h : Reads r R)
    (hf : ∀ a, R a → Reads (f a) (S a)) : Reads (r >>= f) (fun y => ∃ a, R a ∧ S a y) := by
  constructor
  · intro y
    rw [res_bind_ok]
    constructor
    · rintro ⟨a, h1, h2⟩; exact ⟨a, (h.1 a).1 h1, ((hf a ((h.1 a).1 h1)).1 y).1 h2⟩
    · rintro ⟨a, h1, h2⟩; exact ⟨a, (h.1 a).2 h1, ((hf a h1).1 y).2 h2⟩
  · intro e he
    rcases res_bind_error.1 he with he | ⟨a, h1, h2⟩
    · exact h.2 e he
    · exact (hf a ((h.1 a).1 h1)).2 e h2

theorem unique {r : Res α} {R : α → Prop} (h : Reads r R) {x y : α} (hx : R x) (hy : R y) : x = y := by
  have h1 := (h.1 x).2 hx
  have h2 := (h.1 y).2 hy
  rw [h1] at h2; cases h2; rfl

end Reads

theorem getString_reads (j : Json) : Reads j.getString (StringOf j) := by
  unfold StringOf Json.getString
  split
  · rename_i raw
    split
    · rename_i s hs
      refine (Reads.ok s).congr fun x => ?_
      constructor
      · rintro rfl; exact ⟨raw, rfl, (jsonText_iff _ _).1 hs⟩
      · rintro ⟨_, h, hd⟩; cases h
        have := (jsonText_iff _ _).2 hd
        rw [hs] at this; simp at this; exact this.symm
    · rename_i hs
      refine Reads.fail.congr fun x => ?_
      simp only [false_iff]
      rintro ⟨_, h, hd⟩; cases h
      have := (jsonText_iff _ _).2 hd
      rw [hs] at this; cases this
  · rename_i h
    refine Reads.fail.congr fun x => ?_
    simp only [false_iff]
    rintro ⟨raw, rfl, _⟩; exact h raw rfl

theorem getBool_reads (j : Json) : Reads j.getBool (BoolOf j) := by
  unfold Json.getBool BoolOf
  split
  · refine (Reads.ok _).congr fun x => ?_
    constructor
    · rintro rfl; rfl
    · intro h; cases h; rfl
  · rename_i h
    refine Reads.fail.congr fun x => ?_
    simp only [false_iff]; rintro rfl; exact h _ rfl

theorem getInt_reads (j : Json) : Reads j.getInt (IntOf j) := by
  unfold Json.getInt IntOf
  split
  · rename_i t
    split
    · rename_i n hn
      have huniq : ∀ m, Integer t m → m = n := by
        intro m hm
        have := (intOf_iff _ _).2 hm
        rw [hn] at this; simp at this; exact this.symm
      split
      · rename_i hb
        refine (Reads.ok _).congr fun x => ?_
        constructor
        · rintro rfl
          refine ⟨t, n, rfl, (intOf_iff _ _).1 hn, hb.1, hb.2, ?_⟩
          simp only [toInt32, Int.reducePow]
          refine ⟨by omega, by omega, (n + 2147483648) / 4294967296, by omega⟩
        · rintro ⟨_, m, h, hm, h1, h2, h3, h4, k, h5⟩
          cases h
          have := huniq m hm; subst this
          simp only [toInt32, Int.reducePow] at *
          omega
      · rename_i hb
        refine Reads.fail.congr fun x => ?_
        simp only [false_iff]
        rintro ⟨_, m, h, hm, h1, h2, _⟩
        cases h
        have := huniq m hm; subst this
        exact hb ⟨h1, h2⟩
    · rename_i hn
      refine Reads.fail.congr fun x => ?_
      simp only [false_iff]
      rintro ⟨_, m, h, hm, _⟩
      cases h
      rw [(intOf_iff _ _).2 hm] at hn; cases hn
  · rename_i h
    refine Reads.fail.congr fun x => ?_
    simp only [false_iff]; rintro ⟨t, _, rfl, _⟩; exact h t rfl

theorem getArray_reads (j : Json) : Reads j.getArray (fun l => j = .arr l) := by
  unfold Json.getArray
  split
  · refine (Reads.ok _).congr fun x => ?_
    constructor
    · rintro rfl; rfl
    · intro h; cases h; rfl
  · rename_i h
    refine Reads.fail.congr fun x => ?_
    simp only [false_iff]; rintro rfl; exact h _ rfl

theorem getObject_reads (j : Json) : Reads j.getObject (fun l => j = .obj l) := by
  unfold Json.getObject
  split
  · refine (Reads.ok _).congr fun x => ?_
    constructor
    · rintro rfl; rfl
    · intro h; cases h; rfl
  · rename_i h
    refine Reads.fail.congr fun x => ?_
    simp only [false_iff]; rintro rfl; exact h _ rfl

theorem first_iff (l : List (Str × Json)) (k : Str) (v : Json) : mapFind l k = some v ↔ First l k v := by
  induction l with
  | nil =>
    simp only [mapFind, reduceCtorEq, false_iff, First]
    rintro ⟨A, B, h, _⟩; simp at h
  | cons p r ih =>
    obtain ⟨k', v'⟩ := p
    simp only [mapFind]
    split
    · rename_i hk; subst hk
      simp only [Option.some.injEq]
      constructor
      · rintro rfl; exact ⟨[], r, rfl, by simp⟩
      · rintro ⟨A, B, h, hA⟩
        cases A with
        | nil => simp at h; exact h.1
        | cons a A => simp at h; obtain ⟨rfl, _⟩ := h; exact absurd rfl (hA (k', v') (by simp))
    · rename_i hk
      rw [ih]
      constructor
      · rintro ⟨A, B, rfl, hA⟩
        refine ⟨(k', v') :: A, B, rfl, ?_⟩
        intro f hf; simp at hf; rcases hf with rfl | hf
        · exact hk
        · exact hA f hf
      · rintro ⟨A, B, h, hA⟩
        cases A with
        | nil => simp at h; exact absurd h.1.1 hk
        | cons a A => simp at h; exact ⟨A, B, h.2, fun f hf => hA f (by simp [hf])⟩

theorem field_reads (j : Json) (k : Str) : Reads (j.field k) (Field j k) := by
  unfold Json.field Field
  have := (getObject_reads j).bind (f := fun l => match mapFind l k with | some v => .ok v | none => jfail)
    (S := fun l v => First l k v) (fun l _ => by
      split
      · rename_i v hv
        refine (Reads.ok _).congr fun x => ?_
        rw [← first_iff, hv]; simp [eq_comm]
      · rename_i hv
        refine Reads.fail.congr fun x => ?_
        rw [← first_iff, hv]; simp)
  exact this

theorem opt_reads {α : Type} {j : Json} {k : Str} {d : α} {get : Json → Res α} {R : Json → α → Prop}
    (h : ∀ v, Field j k v → Reads (get v) (R v)) : Reads (j.opt k d get) (Opt R d j k) := by
  unfold Json.opt Opt
  refine (field_reads j k).bind (S := fun v x => OrNull R d v x) fun v hv => ?_
  unfold Json.orDefault OrNull
  split
  · refine (Reads.ok _).congr fun x => by simp
  · rename_i hn
    refine (h v hv).congr fun x => ?_
    have : v ≠ .null := fun h => hn h
    simp [this]

theorem mapRes_reads {α β : Type} {f : α → Res β} {R : α → β → Prop} (l : List α)
    (h : ∀ a ∈ l, Reads (f a) (R a)) : Reads (mapRes f l) (AllOf R l) := by
  induction l with
  | nil =>
    refine (Reads.ok _).congr fun x => ?_
    constructor
    · rintro rfl; exact .nil
    · intro h; cases h; rfl
  | cons a l ih =>
    simp only [mapRes]
    refine ((h a (by simp)).bind fun b _ => (ih (fun a ha => h a (by simp [ha]))).bind fun m _ => Reads.ok _).congr fun x => ?_
    constructor
    · rintro ⟨b, hb, m, hm, rfl⟩; exact .cons hb hm
    · intro h; cases h with | cons hb hm => exact ⟨_, hb, _, hm, rfl⟩

theorem array_reads {α : Type} {f : Json → Res α} {R : Json → α → Prop} (j : Json)
    (h : ∀ v, Reads (f v) (R v)) : Reads (do mapRes f (← j.getArray)) (ArrayOf R j) := by
  unfold ArrayOf
  exact (getArray_reads j).bind fun l _ => mapRes_reads l fun a _ => h a

theorem type_reads (j : Json) : Reads (do (← j.field b!"type").getString) (HasType j) := by
  unfold HasType
  exact (field_reads j _).bind fun v _ => getString_reads v

theorem pattern_reads (j : Json) (key : Str) : Reads (patternField j key) (Opt (PatternOf key) [] j b!"pattern") := by
  unfold patternField
  refine opt_reads fun v _ => ?_
  unfold PatternOf
  exact (field_reads v _).bind fun v _ => getString_reads v

end Tok
