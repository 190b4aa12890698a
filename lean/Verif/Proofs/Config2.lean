import Verif.Proofs.Config

set_option autoImplicit false

/-!
Lemmas on the construction of a tokenizer: the `with_…` functions against `Spec.Config`.
-/

namespace Tok
open Spec

theorem named_nil {α : Type} (d : α) (s : Str) (x : α) : Named [] d s x ↔ x = d := by simp [Named]

theorem getTDir_iff (s : Str) (x : TDir) : x = getTDir s ↔
    Named [(b!"Right", .right), (b!"Left", .left)] .unknown s x := by
  unfold getTDir Named
  simp only [List.mem_cons, Prod.mk.injEq, List.not_mem_nil, or_false]
  split
  · rename_i h; subst h; simp
  · split
    · rename_i h; subst h; simp
    · rename_i h1 h2; simp [h1, h2]

theorem getPDir_iff (s : Str) (x : PDir) : x = getPDir s ↔
    Named [(b!"Right", .right), (b!"Left", .left)] .unknown s x := by
  unfold getPDir Named
  simp only [List.mem_cons, Prod.mk.injEq, List.not_mem_nil, or_false]
  split
  · rename_i h; subst h; simp
  · split
    · rename_i h; subst h; simp
    · rename_i h1 h2; simp [h1, h2]

theorem getTStrat_iff (s : Str) (x : TStrat) : x = getTStrat s ↔
    Named [(b!"LongestFirst", .longestFirst), (b!"OnlyFirst", .onlyFirst), (b!"OnlySecond", .onlySecond)] .unknown s x := by
  unfold getTStrat Named
  simp only [List.mem_cons, Prod.mk.injEq, List.not_mem_nil, or_false]
  split
  · rename_i h; subst h; simp
  · split
    · rename_i h; subst h; simp
    · split
      · rename_i h; subst h; simp
      · rename_i h1 h2 h3; simp [h1, h2, h3]

theorem getPStrat_iff (s : Str) (x : PStrat) : x = getPStrat s ↔
    Named [(b!"BatchLongest", .batchLongest), (b!"Fixed", .fixed)] .unknown s x := by
  unfold getPStrat Named
  simp only [List.mem_cons, Prod.mk.injEq, List.not_mem_nil, or_false]
  split
  · rename_i h; subst h; simp
  · split
    · rename_i h; subst h; simp
    · rename_i h1 h2; simp [h1, h2]

theorem getBehavior_iff (s : Str) (x : Behavior) : x = getBehavior s ↔
    Named [(b!"Isolated", .isolated)] .removed s x := by
  unfold getBehavior Named
  simp only [List.mem_cons, Prod.mk.injEq, List.not_mem_nil, or_false]
  split
  · rename_i h; subst h; simp
  · rename_i h; simp [h]

theorem string_opt (j : Json) (k : Str) : Reads (j.opt k [] Json.getString) (Opt StringOf [] j k) :=
  opt_reads fun v _ => getString_reads v
theorem int_opt (j : Json) (k : Str) (d : Int) : Reads (j.opt k d Json.getInt) (Opt IntOf d j k) :=
  opt_reads fun v _ => getInt_reads v
theorem bool_opt (j : Json) (k : Str) (d : Bool) : Reads (j.opt k d Json.getBool) (Opt BoolOf d j k) :=
  opt_reads fun v _ => getBool_reads v

theorem truncation_reads (j : Json) : Reads (withTruncation j) (TruncationOf j) := by
  unfold withTruncation TruncationOf
  refine ((string_opt j _).bind fun d _ => (string_opt j _).bind fun s _ => (int_opt j _ _).bind fun m _ =>
    (int_opt j _ _).bind fun st _ => Reads.ok _).congr fun x => ?_
  constructor
  · rintro ⟨d, hd, s, hs, m, hm, st, hst, rfl⟩
    exact ⟨⟨d, hd, (getTDir_iff _ _).1 rfl⟩, ⟨s, hs, (getTStrat_iff _ _).1 rfl⟩, hm, hst⟩
  · rintro ⟨⟨d, hd, h1⟩, ⟨s, hs, h2⟩, hm, hst⟩
    refine ⟨d, hd, s, hs, _, hm, _, hst, ?_⟩
    rw [← getTDir_iff] at h1
    rw [← getTStrat_iff] at h2
    rw [← h1, ← h2]

theorem strategyFields_reads (l : List (Str × Json)) : ∀ acc : Str × Int,
    Reads (strategyFields l acc) (fun x => (l = [] ∧ x = acc) ∨
      ∃ l' v, l = l' ++ [(x.1, v)] ∧ (∀ f ∈ l', ∃ i, IntOf f.2 i) ∧ IntOf v x.2) := by
  induction l with
  | nil => intro acc; refine (Reads.ok _).congr fun x => by simp
  | cons p r ih =>
    obtain ⟨k, v⟩ := p
    intro acc
    simp only [strategyFields]
    refine ((getInt_reads v).bind fun i _ => ih (k, i)).congr fun x => ?_
    constructor
    · rintro ⟨i, hi, ⟨rfl, rfl⟩ | ⟨l', w, rfl, h1, h2⟩⟩
      · exact .inr ⟨[], v, rfl, by simp, hi⟩
      · refine .inr ⟨(k, v) :: l', w, rfl, ?_, h2⟩
        intro f hf; simp at hf; rcases hf with rfl | hf
        · exact ⟨i, hi⟩
        · exact h1 f hf
    · rintro (⟨h, _⟩ | ⟨l', w, h, h1, h2⟩)
      · cases h
      · cases l' with
        | nil =>
          simp at h; obtain ⟨⟨rfl, rfl⟩, rfl⟩ := h
          exact ⟨x.2, h2, .inl ⟨rfl, rfl⟩⟩
        | cons f l' =>
          simp at h; obtain ⟨rfl, rfl⟩ := h
          obtain ⟨i, hi⟩ := h1 (k, v) (by simp)
          exact ⟨i, hi, .inr ⟨l', w, rfl, fun f hf => h1 f (by simp [hf]), h2⟩⟩

theorem padStrategy_reads (v : Json) : Reads (padStrategyField v) (fun x => PadStrategy v x.1 x.2) := by
  unfold padStrategyField
  unfold PadStrategy
  split
  · refine (Reads.ok _).congr fun x => ?_
    simp [StringOf, Prod.ext_iff]
  · rename_i l
    refine (strategyFields_reads l ([], -1)).congr fun x => ?_
    simp [StringOf, Prod.ext_iff]
  · rename_i h1 h2
    refine ((getString_reads v).bind fun s _ => Reads.ok (s, (-1 : Int))).congr fun x => ?_
    constructor
    · rintro ⟨s, hs, rfl⟩; exact .inr (.inl ⟨hs, rfl⟩)
    · rintro (⟨rfl, _⟩ | ⟨h, h'⟩ | ⟨rfl, _⟩ | ⟨l, w, rfl, _⟩)
      · exact (h1 rfl).elim
      · exact ⟨_, h, by rw [← h']⟩
      · exact (h2 _ rfl).elim
      · exact (h2 _ rfl).elim

theorem padding_reads (j : Json) : Reads (withPadding j) (PaddingOf j) := by
  unfold withPadding PaddingOf
  refine ((string_opt j _).bind fun d _ => (field_reads j _).bind fun v _ => (padStrategy_reads v).bind fun sf _ =>
    (int_opt j _ _).bind fun _ _ => (int_opt j _ _).bind fun _ _ => (string_opt j _).bind fun _ _ =>
    (int_opt j _ _).bind fun _ _ => Reads.ok _).congr fun x => ?_
  constructor
  · rintro ⟨d, hd, v, hv, sf, hsf, a, ha, b, hb, c, hc, e, he, rfl⟩
    exact ⟨⟨d, hd, (getPDir_iff _ _).1 rfl⟩, ⟨v, sf.1, hv, hsf, (getPStrat_iff _ _).1 rfl⟩, ha, hb, hc, he⟩
  · rintro ⟨⟨d, hd, h1⟩, ⟨v, s, hv, hs, h2⟩, ha, hb, hc, he⟩
    refine ⟨d, hd, v, hv, (s, x.fixedSize), hs, _, ha, _, hb, _, hc, _, he, ?_⟩
    rw [← getPDir_iff] at h1
    rw [← getPStrat_iff] at h2
    rw [← h1, ← h2]

/-! ### Added tokens -/

theorem lastField_nil {α : Type} (R : Json → α → Prop) (d : α) (k : Str) (x : α) : LastField R d [] k x ↔ x = d := by
  simp [LastField]

theorem lastField_skip {α : Type} {R : Json → α → Prop} {d : α} {k k' : Str} {v : Json} {l : List (Str × Json)} {x : α}
    (h : k' ≠ k) : LastField R d ((k', v) :: l) k x ↔ LastField R d l k x := by
  unfold LastField
  constructor
  · rintro ⟨h1, h2⟩
    refine ⟨fun f hf => h1 f (by simp [hf]), ?_⟩
    rcases h2 with ⟨h2, rfl⟩ | ⟨A, w, B, h2, h3, h4⟩
    · exact .inl ⟨fun f hf => h2 f (by simp [hf]), rfl⟩
    · cases A with
      | nil => simp at h2; exact absurd h2.1.1 h
      | cons a A => simp at h2; exact .inr ⟨A, w, B, h2.2, h3, h4⟩
  · rintro ⟨h1, h2⟩
    refine ⟨?_, ?_⟩
    · intro f hf hk; simp at hf; rcases hf with rfl | hf
      · exact absurd hk h
      · exact h1 f hf hk
    · rcases h2 with ⟨h2, rfl⟩ | ⟨A, w, B, rfl, h3, h4⟩
      · refine .inl ⟨?_, rfl⟩
        intro f hf; simp at hf; rcases hf with rfl | hf
        · exact h
        · exact h2 f hf
      · exact .inr ⟨(k', v) :: A, w, B, rfl, h3, h4⟩

theorem lastField_hit {α : Type} {R : Json → α → Prop} (hR : ∀ v x y, R v x → R v y → x = y)
    {d : α} {k : Str} {v : Json} {l : List (Str × Json)} {x : α} :
    LastField R d ((k, v) :: l) k x ↔ ∃ y, R v y ∧ LastField R y l k x := by
  unfold LastField
  constructor
  · rintro ⟨h1, h2⟩
    obtain ⟨y, hy⟩ := h1 (k, v) (by simp) rfl
    refine ⟨y, hy, fun f hf => h1 f (by simp [hf]), ?_⟩
    rcases h2 with ⟨h2, rfl⟩ | ⟨A, w, B, h2, h3, h4⟩
    · exact absurd rfl (h2 (k, v) (by simp))
    · cases A with
      | nil =>
        simp at h2; obtain ⟨rfl, rfl⟩ := h2
        exact .inl ⟨h3, hR _ _ _ h4 hy⟩
      | cons a A => simp at h2; exact .inr ⟨A, w, B, h2.2, h3, h4⟩
  · rintro ⟨y, hy, h1, h2⟩
    refine ⟨?_, ?_⟩
    · intro f hf hk; simp at hf; rcases hf with rfl | hf
      · exact ⟨y, hy⟩
      · exact h1 f hf hk
    · rcases h2 with ⟨h2, rfl⟩ | ⟨A, w, B, rfl, h3, h4⟩
      · exact .inr ⟨[], v, l, rfl, h2, hy⟩
      · exact .inr ⟨(k, v) :: A, w, B, rfl, h3, h4⟩

theorem intOf_unique (v : Json) (x y : Int) (h : IntOf v x) (h' : IntOf v y) : x = y := (getInt_reads v).unique h h'
theorem boolOf_unique (v : Json) (x y : Bool) (h : BoolOf v x) (h' : BoolOf v y) : x = y := (getBool_reads v).unique h h'
theorem stringOf_unique (v : Json) (x y : Str) (h : StringOf v x) (h' : StringOf v y) : x = y := (getString_reads v).unique h h'

/-- The fields of an added token, starting from `t`. -/
def TokenFrom (t : AddedToken) (l : List (Str × Json)) (x : AddedToken) : Prop :=
  LastField IntOf t.id l b!"id" x.id ∧ LastField StringOf t.content l b!"content" x.content ∧
    LastField BoolOf t.singleWord l b!"single_word" x.singleWord ∧ LastField BoolOf t.lstrip l b!"lstrip" x.lstrip ∧
    LastField BoolOf t.rstrip l b!"rstrip" x.rstrip ∧ LastField BoolOf t.normalized l b!"normalized" x.normalized ∧
    LastField BoolOf t.special l b!"special" x.special

theorem token_step {α : Type} {R : Json → α → Prop} {r : Res α} {v : Json} (h : Reads r (R v)) (g : α → AddedToken)
    {l : List (Str × Json)} {S : AddedToken → Prop} (ih : ∀ t, Reads (tokenFields l t) (TokenFrom t l))
    (hS : ∀ x, S x ↔ ∃ y, R v y ∧ TokenFrom (g y) l x) :
    Reads ((do return g (← r) : Res AddedToken) >>= tokenFields l) S := by
  refine ((h.bind fun y _ => Reads.ok (g y)).bind fun t _ => ih t).congr fun x => ?_
  rw [hS]
  constructor
  · rintro ⟨t, ⟨y, hy, rfl⟩, ht⟩; exact ⟨y, hy, ht⟩
  · rintro ⟨y, hy, ht⟩; exact ⟨_, ⟨y, hy, rfl⟩, ht⟩

theorem tokenFields_reads (l : List (Str × Json)) : ∀ t, Reads (tokenFields l t) (TokenFrom t l) := by
  induction l with
  | nil =>
    intro t
    refine (Reads.ok _).congr fun x => ?_
    simp only [TokenFrom, lastField_nil]
    constructor
    · rintro rfl; simp
    · rintro ⟨h1, h2, h3, h4, h5, h6, h7⟩
      cases x; cases t; simp_all
  | cons p r ih =>
    obtain ⟨k, v⟩ := p
    intro t
    simp only [tokenFields, tokenField]
    split
    · rename_i h; subst h
      refine token_step (getInt_reads v) (fun y => { t with id := y }) ih fun x => ?_
      simp (config := { decide := true }) only [TokenFrom, lastField_hit intOf_unique, lastField_skip, ne_eq]
      constructor
      · rintro ⟨⟨y, hy, h1⟩, h⟩; exact ⟨y, hy, h1, h⟩
      · rintro ⟨y, hy, h1, h⟩; exact ⟨⟨y, hy, h1⟩, h⟩
    · split
      · rename_i h; subst h
        refine token_step (getString_reads v) (fun y => { t with content := y }) ih fun x => ?_
        simp (config := { decide := true }) only [TokenFrom, lastField_hit stringOf_unique, lastField_skip, ne_eq]
        constructor
        · rintro ⟨h1, ⟨y, hy, h2⟩, h⟩; exact ⟨y, hy, h1, h2, h⟩
        · rintro ⟨y, hy, h1, h2, h⟩; exact ⟨h1, ⟨y, hy, h2⟩, h⟩
      · split
        · rename_i h; subst h
          refine token_step (getBool_reads v) (fun y => { t with singleWord := y }) ih fun x => ?_
          simp (config := { decide := true }) only [TokenFrom, lastField_hit boolOf_unique, lastField_skip, ne_eq]
          constructor
          · rintro ⟨h1, h2, ⟨y, hy, h3⟩, h⟩; exact ⟨y, hy, h1, h2, h3, h⟩
          · rintro ⟨y, hy, h1, h2, h3, h⟩; exact ⟨h1, h2, ⟨y, hy, h3⟩, h⟩
        · split
          · rename_i h; subst h
            refine token_step (getBool_reads v) (fun y => { t with lstrip := y }) ih fun x => ?_
            simp (config := { decide := true }) only [TokenFrom, lastField_hit boolOf_unique, lastField_skip, ne_eq]
            constructor
            · rintro ⟨h1, h2, h3, ⟨y, hy, h4⟩, h⟩; exact ⟨y, hy, h1, h2, h3, h4, h⟩
            · rintro ⟨y, hy, h1, h2, h3, h4, h⟩; exact ⟨h1, h2, h3, ⟨y, hy, h4⟩, h⟩
          · split
            · rename_i h; subst h
              refine token_step (getBool_reads v) (fun y => { t with rstrip := y }) ih fun x => ?_
              simp (config := { decide := true }) only [TokenFrom, lastField_hit boolOf_unique, lastField_skip, ne_eq]
              constructor
              · rintro ⟨h1, h2, h3, h4, ⟨y, hy, h5⟩, h⟩; exact ⟨y, hy, h1, h2, h3, h4, h5, h⟩
              · rintro ⟨y, hy, h1, h2, h3, h4, h5, h⟩; exact ⟨h1, h2, h3, h4, ⟨y, hy, h5⟩, h⟩
            · split
              · rename_i h; subst h
                refine token_step (getBool_reads v) (fun y => { t with normalized := y }) ih fun x => ?_
                simp (config := { decide := true }) only [TokenFrom, lastField_hit boolOf_unique, lastField_skip, ne_eq]
                constructor
                · rintro ⟨h1, h2, h3, h4, h5, ⟨y, hy, h6⟩, h⟩; exact ⟨y, hy, h1, h2, h3, h4, h5, h6, h⟩
                · rintro ⟨y, hy, h1, h2, h3, h4, h5, h6, h⟩; exact ⟨h1, h2, h3, h4, h5, ⟨y, hy, h6⟩, h⟩
              · split
                · rename_i h; subst h
                  refine token_step (getBool_reads v) (fun y => { t with special := y }) ih fun x => ?_
                  simp (config := { decide := true }) only [TokenFrom, lastField_hit boolOf_unique, lastField_skip, ne_eq]
                  constructor
                  · rintro ⟨h1, h2, h3, h4, h5, h6, y, hy, h7⟩; exact ⟨y, hy, h1, h2, h3, h4, h5, h6, h7⟩
                  · rintro ⟨y, hy, h1, h2, h3, h4, h5, h6, h7⟩; exact ⟨h1, h2, h3, h4, h5, h6, y, hy, h7⟩
                · rename_i h1 h2 h3 h4 h5 h6 h7
                  refine (ih t).congr fun x => ?_
                  simp only [TokenFrom, lastField_skip h1, lastField_skip h2, lastField_skip h3, lastField_skip h4,
                    lastField_skip h5, lastField_skip h6, lastField_skip h7]

theorem addedToken_reads (j : Json) : Reads (do tokenFields (← j.getObject) {}) (AddedTokenOf j) := by
  refine ((getObject_reads j).bind fun l _ => tokenFields_reads l {}).congr fun x => ?_
  simp only [AddedTokenOf, TokenFrom]

theorem added_reads (j : Json) : Reads (withAddedVocabulary j) (AddedTokensOf j) := by
  unfold withAddedVocabulary
  refine ((getArray_reads j).bind fun l _ => (mapRes_reads l fun a _ => addedToken_reads a).bind fun m _ => Reads.ok _).congr
    fun x => ?_
  unfold AddedTokensOf ArrayOf
  constructor
  · rintro ⟨l, h, m, hm, rfl⟩; exact ⟨m, ⟨l, h, hm⟩, rfl⟩
  · rintro ⟨m, ⟨l, h, hm⟩, rfl⟩; exact ⟨l, h, m, hm, rfl⟩

end Tok
