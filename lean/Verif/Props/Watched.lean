import Verif.Spec.Watched
import Verif.Props.AddOrder
import Verif.Props.Numbering

set_option autoImplicit false

/-!
C144: which added tokens are looked for, and with which flags.
-/

namespace Tok
open Spec

/-! ### Lists -/

theorem wt_first {F : List AddedToken} {y x : AddedToken} :
    FirstSpecial (F ++ [y]) x ↔ FirstSpecial F x ∨ (x = y ∧ y.special = true ∧ y.content ≠ [] ∧ ∀ z ∈ F, z.special = true → z.content ≠ y.content) := by
  unfold FirstSpecial
  constructor
  · rintro ⟨h1, h2, p, q, e, h⟩
    rcases List.eq_nil_or_concat q with rfl | ⟨q', z, rfl⟩
    · obtain ⟨e1, e2⟩ := List.append_inj' e rfl
      cases e2; subst e1
      exact .inr ⟨rfl, h1, h2, h⟩
    · rw [List.concat_eq_append, ← List.cons_append, ← List.append_assoc] at e
      obtain ⟨e1, _⟩ := List.append_inj' e rfl
      exact .inl ⟨h1, h2, p, q', e1, h⟩
  · rintro (⟨h1, h2, p, q, rfl, h⟩ | ⟨rfl, h1, h2, h⟩)
    · exact ⟨h1, h2, p, q ++ [y], by simp, h⟩
    · exact ⟨h1, h2, F, [], rfl, h⟩

theorem wt_ordinary {L : List (List AddedToken)} {l : List AddedToken} {x : AddedToken} :
    Ordinary (L ++ [l]) x ↔ Ordinary L x ∨ (x ∈ l ∧ x.content ≠ [] ∧ ∀ y ∈ L.flatten ++ l, y.special = true → y.content ≠ x.content) := by
  unfold Ordinary
  constructor
  · rintro ⟨h2, A, l', B, e, hx, h⟩
    rcases List.eq_nil_or_concat B with rfl | ⟨B', z, rfl⟩
    · obtain ⟨e1, e2⟩ := List.append_inj' e rfl
      cases e2; subst e1
      exact .inr ⟨hx, h2, h⟩
    · rw [List.concat_eq_append, ← List.cons_append, ← List.append_assoc] at e
      obtain ⟨e1, _⟩ := List.append_inj' e rfl
      exact .inl ⟨h2, A, l', B', e1, hx, h⟩
  · rintro (⟨h2, A, l', B, rfl, hx, h⟩ | ⟨hx, h2, h⟩)
    · exact ⟨h2, A, l', B ++ [l], by simp, hx, h⟩
    · exact ⟨h2, L, l, [], rfl, hx, h⟩

/-! ### One call -/

/-- What is special after the tokens `F` have been given. -/
structure WtSpecial (F : List AddedToken) (a : AddedVocab) : Prop where
  set : ∀ c, a.isSpecial c = true ↔ c ≠ [] ∧ ∃ x ∈ F, x.special = true ∧ x.content = c
  tokens : ∀ x, x ∈ a.specialTokens ↔ FirstSpecial F x

theorem wt_register : ∀ (l : List AddedToken) {F : List AddedToken} {a : AddedVocab}, WtSpecial F a → WtSpecial (F ++ l) (registerSpecials l a)
  | [], F, a, h => by simpa [registerSpecials] using h
  | t :: r, F, a, h => by
    have hs := h.set t.content
    rw [show F ++ t :: r = (F ++ [t]) ++ r by simp]
    simp only [registerSpecials]
    split
    · rename_i hc
      refine wt_register r ⟨fun c => ?_, fun x => ?_⟩
      · have := h.set c
        unfold AddedVocab.isSpecial at this ⊢
        simp only [List.contains_eq_mem, List.mem_append, decide_eq_true_eq, List.mem_cons, List.not_mem_nil, or_false] at this ⊢
        rw [this]
        constructor
        · rintro (⟨g1, x, g2, g3⟩ | rfl)
          · exact ⟨g1, x, .inl g2, g3⟩
          · exact ⟨hc.2.1, t, .inr rfl, hc.1, rfl⟩
        · rintro ⟨g1, x, g2 | rfl, g3, g4⟩
          · exact .inl ⟨g1, x, g2, g3, g4⟩
          · exact .inr g4.symm
      · rw [wt_first, List.mem_append, h.tokens]
        simp only [List.mem_cons, List.not_mem_nil, or_false]
        constructor
        · rintro (g | rfl)
          · exact .inl g
          · refine .inr ⟨rfl, hc.1, hc.2.1, fun z hz hz1 hz2 => ?_⟩
            rw [hs.2 ⟨hc.2.1, z, hz, hz1, hz2⟩] at hc
            exact absurd hc.2.2 (by decide)
        · rintro (g | ⟨rfl, _⟩)
          · exact .inl g
          · exact .inr rfl
    · rename_i hc
      refine wt_register r ⟨fun c => ?_, fun x => ?_⟩
      · rw [h.set]
        simp only [List.mem_append, List.mem_cons, List.not_mem_nil, or_false]
        constructor
        · rintro ⟨g1, x, g2, g3⟩
          exact ⟨g1, x, .inl g2, g3⟩
        · rintro ⟨g1, x, g2 | rfl, g3, g4⟩
          · exact ⟨g1, x, g2, g3, g4⟩
          · subst g4
            cases hb : a.isSpecial x.content with
            | true => exact hs.1 hb
            | false => exact absurd ⟨g3, g1, hb⟩ hc
      · rw [wt_first, h.tokens]
        constructor
        · exact .inl
        · rintro (g | ⟨rfl, g1, g2, g3⟩)
          · exact g
          · refine absurd ⟨g1, g2, ?_⟩ hc
            cases hb : a.isSpecial x.content with
            | false => rfl
            | true =>
              obtain ⟨_, z, z1, z2, z3⟩ := hs.1 hb
              exact absurd z3 (g3 z z1 z2)

theorem wt_assign {M : Option Vocab} {al : Bool} (l : List AddedToken) : ∀ {a a' : AddedVocab}, assignIds M al l a = .ok a' →
    ∀ x, x ∈ a'.addedTokens ↔ x ∈ a.addedTokens ∨ (x ∈ l ∧ x.content ≠ [] ∧ a.isSpecial x.content = false) := by
  induction l with
  | nil => intro a a' h x; cases h; simp
  | cons t r ih =>
    intro a a' h x
    rcases assignIds_cons h with ⟨he, h⟩ | ⟨hne, i, a1, hj, h, hm, hr, hs, hss, ha, -⟩
    · rw [ih h]
      constructor
      · rintro (g | ⟨g, g'⟩)
        · exact .inl g
        · exact .inr ⟨List.mem_cons_of_mem _ g, g'⟩
      · rintro (g | ⟨g, g', g''⟩)
        · exact .inl g
        · rcases List.mem_cons.1 g with rfl | g
          · exact absurd he g'
          · exact .inr ⟨g, g', g''⟩
    · have hsp : ∀ c, a1.isSpecial c = a.isSpecial c := by intro c; unfold AddedVocab.isSpecial; rw [hss]
      rw [ih h, ha, hsp]
      simp only [List.mem_append, List.mem_cons]
      constructor
      · rintro ((g | g) | ⟨g, g'⟩)
        · exact .inl g
        · split at g
          · simp at g
          · rename_i hb
            simp only [List.mem_cons, List.not_mem_nil, or_false] at g
            subst g
            exact .inr ⟨.inl rfl, hne, by simpa using hb⟩
        · exact .inr ⟨.inr g, g'⟩
      · rintro (g | ⟨g | g, g'⟩)
        · exact .inl (.inl g)
        · subst g
          rw [g'.2]; exact .inl (.inr (by simp))
        · exact .inr ⟨g, g'⟩

/-- The flags under an id after the tokens `F` have been given. -/
structure WtFlags (F : List AddedToken) (a : AddedVocab) : Prop where
  nil : mapFind a.map [] = none
  seen : ∀ x ∈ F, x.content ≠ [] → ∃ i, mapFind a.map x.content = some i
  look : ∀ i, (mapFind a.mapR i).getD {} = (F.filter fun x => mapFind a.map x.content = some i).getLast?.getD {}

theorem wt_filter {F : List AddedToken} {m : List (Str × Int)} {t : AddedToken} {i : Int} (hne : t.content ≠ [])
    (seen : ∀ x ∈ F, x.content ≠ [] → ∃ i, mapFind m x.content = some i) (hi : ∀ j, mapFind m t.content = some j → j = i) (j : Int) :
    ((F ++ [t]).filter fun x => mapFind (mapSet m t.content i) x.content = some j) =
      (F.filter fun x => mapFind m x.content = some j) ++ (if i = j then [t] else []) := by
  rw [List.filter_append]
  congr 1
  · apply List.filter_congr
    intro x hx
    rw [mapFind_set]
    by_cases he : t.content = x.content
    · obtain ⟨k, hk⟩ := seen x hx (by rw [← he]; exact hne)
      have := hi k (by rw [he]; exact hk); subst this
      simp [he, hk]
    · rw [if_neg he]
  · by_cases he : i = j
    · subst he; simp [mapFind_set]
    · simp [mapFind_set, he]

theorem wt_flags {M : Option Vocab} {al : Bool} (l : List AddedToken) : ∀ {a a' : AddedVocab} {F : List AddedToken}, WtFlags F a →
    assignIds M al l a = .ok a' → WtFlags (F ++ l) a' := by
  induction l with
  | nil => intro a a' F hI h; cases h; simpa using hI
  | cons t r ih =>
    intro a a' F hI h
    rw [show F ++ t :: r = (F ++ [t]) ++ r by simp]
    rcases assignIds_cons h with ⟨he, h⟩ | ⟨hne, i, a1, hj, h, hm, hr, -⟩
    · refine ih ⟨hI.nil, fun x hx hx0 => ?_, fun i => ?_⟩ h
      · rcases List.mem_append.1 hx with hx | hx
        · exact hI.seen x hx hx0
        · simp only [List.mem_singleton] at hx; subst hx; exact absurd he hx0
      · rw [hI.look, List.filter_append]
        simp [he, hI.nil]
    · have hi : ∀ j, mapFind a.map t.content = some j → j = i := by
        intro j hj'
        unfold newId at hj
        rw [hj'] at hj
        exact Except.ok.inj hj
      refine ih ⟨by rw [hm, mapFind_set, if_neg hne]; exact hI.nil, fun x hx hx0 => ?_, fun j => ?_⟩ h
      · rw [hm, mapFind_set]
        split
        · exact ⟨_, rfl⟩
        · rename_i hxe
          rcases List.mem_append.1 hx with hx | hx
          · exact hI.seen x hx hx0
          · simp only [List.mem_singleton] at hx; subst hx; exact absurd rfl hxe
      · rw [hm, wt_filter hne hI.seen hi, hr, mapFind_set]
        split
        · simp
        · simpa using hI.look j

/-! ### Histories -/

/-- Everything the added vocabulary remembers of the lists `L`. -/
structure WtInv (L : List (List AddedToken)) (a : AddedVocab) : Prop where
  special : WtSpecial L.flatten a
  others : ∀ x, x ∈ a.addedTokens ↔ x ∈ L.headD [] ∨ Ordinary L x
  flags : WtFlags L.flatten a

theorem wt_core {M : Option Vocab} {al : Bool} {l F : List AddedToken} {a a' : AddedVocab} {n : Nat} (hs : WtSpecial F a) (hg : WtFlags F a)
    (h : a.addTokensCore M al l = .ok (n, a')) : WtSpecial (F ++ l) a' ∧ WtFlags (F ++ l) a' ∧
      ∀ x, x ∈ a'.addedTokens ↔ x ∈ a.addedTokens ∨ (x ∈ l ∧ x.content ≠ [] ∧ ∀ y ∈ F ++ l, y.special = true → y.content ≠ x.content) := by
  obtain ⟨-, a1, h1, h2⟩ := addTokensCore_ok h
  obtain ⟨r1, r2, r3⟩ := registerSpecials_map l a
  have k1 := wt_register l hs
  obtain ⟨s1, s2⟩ := assignIds_special l h1
  obtain ⟨e1, e2, e3, e4, e5⟩ := refresh_ok h2
  have k2 := wt_flags l (a := registerSpecials l a) (F := F) ⟨by rw [r1]; exact hg.nil, by rw [r1]; exact hg.seen, by rw [r1, r2]; exact hg.look⟩ h1
  refine ⟨⟨fun c => ?_, fun x => ?_⟩, ⟨by rw [e1]; exact k2.nil, by rw [e1]; exact k2.seen, by rw [e1, e2]; exact k2.look⟩, fun x => ?_⟩
  · rw [← k1.set]; unfold AddedVocab.isSpecial; rw [e3, s1]
  · rw [e4, s2, k1.tokens]
  · rw [e5, wt_assign l h1, r3]
    have := k1.set x.content
    constructor
    · rintro (g | ⟨g1, g2, g3⟩)
      · exact .inl g
      · refine .inr ⟨g1, g2, fun y y1 y2 y3 => ?_⟩
        rw [this.2 ⟨g2, y, y1, y2, y3⟩] at g3; cases g3
    · rintro (g | ⟨g1, g2, g3⟩)
      · exact .inl g
      · refine .inr ⟨g1, g2, ?_⟩
        cases hb : (registerSpecials l a).isSpecial x.content with
        | false => rfl
        | true =>
          obtain ⟨_, y, y1, y2, y3⟩ := this.1 hb
          exact absurd y3 (g3 y y1 y2)

theorem wt_touched {L : List (List AddedToken)} {a a' : AddedVocab} (h : WtInv L a) (t : Touched a a') : WtInv L a' := by
  have hs := t.same
  have e1 : a'.map = a.map := by rw [hs]
  have e2 : a'.specialSet = a.specialSet := by rw [hs]
  have e3 : a'.specialTokens = a.specialTokens := by rw [hs]
  have e4 : a'.addedTokens = a.addedTokens := by rw [hs]
  refine ⟨⟨fun c => ?_, fun x => ?_⟩, fun x => ?_, ⟨by rw [e1]; exact h.flags.nil, by rw [e1]; exact h.flags.seen, fun i => ?_⟩⟩
  · rw [← h.special.set]; unfold AddedVocab.isSpecial; rw [e2]
  · rw [e3, h.special.tokens]
  · rw [e4, h.others]
  · rw [e1, ← h.flags.look]
    cases hf : mapFind a.mapR i with
    | some x => rw [t.keeps i x hf]
    | none =>
      cases hf' : mapFind a'.mapR i with
      | none => rfl
      | some x =>
        rcases t.new i x hf' with g | ⟨_, rfl, _⟩
        · rw [hf] at g; cases g
        · rfl

theorem wt_head {L : List (List AddedToken)} (h : L ≠ []) (l : List AddedToken) : (L ++ [l]).headD [] = L.headD [] := by
  cases L with
  | nil => exact absurd rfl h
  | cons x r => rfl

theorem wt_history {P : Platform} {t t' : Tokenizer} {cs : List Call} (h : History P t cs t') :
    ∀ {a : AddedVocab} {L : List (List AddedToken)}, L ≠ [] → t.added = some a → WtInv L a →
    ∃ a', t'.added = some a' ∧ WtInv (L ++ cs.flatMap Call.lists) a' := by
  induction h with
  | nil t => intro a L _ ha hI; exact ⟨a, ha, by simpa using hI⟩
  | @cons t u t'' c cs h1 _ ih =>
    intro a L hL ha hI
    have add : ∀ l n, t.addTokens l = .ok (n, u) → ∃ b, u.added = some b ∧ WtInv (L ++ [l]) b := by
      intro l n h
      obtain ⟨a0, b, ha0, hc, rfl⟩ := addTokens_ok h
      rw [ha] at ha0; cases ha0
      obtain ⟨g1, g2, g3⟩ := wt_core hI.special hI.flags hc
      refine ⟨b, rfl, by simpa using g1, fun x => ?_, by simpa using g2⟩
      rw [g3, hI.others, wt_head hL, wt_ordinary, or_assoc]
    have : ∃ b, u.added = some b ∧ WtInv (L ++ c.lists) b := by
      cases h1 with
      | encode w b =>
        simp only [Call.lists, List.append_nil]
        rcases (encode_state P t w b).1 with h | ⟨a0, ha0, h⟩
        · exact ⟨a, h.trans ha, hI⟩
        · rw [ha] at ha0; cases ha0
          exact ⟨_, h, wt_touched hI (extract_touched P t.normalizer a w)⟩
      | decode ids b => exact ⟨a, ha, by simpa [Call.lists] using hI⟩
      | addTokens h => exact add _ _ h
      | addSpecialTokens h => exact add _ _ h
    obtain ⟨b, hb, hIb⟩ := this
    obtain ⟨a', g1, g2⟩ := ih (by simp [hL]) hb hIb
    refine ⟨a', g1, ?_⟩
    rw [List.flatMap_cons, ← List.append_assoc]
    exact g2

theorem wt_constructed {t0 t : Tokenizer} {l : List AddedToken} (h0 : t0.added = some (AddedVocab.init l)) (hf : t0.finish = .ok t) :
    ∃ a, t.added = some a ∧ WtInv [l] a := by
  rcases finish_ok hf with ⟨hn, _⟩ | ⟨a, a', n, ha, rfl, h⟩
  · rw [hn] at h0; cases h0
  · rw [ha] at h0; cases h0
    obtain ⟨g1, g2, g3⟩ := wt_core (F := []) (a := AddedVocab.init l)
      ⟨by intro c; simp [AddedVocab.init, AddedVocab.isSpecial], by intro x; simp [AddedVocab.init, FirstSpecial]⟩
      ⟨rfl, by simp, fun _ => rfl⟩ h
    have e : (AddedVocab.init l).addedTokens = l := rfl
    rw [e] at g1 g2 g3
    refine ⟨a', rfl, by simpa using g1, fun x => ?_, by simpa using g2⟩
    rw [g3]
    have : Ordinary [l] x ↔ _ := wt_ordinary (L := [])
    rw [this]
    have : ¬ Ordinary [] x := by rintro ⟨_, A, l', B, e, _⟩; simp at e
    simp only [this, false_or]
    rfl

/-! ### The theorems -/

/-- **C144** After any history on a constructed tokenizer, what is looked for in texts, and the flags it is matched with, are determined
by the configured list of tokens and the lists given since. -/
theorem C144_tables (P : Platform) {t0 t t' : Tokenizer} {l : List AddedToken} {m : Model} {cs : List Call}
    (h0 : t0.added = some (AddedVocab.init l)) (hm : t0.model = some m) (hf : t0.finish = .ok t) (h : History P t cs t') :
    ∃ a, t'.added = some a ∧ LooksFor m.vocab (recorded t') (l :: cs.flatMap Call.lists) a := by
  obtain ⟨a, ha, hI⟩ := wt_constructed h0 hf
  obtain ⟨a', ha', hI'⟩ := wt_history h (by simp) ha hI
  have hI' : WtInv (l :: cs.flatMap Call.lists) a' := hI'
  obtain ⟨u1, u2⟩ := (ab_start hm hf h).2 a' ha'
  have tab : ∀ b k i, (k, i) ∈ trieOf m.vocab b a'.specialTokens ++ trieOf m.vocab b a'.addedTokens ↔
      LookedFor m.vocab (l :: cs.flatMap Call.lists) b k i := by
    intro b k i
    simp only [List.mem_append, ab_trie, hI'.special.tokens, hI'.others]
    unfold LookedFor Watched
    constructor
    · rintro (⟨h1, x, h2, h3⟩ | ⟨h1, x, h2 | h2, h3⟩)
      · exact ⟨h1, x, .inr (.inl h2), h3⟩
      · exact ⟨h1, x, .inl h2, h3⟩
      · exact ⟨h1, x, .inr (.inr h2), h3⟩
    · rintro ⟨h1, x, h2 | h2 | h2, h3⟩
      · exact .inr ⟨h1, x, .inl h2, h3⟩
      · exact .inl ⟨h1, x, h2, h3⟩
      · exact .inr ⟨h1, x, .inr h2, h3⟩
  refine ⟨a', ha', fun k i => by rw [u2, tab], fun k i => by rw [u1, tab], fun i => ?_⟩
  rw [hI'.flags.look, nb_recorded ha']
  rfl

/-- **C144** `encode` depends on what happened before through these tables only: any other added vocabulary that looks for the same tokens
with the same flags encodes every text alike. -/
theorem C144_encode (P : Platform) {t0 t t' : Tokenizer} {l : List AddedToken} {m : Model} {cs : List Call}
    (h0 : t0.added = some (AddedVocab.init l)) (hm : t0.model = some m) (hf : t0.finish = .ok t) (h : History P t cs t')
    {s : AddedVocab} (hs : LooksFor m.vocab (recorded t') (l :: cs.flatMap Call.lists) s) (w : WStr) (b : Bool) :
    (t'.encode P w b).1 = (({ t' with added := some s } : Tokenizer).encode P w b).1 := by
  obtain ⟨a, ha, hF⟩ := C144_tables P h0 hm hf h
  have one : ∀ {n k i j}, LookedFor m.vocab (l :: cs.flatMap Call.lists) n k i → LookedFor m.vocab (l :: cs.flatMap Call.lists) n k j → i = j :=
    fun h1 h2 => Option.some.inj (h1.1.symm.trans h2.1)
  have ag : AgreeBut (fun _ => False) a s := by
    refine ⟨fun k _ => ?_, fun k _ => ?_, fun k i _ _ => by rw [hF.flags, hs.flags]⟩
    · exact ab_table (fun i => by rw [hF.after, hs.after]) fun i j g g' => one ((hF.after k i).1 g) ((hF.after k j).1 g')
    · exact ab_table (fun i => by rw [hF.before, hs.before]) fun i j g g' => one ((hF.before k i).1 g) ((hF.before k j).1 g')
  refine (ab_encode ha rfl w ?_ b).symm
  refine ab_extract P t'.normalizer ag (fun s _ => ao_avoids s) fun p _ s _ => ?_
  intro _ y sub text _ _ _
  exact ao_avoids text

/-- **C144** The contents that are special are those that were ever given as special. -/
theorem C144_special (P : Platform) {t0 t t' : Tokenizer} {l : List AddedToken} {cs : List Call}
    (h0 : t0.added = some (AddedVocab.init l)) (hf : t0.finish = .ok t) (h : History P t cs t') (c : Str) :
    t'.isSpecial c = true ↔ c ≠ [] ∧ ∃ x ∈ (l :: cs.flatMap Call.lists).flatten, x.special = true ∧ x.content = c := by
  obtain ⟨a, ha, hI⟩ := wt_constructed h0 hf
  obtain ⟨a', ha', hI'⟩ := wt_history h (by simp) ha hI
  have hI' : WtInv (l :: cs.flatMap Call.lists) a' := hI'
  rw [← hI'.special.set]
  unfold Tokenizer.isSpecial
  rw [ha']

/-- The hypotheses of the theorems, on a tokenizer that is made with a special token and given two more: "ab", matched before
normalization, under id 3, and "c" after it; the first "ab" is special, so the second counts for its flags only. -/
example : ∃ t t', ({ openTk with added := some (AddedVocab.init [{ content := b!"<s>", special := true }]) } : Tokenizer).finish = .ok t ∧
    History ascii t [.encode w!"ab" false, .addTokens [{ content := b!"ab", normalized := false, special := true }, { content := b!"ab", lstrip := true }, { content := b!"c" }]] t' ∧
    t'.added.map (·.nonNormTrie) = some [(b!"ab", 3)] ∧ t'.added.map (·.normTrie) = some [(b!"c", 2)] ∧
    (t'.added.bind fun a => mapFind a.mapR 3).map (·.lstrip) = some true := by
  refine ⟨_, _, rfl, .cons (.encode _ _ _) (.cons (.addTokens rfl) (.nil _)), ?_, ?_, ?_⟩ <;> decide +kernel

/-- **C144** What one might expect instead - that the last token given with a content replaces the earlier ones - is false: "ab", given first
as matched before normalization and then as matched after it, is looked for both before and after. -/
theorem C144_violated :
    ((openTk.addTokens [{ content := b!"ab", normalized := false }, { content := b!"ab", normalized := true }]).map fun r =>
      (r.2.added.map (·.nonNormTrie), r.2.added.map (·.normTrie))) = .ok (some [(b!"ab", 3)], some [(b!"ab", 3)]) := by
  decide +kernel

end Tok
