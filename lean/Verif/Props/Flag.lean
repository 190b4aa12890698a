import Verif.Spec.Flag
import Verif.Props.Hangs

set_option autoImplicit false

/-!
C119: `add_special_tokens` decides about special tokens and nothing else.
-/

namespace Tok
open Spec

mutual
theorem fl_steps (b : Bool) : (p : PostProcessor) → (e : Encoding) → PostProcessor.runList b (steps p) e = p.run b e
  | .template s q t, e => rfl
  | .byteLevel a t, e => by simp only [steps, PostProcessor.runList]; cases h : (PostProcessor.byteLevel a t).run b e <;> rfl
  | .seq l, e => by simp only [steps, PostProcessor.run]; exact fl_stepsOf b l e
theorem fl_stepsOf (b : Bool) : (l : List PostProcessor) → (e : Encoding) → PostProcessor.runList b (stepsOf l) e = PostProcessor.runList b l e
  | [], e => rfl
  | p :: r, e => by
    have app : ∀ (l1 l2 : List PostProcessor) (e : Encoding), PostProcessor.runList b (l1 ++ l2) e =
        (PostProcessor.runList b l1 e >>= fun x => PostProcessor.runList b l2 x) := by
      intro l1
      induction l1 with
      | nil => intro l2 e; rfl
      | cons q l1 ih =>
        intro l2 e
        simp only [List.cons_append, PostProcessor.runList]
        cases q.run b e with
        | error x => rfl
        | ok y => exact ih l2 y
    simp only [stepsOf, app, fl_steps b p e, PostProcessor.runList]
    cases p.run b e with
    | error x => rfl
    | ok y => exact fl_stepsOf b r y
end

mutual
theorem fl_specials : (p : PostProcessor) → specialsOfList (steps p) = specialsOf p
  | .template s q t => by simp [steps, specialsOfList, specialsOf]
  | .byteLevel a t => by simp [steps, specialsOfList, specialsOf]
  | .seq l => by simp only [steps, specialsOf]; exact fl_specialsOf l
theorem fl_specialsOf : (l : List PostProcessor) → specialsOfList (stepsOf l) = specialsOfList l
  | [] => rfl
  | p :: r => by
    have app : ∀ (l1 l2 : List PostProcessor), specialsOfList (l1 ++ l2) = specialsOfList l1 ++ specialsOfList l2 := by
      intro l1
      induction l1 with
      | nil => intro l2; rfl
      | cons q l1 ih => intro l2; simp [specialsOfList, ih]
    simp only [stepsOf, app, fl_specials p, fl_specialsOf r, specialsOfList]
end

/-- What trimming makes of rows, `i` in front of the first. -/
def trimRows (a : Bool) : Nat → List Row → List Row
  | _, [] => []
  | i, r :: rs => { r with offsets := trimOffsets a i r.token r.offsets } :: trimRows a (i + 1) rs

theorem fl_trim_length (a : Bool) (rows : List Row) : ∀ i, (trimRows a i rows).length = rows.length := by
  induction rows with
  | nil => intro i; rfl
  | cons r rs ih => intro i; simp [trimRows, ih]

theorem fl_trim_get (a : Bool) (rows : List Row) : ∀ (i j : Nat), (trimRows a i rows)[j]? =
    rows[j]?.map fun r => { r with offsets := trimOffsets a (i + j) r.token r.offsets } := by
  induction rows with
  | nil => intro i j; rfl
  | cons r rs ih =>
    intro i j
    cases j with
    | zero => simp [trimRows]
    | succ j => simp only [trimRows, List.getElem?_cons_succ, ih]; rw [show i + 1 + j = i + (j + 1) by omega]

theorem fl_offsets (a : Bool) {x : Enc} {rows : List Row} (hx : HasRows x rows) :
    ∃ y, processOffsets a x = .ok y ∧ HasRows y (trimRows a 0 rows) := by
  obtain ⟨y, h1, h2, h3⟩ := processOffsets_spec a x _ (hasRows_aligned hx)
  refine ⟨y, h1, ?_⟩
  have hlen : y.offsets.length = x.offsets.length := (ro_length h2.2).symm
  have hlen' : y.offsets.length = rows.length := by rw [hlen]; exact (hasRows_aligned hx).2.2.2.2.1
  have hrows := setOffsets_rows hx (os := y.offsets) hlen
  have e : ({ x with offsets := y.offsets } : Enc) = y := by
    have := h2.1
    rw [← this]
  rw [e] at hrows
  obtain ⟨k1, k2⟩ := ro_setOffsets rows y.offsets hlen'
  have : setOffsets rows y.offsets = trimRows a 0 rows := by
    apply List.ext_getElem?
    intro i
    rw [fl_trim_get]
    cases hr : rows[i]? with
    | none =>
      rw [List.getElem?_eq_none_iff] at hr
      rw [List.getElem?_eq_none (by omega)]; rfl
    | some r =>
      obtain ⟨o, g1, g2⟩ := k2 i r hr
      have hi : i < rows.length := by
        rcases Nat.lt_or_ge i rows.length with h | h
        · exact h
        · rw [List.getElem?_eq_none h] at hr; cases hr
      obtain ⟨tok, o', e1, e2, e3⟩ := h3 i hi
      rw [hx.2.2.1, List.getElem?_map, hr] at e1
      rw [hx.2.2.2.2.1, List.getElem?_map, hr] at e2
      cases e1; cases e2
      rw [g1] at e3; cases e3
      rw [g2]; simp
  rwa [this] at hrows

theorem fl_offsetsAll (a : Bool) {xs : List Enc} {ws : List (List Row)} (h : Each HasRows xs ws) :
    ∃ ys, processAll a xs = .ok ys ∧ Each HasRows ys (ws.map (trimRows a 0)) := by
  induction h with
  | nil => exact ⟨[], rfl, .nil⟩
  | cons h _ ih =>
    obtain ⟨ys, h1, h2⟩ := ih
    obtain ⟨y, h3, h4⟩ := fl_offsets a h
    exact ⟨y :: ys, by simp only [processAll, h3, h1, res_ok_bind]; rfl, .cons h4 h2⟩

/-- What a step makes of the windows. -/
def rowsStep (b : Bool) : PostProcessor → List (List Row) → List (List Row)
  | .template s _ t, ws => [templateRows t b s (ws.headD [])]
  | .byteLevel a true, ws => ws.map (trimRows a 0)
  | _, ws => ws

def rowsAfter (b : Bool) : List PostProcessor → List (List Row) → List (List Row)
  | [], ws => ws
  | p :: r, ws => rowsAfter b r (rowsStep b p ws)

/-- The step is no sequence. -/
def NoSeq : PostProcessor → Prop
  | .seq _ => False
  | _ => True

mutual
theorem fl_simple : (p : PostProcessor) → ∀ x ∈ steps p, NoSeq x
  | .template s q t => by intro x hx; simp [steps] at hx; subst hx; trivial
  | .byteLevel a t => by intro x hx; simp [steps] at hx; subst hx; trivial
  | .seq l => by intro x hx; simp only [steps] at hx; exact fl_simpleOf l x hx
theorem fl_simpleOf : (l : List PostProcessor) → ∀ x ∈ stepsOf l, NoSeq x
  | [] => by intro x hx; simp [stepsOf] at hx
  | p :: r => by
    intro x hx
    simp only [stepsOf, List.mem_append] at hx
    rcases hx with h | h
    · exact fl_simple p x h
    · exact fl_simpleOf r x h
end

theorem fl_run (b : Bool) (l : List PostProcessor) : (∀ x ∈ l, NoSeq x) → (∀ s ∈ specialsOfList l, s.ids.length = s.tokens.length) →
    ∀ {e : Encoding} {ws : List (List Row)}, Each HasRows (e.toEnc :: e.overflowing) ws →
    ∃ r, PostProcessor.runList b l e = .ok r ∧ Each HasRows (r.toEnc :: r.overflowing) (rowsAfter b l ws) := by
  induction l with
  | nil => intro _ _ e ws h; exact ⟨e, rfl, h⟩
  | cons p l ih =>
    intro hs hS e ws hw
    have hs' : ∀ x ∈ l, NoSeq x := fun x hx => hs x (by simp [hx])
    have hS' : ∀ s ∈ specialsOfList l, s.ids.length = s.tokens.length := fun s hx => hS s (by simp [specialsOfList, hx])
    have hp := hs p (by simp)
    suffices ∃ e1, p.run b e = .ok e1 ∧ Each HasRows (e1.toEnc :: e1.overflowing) (rowsStep b p ws) by
      obtain ⟨e1, h1, h2⟩ := this
      obtain ⟨r, h3, h4⟩ := ih hs' hS' h2
      exact ⟨r, by simp only [PostProcessor.runList, h1, res_ok_bind, h3], h4⟩
    cases hw with
    | @cons _ main _ rest hm hr =>
    cases p with
    | seq => cases hp
    | template s q t =>
      refine ⟨_, rfl, .cons ?_ .nil⟩
      simp only [templateProcess, foldl_append, nil_joined]
      exact ro_template t b (fun x hx => hS x (by simp [specialsOfList, specialsOf, hx])) s _ _ hm
    | byteLevel a tr =>
      cases tr with
      | false => exact ⟨e, rfl, .cons hm hr⟩
      | true =>
        obtain ⟨y, h1, h2⟩ := fl_offsets a hm
        obtain ⟨ys, h3, h4⟩ := fl_offsetsAll a hr
        exact ⟨⟨y, ys⟩, by simp only [PostProcessor.run, byteLevelProcess, if_true, h1, h3, res_ok_bind]; rfl, .cons h2 h4⟩

/-! ### What is left without the special tokens -/

theorem fl_content_append (a b : List Row) : contentRows (a ++ b) = contentRows a ++ contentRows b := List.filter_append ..

theorem fl_specialRows (t : SpecialToken) (ty : Int) : contentRows (specialRows t ty) = [] := by
  unfold contentRows specialRows
  rw [List.filter_eq_nil_iff]
  intro r hr
  obtain ⟨i, hi, rfl⟩ := List.getElem_of_mem hr
  simp

theorem fl_retype (ty : Int) (rows : List Row) : contentRows (rows.map fun r => { r with typeId := ty }) =
    (contentRows rows).map fun r => { r with typeId := ty } := by
  unfold contentRows
  rw [List.filter_map]; rfl

/-- The rows a template leaves of the text. -/
def textOnly : List Piece → List Row → List Row
  | [], _ => []
  | p :: ps, text =>
    if p.kind = b!"Sequence" then
      let text' := if p.id = b!"A" then text.map fun r => { r with typeId := p.typeId } else text
      text' ++ textOnly ps text'
    else textOnly ps text

theorem fl_template (specials : List SpecialToken) (b : Bool) : ∀ (l : List Piece) (text : List Row),
    contentRows (templateRows specials b l text) = textOnly l (contentRows text) := by
  intro l
  induction l with
  | nil => intro text; rfl
  | cons p ps ih =>
    intro text
    unfold templateRows textOnly
    by_cases hk : p.kind = b!"Sequence"
    · simp only [hk, if_true]
      rw [fl_content_append, ih]
      by_cases hi : p.id = b!"A"
      · simp only [hi, if_true, fl_retype]
      · simp only [hi, if_false]
    · rw [if_neg hk, if_neg hk]
      by_cases hs : p.kind = b!"SpecialToken" ∧ b = true
      · rw [if_pos hs, fl_content_append, ih]
        cases specials.find? fun t => t.id == p.id with
        | none => rfl
        | some t => simp only [fl_specialRows, List.nil_append]
      · rw [if_neg hs, ih]

theorem fl_template_off (specials : List SpecialToken) : ∀ (l : List Piece) (text : List Row), (∀ r ∈ text, r.special = 0) →
    ∀ r ∈ templateRows specials false l text, r.special = 0 := by
  intro l
  induction l with
  | nil => intro text _ r hr; cases hr
  | cons p ps ih =>
    intro text ht r hr
    unfold templateRows at hr
    by_cases hk : p.kind = b!"Sequence"
    · simp only [hk, if_true] at hr
      have ht' : ∀ r ∈ (if p.id = b!"A" then text.map fun r => { r with typeId := p.typeId } else text), r.special = 0 := by
        by_cases hi : p.id = b!"A"
        · simp only [hi, if_true]
          intro r hr
          obtain ⟨x, hx, rfl⟩ := List.mem_map.1 hr
          exact ht x hx
        · simp only [hi, if_false]; exact ht
      rcases List.mem_append.1 hr with h | h
      · exact ht' r h
      · exact ih _ ht' r h
    · rw [if_neg hk, if_neg (by simp)] at hr
      exact ih text ht r hr

theorem fl_trim_off (a : Bool) : ∀ (rows : List Row) (i : Nat), (∀ r ∈ rows, r.special = 0) → ∀ r ∈ trimRows a i rows, r.special = 0 := by
  intro rows
  induction rows with
  | nil => intro i _ r hr; cases hr
  | cons x rs ih =>
    intro i h r hr
    rcases List.mem_cons.1 hr with rfl | hr
    · exact h x (by simp)
    · exact ih (i + 1) (fun r hr => h r (by simp [hr])) r hr

theorem fl_off (l : List PostProcessor) : ∀ (ws : List (List Row)), (∀ rows ∈ ws, ∀ r ∈ rows, r.special = 0) →
    ∀ rows ∈ rowsAfter false l ws, ∀ r ∈ rows, r.special = 0 := by
  induction l with
  | nil => intro ws h; exact h
  | cons p l ih =>
    intro ws h
    refine ih _ ?_
    cases p with
    | template s q t =>
      intro rows hr
      simp only [rowsStep, List.mem_singleton] at hr
      subst hr
      refine fl_template_off t s _ ?_
      cases ws with
      | nil => simp
      | cons w ws => exact h w (by simp)
    | seq => exact h
    | byteLevel a tr =>
      cases tr with
      | false => exact h
      | true =>
        intro rows hr
        obtain ⟨x, hx, rfl⟩ := List.mem_map.1 hr
        exact fl_trim_off a x 0 (h x hx)

/-- Trimming changes offsets only. -/
theorem fl_trim_placeless (a : Bool) : ∀ (rows : List Row) (i : Nat), (contentRows (trimRows a i rows)).map placeless = (contentRows rows).map placeless := by
  intro rows
  induction rows with
  | nil => intro i; rfl
  | cons r rs ih =>
    intro i
    have := ih (i + 1)
    unfold contentRows at this ⊢
    simp only [trimRows, List.filter_cons]
    by_cases h : r.special = 0
    · simp only [h, decide_true, if_true, List.map_cons, this]
      simp [placeless, h]
    · simpa only [h, decide_false, Bool.false_eq_true, if_false] using this

theorem fl_textOnly_placeless : ∀ (l : List Piece) (t t' : List Row), t.map placeless = t'.map placeless →
    (textOnly l t).map placeless = (textOnly l t').map placeless := by
  intro l
  induction l with
  | nil => intro t t' _; rfl
  | cons p ps ih =>
    intro t t' h
    unfold textOnly
    by_cases hk : p.kind = b!"Sequence"
    · simp only [hk, if_true, List.map_append]
      have h' : (if p.id = b!"A" then t.map fun r => { r with typeId := p.typeId } else t).map placeless =
          (if p.id = b!"A" then t'.map fun r => { r with typeId := p.typeId } else t').map placeless := by
        by_cases hi : p.id = b!"A"
        · simp only [hi, if_true, List.map_map]
          have := congrArg (List.map fun r : Row => { r with typeId := p.typeId }) h
          simpa [List.map_map, Function.comp_def, placeless] using this
        · simp only [hi, if_false]; exact h
      rw [h', ih _ _ h']
    · rw [if_neg hk, if_neg hk]; exact ih t t' h

/-- The windows hold the same rows of the text, but for offsets. -/
def AlikeW (ws ws' : List (List Row)) : Prop := Each (fun a b => (contentRows a).map placeless = (contentRows b).map placeless) ws ws'

theorem fl_alike_refl (ws : List (List Row)) : AlikeW ws ws := each_refl (R := fun a b => (contentRows a).map placeless = (contentRows b).map placeless) (fun _ => rfl) ws

theorem fl_alike (l : List PostProcessor) : ∀ {ws ws' : List (List Row)}, AlikeW ws ws' → AlikeW (rowsAfter true l ws) (rowsAfter false l ws') := by
  induction l with
  | nil => intro ws ws' h; exact h
  | cons p l ih =>
    intro ws ws' h
    refine ih ?_
    cases p with
    | template s q t =>
      refine .cons ?_ .nil
      rw [fl_template, fl_template]
      apply fl_textOnly_placeless
      cases h with
      | nil => rfl
      | cons h _ => exact h
    | seq => exact h
    | byteLevel a tr =>
      cases tr with
      | false => exact h
      | true =>
        have : ∀ {ws ws' : List (List Row)}, AlikeW ws ws' → AlikeW (ws.map (trimRows a 0)) (ws'.map (trimRows a 0)) := by
          intro ws ws' h
          induction h with
          | nil => exact .nil
          | cons h _ ih => exact .cons (by rw [fl_trim_placeless, fl_trim_placeless]; exact h) ih
        exact this h

theorem fl_trim_false (i : Nat) (token : Str) (o : Int × Int) : trimOffsets false i token o = trimOffsets false 0 token o := by
  simp [trimOffsets]

theorem fl_trim_content : ∀ (rows : List Row) (i : Nat), contentRows (trimRows false i rows) =
    (contentRows rows).map fun r => { r with offsets := trimOffsets false 0 r.token r.offsets } := by
  intro rows
  induction rows with
  | nil => intro i; rfl
  | cons r rs ih =>
    intro i
    have := ih (i + 1)
    unfold contentRows at this ⊢
    simp only [trimRows, List.filter_cons]
    by_cases h : r.special = 0
    · simp only [h, decide_true, if_true, List.map_cons, this, fl_trim_false i]
    · simpa only [h, decide_false, Bool.false_eq_true, if_false] using this

/-- The windows hold the same rows of the text. -/
def EqualW (ws ws' : List (List Row)) : Prop := Each (fun a b => contentRows a = contentRows b) ws ws'

/-- Behind a template. -/
theorem fl_equal (l : List PostProcessor) (hl : ∀ p ∈ l, ¬ SparesFirst p) : ∀ {ws ws' : List (List Row)}, EqualW ws ws' →
    EqualW (rowsAfter true l ws) (rowsAfter false l ws') := by
  induction l with
  | nil => intro ws ws' h; exact h
  | cons p l ih =>
    intro ws ws' h
    refine ih (fun q hq => hl q (by simp [hq])) ?_
    have hp := hl p (by simp)
    cases p with
    | template s q t =>
      refine .cons ?_ .nil
      rw [fl_template, fl_template]
      cases h with
      | nil => rfl
      | cons h _ => exact congrArg (textOnly s) h
    | seq => exact h
    | byteLevel a tr =>
      cases tr with
      | false => exact h
      | true =>
        cases a with
        | true => exact absurd trivial hp
        | false =>
          have : ∀ {ws ws' : List (List Row)}, EqualW ws ws' → EqualW (ws.map (trimRows false 0)) (ws'.map (trimRows false 0)) := by
            intro ws ws' h
            induction h with
            | nil => exact .nil
            | cons h _ ih => exact .cons (by rw [fl_trim_content, fl_trim_content, h]) ih
          exact this h

theorem fl_same (l : List PostProcessor) (hl : l.Pairwise fun a b => IsTemplate a → ¬ SparesFirst b) :
    ∀ (ws : List (List Row)), EqualW (rowsAfter true l ws) (rowsAfter false l ws) := by
  induction l with
  | nil => intro ws; exact each_refl (R := fun a b => contentRows a = contentRows b) (fun _ => rfl) ws
  | cons p l ih =>
    intro ws
    rw [List.pairwise_cons] at hl
    cases p with
    | template s q t =>
      refine fl_equal l (fun x hx => hl.1 x hx trivial) (.cons ?_ .nil)
      rw [fl_template, fl_template]
    | seq => exact ih hl.2 ws
    | byteLevel a tr => cases tr <;> exact ih hl.2 _

/-! ### Padding -/

theorem fl_padded (p : Padding) (n : Nat) (rows : List Row) : contentRows (paddedTo p n rows) = contentRows rows := by
  have : ∀ k, contentRows (List.replicate k (fillerRow p)) = [] := by
    intro k
    unfold contentRows
    rw [List.filter_eq_nil_iff]
    intro r hr
    rw [(List.mem_replicate.1 hr).2]
    simp [fillerRow]
  unfold paddedTo
  cases p.direction <;> simp only [fl_content_append, this, List.append_nil, List.nil_append]

theorem fl_paddedAll {pad : Option Padding} {ws ws' : List (List Row)} (h : PaddedAll pad ws ws') :
    Each (fun a b => contentRows a = contentRows b) ws ws' := by
  cases pad with
  | none => subst h; exact each_refl (R := fun a b => contentRows a = contentRows b) (fun _ => rfl) _
  | some p =>
    obtain ⟨n, _, rfl⟩ := h
    exact each_map_self _ ws fun w _ => (fl_padded p n w).symm

theorem fl_trans {α β : Type} {f : α → β} {a b c : List α} (h1 : Each (fun x y => f x = f y) a b) (h2 : Each (fun x y => f x = f y) b c) :
    Each (fun x y => f x = f y) a c := by
  induction h1 generalizing c with
  | nil => exact h2
  | cons h _ ih => cases h2 with | cons h' h2 => exact .cons (h.trans h') (ih h2)

theorem fl_symm {α β : Type} {f : α → β} {a b : List α} (h1 : Each (fun x y => f x = f y) a b) : Each (fun x y => f x = f y) b a := by
  induction h1 with
  | nil => exact .nil
  | cons h _ ih => exact .cons h.symm ih

/-! ### The whole call -/

/-- The windows in front of post-processing: rows of the text. -/
theorem fl_windows {P : Platform} {t : Tokenizer} {w : WStr} {x e : Encoding} (hx : textPart P t w = .ok x)
    (he : (match t.truncation with | some tr => tr.run x | none => .ok x) = .ok e) :
    ∃ ws, Each HasRows (e.toEnc :: e.overflowing) ws ∧ ∀ rows ∈ ws, ∀ r ∈ rows, r.special = 0 := by
  have into : ∀ {p : PTS} {x : Encoding}, intoEncoding p none 0 = .ok x → ∃ text, AllEnc (Good False False text [] none) x := by
    intro p x h
    unfold intoEncoding at h
    obtain ⟨y, h1, h⟩ := res_bind_ok.1 h
    cases h
    obtain ⟨rows, hr, hrows⟩ := intoLoop_rows _ _ _ _ h1
    exact ⟨rows, text_good hr hrows _ _ _, by simp⟩
  have : ∃ text, AllEnc (Good False False text [] none) x := by
    unfold textPart at hx
    obtain ⟨p, _, h⟩ := res_bind_ok.1 hx
    unfold Tokenizer.doTokenize at h
    split at h
    · exact into h
    · obtain ⟨q, _, h⟩ := res_bind_ok.1 h
      exact into h
  obtain ⟨text, hg⟩ := this
  have hg : AllEnc (Good False False text [] none) e := by
    cases ht : t.truncation with
    | none => rw [ht] at he; cases he; exact hg
    | some tr => rw [ht] at he; exact good_truncation hg he
  have one : ∀ y, Good False False text [] none y → ∃ rows, HasRows y rows ∧ ∀ r ∈ rows, r.special = 0 := by
    intro y hy
    obtain ⟨rows, h1, h2, _⟩ := hy
    refine ⟨rows, h1, fun r hr => ?_⟩
    cases h2 r hr with
    | content r0 _ _ h _ => exact h
    | special s j h => cases h
    | padding p h => cases h
  have all : ∀ l : List Enc, (∀ y ∈ l, Good False False text [] none y) → ∃ ws, Each HasRows l ws ∧ ∀ rows ∈ ws, ∀ r ∈ rows, r.special = 0 := by
    intro l
    induction l with
    | nil => intro _; exact ⟨[], .nil, by simp⟩
    | cons y l ih =>
      intro h
      obtain ⟨ws, h1, h2⟩ := ih fun z hz => h z (by simp [hz])
      obtain ⟨rows, h3, h4⟩ := one y (h y (by simp))
      refine ⟨rows :: ws, .cons h3 h1, ?_⟩
      intro z hz
      rcases List.mem_cons.1 hz with rfl | hz
      · exact h4
      · exact h2 z hz
  exact all _ (by
    intro y hy
    rcases List.mem_cons.1 hy with rfl | hy
    · exact hg.1
    · exact hg.2 y hy)

/-- What both calls have in common, and the two results of post-processing. -/
theorem fl_post {P : Platform} {t : Tokenizer} {w : WStr} {b : Bool} {e : Encoding} (h : (t.encode P w b).1 = .ok e) :
    ∃ x y, textPart P t w = .ok x ∧ (match t.truncation with | some tr => tr.run x | none => .ok x) = .ok y ∧
      ∃ z, (match t.postProcessor with | some q => q.run b y | none => .ok y) = .ok z ∧
        (match t.padding with | some q => q.run z | none => .ok z) = .ok e := by
  rw [ha_encode] at h
  obtain ⟨x, h1, h⟩ := res_bind_ok.1 h
  obtain ⟨y, z, h2, h3, h4⟩ := postProcess_ok h
  exact ⟨x, y, h1, h2, z, h3, h4⟩

/-- The post-processing of a tokenizer. -/
def stepsIn (t : Tokenizer) : List PostProcessor := (t.postProcessor.map steps).getD []

theorem fl_processed {t : Tokenizer} (hS : ∀ s ∈ Specials t, s.ids.length = s.tokens.length) (b : Bool) {y : Encoding} {ws : List (List Row)}
    (hw : Each HasRows (y.toEnc :: y.overflowing) ws) :
    ∃ z, (match t.postProcessor with | some q => q.run b y | none => .ok y) = .ok z ∧
      Each HasRows (z.toEnc :: z.overflowing) (rowsAfter b (stepsIn t) ws) := by
  unfold stepsIn
  cases hp : t.postProcessor with
  | none => exact ⟨y, rfl, hw⟩
  | some q =>
    obtain ⟨r, h1, h2⟩ := fl_run b (steps q) (fl_simple q) (fun s hs => hS s (by rw [fl_specials] at hs; simpa [Specials, hp] using hs)) hw
    rw [fl_steps] at h1
    exact ⟨r, h1, h2⟩

/-- **C119** The encodings of a text with and without special tokens: they have as many windows, and the rows of the text - those whose
special mask is 0 - are the same ones in the same order, with the same ids, tokens, words, type ids and attention; their offsets are the
same too unless a ByteLevel step that spares the first token comes behind a template.  Without padding, all rows of the encoding without
special tokens are rows of the text. -/
theorem C119_rows {P : Platform} {t : Tokenizer} {w : WStr} {e1 e2 : Encoding} (hS : ∀ s ∈ Specials t, s.ids.length = s.tokens.length)
    (h1 : (t.encode P w true).1 = .ok e1) (h2 : (t.encode P w false).1 = .ok e2) :
    ∃ out1 out2, Each HasRows (e1.toEnc :: e1.overflowing) out1 ∧ Each HasRows (e2.toEnc :: e2.overflowing) out2 ∧
      Each (fun r1 r2 => (contentRows r1).map placeless = (contentRows r2).map placeless) out1 out2 ∧
      ((∀ pp, t.postProcessor = some pp → TrimsFirst pp) → Each (fun r1 r2 => contentRows r1 = contentRows r2) out1 out2) ∧
      (t.padding = none → ∀ rows ∈ out2, ∀ r ∈ rows, r.special = 0) := by
  obtain ⟨x, y, hx, hy, z1, hz1, he1⟩ := fl_post h1
  obtain ⟨x', y', hx', hy', z2, hz2, he2⟩ := fl_post h2
  rw [hx] at hx'; cases hx'
  rw [hy] at hy'; cases hy'
  obtain ⟨ws, hw, h0⟩ := fl_windows hx hy
  obtain ⟨_, k1, g1⟩ := fl_processed hS true hw
  rw [hz1] at k1; cases k1
  obtain ⟨_, k2, g2⟩ := fl_processed hS false hw
  rw [hz2] at k2; cases k2
  obtain ⟨out1, p1, r1⟩ := ro_padding t.padding g1 he1
  obtain ⟨out2, p2, r2⟩ := ro_padding t.padding g2 he2
  have c1 := fl_paddedAll p1
  have c2 := fl_paddedAll p2
  refine ⟨out1, out2, r1, r2, ?_, fun ht => ?_, fun hp => ?_⟩
  · have q1 : AlikeW _ _ := Each.imp (fun a b h => congrArg (List.map placeless) h) c1
    have q2 : AlikeW _ _ := Each.imp (fun a b h => congrArg (List.map placeless) h) c2
    exact fl_trans (f := fun a => (contentRows a).map placeless) (fl_symm q1) (fl_trans (fl_alike (stepsIn t) (fl_alike_refl ws)) q2)
  · have : (stepsIn t).Pairwise fun a b => IsTemplate a → ¬ SparesFirst b := by
      unfold stepsIn
      cases hpp : t.postProcessor with
      | none => exact .nil
      | some q => exact ht q hpp
    exact fl_trans (f := contentRows) (fl_symm c1) (fl_trans (fl_same _ this ws) c2)
  · rw [hp] at p2
    subst p2
    exact fl_off _ ws h0

/-- **C119** Without padding: the vectors of the encoding without special tokens are those of the encoding with special tokens, read at the
positions where the special mask is 0. -/
theorem C119_vectors {P : Platform} {t : Tokenizer} {w : WStr} {e1 e2 : Encoding} (hS : ∀ s ∈ Specials t, s.ids.length = s.tokens.length)
    (hp : t.padding = none) (h1 : (t.encode P w true).1 = .ok e1) (h2 : (t.encode P w false).1 = .ok e2) :
    let text : {α : Type} → List α → List α := fun l => ((l.zip e1.specialTokensMask).filter (·.2 == 0)).map (·.1)
    e2.ids = text e1.ids ∧ e2.tokens = text e1.tokens ∧ e2.words = text e1.words ∧ e2.typeIds = text e1.typeIds ∧
    e2.attentionMask = text e1.attentionMask ∧ e2.specialTokensMask = text e1.specialTokensMask ∧
    ((∀ pp, t.postProcessor = some pp → TrimsFirst pp) → e2.offsets = text e1.offsets) := by
  obtain ⟨out1, out2, a1, a2, a3, a4, a5⟩ := C119_rows hS h1 h2
  cases a1 with
  | @cons _ r1 _ _ b1 _ =>
  cases a2 with
  | @cons _ r2 _ _ b2 _ =>
  cases a3 with
  | cons c3 _ =>
  have hall : contentRows r2 = r2 := by
    unfold contentRows
    rw [List.filter_eq_self]
    intro r hr
    simp [a5 hp r2 (by simp) r hr]
  have key : ∀ {α : Type} (f : Row → α), (((r1.map f).zip (r1.map (·.special))).filter (·.2 == 0)).map (·.1) = (contentRows r1).map f := by
    intro α f
    unfold contentRows
    generalize r1 = l
    induction l with
    | nil => rfl
    | cons r l ih =>
      by_cases h : r.special = 0
      · simpa [h] using ih
      · simpa [h] using ih
  rw [hall] at c3
  have via : ∀ {α : Type} (f : Row → α), (∀ r, f (placeless r) = f r) → r2.map f = (contentRows r1).map f := by
    intro α f hf
    have := congrArg (List.map f) c3
    simp only [List.map_map] at this
    have e : f ∘ placeless = f := funext hf
    rw [e] at this
    exact this.symm
  intro text
  obtain ⟨x1, x2, x3, x4, x5, x6, x7⟩ := b1
  obtain ⟨y1, y2, y3, y4, y5, y6, y7⟩ := b2
  simp only [text, x6]
  refine ⟨?_, ?_, ?_, ?_, ?_, ?_, fun ht => ?_⟩
  · rw [y1, x1, key]; exact via _ fun _ => rfl
  · rw [y3, x3, key]; exact via _ fun _ => rfl
  · rw [y4, x4, key]; exact via _ fun _ => rfl
  · rw [y2, x2, key]; exact via _ fun _ => rfl
  · rw [y7, x7, key]; exact via _ fun _ => rfl
  · rw [y6, key]; exact via _ fun _ => rfl
  · have h := a4 ht
    cases h with
    | cons h _ =>
      rw [hall] at h
      rw [y5, x5, key, h]

/-- **C119** One call returns if the other does. -/
theorem C119_returns (P : Platform) {t : Tokenizer} (w : WStr) (hS : ∀ s ∈ Specials t, s.ids.length = s.tokens.length)
    (hf : ∀ p, t.padding = some p → p.strategy = .fixed → 0 ≤ p.fixedSize) (b b' : Bool) {e : Encoding} (h : (t.encode P w b).1 = .ok e) :
    ∃ e', (t.encode P w b').1 = .ok e' := by
  obtain ⟨x, y, hx, hy, z, hz, he⟩ := fl_post h
  obtain ⟨ws, hw, h0⟩ := fl_windows hx hy
  obtain ⟨z', hz', -⟩ := fl_processed hS b' hw
  obtain ⟨e', he'⟩ : ∃ e', (match t.padding with | some q => q.run z' | none => .ok z') = .ok e' := by
    cases hp : t.padding with
    | none => exact ⟨_, rfl⟩
    | some p =>
      obtain ⟨_, r, hr, _⟩ := C37_C38_padding p z' (hf p hp)
      exact ⟨r, hr⟩
  refine ⟨e', ?_⟩
  rw [ha_encode, hx, res_ok_bind]
  unfold Tokenizer.doPostProcess
  revert hy hz' he'
  cases t.truncation <;> cases t.postProcessor <;> cases t.padding <;> intro hy hz' he' <;>
    simp only at hy hz' he' ⊢ <;> simp only [hy, res_ok_bind, hz', he']

/-- **C119** The tokenizer is left in the same state. -/
theorem C119_state (P : Platform) (t : Tokenizer) (w : WStr) (b b' : Bool) : (t.encode P w b).2 = (t.encode P w b').2 := by
  unfold Tokenizer.encode
  cases t.preTokenized P w with
  | mk r t' =>
    cases r with
    | error x => rfl
    | ok p =>
      simp only
      cases t'.doTokenize P p with
      | mk r t'' => cases r <;> rfl

/-- The hypotheses of C119, with truncation and padding. -/
example : ((bertLike (some (cut 3)) (some sampleTemplate) (some (padTo 6))).encode ascii w!"playing go" true).1.map (·.ids) = .ok [101, 1, 2, 3, 102, 9] ∧
    ((bertLike (some (cut 3)) (some sampleTemplate) (some (padTo 6))).encode ascii w!"playing go" false).1.map (·.ids) = .ok [1, 2, 3, 9, 9, 9] ∧
    (∀ s ∈ Specials (bertLike (some (cut 3)) (some sampleTemplate) (some (padTo 6))), s.ids.length = s.tokens.length) ∧
    TrimsFirst sampleTemplate ∧ TrimsFirst (.seq [.byteLevel true true, sampleTemplate, .byteLevel false true]) := by
  refine ⟨?_, ?_, ?_, ?_, ?_⟩
  · decide +kernel
  · decide +kernel
  · decide +kernel
  · simp [TrimsFirst, sampleTemplate, steps]
  · simp [TrimsFirst, sampleTemplate, steps, stepsOf, SparesFirst]

/-- A tokenizer that trims offsets behind a template. -/
def lateTrimTk : Tokenizer :=
  { tkOf [(b!"[UNK]", 0), ([0xC4, 0xA0, 0x62], 1)] with
    preTokenizer := some .bert, postProcessor := some (.seq [sampleTemplate, .byteLevel true true]) }

/-- **C119, refuted for offsets**: if offsets are trimmed behind a template, the offsets of the first token of the text depend on the flag. -/
theorem C119_violated : ∃ (t : Tokenizer) (w : WStr) (e1 e2 : Encoding), (∀ s ∈ Specials t, s.ids.length = s.tokens.length) ∧ t.padding = none ∧
    (t.encode ascii w true).1 = .ok e1 ∧ (t.encode ascii w false).1 = .ok e2 ∧
    e1.tokens[1]? = e2.tokens[0]? ∧ e1.offsets[1]? = some (2, 3) ∧ e2.offsets[0]? = some (1, 3) := by
  have h1 : (lateTrimTk.encode ascii [0x20, 0x120, 0x62] true).1.map (fun e => (e.tokens, e.offsets)) =
      .ok ([b!"[CLS]", [0xC4, 0xA0, 0x62], b!"[SEP]"], [(0, 0), (2, 3), (0, 0)]) := by decide +kernel
  have h2 : (lateTrimTk.encode ascii [0x20, 0x120, 0x62] false).1.map (fun e => (e.tokens, e.offsets)) =
      .ok ([[0xC4, 0xA0, 0x62]], [(1, 3)]) := by decide +kernel
  cases g1 : (lateTrimTk.encode ascii [0x20, 0x120, 0x62] true).1 with
  | error x => rw [g1] at h1; cases h1
  | ok e1 =>
    cases g2 : (lateTrimTk.encode ascii [0x20, 0x120, 0x62] false).1 with
    | error x => rw [g2] at h2; cases h2
    | ok e2 =>
      rw [g1] at h1; rw [g2] at h2
      have k1 := Except.ok.inj h1
      have k2 := Except.ok.inj h2
      simp only [Prod.mk.injEq] at k1 k2
      refine ⟨lateTrimTk, _, e1, e2, by decide +kernel, rfl, g1, g2, ?_, ?_, ?_⟩
      · rw [k1.1, k2.1]; rfl
      · rw [k1.2]; rfl
      · rw [k2.2]; rfl

end Tok
