import Verif.Spec.Portable
import Verif.Props.Pruned
import Verif.Props.Lengthens

set_option autoImplicit false

/-!
C122: the same encodings on different platforms.
-/

namespace Tok
open Spec

section
variable {C : Nat → Prop} {P P' : Platform}

theorem po_scalars (h : AgreeOn C P P') {w : WStr} (hw : Over C w) : Scalars w := scalars_iff.1 fun c hc => h.scalar c (hw c hc)

theorem po_sub {w v : WStr} (hw : Over C w) (h : ∀ c ∈ v, c ∈ w) : Over C v := fun c hc => hw c (h c hc)

/-! ### Normalizers -/

theorem po_nf (h : AgreeOn C P P') (k : NFKind) {s : NS} (hs : Over C s.normalized) :
    nfNormalize P k s = nfNormalize P' k s ∧ ∀ s', nfNormalize P k s = .ok s' → Over C s'.normalized := by
  unfold nfNormalize
  rw [map_sanitize (po_scalars h hs)]
  obtain ⟨e, ho⟩ := h.nf k _ hs
  refine ⟨by simp only [e], fun s' hs' => ?_⟩
  obtain ⟨x, _, hs'⟩ := res_bind_ok.1 hs'
  cases hs'
  exact ho

theorem po_clean (h : AgreeOn C P P') (w : WStr) : ∀ (i : Nat) (acc : WStr) (s : NS), Over C w →
    cleanLoop P w i acc s = cleanLoop P' w i acc s := by
  induction w with
  | nil => intros; rfl
  | cons c r ih =>
    intro i acc s hw
    have hc := hw c (by simp)
    have hr : Over C r := po_sub hw (by simp +contextual)
    have e1 : isControlW P c = isControlW P' c := by unfold isControlW; rw [h.iswcntrl c hc]
    have e2 : isWhitespaceW P c = isWhitespaceW P' c := by unfold isWhitespaceW; rw [h.iswspace c hc]
    simp only [cleanLoop, e1, e2, fun i acc s => ih i acc s hr]

theorem po_cleaned {D B : Nat → Prop} (hb : C 0x20) {w v : WStr} (h : Cleaned D B w v) (hw : Over C w) : Over C v := by
  induction h with
  | nil => exact hw
  | dropped _ _ ih => exact ih (po_sub hw (by simp +contextual))
  | spaced _ _ _ ih =>
    intro c hc
    rcases List.mem_cons.1 hc with rfl | hc
    · exact hb
    · exact ih (po_sub hw (by simp +contextual)) c hc
  | kept _ _ _ ih =>
    intro c hc
    rcases List.mem_cons.1 hc with rfl | hc
    · exact hw _ (by simp)
    · exact ih (po_sub hw (by simp +contextual)) c hc

theorem po_padText (hb : C 0x20) {w : WStr} (hw : Over C w) : Over C (padText w) := by
  induction w with
  | nil => exact hw
  | cons c r ih =>
    have hr := ih (po_sub hw (by simp +contextual))
    have hc := hw c (by simp)
    unfold padText
    intro x hx
    split at hx
    · simp only [List.mem_cons] at hx
      rcases hx with rfl | rfl | rfl | hx
      · exact hb
      · exact hc
      · exact hb
      · exact hr x hx
    · rcases List.mem_cons.1 hx with rfl | hx
      · exact hc
      · exact hr x hx

theorem po_nsm (h : AgreeOn C P P') (w : WStr) : ∀ i, Over C w → nsmIds P i w = nsmIds P' i w := by
  induction w with
  | nil => intros; rfl
  | cons c r ih =>
    intro i hw
    have hr : Over C r := po_sub hw (by simp +contextual)
    simp only [nsmIds, h.isNSM c (hw c (by simp)), fun i => ih i hr]

theorem po_strip (h : AgreeOn C P P') {s : NS} (hs : Over C s.normalized) :
    doStripAccents P s = doStripAccents P' s ∧ ∀ s', doStripAccents P s = .ok s' → Over C s'.normalized := by
  unfold doStripAccents
  obtain ⟨e, ho⟩ := po_nf h .nfd hs
  rw [← e]
  refine ⟨?_, fun s' hs' => ?_⟩
  · cases hd : nfNormalize P .nfd s with
    | error x => rfl
    | ok d =>
      have hd' := ho d hd
      simp only [res_ok_bind]
      rw [po_nsm h _ 0 hd', List.filter_congr (fun c hc => by rw [h.isNSM c (hd' c hc)])]
  · obtain ⟨d, hd, hs'⟩ := res_bind_ok.1 hs'
    obtain ⟨d', _, hs'⟩ := res_bind_ok.1 hs'
    cases hs'
    exact po_sub (ho d hd) fun c hc => (List.mem_filter.1 hc).1

theorem po_bert (h : AgreeOn C P P') (a b c d : Bool) {s : NS} (hs : Over C s.normalized) :
    bertNormalize P a b c d s = bertNormalize P' a b c d s ∧ ∀ s', bertNormalize P a b c d s = .ok s' → Over C s'.normalized := by
  rw [bertNormalize_eq, bertNormalize_eq]
  have h1 : ∀ s : NS, Over C s.normalized → (if a then doCleanText P s else .ok s) = (if a then doCleanText P' s else .ok s) ∧
      ∀ s', (if a then doCleanText P s else .ok s) = .ok s' → Over C s'.normalized := by
    intro s hs
    cases a with
    | false => exact ⟨rfl, fun s' e => by cases e; exact hs⟩
    | true =>
      simp only [if_true]
      unfold doCleanText
      refine ⟨by rw [po_clean h _ _ _ _ hs], fun s' e => ?_⟩
      obtain ⟨r, h1, e⟩ := res_bind_ok.1 e
      obtain ⟨_, w', h2, h3⟩ := cleanLoop_value P _ _ _ _ _ h1
      cases e
      simp only [List.nil_append] at h2
      simp only [h2]
      exact po_cleaned h.blank h3 hs
  have h2 : ∀ s : NS, Over C s.normalized → ∀ s', (if b then doHandleChineseChars s else .ok s) = .ok s' → Over C s'.normalized := by
    intro s hs s' e
    cases b with
    | false => cases e; exact hs
    | true => rw [cjk_value e]; exact po_padText h.blank hs
  have h3 : ∀ s : NS, Over C s.normalized → (if c || d then doStripAccents P s else .ok s) = (if c || d then doStripAccents P' s else .ok s) ∧
      ∀ s', (if c || d then doStripAccents P s else .ok s) = .ok s' → Over C s'.normalized := by
    intro s hs
    cases (c || d) with
    | false => exact ⟨rfl, fun s' e => by cases e; exact hs⟩
    | true => exact po_strip h hs
  have h4 : ∀ s : NS, Over C s.normalized → (if d then doLowercase P s else s) = (if d then doLowercase P' s else s) ∧
      Over C (if d then doLowercase P s else s).normalized := by
    intro s hs
    cases d with
    | false => exact ⟨rfl, hs⟩
    | true =>
      simp only [if_true]
      unfold doLowercase
      refine ⟨by rw [List.map_congr_left fun c hc => (h.towlower c (hs c hc)).1], ?_⟩
      intro x hx
      obtain ⟨c, hc, rfl⟩ := List.mem_map.1 hx
      exact (h.towlower c (hs c hc)).2
  refine ⟨?_, ?_⟩
  · rw [← (h1 s hs).1]
    cases e1 : (if a then doCleanText P s else .ok s) with
    | error => rfl
    | ok s1 =>
      simp only [res_ok_bind]
      have o1 := (h1 s hs).2 s1 e1
      cases e2 : (if b then doHandleChineseChars s1 else .ok s1) with
      | error => rfl
      | ok s2 =>
        simp only [res_ok_bind]
        have o2 := h2 s1 o1 s2 e2
        rw [← (h3 s2 o2).1]
        cases e3 : (if c || d then doStripAccents P s2 else .ok s2) with
        | error => rfl
        | ok s3 =>
          simp only [res_ok_bind]
          rw [(h4 s3 ((h3 s2 o2).2 s3 e3)).1]
  · intro s' e
    obtain ⟨s1, e1, e⟩ := res_bind_ok.1 e
    obtain ⟨s2, e2, e⟩ := res_bind_ok.1 e
    obtain ⟨s3, e3, e⟩ := res_bind_ok.1 e
    cases e
    exact (h4 s3 ((h3 s2 (h2 s1 ((h1 s hs).2 s1 e1) s2 e2)).2 s3 e3)).2

theorem po_overwrite (l : List (Nat × Nat)) {c : Nat} (hx : C c) : ∀ {w w' : WStr}, Over C w → overwriteAll l c w = .ok w' → Over C w' := by
  induction l with
  | nil => intro w w' hw e; cases e; exact hw
  | cons p r ih =>
    intro w w' hw e
    obtain ⟨p, q⟩ := p
    simp only [overwriteAll] at e
    split at e
    · refine ih (fun x hx' => ?_) e
      rcases List.mem_or_eq_of_mem_set hx' with h | rfl
      · exact hw x h
      · exact hx
    · cases e

theorem po_replace (h : AgreeOn C P P') (p c : Str) (hc : ∀ v, Utf8Text v c → Over C v) {s : NS} (hs : Over C s.normalized) :
    replaceNormalize P p c s = replaceNormalize P' p c s ∧ ∀ s', replaceNormalize P p c s = .ok s' → Over C s'.normalized := by
  unfold replaceNormalize
  cases hp : convertFromString p with
  | error e => exact ⟨rfl, fun s' e => by cases e⟩
  | ok wp =>
    simp only [res_ok_bind]
    have hw := h.wregex wp
    cases hf : P.wregex wp with
    | none =>
      cases hf' : P'.wregex wp with
      | none => exact ⟨rfl, fun s' e => by cases e⟩
      | some g => rw [hf, hf'] at hw; cases hw
    | some f =>
      cases hf' : P'.wregex wp with
      | none => rw [hf, hf'] at hw; cases hw
      | some g =>
        rw [hf, hf'] at hw
        have e : f s.normalized = g s.normalized := hw _ hs
        simp only [e, true_and]
        intro s' hr
        obtain ⟨wc, h1, hr⟩ := res_bind_ok.1 hr
        have hwc : Over C wc := hc _ ((C02_from_string_iff _ _).1 h1)
        split at hr
        · cases hr; exact hs
        · obtain ⟨w, h2, hr⟩ := res_bind_ok.1 hr
          rw [applyReplace_text hr]
          exact po_overwrite _ (hwc _ (by simp)) hs h2
        · cases hr

mutual
theorem po_norm (h : AgreeOn C P P') : (n : Normalizer) → InsertsOnly C n → {s : NS} → Over C s.normalized →
    n.run P s = n.run P' s ∧ ∀ s', n.run P s = .ok s' → Over C s'.normalized
  | .bert a b c d, _, s, hs => by
    simp only [Normalizer.run]
    exact po_bert h a b c d hs
  | .prepend p, hi, s, hs => by
    refine ⟨by simp only [Normalizer.run], fun s' e => ?_⟩
    simp only [Normalizer.run, prependNormalize] at e
    obtain ⟨v, h1, e⟩ := res_bind_ok.1 e
    obtain ⟨_, _, e⟩ := res_bind_ok.1 e
    cases e
    simp only [InsertsOnly] at hi
    intro c hc
    rcases List.mem_append.1 hc with hc | hc
    · exact hi v ((C02_from_string_iff _ _).1 h1) c hc
    · exact hs c hc
  | .replace p c, hi, s, hs => by
    simp only [InsertsOnly] at hi
    simp only [Normalizer.run]
    exact po_replace h p c hi hs
  | .nf k, _, s, hs => by
    simp only [Normalizer.run]
    exact po_nf h k hs
  | .strip l r, _, s, hs => by
    refine ⟨by simp only [Normalizer.run], fun s' e => ?_⟩
    simp only [Normalizer.run, stripNormalize] at e
    cases e
    refine po_sub hs fun c hc => ?_
    cases l <;> cases r <;> simp only [if_true, if_false, Bool.false_eq_true] at hc
    · exact hc
    · exact List.mem_reverse.1 (List.dropWhile_sublist _ |>.subset (List.mem_reverse.1 hc))
    · exact (List.dropWhile_sublist _).subset hc
    · exact (List.dropWhile_sublist _).subset (List.mem_reverse.1 ((List.dropWhile_sublist _).subset (List.mem_reverse.1 hc)))
  | .stripAccents, _, s, hs => by
    refine ⟨by simp only [Normalizer.run], fun s' e => ?_⟩
    simp only [Normalizer.run, stripAccentsNormalize] at e
    cases e
    exact po_sub hs fun c hc => (List.mem_filter.1 hc).1
  | .seq l, hi, s, hs => by
    simp only [InsertsOnly] at hi
    simp only [Normalizer.run]
    exact po_norms h l hi hs
theorem po_norms (h : AgreeOn C P P') : (l : List Normalizer) → InsertOnly C l → {s : NS} → Over C s.normalized →
    Normalizer.runList P l s = Normalizer.runList P' l s ∧ ∀ s', Normalizer.runList P l s = .ok s' → Over C s'.normalized
  | [], _, s, hs => by
    refine ⟨by simp only [Normalizer.runList], fun s' e => ?_⟩
    simp only [Normalizer.runList] at e
    cases e; exact hs
  | n :: l, hi, s, hs => by
    simp only [InsertOnly] at hi
    simp only [Normalizer.runList]
    obtain ⟨e1, o1⟩ := po_norm h n hi.1 hs
    rw [← e1]
    cases e : n.run P s with
    | error x => exact ⟨rfl, fun s' e => by cases e⟩
    | ok s1 =>
      simp only [res_ok_bind]
      exact po_norms h l hi.2 (o1 s1 e)
end

/-! ### Added tokens -/

/-- The text of the split is made of characters in `C`. -/
def OverSplit (C : Nat → Prop) (s : Split) : Prop := ∃ v, Over C v ∧ Utf8Text v s.normalized

theorem po_infix {x y z w : WStr} (h : w = x ++ y ++ z) {C : Nat → Prop} (hw : Over C w) : Over C y :=
  po_sub hw fun c hc => by rw [h]; simp [hc]

theorem po_normOpt (h : AgreeOn C P P') {norm : Option Normalizer} (hn : ∀ n, norm = some n → InsertsOnly C n) {s : NS} (hs : Over C s.normalized) :
    normalizeOpt P norm s = normalizeOpt P' norm s ∧ ∀ s', normalizeOpt P norm s = .ok s' → Over C s'.normalized := by
  cases norm with
  | none => exact ⟨rfl, fun s' e => by cases e; exact hs⟩
  | some n => exact po_norm h n (hn n rfl) hs

theorem po_normSplit (h : AgreeOn C P P') {norm : Option Normalizer} (hn : ∀ n, norm = some n → InsertsOnly C n) (a : AddedVocab) (ns : NS) (e : Nat)
    {s : Split} (hs : OverSplit C s) : normalizeSplit P norm a ns e s = normalizeSplit P' norm a ns e s ∧
      ∀ r, (normalizeSplit P norm a ns e s).1 = .ok r → ∀ x ∈ r.2.1, OverSplit C x := by
  obtain ⟨v, hv, ht⟩ := hs
  have hc : convertFromString s.normalized = .ok v := (C02_from_string_iff _ _).2 ht
  obtain ⟨e1, o1⟩ := po_normOpt h hn (s := NS.ofText v) hv
  unfold normalizeSplit
  rw [hc]
  simp only [res_ok_bind, ← e1, true_and]
  intro r hr
  split at hr
  · cases hr
  · rename_i ns' sub text hpre
    obtain ⟨sub', h1, h2⟩ := res_bind_ok.1 hpre
    have : sub' = sub := by
      split at h2
      · cases h2
      · obtain ⟨_, _, h5⟩ := res_bind_ok.1 h2
        obtain ⟨_, _, h7⟩ := res_bind_ok.1 h5
        cases h7; rfl
    subst this
    have ho := o1 _ h1
    simp only at hr
    obtain ⟨segs, _, hr⟩ := res_bind_ok.1 hr
    obtain ⟨out, h3, hr⟩ := res_bind_ok.1 hr
    cases hr
    intro x hx
    obtain ⟨p, y, q, ew, hy⟩ := ab_segSplits e segs h3 x hx
    exact ⟨y, po_infix ew ho, (C02_to_string_iff _ _).1 hy⟩

theorem po_loop (h : AgreeOn C P P') {norm : Option Normalizer} (hn : ∀ n, norm = some n → InsertsOnly C n) (l : List Split) :
    ∀ (a : AddedVocab) (ns : NS) (e : Nat), (∀ s ∈ l, OverSplit C s) → normalizeLoop P norm a ns e l = normalizeLoop P' norm a ns e l ∧
      ∀ r, (normalizeLoop P norm a ns e l).1 = .ok r → ∀ x ∈ r.2, OverSplit C x := by
  induction l with
  | nil => intro a ns e _; exact ⟨rfl, fun r hr => by cases hr; intro x hx; cases hx⟩
  | cons s r ih =>
    intro a ns e hl
    have hs := hl s (by simp)
    have hr : ∀ s ∈ r, OverSplit C s := fun s hs => hl s (by simp [hs])
    simp only [normalizeLoop]
    split
    · obtain ⟨e1, o1⟩ := ih a ns (e + s.normalized.length) hr
      rw [← e1]
      refine ⟨rfl, fun q hq => ?_⟩
      generalize normalizeLoop P norm a ns (e + s.normalized.length) r = R at o1 hq
      obtain ⟨x, b⟩ := R
      cases x with
      | error => cases hq
      | ok x =>
        obtain ⟨n1, n2⟩ := x
        cases hq
        intro x hx
        rcases List.mem_cons.1 hx with rfl | hx
        · exact hs
        · exact o1 _ rfl x hx
    · obtain ⟨e1, o1⟩ := po_normSplit h hn a ns e hs
      rw [← e1]
      generalize normalizeSplit P norm a ns e s = R at o1
      obtain ⟨x, b⟩ := R
      cases x with
      | error => exact ⟨rfl, fun q hq => by cases hq⟩
      | ok x =>
        obtain ⟨ns', here, n⟩ := x
        simp only
        obtain ⟨e2, o2⟩ := ih b ns' (e + n) hr
        rw [← e2]
        refine ⟨rfl, fun q hq => ?_⟩
        generalize normalizeLoop P norm b ns' (e + n) r = R at o2 hq
        obtain ⟨x, b'⟩ := R
        cases x with
        | error => cases hq
        | ok x =>
          obtain ⟨n1, n2⟩ := x
          cases hq
          intro x hx
          rcases List.mem_append.1 hx with hx | hx
          · exact o1 _ rfl x hx
          · exact o2 _ rfl x hx

/-- The text as given and the pieces are made of characters in `C`. -/
def OverAll (C : Nat → Prop) (p : PTS) : Prop := Over C p.normalized.normalized ∧ ∀ s ∈ p.splits, OverSplit C s

theorem po_extract (h : AgreeOn C P P') {norm : Option Normalizer} (hn : ∀ n, norm = some n → InsertsOnly C n) (a : AddedVocab) {w : WStr} (hw : Over C w) :
    a.extract P norm w = a.extract P' norm w ∧ ∀ p, (a.extract P norm w).1 = .ok p → OverAll C p := by
  refine ⟨?_, fun p hp => ⟨by rw [pl_whole P norm a w p hp]; exact hw, ?_⟩⟩
  all_goals
    unfold AddedVocab.extract at *
    have h1 := @ab_first_splits a w
    generalize a.firstSplits w = R at *
    obtain ⟨x, b⟩ := R
    cases x with
    | error => first | rfl | cases hp
    | ok p0 =>
      simp only at *
      have hs : ∀ s ∈ p0.splits, OverSplit C s := by
        intro s hs
        obtain ⟨x, y, z, e, hy⟩ := h1 rfl s hs
        exact ⟨y, po_infix e hw, (C02_to_string_iff _ _).1 hy⟩
      obtain ⟨e1, o1⟩ := po_loop h hn p0.splits b p0.normalized 0 hs
      first
        | rw [← e1]; done
        | generalize normalizeLoop P norm b p0.normalized 0 p0.splits = R at o1 hp
          obtain ⟨x, b'⟩ := R
          cases x with
          | error => cases hp
          | ok x =>
            obtain ⟨n1, n2⟩ := x
            cases hp
            simp only
            intro s hs'
            split at hs'
            · exact hs s hs'
            · exact o1 _ rfl s hs'

/-! ### Pre-tokenizers -/

theorem po_splitLoop {fn fn' : U16 → Res (List Seg)} (b : Behavior) (l : List Split) (hl : ∀ s ∈ l, OverSplit C s)
    (hf : ∀ v, Over C v → fn (utf16 v) = fn' (utf16 v))
    (ho : ∀ s v part, Over C v → HasText s v → splitNormalized s fn b = .ok part → ∀ x ∈ part, OverSplit C x) :
    splitLoop fn b l = splitLoop fn' b l ∧ ∀ l', splitLoop fn b l = .ok l' → ∀ x ∈ l', OverSplit C x := by
  induction l with
  | nil => exact ⟨rfl, fun l' e => by cases e; simp⟩
  | cons s r ih =>
    obtain ⟨e1, o1⟩ := ih fun s hs => hl s (by simp [hs])
    obtain ⟨v, hv, ht⟩ := hl s (by simp)
    obtain ⟨hsc, hn⟩ := utf8Text_iff.1 ht
    have e2 : splitNormalized s fn b = splitNormalized s fn' b := by
      unfold splitNormalized
      simp only [hn, fromUTF8_utf8 hsc, hf v hv]
    have e3 := ho s v
    simp only [splitLoop, ← e1, ← e2, true_and]
    intro l' e
    split at e
    · obtain ⟨_, h1, e⟩ := res_bind_ok.1 e
      cases h1
      obtain ⟨rest, h2, e⟩ := res_bind_ok.1 e
      cases e
      intro x hx
      rcases List.mem_append.1 hx with hx | hx
      · rw [List.mem_singleton.1 hx]; exact ⟨v, hv, ht⟩
      · exact o1 _ h2 x hx
    · obtain ⟨here, h1, e⟩ := res_bind_ok.1 e
      obtain ⟨rest, h2, e⟩ := res_bind_ok.1 e
      cases e
      intro x hx
      rcases List.mem_append.1 hx with hx | hx
      · exact e3 _ hv ht h1 x hx
      · exact o1 _ h2 x hx

theorem po_split {fn fn' : U16 → Res (List Seg)} (b : Behavior) {p : PTS} (hp : OverAll C p)
    (hf : ∀ v, Over C v → fn (utf16 v) = fn' (utf16 v))
    (ho : ∀ s v part, Over C v → HasText s v → splitNormalized s fn b = .ok part → ∀ x ∈ part, OverSplit C x) :
    p.split fn b = p.split fn' b ∧ ∀ p', p.split fn b = .ok p' → OverAll C p' := by
  obtain ⟨e1, o1⟩ := po_splitLoop b p.splits hp.2 hf ho
  unfold PTS.split
  rw [← e1]
  refine ⟨rfl, fun p' e => ?_⟩
  obtain ⟨l, h1, e⟩ := res_bind_ok.1 e
  cases e
  exact ⟨hp.1, o1 l h1⟩

theorem po_find (h : AgreeOn C P P') (pattern : Str) {v : WStr} (hv : Over C v) :
    findMatches P pattern (utf16 v) = findMatches P' pattern (utf16 v) := by
  unfold findMatches
  have hw := h.regex pattern
  cases hf : P.regex pattern with
  | none =>
    cases hf' : P'.regex pattern with
    | none => rfl
    | some g => rw [hf, hf'] at hw; cases hw
  | some f =>
    cases hf' : P'.regex pattern with
    | none => rw [hf, hf'] at hw; cases hw
    | some g =>
      rw [hf, hf'] at hw
      simp only
      rw [hw (utf16 v) ⟨v, hv, utf16Text_iff.2 ⟨po_scalars h hv, rfl⟩⟩]

theorem po_cuts {keep : Bool} {pos : Nat} {ms : List (Nat × Nat)} {v : WStr} {l : List WStr} (h : CutsAt keep pos ms v l) :
    ∀ y ∈ l, ∀ c ∈ y, c ∈ v := by
  induction h with
  | done => simp
  | rest _ => simp
  | gap _ _ _ ih =>
    intro y hy c hc
    rcases List.mem_cons.1 hy with rfl | hy
    · simp [hc]
    · exact List.mem_append_right _ (ih y hy c hc)
  | here _ _ ih =>
    intro y hy c hc
    split at hy
    · rcases List.mem_cons.1 hy with rfl | hy
      · simp [hc]
      · exact List.mem_append_right _ (ih y hy c hc)
    · exact List.mem_append_right _ (ih y hy c hc)

theorem po_regex (hg : GoodRegexes P) (pattern : Str) (b : Behavior) (s : Split) (v : WStr) (part : List Split) (hv : Over C v) (ht : HasText s v)
    (h : splitNormalized s (findMatches P pattern) b = .ok part) : ∀ x ∈ part, OverSplit C x := by
  obtain ⟨l, ⟨f, u, _, _, h1⟩, h2⟩ := pl_regex hg pattern b s v part ht h
  intro x hx
  obtain ⟨y, hy, h3⟩ := each_mem_right h2 x hx
  obtain ⟨z, hz, rfl⟩ := List.mem_map.1 hy
  exact ⟨z, po_sub hv (po_cuts h1 z hz), h3.1⟩

theorem po_spaceRuns (h : AgreeOn C P P') (v : WStr) : ∀ pos, Over C v → spaceRuns P pos v = spaceRuns P' pos v := by
  induction v with
  | nil => intros; rfl
  | cons c r ih =>
    intro pos hv
    have hr : Over C r := po_sub hv (by simp +contextual)
    simp only [spaceRuns, h.reSpace c (hv c (by simp)), fun pos => ih pos hr]

theorem po_punct (h : AgreeOn C P P') (v : WStr) : ∀ pos, Over C v → punctMatches P pos v = punctMatches P' pos v := by
  induction v with
  | nil => intros; rfl
  | cons c r ih =>
    intro pos hv
    have hr : Over C r := po_sub hv (by simp +contextual)
    simp only [punctMatches, h.rePunct c (hv c (by simp)), fun pos => ih pos hr]

theorem po_bertPre (h : AgreeOn C P P') {p : PTS} (hp : OverAll C p) :
    bertPreTokenize P p = bertPreTokenize P' p ∧ ∀ p', bertPreTokenize P p = .ok p' → OverAll C p' := by
  unfold bertPreTokenize
  have over : ∀ (v : WStr) (l : List (Nat × WStr)) (n : Nat), Over C v → (∀ x ∈ l, PartOf v x.1 (x.1 + units x.2) x.2) →
      ∀ s ∈ wordSplits n l, OverSplit C s := by
    intro v l n hv hl s hs
    obtain ⟨x, hx, rfl⟩ := List.mem_map.1 hs
    obtain ⟨a, b, e, _, _⟩ := hl x hx
    have ho : Over C x.2 := po_infix e hv
    exact ⟨x.2, ho, utf8Text_iff.2 ⟨po_scalars h ho, rfl⟩⟩
  obtain ⟨e1, o1⟩ := po_split (fn := isWhitespaceSegs P) (fn' := isWhitespaceSegs P') .removed hp (fun v hv => by
    unfold isWhitespaceSegs
    rw [u16Points_utf16 (po_scalars h hv), po_spaceRuns h v 0 hv]) (fun s v part hv ht hpart => by
    obtain ⟨hsc, hn⟩ := utf8Text_iff.1 ht
    rw [splitNormalized_space P hsc hn] at hpart
    cases hpart
    refine over v _ _ hv fun x hx => ?_
    have := (wsWords_mem P.reSpace v 0 [] [] (by simp) rfl x hx).2.2
    simpa using this)
  rw [← e1]
  have second : ∀ q, OverAll C q → q.split (isBertPuncSegs P) .isolated = q.split (isBertPuncSegs P') .isolated ∧
      ∀ p', q.split (isBertPuncSegs P) .isolated = .ok p' → OverAll C p' := by
    intro q hq
    refine po_split .isolated hq (fun v hv => ?_) (fun s v part hv ht hpart => ?_)
    · unfold isBertPuncSegs
      rw [u16Points_utf16 (po_scalars h hv), po_punct h v 0 hv]
    · obtain ⟨hsc, hn⟩ := utf8Text_iff.1 ht
      rw [splitNormalized_punct P hsc hn] at hpart
      cases hpart
      refine over v _ _ hv fun x hx => ?_
      have := (punctWords_mem P.rePunct v 0 [] [] (by simp) rfl x hx).2.2
      simpa using this
  cases hq : p.split (isWhitespaceSegs P) .removed with
  | error => exact ⟨rfl, fun p' e => by cases e⟩
  | ok q =>
    simp only [res_ok_bind]
    exact second q (o1 q hq)

mutual
theorem po_keep (h : AgreeOn C P P') (hg : GoodRegexes P) : (t : PreTokenizer) → KeepsText t → {p : PTS} → OverAll C p →
    t.run P p = t.run P' p ∧ ∀ p', t.run P p = .ok p' → OverAll C p'
  | .bert, _, p, hp => by
    simp only [PreTokenizer.run]
    exact po_bertPre h hp
  | .split pattern b _, _, p, hp => by
    simp only [PreTokenizer.run, splitPreTokenize]
    exact po_split b hp (fun v hv => po_find h pattern hv) fun s v part hv ht hpart => po_regex hg pattern b s v part hv ht hpart
  | .byteLevel _ _, hk, _, _ => by simp only [KeepsText] at hk
  | .seq l, hk, p, hp => by
    simp only [KeepsText] at hk
    simp only [PreTokenizer.run]
    exact po_keeps h hg l hk hp
theorem po_keeps (h : AgreeOn C P P') (hg : GoodRegexes P) : (l : List PreTokenizer) → KeepText l → {p : PTS} → OverAll C p →
    PreTokenizer.runList P l p = PreTokenizer.runList P' l p ∧ ∀ p', PreTokenizer.runList P l p = .ok p' → OverAll C p'
  | [], _, p, hp => by
    refine ⟨by simp only [PreTokenizer.runList], fun p' e => ?_⟩
    simp only [PreTokenizer.runList] at e
    cases e; exact hp
  | t :: l, hk, p, hp => by
    simp only [KeepText] at hk
    simp only [PreTokenizer.runList]
    obtain ⟨e1, o1⟩ := po_keep h hg t hk.1 hp
    rw [← e1]
    cases e : t.run P p with
    | error => exact ⟨rfl, fun p' e => by cases e⟩
    | ok q =>
      simp only [res_ok_bind]
      exact po_keeps h hg l hk.2 (o1 q e)
end

theorem po_prefix (h : AgreeOn C P P') (a : Bool) {p : PTS} (hp : OverAll C p) :
    plPrefix P a p = plPrefix P' a p ∧ ∀ p', plPrefix P a p = .ok p' → OverAll C p' := by
  unfold plPrefix
  cases a with
  | false => exact ⟨rfl, fun p' e => by cases e; exact hp⟩
  | true =>
    simp only [if_true]
    have ho := hp.1
    cases hn : p.normalized.normalized with
    | nil => exact ⟨rfl, fun p' e => by cases e⟩
    | cons c r =>
      simp only
      rw [hn] at ho
      rw [← h.iswspace c (ho c (by simp))]
      refine ⟨rfl, fun p' e => ?_⟩
      split at e
      · cases e; exact hp
      · obtain ⟨n, e1, e⟩ := res_bind_ok.1 e
        have e2 := transform_text e1
        unfold PTS.ofNS at e
        obtain ⟨t, e3, e⟩ := res_bind_ok.1 e
        cases e
        have ho' : Over C n.normalized := by
          rw [e2]
          intro x hx
          rcases List.mem_cons.1 hx with rfl | hx
          · exact h.blank
          · exact ho x hx
        refine ⟨ho', fun s hs => ?_⟩
        rw [List.mem_singleton.1 hs]
        exact ⟨_, ho', (C02_to_string_iff _ _).1 e3⟩

theorem po_mapBytes (hC : ∀ c, C c → Scalar c) (hs : P.charSigned = P'.charSigned ∨ ∀ c, C c → c < 0x80) {v : WStr} (hv : Over C v) :
    mapBytes P (utf8 v) = mapBytes P' (utf8 v) := by
  have hb : ∀ b ∈ utf8 v, b < 256 := utf8_bytes (scalars_iff.1 fun c hc => hC c (hv c hc))
  rcases hs with hs | hs
  · have : KeyOk P (utf8 v) ↔ KeyOk P' (utf8 v) := by unfold KeyOk; rw [hs]
    rcases mapBytes_iff (P := P) hb with ⟨h1, e1⟩ | ⟨h1, e1⟩ <;> rcases mapBytes_iff (P := P') hb with ⟨h2, e2⟩ | ⟨h2, e2⟩
    · rw [e1, e2]
    · exact absurd (this.1 h1) h2
    · exact absurd (this.2 h2) h1
    · rw [e1, e2]
  · have ha : ∀ b ∈ utf8 v, b < 128 := by
      rw [utf8_ascii fun c hc => hs c (hv c hc)]
      exact fun b hb => hs b (hv b hb)
    rw [mapBytes_ok (P := P) fun b hb => ⟨by have := ha b hb; omega, fun _ => ha b hb⟩,
      mapBytes_ok (P := P') fun b hb => ⟨by have := ha b hb; omega, fun _ => ha b hb⟩]

theorem po_mapSplits (hC : ∀ c, C c → Scalar c) (hs : P.charSigned = P'.charSigned ∨ ∀ c, C c → c < 0x80) (l : List Split)
    (hl : ∀ s ∈ l, OverSplit C s) : mapSplits P l = mapSplits P' l := by
  induction l with
  | nil => rfl
  | cons s r ih =>
    obtain ⟨v, hv, ht⟩ := hl s (by simp)
    simp only [mapSplits, ih fun s hs => hl s (by simp [hs])]
    rw [(utf8Text_iff.1 ht).2, po_mapBytes hC hs hv]

theorem po_byteLevel (h : AgreeOn C P P') (hg : GoodRegexes P) (hs : P.charSigned = P'.charSigned ∨ ∀ c, C c → c < 0x80) (a u : Bool) {p : PTS}
    (hp : OverAll C p) : byteLevelPreTokenize P a u p = byteLevelPreTokenize P' a u p := by
  rw [pl_byteLevel_eq, pl_byteLevel_eq]
  obtain ⟨e1, o1⟩ := po_prefix h a hp
  rw [← e1]
  cases hq : plPrefix P a p with
  | error => rfl
  | ok q =>
    simp only [res_ok_bind]
    obtain ⟨e2, o2⟩ := po_split (fn := fun x => if u then findMatches P byteLevelPattern x else .ok [((0, x.length), false)])
      (fn' := fun x => if u then findMatches P' byteLevelPattern x else .ok [((0, x.length), false)]) .isolated (o1 q hq)
      (fun v hv => by rw [po_find h _ hv]) (fun s v part hv ht hpart => by
        cases u with
        | true => exact po_regex hg byteLevelPattern .isolated s v part hv ht hpart
        | false =>
          have := pl_splitNormalized ht [(v, false)] (by simp) (by simp [place, units_eq]) hpart
          intro x hx
          obtain ⟨y, hy, h3⟩ := each_mem_right this x hx
          simp only [plTexts, List.map_cons, List.map_nil, List.mem_singleton] at hy
          rw [hy] at h3
          exact ⟨v, hv, h3.1⟩)
    rw [← e2]
    cases hr : q.split (fun x => if u then findMatches P byteLevelPattern x else .ok [((0, x.length), false)]) .isolated with
    | error => rfl
    | ok r =>
      simp only [res_ok_bind]
      rw [po_mapSplits h.scalar hs r.splits (o2 r hr).2]

mutual
theorem po_last (h : AgreeOn C P P') (hg : GoodRegexes P) (hs : P.charSigned = P'.charSigned ∨ ∀ c, C c → c < 0x80) : (t : PreTokenizer) →
    BytesAtEnd t → {p : PTS} → OverAll C p → t.run P p = t.run P' p
  | .bert, _, p, hp => (po_keep h hg .bert (by simp only [KeepsText]) hp).1
  | .split pattern b i, _, p, hp => (po_keep h hg (.split pattern b i) (by simp only [KeepsText]) hp).1
  | .byteLevel a u, _, p, hp => by
    simp only [PreTokenizer.run]
    exact po_byteLevel h hg hs a u hp
  | .seq l, hk, p, hp => by
    simp only [BytesAtEnd] at hk
    simp only [PreTokenizer.run]
    exact po_lasts h hg hs l hk hp
theorem po_lasts (h : AgreeOn C P P') (hg : GoodRegexes P) (hs : P.charSigned = P'.charSigned ∨ ∀ c, C c → c < 0x80) : (l : List PreTokenizer) →
    BytesAtEndIn l → {p : PTS} → OverAll C p → PreTokenizer.runList P l p = PreTokenizer.runList P' l p
  | [], _, p, hp => by simp only [PreTokenizer.runList]
  | t :: l, hk, p, hp => by
    simp only [BytesAtEndIn] at hk
    simp only [PreTokenizer.runList]
    rcases hk with ⟨rfl, hk⟩ | ⟨hk, hl⟩
    · rw [po_last h hg hs t hk hp]
      simp only [PreTokenizer.runList]
    · obtain ⟨e1, o1⟩ := po_keep h hg t hk hp
      rw [← e1]
      cases e : t.run P p with
      | error => rfl
      | ok q =>
        simp only [res_ok_bind]
        exact po_lasts h hg hs l hl (o1 q e)
end

theorem po_pre (h : AgreeOn C P P') (hg : GoodRegexes P) {t : Tokenizer} (hn : ∀ n, t.normalizer = some n → InsertsOnly C n)
    (hb : ∀ p, t.preTokenizer = some p → BytesAtEnd p) (hs : SignAlike C P P' t.preTokenizer) {w : WStr} (hw : Over C w) :
    t.preTokenized P w = t.preTokenized P' w := by
  have tail : ∀ p : PTS, OverAll C p → (match t.preTokenizer with | none => .ok p | some pt => pt.run P p : Res PTS) =
      (match t.preTokenizer with | none => .ok p | some pt => pt.run P' p : Res PTS) := by
    intro p hp
    unfold SignAlike at hs
    cases hpt : t.preTokenizer with
    | none => rfl
    | some pt =>
      simp only
      rw [hpt] at hs hb
      rcases hs with hs | hs | hs
      · exact po_last h hg (.inl hs) pt (hb _ rfl) hp
      · exact po_last h hg (.inr hs) pt (hb _ rfl) hp
      · exact (po_keep h hg pt (hs pt rfl) hp).1
  unfold Tokenizer.preTokenized
  rw [ofNS_text (po_scalars h hw)]
  simp only
  cases ha : t.added with
  | none =>
    simp only [res_ok_bind]
    refine Prod.ext (tail _ ⟨hw, fun s hs => ?_⟩) rfl
    rw [List.mem_singleton.1 hs]
    exact ⟨w, hw, utf8Text_iff.2 ⟨po_scalars h hw, rfl⟩⟩
  | some a =>
    simp only
    obtain ⟨e1, o1⟩ := po_extract h hn a hw
    rw [← e1]
    cases hx : (a.extract P t.normalizer w).1 with
    | error => rfl
    | ok p =>
      simp only [res_ok_bind]
      exact Prod.ext (tail p (o1 p hx)) rfl

/-! ### The model -/

theorem po_pushPair (h : P.pq = P'.pq) : pushPair P = pushPair P' := by
  funext m q pos a b; unfold pushPair; rw [h]

theorem po_initQueue (h : P.pq = P'.pq) (m : Merges) : ∀ (i : Nat) (l : List Symbol) (q : List Merge), initQueue P m i l q = initQueue P' m i l q
  | i, a :: b :: r, q => by simp only [initQueue, po_pushPair h]; exact po_initQueue h m (i + 1) (b :: r) _
  | i, [a], q => by simp only [initQueue]
  | i, [], q => by simp only [initQueue]

theorem po_mergeStep (h : P.pq = P'.pq) : mergeStep P = mergeStep P' := by
  have e1 : pushLeft P = pushLeft P' := by funext m s q c; unfold pushLeft; rw [po_pushPair h]
  have e2 : pushRight P = pushRight P' := by funext m s q p c; unfold pushRight; rw [po_pushPair h]
  have e3 : applyTop P = applyTop P' := by funext m s q t; unfold applyTop; rw [e1, e2]
  funext m d st
  unfold mergeStep
  rw [h, e3]

theorem po_mergeLoop (h : P.pq = P'.pq) (m : Merges) (d : Dropout) : ∀ (fuel : Nat) (st : MState), mergeLoop P m d fuel st = mergeLoop P' m d fuel st
  | 0, _ => rfl
  | fuel + 1, st => by
    simp only [mergeLoop, po_mergeStep h, po_mergeLoop h m d fuel]

theorem po_word (h : P.pq = P'.pq) (m : BPE) (s : Str) : m.word P s = m.word P' s := by
  have e1 : m.mergeWord P s = m.mergeWord P' s := by
    unfold BPE.mergeWord mergeAll
    simp only [po_mergeLoop h, po_initQueue h]
  unfold BPE.word BPE.tokenizeWithCache
  rw [e1]

theorem po_splits {m : BPE} (l : List Split)
    (h : ∀ s ∈ l, (m.word P s.normalized).1 = (m.word P' s.normalized).1) : ∀ (x x' : BPE), CacheOk P x → x.fresh = m →
    CacheOk P' x' → x'.fresh = m → (x.splitsLoop P l).1 = (x'.splitsLoop P' l).1 := by
  induction l with
  | nil => intros; rfl
  | cons s r ih =>
    intro x x' hx ex hx' ex'
    obtain ⟨h1, h2, h3⟩ := word_cache P x s.normalized hx
    obtain ⟨f1, f2, f3⟩ := word_cache P' x' s.normalized hx'
    rw [ex] at h1 h3
    rw [ex'] at f1 f3
    have e := h s (by simp)
    rw [← h1, ← f1] at e
    simp only [BPE.splitsLoop]
    generalize x.word P s.normalized = R at e h2 h3
    generalize x'.word P' s.normalized = R' at e f2 f3
    obtain ⟨res, y⟩ := R
    obtain ⟨res', y'⟩ := R'
    simp only at e h2 h3 f2 f3
    subst e
    cases res with
    | error e => rfl
    | ok ts =>
      simp only
      have := ih (fun s hs => h s (by simp [hs])) y y' h2 h3 f2 f3
      generalize y.splitsLoop P r = Q at this
      generalize y'.splitsLoop P' r = Q' at this
      obtain ⟨q, z⟩ := Q
      obtain ⟨q', z'⟩ := Q'
      simp only at this
      subst this
      cases q <;> rfl

theorem po_bpe {lines : List Str} {m x x' : Model} (hm : ModelIs P lines m x) (hm' : ModelIs P' lines m x') {p : PTS}
    (h : ∀ n, m = .bpe n → ∀ s ∈ p.splits, (n.word P s.normalized).1 = (n.word P' s.normalized).1) :
    (x.tokenize P p).1 = (x'.tokenize P' p).1 := by
  cases m with
  | wordPiece m => cases hm; cases hm'; rfl
  | bpe m =>
    obtain ⟨hmade, -, before, rfl⟩ := hm
    obtain ⟨-, -, before', rfl⟩ := hm'
    obtain ⟨c1, f1⟩ := used_cache P hmade before
    obtain ⟨c2, f2⟩ := used_cache P' hmade before'
    have key := po_splits p.splits (h m rfl) _ _ c1 f1 c2 f2
    simp only [Model.tokenize, BPE.tokenize]
    generalize BPE.splitsLoop P _ p.splits = R at key
    generalize BPE.splitsLoop P' _ p.splits = R' at key
    obtain ⟨q, z⟩ := R
    obtain ⟨q', z'⟩ := R'
    simp only at key
    subst key
    cases q <;> rfl

end

/-- The order in which the priority queue yields merges of equal rank makes no difference: the model is not BPE, or the queues are
the same, or no dropout is configured, no two merges of the list compete, and no word of the text is longer than an `int` can count. -/
def QueueAlike (P P' : Platform) (t : Tokenizer) (lines : List Str) (m : Model) (w : WStr) : Prop :=
  ∀ n, m = .bpe n → P.pq = P'.pq ∨
    (n.dropout.on = false ∧ Decided (Listed (tokenToId n.vocab) n.pre lines) ∧ (∀ a, t.added = some a → PlainTables a) ∧
      ∀ ws, AnyWords P t w ws → ∀ y ∈ ws, ShortEnough m y)

/-- **C122** A tokenizer encodes a text alike on two platforms that agree on the characters of the text - the same encoding, or
the same failure - whatever each of the two instances has been used for before.  What the platforms say about other characters
does not matter. -/
theorem C122_encode {C : Nat → Prop} {P P' : Platform} (h : AgreeOn C P P') (hg : GoodRegexes P) {t : Tokenizer} {m x x' : Model} {lines : List Str}
    {w : WStr} {b : Bool} (hx : t.model = some x) (hm : ModelIs P lines m x) (hm' : ModelIs P' lines m x')
    (hn : ∀ n, t.normalizer = some n → InsertsOnly C n) (hb : ∀ p, t.preTokenizer = some p → BytesAtEnd p)
    (hs : SignAlike C P P' t.preTokenizer) (hq : QueueAlike P P' t lines m w) (hw : Over C w) :
    (t.encode P w b).1 = (({ t with model := some x' } : Tokenizer).encode P' w b).1 := by
  have hpre : (({ t with model := some x' } : Tokenizer).preTokenized P' w).1 = (t.preTokenized P w).1 := by
    rw [po_pre h hg hn hb hs hw]
    unfold Tokenizer.preTokenized
    cases PTS.ofNS (NS.ofText w) with
    | error e => rfl
    | ok p =>
      cases e : t.added with
      | none => simp only
      | some a => rfl
  rw [ha_encode, ha_encode]
  have ht : textPart P' { t with model := some x' } w = textPart P t w := by
    unfold textPart
    rw [hpre]
    cases hp : (t.preTokenized P w).1 with
    | error e => rfl
    | ok p =>
      simp only [res_ok_bind]
      have := po_bpe hm hm' (p := p) (by
        rintro n rfl s hsp
        rcases hq n rfl with e | ⟨q1, q2, q3, q4⟩
        · rw [po_word e]
        · obtain ⟨ws, k1, k2⟩ := at_words P hg q3 hp
          obtain ⟨y, hy, hty⟩ := each_mem_right k2 s hsp
          refine C86_word_any_partial P P' hm.1 _ q1 ?_ q2
          have := q4 ws k1 y hy
          unfold Fits
          rw [cn_octets hty]; exact this)
      simp only [Tokenizer.doTokenize, hx, this]
  rw [ht]
  rfl

/-- **C122** Without a model - a configuration that names none the library knows - it is the same. -/
theorem C122_noModel {C : Nat → Prop} {P P' : Platform} (h : AgreeOn C P P') (hg : GoodRegexes P) {t : Tokenizer}
    {w : WStr} {b : Bool} (hx : t.model = none) (hn : ∀ n, t.normalizer = some n → InsertsOnly C n)
    (hb : ∀ p, t.preTokenizer = some p → BytesAtEnd p) (hs : SignAlike C P P' t.preTokenizer) (hw : Over C w) :
    (t.encode P w b).1 = (t.encode P' w b).1 := by
  rw [ha_encode, ha_encode]
  unfold textPart
  rw [po_pre h hg hn hb hs hw]
  simp only [Tokenizer.doTokenize, hx]

mutual
theorem po_keepsLast : (p : PreTokenizer) → KeepsText p → BytesAtEnd p
  | .bert, _ => by simp only [BytesAtEnd]
  | .split _ _ _, _ => by simp only [BytesAtEnd]
  | .byteLevel _ _, h => by simp only [KeepsText] at h
  | .seq l, h => by
    simp only [KeepsText] at h
    simp only [BytesAtEnd]
    exact po_keepLast l h
theorem po_keepLast : (l : List PreTokenizer) → KeepText l → BytesAtEndIn l
  | [], _ => by simp only [BytesAtEndIn]
  | p :: l, h => by
    simp only [KeepText] at h
    simp only [BytesAtEndIn]
    exact .inr ⟨h.1, po_keepLast l h.2⟩
end

/-- **C122** In particular: WordPiece, any number of cutting pre-tokenizers, any normalizer. -/
theorem C122_wordPiece {C : Nat → Prop} {P P' : Platform} (h : AgreeOn C P P') (hg : GoodRegexes P) {t : Tokenizer} {m : WordPiece}
    {w : WStr} {b : Bool} (hx : t.model = some (.wordPiece m)) (hn : ∀ n, t.normalizer = some n → InsertsOnly C n)
    (hk : ∀ p, t.preTokenizer = some p → KeepsText p) (hw : Over C w) :
    (t.encode P w b).1 = (t.encode P' w b).1 := by
  have := C122_encode (x' := .wordPiece m) (lines := []) (m := .wordPiece m) (b := b) h hg hx rfl rfl hn
    (fun p hp => po_keepsLast p (hk p hp)) (.inr (.inr hk)) (by rintro n ⟨⟩) hw
  rw [this]
  obtain ⟨_, _, _, _, _, mo, _, _⟩ := t
  cases hx
  rfl

/-! ### Examples -/

theorem po_utf8 {w : WStr} (hw : ∀ c ∈ w, c < 0x80) : Utf8Text w w :=
  utf8Text_iff.2 ⟨scalars_iff.1 fun c hc => by have := hw c hc; unfold Scalar; omega, (utf8_ascii hw).symm⟩


/-- A platform that differs from `spacePlatform` in many ways, but not on ASCII: ARM, another locale, another ICU. -/
def armPlatform : Platform :=
  { spacePlatform with
    charSigned := false, pq := youngPQ
    iswspace := fun c => asciiSpace c || c == 0xA0 || c == 0x3000
    towlower := fun c => if c = 0xC9 then 0xE9 else if c = 0x130 then 0x69 else ascii.towlower c
    nf := fun _ w => w.map fun c => if c = 0x212B then 0xC5 else c
    reSpace := fun c => asciiSpace c || c == 0x2028
    rePunct := fun c => asciiPunct c || c == 0xBF }

theorem po_ascii_agree : AgreeOn (fun c => c < 0x80) spacePlatform armPlatform where
  scalar c hc := by unfold Scalar; omega
  blank := by decide
  iswspace c hc := by
    have h1 : (c == 0xA0) = false := by simp; omega
    have h2 : (c == 0x3000) = false := by simp; omega
    simp only [spacePlatform, armPlatform, h1, h2, Bool.or_false]; rfl
  iswcntrl c hc := rfl
  towlower c hc := by
    refine ⟨?_, ?_⟩
    · have h1 : ¬ c = 0xC9 := by omega
      have h2 : ¬ c = 0x130 := by omega
      simp only [spacePlatform, armPlatform, if_neg h1, if_neg h2]
    · simp only [spacePlatform, ascii]
      split <;> omega
  isNSM c hc := rfl
  nf k w hw := by
    refine ⟨?_, hw⟩
    show w = w.map _
    conv => lhs; rw [← List.map_id w]
    apply List.map_congr_left
    intro c hc
    have h1 : ¬ c = 0x212B := by have := hw c hc; omega
    rw [if_neg h1]; rfl
  wregex p := fun _ _ => rfl
  regex p := fun _ _ => rfl
  reSpace c hc := by
    have h1 : (c == 0x2028) = false := by simp; omega
    simp only [spacePlatform, armPlatform, h1, Bool.or_false]; rfl
  rePunct c hc := by
    have h1 : (c == 0xBF) = false := by simp; omega
    simp only [spacePlatform, armPlatform, h1, Bool.or_false]; rfl

/-- A tokenizer with added tokens, normalizers, two pre-tokenizers - the second of them ByteLevel -, truncation, post-processing and
padding encodes every ASCII text as on the other platform (with the same priority queue). -/
example (w : WStr) (hw : ∀ c ∈ w, c < 0x80) (b : Bool) :
    (pipeTk.encode spacePlatform w b).1 = (pipeTk.encode { armPlatform with pq := listPQ } w b).1 := by
  have h := po_ascii_agree
  refine C122_encode (C := fun c => c < 0x80) (P' := { armPlatform with pq := listPQ }) (t := pipeTk) (x' := .bpe spaceBPE)
    (lines := [b!"a b", b!"b c"]) (m := .bpe spaceBPE)
    ⟨h.scalar, h.blank, h.iswspace, h.iswcntrl, h.towlower, h.isNSM, h.nf, h.wregex, h.regex, h.reSpace, h.rePunct⟩ pl_space_good rfl
    ⟨spaceBPE_made, by decide, [], rfl⟩ ⟨spaceBPE_made, by decide, [], rfl⟩ ?_ ?_ (.inr (.inl fun _ hc => hc)) (fun _ _ => .inl rfl) hw
  · rintro n ⟨⟩
    simp only [InsertsOnly, InsertOnly, true_and, and_true]
    intro v hv
    have : v = w!"c" := nt_utf8 hv (po_utf8 (by decide))
    rw [this]
    show ∀ c ∈ _, _
    decide
  · rintro p ⟨⟩
    simp [BytesAtEnd, BytesAtEndIn, KeepsText]

/-- … it is encoded, for example, thus. -/
example : (pipeTk.encode { armPlatform with pq := listPQ } w!"ab bc [CLS] abc " true).1.map (·.ids) =
    (pipeTk.encode spacePlatform w!"ab bc [CLS] abc " true).1.map (·.ids) := by
  refine Eq.trans (b := .ok [101, 4, 101, 0, 4, 102, 9, 9]) ?_ ?_ <;> decide +kernel

/-- With another priority queue the merge list has to be unambiguous. -/
example (w : WStr) (hw : ∀ c ∈ w, c < 0x80) (hl : w.length < 2 ^ 31) (b : Bool) :
    (({ model := some (.bpe pairsBPE) } : Tokenizer).encode spacePlatform w b).1 =
      (({ model := some (.bpe pairsBPE) } : Tokenizer).encode armPlatform w b).1 := by
  refine C122_encode (C := fun c => c < 0x80) (t := { model := some (.bpe pairsBPE) }) (x' := .bpe pairsBPE)
    (lines := pairsLines) (m := .bpe pairsBPE) po_ascii_agree pl_space_good rfl
    ⟨pairsBPE_made, by decide, [], rfl⟩ ⟨pairsBPE_made, by decide, [], rfl⟩ (by simp) (by simp) (.inr (.inl fun _ hc => hc)) ?_ hw
  rintro n ⟨⟩
  refine .inr ⟨rfl, ⟨pairsBPE_unambiguous.noSelf, pairsBPE_unambiguous.order, .inl pairsBPE_unambiguous.distinct⟩, by simp, ?_⟩
  rintro ws ⟨items, w', items', h1, h2, h3⟩ y hy
  have h3 : items' = items := h3
  have h1 : items = [(w, false)] := h1
  subst h3 h1
  rw [h2] at hy
  rw [List.mem_singleton.1 hy]
  show octets w * _ < _
  rw [← cn_octets (po_utf8 hw)]
  simpa [pairsBPE] using hl

/-- **C122 is violated** for other texts: beyond ASCII the platforms above give different encodings - where `char` is signed, a byte-level
tokenizer throws, where it is unsigned, it encodes the letter; a no-break space is white space on one platform only. -/
theorem C122_violated :
    (({ preTokenizer := some (.byteLevel false false), model := some (wpOf [(b!"Ã©", 7)]) } : Tokenizer).encode spacePlatform w!"é" true).1.map (·.ids) =
      .error (.throws .outOfRange) ∧
    (({ preTokenizer := some (.byteLevel false false), model := some (wpOf [(b!"Ã©", 7)]) } : Tokenizer).encode armPlatform w!"é" true).1.map (·.ids) = .ok [7] ∧
    (({ preTokenizer := some .bert, model := some (wpOf [(b!"[UNK]", 0), (b!"¿", 1), (b!"a", 2)]) } : Tokenizer).encode spacePlatform w!"¿a" true).1.map (·.ids) = .ok [0] ∧
    (({ preTokenizer := some .bert, model := some (wpOf [(b!"[UNK]", 0), (b!"¿", 1), (b!"a", 2)]) } : Tokenizer).encode armPlatform w!"¿a" true).1.map (·.ids) = .ok [1, 2] := by
  refine ⟨?_, ?_, ?_, ?_⟩ <;> decide +kernel

end Tok
