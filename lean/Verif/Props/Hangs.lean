import Verif.Spec.Hangs
import Verif.Props.Throws
import Verif.Props.TruncationAll
import Verif.Props.BPEAll

set_option autoImplicit false

/-!
**C118** When `encode` does not come to an end.
-/

namespace Tok
open Tok.Spec

/-- The call comes to an end. -/
def Halts {α : Type} (r : Res α) : Prop := r ≠ .error .diverges

theorem ha_ok {α : Type} (a : α) : Halts (.ok a : Res α) := by intro h; cases h
theorem ha_pure {α : Type} (a : α) : Halts (pure a : Res α) := by intro h; cases h
theorem ha_ub {α : Type} (k : UB) : Halts (.error (.ub k) : Res α) := by intro h; cases h
theorem ha_throws {α : Type} (e : Exn) : Halts (.error (.throws e) : Res α) := by intro h; cases h
theorem ha_bind {α β : Type} {r : Res α} {f : α → Res β} (h : Halts r) (hf : ∀ a, r = .ok a → Halts (f a)) : Halts (r >>= f) := by
  intro he
  cases r with
  | error x => exact h (by cases he; rfl)
  | ok a => exact hf a rfl he

theorem ha_err {α β : Type} {x : Err} (h : Halts (.error x : Res α)) : Halts (.error x : Res β) := by
  intro he; cases he; exact h rfl

theorem ha_vecAt {α : Type} (l : List α) (i : Nat) : Halts (vecAt l i) := by
  unfold vecAt; split <;> first | exact ha_ok _ | exact ha_ub _
theorem ha_eraseRange {α : Type} (l : List α) (a b : Nat) : Halts (eraseRange l a b) := by
  unfold eraseRange; split <;> first | exact ha_ok _ | exact ha_ub _
theorem ha_insertAt {α : Type} (l : List α) (a : Nat) (x : List α) : Halts (insertAt l a x) := by
  unfold insertAt; split <;> first | exact ha_ok _ | exact ha_ub _
theorem ha_slice {α : Type} (l : List α) (a b : Nat) : Halts (slice l a b) := by
  unfold slice; split <;> first | exact ha_ok _ | exact ha_ub _
theorem ha_sliceI {α : Type} (l : List α) (a b : Int) : Halts (sliceI l a b) := by
  unfold sliceI; split <;> first | exact ha_slice _ _ _ | exact ha_ub _
theorem ha_toString (w : WStr) : Halts (convertToString w) := fun h => nomatch (C02_to_string_throws_iff w).2 _ h
theorem ha_fromString (s : Str) : Halts (convertFromString s) := fun h => nomatch (C02_from_string_throws_iff s).2 _ h

/-- Steps through a function whose calls are known to come to an end. -/
macro "halts" : tactic => `(tactic| repeat' first
  | exact ha_ok _ | exact ha_pure _ | exact ha_ub _ | exact ha_throws _
  | exact ha_vecAt _ _ | exact ha_eraseRange _ _ _ | exact ha_insertAt _ _ _ | exact ha_sliceI _ _ _
  | exact ha_toString _ | exact ha_fromString _
  | solve | assumption
  | (refine ha_bind ?_ ?_) | (intro _ _) | split | simp only)

theorem ha_transform (s : NS) (i : Nat) (op : TOp) (n : Nat) : Halts (s.transform i op n) := by
  unfold NS.transform; cases op <;> halts

theorem ha_transformRange (s : NS) (a b : Nat) (sub : NS) : Halts (s.transformRange a b sub) := by
  unfold NS.transformRange; halts

theorem ha_applyGrow (l : List Nat) : ∀ (m : Nat) (s : NS), Halts (applyGrow l m s) := by
  induction l with
  | nil => intro m s; exact ha_ok _
  | cons i r ih => intro m s; exact ha_bind (ha_transform _ _ _ _) fun _ _ => ih _ _

theorem ha_applyPad (l : List Nat) : ∀ (m : Nat) (s : NS), Halts (applyPad l m s) := by
  induction l with
  | nil => intro m s; exact ha_ok _
  | cons i r ih => intro m s; exact ha_bind (ha_transform _ _ _ _) fun _ _ => ih _ _

theorem ha_applyShrink (l : List Nat) : ∀ (m : Nat) (s : NS), Halts (applyShrink l m s) := by
  induction l with
  | nil => intro m s; exact ha_ok _
  | cons i r ih => intro m s; exact ha_bind (ha_transform _ _ _ _) fun _ _ => ih _ _

theorem ha_applyReplace (n : Nat) (l : List Nat) : ∀ (m k : Nat) (s : NS), Halts (applyReplace l m k n s) := by
  induction l with
  | nil => intro m k s; exact ha_ok _
  | cons i r ih => intro m k s; exact ha_bind (ha_transform _ _ _ _) fun _ _ => ih _ _ _

theorem ha_cleanLoop (P : Platform) (w : WStr) : ∀ (i : Nat) (acc : WStr) (s : NS), Halts (cleanLoop P w i acc s) := by
  induction w with
  | nil => intro i acc s; exact ha_ok _
  | cons c r ih =>
    intro i acc s
    unfold cleanLoop
    split
    · exact ih _ _ _
    · exact ha_bind (ha_transform _ _ _ _) fun _ _ => ih _ _ _

theorem ha_overwriteAll (l : List (Nat × Nat)) (c : Nat) : ∀ (w : WStr), Halts (overwriteAll l c w) := by
  induction l with
  | nil => intro w; exact ha_ok _
  | cons p r ih =>
    intro w
    obtain ⟨p, q⟩ := p
    unfold overwriteAll
    split
    · exact ih _
    · exact ha_ub _

theorem ha_replay (l : List (Nat × Nat)) : ∀ (i : Nat) (w : WStr), Halts (replayChanges l i w) := by
  induction l with
  | nil => intro i w; exact ha_ok _
  | cons p r ih =>
    intro i w
    obtain ⟨p, q⟩ := p
    unfold replayChanges
    split
    · split
      · exact ih _ _
      · exact ha_throws _
    · split
      · exact ih _ _
      · exact ha_ub _

theorem ha_nf (P : Platform) (k : NFKind) (s : NS) : Halts (nfNormalize P k s) :=
  ha_bind (ha_applyGrow _ _ _) fun _ _ => ha_pure _

theorem ha_bert (P : Platform) (a b c d : Bool) (s : NS) : Halts (bertNormalize P a b c d s) := by
  rw [bertNormalize_eq]
  have h1 : ∀ s, Halts (doCleanText P s) := fun s => ha_bind (ha_cleanLoop _ _ _ _ _) fun _ _ => ha_pure _
  have h2 : ∀ s, Halts (doStripAccents P s) := fun s => ha_bind (ha_nf _ _ _) fun _ _ => ha_bind (ha_applyShrink _ _ _) fun _ _ => ha_pure _
  have h3 : ∀ s, Halts (doHandleChineseChars s) := fun s => ha_bind (ha_applyPad _ _ _) fun _ _ => ha_bind (ha_replay _ _ _) fun _ _ => ha_pure _
  have k : ∀ (x : Bool) (f : NS → Res NS), (∀ s, Halts (f s)) → ∀ s, Halts (if x = true then f s else Except.ok s) := by
    intro x f hf s; split
    · exact hf s
    · exact ha_ok _
  exact ha_bind (k _ _ h1 _) fun _ _ => ha_bind (k _ _ h3 _) fun _ _ => ha_bind (k _ _ h2 _) fun _ _ => ha_pure _

mutual
theorem ha_normalizer (P : Platform) : (n : Normalizer) → (s : NS) → Halts (n.run P s)
  | .bert a b c d, s => ha_bert P a b c d s
  | .prepend p, s => ha_bind (ha_fromString _) fun _ _ => ha_bind (ha_transform _ _ _ _) fun _ _ => ha_pure _
  | .replace p c, s => by
    unfold Normalizer.run replaceNormalize
    refine ha_bind (ha_fromString _) fun v hv => ?_
    split
    · exact ha_throws _
    · refine ha_bind (ha_fromString _) fun x hx => ?_
      split
      · exact ha_pure _
      · exact ha_bind (ha_overwriteAll _ _ _) fun _ _ => ha_applyReplace _ _ _ _ _
      · exact ha_ub _
  | .nf k, s => ha_nf P k s
  | .strip _ _, s => ha_ok _
  | .stripAccents, s => ha_ok _
  | .seq l, s => ha_normalizers P l s
theorem ha_normalizers (P : Platform) : (l : List Normalizer) → (s : NS) → Halts (Normalizer.runList P l s)
  | [], _ => ha_ok _
  | n :: r, s => ha_bind (ha_normalizer P n s) fun s' _ => ha_normalizers P r s'
end

theorem ha_substrFrom (s : Str) (p : Nat) : Halts (substrFrom s p) := by
  unfold substrFrom; halts

theorem ha_wordOk (t : AddedToken) (s : Str) (a b : Nat) : Halts (wordOk t s a b) := by
  unfold wordOk
  have := ha_substrFrom s b
  halts

theorem ha_matchSegs (mapR : List (Int × AddedToken)) (s : Str) (total : Nat) (l : List (Nat × Nat × Int)) : ∀ n,
    Halts (matchSegs mapR s total l n) := by
  induction l with
  | nil => intro n; exact ha_ok _
  | cons m r ih =>
    intro n
    obtain ⟨a, b, id⟩ := m
    unfold matchSegs
    have h1 := ha_substrFrom s b
    refine ha_bind (ha_wordOk _ _ _ _) fun x _ => ?_
    simp only
    split
    · split
      · exact ha_bind h1 fun _ _ => ha_bind (ha_pure _) fun _ _ => ha_bind (ih _) fun _ _ => ha_pure _
      · exact ha_bind (ha_pure _) fun _ _ => ha_bind (ih _) fun _ _ => ha_pure _
    · exact ih _

theorem ha_segSplits (w : WStr) (base : Nat) (l : List TSeg) : Halts (segSplits w base l) := by
  induction l with
  | nil => exact ha_ok _
  | cons m r ih =>
    obtain ⟨id, a, b⟩ := m
    unfold segSplits
    refine ha_bind ?_ fun _ _ => ha_bind (ha_toString _) fun _ _ => ha_bind ih fun _ _ => ha_pure _
    unfold wsubstr; halts

theorem ha_first (a : AddedVocab) (w : WStr) : Halts (a.firstSplits w).1 := by
  have h0 : Halts (PTS.ofNS (NS.ofText w)) := ha_bind (ha_toString _) fun _ _ => ha_pure _
  have h1 := ha_toString w
  unfold AddedVocab.firstSplits
  generalize PTS.ofNS (NS.ofText w) = r0 at h0
  cases r0 with
  | error x => exact ha_err h0
  | ok p =>
    simp only
    generalize convertToString w = r1 at h1
    cases r1 with
    | error x => exact ha_err h1
    | ok t => exact ha_bind (ha_matchSegs _ _ _ _ _) fun _ _ => ha_bind (ha_segSplits _ _ _) fun _ _ => ha_pure _

theorem ha_split (P : Platform) (norm : Option Normalizer) (a : AddedVocab) (ns : NS) (e : Nat) (s : Split) :
    Halts (normalizeSplit P norm a ns e s).1 := by
  have hn : ∀ x, Halts (normalizeOpt P norm x) := by
    intro x; unfold normalizeOpt; split
    · exact ha_normalizer P _ _
    · exact ha_ok _
  unfold normalizeSplit
  simp only
  split
  · rename_i x hx
    have : Halts (do
      let sub ← normalizeOpt P norm (NS.ofText (← convertFromString s.normalized))
      if e + s.offsets.2 < s.offsets.1 then (.error (.ub .outOfBounds) : Res (NS × NS × Str))
      else do
        let ns ← ns.transformRange e (e + s.offsets.2 - s.offsets.1) sub
        let text ← convertToString sub.normalized
        return (ns, sub, text)) := by
      refine ha_bind (ha_fromString _) fun _ _ => ha_bind (hn _) fun _ _ => ?_
      split
      · exact ha_ub _
      · exact ha_bind (ha_transformRange _ _ _ _) fun _ _ => ha_bind (ha_toString _) fun _ _ => ha_pure _
    rw [hx] at this
    exact ha_err this
  · exact ha_bind (ha_matchSegs _ _ _ _ _) fun _ _ => ha_bind (ha_segSplits _ _ _) fun _ _ => ha_pure _

theorem ha_loop (P : Platform) (norm : Option Normalizer) (l : List Split) : ∀ (a : AddedVocab) (ns : NS) (e : Nat),
    Halts (normalizeLoop P norm a ns e l).1 := by
  induction l with
  | nil => intro a ns e; exact ha_ok _
  | cons s r ih =>
    intro a ns e
    simp only [normalizeLoop]
    split
    · have := ih a ns (e + s.normalized.length)
      generalize normalizeLoop P norm a ns (e + s.normalized.length) r = R at this
      obtain ⟨x, b⟩ := R
      cases x with
      | error e => exact ha_err this
      | ok x => exact ha_ok _
    · have h1 := ha_split P norm a ns e s
      generalize normalizeSplit P norm a ns e s = R at h1
      obtain ⟨x, b⟩ := R
      cases x with
      | error e => exact ha_err h1
      | ok x =>
        obtain ⟨ns', here, n⟩ := x
        have := ih b ns' (e + n)
        simp only
        generalize normalizeLoop P norm b ns' (e + n) r = R at this
        obtain ⟨x, c⟩ := R
        cases x with
        | error e => exact ha_err this
        | ok x => exact ha_ok _

theorem ha_extract (P : Platform) (norm : Option Normalizer) (a : AddedVocab) (w : WStr) : Halts (a.extract P norm w).1 := by
  unfold AddedVocab.extract
  have h1 := ha_first a w
  generalize a.firstSplits w = R at h1
  obtain ⟨x, b⟩ := R
  cases x with
  | error e => exact ha_err h1
  | ok p =>
    have := ha_loop P norm p.splits b p.normalized 0
    simp only
    generalize normalizeLoop P norm b p.normalized 0 p.splits = R at this
    obtain ⟨x, c⟩ := R
    cases x with
    | error e => exact ha_err this
    | ok x => exact ha_ok _

theorem ha_pts_split {p : PTS} {fn : U16 → Res (List Seg)} (b : Behavior) (hf : ∀ u, Halts (fn u)) : Halts (p.split fn b) := by
  have : ∀ l, Halts (splitLoop fn b l) := by
    intro l
    induction l with
    | nil => exact ha_ok _
    | cons s r ih =>
      have hs : Halts (splitNormalized s fn b) := ha_bind (hf _) fun _ _ => ha_pure _
      unfold splitLoop
      halts
  exact ha_bind (this _) fun _ _ => ha_pure _

theorem ha_find (P : Platform) (pat : Str) (u : U16) : Halts (findMatches P pat u) := by
  unfold findMatches; halts

theorem ha_mapAt {α β : Type} [DecidableEq α] (m : List (α × β)) (k : α) : Halts (mapAt m k) := by
  unfold mapAt; split
  · exact ha_throws _
  · exact ha_ok _

theorem ha_mapSplits (P : Platform) (l : List Split) : Halts (mapSplits P l) := by
  have h2 : ∀ s, Halts (mapBytes P s) := by
    intro s
    induction s with
    | nil => exact ha_ok _
    | cons b r ih => exact ha_bind (ha_mapAt _ _) fun _ _ => ha_bind ih fun _ _ => ha_pure _
  induction l with
  | nil => exact ha_ok _
  | cons s r ih => exact ha_bind (h2 _) fun _ _ => ha_bind ih fun _ _ => ha_pure _

mutual
theorem ha_pre (P : Platform) : (n : PreTokenizer) → (p : PTS) → Halts (n.run P p)
  | .bert, p => ha_bind (ha_pts_split _ fun _ => ha_ok _) fun _ _ => ha_pts_split _ fun _ => ha_ok _
  | .split pat b _, p => ha_pts_split _ (ha_find P pat)
  | .byteLevel a u, p => by
    unfold PreTokenizer.run
    rw [pl_byteLevel_eq]
    have hf : ∀ x, Halts (if u = true then findMatches P byteLevelPattern x else Except.ok [((0, x.length), false)]) := by
      intro x; split
      · exact ha_find _ _ _
      · exact ha_ok _
    refine ha_bind ?_ fun p1 e1 => ha_bind (ha_pts_split _ hf) fun p2 e2 => ha_bind (ha_mapSplits _ _) fun _ _ => ha_pure _
    unfold plPrefix
    split
    · split
      · exact ha_throws _
      · split
        · exact ha_ok _
        · exact ha_bind (ha_transform _ _ _ _) fun _ _ => ha_bind (ha_toString _) fun _ _ => ha_pure _
    · exact ha_ok _
  | .seq l, p => ha_pres P l p
theorem ha_pres (P : Platform) : (l : List PreTokenizer) → (p : PTS) → Halts (PreTokenizer.runList P l p)
  | [], _ => ha_ok _
  | n :: r, p => ha_bind (ha_pre P n p) fun p1 _ => ha_pres P r p1
end

theorem ha_preTokenized (P : Platform) (t : Tokenizer) (w : WStr) : Halts (t.preTokenized P w).1 := by
  have h0 : Halts (PTS.ofNS (NS.ofText w)) := ha_bind (ha_toString _) fun _ _ => ha_pure _
  unfold Tokenizer.preTokenized
  generalize PTS.ofNS (NS.ofText w) = r0 at h0
  cases r0 with
  | error x => exact ha_err h0
  | ok p =>
    simp only
    have hp : ∀ (r : Res PTS) (t : Tokenizer), Halts r → Halts (do let p ← r; match t.preTokenizer with | none => .ok p | some pt => pt.run P p) := by
      intro r t hr
      refine ha_bind hr fun p _ => ?_
      split
      · exact ha_ok _
      · exact ha_pre P _ _
    split
    · exact hp _ _ (ha_ok _)
    · exact hp _ _ (ha_extract _ _ _ _)

theorem ha_into (p : PTS) (wi : Option Int) (ty : Int) : Halts (intoEncoding p wi ty) := by
  have : ∀ (l : List Split) i, Halts (intoLoop p.normalized wi ty i l) := by
    intro l
    induction l with
    | nil => intro i; exact ha_ok _
    | cons s r ih =>
      intro i
      unfold intoLoop
      exact ha_bind (ha_vecAt _ _) fun _ _ => ha_bind (ha_vecAt _ _) fun _ _ => ha_bind (ih _) fun _ _ => ha_pure _
  exact ha_bind (this _ _) fun _ _ => ha_pure _

mutual
theorem ha_post (b : Bool) : (p : PostProcessor) → (e : Encoding) → Halts (p.run b e)
  | .template _ _ _, e => ha_ok _
  | .byteLevel a t, e => by
    have h1 : ∀ (ts : List Str) (n : Nat) (i : Nat) (o : List (Int × Int)), Halts (trimLoop a ts n i o) := by
      intro ts n
      induction n with
      | zero => intro i o; exact ha_ok _
      | succ n ih => intro i o; exact ha_bind (ha_vecAt _ _) fun _ _ => ha_bind (ha_vecAt _ _) fun _ _ => ih _ _
    have h2 : ∀ e, Halts (processOffsets a e) := fun e => ha_bind (h1 _ _ _ _) fun _ _ => ha_pure _
    have h3 : ∀ l, Halts (processAll a l) := by
      intro l
      induction l with
      | nil => exact ha_ok _
      | cons e r ih => exact ha_bind (h2 _) fun _ _ => ha_bind ih fun _ _ => ha_pure _
    unfold PostProcessor.run byteLevelProcess
    split
    · exact ha_bind (h2 _) fun _ _ => ha_bind (h3 _) fun _ _ => ha_pure _
    · exact ha_pure _
  | .seq l, e => ha_posts b l e
theorem ha_posts (b : Bool) : (l : List PostProcessor) → (e : Encoding) → Halts (PostProcessor.runList b l e)
  | [], _ => ha_ok _
  | p :: r, e => ha_bind (ha_post b p e) fun _ _ => ha_posts b r _
end

theorem ha_padding (p : Padding) (e : Encoding) : Halts (p.run e) := by
  have h1 : ∀ n e, Halts (padEnc p n e) := by
    intro n e
    unfold padEnc
    halts
  have h2 : ∀ n l, Halts (padAll p n l) := by
    intro n l
    induction l with
    | nil => exact ha_ok _
    | cons e r ih => exact ha_bind (h1 _ _) fun _ _ => ha_bind ih fun _ _ => ha_pure _
  exact ha_bind (h2 _ _) fun _ _ => ha_bind (h1 _ _) fun _ _ => ha_pure _

/-! ### encode -/

/-- Every pre-token is short enough that its symbols can be numbered with an `int` (byte-pair models). -/
def ShortWords (P : Platform) (t : Tokenizer) (w : WStr) : Prop :=
  ∀ p m, (t.preTokenized P w).1 = .ok p → t.model = some (.bpe m) → ∀ s ∈ p.splits, Fits m s.normalized

theorem ha_model (P : Platform) {lines : List Str} {m x : Model} (hm : ModelIs P lines m x) (p : PTS)
    (hf : ∀ y, x = .bpe y → ∀ s ∈ p.splits, Fits y s.normalized) : Halts (x.tokenize P p).1 := by
  cases m with
  | wordPiece m => cases hm; exact ha_ok _
  | bpe m =>
    obtain ⟨h1, _, before, rfl⟩ := hm
    have hf' : ∀ s ∈ p.splits, Fits m s.normalized := by
      intro s hs
      have := hf _ rfl s hs
      have e := (used_cache P h1 before).2
      unfold Fits at this ⊢
      have e1 : (usedBPE P m before).pre = m.pre := (rfl : _ = (usedBPE P m before).fresh.pre).trans (congrArg BPE.pre e)
      have e2 : (usedBPE P m before).suf = m.suf := (rfl : _ = (usedBPE P m before).fresh.suf).trans (congrArg BPE.suf e)
      rw [e1, e2] at this
      exact this
    obtain ⟨h2, h3⟩ := C93_answers P h1 before p hf'
    simp only [Model.tokenize]
    by_cases ha : ∀ s ∈ p.splits, Answerable m s.normalized
    · obtain ⟨q, _, h4, _⟩ := h2 ha
      rw [h4]; exact ha_ok _
    · rw [h3 (Classical.byContradiction fun hn => ha fun s hs => Classical.byContradiction fun h => hn ⟨s, hs, h⟩)]
      exact ha_ub _

/-- The first half of `encode`: everything before truncation. -/
def textPart (P : Platform) (t : Tokenizer) (w : WStr) : Res Encoding := do
  let p ← (t.preTokenized P w).1
  (t.doTokenize P p).1

theorem ha_doTokenize (P : Platform) {t t' : Tokenizer} (h : t.model = t'.model) (p : PTS) :
    (t.doTokenize P p).1 = (t'.doTokenize P p).1 := by
  unfold Tokenizer.doTokenize
  rw [h]
  split <;> rfl

theorem ha_encode (P : Platform) (t : Tokenizer) (w : WStr) (b : Bool) :
    (t.encode P w b).1 = (do let e ← textPart P t w; t.doPostProcess e b) := by
  have hmod : (t.preTokenized P w).2.model = t.model ∧ (t.preTokenized P w).2.padding = t.padding ∧
      (t.preTokenized P w).2.truncation = t.truncation ∧ (t.preTokenized P w).2.postProcessor = t.postProcessor := by
    rcases preTokenized_state P t w with e | ⟨a, _, e⟩ <;> rw [e] <;> exact ⟨rfl, rfl, rfl, rfl⟩
  unfold Tokenizer.encode textPart
  generalize t.preTokenized P w = R at hmod
  obtain ⟨r, t'⟩ := R
  cases r with
  | error x => rfl
  | ok p =>
    simp only at hmod ⊢
    rw [res_ok_bind, ha_doTokenize P hmod.1.symm]
    have h3 := doTokenize_state P t' p
    generalize t'.doTokenize P p = R at h3
    obtain ⟨r, t''⟩ := R
    cases r with
    | error x => rfl
    | ok e =>
      simp only at h3 ⊢
      rw [res_ok_bind, h3]
      unfold Tokenizer.doPostProcess
      simp only
      rw [hmod.2.1, hmod.2.2.1, hmod.2.2.2]

theorem ha_bare (P : Platform) (t : Tokenizer) (w : WStr) (b : Bool) : ((bareOf t).encode P w b).1 = textPart P t w := by
  have hp : ((bareOf t).preTokenized P w).1 = (t.preTokenized P w).1 := by
    unfold Tokenizer.preTokenized bareOf
    simp only
    split
    · rfl
    · simp only
      cases t.added with
      | none => rfl
      | some a => rfl
  rw [ha_encode]
  have : textPart P (bareOf t) w = textPart P t w := by
    unfold textPart
    rw [hp]
    refine congrArg _ (funext fun p => ?_)
    exact ha_doTokenize P (t := bareOf t) (t' := t) rfl p
  rw [this]
  cases textPart P t w with
  | error x => rfl
  | ok e => rfl

theorem ha_text (P : Platform) {t : Tokenizer} (hm : UsedModel P t) {w : WStr} (hs : ShortWords P t w) : Halts (textPart P t w) := by
  unfold textPart
  refine ha_bind (ha_preTokenized P t w) fun p hp => ?_
  unfold Tokenizer.doTokenize
  split
  · exact ha_into _ _ _
  · rename_i x hx
    obtain ⟨lines, m, hm'⟩ := hm x hx
    refine ha_bind (ha_model P hm' p fun y hy => hs p y hp (by rw [hx, hy])) fun _ _ => ha_into _ _ _

theorem ha_aligned {P : Platform} {t : Tokenizer} {w : WStr} {e : Encoding} (h : textPart P t w = .ok e) : Aligned e.toEnc e.ids.length := by
  have into : ∀ {p : PTS} {e : Encoding}, intoEncoding p none 0 = .ok e → Aligned e.toEnc e.ids.length := by
    intro p e h
    unfold intoEncoding at h
    obtain ⟨x, h1, h⟩ := res_bind_ok.1 h
    cases h
    obtain ⟨rows, _, hr⟩ := intoLoop_rows _ _ _ _ h1
    have := hasRows_aligned hr
    simp only
    have e : x.ids.length = rows.length := this.1
    rw [e]; exact this
  unfold textPart at h
  obtain ⟨p, _, h⟩ := res_bind_ok.1 h
  unfold Tokenizer.doTokenize at h
  split at h
  · exact into h
  · obtain ⟨q, _, h⟩ := res_bind_ok.1 h
    exact into h

/-- The part of `encode` behind truncation. -/
theorem ha_finish (t : Tokenizer) (e : Encoding) (b : Bool) : ∃ (k : Encoding → Res Encoding), (∀ x, Halts (k x)) ∧
    t.doPostProcess e b = (do let x ← (match t.truncation with | some tr => tr.run e | none => .ok e); k x) := by
  refine ⟨fun x => ({ t with truncation := none } : Tokenizer).doPostProcess x b, fun x => ?_, ?_⟩
  · unfold Tokenizer.doPostProcess
    have fin : ∀ e2, Halts (match t.padding with | some x => x.run e2 | none => .ok e2) := by
      intro e2
      cases t.padding with
      | none => exact ha_ok _
      | some p => exact ha_padding p e2
    simp only
    cases t.postProcessor with
    | none => exact ha_bind (ha_ok _) fun _ _ => ha_bind (ha_ok _) fun _ _ => fin _
    | some x => exact ha_bind (ha_ok _) fun _ _ => ha_bind (ha_post b x _) fun _ _ => fin _
  · unfold Tokenizer.doPostProcess
    simp only
    cases t.truncation with
    | none => rfl
    | some tr => simp only [res_ok_bind]

/-- **C118** `encode` does not come to an end exactly if a truncation is configured whose windows do not advance - direction Right with a
stride of `max_length`, direction Left with a stride of at least `max_length - 1` - and there is something to cut: without truncation,
post-processing and padding the text has an encoding that is longer than `max_length`. -/
theorem C118_hangs_iff (P : Platform) {t : Tokenizer} (hm : UsedModel P t) {w : WStr} (b : Bool) (hs : ShortWords P t w)
    (hi : ∀ tr, t.truncation = some tr → IsInt tr.maxLength ∧ IsInt tr.stride)
    (hn : ∀ e, ((bareOf t).encode P w b).1 = .ok e → IsInt e.ids.length) :
    (t.encode P w b).1 = .error .diverges ↔
      ∃ tr e, t.truncation = some tr ∧ ((bareOf t).encode P w b).1 = .ok e ∧ Stalls tr e.ids.length := by
  simp only [ha_bare] at hn ⊢
  rw [ha_encode]
  have ht := ha_text P hm hs
  cases hx : textPart P t w with
  | error x =>
    rw [hx] at ht
    constructor
    · intro h; cases h; exact absurd rfl ht
    · rintro ⟨_, _, _, h, _⟩; cases h
  | ok e =>
    rw [res_ok_bind]
    obtain ⟨k, hk, hf⟩ := ha_finish t e b
    rw [hf]
    have hal := ha_aligned hx
    cases htr : t.truncation with
    | none =>
      simp only [res_ok_bind]
      exact ⟨fun h => absurd h (hk e), fun ⟨_, _, h, _⟩ => by cases h⟩
    | some tr =>
      simp only
      have hrun : tr.run e = .error .diverges ↔ Stalls tr e.ids.length := by
        obtain ⟨c1, c2⟩ := C92_truncation tr e e.ids.length hal (hn e hx) (hi tr htr)
        constructor
        · intro h
          by_cases hl : LeftAsIs tr e.ids.length
          · rw [c1 hl] at h; cases h
          · obtain ⟨d1, d2, d3⟩ := c2 hl
            refine ⟨hl, ?_⟩
            cases hd : tr.direction with
            | unknown => rw [d1 hd] at h; cases h
            | right =>
              refine .inl ⟨rfl, ?_⟩
              obtain ⟨r1, _, r3⟩ := d2 hd
              by_cases a1 : tr.stride < tr.maxLength
              · obtain ⟨r, _, r4, _⟩ := r1 a1; rw [r4] at h; cases h
              · by_cases a2 : tr.maxLength < tr.stride
                · obtain ⟨r, r4, _⟩ := r3 a2; rw [r4] at h; cases h
                · omega
            | left =>
              refine .inr ⟨rfl, ?_⟩
              obtain ⟨r1, _⟩ := d3 hd
              by_cases a1 : tr.stride < tr.maxLength - 1
              · obtain ⟨r, _, r4, _⟩ := r1 a1; rw [r4] at h; cases h
              · omega
        · rintro ⟨hl, ⟨hd, h1⟩ | ⟨hd, h1⟩⟩
          · exact ((c2 hl).2.1 hd).2.1 h1
          · exact ((c2 hl).2.2 hd).2 h1
      constructor
      · intro h
        refine ⟨tr, e, rfl, rfl, hrun.1 ?_⟩
        cases hr : tr.run e with
        | error x => rw [hr] at h; cases h; rfl
        | ok y => rw [hr, res_ok_bind] at h; exact absurd h (hk y)
      · rintro ⟨tr', e', h1, h2, h3⟩
        cases h1; cases h2
        rw [hrun.2 h3]; rfl

/-- **C118** With a truncation whose windows advance, or none, `encode` comes to an end on every text. -/
theorem C118_ends (P : Platform) {t : Tokenizer} (hm : UsedModel P t) {w : WStr} (b : Bool) (hs : ShortWords P t w)
    (hn : ∀ e, ((bareOf t).encode P w b).1 = .ok e → IsInt e.ids.length)
    (hi : ∀ tr, t.truncation = some tr → IsInt tr.maxLength ∧ IsInt tr.stride ∧
      (tr.direction = .right → tr.stride ≠ tr.maxLength) ∧ (tr.direction = .left → tr.stride < tr.maxLength - 1)) :
    (t.encode P w b).1 ≠ .error .diverges := by
  intro h
  obtain ⟨tr, e, h1, _, h2, h3⟩ := (C118_hangs_iff P hm b hs (fun tr h => ⟨(hi tr h).1, (hi tr h).2.1⟩) hn).1 h
  obtain ⟨_, _, h4, h5⟩ := hi tr h1
  rcases h3 with ⟨h6, h7⟩ | ⟨h6, h7⟩
  · exact h4 h6 h7
  · have := h5 h6; omega

/-- **C118** `decode` and the calls that add tokens always come to an end. -/
theorem C118_others (t : Tokenizer) (ids : List Int) (skip : Bool) (l : List AddedToken) :
    t.decode ids skip ≠ .error .diverges ∧ t.addTokens l ≠ .error .diverges ∧ t.addSpecialTokens l ≠ .error .diverges := by
  have h1 : Halts (t.decode ids skip) := by
    have one : ∀ i, Halts (t.idToken i) := by intro i; unfold Tokenizer.idToken; halts
    have all : ∀ l : List Int, Halts (t.idTokens skip l) := by
      intro l
      induction l with
      | nil => exact ha_ok _
      | cons i r ih => exact ha_bind (one i) fun _ _ => ha_bind ih fun _ _ => ha_pure _
    unfold Tokenizer.decode
    refine ha_bind (all ids) fun ts _ => ?_
    split
    · exact ha_ub _
    · rename_i d _
      obtain ⟨out, ho⟩ := C49_decoder_total d ts
      rw [ho]
      exact ha_bind (ha_ok _) fun _ _ => ha_pure _
  have core : ∀ (a : AddedVocab) v l, Halts (a.addTokensCore v false l) := by
    intro a v l
    have new : ∀ a c, Halts (newId a v c) := by intro a c; unfold newId; halts
    have assign : ∀ (l : List AddedToken) a, Halts (assignIds v false l a) := by
      intro l
      induction l with
      | nil => intro a; exact ha_ok _
      | cons x r ih =>
        intro a
        unfold assignIds
        by_cases h1 : x.content = []
        · rw [if_pos h1]; exact ih _
        · rw [if_neg h1]
          refine ha_bind (new _ _) fun i _ => ?_
          simp only
          split
          · exact ih _
          · exact ih _
    unfold AddedVocab.addTokensCore
    refine ha_bind (assign _ _) fun a1 _ => ha_bind ?_ fun _ _ => ha_pure _
    unfold AddedVocab.refresh
    halts
  have h2 : ∀ l, Halts (t.addTokens l) := by
    intro l
    unfold Tokenizer.addTokens
    split
    · exact ha_ub _
    · exact ha_bind (core _ _ _) fun _ _ => ha_pure _
  exact ⟨h1, h2 l, h2 l⟩

/-- A word-piece tokenizer that only truncates. -/
def stallTk (d : TDir) (n s : Int) : Tokenizer := bertLike (some ⟨d, .longestFirst, n, s⟩) none none

/-- Hanging and not hanging: a text of three tokens, cut to two with a stride of two; the same settings on a text that fits; direction Left
with strides of one and none. -/
example : ((stallTk .right 2 2).encode ascii w!"playing go" true).1.map (·.ids) = .error .diverges ∧
    ((stallTk .right 3 3).encode ascii w!"playing go" true).1.map (·.ids) = .ok [1, 2, 3] ∧
    ((stallTk .left 2 1).encode ascii w!"playing go" true).1.map (·.ids) = .error .diverges ∧
    ((stallTk .left 2 0).encode ascii w!"playing go" true).1.map (·.ids) = .ok [2, 3] := by
  refine ⟨?_, ?_, ?_, ?_⟩ <;> decide +kernel

/-- The hypotheses of C118 hold for a word-piece tokenizer whose truncation stalls, and for a byte-pair tokenizer with all components. -/
example : UsedModel ascii (stallTk .right 2 2) ∧ ShortWords ascii (stallTk .right 2 2) w!"playing go" ∧
    (∀ e, ((bareOf (stallTk .right 2 2)).encode ascii w!"playing go" true).1 = .ok e → IsInt e.ids.length ∧ Stalls ⟨.right, .longestFirst, 2, 2⟩ e.ids.length) := by
  refine ⟨?_, ?_, ?_⟩
  · intro x hx
    cases hx
    exact ⟨[], .wordPiece _, rfl⟩
  · intro p m _ h; cases h
  · intro e h
    have : ((bareOf (stallTk .right 2 2)).encode ascii w!"playing go" true).1.map (·.ids) = .ok [1, 2, 3] := by decide +kernel
    rw [h] at this
    have e3 : e.ids = [1, 2, 3] := Except.ok.inj this
    rw [e3]
    unfold IsInt Stalls LeftAsIs
    decide

example : UsedModel spacePlatform pipeTk ∧ ShortWords spacePlatform pipeTk w!"ab abc" ∧
    (∀ e, ((bareOf pipeTk).encode spacePlatform w!"ab abc" true).1 = .ok e → IsInt e.ids.length) ∧
    (pipeTk.encode spacePlatform w!"ab abc" true).1.map (·.ids) = .ok [101, 2, 3, 0, 4, 102, 9, 9] := by
  refine ⟨?_, ?_, ?_, by decide +kernel⟩
  · intro x hx
    cases hx
    exact ⟨_, .bpe spaceBPE, spaceBPE_made, by decide +kernel, [], rfl⟩
  · intro p m hp hm s hs
    have : (pipeTk.preTokenized spacePlatform w!"ab abc").1.map (·.splits.map (·.normalized.length)) = .ok [3, 3] := by decide +kernel
    rw [hp] at this
    have hl : p.splits.map (·.normalized.length) = [3, 3] := Except.ok.inj this
    have h3 : s.normalized.length = 3 := by
      have : s.normalized.length ∈ p.splits.map (·.normalized.length) := List.mem_map.2 ⟨s, hs, rfl⟩
      rw [hl] at this
      simpa using this
    cases hm
    unfold Fits
    rw [h3]
    decide
  · intro e h
    have : ((bareOf pipeTk).encode spacePlatform w!"ab abc" true).1.map (·.ids) = .ok [2, 3, 0, 4] := by decide +kernel
    rw [h] at this
    have e3 : e.ids = [2, 3, 0, 4] := Except.ok.inj this
    rw [e3]
    unfold IsInt
    decide

end Tok
