import Verif.Proofs.Located

set_option autoImplicit false

/-!
The pre-tokens of a text follow each other in the text.
-/

namespace Tok
open Spec

/-- The splits hold stretches of the text `w` that follow each other between the positions `a` and `e`. -/
inductive Laid (w : WStr) : Nat → Nat → List Split → Prop
  | nil {a e : Nat} : a ≤ e → Laid w a e []
  | cons {a b e : Nat} {s : Split} {v : WStr} {l : List Split} : a ≤ s.offsets.1 → PartOf w s.offsets.1 b v → HasText s v →
      Laid w b e l → Laid w a e (s :: l)

theorem od_le {w v : WStr} {a b : Nat} (h : PartOf w a b v) : a ≤ b := by
  obtain ⟨l, r, _, rfl, rfl⟩ := h; omega

theorem Laid.le {w : WStr} {a e : Nat} {l : List Split} (h : Laid w a e l) : a ≤ e := by
  induction h with
  | nil h => exact h
  | cons h1 h2 _ _ ih => have := od_le h2; omega

theorem Laid.lower {w : WStr} {a a' e : Nat} {l : List Split} (h : Laid w a e l) (ha : a' ≤ a) : Laid w a' e l := by
  cases h with
  | nil h => exact .nil (by omega)
  | cons h1 h2 h3 h4 => exact .cons (by omega) h2 h3 h4

theorem Laid.append {w : WStr} {a b e : Nat} {l m : List Split} (h : Laid w a b l) (hm : Laid w b e m) : Laid w a e (l ++ m) := by
  induction h with
  | nil h => exact hm.lower h
  | cons h1 h2 h3 _ ih => exact .cons h1 h2 h3 (ih hm)

theorem Placed.laid {w : WStr} (hb : Bmp w) {r : WStr} {pos : Nat} {l : List Split} (h : Placed r pos l) :
    ∀ v, w = v ++ r → pos = v.length → Laid w pos (units w) l := by
  induction h with
  | nil =>
    rintro v rfl rfl
    rw [List.append_nil, units_bmp (bmp_sub hb fun c hc => by simp [hc])]
    exact .nil (Nat.le_refl _)
  | @cons v r pos s l h1 h2 _ ih =>
    rintro x rfl rfl
    have hv : Bmp v := bmp_sub hb fun c hc => by simp [hc]
    have hx : Bmp x := bmp_sub hb fun c hc => by simp [hc]
    refine .cons (v := v) (b := x.length + v.length) (by rw [h2]; exact Nat.le_refl _) ?_ (utf8Text_iff.2 ⟨bmp_scalars hv, h1⟩)
      (ih (x ++ v) (by simp) (by simp))
    rw [h2]
    exact ⟨x, r, by simp, (units_bmp hx).symm, by rw [units_bmp hx, units_bmp hv]⟩

/-! ### Pre-tokenization -/

/-- The words follow each other. -/
def Follow : Nat → List (Nat × WStr) → Nat → Prop
  | a, [], e => a ≤ e
  | a, x :: r, e => a ≤ x.1 ∧ Follow (x.1 + units x.2) r e

theorem Follow.lower {l : List (Nat × WStr)} {a a' e : Nat} (h : Follow a l e) (ha : a' ≤ a) : Follow a' l e := by
  cases l with
  | nil => simp only [Follow] at h ⊢; omega
  | cons x r => simp only [Follow] at h ⊢; exact ⟨by omega, h.2⟩

theorem follow_flush {start : Nat} {cur : WStr} {l : List (Nat × WStr)} {e : Nat} (h : Follow (start + units cur) l e) :
    Follow start (flush start cur ++ l) e := by
  unfold flush
  split
  · rename_i hc; subst hc; simpa [units] using h
  · exact ⟨Nat.le_refl _, h⟩

theorem follow_ws (space : Nat → Bool) : ∀ (w cur : WStr) (start : Nat),
    Follow start (wsWords space start cur w) (start + units cur + units w) := by
  intro w
  induction w with
  | nil =>
    intro cur start
    have := follow_flush (start := start) (cur := cur) (l := []) (e := start + units cur) (Nat.le_refl _)
    simpa [wsWords, units] using this
  | cons c r ih =>
    intro cur start
    have hu : units (c :: r) = units [c] + units r := by simp [units]
    simp only [wsWords]
    split
    · refine follow_flush ?_
      have := ih [] (start + units cur + units [c])
      rw [show start + units cur + units [c] + units [] + units r = start + units cur + units (c :: r) by rw [hu]; simp [units]; omega] at this
      exact this.lower (by omega)
    · have := ih (cur ++ [c]) start
      rw [units_append] at this
      rw [hu, show start + units cur + (units [c] + units r) = start + (units cur + units [c]) + units r by omega]
      exact this

theorem follow_punct (punct : Nat → Bool) : ∀ (w cur : WStr) (start : Nat),
    Follow start (punctWords punct start cur w) (start + units cur + units w) := by
  intro w
  induction w with
  | nil =>
    intro cur start
    have := follow_flush (start := start) (cur := cur) (l := []) (e := start + units cur) (Nat.le_refl _)
    simpa [punctWords, units] using this
  | cons c r ih =>
    intro cur start
    have hu : units (c :: r) = units [c] + units r := by simp [units]
    simp only [punctWords]
    split
    · refine follow_flush ⟨Nat.le_refl _, ?_⟩
      have := ih [] (start + units cur + units [c])
      rw [show start + units cur + units [c] + units [] + units r = start + units cur + units (c :: r) by rw [hu]; simp [units]; omega] at this
      exact this
    · have := ih (cur ++ [c]) start
      rw [units_append] at this
      rw [hu, show start + units cur + (units [c] + units r) = start + (units cur + units [c]) + units r by omega]
      exact this

theorem laid_words {w v : WStr} {a b : Nat} (hv : PartOf w a b v) (hsc : Scalars v) : ∀ {ws : List (Nat × WStr)} {p : Nat},
    (∀ x ∈ ws, PartOf v x.1 (x.1 + units x.2) x.2) → Follow p ws (units v) → Laid w (a + p) b (wordSplits a ws) := by
  have hb : b = a + units v := by obtain ⟨l, r, _, rfl, rfl⟩ := hv; rfl
  intro ws
  induction ws with
  | nil => intro p _ h; simp only [Follow] at h; exact .nil (by omega)
  | cons x ws ih =>
    intro p hx h
    have hp := hx x (by simp)
    refine .cons (v := x.2) (b := a + (x.1 + units x.2)) ?_ ?_ (utf8Text_iff.2 ⟨?_, rfl⟩) (ih (fun y hy => hx y (by simp [hy])) h.2)
    · have := h.1; simp only; omega
    · simp only [Nat.add_comm x.1 a]; exact partOf_trans hv hp
    · obtain ⟨l, r, e, _⟩ := hp
      exact hsc.sub (by intro c hc; rw [e]; simp [hc])

theorem laid_pieces {w v : WStr} {a b : Nat} (hv : PartOf w a b v) (hsc : Scalars v) : ∀ (ps : Parts) (l : WStr),
    v = l ++ partsText ps → Laid w (a + units l) b (pieceSplits a (units l) ps) := by
  have hb : b = a + units v := by obtain ⟨l, r, _, rfl, rfl⟩ := hv; rfl
  intro ps
  induction ps with
  | nil => intro l he; simp only [partsText_nil, List.append_nil] at he; subst he; exact .nil (by omega)
  | cons p ps ih =>
    intro l he
    obtain ⟨x, f⟩ := p
    have he' : v = (l ++ x) ++ partsText ps := by simpa using he
    have hrest := ih (l ++ x) he'
    rw [units_append] at hrest
    simp only [pieceSplits]
    cases f with
    | true => exact hrest.lower (by omega)
    | false =>
      have hp : PartOf v (units l) (units l + units x) x := ⟨l, partsText ps, he', rfl, rfl⟩
      refine .cons (v := x) (b := a + (units l + units x)) ?_ ?_ (utf8Text_iff.2 ⟨?_, rfl⟩) hrest
      · simp only; omega
      · simp only [Nat.add_comm (units l) a]; exact partOf_trans hv hp
      · exact hsc.sub (by intro c hc; rw [he']; simp [hc])

theorem splitLoop_laid {w : WStr} {fn : U16 → Res (List Seg)} {b : Behavior}
    (hstep : ∀ (s : Split) (v : WStr) (e : Nat) (part : List Split), PartOf w s.offsets.1 e v → Scalars v → s.normalized = utf8 v →
      splitNormalized s fn b = .ok part → Laid w s.offsets.1 e part) : ∀ {l out : List Split} {a e : Nat},
    Laid w a e l → splitLoop fn b l = .ok out → Laid w a e out := by
  intro l out a e hl h
  obtain ⟨parts, rfl, hE⟩ := splitLoop_ok_iff.1 h
  clear h
  induction hl generalizing parts with
  | nil h => cases hE; exact .nil h
  | cons h1 h2 h3 _ ih =>
    cases hE with
    | cons hR hE =>
      rw [List.flatten_cons]
      refine Laid.append ?_ (ih _ hE)
      rcases hR with ⟨_, rfl⟩ | ⟨_, hR⟩
      · exact .cons h1 h2 h3 (.nil (Nat.le_refl _))
      · obtain ⟨hsc, hn⟩ := utf8Text_iff.1 h3
        exact (hstep _ _ _ _ h2 hsc hn hR).lower h1

theorem split_laid {w : WStr} {p p' : PTS} {fn : U16 → Res (List Seg)} {b : Behavior} {a e : Nat}
    (hstep : ∀ (s : Split) (v : WStr) (e : Nat) (part : List Split), PartOf w s.offsets.1 e v → Scalars v → s.normalized = utf8 v →
      splitNormalized s fn b = .ok part → Laid w s.offsets.1 e part)
    (hl : Laid w a e p.splits) (h : p.split fn b = .ok p') : Laid w a e p'.splits := by
  unfold PTS.split at h
  obtain ⟨out, h1, h2⟩ := res_bind_ok.1 h
  cases h2
  exact splitLoop_laid hstep hl h1

theorem preTokenizer_laid (P : Platform) {w : WStr} {a e : Nat} (t : PreTokenizer) (ht : OnlyCuts P t) (p p' : PTS)
    (hl : Laid w a e p.splits) (h : t.run P p = .ok p') : Laid w a e p'.splits := by
  refine PreTokenizer.rec
    (motive_1 := fun t => OnlyCuts P t → ∀ p p' : PTS, Laid w a e p.splits → t.run P p = .ok p' → Laid w a e p'.splits)
    (motive_2 := fun l => OnlyCutsList P l → ∀ p p' : PTS, Laid w a e p.splits → PreTokenizer.runList P l p = .ok p' →
      Laid w a e p'.splits) ?_ ?_ ?_ ?_ ?_ ?_ t ht p p' hl h
  · intro _ p p' hl h
    simp only [PreTokenizer.run, bertPreTokenize] at h
    obtain ⟨q, h1, h2⟩ := res_bind_ok.1 h
    have a2 := split_laid (w := w) (by
      intro s v e part hv hsc hn hR
      rw [splitNormalized_space P hsc hn] at hR
      cases hR
      have := laid_words hv hsc (p := 0) (ws := wsWords P.reSpace 0 [] v) (fun x hx => by
        have := (wsWords_mem P.reSpace v 0 [] [] (by simp) rfl x hx).2.2
        simpa using this) (by have := follow_ws P.reSpace v [] 0; simpa [units] using this)
      simpa using this) hl h1
    exact split_laid (w := w) (by
      intro s v e part hv hsc hn hR
      rw [splitNormalized_punct P hsc hn] at hR
      cases hR
      have := laid_words hv hsc (p := 0) (ws := punctWords P.rePunct 0 [] v) (fun x hx => by
        have := (punctWords_mem P.rePunct v 0 [] [] (by simp) rfl x hx).2.2
        simpa using this) (by have := follow_punct P.rePunct v [] 0; simpa [units] using this)
      simpa using this) a2 h2
  · intro pat b inv hg p p' hl h
    simp only [PreTokenizer.run, splitPreTokenize] at h
    refine split_laid (w := w) ?_ hl h
    intro s v e part hv hsc hn hR
    cases hf : P.regex pat with
    | none =>
      unfold splitNormalized findMatches at hR
      rw [hf] at hR
      simp only [res_error_bind] at hR
      cases hR
    | some find =>
      obtain ⟨ho, hb⟩ := goodEngine_text (hg find hf) hsc
      obtain ⟨ps, hp1, hp2⟩ := segments_parts (find (utf16 v)) [] v rfl ho hb
      have hfn : findMatches P pat (utf16 v) = .ok (place 0 ps) := by
        simp only [findMatches, hf]
        rw [← units_eq]; exact congrArg Except.ok hp2
      rw [splitNormalized_parts hsc hn hp1 hfn b] at hR
      cases hR
      clear h hg hl
      cases b with
      | removed => exact laid_pieces hv hsc ps [] (by rw [hp1]; rfl)
      | isolated =>
        refine laid_pieces hv hsc _ [] ?_
        simp only [partsText, List.map_map] at hp1 ⊢; rw [← hp1]; rfl
  · intro a u h; exact absurd h (by simp [OnlyCuts])
  · intro l ih hl' p p' hl h
    exact ih hl' p p' hl h
  · intro _ p p' hl h
    simp only [PreTokenizer.runList] at h
    cases h; exact hl
  · intro t l ih1 ih2 ht p p' hl h
    simp only [PreTokenizer.runList] at h
    obtain ⟨q, h1, h2⟩ := res_bind_ok.1 h
    exact ih2 ht.2 q p' (ih1 ht.1 p q hl h1) h2

/-! ### The tokenizer -/

theorem preTokenized_laid (P : Platform) (t : Tokenizer) (w : WStr) (p : PTS) (hw : Positioned t w)
    (hpt : ∀ pt, t.preTokenizer = some pt → OnlyCuts P pt) (h : (t.preTokenized P w).1 = .ok p) :
    Laid w 0 (units w) p.splits := by
  unfold Tokenizer.preTokenized at h
  have hscal : Scalars w := by
    unfold Positioned at hw
    cases ha : t.added with
    | none => rw [ha] at hw; exact scalars_iff.1 hw
    | some a => rw [ha] at hw; exact bmp_scalars hw.2.1.1
  have hp0 : PTS.ofNS (NS.ofText w) = .ok { normalized := NS.ofText w, splits := [{ normalized := utf8 w, offsets := (0, w.length) }] } := by
    unfold PTS.ofNS
    simp only [show (NS.ofText w).normalized = w from rfl, convertToString_scalars hscal, res_ok_bind, res_pure]
  rw [hp0] at h
  have main : ∀ p0 : PTS, Laid w 0 (units w) p0.splits →
      (match t.preTokenizer with | none => Except.ok p0 | some pt => pt.run P p0) = .ok p →
      Laid w 0 (units w) p.splits := by
    intro p0 h2 h
    cases hq : t.preTokenizer with
    | none => rw [hq] at h; cases h; exact h2
    | some pt =>
      rw [hq] at h
      exact preTokenizer_laid P pt (hpt pt hq) p0 p h2 h
  cases ha : t.added with
  | none =>
    rw [ha] at h
    simp only [res_ok_bind] at h
    refine main { normalized := NS.ofText w, splits := [{ normalized := utf8 w, offsets := (0, w.length) }] } ?_ h
    exact .cons (v := w) (b := units w) (Nat.le_refl _) ⟨[], [], by simp, rfl, by simp [units]⟩ (utf8Text_iff.2 ⟨hscal, rfl⟩)
      (.nil (Nat.le_refl _))
  | some a =>
    rw [ha] at h
    unfold Positioned at hw
    rw [ha] at hw
    obtain ⟨hn, hc, hT⟩ := hw
    rw [hn] at h
    simp only at h
    obtain ⟨p0, h0, h⟩ := res_bind_ok.1 h
    obtain ⟨_, a2⟩ := extract_placed0 P hc hT h0
    exact main p0 (a2.laid hc.1 [] rfl rfl) h

end Tok
