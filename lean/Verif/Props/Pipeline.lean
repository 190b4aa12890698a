import Verif.Props.Reference
import Verif.Props.Normalized
import Verif.Props.ByteLevelAll
import Verif.Props.BPEAll
import Verif.Props.TruncationAll
import Verif.Spec.Pipeline

set_option autoImplicit false

/-!
C105: the ids of a text, for every configuration.
-/

namespace Tok
open Spec

/-! ### Pre-tokenization -/

/-- Like `segments_parts`, with the specification of the cuts. -/
theorem pl_segments {w : WStr} : ∀ (ms : List (Nat × Nat)) (l r : WStr), w = l ++ r →
    Ordered (units w) (units l) ms → (∀ m ∈ ms, Boundary w m.1 ∧ Boundary w m.2) →
    ∃ ps : Parts, partsText ps = r ∧ segments (units w) (units l) ms = place (units l) ps ∧
      CutsAt true (units l) ms r (ps.map (·.1)) ∧ CutsAt false (units l) ms r ((ps.filter fun p => !p.2).map (·.1)) := by
  intro ms
  induction ms with
  | nil =>
    intro l r hw _ _
    have hu : units w = units l + units r := by rw [hw, units_append]
    simp only [segments]
    split
    · have hr : r ≠ [] := by rintro rfl; simp [units] at hu; omega
      exact ⟨[(r, false)], by simp, by simp [place, hu], .rest hr, .rest hr⟩
    · have : units r = 0 := by omega
      rw [units_eq_zero] at this
      subst this
      exact ⟨[], by simp, rfl, .done, .done⟩
  | cons m ms ih =>
    intro l r hw hord hb
    obtain ⟨a, b⟩ := m
    obtain ⟨h1, h2, h3⟩ := hord
    obtain ⟨⟨l1, r1, e1, ea⟩, ⟨l2, r2, e2, eb⟩⟩ := hb (a, b) (by simp)
    simp only at ea eb
    subst ea eb
    obtain ⟨g, hg1, hg2⟩ := prefix_units (hw.symm.trans e1) h1
    obtain ⟨k, hk1, hk2⟩ := prefix_units (e1.symm.trans e2) h2
    obtain ⟨ps, hp1, hp2, hp3, hp4⟩ := ih l2 r2 e2 h3 (fun m hm => hb m (by simp [hm]))
    have hu1 : units l1 = units l + units g := by rw [hg1, units_append]
    have hu2 : units l2 = units l1 + units k := by rw [hk1, units_append]
    have c1 := CutsAt.here (keep := true) (m := k) hu2 hp3
    have c2 := CutsAt.here (keep := false) (m := k) hu2 hp4
    rw [← hk2] at c1 c2
    simp only [segments]
    split
    · rename_i hne
      have hg0 : g ≠ [] := by rintro rfl; simp [units] at hu1; omega
      have d1 := CutsAt.gap hg0 hu1 c1
      have d2 := CutsAt.gap hg0 hu1 c2
      rw [← hg2] at d1 d2
      refine ⟨(g, false) :: (k, true) :: ps, ?_, ?_, d1, d2⟩
      · simp [hp1, hg2, hk2]
      · rw [hu2, hu1] at hp2; simp only [place, hu1, hu2, hp2]; rfl
    · rename_i hne
      have hg0 : units g = 0 := by omega
      rw [units_eq_zero] at hg0
      subst hg0
      have hl : units l = units l1 := by simp [hu1, units]
      simp only [List.nil_append] at hg2
      subst hg2
      rw [hl]
      refine ⟨(k, true) :: ps, ?_, ?_, c1, c2⟩
      · simp [hp1, hk2]
      · rw [hu2] at hp2; simp [place, hu2, hp2]

theorem pl_pieces (base : Nat) : ∀ (ps : Parts) (pos : Nat), Scalars (partsText ps) →
    Each RfItem (((ps.filter fun p => !p.2).map (·.1)).map fun v => (v, false)) (pieceSplits base pos ps)
  | [], _, _ => .nil
  | (v, b) :: ps, pos, h => by
    have hv : Scalars v := h.sub (by intro c hc; simp [hc])
    have hr : Scalars (partsText ps) := h.sub (by intro c hc; simp [hc])
    have ih := pl_pieces base ps (pos + units v) hr
    cases b with
    | true => simpa [pieceSplits] using ih
    | false =>
      have : RfItem (v, false) { normalized := utf8 v, offsets := (pos + base, pos + units v + base) } :=
        ⟨utf8Text_iff.2 ⟨hv, rfl⟩, by simp⟩
      simpa [pieceSplits] using Each.cons this ih

/-- The texts of the pieces that are left. -/
def plTexts (b : Behavior) (ps : Parts) : List WStr :=
  match b with
  | .isolated => ps.map (·.1)
  | .removed => (ps.filter fun p => !p.2).map (·.1)

/-- The splits of one piece. -/
theorem pl_splitNormalized {s : Split} {v : WStr} {part : List Split} {fn : U16 → Res (List Seg)} {b : Behavior}
    (hv : HasText s v) (ps : Parts) (hps : partsText ps = v) (hfn : fn (utf16 v) = .ok (place 0 ps))
    (h : splitNormalized s fn b = .ok part) :
    Each RfItem ((plTexts b ps).map fun v => (v, false)) part := by
  obtain ⟨hsc, hn⟩ := utf8Text_iff.1 hv
  rw [splitNormalized_parts hsc hn hps hfn b] at h
  cases h
  cases b with
  | removed => exact pl_pieces _ _ _ (by rw [hps]; exact hsc)
  | isolated =>
    have hf : ∀ qs : Parts, ((qs.map fun p => (p.1, false)).filter fun p => !p.2).map (·.1) = qs.map (·.1) := by
      intro qs; induction qs with
      | nil => rfl
      | cons q qs ih => simp_all
    have := pl_pieces s.offsets.1 (ps.map fun p => (p.1, false)) 0 (by
      have : partsText (ps.map fun p => (p.1, false)) = v := by rw [← hps]; unfold partsText; rw [List.map_map]; rfl
      rw [this]; exact hsc)
    rw [hf] at this
    exact this

/-- Splitting all pieces. -/
theorem pl_split {fn : U16 → Res (List Seg)} {b : Behavior} {R : WStr → List WStr → Prop}
    (hR : ∀ s v part, HasText s v → splitNormalized s fn b = .ok part →
      ∃ l, R v l ∧ Each RfItem (l.map fun v => (v, false)) part)
    {items : List (WStr × Bool)} {p p' : PTS} (hi : Each RfItem items p.splits) (h : p.split fn b = .ok p') :
    p'.normalized = p.normalized ∧ ∃ items', CutItems R items items' ∧ Each RfItem items' p'.splits := by
  unfold PTS.split at h
  obtain ⟨out, h1, h2⟩ := res_bind_ok.1 h
  cases h2
  refine ⟨rfl, ?_⟩
  obtain ⟨parts, rfl, he⟩ := splitLoop_ok_iff.1 h1
  clear h1 h
  simp only
  generalize p.splits = l at hi he
  induction hi generalizing parts with
  | nil => cases he; exact ⟨[], ⟨[], .nil, rfl⟩, .nil⟩
  | @cons x s items l hx _ ih =>
    cases he with
    | @cons _ part _ parts hs he =>
      obtain ⟨items', ⟨groups, g1, rfl⟩, g2⟩ := ih parts he
      rcases hs with ⟨ht, rfl⟩ | ⟨ht, hs⟩
      · refine ⟨_, ⟨[x] :: groups, .cons ?_ g1, rfl⟩, ?_⟩
        · rw [if_pos (hx.2.1 ht)]
        · exact .cons hx g2
      · obtain ⟨l, r1, r2⟩ := hR s x.1 part hx.1 hs
        refine ⟨_, ⟨(l.map fun v => (v, false)) :: groups, .cons ?_ g1, rfl⟩, ?_⟩
        · rw [if_neg (fun h => hx.2.2 h ht)]
          exact ⟨l, r1, rfl⟩
        · rw [List.flatten_cons, List.flatten_cons]
          exact rf_append r2 g2

theorem pl_regex {P : Platform} (hg : GoodRegexes P) (pattern : Str) (b : Behavior) (s : Split) (v : WStr) (part : List Split) (hv : HasText s v)
    (h : splitNormalized s (findMatches P pattern) b = .ok part) :
    ∃ l, CutByRegex P (b == .isolated) pattern v l ∧ Each RfItem (l.map fun v => (v, false)) part := by
  obtain ⟨hsc, -⟩ := utf8Text_iff.1 hv
  cases hf : P.regex pattern with
  | none =>
    exfalso
    unfold splitNormalized findMatches at h
    simp only [hf] at h
    cases h
  | some find =>
  obtain ⟨ho, hb⟩ := goodEngine_text (hg _ _ hf) hsc
  obtain ⟨ps, h1, h2, h3, h4⟩ := pl_segments (find (utf16 v)) [] v rfl ho hb
  have hfn : findMatches P pattern (utf16 v) = .ok (place 0 ps) := by
    simp only [findMatches, hf]
    rw [← units_eq]; exact congrArg Except.ok h2
  refine ⟨_, ⟨find, utf16 v, hf, utf16Text_iff.2 ⟨hsc, rfl⟩, ?_⟩, pl_splitNormalized hv ps h1 hfn h⟩
  cases b with
  | isolated => exact h3
  | removed => exact h4

/-- The pre-tokenized string `p` is at this stage. -/
def AtStage (s : Stage) (p : PTS) : Prop := p.normalized.normalized = s.1 ∧ Each RfItem s.2 p.splits

theorem pl_bytes {P : Platform} : ∀ {items : List (WStr × Bool)} {l l' : List Split}, Each RfItem items l → mapSplits P l = .ok l' →
    ∃ items', Each (fun (x y : WStr × Bool) => InBytes x.1 y.1 ∧ y.2 = x.2) items items' ∧ Each RfItem items' l' := by
  intro items l l' hi h
  induction hi generalizing l' with
  | nil => cases h; exact ⟨[], .nil, .nil⟩
  | @cons x s items l hx _ ih =>
    simp only [mapSplits] at h
    obtain ⟨n, h1, h⟩ := res_bind_ok.1 h
    obtain ⟨rest, h2, h⟩ := res_bind_ok.1 h
    cases h
    obtain ⟨items', i1, i2⟩ := ih h2
    obtain ⟨hsc, hn⟩ := utf8Text_iff.1 hx.1
    have hb : ∀ b ∈ s.normalized, b < 256 := by rw [hn]; exact utf8_bytes hsc
    rcases mapBytes_iff (P := P) hb with ⟨-, e⟩ | ⟨-, e⟩
    case inr => rw [e] at h1; cases h1
    rw [e] at h1; cases h1
    refine ⟨(byteText s.normalized, x.2) :: items', .cons ⟨⟨_, hx.1, rfl⟩, rfl⟩ i1, .cons ⟨?_, hx.2⟩ i2⟩
    exact utf8Text_iff.2 ⟨byteText_scalars hb, rfl⟩

theorem pl_bert (P : Platform) {items : List (WStr × Bool)} {l : List Split} (h : Each RfItem items l) : ∀ {parts : List (List Split)},
    Each (BertSplit P.reSpace P.rePunct) l parts →
    ∃ items', CutItems (fun v vs => vs = (bertPieces P.reSpace P.rePunct v).map (·.2)) items items' ∧ Each RfItem items' parts.flatten := by
  induction h with
  | nil => intro parts hp; cases hp; exact ⟨[], ⟨[], .nil, rfl⟩, .nil⟩
  | @cons x s items l hx _ ih =>
    intro parts hp
    cases hp with
    | @cons _ part _ parts hs hp =>
      obtain ⟨items', ⟨groups, g1, rfl⟩, g2⟩ := ih hp
      rcases hs with ⟨ht, rfl⟩ | ⟨ht, v, hv, hE⟩
      · refine ⟨_, ⟨[x] :: groups, .cons ?_ g1, rfl⟩, .cons hx g2⟩
        rw [if_pos (hx.2.1 ht)]
      · have e : v = x.1 := nt_utf8 hv hx.1
        subst e
        refine ⟨_, ⟨(((bertPieces P.reSpace P.rePunct x.1).map (·.2)).map fun v => (v, false)) :: groups, .cons ?_ g1, rfl⟩, ?_⟩
        · rw [if_neg (fun h => hx.2.2 h ht)]
          exact ⟨_, rfl, rfl⟩
        · rw [List.flatten_cons, List.flatten_cons]
          refine rf_append ?_ g2
          generalize bertPieces P.reSpace P.rePunct x.1 = z at hE
          clear hv hx ht ih hp g1 g2
          induction hE with
          | nil => exact .nil
          | cons h _ ih => exact .cons ⟨h.2.1, by simp [h.1]⟩ ih

/-- The first step of ByteLevel. -/
def plPrefix (P : Platform) (a : Bool) (p : PTS) : Res PTS :=
  if a then
    match p.normalized.normalized with
    | [] => .error (.throws .outOfRange)
    | c :: _ =>
      if P.iswspace c then .ok p
      else do
        let n ← ({ p.normalized with normalized := 0x20 :: p.normalized.normalized } : NS).transform 0 .add 1
        PTS.ofNS n
  else .ok p

theorem pl_byteLevel_eq (P : Platform) (a u : Bool) (p : PTS) : byteLevelPreTokenize P a u p = (do
    let p ← plPrefix P a p
    let p ← p.split (fun x => if u then findMatches P byteLevelPattern x else .ok [((0, x.length), false)]) .isolated
    let splits ← mapSplits P p.splits
    return { p with splits }) := by
  unfold byteLevelPreTokenize plPrefix
  cases a with
  | false => rfl
  | true =>
    simp only [if_true]
    cases p.normalized.normalized with
    | nil => rfl
    | cons c r =>
      simp only
      split
      · rfl
      · simp only [bind, Except.bind]
        cases NS.transform { normalized := 32 :: c :: r, offsets := p.normalized.offsets, ranges := p.normalized.ranges } 0 TOp.add 1 <;> rfl

theorem pl_prefix {P : Platform} {a : Bool} {s : Stage} {p p' : PTS} (hs : AtStage s p) (h : plPrefix P a p = .ok p') :
    ∃ s', PrefixSpace P a s s' ∧ AtStage s' p' := by
  unfold plPrefix at h
  obtain ⟨w, l⟩ := s
  obtain ⟨h1, h2⟩ := hs
  simp only at h1 h2
  cases a with
  | false => cases h; exact ⟨_, .off, h1, h2⟩
  | true =>
    simp only [if_true, h1] at h
    cases w with
    | nil => cases h
    | cons c w =>
      simp only at h
      cases hc : P.iswspace c with
      | true => rw [hc] at h; cases h; exact ⟨_, .blank hc, h1, h2⟩
      | false =>
        simp only [hc, Bool.false_eq_true, if_false] at h
        obtain ⟨n, e1, h⟩ := res_bind_ok.1 h
        have e2 := transform_text e1
        unfold PTS.ofNS at h
        obtain ⟨t, e3, h⟩ := res_bind_ok.1 h
        cases h
        refine ⟨_, .added hc, e2, .cons ⟨?_, by simp⟩ .nil⟩
        rw [e2] at e3
        exact (C02_to_string_iff _ _).1 e3

mutual
/-- Pre-tokenization does what the specification says. -/
theorem pl_run (P : Platform) (hg : GoodRegexes P) : (t : PreTokenizer) → {s : Stage} → {p p' : PTS} → AtStage s p →
    t.run P p = .ok p' → ∃ s', PreTokenizes P t s s' ∧ AtStage s' p'
  | .bert, s, p, p', hs, h => by
    obtain ⟨q, parts, k1, k2, k3, k4⟩ := C09_bert_pieces P p (fun x hx => by
      obtain ⟨y, _, hy⟩ := each_mem_right hs.2 x hx
      exact ⟨_, hy.1⟩)
    rw [k1] at h; cases h
    obtain ⟨items', i1, i2⟩ := pl_bert P hs.2 k4
    exact ⟨(s.1, items'), .bert i1, by rw [k2]; exact hs.1, by rw [k3]; exact i2⟩
  | .split pattern b inv, s, p, p', hs, h => by
    simp only [PreTokenizer.run, splitPreTokenize] at h
    obtain ⟨e1, items', i1, i2⟩ := pl_split (R := CutByRegex P (b == .isolated) pattern) (pl_regex hg pattern b) hs.2 h
    exact ⟨(s.1, items'), .split i1, by rw [e1]; exact hs.1, i2⟩
  | .byteLevel a u, s, p, p', hs, h => by
    simp only [PreTokenizer.run, pl_byteLevel_eq] at h
    obtain ⟨p1, h1, h⟩ := res_bind_ok.1 h
    obtain ⟨p2, h2, h⟩ := res_bind_ok.1 h
    obtain ⟨l, h3, h⟩ := res_bind_ok.1 h
    cases h
    obtain ⟨⟨w', l0⟩, k1, k2⟩ := pl_prefix hs h1
    obtain ⟨w, l00⟩ := s
    obtain ⟨e1, l1, i1, i2⟩ := pl_split (R := fun v vs => if u = true then CutByRegex P true byteLevelPattern v vs else vs = [v]) (by
      intro s v part hv hp
      obtain ⟨hsc, hn⟩ := utf8Text_iff.1 hv
      cases u with
      | true =>
        simp only [if_true] at hp ⊢
        exact pl_regex hg byteLevelPattern .isolated s v part hv hp
      | false =>
        simp only [Bool.false_eq_true, if_false] at hp ⊢
        refine ⟨[v], rfl, ?_⟩
        have := pl_splitNormalized hv [(v, false)] (by simp) (by simp [place, units_eq]) hp
        exact this) k2.2 h2
    obtain ⟨l', j1, j2⟩ := pl_bytes i2 h3
    refine ⟨(w', l'), .byteLevel k1 i1 j1, ?_, j2⟩
    show p2.normalized.normalized = w'
    rw [e1]; exact k2.1
  | .seq ts, s, p, p', hs, h => by
    simp only [PreTokenizer.run] at h
    obtain ⟨s', h1, h2⟩ := pl_runs P hg ts hs h
    exact ⟨s', .seq h1, h2⟩
theorem pl_runs (P : Platform) (hg : GoodRegexes P) : (ts : List PreTokenizer) → {s : Stage} → {p p' : PTS} → AtStage s p →
    PreTokenizer.runList P ts p = .ok p' → ∃ s', PreTokenizesAll P ts s s' ∧ AtStage s' p'
  | [], s, p, p', hs, h => by
    simp only [PreTokenizer.runList] at h
    cases h
    exact ⟨s, .nil, hs⟩
  | t :: ts, s, p, p', hs, h => by
    simp only [PreTokenizer.runList] at h
    obtain ⟨q, h1, h⟩ := res_bind_ok.1 h
    obtain ⟨s1, k1, k2⟩ := pl_run P hg t hs h1
    obtain ⟨s2, k3, k4⟩ := pl_runs P hg ts k2 h
    exact ⟨s2, .cons k1 k3, k4⟩
end

/-! ### The words -/

theorem pl_range {s s' sub : NS} {a b : Nat} (h : s.transformRange a b sub = .ok s') : s'.normalized = s.normalized := by
  obtain ⟨_, _, _, _, _, _, _, _, _, _, _, _, _, rfl⟩ := transformRange_ok h
  rfl

theorem pl_loop (P : Platform) (norm : Option Normalizer) : ∀ (l : List Split) (a : AddedVocab) (ns : NS) (e : Nat) (r : NS × List Split),
    (normalizeLoop P norm a ns e l).1 = .ok r → r.1.normalized = ns.normalized := by
  intro l
  induction l with
  | nil => intro a ns e r h; cases h; rfl
  | cons s l ih =>
    intro a ns e r h
    simp only [normalizeLoop] at h
    split at h
    · have := ih a ns (e + s.normalized.length)
      generalize normalizeLoop P norm a ns (e + s.normalized.length) l = R at h this
      obtain ⟨r1, a1⟩ := R
      cases r1 with
      | error x => cases h
      | ok r1 => cases h; exact this r1 rfl
    · have hk : ∀ r1, (normalizeSplit P norm a ns e s).1 = .ok r1 → r1.1.normalized = ns.normalized := by
        intro r1 h1
        unfold normalizeSplit at h1
        simp only at h1
        split at h1
        · cases h1
        · rename_i ns' sub text heq
          obtain ⟨x, _, heq⟩ := res_bind_ok.1 heq
          obtain ⟨y, _, heq⟩ := res_bind_ok.1 heq
          split at heq
          · cases heq
          · obtain ⟨n2, e2, heq⟩ := res_bind_ok.1 heq
            obtain ⟨_, _, heq⟩ := res_bind_ok.1 heq
            cases heq
            simp only at h1
            obtain ⟨_, _, h1⟩ := res_bind_ok.1 h1
            obtain ⟨_, _, h1⟩ := res_bind_ok.1 h1
            cases h1
            exact pl_range e2
      generalize normalizeSplit P norm a ns e s = R at h hk
      obtain ⟨r1, a1⟩ := R
      cases r1 with
      | error x => cases h
      | ok r1 =>
        obtain ⟨ns', here, n⟩ := r1
        have h1 := hk _ rfl
        simp only at h h1
        have := ih a1 ns' (e + n)
        generalize normalizeLoop P norm a1 ns' (e + n) l = R at h this
        obtain ⟨r2, a2⟩ := R
        cases r2 with
        | error x => cases h
        | ok r2 => cases h; exact (this r2 rfl).trans h1

theorem pl_whole (P : Platform) (norm : Option Normalizer) (a : AddedVocab) (w : WStr) (p : PTS) (h : (a.extract P norm w).1 = .ok p) :
    p.normalized.normalized = w := by
  unfold AddedVocab.extract at h
  split at h
  · cases h
  · rename_i p0 a0 hf
    split at h
    · cases h
    · rename_i ns splits a1 hl
      cases h
      have h1 := pl_loop P norm p0.splits a0 p0.normalized 0 (ns, splits) (by rw [hl])
      simp only at h1 ⊢
      rw [h1]
      have hf' : (a.firstSplits w).1 = .ok p0 := by rw [hf]
      unfold AddedVocab.firstSplits at hf'
      split at hf'
      · cases hf'
      · rename_i q hq
        have hq0 : q.normalized.normalized = w := by
          unfold PTS.ofNS at hq
          obtain ⟨_, _, hq⟩ := res_bind_ok.1 hq
          cases hq; rfl
        split at hf'
        · cases hf'
        · simp only at hf'
          obtain ⟨_, _, hf'⟩ := res_bind_ok.1 hf'
          obtain ⟨_, _, hf'⟩ := res_bind_ok.1 hf'
          cases hf'
          split <;> exact hq0

/-- What is asked of the text: recognition of added tokens, if there are any, is described for the text and for what
normalization makes of its parts. -/
def DescribableText (P : Platform) (t : Tokenizer) (w : WStr) : Prop :=
  ∀ a, t.added = some a → w ≠ [] ∧ Describable a a.nonNormTrie w ∧
    ∀ x y n, Normalizes P t.normalizer (between w x y) n → Describable a a.normTrie n

theorem pl_normalizes (P : Platform) (norm : Option Normalizer) (x : WStr) (n : NS) (h : normalizeOpt P norm (NS.ofText x) = .ok n) :
    Normalizes P norm x n.normalized := by
  cases norm with
  | none => cases h; exact rfl
  | some m => exact C104_text P m h

theorem pl_words (P : Platform) (hg : GoodRegexes P) {t : Tokenizer} {w : WStr} {p : PTS} (hd : DescribableText P t w)
    (h : (t.preTokenized P w).1 = .ok p) : ∃ ws, Words P t w ws ∧ Each (fun v s => HasText s v) ws p.splits := by
  have fin : ∀ items p0, FirstItems P t w items → AtStage (w, items) p0 →
      (match t.preTokenizer with | none => .ok p0 | some pt => pt.run P p0 : Res PTS) = .ok p →
      ∃ ws, Words P t w ws ∧ Each (fun v s => HasText s v) ws p.splits := by
    intro items p0 h1 h2 h3
    have fin' : ∀ (s' : Stage), AtStage s' p → Each (fun v s => HasText s v) (s'.2.map (·.1)) p.splits := by
      intro s' hs'
      have := hs'.2
      generalize s'.2 = l at this
      generalize p.splits = l' at this
      induction this with
      | nil => exact .nil
      | cons h _ ih => exact .cons h.1 ih
    cases hp : t.preTokenizer with
    | none =>
      rw [hp] at h3; cases h3
      refine ⟨items.map (·.1), ⟨items, w, items, h1, rfl, by rw [hp]⟩, fin' _ h2⟩
    | some pt =>
      rw [hp] at h3
      obtain ⟨⟨w', items'⟩, k1, k2⟩ := pl_run P hg pt h2 h3
      exact ⟨_, ⟨items, w', items', h1, rfl, by rw [hp]; exact k1⟩, fin' _ k2⟩
  unfold Tokenizer.preTokenized at h
  split at h
  · cases h
  · rename_i p0 hp0
    cases ha : t.added with
    | none =>
      simp only [ha, res_ok_bind] at h
      refine fin [(w, false)] p0 (by unfold FirstItems; rw [ha]) ?_ ?_
      · unfold PTS.ofNS at hp0
        obtain ⟨x, e, hp0⟩ := res_bind_ok.1 hp0
        cases hp0
        exact ⟨rfl, .cons ⟨(C02_to_string_iff _ _).1 e, by simp⟩ .nil⟩
      · exact h
    | some a =>
      simp only [ha] at h
      obtain ⟨p1, h1, h⟩ := res_bind_ok.1 h
      obtain ⟨d1, d2, d3⟩ := hd a ha
      obtain ⟨items, i1, i2⟩ := rf_extract P (N := Normalizes P t.normalizer) (pl_normalizes P t.normalizer) d2 d1
        (fun x y n hn => d3 x y _ (pl_normalizes P _ _ _ hn)) h1
      exact fin items p1 (by unfold FirstItems; rw [ha]; exact i1) ⟨pl_whole P _ a w p1 h1, i2⟩ h

/-! ### The tokens -/

theorem pl_bpe (P : Platform) {lines : List Str} {m : BPE} (hm : Made lines m) {v : WStr} {s : Str} {ts : List Token}
    (hkeys : (m.vocab.map (·.1)).Nodup) (hv : Utf8Text v s) (h : (m.word P s).1 = .ok ts) : BpeTokens m lines v ts := by
  refine ⟨s, hv, fun hfit => ?_⟩
  by_cases hd : Direct m s
  · obtain ⟨d1, d2, d3⟩ := id hd
    rcases word_answer P (made_cache hm) s with ⟨i, _, hi, e⟩ | ⟨hnd, _⟩
    · rw [e] at h; cases h
      exact .inl ⟨i, d1, d2, hi, rfl⟩
    · exact absurd hd hnd
  · by_cases hy : ∃ i, i < s.length ∧ Yields (tokenToId m.vocab) m.pre m.suf m.unkToken m.byteFallback s i
    · obtain ⟨ts', e, h1, h2, h3, h4, h5, h6⟩ := word_spec P hm s hy hfit hd
      rw [e] at h; cases h
      refine .inr ⟨hd, _, initial_symList m s, h1, ?_, h5, C16_only_vocabulary P m hkeys s ts e, _, h2⟩
      rintro rfl
      have := symList_ne_nil hy
      generalize symList m true s none = l at h1 this
      have key : ∀ (a b : List (Int × Nat)), MergeMany (Listed (tokenToId m.vocab) m.pre lines) a b → a ≠ [] → b ≠ [] := by
        intro a b hab
        induction hab with
        | refl => exact id
        | step _ h _ => intro _; cases h; simp
      exact key _ _ h1 this rfl
    · rw [C23_violated P hm s (fun i hi hyi => hy ⟨i, hi, hyi⟩) hd] at h
      cases h

/-- The model is WordPiece, or BPE made from the merge list `lines` - possibly used before - with distinct keys. -/
def ModelIs (P : Platform) (lines : List Str) : Model → Model → Prop
  | .wordPiece m, x => x = .wordPiece m
  | .bpe m, x => Made lines m ∧ (m.vocab.map (·.1)).Nodup ∧ ∃ before, x = .bpe (usedBPE P m before)

theorem pl_model (P : Platform) {lines : List Str} {m x : Model} (hm : ModelIs P lines m x) {ws : List WStr} {p q : PTS}
    (hw : Each (fun v s => HasText s v) ws p.splits) (h : (x.tokenize P p).1 = .ok q) :
    Each (ModelTokens lines m) ws (q.splits.map (·.tokens)) := by
  cases m with
  | wordPiece m =>
    cases hm
    simp only [Model.tokenize, Except.ok.injEq] at h
    have hsp := (wordPiece_splits m p).2
    rw [h] at hsp
    exact rf_tokens m hw hsp
  | bpe m =>
    obtain ⟨hmade, hkeys, before, rfl⟩ := hm
    have h : ((usedBPE P m before).tokenize P p).1 = .ok q := h
    obtain ⟨-, he⟩ := (bpe_tokenize P hmade before p q).1 h
    clear h
    generalize p.splits = l at hw he
    generalize q.splits = l' at he
    induction hw generalizing l' with
    | nil => cases he; exact .nil
    | cons hv _ ih =>
      cases he with
      | cons hs he => exact .cons (pl_bpe P hmade hkeys hv hs.2.2) (ih _ he)

/-! ### Truncation, post-processing, padding -/

theorem pl_truncation (tr : Option Truncation) {x : Enc} {n : Nat} (hal : Aligned x n) (hn : IsInt n)
    {e : Encoding}
    (h : (match tr with | some t => t.run { toEnc := x, overflowing := [] } | none => .ok { toEnc := x, overflowing := [] } : Res Encoding) = .ok e)
    (hi : ∀ t, tr = some t → IsInt t.maxLength ∧ IsInt t.stride) :
    e.ids = mainPart tr x.ids ∧ e.tokens = mainPart tr x.tokens := by
  cases tr with
  | none => cases h; exact ⟨rfl, rfl⟩
  | some t =>
    simp only at h
    obtain ⟨h1, h2⟩ := C92_truncation t { toEnc := x, overflowing := [] } n hal hn (hi t rfl)
    have li : x.ids.length = n := hal.1
    have lt : x.tokens.length = n := hal.2.2.1
    have head : ∀ {ws : List (Nat × Nat)} {a b : Nat} {r : Encoding}, CutAt { toEnc := x, overflowing := [] } ((a, b) :: ws) r →
        r.ids = (x.ids.take b).drop a ∧ r.tokens = (x.tokens.take b).drop a := by
      intro ws a b r hc
      cases hc with
      | cons hc _ => exact ⟨hc.1, hc.2.2.1⟩
    by_cases hl : LeftAsIs t n
    · rw [h1 hl] at h
      unfold mainPart
      simp only [li, lt, if_pos hl]
      split at h <;> cases h <;> exact ⟨rfl, rfl⟩
    · unfold mainPart
      simp only [li, lt, if_neg hl]
      obtain ⟨k1, k2, k3⟩ := h2 hl
      have hnl := hl
      unfold LeftAsIs at hnl
      cases hdir : t.direction with
      | unknown => rw [k1 hdir] at h; cases h
      | right =>
        obtain ⟨j1, j2, j3⟩ := k2 hdir
        simp only
        rcases Int.lt_trichotomy t.stride t.maxLength with hs | hs | hs
        · obtain ⟨r, ws, e1, e2, e3⟩ := j1 hs
          rw [e1] at h; cases h
          cases e3 with
          | over h0 => omega
          | last h0 h0' => omega
          | more h0 _ => simpa using head e2
        · rw [j2 hs] at h; cases h
        · obtain ⟨r, e1, e2⟩ := j3 hs
          rw [e1] at h; cases h
          simpa using head e2
      | left =>
        obtain ⟨j1, j2⟩ := k3 hdir
        simp only
        by_cases hs : t.stride < t.maxLength - 1
        · obtain ⟨r, ws, e1, e2, e3⟩ := j1 hs
          rw [e1] at h; cases h
          cases e3 with
          | over => omega
          | last h0 h0' => omega
          | more h0 _ =>
            have := head e2
            rw [List.take_of_length_le (by omega), List.take_of_length_le (by omega)] at this
            exact this
        · rw [j2 (by omega)] at h; cases h

theorem pl_template (single pair : List Piece) (specials : List SpecialToken) (b : Bool) {e r : Encoding}
    (h : (PostProcessor.template single pair specials).run b e = .ok r) :
    r.ids = laidOut single specials b (·.ids) e.ids ∧ r.tokens = laidOut single specials b (·.tokens) e.tokens := by
  obtain ⟨r', k1, k2, -⟩ := C39_any_template single pair specials b e
  rw [k1] at h
  cases h
  have e1' := congrArg Enc.ids k2
  have e2' := congrArg Enc.tokens k2
  simp only at e1' e2'
  rw [e1', e2', rf_joinAll_ids, rf_joinAll_tokens, List.flatMap_map, List.flatMap_map]
  unfold laidOut
  refine ⟨?_, ?_⟩ <;>
  · congr 1; funext p
    unfold block
    by_cases hk : p.kind = b!"Sequence"
    · rw [if_pos hk, if_pos hk]
    · rw [if_neg hk, if_neg hk]
      by_cases hk2 : p.kind = b!"SpecialToken" ∧ b = true
      · rw [if_pos hk2, if_pos hk2]
        cases specials.find? fun t => t.id == p.id <;> rfl
      · rw [if_neg hk2, if_neg hk2]

mutual
theorem pl_arranged (b : Bool) : (pp : PostProcessor) → {e r : Encoding} → pp.run b e = .ok r →
    r.ids = arranged b (·.ids) pp e.ids ∧ r.tokens = arranged b (·.tokens) pp e.tokens
  | .template single pair specials, e, r, h => pl_template single pair specials b h
  | .byteLevel a tr, e, r, h => by
    simp only [PostProcessor.run, byteLevelProcess] at h
    simp only [arranged]
    split at h
    · obtain ⟨m, h1, h⟩ := res_bind_ok.1 h
      obtain ⟨o, _, h⟩ := res_bind_ok.1 h
      cases h
      unfold processOffsets at h1
      obtain ⟨_, _, h1⟩ := res_bind_ok.1 h1
      cases h1
      exact ⟨rfl, rfl⟩
    · cases h; exact ⟨rfl, rfl⟩
  | .seq ps, e, r, h => by
    simp only [PostProcessor.run] at h
    exact pl_arrangedAll b ps h
theorem pl_arrangedAll (b : Bool) : (ps : List PostProcessor) → {e r : Encoding} → PostProcessor.runList b ps e = .ok r →
    r.ids = arrangedAll b (·.ids) ps e.ids ∧ r.tokens = arrangedAll b (·.tokens) ps e.tokens
  | [], e, r, h => by
    simp only [PostProcessor.runList] at h
    cases h; exact ⟨rfl, rfl⟩
  | p :: ps, e, r, h => by
    simp only [PostProcessor.runList] at h
    obtain ⟨e1, h1, h⟩ := res_bind_ok.1 h
    obtain ⟨i1, i2⟩ := pl_arranged b p h1
    obtain ⟨j1, j2⟩ := pl_arrangedAll b ps h
    simp only [arrangedAll]
    rw [← i1, ← i2]
    exact ⟨j1, j2⟩
end

theorem pl_padding (pad : Option Padding) {e r : Encoding}
    (h : (match pad with | some p => p.run e | none => .ok e : Res Encoding) = .ok r) :
    PaddedBy pad e.ids.length (·.padId) e.ids r.ids ∧ PaddedBy pad e.ids.length (·.padToken) e.tokens r.tokens := by
  cases pad with
  | none => cases h; exact ⟨rfl, rfl⟩
  | some p =>
    simp only at h
    by_cases hneg : p.strategy = .fixed ∧ p.fixedSize < 0
    · have h0 : RoundedUp 0 p.padToMultipleOf 0 := by
        unfold RoundedUp
        split
        · exact ⟨Nat.le_refl _, by omega, 0, by simp⟩
        · rfl
      have ht : p.target e.ids.length = p.fixedSize := by
        unfold Padding.target
        simp only [if_pos hneg.1]
        rw [if_neg]
        rintro ⟨_, hm⟩
        have h1 : (-p.fixedSize).tmod p.padToMultipleOf ≥ 0 := Int.tmod_nonneg _ (by omega)
        rw [Int.neg_tmod] at h1
        omega
      have hu : r.ids = e.ids ∧ r.tokens = e.tokens := by
        unfold Padding.run pad at h
        rw [ht] at h
        obtain ⟨_, _, h⟩ := res_bind_ok.1 h
        obtain ⟨y, hy, h⟩ := res_bind_ok.1 h
        cases h
        suffices y = e.toEnc by rw [this]; exact ⟨rfl, rfl⟩
        unfold padEnc at hy
        split at hy
        · cases hy; rfl
        · simp only at hy
          have hlt : p.fixedSize - (e.ids.length : Int) < 0 := by omega
          cases hd : p.direction with
          | unknown => rw [hd] at hy; cases hy; rfl
          | left => rw [hd] at hy; simp only [if_pos hlt] at hy; cases hy
          | right => rw [hd] at hy; simp only [if_pos hlt] at hy; cases hy
      simp only [PaddedBy, if_pos hneg.1, hu.1, hu.2, Int.toNat_of_nonpos (Int.le_of_lt hneg.2)]
      refine ⟨⟨0, h0, ?_⟩, ⟨0, h0, ?_⟩⟩ <;> cases p.direction <;> simp
    · obtain ⟨t, r', h1, h2, ⟨h3, h4⟩, -⟩ := C37_C38_padding p e (fun hf => by
        have : ¬ p.fixedSize < 0 := fun h => hneg ⟨hf, h⟩
        omega)
      rw [h1] at h; cases h
      have key : r.ids = (match p.direction with
          | .left => List.replicate (t - e.ids.length) p.padId ++ e.ids
          | .right => e.ids ++ List.replicate (t - e.ids.length) p.padId
          | .unknown => e.ids) ∧ r.tokens = (match p.direction with
          | .left => List.replicate (t - e.ids.length) p.padToken ++ e.tokens
          | .right => e.tokens ++ List.replicate (t - e.ids.length) p.padToken
          | .unknown => e.tokens) := by
        by_cases hle : t ≤ e.ids.length
        · rw [h3 hle, Nat.sub_eq_zero_of_le hle]
          cases p.direction <;> simp
        · obtain ⟨a1, a2, a3⟩ := h4 (by omega)
          cases hd : p.direction with
          | left => rw [a1 hd]; exact ⟨rfl, rfl⟩
          | right => rw [a2 hd]; exact ⟨rfl, rfl⟩
          | unknown => rw [a3 hd]; exact ⟨rfl, rfl⟩
      exact ⟨⟨t, h2, key.1⟩, ⟨t, h2, key.2⟩⟩

/-! ### Everything together -/

/-- The ids and tokens of the main encoding, from the tokens of the text on. -/
theorem pl_entries {t : Tokenizer} {b : Bool} {e : Encoding} {q : PTS} {y : Enc} (hy : intoLoop q.normalized none 0 0 q.splits = .ok y)
    (hpost : t.doPostProcess { toEnc := y, overflowing := [] } b = .ok e)
    (hi : ∀ tr, t.truncation = some tr → IsInt tr.maxLength ∧ IsInt tr.stride)
    (hlen : IsInt (q.splits.map (·.tokens)).flatten.length) :
    let ts := (q.splits.map (·.tokens)).flatten
    let ids := laidOutBy t.postProcessor b (·.ids) (mainPart t.truncation (ts.map (·.id)))
    let tokens := laidOutBy t.postProcessor b (·.tokens) (mainPart t.truncation (ts.map (·.value)))
    PaddedBy t.padding ids.length (·.padId) ids e.ids ∧ PaddedBy t.padding ids.length (·.padToken) tokens e.tokens := by
  obtain ⟨rows, -, hrows⟩ := intoLoop_rows _ _ _ _ hy
  have hal := hasRows_aligned hrows
  have hids : y.ids = ((q.splits.map (·.tokens)).flatten).map (·.id) := by
    rw [rt_intoLoop_ids _ _ _ _ _ _ hy]
    simp [List.flatMap, List.map_flatten]
    rfl
  have htok : y.tokens = ((q.splits.map (·.tokens)).flatten).map (·.value) := by
    rw [rf_intoLoop_tokens _ _ _ _ _ _ hy]
    simp [List.flatMap, List.map_flatten]
    rfl
  have hlen' : ((q.splits.map (·.tokens)).flatten).length = rows.length := by
    have := hal.1; rw [hids, List.length_map] at this; exact this
  obtain ⟨e1, e2, h1, h2, h3⟩ := postProcess_ok hpost
  obtain ⟨i1, i2⟩ := pl_truncation t.truncation hal (by rw [← hlen']; exact hlen) h1 hi
  have hl : e2.ids = laidOutBy t.postProcessor b (·.ids) e1.ids ∧ e2.tokens = laidOutBy t.postProcessor b (·.tokens) e1.tokens := by
    unfold laidOutBy
    cases hpp : t.postProcessor with
    | none => rw [hpp] at h2; cases h2; exact ⟨rfl, rfl⟩
    | some pp => rw [hpp] at h2; exact pl_arranged b pp h2
  obtain ⟨j1, j2⟩ := pl_padding t.padding h3
  rw [hl.1, hl.2, i1, i2, hids, htok] at j2
  rw [hl.1, i1, hids] at j1
  exact ⟨j1, j2⟩

/-- **C105** Whatever the configuration - any normalizer, pre-tokenizer, truncation, post-processor and padding, WordPiece or
BPE, with or without an added vocabulary - the ids and tokens `encode` returns are what the specification makes of the text. -/
theorem C105_encode_partial (P : Platform) (hg : GoodRegexes P) {t : Tokenizer} {m x : Model} {lines : List Str} {w : WStr} {b : Bool} {e : Encoding}
    (hx : t.model = some x) (hm : ModelIs P lines m x) (hd : DescribableText P t w)
    (hi : ∀ tr, t.truncation = some tr → IsInt tr.maxLength ∧ IsInt tr.stride)
    (h : (t.encode P w b).1 = .ok e) :
    ∃ ts, TextTokens P t lines m w ts ∧ (IsInt ts.length →
      let ids := laidOutBy t.postProcessor b (·.ids) (mainPart t.truncation (ts.map (·.id)))
      let tokens := laidOutBy t.postProcessor b (·.tokens) (mainPart t.truncation (ts.map (·.value)))
      PaddedBy t.padding ids.length (·.padId) ids e.ids ∧ PaddedBy t.padding ids.length (·.padToken) tokens e.tokens) := by
  obtain ⟨q, y, ⟨p, hp, hq⟩, hy, hpost⟩ := encode_ok h
  rw [hx] at hq
  obtain ⟨ws, hw1, hw2⟩ := pl_words P hg hd hp
  refine ⟨_, ⟨ws, _, hw1, pl_model P hm hw2 hq, rfl⟩, fun hlen => pl_entries hy hpost hi hlen⟩

/-! ### The specification prescribes one list of words -/

theorem pl_cuts_unique {keep : Bool} {pos : Nat} {ms : List (Nat × Nat)} {w : WStr} {l l' : List WStr} (h : CutsAt keep pos ms w l)
    (h' : CutsAt keep pos ms w l') : l = l' := by
  induction h generalizing l' with
  | done =>
    cases h' with
    | done => rfl
    | rest h => exact absurd rfl h
  | rest h =>
    cases h' with
    | done => exact absurd rfl h
    | rest _ => rfl
  | @gap pos a b ms g w l hg ha _ ih =>
    generalize hw : g ++ w = v at h'
    cases h' with
    | @gap _ _ _ _ g' w' l' hg' ha' hr =>
      have e : units g = units g' := by omega
      obtain ⟨rfl, rfl⟩ := units_ext hw e
      rw [ih hr]
    | here hb hr =>
      have := units_pos hg
      omega
  | @here a b ms m w l hb _ ih =>
    generalize hw : m ++ w = v at h'
    cases h' with
    | gap hg' ha' hr =>
      have := units_pos hg'
      omega
    | @here _ _ _ m' w' l' hb' hr =>
      have e : units m = units m' := by omega
      obtain ⟨rfl, rfl⟩ := units_ext hw e
      rw [ih hr]

theorem pl_cutItems_unique {R : WStr → List WStr → Prop} (hR : ∀ v l l', R v l → R v l' → l = l') {items l l' : List (WStr × Bool)}
    (h : CutItems R items l) (h' : CutItems R items l') : l = l' := by
  obtain ⟨g, h1, rfl⟩ := h
  obtain ⟨g', h1', rfl⟩ := h'
  rw [rf_each_unique (fun (x : WStr × Bool) y y' hy hy' => by
    by_cases hx : x.2 = true
    · rw [if_pos hx] at hy hy'; rw [hy, hy']
    · rw [if_neg hx] at hy hy'
      obtain ⟨a, a1, rfl⟩ := hy
      obtain ⟨a', a1', rfl⟩ := hy'
      rw [hR _ _ _ a1 a1']) h1 h1']

theorem pl_regex_unique {P : Platform} {keep : Bool} {pattern : Str} (v : WStr) (l l' : List WStr) (h : CutByRegex P keep pattern v l)
    (h' : CutByRegex P keep pattern v l') : l = l' := by
  obtain ⟨f, u, h1, h2, h3⟩ := h
  obtain ⟨f', u', h1', h2', h3'⟩ := h'
  rw [h1] at h1'; cases h1'
  obtain ⟨_, rfl⟩ := utf16Text_iff.1 h2
  obtain ⟨_, rfl⟩ := utf16Text_iff.1 h2'
  exact pl_cuts_unique h3 h3'

theorem pl_prefix_unique {P : Platform} {a : Bool} {s x y : Stage} (h : PrefixSpace P a s x) (h' : PrefixSpace P a s y) : x = y := by
  cases h with
  | off => cases h'; rfl
  | blank hc =>
    cases h' with
    | blank => rfl
    | added hc' => rw [hc] at hc'; cases hc'
  | added hc =>
    cases h' with
    | blank hc' => rw [hc] at hc'; cases hc'
    | added => rfl

theorem pl_inBytes_unique {v x y : WStr} (h : InBytes v x) (h' : InBytes v y) : x = y := by
  obtain ⟨b, h1, rfl⟩ := h
  obtain ⟨b', h1', rfl⟩ := h'
  obtain ⟨_, rfl⟩ := utf8Text_iff.1 h1
  obtain ⟨_, rfl⟩ := utf8Text_iff.1 h1'
  rfl

mutual
/-- **C105** Pre-tokenization is prescribed without ambiguity. -/
theorem C105_pre_unique (P : Platform) : (t : PreTokenizer) → {s x y : Stage} → PreTokenizes P t s x → PreTokenizes P t s y → x = y
  | .bert, _, _, _, .bert h, .bert h' => by
    have e := pl_cutItems_unique (R := fun v vs => vs = (bertPieces P.reSpace P.rePunct v).map (·.2))
      (fun v l l' e e' => Eq.trans e (Eq.symm e')) h h'
    rw [e]
  | .split .., _, _, _, .split h, .split h' => by rw [pl_cutItems_unique pl_regex_unique h h']
  | .byteLevel a u, _, _, _, .byteLevel h1 h2 h3, .byteLevel h1' h2' h3' => by
    have e := pl_prefix_unique h1 h1'
    simp only [Prod.mk.injEq] at e
    obtain ⟨rfl, rfl⟩ := e
    obtain rfl := pl_cutItems_unique (R := fun v vs => if u = true then CutByRegex P true byteLevelPattern v vs else vs = [v])
        (fun v l l' hl hl' => by
      cases u with
      | true => exact pl_regex_unique v l l' hl hl'
      | false => exact Eq.trans hl (Eq.symm hl')) h2 h2'
    have e := rf_each_unique (R := fun (x y : WStr × Bool) => InBytes x.1 y.1 ∧ y.2 = x.2)
      (fun x y y' hy hy' => Prod.ext (pl_inBytes_unique hy.1 hy'.1) (hy.2.trans hy'.2.symm)) h3 h3'
    rw [e]
  | .seq ts, _, _, _, .seq h, .seq h' => C105_pre_uniques P ts h h'
/-- The same for lists of pre-tokenizers. -/
theorem C105_pre_uniques (P : Platform) : (ts : List PreTokenizer) → {s x y : Stage} → PreTokenizesAll P ts s x →
    PreTokenizesAll P ts s y → x = y
  | [], _, _, _, .nil, .nil => rfl
  | t :: ts, _, _, _, .cons h1 h2, .cons h1' h2' => by
    obtain rfl := C105_pre_unique P t h1 h1'
    exact C105_pre_uniques P ts h2 h2'
end

/-- **C105** The words given to the model are prescribed without ambiguity (when no added token has a flag). -/
theorem C105_words_unique (P : Platform) {t : Tokenizer} (hf : ∀ a, t.added = some a → FlagFree a) {w : WStr} {ws ws' : List WStr}
    (h : Words P t w ws) (h' : Words P t w ws') : ws = ws' := by
  obtain ⟨i, v, j, h1, rfl, h2⟩ := h
  obtain ⟨i', v', j', h1', rfl, h2'⟩ := h'
  have e : i = i' := by
    unfold FirstItems at h1 h1'
    cases ha : t.added with
    | none => rw [ha] at h1 h1'; exact Eq.trans h1 (Eq.symm h1')
    | some a =>
      rw [ha] at h1 h1'
      refine rf_items_unique (hf a ha) (N := Normalizes P t.normalizer) ?_ h1 h1'
      intro x n n' hn hn'
      unfold Normalizes at hn hn'
      cases hnorm : t.normalizer with
      | none => rw [hnorm] at hn hn'; exact Eq.trans hn (Eq.symm hn')
      | some z => rw [hnorm] at hn hn'; exact C104_unique P z hn hn'
  subst e
  cases hp : t.preTokenizer with
  | none => rw [hp] at h2 h2'; simp only at h2 h2'; rw [h2, h2']
  | some x =>
    rw [hp] at h2 h2'
    have := C105_pre_unique P x h2 h2'
    simp only [Prod.mk.injEq] at this
    rw [this.2]

/-- **C105** So are the tokens, with WordPiece. -/
theorem C105_tokens_unique (P : Platform) {t : Tokenizer} (hf : ∀ a, t.added = some a → FlagFree a) {lines : List Str} {m : WordPiece}
    {w : WStr} {ts ts' : List Token} (h : TextTokens P t lines (.wordPiece m) w ts) (h' : TextTokens P t lines (.wordPiece m) w ts') :
    ts = ts' := by
  obtain ⟨ws, parts, h1, h2, rfl⟩ := h
  obtain ⟨ws', parts', h1', h2', rfl⟩ := h'
  obtain rfl := C105_words_unique P hf h1 h1'
  have e := rf_each_unique (R := ModelTokens lines (.wordPiece m)) (fun v x y hx hy => rf_answer_unique (m := m) hx hy) h2 h2'
  rw [e]

/-! ### ByteLevel with `add_prefix_space` discards normalization and added tokens -/

/-- **C105** With `add_prefix_space`, on a text that does not begin with white space, neither the normalizer nor the added tokens
have any effect: the words are those of the text with a space in front. -/
theorem C105_prefix_discards (P : Platform) (hg : GoodRegexes P) {t : Tokenizer} {u : Bool} {c : Nat} {w : WStr} {p : PTS}
    (hpt : t.preTokenizer = some (.byteLevel true u)) (hc : P.iswspace c = false)
    (h : (t.preTokenized P (c :: w)).1 = .ok p) :
    ∃ w' items', PreTokenizes P (.byteLevel false u) (0x20 :: c :: w, [(0x20 :: c :: w, false)]) (w', items') ∧
      Each (fun v s => HasText s v) (items'.map (·.1)) p.splits ∧ ∀ s ∈ p.splits, s.tokens = [] := by
  have main : ∀ p0 : PTS, p0.normalized.normalized = c :: w → (PreTokenizer.byteLevel true u).run P p0 = .ok p →
      ∃ w' items', PreTokenizes P (.byteLevel false u) (0x20 :: c :: w, [(0x20 :: c :: w, false)]) (w', items') ∧
      Each (fun v s => HasText s v) (items'.map (·.1)) p.splits ∧ ∀ s ∈ p.splits, s.tokens = [] := by
    intro p0 h0 h
    simp only [PreTokenizer.run, pl_byteLevel_eq, plPrefix, if_true, h0, hc, Bool.false_eq_true, if_false] at h
    obtain ⟨p1, h1, h⟩ := res_bind_ok.1 h
    obtain ⟨n, e1, h1⟩ := res_bind_ok.1 h1
    have e2 := transform_text e1
    have hst : AtStage (0x20 :: c :: w, [(0x20 :: c :: w, false)]) p1 := by
      unfold PTS.ofNS at h1
      obtain ⟨x, e3, h1⟩ := res_bind_ok.1 h1
      cases h1
      refine ⟨e2, .cons ⟨?_, by simp⟩ .nil⟩
      rw [e2] at e3
      exact (C02_to_string_iff _ _).1 e3
    have hno : ∀ s ∈ p1.splits, s.tokens = [] := by
      unfold PTS.ofNS at h1
      obtain ⟨x, e3, h1⟩ := res_bind_ok.1 h1
      cases h1
      simp
    have h' : (PreTokenizer.byteLevel false u).run P p1 = .ok p := by
      simp only [PreTokenizer.run, pl_byteLevel_eq, plPrefix, Bool.false_eq_true, if_false, res_ok_bind]
      exact h
    obtain ⟨⟨w', items'⟩, k1, k2⟩ := pl_run P hg (.byteLevel false u) hst h'
    have hfin := k2.2
    refine ⟨w', items', k1, ?_, ?_⟩
    · clear k1 k2
      simp only at hfin
      generalize p.splits = l at hfin
      induction hfin with
      | nil => exact .nil
      | cons h _ ih => exact .cons h.1 ih
    · have hall : ∀ x ∈ items', x.2 = false := by
        cases k1 with
        | byteLevel g1 g2 g3 =>
          cases g1
          obtain ⟨groups, g4, rfl⟩ := g2
          cases g4 with
          | cons g5 g6 =>
            cases g6
            simp only [Bool.false_eq_true, if_false] at g5
            obtain ⟨l, _, rfl⟩ := g5
            simp only [List.flatten_cons, List.flatten_nil, List.append_nil] at g3
            intro x hx
            obtain ⟨y, hy, hxy⟩ := each_mem_right g3 x hx
            obtain ⟨_, _, rfl⟩ := List.mem_map.1 hy
            exact hxy.2
      intro s hs
      obtain ⟨x, hx, hxs⟩ := each_mem_right hfin s hs
      by_cases ht : s.tokens = []
      · exact ht
      · have := hxs.2.1 ht
        rw [hall x hx] at this; cases this
  unfold Tokenizer.preTokenized at h
  split at h
  · cases h
  · rename_i p0 hp0
    cases ha : t.added with
    | none =>
      simp only [ha, hpt, res_ok_bind] at h
      refine main p0 ?_ h
      unfold PTS.ofNS at hp0
      obtain ⟨_, _, hp0⟩ := res_bind_ok.1 hp0
      cases hp0; rfl
    | some a =>
      simp only [ha, hpt] at h
      obtain ⟨p1, h1, h⟩ := res_bind_ok.1 h
      exact main p1 (pl_whole P _ a _ p1 h1) h

/-! ### The hypotheses are met -/

/-- Strip and a prefix; split at spaces, then bytes; BPE; the last four tokens; a template; padding to a multiple of four. -/
def pipeTk : Tokenizer :=
  { added := some spaceAdded
    normalizer := some (.seq [.strip true true, .prepend b!"c"])
    preTokenizer := some (.seq [.split b!" " .removed false, .byteLevel false true])
    model := some (.bpe spaceBPE)
    truncation := some { direction := .left, maxLength := 4, strategy := .longestFirst, stride := 0 }
    postProcessor := some (.seq [.byteLevel true true, sampleTemplate])
    padding := some { strategy := .batchLongest, direction := .right, padToMultipleOf := 4, padId := 9, padTypeId := 0, padToken := b!"[PAD]", fixedSize := 0 } }

theorem pl_space_good : GoodRegexes spacePlatform := by
  intro pattern find h
  cases h
  exact spaceFind_good

theorem pl_sample_describable : DescribableText spacePlatform pipeTk w!"ab bc [CLS] abc " := by
  intro a ha
  cases ha
  have hbmp : Bmp w!"ab bc [CLS] abc " := by unfold Bmp Scalar; decide
  have hkeys : (spaceAdded.normTrie.map (·.1)).Nodup := by decide
  have hflags : ∀ i t, mapFind spaceAdded.mapR i = some t → t.singleWord = false ∧ t.lstrip = false ∧ t.rstrip = false := by
    intro i t h
    have : ∀ p ∈ spaceAdded.mapR, p.2.singleWord = false ∧ p.2.lstrip = false ∧ p.2.rstrip = false := by decide
    exact this (i, t) (mapFind_mem h)
  refine ⟨by decide, ⟨hbmp, by decide, ?_, .inl hflags⟩, ?_⟩
  · intro k i j h; exact absurd h (by show ¬ (k, i) ∈ ([] : List (Str × Int)); simp)
  · intro x y n hn
    refine ⟨?_, by decide, ?_, .inl hflags⟩
    · have hb : Bmp (between w!"ab bc [CLS] abc " x y) := bmp_sub hbmp fun c hc => List.mem_of_mem_drop (List.mem_of_mem_take hc)
      cases hn with
      | seq hn =>
        cases hn with
        | cons h1 h2 =>
          cases h2 with
          | cons h2 h3 =>
            cases h3
            cases h1 with
            | strip h1 =>
              cases h2 with
              | prepend h2 =>
                obtain ⟨p, q, e, -⟩ := h1
                have h2 := nt_utf8 h2 (v' := w!"c") ((C02_to_string_iff _ _).1 (by decide))
                subst h2
                intro c hc
                rcases List.mem_append.1 hc with hc | hc
                · have : c = 0x63 := by simpa using hc
                  subst this; unfold Scalar; decide
                · exact hb c (by rw [e]; simp [hc])
    · intro k i j hi hj
      have h1 := (mapFind_iff_mem hkeys k i).2 hi
      have h2 := (mapFind_iff_mem hkeys k j).2 hj
      rw [h1] at h2; cases h2; rfl

/-- The hypotheses of `C105_encode_partial`. -/
example : pipeTk.model = some (.bpe spaceBPE) ∧ ModelIs spacePlatform [b!"a b", b!"b c"] (.bpe spaceBPE) (.bpe spaceBPE) ∧
    (∀ tr, pipeTk.truncation = some tr → IsInt tr.maxLength ∧ IsInt tr.stride) := by
  refine ⟨rfl, ⟨spaceBPE_made, by decide, [], rfl⟩, ?_⟩
  intro tr h
  cases h
  unfold IsInt
  decide

/-- "[CLS] bc [CLS] a bc [SEP] [PAD] [PAD]". -/
example : (pipeTk.encode spacePlatform w!"ab bc [CLS] abc " true).1.map (·.ids) = .ok [101, 4, 101, 0, 4, 102, 9, 9] := by
  decide +kernel

/-- With `add_prefix_space` the "c" the normalizer puts in front is gone: the word is " ab" (`Ġab`). -/
example : (({ pipeTk with preTokenizer := some (.byteLevel true false), truncation := none } : Tokenizer).encode spacePlatform
    w!"ab" false).1.map (·.ids) = .ok [5, 9, 9, 9] := by
  decide +kernel
example : (({ pipeTk with preTokenizer := some (.byteLevel false false), truncation := none } : Tokenizer).encode spacePlatform
    w!"ab" false).1.map (·.ids) = .ok [2, 3, 9, 9] := by
  decide +kernel

end Tok
