import Verif.Props.Rows
import Verif.Props.Outcome

set_option autoImplicit false

/-!
C107: configurations whose model is not one of the supported types.
-/

namespace Tok
open Spec

/-- The document names a model type other than the two supported ones, or no model. -/
def Unsupported (doc : Json) : Prop :=
  ∃ v, Field doc b!"model" v ∧ (v = .null ∨ ∃ s, HasType v s ∧ s ≠ b!"WordPiece" ∧ s ≠ b!"BPE")

theorem nm_model {P : Platform} {doc : Json} {t : Tokenizer} (hu : Unsupported doc) (h : Describes P doc t) : t.model = none := by
  obtain ⟨v, hv, hu⟩ := hu
  obtain ⟨_, _, _, _, _, ⟨v', hv', h⟩, _⟩ := h
  cases field_unique hv hv'
  rcases h with ⟨_, h⟩ | ⟨hn, h⟩
  · exact h
  · rcases hu with rfl | ⟨s, hs, h1, h2⟩
    · exact absurd rfl hn
    · cases hm : t.model with
      | none => rfl
      | some m =>
        rw [hm] at h
        cases h with
        | wordPiece ht => exact absurd (hasType_unique hs ht) h1
        | bpe ht => exact absurd (hasType_unique hs ht) h2

/-! ### Nothing is ever added -/

theorem nm_assign (al : Bool) : ∀ (l : List AddedToken) (a b : AddedVocab), a.map = [] → assignIds none al l a = .ok b →
    b = a ∧ ∀ t ∈ l, t.content = [] := by
  intro l
  induction l with
  | nil => intro a b _ h; cases h; exact ⟨rfl, by simp⟩
  | cons t r ih =>
    intro a b ha h
    unfold assignIds at h
    by_cases hc : t.content = []
    · rw [if_pos hc] at h
      obtain ⟨h1, h2⟩ := ih a b ha h
      exact ⟨h1, by simpa [hc] using h2⟩
    · rw [if_neg hc] at h
      have : newId a none t.content = .error (.ub .nullDeref) := by simp [newId, ha, mapFind]
      rw [this] at h
      cases h

theorem nm_register : ∀ (l : List AddedToken) (a : AddedVocab), (registerSpecials l a).map = a.map ∧
    ((∀ t ∈ l, t.content = []) → registerSpecials l a = a) := by
  intro l
  induction l with
  | nil => intro a; exact ⟨rfl, fun _ => rfl⟩
  | cons t r ih =>
    intro a
    unfold registerSpecials
    by_cases hc : t.special = true ∧ t.content ≠ [] ∧ a.isSpecial t.content = false
    · rw [if_pos hc]
      refine ⟨(ih _).1, fun h => absurd (h t (by simp)) hc.2.1⟩
    · rw [if_neg hc]
      exact ⟨(ih a).1, fun h => (ih a).2 fun t ht => h t (by simp [ht])⟩

theorem nm_core {al : Bool} {l : List AddedToken} {a b : AddedVocab} {n : Nat} (ha : a.map = []) (h : a.addTokensCore none al l = .ok (n, b)) :
    a.addedTokens = [] ∧ b = { a with nonNormTrie := [], normTrie := [] } ∧ n = 0 := by
  unfold AddedVocab.addTokensCore at h
  obtain ⟨c, h1, h⟩ := res_bind_ok.1 h
  obtain ⟨d, h2, h⟩ := res_bind_ok.1 h
  obtain ⟨g1, g2⟩ := nm_assign al l _ c ((nm_register l a).1.trans ha) h1
  rw [(nm_register l a).2 g2] at g1
  rw [g1] at h2
  have h := Except.ok.inj h
  simp only [Prod.mk.injEq] at h
  obtain ⟨hlen, rfl⟩ := h
  simp only [AddedVocab.refresh] at h2
  split at h2
  · rename_i hc
    cases h2
    refine ⟨hc.2, rfl, ?_⟩
    have : (l.filter fun t => decide (t.content = [])) = l := List.filter_eq_self.2 fun t ht => by simp [g2 t ht]
    rw [← hlen, this, Nat.sub_self]
  · cases h2

/-- What the added vocabulary is without a model. -/
def NmInv (v : Option Vocab) (a : AddedVocab) : Prop := v = none → a = AddedVocab.init []

theorem nm_touched {v : Option Vocab} {a b : AddedVocab} (h : Touched a b) (hi : NmInv v a) : NmInv v b := by
  intro hv
  cases hi hv
  have : b.mapR = [] := nil_of_find fun k => by
    cases hf : mapFind b.mapR k with
    | none => rfl
    | some t => rcases h.new k t hf with h | ⟨_, _, p, hp, _⟩
                · simp [AddedVocab.init, mapFind] at h
                · simp [AddedVocab.init] at hp
  rw [h.same, this]
  rfl

theorem nm_added {v : Option Vocab} {a b : AddedVocab} {l : List AddedToken} {n : Nat} (h : a.addTokensCore v false l = .ok (n, b))
    (hi : NmInv v a) : NmInv v b := by
  intro hv
  cases hv
  cases hi rfl
  exact (nm_core rfl h).2.1

theorem nm_made {P : Platform} {doc : Json} {t : Tokenizer} (hu : Unsupported doc) (h : Tokenizer.make P (.document doc) = .ok t) :
    t.vocab? = none ∧ ∀ a, t.added = some a → NmInv t.vocab? a := by
  simp only [Tokenizer.make] at h
  have : ∃ t0, parseSections P doc.depth doc = .ok t0 ∧ t0.finish = .ok t := by
    cases hp : parseSections P doc.depth doc with
    | error e => rw [hp] at h; cases e <;> cases h
    | ok t0 => rw [hp] at h; exact ⟨t0, rfl, h⟩
  obtain ⟨t0, h0, h⟩ := this
  have hd := parse_sound P doc t0 h0
  have hm := nm_model hu hd
  have hv : t0.vocab? = none := by simp [Tokenizer.vocab?, hm]
  rcases finish_ok h with ⟨hn, rfl⟩ | ⟨a, a', n, ha, rfl, hc⟩
  · exact ⟨hv, fun a ha => by rw [hn] at ha; cases ha⟩
  · refine ⟨hv, ?_⟩
    intro b hb _
    cases hb
    rw [hv] at hc
    rcases describes_added hd with hn | ⟨l, hl⟩
    · rw [hn] at ha; cases ha
    · rw [hl] at ha; cases ha
      obtain ⟨g1, g2, -⟩ := nm_core rfl hc
      rw [g2]
      simp only [AddedVocab.init] at g1 ⊢
      subst g1
      rfl

theorem nm_history {P : Platform} {doc : Json} {t t' : Tokenizer} {cs : List Call} (hu : Unsupported doc)
    (h : Tokenizer.make P (.document doc) = .ok t) (hh : History P t cs t') :
    t'.model = none ∧ ∀ a, t'.added = some a → a = AddedVocab.init [] := by
  obtain ⟨h1, h2⟩ := nm_made hu h
  obtain ⟨h3, h4⟩ := history_inv (I := NmInv) (fun v a a' => nm_touched) (fun v a l n a' => nm_added) hh
  rw [h1] at h3
  refine ⟨?_, fun a ha => h4 h2 a ha h3⟩
  cases hm : t'.model with
  | none => rfl
  | some m => simp [Tokenizer.vocab?, hm] at h3

/-! ### No split ever carries a token -/

/-- No split carries a token. -/
def Tokenless (l : List Split) : Prop := ∀ s ∈ l, s.tokens = []

theorem nm_append {l l' : List Split} (h : Tokenless l) (h' : Tokenless l') : Tokenless (l ++ l') := fun s hs =>
  (List.mem_append.1 hs).elim (h s) (h' s)

theorem nm_scan (u : U16) : ∀ (r : U16) (i c : Nat), scan [] u r i c = [] := by
  intro r
  induction r with
  | nil => intro i c; unfold scan; simp [mapFind]
  | cons x r ih => intro i c; unfold scan; simp [mapFind, ih]

theorem nm_segSplits (w : WStr) (base : Nat) : ∀ (l : List TSeg) (s : List Split), (∀ x ∈ l, x.1 = none) → segSplits w base l = .ok s → Tokenless s := by
  intro l
  induction l with
  | nil => intro s _ h; cases h; intro x hx; cases hx
  | cons x r ih =>
    intro s hl h
    obtain ⟨i, a, b⟩ := x
    obtain rfl : i = none := hl (i, a, b) (by simp)
    unfold segSplits at h
    obtain ⟨_, _, h⟩ := res_bind_ok.1 h
    obtain ⟨_, _, h⟩ := res_bind_ok.1 h
    obtain ⟨y, hy, h⟩ := res_bind_ok.1 h
    cases h
    intro z hz
    rcases List.mem_cons.1 hz with rfl | hz
    · rfl
    · exact ih y (fun x hx => hl x (by simp [hx])) hy z hz

theorem nm_findMatches {a : AddedVocab} {s : Str} {l : List TSeg} (h : (a.findMatches s []).1 = .ok l) : ∀ x ∈ l, x.1 = none := by
  simp only [AddedVocab.findMatches, wordIds, List.foldl_nil, nm_scan, matchSegs] at h
  cases h
  intro x hx
  split at hx
  · simp at hx; rw [hx]
  · cases hx

theorem nm_ofNS {n : NS} {p : PTS} (h : PTS.ofNS n = .ok p) : Tokenless p.splits := by
  unfold PTS.ofNS at h
  obtain ⟨_, _, h⟩ := res_bind_ok.1 h
  cases h
  intro s hs
  simp at hs
  rw [hs]

theorem nm_first {a : AddedVocab} (ha : a.nonNormTrie = []) {w : WStr} {p : PTS} (h : (a.firstSplits w).1 = .ok p) : Tokenless p.splits := by
  unfold AddedVocab.firstSplits at h
  split at h
  · cases h
  · rename_i q hq
    split at h
    · cases h
    · simp only at h
      obtain ⟨segs, h1, h⟩ := res_bind_ok.1 h
      obtain ⟨sp, h2, h⟩ := res_bind_ok.1 h
      cases h
      rw [ha] at h1
      split
      · exact nm_ofNS hq
      · exact nm_segSplits _ _ _ _ (nm_findMatches h1) h2

theorem nm_loop (P : Platform) (norm : Option Normalizer) : ∀ (l : List Split) (a : AddedVocab) (ns : NS) (k : Nat) (r : NS × List Split),
    a.normTrie = [] → (normalizeLoop P norm a ns k l).1 = .ok r → Tokenless l → Tokenless r.2 := by
  intro l
  induction l with
  | nil => intro a ns k r _ h _; unfold normalizeLoop at h; cases h; intro s hs; cases hs
  | cons s l ih =>
    intro a ns k r ha h hl
    unfold normalizeLoop at h
    rw [if_neg (by simp [hl s (by simp)])] at h
    have ht := normalizeSplit_touched P norm a ns k s
    have hs : ∀ x, (normalizeSplit P norm a ns k s).1 = .ok x → Tokenless x.2.1 := by
      intro x hx
      unfold normalizeSplit at hx
      simp only at hx
      split at hx
      · cases hx
      · simp only at hx
        obtain ⟨segs, h1, hx⟩ := res_bind_ok.1 hx
        obtain ⟨sp, h2, hx⟩ := res_bind_ok.1 hx
        cases hx
        rw [ha] at h1
        exact nm_segSplits _ _ _ _ (nm_findMatches h1) h2
    generalize normalizeSplit P norm a ns k s = R at h ht hs
    obtain ⟨x, a1⟩ := R
    cases x with
    | error e => cases h
    | ok x =>
      obtain ⟨ns1, here, n⟩ := x
      simp only at h
      have ha1 : a1.normTrie = [] := (congrArg AddedVocab.normTrie ht.same).trans ha
      have := ih a1 ns1 (k + n)
      generalize normalizeLoop P norm a1 ns1 (k + n) l = R at h this
      obtain ⟨y, a2⟩ := R
      cases y with
      | error e => cases h
      | ok y =>
        obtain ⟨ns2, rest⟩ := y
        cases h
        exact nm_append (hs _ rfl) (this _ ha1 rfl fun s hs => hl s (by simp [hs]))

theorem nm_extract {P : Platform} {norm : Option Normalizer} {w : WStr} {p : PTS}
    (h : ((AddedVocab.init []).extract P norm w).1 = .ok p) : Tokenless p.splits := by
  unfold AddedVocab.extract at h
  have h1 := firstSplits_touched (AddedVocab.init []) w
  have h2 := fun p => nm_first (a := AddedVocab.init []) rfl (w := w) (p := p)
  generalize (AddedVocab.init []).firstSplits w = R at h h1 h2
  obtain ⟨x, a1⟩ := R
  cases x with
  | error e => cases h
  | ok q =>
    simp only at h
    have h3 := nm_loop P norm q.splits a1 q.normalized 0
    generalize normalizeLoop P norm a1 q.normalized 0 q.splits = R at h h3
    obtain ⟨y, a2⟩ := R
    cases y with
    | error e => cases h
    | ok y =>
      cases h
      simp only
      split
      · exact h2 _ rfl
      · exact h3 _ (congrArg AddedVocab.normTrie h1.same) rfl (h2 _ rfl)

theorem nm_splitNormalized {s : Split} {f : U16 → Res (List Seg)} {b : Behavior} {l : List Split} (h : splitNormalized s f b = .ok l) : Tokenless l := by
  unfold splitNormalized at h
  obtain ⟨m, _, h⟩ := res_bind_ok.1 h
  cases h
  intro x hx
  obtain ⟨_, _, rfl⟩ := List.mem_map.1 hx
  rfl

theorem nm_splitLoop (f : U16 → Res (List Seg)) (b : Behavior) : ∀ (l l' : List Split), splitLoop f b l = .ok l' → Tokenless l → Tokenless l' := by
  intro l
  induction l with
  | nil => intro l' h _; cases h; intro s hs; cases hs
  | cons s r ih =>
    intro l' h hl
    rw [splitLoop, if_neg (by simp [hl s (by simp)])] at h
    obtain ⟨here, h1, h⟩ := res_bind_ok.1 h
    obtain ⟨rest, h2, h⟩ := res_bind_ok.1 h
    cases h
    exact nm_append (nm_splitNormalized h1) (ih rest h2 fun s hs => hl s (by simp [hs]))

theorem nm_split {f : U16 → Res (List Seg)} {b : Behavior} {p q : PTS} (h : p.split f b = .ok q) (hp : Tokenless p.splits) : Tokenless q.splits := by
  unfold PTS.split at h
  obtain ⟨l, h1, h⟩ := res_bind_ok.1 h
  cases h
  exact nm_splitLoop f b _ _ h1 hp

theorem nm_mapSplits (P : Platform) : ∀ (l l' : List Split), mapSplits P l = .ok l' → Tokenless l → Tokenless l' := by
  intro l
  induction l with
  | nil => intro l' h _; cases h; intro s hs; cases hs
  | cons s r ih =>
    intro l' h hl
    unfold mapSplits at h
    obtain ⟨n, h1, h⟩ := res_bind_ok.1 h
    obtain ⟨rest, h2, h⟩ := res_bind_ok.1 h
    cases h
    intro x hx
    rcases List.mem_cons.1 hx with rfl | hx
    · exact hl s (by simp)
    · exact ih rest h2 (fun s hs => hl s (by simp [hs])) x hx

mutual
theorem nm_run (P : Platform) : (t : PreTokenizer) → (p q : PTS) → t.run P p = .ok q → Tokenless p.splits → Tokenless q.splits
  | .bert, p, q, h, hp => by
    simp only [PreTokenizer.run, bertPreTokenize] at h
    obtain ⟨p1, h1, h⟩ := res_bind_ok.1 h
    exact nm_split h (nm_split h1 hp)
  | .split .., p, q, h, hp => by
    simp only [PreTokenizer.run, splitPreTokenize] at h
    exact nm_split h hp
  | .byteLevel a u, p, q, h, hp => by
    simp only [PreTokenizer.run, pl_byteLevel_eq] at h
    obtain ⟨p1, h1, h⟩ := res_bind_ok.1 h
    obtain ⟨p2, h2, h⟩ := res_bind_ok.1 h
    obtain ⟨l, h3, h⟩ := res_bind_ok.1 h
    cases h
    refine nm_mapSplits P _ _ h3 (nm_split h2 ?_)
    unfold plPrefix at h1
    split at h1
    · split at h1
      · cases h1
      · split at h1
        · cases h1; exact hp
        · obtain ⟨n, _, h1⟩ := res_bind_ok.1 h1
          exact nm_ofNS h1
    · cases h1; exact hp
  | .seq l, p, q, h, hp => by
    simp only [PreTokenizer.run] at h
    exact nm_runList P l p q h hp
theorem nm_runList (P : Platform) : (l : List PreTokenizer) → (p q : PTS) → PreTokenizer.runList P l p = .ok q → Tokenless p.splits → Tokenless q.splits
  | [], p, q, h, hp => by simp only [PreTokenizer.runList] at h; cases h; exact hp
  | t :: l, p, q, h, hp => by
    simp only [PreTokenizer.runList] at h
    obtain ⟨p1, h1, h⟩ := res_bind_ok.1 h
    exact nm_runList P l p1 q h (nm_run P t p p1 h1 hp)
end

theorem nm_preTokenized {P : Platform} {t : Tokenizer} (ha : ∀ a, t.added = some a → a = AddedVocab.init []) {w : WStr} {p : PTS}
    (h : (t.preTokenized P w).1 = .ok p) : Tokenless p.splits := by
  unfold Tokenizer.preTokenized at h
  split at h
  · cases h
  · rename_i q hq
    have last : ∀ r : Res PTS, (∀ q, r = .ok q → Tokenless q.splits) →
        (do let p ← r; match t.preTokenizer with | none => .ok p | some pt => pt.run P p : Res PTS) = .ok p → Tokenless p.splits := by
      intro r hr h
      obtain ⟨q, h1, h⟩ := res_bind_ok.1 h
      split at h
      · cases h; exact hr _ h1
      · exact nm_run P _ _ _ h (hr _ h1)
    cases hadd : t.added with
    | none =>
      rw [hadd] at h
      exact last (.ok q) (fun q' hq' => by cases hq'; exact nm_ofNS hq) h
    | some a =>
      rw [hadd] at h
      cases ha a hadd
      exact last _ (fun q' hq' => nm_extract hq') h

theorem nm_into (ns : NS) (wi : Option Int) (ty : Int) : ∀ (l : List Split) (k : Nat) (e : Enc), Tokenless l → intoLoop ns wi ty k l = .ok e → e = {} := by
  intro l
  induction l with
  | nil => intro k e _ h; cases h; rfl
  | cons s r ih =>
    intro k e hl h
    unfold intoLoop at h
    obtain ⟨_, _, h⟩ := res_bind_ok.1 h
    obtain ⟨_, _, h⟩ := res_bind_ok.1 h
    obtain ⟨y, h1, h⟩ := res_bind_ok.1 h
    cases h
    rw [hl s (by simp), ih _ y (fun s hs => hl s (by simp [hs])) h1]
    rfl

theorem nm_truncation (tr : Truncation) : tr.run { toEnc := {}, overflowing := [] } = .ok { toEnc := {}, overflowing := [] } := by
  unfold Truncation.run
  split
  · simp [truncate]
  · exact if_pos (Nat.zero_le _)

/-- **C107** A document that asks for a model type the library does not support ("WordLevel", say) is accepted, and no call ever
reports this: for all texts for which `encode` returns at all it returns the same encoding, after any history of calls.  Nothing
of the text is in it: without post-processor and padding it is empty. -/
theorem C107_encode {P : Platform} {doc : Json} {t t' : Tokenizer} {cs : List Call} (hu : Unsupported doc)
    (h : Tokenizer.make P (.document doc) = .ok t) (hh : History P t cs t') (b : Bool) :
    (∀ w w' e e', (t'.encode P w b).1 = .ok e → (t'.encode P w' b).1 = .ok e' → e = e') ∧
    (t'.postProcessor = none → t'.padding = none → ∀ w e, (t'.encode P w b).1 = .ok e → e = { toEnc := {}, overflowing := [] }) := by
  obtain ⟨hm, ha⟩ := nm_history hu h hh
  have key : ∀ w e, (t'.encode P w b).1 = .ok e → t'.doPostProcess { toEnc := {}, overflowing := [] } b = .ok e := by
    intro w e he
    obtain ⟨q, y, ⟨p, hp, hq⟩, hy, hpost⟩ := encode_ok he
    rw [hm] at hq
    cases hq
    rw [nm_into _ _ _ _ _ _ (nm_preTokenized ha hp) hy] at hpost
    exact hpost
  refine ⟨fun w w' e e' h1 h2 => ?_, fun hpp hpad w e he => ?_⟩
  · have h1 := key w e h1
    rw [key w' e' h2] at h1
    exact (Except.ok.inj h1).symm
  · have h1 := key w e he
    obtain ⟨e1, e2, h1, h2, h3⟩ := postProcess_ok h1
    rw [hpp] at h2
    rw [hpad] at h3
    cases h2; cases h3
    cases htr : t'.truncation with
    | none => rw [htr] at h1; cases h1; rfl
    | some tr => rw [htr] at h1; simp only [nm_truncation] at h1; cases h1; rfl

/-- **C107** Nothing can be added to such a tokenizer: a document with added tokens, and every later call that adds a token with a
text, dereferences the missing model. -/
theorem C107_add {P : Platform} {doc : Json} (hu : Unsupported doc) :
    (∀ t l, Describes P doc t → t.added = some (AddedVocab.init l) → l ≠ [] → ∃ k, Tokenizer.make P (.document doc) = .error (.ub k)) ∧
    ∀ (t t' : Tokenizer) (cs : List Call), Tokenizer.make P (.document doc) = .ok t → History P t cs t' →
      ∀ l, (∃ x ∈ l, x.content ≠ []) → t'.addTokens l = .error (.ub .nullDeref) ∧ t'.addSpecialTokens l = .error (.ub .nullDeref) := by
  constructor
  · intro t l hd hl hne
    refine C52_unsafe P doc t hd fun hs => ?_
    have := hs l hl
    rw [nm_model hu hd] at this
    exact hne this
  · intro t t' cs h hh l hx
    obtain ⟨hm, ha⟩ := nm_history hu h hh
    have core : (AddedVocab.init []).addTokensCore none false l = .error (.ub .nullDeref) := by
      have : ∀ (l : List AddedToken) (a : AddedVocab), a.map = [] → (∃ x ∈ l, x.content ≠ []) → assignIds none false l a = .error (.ub .nullDeref) := by
        intro l
        induction l with
        | nil => intro a _ ⟨x, hx, _⟩; cases hx
        | cons t r ih =>
          intro a ha ⟨x, hx, hc⟩
          unfold assignIds
          by_cases ht : t.content = []
          · rw [if_pos ht]
            refine ih a ha ⟨x, ?_, hc⟩
            rcases List.mem_cons.1 hx with rfl | hx
            · exact absurd ht hc
            · exact hx
          · rw [if_neg ht, show newId a none t.content = .error (.ub .nullDeref) by simp [newId, ha, mapFind]]
            rfl
      unfold AddedVocab.addTokensCore
      rw [this l _ ((nm_register l _).1) hx]
      rfl
    unfold Tokenizer.addTokens Tokenizer.addSpecialTokens
    cases hadd : t'.added with
    | none => exact ⟨rfl, rfl⟩
    | some a =>
      cases ha a hadd
      simp only [AddedVocab.addSpecialTokens, AddedVocab.addTokens, hm, Option.map_none, core]
      exact ⟨rfl, rfl⟩

/-- **C107** No id can be decoded. -/
theorem C107_decode {P : Platform} {doc : Json} {t t' : Tokenizer} {cs : List Call} (hu : Unsupported doc)
    (h : Tokenizer.make P (.document doc) = .ok t) (hh : History P t cs t') (i : Int) (ids : List Int) (skip : Bool) :
    t'.decode (i :: ids) skip = .error (.ub .nullDeref) := by
  obtain ⟨hm, ha⟩ := nm_history hu h hh
  have : t'.idToken i = .error (.ub .nullDeref) := by
    unfold Tokenizer.idToken
    cases hadd : t'.added with
    | none => rfl
    | some a => cases ha a hadd; simp [AddedVocab.idToToken, AddedVocab.init, mapFind, hm]
  simp only [Tokenizer.decode, Tokenizer.idTokens, this]
  rfl

/-- A configuration with a word-level model, which the Hugging Face library supports. -/
def wordLevelDoc : Json :=
  .obj [(b!"truncation", .null), (b!"padding", .null), (b!"added_tokens", .arr []),
    (b!"normalizer", .null), (b!"pre_tokenizer", .obj [(b!"type", .str b!"BertPreTokenizer")]),
    (b!"post_processor", .null), (b!"decoder", .null),
    (b!"model", .obj [(b!"type", .str b!"WordLevel"), (b!"unk_token", .str b!"[UNK]"), (b!"vocab", .obj [(b!"hello", .num b!"0"), (b!"[UNK]", .num b!"1")])])]

/-- **C107** The property is false: the constructor accepts the configuration, and `encode` returns nothing at all for `hello`. -/
theorem C107_violated : Unsupported wordLevelDoc ∧ ∃ t, Tokenizer.make ascii (.document wordLevelDoc) = .ok t ∧
    (t.encode ascii w!"hello" true).1.map (·.ids) = .ok [] := by
  refine ⟨⟨.obj [(b!"type", .str b!"WordLevel"), (b!"unk_token", .str b!"[UNK]"), (b!"vocab", .obj [(b!"hello", .num b!"0"), (b!"[UNK]", .num b!"1")])], ?_,
    .inr ⟨b!"WordLevel", ?_, by decide, by decide⟩⟩, _, rfl, by decide +kernel⟩
  · exact ⟨_, rfl, [(b!"truncation", .null), (b!"padding", .null), (b!"added_tokens", .arr []),
      (b!"normalizer", .null), (b!"pre_tokenizer", .obj [(b!"type", .str b!"BertPreTokenizer")]),
      (b!"post_processor", .null), (b!"decoder", .null)], [], rfl, by decide⟩
  · refine ⟨.str b!"WordLevel", ⟨_, rfl, [], _, rfl, by simp⟩, _, rfl, ?_⟩
    repeat (first | exact .nil | refine .plain (by decide) ?_)

end Tok
