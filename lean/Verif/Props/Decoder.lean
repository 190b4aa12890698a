import Verif.Props.Added
import Verif.Spec.Decoder

set_option autoImplicit false

/-!
Properties C48, C49, C51, C58: decoding.
-/

namespace Tok
open Spec

/-! ### Substring replacement -/

theorem isPrefixOf_iff (p s : Str) : p.isPrefixOf s = true ↔ ∃ B, s = p ++ B := by
  rw [List.isPrefixOf_iff_prefix]
  exact ⟨fun ⟨B, h⟩ => ⟨B, h.symm⟩, fun ⟨B, h⟩ => ⟨B, h.symm⟩⟩

theorem findSub_spec (pat : Str) (hp : pat ≠ []) (s : Str) :
    match findSub pat s with
    | some i => OccursAt pat s i ∧ ∀ j, OccursAt pat s j → i ≤ j
    | none => ∀ j, ¬ OccursAt pat s j := by
  induction s with
  | nil =>
    simp only [findSub, if_neg hp]
    rintro j ⟨A, B, h, _⟩
    have := congrArg List.length h
    simp at this
    exact hp (List.length_eq_zero_iff.1 (by omega))
  | cons c r ih =>
    simp only [findSub]
    split
    · rename_i i heq
      split at heq
      · rename_i hpre
        cases heq
        obtain ⟨B, hB⟩ := (isPrefixOf_iff _ _).1 hpre
        exact ⟨⟨[], B, by simpa using hB, rfl⟩, fun _ _ => Nat.zero_le _⟩
      · rename_i hpre
        cases hf : findSub pat r with
        | none => rw [hf] at heq; cases heq
        | some k =>
          rw [hf] at heq ih
          simp only [Option.map_some, Option.some.injEq] at heq
          subst heq
          simp only at ih
          obtain ⟨⟨A, B, h1, h2⟩, h3⟩ := ih
          refine ⟨⟨c :: A, B, by simp [h1], by simp [h2]⟩, ?_⟩
          rintro j ⟨A', B', h4, h5⟩
          cases A' with
          | nil => exact absurd ((isPrefixOf_iff _ _).2 ⟨B', by simpa using h4⟩) hpre
          | cons c' A' =>
            simp only [List.cons_append, List.cons.injEq] at h4
            have := h3 _ ⟨A', B', h4.2, rfl⟩
            simp only [List.length_cons] at h5
            omega
    · rename_i heq
      split at heq
      · cases heq
      · rename_i hpre
        cases hf : findSub pat r with
        | some k => rw [hf] at heq; cases heq
        | none =>
          rw [hf] at ih
          simp only at ih
          rintro j ⟨A', B', h4, h5⟩
          cases A' with
          | nil => exact hpre ((isPrefixOf_iff _ _).2 ⟨B', by simpa using h4⟩)
          | cons c' A' =>
            simp only [List.cons_append, List.cons.injEq] at h4
            exact ih _ ⟨A', B', h4.2, rfl⟩

theorem replaceLoop_spec {pat : Str} (hp : pat ≠ []) (to : Str) : ∀ (fuel : Nat) (done rest : Str),
    rest.length ≤ fuel → ∃ out, replaceLoop pat to fuel done.length (done ++ rest) = .ok (done ++ out) ∧
      Replaced pat to rest out := by
  intro fuel
  induction fuel with
  | zero =>
    intro done rest h
    have : rest = [] := List.length_eq_zero_iff.1 (by omega)
    subst this
    have hs := findSub_spec pat hp []
    refine ⟨[], ?_, .none ?_⟩
    · unfold replaceLoop strFind
      simp [findSub, hp]
    · simp only [findSub, if_neg hp] at hs; exact hs
  | succ n ih =>
    intro done rest h
    have hs := findSub_spec pat hp rest
    have hfind : strFind (done ++ rest) pat done.length = (findSub pat rest).map (· + done.length) := by
      unfold strFind
      rw [if_pos (by simp), List.drop_left]
    unfold replaceLoop
    rw [hfind]
    cases hf : findSub pat rest with
    | none =>
      rw [hf] at hs
      exact ⟨rest, rfl, .none hs⟩
    | some i =>
      rw [hf] at hs
      simp only at hs
      obtain ⟨⟨A, B, h1, h2⟩, h3⟩ := hs
      subst h1 h2
      simp only [Option.map_some]
      have hlen : pat.length ≠ 0 := fun h => hp (List.length_eq_zero_iff.1 h)
      obtain ⟨out, h4, h5⟩ := ih (done ++ A ++ to) B (by simp at h; omega)
      refine ⟨A ++ to ++ out, ?_, .some h3 h5⟩
      have e1 : (done ++ (A ++ pat ++ B)).take (A.length + done.length) = done ++ A := by
        have : done ++ (A ++ pat ++ B) = (done ++ A) ++ (pat ++ B) := by simp
        rw [this]
        have hl : A.length + done.length = (done ++ A).length := by simp; omega
        rw [hl, List.take_left]
      have e2 : (done ++ (A ++ pat ++ B)).drop (A.length + done.length + pat.length) = B := by
        have : done ++ (A ++ pat ++ B) = (done ++ A ++ pat) ++ B := by simp
        rw [this]
        have hl : A.length + done.length + pat.length = (done ++ A ++ pat).length := by simp; omega
        rw [hl, List.drop_left]
      rw [e1, e2]
      have e3 : A.length + done.length + to.length = (done ++ A ++ to).length := by simp; omega
      rw [e3, h4]
      simp

/-- **C58** For a non-empty pattern the replacement returns, and exactly the leftmost non-overlapping
occurrences are replaced. -/
theorem C58_replaced (s pat to : Str) (hp : pat ≠ []) :
    ∃ out, replaceStr s pat to = .ok out ∧ Replaced pat to s out := by
  obtain ⟨out, h1, h2⟩ := replaceLoop_spec hp to s.length [] s (Nat.le_refl _)
  exact ⟨out, by simpa [replaceStr] using h1, h2⟩

/-- **C58** The specification determines the result. -/
theorem C58_unique {pat to s out out' : Str} (h : Replaced pat to s out) (h' : Replaced pat to s out') :
    out = out' := by
  induction h generalizing out' with
  | none hn =>
    cases h' with
    | none => rfl
    | @some A B o _ _ => exact absurd ⟨A, B, rfl, rfl⟩ (hn A.length)
  | @some A B o hl hr ih =>
    generalize hs : A ++ pat ++ B = s at h'
    cases h' with
    | none hn => subst hs; exact absurd ⟨A, B, rfl, rfl⟩ (hn A.length)
    | @some A' B' o' hl' hr' =>
      have h1 := hl A'.length ⟨A', B', hs, rfl⟩
      have h2 := hl' A.length ⟨A, B, hs.symm, rfl⟩
      have he : A.length = A'.length := by omega
      have hs' : A ++ (pat ++ B) = A' ++ (pat ++ B') := by simpa using hs
      obtain ⟨rfl, h3⟩ := List.append_inj hs' he
      have := List.append_cancel_left h3
      subst this
      rw [ih hr']

/-- **C58** A text without an occurrence is unchanged. -/
theorem C58_unchanged (s pat to : Str) (hp : pat ≠ []) (hn : ∀ i, ¬ OccursAt pat s i) : replaceStr s pat to = .ok s := by
  obtain ⟨out, h1, h2⟩ := C58_replaced s pat to hp
  rw [h1, C58_unique h2 (.none hn)]

/-- **C58** The cleanup returns for every text, and is the eleven replacements one after the other. -/
theorem C58_cleanup_returns (s : Str) : ∃ l : List Str, l.head? = some s ∧ l.length = 12 ∧
    (∀ i a b r, l[i]? = some a → l[i + 1]? = some b → cleanupRules[i]? = some r → Replaced r.1 r.2 a b) ∧
    ∃ out, l.getLast? = some out ∧ cleanupToken s = .ok out := by
  have gen : ∀ (rules : List (Str × Str)) (s : Str), (∀ r ∈ rules, r.1 ≠ []) →
      ∃ l : List Str, l.head? = some s ∧ l.length = rules.length + 1 ∧
      (∀ i a b r, l[i]? = some a → l[i + 1]? = some b → rules[i]? = some r → Replaced r.1 r.2 a b) ∧
      ∃ out, l.getLast? = some out ∧ applyRules rules s = .ok out := by
    intro rules
    induction rules with
    | nil => intro s _; exact ⟨[s], rfl, rfl, by simp, s, rfl, rfl⟩
    | cons r rules ih =>
      intro s hne
      obtain ⟨o, h1, h2⟩ := C58_replaced s r.1 r.2 (hne r (by simp))
      obtain ⟨l, e1, e2, e3, out, e4, e5⟩ := ih o fun r hr => hne r (by simp [hr])
      cases l with
      | nil => cases e1
      | cons x l =>
        simp only [List.head?_cons, Option.some.injEq] at e1
        subst e1
        refine ⟨s :: x :: l, rfl, by simpa using e2, ?_, out, by rw [List.getLast?_cons_cons]; exact e4, ?_⟩
        · intro i a b r' ha hb hr
          cases i with
          | zero =>
            simp only [List.getElem?_cons_zero, Option.some.injEq, Nat.zero_add, List.getElem?_cons_succ] at ha hb hr
            subst ha hb hr; exact h2
          | succ i =>
            simp only [List.getElem?_cons_succ] at ha hb hr
            exact e3 i a b r' ha hb hr
        · obtain ⟨p, q⟩ := r
          simp only [applyRules]
          simp only at h1
          rw [h1]; exact e5
  have := gen cleanupRules s (by decide)
  exact this

example : replaceStr b!"a .. b ." b!" ." b!"." = .ok b!"a.. b." := by decide +kernel
example : Replaced b!" ." b!"." b!"a . b" (b!"a" ++ b!"." ++ b!" b") := by
  obtain ⟨out, h1, h2⟩ := C58_replaced b!"a . b" b!" ." b!"." (by decide)
  have : replaceStr b!"a . b" b!" ." b!"." = .ok (b!"a" ++ b!"." ++ b!" b") := by decide +kernel
  rw [this] at h1
  exact Except.ok.inj h1 ▸ h2

/-! ### Decoders return -/

theorem wpDecodeLoop_ok (pre : Str) (c : Bool) (ts : List Str) : ∀ i, ∃ out, wpDecodeLoop pre c i ts = .ok out ∧
    out.length = ts.length := by
  induction ts with
  | nil => intro i; exact ⟨[], rfl, rfl⟩
  | cons t r ih =>
    intro i
    obtain ⟨out, h, hl⟩ := ih (i + 1)
    have : ∃ x, wpDecodeTok pre c i t = .ok x := by
      unfold wpDecodeTok
      simp only
      cases c with
      | false => exact ⟨_, rfl⟩
      | true =>
        obtain ⟨_, _, _, _, o, _, ho⟩ := C58_cleanup_returns (if i ≠ 0 then (if strFind t pre 0 = some 0 then t.drop pre.length else 0x20 :: t) else t)
        exact ⟨o, by simpa using ho⟩
    obtain ⟨x, hx⟩ := this
    exact ⟨x :: out, by simp only [wpDecodeLoop, hx, res_ok_bind, h]; rfl, by simp [hl]⟩

/-- **C49** Every decoder returns for every list of tokens. -/
theorem C49_decoder_total (d : Decoder) : ∀ ts, ∃ out, d.run ts = .ok out := by
  refine Decoder.rec (motive_1 := fun d => ∀ ts, ∃ out, d.run ts = .ok out)
    (motive_2 := fun l => ∀ ts, ∃ out, Decoder.runList l ts = .ok out) ?_ ?_ ?_ ?_ ?_ ?_ ?_ ?_ ?_ d
  · intro p c ts
    obtain ⟨out, h, _⟩ := wpDecodeLoop_ok p c ts 0
    exact ⟨out, by simp only [Decoder.run]; exact h⟩
  · intro p c ts; exact ⟨[], by simp only [Decoder.run]⟩
  · intro ts; exact ⟨[], by simp only [Decoder.run]⟩
  · intro ts; exact ⟨[], by simp only [Decoder.run]⟩
  · intro c s e ts; exact ⟨[], by simp only [Decoder.run]⟩
  · intro ts; exact ⟨byteLevelDecode ts, by simp only [Decoder.run]⟩
  · intro l ih ts
    obtain ⟨out, h⟩ := ih ts
    exact ⟨out, by simp only [Decoder.run]; exact h⟩
  · intro ts; exact ⟨ts, by simp only [Decoder.runList]⟩
  · intro d r ih1 ih2 ts
    obtain ⟨o, h⟩ := ih1 ts
    obtain ⟨o', h'⟩ := ih2 o
    exact ⟨o', by simp only [Decoder.runList, h, res_ok_bind]; exact h'⟩

/-- The token with that id, if the added vocabulary or the model knows it. -/
def knownId (a : AddedVocab) (m : Model) (id : Int) : Prop :=
  (∃ t, mapFind a.mapR id = some t) ∨ ∃ k, (k, id) ∈ m.vocab

theorem idToken_cases {t : Tokenizer} {a : AddedVocab} {m : Model} (ha : t.added = some a) (hm : t.model = some m)
    (id : Int) : (knownId a m id ∧ ∃ s, t.idToken id = .ok s) ∨
      (¬ knownId a m id ∧ t.idToken id = .error (.throws .badOptionalAccess)) := by
  unfold Tokenizer.idToken knownId
  rw [ha, hm]
  simp only [AddedVocab.idToToken]
  cases h1 : mapFind a.mapR id with
  | some x => exact .inl ⟨.inl ⟨x, rfl⟩, x.content, rfl⟩
  | none =>
    simp only [Option.map_none]
    cases h2 : idToToken m.vocab id with
    | some k => exact .inl ⟨.inr ⟨k, vocabR_some h2⟩, k, rfl⟩
    | none =>
      refine .inr ⟨?_, rfl⟩
      rintro (⟨x, hx⟩ | ⟨k, hk⟩)
      · cases hx
      · obtain ⟨k', hk'⟩ := vocabR_isSome hk
        unfold idToToken at h2
        rw [hk'] at h2; cases h2

/-- **C49** `decode` throws `bad_optional_access` exactly when some id is unknown both to the added vocabulary and to
the model; otherwise it returns. -/
theorem C49_unknown_ids {t : Tokenizer} {a : AddedVocab} {m : Model} {d : Decoder} (ha : t.added = some a)
    (hm : t.model = some m) (hd : t.decoder = some d) (ids : List Int) (skip : Bool) :
    (t.decode ids skip = .error (.throws .badOptionalAccess) ↔ ∃ id ∈ ids, ¬ knownId a m id) ∧
    ((∀ id ∈ ids, knownId a m id) → ∃ s, t.decode ids skip = .ok s) := by
  have h1 : (∀ id ∈ ids, knownId a m id) → ∃ s, t.decode ids skip = .ok s := by
    intro hk
    have : ∃ ts, t.idTokens skip ids = .ok ts := by
      induction ids with
      | nil => exact ⟨[], rfl⟩
      | cons i r ih =>
        obtain ⟨ts, hts⟩ := ih fun x hx => hk x (by simp [hx])
        rcases idToken_cases ha hm i with ⟨_, s, hs⟩ | ⟨hn, _⟩
        · simp only [Tokenizer.idTokens, hs, hts, res_ok_bind]; exact ⟨_, rfl⟩
        · exact absurd (hk i (by simp)) hn
    obtain ⟨ts, hts⟩ := this
    obtain ⟨out, hout⟩ := C49_decoder_total d ts
    unfold Tokenizer.decode
    rw [hts, res_ok_bind, hd]
    simp only [hout, res_ok_bind]
    exact ⟨_, rfl⟩
  refine ⟨⟨?_, ?_⟩, h1⟩
  · intro h
    apply Classical.byContradiction
    intro hn
    have hk : ∀ id ∈ ids, knownId a m id := fun id hid => Classical.byContradiction fun hh => hn ⟨id, hid, hh⟩
    obtain ⟨s, hs⟩ := h1 hk
    rw [hs] at h; cases h
  · intro h
    have : t.idTokens skip ids = .error (.throws .badOptionalAccess) := by
      clear h1
      induction ids with
      | nil => obtain ⟨_, h, _⟩ := h; cases h
      | cons i r ih =>
        rcases idToken_cases ha hm i with ⟨hk, s, hs⟩ | ⟨hn, he⟩
        · obtain ⟨x, hx, hxn⟩ := h
          rcases List.mem_cons.1 hx with rfl | hx
          · exact absurd hk hxn
          · simp only [Tokenizer.idTokens, hs, res_ok_bind, ih ⟨x, hx, hxn⟩]; rfl
        · simp only [Tokenizer.idTokens, he]; rfl
    unfold Tokenizer.decode
    rw [this]; rfl

example : (tkOf denseV).decode [0, 7] false = .error (.throws .badOptionalAccess) := by decide +kernel
example : (tkOf denseV).decode [0, 2] false = .ok b!"ac" := by decide +kernel

/-- Is the token with this id special? -/
def specialId (t : Tokenizer) (id : Int) : Bool :=
  match t.idToken id with
  | .ok s => t.isSpecial s
  | .error _ => false

/-- **C48** Skipping special tokens is the same as dropping the ids of special tokens first. -/
theorem C48_skip_special (t : Tokenizer) (ids : List Int) :
    t.decode ids true = t.decode (ids.filter fun i => !specialId t i) false := by
  have : t.idTokens true ids = t.idTokens false (ids.filter fun i => !specialId t i) := by
    induction ids with
    | nil => rfl
    | cons i r ih =>
      simp only [Tokenizer.idTokens]
      cases h : t.idToken i with
      | error e =>
        have : specialId t i = false := by unfold specialId; rw [h]
        simp only [List.filter_cons, this, Bool.not_false, if_true, Tokenizer.idTokens, h]
        rfl
      | ok s =>
        have : specialId t i = t.isSpecial s := by unfold specialId; rw [h]
        rw [res_ok_bind, ih]
        cases hs : t.isSpecial s with
        | true =>
          simp only [List.filter_cons, this, hs, Bool.not_true, Bool.false_eq_true, if_false, Bool.or_self]
          cases t.idTokens false (r.filter fun i => !specialId t i) <;> rfl
        | false =>
          simp only [List.filter_cons, this, hs, Bool.not_false, if_true, Tokenizer.idTokens, h, res_ok_bind,
            Bool.or_true]
  unfold Tokenizer.decode
  rw [this]

/-- **C48** and what is special is what was registered so: an id is dropped exactly if its token is special. -/
theorem C48_special_id {t : Tokenizer} {i : Int} {s : Str} (h : t.idToken i = .ok s) :
    specialId t i = t.isSpecial s := by unfold specialId; rw [h]

/-- **C51** (word-piece, byte-level) These decoders return text for a non-empty list of tokens: one string per token,
and one string. -/
theorem C51_returns_text_partial (ts : List Str) (pre : Str) (c : Bool) :
    (∃ out, (Decoder.wordPiece pre c).run ts = .ok out ∧ out.length = ts.length) ∧
    ∃ s, Decoder.byteLevel.run ts = .ok [s] := by
  refine ⟨?_, ts.flatMap decodeBytes, by simp only [Decoder.run, byteLevelDecode]⟩
  obtain ⟨out, h, hl⟩ := wpDecodeLoop_ok pre c ts 0
  exact ⟨out, by simp only [Decoder.run]; exact h, hl⟩

/-- **C51** as stated is false: four of the supported decoders discard every token list, so a tokenizer that
uses one of them, alone or as the last of a sequence, decodes every list of ids to the empty text. -/
theorem C51_violated (pat content : Str) (a b : Int) (ds : List Decoder) (ts : List Str) :
    (Decoder.replace pat content).run ts = .ok [] ∧ Decoder.byteFallback.run ts = .ok [] ∧ Decoder.fuse.run ts = .ok [] ∧
    (Decoder.strip content a b).run ts = .ok [] ∧
    (Decoder.seq (ds ++ [.replace pat content, .byteFallback, .fuse, .strip content a b])).run ts = .ok [] := by
  refine ⟨by simp only [Decoder.run], by simp only [Decoder.run], by simp only [Decoder.run], by simp only [Decoder.run], ?_⟩
  simp only [Decoder.run]
  induction ds generalizing ts with
  | nil => simp only [List.nil_append, Decoder.runList, Decoder.run]; rfl
  | cons d ds ih =>
    obtain ⟨o, ho⟩ := C49_decoder_total d ts
    simp only [List.cons_append, Decoder.runList, ho, res_ok_bind]
    exact ih o

/-- Decoding with such a decoder always gives the empty text. -/
theorem C51_violated_decode {t : Tokenizer} {ids : List Int} {skip : Bool} {s : Str} {d : Decoder}
    (hd : t.decoder = some d) (hdis : d = .byteFallback ∨ d = .fuse ∨ (∃ p c, d = .replace p c) ∨ ∃ c x y, d = .strip c x y)
    (h : t.decode ids skip = .ok s) : s = [] := by
  unfold Tokenizer.decode at h
  obtain ⟨ts, _, h⟩ := res_bind_ok.1 h
  rw [hd] at h
  have : d.run ts = .ok [] := by
    rcases hdis with rfl | rfl | ⟨p, c, rfl⟩ | ⟨c, x, y, rfl⟩ <;> simp only [Decoder.run]
  simp only [this, res_ok_bind] at h
  exact (Except.ok.inj h).symm

example : ({ tkOf denseV with decoder := some .fuse } : Tokenizer).decode [0, 1, 2] false = .ok [] := by decide +kernel

end Tok
