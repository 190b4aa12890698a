import Verif.Props.Decoding
import Verif.Props.Decodable
import Verif.Props.Config
import Verif.Spec.WellFormed

set_option autoImplicit false

/-!
C114: what is decoded, and the tokens of an encoding, are well-formed UTF-8.
-/

namespace Tok
open Spec

/-! ### Well-formed byte strings -/

theorem wf_nil : WellFormed [] := ⟨[], .nil⟩

theorem wf_append {s t : Str} (h : WellFormed s) (h' : WellFormed t) : WellFormed (s ++ t) := by
  obtain ⟨w, h⟩ := h
  obtain ⟨v, h'⟩ := h'
  induction h with
  | nil => exact ⟨v, h'⟩
  | cons hc _ ih =>
    obtain ⟨x, hx⟩ := ih
    exact ⟨_ :: x, by rw [List.append_assoc]; exact .cons hc hx⟩

theorem wf_flatten {l : List Str} (h : ∀ s ∈ l, WellFormed s) : WellFormed l.flatten := by
  induction l with
  | nil => exact wf_nil
  | cons s l ih => exact wf_append (h s (by simp)) (ih fun s hs => h s (by simp [hs]))

theorem wf_ascii {s : Str} (h : ∀ c ∈ s, c < 0x80) : WellFormed s := by
  induction s with
  | nil => exact wf_nil
  | cons c s ih => exact wf_append (s := [c]) ⟨[c], .cons (.one c (by have := h c (by simp); omega)) .nil⟩ (ih fun c hc => h c (by simp [hc]))

/-- A character whose bytes begin the text is its first character. -/
theorem wf_first {c c' : Nat} {b b' s s' : Str} (h : Utf8Char c b) (h' : Utf8Char c' b') (e : b ++ s = b' ++ s') : b = b' ∧ s = s' := by
  have h1 := dc_step (y := s) h
  rw [e, dc_step h'] at h1
  have h2 := (utf8Char_iff.1 h).2
  have h3 := (utf8Char_iff.1 h').2
  simp only [Option.some.injEq, Prod.mk.injEq] at h1
  rw [h1.1, ← h2] at h3
  have : b = b' := h3.symm
  subst this
  exact ⟨rfl, List.append_cancel_left e⟩

/-- What follows a well-formed beginning of a well-formed text is well-formed. -/
theorem wf_rest {p t : Str} (hp : WellFormed p) (h : WellFormed (p ++ t)) : WellFormed t := by
  obtain ⟨w, hp⟩ := hp
  induction hp with
  | nil => exact h
  | @cons c b w s hc _ ih =>
    refine ih ?_
    rw [List.append_assoc] at h
    obtain ⟨v, h⟩ := h
    generalize hq : b ++ (s ++ t) = q at h
    cases h with
    | nil => cases hc <;> simp at hq
    | cons hc' hv =>
      obtain ⟨_, rfl⟩ := wf_first hc hc' hq
      exact ⟨_, hv⟩

theorem wf_char_high {c : Nat} {b : Str} (h : Utf8Char c b) : b = [c] ∧ c < 0x80 ∨ (∀ x ∈ b, 0x80 ≤ x) ∧ b ≠ [] := by
  cases h with
  | one _ h => exact .inl ⟨rfl, by omega⟩
  | two x y h1 h2 h3 => refine .inr ⟨?_, by simp⟩; intro z hz; simp at hz; omega
  | three x y z h1 h2 h3 => refine .inr ⟨?_, by simp⟩; intro z hz; simp at hz; omega
  | four x y z t h1 h2 h3 => refine .inr ⟨?_, by simp⟩; intro z hz; simp at hz; omega

/-- A well-formed text can be cut in front of a byte below 0x80. -/
theorem wf_cut {a r : Str} {c : Nat} (hc : c < 0x80) (h : WellFormed (a ++ c :: r)) : WellFormed a ∧ WellFormed (c :: r) := by
  obtain ⟨w, h⟩ := h
  generalize hq : a ++ c :: r = q at h
  induction h generalizing a with
  | nil => simp at hq
  | @cons d b w s hd hs ih =>
    rcases wf_char_high hd with ⟨rfl, hd'⟩ | ⟨hd', hne⟩
    · cases a with
      | nil => exact ⟨wf_nil, by rw [List.nil_append] at hq; rw [hq]; exact ⟨_, .cons hd hs⟩⟩
      | cons x a =>
        simp only [List.cons_append, List.nil_append, List.cons.injEq] at hq
        obtain ⟨rfl, hq⟩ := hq
        obtain ⟨i1, i2⟩ := ih hq
        exact ⟨wf_append (s := [x]) ⟨[x], .cons hd .nil⟩ i1, i2⟩
    · have hlen : b.length ≤ a.length := by
        refine Nat.le_of_not_lt fun hl => ?_
        have e := congrArg (·[a.length]?) hq
        simp only [List.getElem?_append_right (Nat.le_refl _), Nat.sub_self, List.getElem?_cons_zero] at e
        rw [List.getElem?_append_left hl] at e
        have := hd' c (List.mem_of_getElem? e.symm)
        omega
      have e1 : a = b ++ a.drop b.length := by
        have := congrArg (List.take b.length) hq
        rw [List.take_append_of_le_length hlen, List.take_left'] at this
        · conv => lhs; rw [← List.take_append_drop b.length a, this]
        · rfl
      rw [e1, List.append_assoc, List.append_cancel_left_eq] at hq
      obtain ⟨i1, i2⟩ := ih hq
      refine ⟨?_, i2⟩
      rw [e1]
      exact wf_append ⟨[d], by have := Utf8Text.cons hd .nil; simpa using this⟩ i1

/-- … and behind one. -/
theorem wf_tail {c : Nat} {r : Str} (hc : c < 0x80) (h : WellFormed (c :: r)) : WellFormed r :=
  wf_rest (p := [c]) (wf_ascii (by simpa using hc)) h

theorem wf_drop {x r : Str} (hx : ∀ c ∈ x, c < 0x80) (h : WellFormed (x ++ r)) : WellFormed r := wf_rest (wf_ascii hx) h

/-! ### Decoders -/

theorem wf_replaced {pat to s t : Str} (hne : pat ≠ []) (hp : ∀ c ∈ pat, c < 0x80) (ht : ∀ c ∈ to, c < 0x80) (h : Replaced pat to s t)
    (hs : WellFormed s) : WellFormed t := by
  induction h with
  | none => exact hs
  | @some A B out _ _ ih =>
    cases pat with
    | nil => exact absurd rfl hne
    | cons c p =>
      rw [List.append_assoc, List.cons_append] at hs
      obtain ⟨h1, h2⟩ := wf_cut (hp c (by simp)) hs
      exact wf_append (wf_append h1 (wf_ascii ht)) (ih (wf_drop (x := c :: p) hp h2))

theorem wf_replacedAll {l : List (Str × Str)} {s t : Str} (h : ReplacedAll l s t) :
    (∀ r ∈ l, r.1 ≠ [] ∧ (∀ c ∈ r.1, c < 0x80) ∧ ∀ c ∈ r.2, c < 0x80) → WellFormed s → WellFormed t := by
  induction h with
  | nil => exact fun _ h => h
  | @cons r l s t u h1 _ ih =>
    intro hl hs
    obtain ⟨a, b, c⟩ := hl r (by simp)
    exact ih (fun r hr => hl r (by simp [hr])) (wf_replaced a b c h1 hs)

theorem wf_tidied {cleanup : Bool} {s t : Str} (h : Tidied cleanup s t) (hs : WellFormed s) : WellFormed t := by
  cases cleanup with
  | true => exact wf_replacedAll (h.1 rfl) (by decide) hs
  | false => rw [h.2 rfl]; exact hs

theorem wf_each {R : Str → Str → Prop} (hR : ∀ s t, R s t → WellFormed s → WellFormed t) {l l' : List Str} (h : Each R l l')
    (hl : ∀ s ∈ l, WellFormed s) : ∀ s ∈ l', WellFormed s := by
  induction h with
  | nil => exact hl
  | cons h _ ih =>
    intro s hs
    rcases List.mem_cons.1 hs with rfl | hs
    · exact hR _ _ h (hl _ (by simp))
    · exact ih (fun s hs => hl s (by simp [hs])) s hs

theorem wf_decodes {d : Decoder} {ts os : List Str} (h : Decodes d ts os) : TextDecoder d → (∀ s ∈ ts, WellFormed s) →
    ∀ s ∈ os, WellFormed s := by
  induction h with
  | wordPieceNone => intro _ _ s hs; cases hs
  | @wordPiece pre cleanup t o r r' os h1 h2 h3 =>
    intro hd ht
    have hpre : WellFormed pre := by simpa [TextDecoder] using hd
    have hr := wf_each (fun s t (h : Attached pre s t) hs => by
      cases h with
      | continued t => exact wf_rest hpre hs
      | new => exact wf_append (wf_ascii (by decide)) hs) h1 fun s hs => ht s (by simp [hs])
    intro s hs
    rcases List.mem_cons.1 hs with rfl | hs
    · exact wf_tidied h2 (ht _ (by simp))
    · exact wf_each (fun s t h hs => wf_tidied h hs) h3 hr s hs
  | byteLevel => intro hd; simp [TextDecoder] at hd
  | seqNil => exact fun _ h => h
  | @seqCons d l ts us vs _ _ ih1 ih2 =>
    intro hd ht
    simp only [TextDecoder, TextDecoders] at hd
    exact ih2 (by simpa [TextDecoder] using hd.2) (ih1 hd.1 ht)
  | _ => intro _ _ s hs; cases hs

/-! ### decode -/

theorem wf_kept {given : List AddedToken} {skip : Bool} {ts us : List Str} (h : Kept given skip ts us) : ∀ s ∈ us, s ∈ ts := by
  induction h with
  | nil => exact fun _ h => h
  | out _ _ _ ih => exact fun s hs => List.mem_cons_of_mem _ (ih s hs)
  | keep _ _ ih =>
    intro s hs
    rcases List.mem_cons.1 hs with rfl | hs
    · simp
    · exact List.mem_cons_of_mem _ (ih s hs)

theorem wf_contentOf {v : Vocab} {given : List Str} {f : Str → Option Int} {i : Int} {s : Str} (h : contentOf v given f i = some s) :
    s ∈ given ∨ ∃ j, (s, j) ∈ v := by
  unfold contentOf at h
  rw [Option.or_eq_some_iff] at h
  rcases h with h | ⟨_, h⟩
  · have := List.mem_of_getLast? h
    exact .inl (List.mem_filter.1 this).1
  · obtain ⟨A, B, rfl, _⟩ := C110_model_token.1 h
    exact .inr ⟨i, by simp⟩

/-- **C114** Whatever happened before, `decode` returns well-formed UTF-8 if all tokens of the vocabulary and all added tokens are
well-formed and the decoder is, for any list of ids. -/
theorem C114_decode_partial (P : Platform) {t0 t t' : Tokenizer} {l : List AddedToken} {m : Model} {d : Decoder} {cs : List Call}
    (h0 : t0.added = some (AddedVocab.init l)) (hm : t0.model = some m) (hd : t0.decoder = some d)
    (hf : t0.finish = .ok t) (h : History P t cs t') (hM : tokenToId m.vocab [] = none)
    (hv : ∀ p ∈ m.vocab, WellFormed p.1) (hg : ∀ x ∈ l ++ cs.flatMap Call.tokens, WellFormed x.content) (hw : TextDecoder d)
    {ids : List Int} {skip : Bool} {s : Str} (hs : t'.decode ids skip = .ok s) : WellFormed s := by
  have hN := C102_numbering P h0 hm hf h
  rw [dc_given_all, ← List.map_append] at hN
  have hD := C110_decode P h0 hm hd hf h hM hN ids skip
  rw [hs] at hD
  generalize hq : Except.ok s = q at hD
  cases hD with
  | throws => cases hq
  | @text ts us os h1 h2 h3 =>
    cases hq
    refine wf_flatten (wf_decodes h3 hw fun s hs => ?_)
    have hs := wf_kept h2 s hs
    obtain ⟨i, _, hi⟩ := each_mem_right h1 s hs
    rcases wf_contentOf hi with hc | ⟨j, hc⟩
    · rw [List.mem_map] at hc
      obtain ⟨x, hx, rfl⟩ := hc
      exact hg x hx
    · exact hv _ hc

/-! ### encode -/

/-- **C114** All tokens of an encoding and of its overflow windows are well-formed UTF-8 if those of the vocabulary, the special
tokens of the template and the padding token are. -/
theorem C114_tokens (P : Platform) (t : Tokenizer) (w : WStr) (b : Bool) (e : Encoding) (m : Model)
    (hm : t.model = some m) (hn : NamesTokens m) (hS : ∀ s ∈ Specials t, s.ids.length = s.tokens.length)
    (hv : ∀ p ∈ m.vocab, WellFormed p.1) (hs : ∀ s ∈ Specials t, ∀ x ∈ s.tokens, WellFormed x)
    (hp : ∀ p, t.padding = some p → WellFormed p.padToken) (h : (t.encode P w b).1 = .ok e) :
    ∀ x, x = e.toEnc ∨ x ∈ e.overflowing → ∀ s ∈ x.tokens, WellFormed s := by
  obtain ⟨q, text, ⟨p, _, hq⟩, ht, hrows⟩ := C43_rows P t w b e hS h
  rw [hm] at hq
  intro x hx s hsx
  obtain ⟨rows, ⟨_, _, h3, _⟩, hk⟩ := hrows x hx
  rw [h3, List.mem_map] at hsx
  obtain ⟨r, hr, rfl⟩ := hsx
  cases hk r hr with
  | content r0 hmem hro =>
    rw [hro.2.1]
    exact hv _ (mapFind_mem (textRows_known ht (tokenize_known hn hq) r0 hmem))
  | special s j h1 _ h2 => exact hs s h1 _ (List.mem_of_getElem? h2)
  | padding p h1 _ h2 => rw [h2]; exact hp p h1

/-! ### Documents -/

theorem wf_plain : ∀ {b r s : Str}, (∀ x ∈ b, 0x80 ≤ x) → Denotes (b ++ r) s → ∃ s', s = b ++ s' ∧ Denotes r s'
  | [], r, s, _, h => ⟨s, rfl, h⟩
  | c :: b, r, s, hb, h => by
    have hc := hb c (by simp)
    rw [List.cons_append] at h
    generalize hq : b ++ r = q at h
    cases h with
    | plain _ h =>
      subst hq
      obtain ⟨s', rfl, h'⟩ := wf_plain (fun x hx => hb x (by simp [hx])) h
      exact ⟨s', rfl, h'⟩
    | short => omega
    | unit => omega
    | pair => omega

theorem wf_hex {a b c d v : Nat} (h : Hex4 a b c d v) : a < 0x80 ∧ b < 0x80 ∧ c < 0x80 ∧ d < 0x80 := by
  obtain ⟨p, q, r, s, ⟨_, h1⟩, ⟨_, h2⟩, ⟨_, h3⟩, ⟨_, h4⟩, _⟩ := h
  omega

theorem wf_one {c : Nat} {b : Str} (h : Utf8Char c b) : WellFormed b := ⟨[c], by have := Utf8Text.cons h .nil; simpa using this⟩

/-- A JSON string that is well-formed as written denotes well-formed text. -/
theorem wf_denotes : ∀ (n : Nat) {raw s : Str}, raw.length ≤ n → WellFormed raw → Denotes raw s → WellFormed s := by
  intro n
  induction n with
  | zero =>
    intro raw s hl _ h
    cases raw with
    | nil => cases h; exact wf_nil
    | cons => simp at hl
  | succ n ih =>
    intro raw s hl hr h
    obtain ⟨w, hr'⟩ := hr
    cases hr' with
    | nil => cases h; exact wf_nil
    | @cons c b w r hc hw =>
      rcases wf_char_high hc with ⟨rfl, hd⟩ | ⟨hd, hne⟩
      · rw [List.cons_append, List.nil_append] at h hl
        simp only [List.length_cons] at hl
        have hr : WellFormed r := ⟨_, hw⟩
        cases h with
        | plain _ h => exact wf_append (s := [c]) (wf_one hc) (ih (by omega) hr h)
        | @short x y r s hx h =>
          have : x < 0x80 ∧ y < 0x80 := by
            simp only [ShortEscape, List.mem_cons, Prod.mk.injEq, List.not_mem_nil, or_false] at hx
            omega
          simp only [List.length_cons] at hl
          exact wf_append (s := [y]) (wf_ascii (by simpa using this.2)) (ih (by omega) (wf_tail this.1 hr) h)
        | @unit a b c d v u r s hx hu h =>
          obtain ⟨g1, g2, g3, g4⟩ := wf_hex hx
          simp only [List.length_cons] at hl
          refine wf_append (wf_one hu) (ih (by omega) (wf_drop (x := [0x75, a, b, c, d]) ?_ hr) h)
          intro x hx; simp at hx; omega
        | @pair a b c d a' b' c' d' x y u r s hx _ hy _ hu h =>
          obtain ⟨g1, g2, g3, g4⟩ := wf_hex hx
          obtain ⟨k1, k2, k3, k4⟩ := wf_hex hy
          simp only [List.length_cons] at hl
          refine wf_append (wf_one hu) (ih (by omega) (wf_drop (x := [0x75, a, b, c, d, 0x5C, 0x75, a', b', c', d']) ?_ hr) h)
          intro x hx; simp at hx; omega
      · obtain ⟨s', rfl, h'⟩ := wf_plain hd h
        have := List.length_pos_iff.2 hne
        simp only [List.length_append] at hl
        exact wf_append (wf_one hc) (ih (by omega) ⟨_, hw⟩ h')

theorem wf_string {j : Json} {s : Str} (hj : TextDoc j) (h : StringOf j s) : WellFormed s := by
  obtain ⟨raw, rfl, h⟩ := h
  cases hj with
  | str hr => exact wf_denotes _ (Nat.le_refl _) hr h

theorem wf_field {j v : Json} {k : Str} (hj : TextDoc j) (h : Field j k v) : TextDoc v := by
  obtain ⟨l, rfl, A, B, rfl, _⟩ := h
  cases hj with
  | obj _ h2 => exact h2 (k, v) (by simp)

theorem wf_opt {j : Json} {k s : Str} (hj : TextDoc j) (h : Opt StringOf [] j k s) : WellFormed s := by
  obtain ⟨v, h1, ⟨_, rfl⟩ | ⟨_, h⟩⟩ := h
  · exact wf_nil
  · exact wf_string (wf_field hj h1) h

theorem wf_vocab {j : Json} {V : Vocab} {k : Str} (hj : TextDoc j) (h : Opt VocabOf [] j k V) : ∀ p ∈ V, WellFormed p.1 := by
  obtain ⟨v, h1, ⟨_, rfl⟩ | ⟨_, l, rfl, _, _, h⟩⟩ := h
  · intro p hp; cases hp
  · intro p hp
    obtain ⟨v, ⟨A, B, rfl, _⟩, _⟩ := (h p.1 p.2).1 hp
    cases wf_field hj h1 with
    | obj h2 _ => exact h2 (p.1, v) (by simp)

theorem wf_model {P : Platform} {j : Json} {m : Model} (hj : TextDoc j) (h : ModelOf P j (some m)) : ∀ p ∈ m.vocab, WellFormed p.1 := by
  cases h with
  | wordPiece _ h => exact wf_vocab hj h
  | bpe _ h => exact wf_vocab hj h

theorem wf_allOf {α β : Type} {R : α → β → Prop} {l : List α} {m : List β} (h : AllOf R l m) : ∀ y ∈ m, ∃ x ∈ l, R x y := by
  induction h with
  | nil => intro y hy; cases hy
  | cons h _ ih =>
    intro y hy
    rcases List.mem_cons.1 hy with rfl | hy
    · exact ⟨_, by simp, h⟩
    · obtain ⟨x, hx, hr⟩ := ih y hy
      exact ⟨x, by simp [hx], hr⟩

theorem wf_added {j : Json} {l : List AddedToken} (hj : TextDoc j) (h : ArrayOf AddedTokenOf j l) : ∀ x ∈ l, WellFormed x.content := by
  obtain ⟨js, rfl, h⟩ := h
  intro x hx
  obtain ⟨v, hv, fs, rfl, _, ⟨_, h⟩, _⟩ := wf_allOf h x hx
  rcases h with ⟨_, h⟩ | ⟨A, u, B, rfl, _, h⟩
  · rw [h]; exact wf_nil
  · cases hj with
    | arr hj => cases hj _ hv with
      | obj _ h2 => exact wf_string (h2 (_, u) (List.mem_append_right _ (List.mem_cons_self ..))) h

theorem wf_decoder {j : Json} {o : Option Decoder} (h : DecoderOf j o) : TextDoc j → ∀ d, o = some d → NoByteLevel d → TextDecoder d := by
  refine DecoderOf.rec (motive_1 := fun j o _ => TextDoc j → ∀ d, o = some d → NoByteLevel d → TextDecoder d)
    (motive_2 := fun js l _ => (∀ j ∈ js, TextDoc j) → NoByteLevelAll l → TextDecoders l) ?_ ?_ ?_ ?_ ?_ ?_ ?_ ?_ ?_ ?_ ?_ h
  · intro j l ns _ hf _ ih hj d hd hn
    cases hd
    simp only [NoByteLevel] at hn
    simp only [TextDecoder]
    refine ih ?_ hn
    cases wf_field hj hf with
    | arr h => exact h
  · intro j p c _ hp _ hj d hd _
    cases hd
    simp only [TextDecoder]
    exact wf_opt hj hp
  · intro j c a b _ _ _ _ _ d hd _; cases hd; simp only [TextDecoder]
  · intro j p c _ _ _ _ d hd _; cases hd; simp only [TextDecoder]
  · intro j _ _ d hd _; cases hd; simp only [TextDecoder]
  · intro j _ _ d hd _; cases hd; simp only [TextDecoder]
  · intro j _ _ d hd hn; cases hd; simp only [NoByteLevel] at hn
  · intro j s _ _ _ d hd; cases hd
  · intro _ _; simp only [TextDecoders]
  · intro j n l ns _ _ ih1 ih2 hj hn
    simp only [NoByteLevelAll] at hn
    simp only [TextDecoders]
    exact ⟨ih1 (hj j (by simp)) n rfl hn.1, ih2 (fun j h => hj j (by simp [h])) hn.2⟩
  · intro j l ns _ _ _ ih2 hj hn
    exact ih2 (fun j h => hj j (by simp [h])) hn

/-- **C114** For a tokenizer made from a document whose strings are well-formed: whatever happened before, `decode` returns
well-formed UTF-8 for any ids, unless ByteLevel is among the decoders. -/
theorem C114_document_partial (P : Platform) {doc : Json} {t0 t t' : Tokenizer} {l : List AddedToken} {m : Model} {d : Decoder} {cs : List Call}
    (hdoc : Describes P doc t0) (hT : TextDoc doc)
    (h0 : t0.added = some (AddedVocab.init l)) (hm : t0.model = some m) (hd : t0.decoder = some d)
    (hf : t0.finish = .ok t) (h : History P t cs t') (hM : tokenToId m.vocab [] = none)
    (hg : ∀ x ∈ cs.flatMap Call.tokens, WellFormed x.content) (hw : NoByteLevel d)
    {ids : List Int} {skip : Bool} {s : Str} (hs : t'.decode ids skip = .ok s) : WellFormed s := by
  obtain ⟨_, _, ha, _, _, hmod, hdec, _⟩ := hdoc
  refine C114_decode_partial P h0 hm hd hf h hM ?_ ?_ ?_ hs
  · obtain ⟨v, h1, ⟨_, h⟩ | ⟨_, h⟩⟩ := hmod
    · rw [hm] at h; cases h
    · rw [hm] at h; exact wf_model (wf_field hT h1) h
  · intro x hx
    rcases List.mem_append.1 hx with hx | hx
    · obtain ⟨v, h1, ⟨_, h⟩ | ⟨_, a, e, l', h, rfl⟩⟩ := ha
      · rw [h0] at h; cases h
      · rw [h0] at e
        have : l = l' := by
          have := Option.some.inj e
          exact congrArg AddedVocab.addedTokens this
        subst this
        exact wf_added (wf_field hT h1) h x hx
    · exact hg x hx
  · obtain ⟨v, h1, ⟨_, h⟩ | ⟨_, h⟩⟩ := hdec
    · rw [hd] at h; cases h
    · rw [hd] at h; exact wf_decoder h (wf_field hT h1) d rfl hw

/-! ### The byte-level decoder -/

/-- A single byte above 0x7F is not well-formed. -/
theorem wf_lone {b : Nat} (hb : 0x80 ≤ b) : ¬ WellFormed [b] := by
  rintro ⟨w, h⟩
  generalize hq : [b] = q at h
  cases h with
  | nil => cases hq
  | cons hc _ =>
    cases hc with
    | one _ h => simp only [List.cons_append, List.nil_append, List.cons.injEq] at hq; omega
    | two => simp at hq
    | three => simp at hq
    | four => simp at hq

/-- **C114** Unless ByteLevel is the decoder: then the id of a token that is one character such as "é" decodes to a lone byte,
which is not well-formed, although the token is. -/
theorem C114_violated (P : Platform) {t0 t t' : Tokenizer} {l : List AddedToken} {m : Model} {cs : List Call}
    (h0 : t0.added = some (AddedVocab.init l)) (hm : t0.model = some m) (hd : t0.decoder = some .byteLevel)
    (hf : t0.finish = .ok t) (h : History P t cs t') (hM : tokenToId m.vocab [] = none) {f : Str → Option Int}
    (hN : Numbers m.vocab (fun _ => none) ((l ++ cs.flatMap Call.tokens).map (·.content)) f)
    {c : Nat} {b : Str} {i : Int} (hb : Utf8Char c b) (hc : c < 0x10000) (hl : 0x80 ≤ c % 256)
    (hi : contentOf m.vocab ((l ++ cs.flatMap Call.tokens).map (·.content)) f i = some b) :
    WellFormed b ∧ t'.decode [i] false = .ok [c % 256] ∧ ¬ WellFormed [c % 256] := by
  refine ⟨wf_one hb, ?_, wf_lone hl⟩
  have hD := C110_decode P h0 hm hd hf h hM hN [i] false
  generalize t'.decode [i] false = q at hD
  cases hD with
  | throws h1 h2 =>
    simp only [List.mem_singleton] at h1
    subst h1
    rw [hi] at h2
    cases h2
  | @text ts us os h1 h2 h3 =>
    cases h1 with
    | cons h1 h1' =>
      cases h1'
      rw [hi] at h1
      cases h1
      cases h2 with
      | out h => cases h
      | keep _ h2 =>
        cases h2
        cases h3 with
        | byteLevel h3 =>
          cases h3 with
          | cons h3 h3' =>
            cases h3'
            have := dc_reads_unique h3 (C110_reads_text (w := [c]) (by have := Utf8Text.cons hb .nil; simpa using this))
            subst this
            simp [lowBytes, hc]

/-! ### Examples -/

/-- A tokenizer whose vocabulary holds "naïve" and "é". -/
def wfTk (d : Decoder) : Tokenizer :=
  { model := some (wpOf [([0x6E, 0x61, 0xC3, 0xAF, 0x76, 0x65], 0), ([0xC3, 0xA9], 1), ([0x23, 0x23, 0xC3, 0xA9], 2)]),
    decoder := some d, added := some (AddedVocab.init []) }

/-- The hypotheses of `C114_decode_partial` are met: "naïve" followed by the continuation "##é" is "naïveé". -/
example : ∃ t, (wfTk (.wordPiece b!"##" true)).finish = .ok t ∧
    t.decode [0, 2] false = .ok [0x6E, 0x61, 0xC3, 0xAF, 0x76, 0x65, 0xC3, 0xA9] ∧
    WellFormed [0x6E, 0x61, 0xC3, 0xAF, 0x76, 0x65, 0xC3, 0xA9] := by
  refine ⟨{ wfTk (.wordPiece b!"##" true) with }, rfl, ?_, ?_⟩
  · decide +kernel
  · refine C114_decode_partial ascii (t0 := wfTk (.wordPiece b!"##" true)) (t := { wfTk (.wordPiece b!"##" true) with })
      (t' := { wfTk (.wordPiece b!"##" true) with }) rfl rfl rfl rfl (.nil _) rfl ?_ ?_ ?_
      (ids := [0, 2]) (skip := false) ?_
    · intro p hp
      have e : WellFormed [0xC3, 0xA9] := wf_one (.two 3 41 (by decide) (by decide) (by decide))
      have e' : WellFormed [0xC3, 0xAF] := wf_one (.two 3 47 (by decide) (by decide) (by decide))
      simp only [wpOf, Model.vocab, List.mem_cons, List.not_mem_nil, or_false] at hp
      rcases hp with rfl | rfl | rfl
      · exact wf_append (s := [0x6E, 0x61]) (wf_ascii (by decide)) (wf_append (s := [0xC3, 0xAF]) e' (wf_ascii (s := [0x76, 0x65]) (by decide)))
      · exact e
      · exact wf_append (s := [0x23, 0x23]) (wf_ascii (by decide)) e
    · intro x hx; cases hx
    · simp only [TextDecoder]; exact wf_ascii (by decide)
    · decide +kernel

/-- The hypotheses of `C114_violated` are met: with ByteLevel, "é" is decoded to the byte 0xE9. -/
example : ∃ t, (wfTk .byteLevel).finish = .ok t ∧ WellFormed [0xC3, 0xA9] ∧ t.decode [1] false = .ok [0xE9] ∧ ¬ WellFormed [0xE9] := by
  refine ⟨{ wfTk .byteLevel with }, rfl, ?_⟩
  exact C114_violated ascii (t0 := wfTk .byteLevel) (t := { wfTk .byteLevel with }) (t' := { wfTk .byteLevel with })
    (c := 0xE9) (b := [0xC3, 0xA9]) (i := 1) rfl rfl rfl rfl (.nil _) rfl
    (C102_numbering ascii (t0 := wfTk .byteLevel) (t := { wfTk .byteLevel with }) (cs := []) rfl rfl rfl (.nil _))
    (.two 3 41 (by decide) (by decide) (by decide)) (by decide) (by decide) (by decide +kernel)

/-- A document with the keys "naïve" and "é" in its vocabulary. -/
example : TextDoc (.obj [(b!"vocab", .obj [([0x6E, 0x61, 0xC3, 0xAF, 0x76, 0x65], .num b!"0"), ([0xC3, 0xA9], .num b!"1")]),
    (b!"decoder", .obj [(b!"type", .str b!"WordPiece"), (b!"cleanup", .bool true)]), (b!"padding", .null)]) := by
  have e : WellFormed [0xC3, 0xA9] := wf_one (.two 3 41 (by decide) (by decide) (by decide))
  have e' : WellFormed [0xC3, 0xAF] := wf_one (.two 3 47 (by decide) (by decide) (by decide))
  have a {s : Str} (h : ∀ c ∈ s, c < 0x80) : WellFormed s := wf_ascii h
  refine .obj ?_ ?_
  · simp only [List.mem_cons, List.not_mem_nil, or_false]
    rintro f (rfl | rfl | rfl) <;> exact a (by decide)
  · simp only [List.mem_cons, List.not_mem_nil, or_false]
    rintro f (rfl | rfl | rfl)
    · refine .obj ?_ ?_
      · simp only [List.mem_cons, List.not_mem_nil, or_false]
        rintro f (rfl | rfl)
        · exact wf_append (s := [0x6E, 0x61]) (a (by decide)) (wf_append (s := [0xC3, 0xAF]) e' (a (s := [0x76, 0x65]) (by decide)))
        · exact e
      · simp only [List.mem_cons, List.not_mem_nil, or_false]
        rintro f (rfl | rfl) <;> exact .num _
    · refine .obj ?_ ?_
      · simp only [List.mem_cons, List.not_mem_nil, or_false]
        rintro f (rfl | rfl) <;> exact a (by decide)
      · simp only [List.mem_cons, List.not_mem_nil, or_false]
        rintro f (rfl | rfl)
        · exact .str (a (by decide))
        · exact .bool _
    · exact .null

/-- A lone continuation byte is not the text of a document. -/
example : ¬ TextDoc (.str [0xA9]) := by
  intro h
  cases h with
  | str h => exact wf_lone (by decide) h

end Tok
