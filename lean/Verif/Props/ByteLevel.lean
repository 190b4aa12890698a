import Verif.Props.Split
import Verif.Proofs.ByteLevel

set_option autoImplicit false

/-!
C03, C04, C05, C08, C62, C64: the byte alphabet and the ByteLevel pre-tokenizer and decoder.
-/

namespace Tok
open Spec

/-! ### C03 -/

/-- **C03** Every byte has a character, and it is the one of the GPT-2 alphabet. -/
theorem C03_alphabet (b : Nat) (hb : b < 256) :
    ∃ s, mapFind bytesChar b = some s ∧ Utf8Text [byteCode b] s := by
  refine ⟨utf8Enc1 (byteCode b), bytesChar_some hb, utf8Text_iff.2 ⟨?_, by simp⟩⟩
  have := byteText_scalars (s := [b]) (by simpa using hb)
  exact this

/-- **C03** Nothing but the 256 byte values has a character. -/
theorem C03_only_bytes (k : Nat) : (∃ s, mapFind bytesChar k = some s) ↔ k < 256 := by
  constructor
  · rintro ⟨s, h⟩
    by_cases hk : k < 256
    · exact hk
    · rw [bytesChar_none (by omega)] at h; cases h
  · intro h; exact ⟨_, bytesChar_some h⟩

/-- **C03** No two bytes share a character. -/
theorem C03_injective (a b : Nat) (ha : a < 256) (hb : b < 256)
    (h : mapFind bytesChar a = mapFind bytesChar b) : a = b := by
  rw [bytesChar_some ha, bytesChar_some hb] at h
  have h1 : utf8 [byteCode a] = utf8 [byteCode b] := by simpa using h
  have := utf8_injective (byteText_scalars (s := [a]) (by simpa using ha))
    (byteText_scalars (s := [b]) (by simpa using hb)) h1
  exact byteCode_inj (by simpa [byteText] using this)

/-- **C03** The bytes that are not printable get increasing code points from U+0100 on. -/
theorem C03_hidden_increasing (a b : Nat) (ha : ¬ Printable a) (hb : ¬ Printable b) :
    0x100 ≤ byteCode a ∧ (a < b → byteCode a < byteCode b) := by
  simp only [byteCode, ha, hb, if_false]
  exact ⟨by omega, fun h => by have := hiddenBelow_strict h ha; omega⟩

example : mapFind bytesChar 0x20 = some b!"Ġ" := by
  rw [bytesChar_some (by decide)]; decide
example : mapFind bytesChar 0x41 = some b!"A" := by
  rw [bytesChar_some (by decide)]; decide
example : mapFind bytesChar 0xAD = some b!"Ń" := by
  rw [bytesChar_some (by decide)]; decide +kernel

/-! ### C04 -/

/-- The engine used by ByteLevel on a text. -/
theorem byteLevel_fn_parts (P : Platform) (useRegex : Bool) (find : U16 → List (Nat × Nat))
    (hfind : P.regex byteLevelPattern = some find) (hgood : GoodEngine find) {w : WStr}
    (hw : Scalars w) : ∃ ps : Parts, partsText ps = w ∧
      (if useRegex then findMatches P byteLevelPattern (utf16 w)
        else .ok [((0, (utf16 w).length), false)]) = .ok (place 0 ps) := by
  cases useRegex with
  | true =>
    obtain ⟨ho, hb⟩ := goodEngine_text hgood hw
    obtain ⟨ps, hp1, hp2⟩ := segments_parts (find (utf16 w)) [] w rfl ho hb
    refine ⟨ps, hp1, ?_⟩
    simp only [if_true, findMatches, hfind]
    rw [← units_eq]; exact congrArg Except.ok hp2
  | false => exact ⟨[(w, false)], by simp, by simp [place, units_eq]⟩

theorem pieceSplits_each (base : Nat) (ps : Parts) (hps : ∀ p ∈ ps, p.2 = false) : ∀ pos,
    Each (fun (p : WStr × Bool) (q : Split) => q.tokens = [] ∧ q.normalized = utf8 p.1) ps
      (pieceSplits base pos ps) := by
  induction ps with
  | nil => intro pos; exact .nil
  | cons p ps ih =>
    intro pos
    obtain ⟨v, b⟩ := p
    have hb : b = false := hps (v, b) (by simp)
    subst hb
    exact .cons ⟨rfl, rfl⟩ (ih (fun p hp => hps p (by simp [hp])) _)

/-- The pieces before the alphabet is applied. -/
def RawPieces (s : Split) (part : List Split) : Prop :=
  (s.tokens ≠ [] ∧ part = [s]) ∨
  (s.tokens = [] ∧ ∃ bs : List Str, bs.flatten = s.normalized ∧
    Each (fun b q => q.tokens = [] ∧ q.normalized = b ∧ ∀ x ∈ b, x ∈ s.normalized) bs part ∧
    ∃ w, HasText s w ∧ Tiles s.offsets.1 (part.map (·.offsets)) (s.offsets.1 + units w))

theorem Each.imp {α β : Type} {R S : α → β → Prop} (h : ∀ a b, R a b → S a b) {l : List α} {m : List β}
    (he : Each R l m) : Each S l m := by
  induction he with
  | nil => exact .nil
  | cons h1 _ ih => exact .cons (h _ _ h1) ih

theorem Each.map_left {α β γ : Type} {R : γ → β → Prop} {f : α → γ} {l : List α} {m : List β}
    (he : Each (fun a b => R (f a) b) l m) : Each R (l.map f) m := by
  induction he with
  | nil => exact .nil
  | cons h1 _ ih => exact .cons h1 ih

theorem Each.map_right {α β γ : Type} {R : α → γ → Prop} {f : β → γ} {l : List α} {m : List β}
    (he : Each (fun a b => R a (f b)) l m) : Each R l (m.map f) := by
  induction he with
  | nil => exact .nil
  | cons h1 _ ih => exact .cons h1 ih

theorem Each.imp_mem {α β : Type} {R S : α → β → Prop} {l : List α} {m : List β}
    (h : ∀ a b, a ∈ l → b ∈ m → R a b → S a b) (he : Each R l m) : Each S l m := by
  induction he with
  | nil => exact .nil
  | cons h1 _ ih =>
    exact .cons (h _ _ (by simp) (by simp) h1) (ih fun a b ha hb => h a b (by simp [ha]) (by simp [hb]))

theorem byteLevel_split (P : Platform) (useRegex : Bool) (find : U16 → List (Nat × Nat))
    (hfind : P.regex byteLevelPattern = some find) (hgood : GoodEngine find)
    (l : List Split) (htext : ∀ s ∈ l, ∃ w, HasText s w) :
    ∃ parts : List (List Split), splitLoop (fun u => if useRegex then findMatches P byteLevelPattern u
        else .ok [((0, u.length), false)]) .isolated l = .ok parts.flatten ∧ Each RawPieces l parts := by
  refine splitLoop_total (R := RawPieces) l fun s hs => ⟨fun ht => .inl ⟨ht, rfl⟩, fun ht => ?_⟩
  obtain ⟨w, hw⟩ := htext s hs
  obtain ⟨hsc, hn⟩ := utf8Text_iff.1 hw
  obtain ⟨ps, hp1, hp2⟩ := byteLevel_fn_parts P useRegex find hfind hgood hsc
  have hs := splitNormalized_parts (fn := fun u => if useRegex then findMatches P byteLevelPattern u
        else .ok [((0, u.length), false)]) hsc hn hp1 hp2 .isolated
  simp only at hs
  have hall : ∀ p ∈ ps.map (fun p => (p.1, false)), p.2 = false := by simp
  obtain ⟨e1, e2, e3⟩ := pieceSplits_isolated s.offsets.1 (ps.map fun p => (p.1, false)) hall 0
  have hea := pieceSplits_each s.offsets.1 (ps.map fun p => (p.1, false)) hall 0
  have htx : partsText (ps.map fun p => (p.1, false)) = w := by
    rw [← hp1]; simp only [partsText, List.map_map]; rfl
  rw [htx] at e1 e2
  refine ⟨_, hs, .inr ⟨ht, (ps.map fun p => (p.1, false)).map fun p => utf8 p.1, ?_, ?_, w, hw, by simpa using e2⟩⟩
  · rw [hn, ← htx]
    generalize (ps.map fun p => (p.1, false)) = qs
    induction qs with
    | nil => rfl
    | cons q qs ih => simp [ih]
  · refine Each.map_left (Each.imp_mem ?_ hea)
    rintro a q ha _ ⟨h1, h2⟩
    refine ⟨h1, h2, fun x hx => ?_⟩
    rw [hn, ← htx]
    simp only [utf8, List.mem_flatMap, partsText, List.mem_flatten, List.mem_map] at hx ⊢
    obtain ⟨c, hc, hx⟩ := hx
    refine ⟨c, ⟨a.1, ⟨a, ?_, rfl⟩, hc⟩, hx⟩
    simpa using ha

theorem hasText_bytes {s : Split} {w : WStr} (h : HasText s w) : ∀ b ∈ s.normalized, b < 256 := by
  obtain ⟨h1, h2⟩ := utf8Text_iff.1 h
  rw [h2]; exact utf8_bytes h1

theorem rawPieces_bytes {l : List Split} {parts : List (List Split)} (h : Each RawPieces l parts)
    (Q : Nat → Prop) (hl : ∀ s ∈ l, ∀ b ∈ s.normalized, Q b) :
    ∀ s ∈ parts.flatten, ∀ b ∈ s.normalized, Q b := by
  induction h with
  | nil => simp
  | cons h1 _ ih =>
    rename_i s part l parts _
    intro q hq b hb
    simp only [List.flatten_cons, List.mem_append] at hq
    rcases hq with hq | hq
    · rcases h1 with ⟨_, rfl⟩ | ⟨_, bs, _, he, _⟩
      · simp at hq; subst hq; exact hl q (by simp) b hb
      · have : ∀ {bs : List Str} {part : List Split}, Each (fun b q => q.tokens = [] ∧ q.normalized = b ∧
            ∀ x ∈ b, x ∈ s.normalized) bs part → q ∈ part → b ∈ s.normalized := by
          intro bs part he
          induction he with
          | nil => simp
          | cons h1 _ ih2 =>
            intro hq; simp at hq; rcases hq with rfl | hq
            · exact h1.2.2 b (by rw [← h1.2.1]; exact hb)
            · exact ih2 hq
        exact hl s (by simp) b (this he hq)
    · exact ih (fun s hs => hl s (by simp [hs])) q hq b hb

theorem rawPieces_bytes_back {l : List Split} {parts : List (List Split)} (h : Each RawPieces l parts)
    (Q : Nat → Prop) (hl : ∀ s ∈ parts.flatten, ∀ b ∈ s.normalized, Q b) :
    ∀ s ∈ l, ∀ b ∈ s.normalized, Q b := by
  induction h with
  | nil => simp
  | cons h1 _ ih =>
    rename_i s part l parts _
    intro q hq b hb
    simp only [List.mem_cons] at hq
    rcases hq with rfl | hq
    · rcases h1 with ⟨_, rfl⟩ | ⟨_, bs, e, he, _⟩
      · exact hl q (by simp) b hb
      · rw [← e] at hb
        have : ∀ {bs : List Str} {part : List Split}, Each (fun b s => s.tokens = [] ∧ s.normalized = b ∧
            ∀ x ∈ b, x ∈ q.normalized) bs part → b ∈ bs.flatten → ∃ s ∈ part, b ∈ s.normalized := by
          intro bs part he
          induction he with
          | nil => simp
          | cons h1 _ ih2 =>
            rename_i b0 s0 _ _ _
            intro hb; simp only [List.flatten_cons, List.mem_append] at hb
            rcases hb with hb | hb
            · exact ⟨s0, by simp, by rw [h1.2.1]; exact hb⟩
            · obtain ⟨s1, m1, m2⟩ := ih2 hb; exact ⟨s1, by simp [m1], m2⟩
        obtain ⟨s1, m1, m2⟩ := this he hb
        exact hl s1 (by simp [m1]) b m2
    · exact ih (fun s hs => hl s (by simp only [List.flatten_cons, List.mem_append]; exact .inr hs)) q hq b hb

theorem coded_of_raw {s : Split} {part : List Split} (hs : ∀ b ∈ s.normalized, b < 256)
    (h : RawPieces s part) :
    CodedPieces s (part.map fun s => { s with normalized := utf8 (byteText s.normalized) }) := by
  rcases h with ⟨ht, rfl⟩ | ⟨ht, bs, e, he, w, hw, htile⟩
  · exact .inl ⟨ht, _, rfl, rfl, rfl, utf8Text_iff.2 ⟨byteText_scalars hs, rfl⟩⟩
  · refine .inr ⟨ht, bs, e, Each.map_right (Each.imp ?_ he), w, hw, ?_⟩
    · rintro b q ⟨h1, rfl, h3⟩
      exact ⟨h1, utf8Text_iff.2 ⟨byteText_scalars fun x hx => hs x (h3 x hx), rfl⟩⟩
    · rw [List.map_map]; exact htile

/-- Is a list of splits safe for the conversion of a `char` to the key of the byte table:
plain `char` is unsigned, or all the text is ASCII. -/
def KeySafe (P : Platform) (l : List Split) : Prop :=
  P.charSigned = true → ∀ s ∈ l, ∀ b ∈ s.normalized, b < 128

/-- **C04** (partial: on platforms where `char` is signed only for ASCII text).
ByteLevel pre-tokenization without `add_prefix_space` does not fail, and the bytes of each
split are found again, in order, in its pieces, written in the byte alphabet. -/
theorem C04_lossless_partial (P : Platform) (useRegex : Bool) (find : U16 → List (Nat × Nat))
    (hfind : P.regex byteLevelPattern = some find) (hgood : GoodEngine find)
    (p : PTS) (htext : ∀ s ∈ p.splits, ∃ w, HasText s w) (hsafe : KeySafe P p.splits) :
    ∃ p' parts, (PreTokenizer.byteLevel false useRegex).run P p = .ok p' ∧
      p'.normalized = p.normalized ∧ p'.splits = parts.flatten ∧ Each CodedPieces p.splits parts := by
  obtain ⟨parts, h1, h2⟩ := byteLevel_split P useRegex find hfind hgood p.splits htext
  have hb : ∀ s ∈ p.splits, ∀ b ∈ s.normalized, b < 256 := by
    intro s hs; obtain ⟨w, hw⟩ := htext s hs; exact hasText_bytes hw
  have hk : ∀ s ∈ parts.flatten, KeyOk P s.normalized := fun s hs b hb' =>
    ⟨rawPieces_bytes h2 _ hb s hs b hb', fun hc => rawPieces_bytes h2 _ (hsafe hc) s hs b hb'⟩
  let code : Split → Split := fun s => { s with normalized := utf8 (byteText s.normalized) }
  refine ⟨{ p with splits := parts.flatten.map code }, parts.map fun q => q.map code, ?_, rfl, ?_, ?_⟩
  · simp only [PreTokenizer.run, byteLevelPreTokenize, PTS.split, h1, Bool.false_eq_true, if_false,
      res_ok_bind, res_pure, mapSplits_ok hk]
    rfl
  · simp only [List.map_flatten]
  · refine Each.map_right (Each.imp_mem ?_ h2)
    intro s part hs _ hr
    exact coded_of_raw (hb s hs) hr

/-- **C04** The restriction is exact: where `char` is signed the call throws
`out_of_range` as soon as the text is not ASCII. -/
theorem C04_fails_nonascii (P : Platform) (useRegex : Bool) (find : U16 → List (Nat × Nat))
    (hfind : P.regex byteLevelPattern = some find) (hgood : GoodEngine find)
    (p : PTS) (htext : ∀ s ∈ p.splits, ∃ w, HasText s w) (hsafe : ¬ KeySafe P p.splits) :
    (PreTokenizer.byteLevel false useRegex).run P p = .error (.throws .outOfRange) := by
  obtain ⟨parts, h1, h2⟩ := byteLevel_split P useRegex find hfind hgood p.splits htext
  have hb : ∀ s ∈ p.splits, ∀ b ∈ s.normalized, b < 256 := by
    intro s hs; obtain ⟨w, hw⟩ := htext s hs; exact hasText_bytes hw
  have hk : ¬ ∀ s ∈ parts.flatten, KeyOk P s.normalized := by
    intro hk
    apply hsafe
    intro hc
    exact rawPieces_bytes_back h2 _ fun s hs b hb' => (hk s hs b hb').2 hc
  simp only [PreTokenizer.run, byteLevelPreTokenize, PTS.split, h1, Bool.false_eq_true, if_false,
      res_ok_bind, res_pure, mapSplits_error (rawPieces_bytes h2 _ hb) hk, res_error_bind]

/-- **C04** With `add_prefix_space` and a text that starts with white space nothing
changes. -/
theorem C04_prefix_space_present (P : Platform) (useRegex : Bool) (p : PTS) (c : Nat) (r : WStr)
    (hp : p.normalized.normalized = c :: r) (hc : P.iswspace c = true) :
    (PreTokenizer.byteLevel true useRegex).run P p = (PreTokenizer.byteLevel false useRegex).run P p := by
  simp [PreTokenizer.run, byteLevelPreTokenize, hp, hc]

/-- **C04** With `add_prefix_space` and a text that does not start with white space the
call continues with the single split that holds a space and the text. -/
theorem C04_prefix_space_added (P : Platform) (useRegex : Bool) (p : PTS) (c : Nat) (r : WStr)
    (hp : p.normalized.normalized = c :: r) (hsc : ∀ x ∈ c :: r, Scalar x)
    (hc : P.iswspace c = false) (a k : Nat) (rs : List (Nat × Nat))
    (hr : p.normalized.ranges = (a, k) :: rs) (ha : a < p.normalized.offsets.length) :
    ∃ n s, n.normalized = 0x20 :: c :: r ∧ Utf8Text (0x20 :: c :: r) s ∧
      (PreTokenizer.byteLevel true useRegex).run P p =
        (PreTokenizer.byteLevel false useRegex).run P
          { normalized := n, splits := [{ normalized := s, offsets := (0, (c :: r).length + 1) }] } := by
  have hw : Scalars (0x20 :: c :: r) := by
    rw [Scalars.cons]; exact ⟨rfl, fun x hx => scalar_iff.1 (hsc x hx)⟩
  have hto : convertToString (0x20 :: c :: r) = .ok (utf8 (0x20 :: c :: r)) := convertToString_scalars hw
  have hpos : p.normalized.offsets[a]? = some (p.normalized.offsets[a]) := List.getElem?_eq_getElem ha
  refine ⟨{ normalized := 0x20 :: c :: r
            offsets := p.normalized.offsets.take a ++ p.normalized.offsets[a] :: p.normalized.offsets.drop a
            ranges := (a, 1) :: (a + 1, k) :: mkRanges (a + 1 + k) (rs.map (·.2)) },
    utf8 (0x20 :: c :: r), rfl, utf8Text_iff.2 ⟨hw, rfl⟩, ?_⟩
  simp [PreTokenizer.run, byteLevelPreTokenize, hp, hc, NS.transform, hr, vecAt, ha, insertAt,
    Nat.le_of_lt ha, PTS.ofNS, hto, List.replicate]

/-- **C04 is violated**: with `add_prefix_space` the empty text is an error. -/
theorem C04_violated_empty (P : Platform) (useRegex : Bool) (p : PTS)
    (hp : p.normalized.normalized = []) :
    (PreTokenizer.byteLevel true useRegex).run P p = .error (.throws .outOfRange) := by
  simp [PreTokenizer.run, byteLevelPreTokenize, hp]

/-- A platform with unsigned `char`. -/
def unsignedPlatform : Platform := { spacePlatform with charSigned := false }

example := C04_lossless_partial unsignedPlatform true _ rfl spaceFind_good _ samplePTS_text
  (fun h => by simp [unsignedPlatform] at h)

/-- **C04 is violated** on x86: "é" cannot be pre-tokenized at all. -/
theorem C04_violated_nonascii : (PreTokenizer.byteLevel false false).run spacePlatform
    { normalized := NS.ofText w!"é", splits := [{ normalized := b!"é", offsets := (0, 1) }] } =
      .error (.throws .outOfRange) :=
  C04_fails_nonascii spacePlatform false _ rfl spaceFind_good _
    (by intro s hs; simp at hs; subst hs; exact ⟨w!"é", (C02_to_string_iff _ _).1 (by decide)⟩)
    (by intro h
        have h1 := h rfl { normalized := b!"é", offsets := (0, 1) } (by simp) 0xC3 (by simp)
        exact absurd h1 (by decide))

example :=
  C04_prefix_space_added spacePlatform true
    { normalized := NS.ofText w!"ab", splits := [] } 0x61 w!"b" rfl
    (by intro x hx; simp at hx; rcases hx with rfl | rfl <;> simp [Scalar]) rfl 0 1 [(1, 1)] (by decide) (by decide)

/-! ### C05 -/

/-- **C05** What the ByteLevel decoder returns for tokens written in the byte alphabet:
one string, with the low byte of each code point. -/
theorem C05_decode_value (bss : List Str) (ts : List Str) (hb : ∀ s ∈ bss, ∀ b ∈ s, b < 256)
    (ht : Each (fun s t => Utf8Text (byteText s) t) bss ts) :
    Decoder.byteLevel.run ts = .ok [bss.flatten.map fun b => byteCode b % 256] := by
  have : ts.flatMap decodeBytes = bss.flatten.map fun b => byteCode b % 256 := by
    induction ht with
    | nil => rfl
    | cons h1 _ ih =>
      rename_i s t bss ts _
      obtain ⟨_, rfl⟩ := utf8Text_iff.1 h1
      have hs : ∀ c ∈ byteText s, c < 0xD800 := by
        intro c hc
        simp only [byteText, List.mem_map] at hc
        obtain ⟨b, hb', rfl⟩ := hc
        have := byteCode_lt (hb s (by simp) b hb'); omega
      rw [List.flatMap_cons, ih (fun s hs => hb s (by simp [hs])), decodeBytes_small hs]
      simp [byteText, List.map_map, Function.comp_def]
  simp [Decoder.run, byteLevelDecode, this]

/-- **C05** (partial) The ByteLevel decoder gives back the original bytes exactly when
none of them is in 127…160 or 173. -/
theorem C05_decode_inverts_partial (bss : List Str) (ts : List Str) (hb : ∀ s ∈ bss, ∀ b ∈ s, b < 256)
    (ht : Each (fun s t => Utf8Text (byteText s) t) bss ts) :
    Decoder.byteLevel.run ts = .ok [bss.flatten] ↔ ∀ s ∈ bss, ∀ b ∈ s, ¬ LostByte b := by
  rw [C05_decode_value bss ts hb ht]
  have hb' : ∀ b ∈ bss.flatten, b < 256 := by
    intro b h; simp only [List.mem_flatten] at h; obtain ⟨s, h1, h2⟩ := h; exact hb s h1 b h2
  have hiff : (∀ s ∈ bss, ∀ b ∈ s, ¬ LostByte b) ↔ ∀ b ∈ bss.flatten, ¬ LostByte b := by
    simp only [List.mem_flatten]
    exact ⟨fun h b ⟨s, h1, h2⟩ => h s h1 b h2, fun h s h1 b h2 => h b ⟨s, h1, h2⟩⟩
  rw [hiff]
  generalize bss.flatten = l at hb'
  simp only [Except.ok.injEq, List.cons.injEq, and_true]
  constructor
  · intro h b hbm
    rw [← byteCode_mod (hb' b hbm)]
    have : l.map (fun b => byteCode b % 256) = l.map id := by simpa using h
    exact List.map_inj_left.1 this b hbm
  · intro h
    conv => rhs; rw [← List.map_id l]
    exact List.map_congr_left fun b hbm => (byteCode_mod (hb' b hbm)).2 (h b hbm)

/-- **C05 is violated** for the byte 0x80, hence for the text "À" (0xC3 0x80). -/
theorem C05_violated (ts : List Str) (ht : Each (fun s t => Utf8Text (byteText s) t) [b!"À"] ts) :
    Decoder.byteLevel.run ts ≠ .ok [b!"À"] := by
  intro h
  have := (C05_decode_inverts_partial [b!"À"] ts (by decide) ht).1 (by simpa using h)
  exact this b!"À" (by simp) 0x80 (by simp) (by decide)

example : ∃ ts, Each (fun s t => Utf8Text (byteText s) t) [b!"Hé llo", b!"\n"] ts :=
  ⟨[_, _], .cons (utf8Text_iff.2 ⟨byteText_scalars (by decide), rfl⟩)
    (.cons (utf8Text_iff.2 ⟨byteText_scalars (by decide), rfl⟩) .nil)⟩

/-! ### C62, C64 -/

/-- **C62 is violated**: the pattern the ByteLevel pre-tokenizer matches with is not the
GPT-2 pattern but its first four characters. -/
theorem C62_violated : byteLevelPattern = b!"'s|'" ∧ byteLevelPattern ≠ gpt2Pattern := by decide

/-- **C62 is violated**: with `use_regex`, the result depends on the regex engine only
through its behaviour on the pattern `'s|'`. -/
theorem C62_only_prefix (P Q : Platform) (a u : Bool) (p : PTS)
    (h1 : P.regex b!"'s|'" = Q.regex b!"'s|'") (h2 : P.iswspace = Q.iswspace)
    (h3 : P.charSigned = Q.charSigned) :
    (PreTokenizer.byteLevel a u).run P p = (PreTokenizer.byteLevel a u).run Q p := by
  have e : byteLevelPattern = b!"'s|'" := C62_violated.1
  have hm : ∀ s, mapBytes P s = mapBytes Q s := by
    intro s; induction s with
    | nil => rfl
    | cons b s ih => simp only [mapBytes, charKey, h3, ih]
  have hs : ∀ l, mapSplits P l = mapSplits Q l := by
    intro l; induction l with
    | nil => rfl
    | cons s l ih => simp only [mapSplits, hm, ih]
  simp only [PreTokenizer.run, byteLevelPreTokenize, findMatches, e, h1, h2, hs]

/-- **C64 is violated**: the option `invert` of the Split pre-tokenizer has no effect. -/
theorem C64_violated (P : Platform) (pattern : Str) (b : Behavior) (p : PTS) :
    (PreTokenizer.split pattern b true).run P p = (PreTokenizer.split pattern b false).run P p := rfl

end Tok
