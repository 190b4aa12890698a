import Verif.Proofs.Split
import Verif.Spec.Bytes
import Verif.Decoder

set_option autoImplicit false

/-! Lemmas on the byte alphabet. -/

namespace Tok
open Spec

theorem mapFind_mem {κ ν : Type} [DecidableEq κ] {m : List (κ × ν)} {k : κ} {v : ν}
    (h : mapFind m k = some v) : (k, v) ∈ m := by
  induction m with
  | nil => simp [mapFind] at h
  | cons p m ih =>
    obtain ⟨k', v'⟩ := p
    simp only [mapFind] at h
    split at h
    · rename_i e; simp at h; simp [e, h]
    · simp [ih h]

theorem mapFind_none {κ ν : Type} [DecidableEq κ] {m : List (κ × ν)} {k : κ}
    (h : mapFind m k = none) : ∀ p ∈ m, p.1 ≠ k := by
  induction m with
  | nil => simp
  | cons p m ih =>
    obtain ⟨k', v'⟩ := p
    simp only [mapFind] at h
    split at h
    · simp at h
    · rename_i e
      intro q hq; simp at hq; rcases hq with rfl | hq
      · exact e
      · exact ih h q hq

theorem printable_lt {b : Nat} (h : Printable b) : b < 256 := by unfold Printable at h; omega

theorem hiddenBelow_mono {a b : Nat} (h : a ≤ b) : hiddenBelow a ≤ hiddenBelow b := by
  induction b with
  | zero => simp at h; simp [h]
  | succ b ih =>
    by_cases e : a = b + 1
    · simp [e]
    · have := ih (by omega); simp only [hiddenBelow]; omega

theorem hiddenBelow_strict {a b : Nat} (h : a < b) (ha : ¬ Printable a) : hiddenBelow a < hiddenBelow b := by
  have := hiddenBelow_mono (a := a + 1) (b := b) h
  simp only [hiddenBelow, ha, if_false] at this
  omega

theorem byteCode_inj {a b : Nat} (h : byteCode a = byteCode b) : a = b := by
  have hp : ∀ x, Printable x → x < 256 := fun x => printable_lt
  unfold byteCode at h
  split at h <;> split at h
  · exact h
  · rename_i h1 _; have := hp _ h1; omega
  · rename_i h1; have := hp _ h1; omega
  · rename_i h1 h2
    rcases Nat.lt_trichotomy a b with hl | hl | hl
    · have := hiddenBelow_strict hl h1; omega
    · exact hl
    · have := hiddenBelow_strict hl h2; omega

theorem printableBytes_mem {b : Nat} : b ∈ printableBytes ↔ Printable b := by
  simp only [printableBytes, List.mem_append, List.mem_map, List.mem_range, Printable]
  constructor
  · rintro ((⟨x, h, rfl⟩ | ⟨x, h, rfl⟩) | ⟨x, h, rfl⟩) <;> omega
  · rintro (h | h | h)
    · exact .inl (.inl ⟨b - 0x21, by omega, by omega⟩)
    · exact .inl (.inr ⟨b - 0xA1, by omega, by omega⟩)
    · exact .inr ⟨b - 0xAE, by omega, by omega⟩

/-- The second loop of the byte table. -/
theorem fillLoop_spec (k : Nat) : ∀ (b : Nat) (acc : List (Nat × Nat)), b + k = 256 →
    (∀ p ∈ acc, p.2 = byteCode p.1 ∧ p.1 < 256) →
    (∀ x, (∃ p ∈ acc, p.1 = x) ↔ Printable x ∨ x < b) →
    (∀ p ∈ fillLoop (List.range' b k) (hiddenBelow b) acc, p.2 = byteCode p.1 ∧ p.1 < 256) ∧
    (∀ x, (∃ p ∈ fillLoop (List.range' b k) (hiddenBelow b) acc, p.1 = x) ↔ Printable x ∨ x < 256) := by
  induction k with
  | zero =>
    intro b acc hb h1 h2
    obtain rfl : b = 256 := by omega
    exact ⟨h1, h2⟩
  | succ k ih =>
    intro b acc hb h1 h2
    simp only [List.range'_succ, fillLoop]
    by_cases hp : Printable b
    · have hany : acc.any (fun p => p.1 == b) = true := by
        obtain ⟨p, hp1, hp2⟩ := (h2 b).2 (.inl hp)
        simp only [List.any_eq_true, beq_iff_eq]; exact ⟨p, hp1, hp2⟩
      have hh : hiddenBelow b = hiddenBelow (b + 1) := by simp [hiddenBelow, hp]
      simp only [hany, if_true]
      rw [hh]
      refine ih (b + 1) acc (by omega) h1 fun x => ?_
      rw [h2]
      constructor
      · rintro (h | h)
        · exact .inl h
        · exact .inr (by omega)
      · rintro (h | h)
        · exact .inl h
        · by_cases e : x = b
          · subst e; exact .inl hp
          · exact .inr (by omega)
    · have hany : ¬ acc.any (fun p => p.1 == b) = true := by
        simp only [List.any_eq_true, beq_iff_eq]
        rintro ⟨p, hp1, hp2⟩
        rcases (h2 b).1 ⟨p, hp1, hp2⟩ with h | h
        · exact hp h
        · omega
      have hh : hiddenBelow b + 1 = hiddenBelow (b + 1) := by simp [hiddenBelow, hp]
      simp only [hany, Bool.false_eq_true, if_false]
      rw [hh]
      refine ih (b + 1) _ (by omega) ?_ fun x => ?_
      · intro p hp1
        simp only [List.mem_append, List.mem_singleton] at hp1
        rcases hp1 with hp1 | rfl
        · exact h1 p hp1
        · exact ⟨by simp [byteCode, hp], by show b < 256; omega⟩
      · simp only [List.mem_append, List.mem_singleton]
        constructor
        · rintro ⟨p, h | rfl, rfl⟩
          · rcases (h2 p.1).1 ⟨p, h, rfl⟩ with h | h
            · exact .inl h
            · exact .inr (by omega)
          · exact .inr (by show b < b + 1; omega)
        · intro h
          by_cases e : x = b
          · exact ⟨(b, 256 + hiddenBelow b), .inr rfl, e.symm⟩
          · obtain ⟨p, hp1, hp2⟩ := (h2 x).2 (by rcases h with h | h; exact .inl h; exact .inr (by omega))
            exact ⟨p, .inl hp1, hp2⟩

theorem byteCodes_spec : (∀ p ∈ byteCodes, p.2 = byteCode p.1 ∧ p.1 < 256) ∧
    ∀ x, (∃ p ∈ byteCodes, p.1 = x) ↔ x < 256 := by
  have := fillLoop_spec 256 0 (printableBytes.map fun b => (b, b)) rfl (by
    intro p hp
    simp only [List.mem_map] at hp
    obtain ⟨b, hb, rfl⟩ := hp
    have := printableBytes_mem.1 hb
    exact ⟨by simp [byteCode, this], printable_lt this⟩) (by
    intro x
    simp only [List.mem_map, Nat.not_lt_zero, or_false]
    constructor
    · rintro ⟨p, ⟨b, hb, rfl⟩, rfl⟩; exact printableBytes_mem.1 hb
    · intro h; exact ⟨(x, x), ⟨x, printableBytes_mem.2 h, rfl⟩, rfl⟩)
  unfold byteCodes
  rw [List.range_eq_range']
  refine ⟨this.1, fun x => ?_⟩
  exact (this.2 x).trans ⟨fun h => h.elim printable_lt id, .inr⟩

theorem bytesChar_entry {p : Nat × Str} (h : p ∈ bytesChar) : p.2 = utf8Enc1 (byteCode p.1) ∧ p.1 < 256 := by
  simp only [bytesChar, List.mem_map] at h
  obtain ⟨q, hq, rfl⟩ := h
  obtain ⟨h1, h2⟩ := byteCodes_spec.1 q hq
  exact ⟨by simp [h1], h2⟩

theorem bytesChar_key {b : Nat} (h : b < 256) : ∃ p ∈ bytesChar, p.1 = b := by
  obtain ⟨q, hq, rfl⟩ := (byteCodes_spec.2 b).2 h
  exact ⟨(q.1, utf8Enc1 q.2), List.mem_map_of_mem hq, rfl⟩

attribute [local irreducible] bytesChar

theorem bytesChar_some {b : Nat} (h : b < 256) : mapFind bytesChar b = some (utf8Enc1 (byteCode b)) := by
  cases hf : mapFind bytesChar b with
  | none =>
    obtain ⟨p, hp, e⟩ := bytesChar_key h
    exact absurd e (mapFind_none hf p hp)
  | some v =>
    have := (bytesChar_entry (mapFind_mem hf)).1
    simp only at this; rw [this]

theorem bytesChar_none {k : Nat} (h : 256 ≤ k) : mapFind bytesChar k = none := by
  cases hf : mapFind bytesChar k with
  | none => rfl
  | some v => have := (bytesChar_entry (mapFind_mem hf)).2; simp only at this; omega

theorem hiddenBelow_256 : hiddenBelow 256 = 68 := by decide +kernel

theorem byteCode_lt {b : Nat} (h : b < 256) : byteCode b < 324 := by
  unfold byteCode
  split
  · omega
  · rename_i hp
    have := hiddenBelow_strict h hp
    rw [hiddenBelow_256] at this; omega

theorem hiddenBelow_small {b : Nat} (h : b ≤ 33) : hiddenBelow b = b := by
  induction b with
  | zero => rfl
  | succ b ih =>
    have : ¬ Printable b := by unfold Printable; omega
    simp only [hiddenBelow, this, if_false, ih (by omega)]

theorem byteCode_mod {b : Nat} (h : b < 256) : byteCode b % 256 = b ↔ ¬ LostByte b := by
  unfold byteCode
  split
  · rename_i hp; unfold Printable at hp; unfold LostByte; omega
  · rename_i hp
    have h1 := hiddenBelow_strict h hp
    rw [hiddenBelow_256] at h1
    unfold LostByte
    by_cases hs : b ≤ 33
    · rw [hiddenBelow_small hs]; omega
    · unfold Printable at hp; omega

theorem byteText_scalars {s : Str} (hs : ∀ b ∈ s, b < 256) : Scalars (byteText s) := by
  intro c hc
  simp only [byteText, List.mem_map] at hc
  obtain ⟨b, hb, rfl⟩ := hc
  have := byteCode_lt (hs b hb)
  exact isScalar_iff.2 (.inl (by omega))

/-- Bytes as the key of the byte table. -/
def KeyOk (P : Platform) (s : Str) : Prop := ∀ b ∈ s, b < 256 ∧ (P.charSigned = true → b < 128)

theorem charKey_ok {P : Platform} {b : Nat} (h : P.charSigned = true → b < 128) : charKey P b = b := by
  unfold charKey
  split
  · rename_i h'; have := h h'.1; omega
  · rfl

theorem mapAt_some {κ ν : Type} [DecidableEq κ] {m : List (κ × ν)} {k : κ} {v : ν}
    (h : mapFind m k = some v) : mapAt m k = .ok v := by rw [mapAt, h]

theorem mapAt_none {κ ν : Type} [DecidableEq κ] {m : List (κ × ν)} {k : κ}
    (h : mapFind m k = none) : mapAt m k = .error (.throws .outOfRange) := by rw [mapAt, h]

theorem mapBytes_cons_some {P : Platform} {b : Nat} {r : Str} {x : Str}
    (h : mapFind bytesChar (charKey P b) = some x) :
    mapBytes P (b :: r) = (mapBytes P r >>= fun t => .ok (x ++ t)) := by
  rw [mapBytes, mapAt_some h]; rfl

theorem mapBytes_cons_none {P : Platform} {b : Nat} {r : Str}
    (h : mapFind bytesChar (charKey P b) = none) :
    mapBytes P (b :: r) = .error (.throws .outOfRange) := by
  rw [mapBytes, mapAt_none h]; rfl

theorem mapBytes_ok {P : Platform} {s : Str} (h : KeyOk P s) : mapBytes P s = .ok (utf8 (byteText s)) := by
  induction s with
  | nil => rfl
  | cons b s ih =>
    have hb := h b (by simp)
    rw [mapBytes_cons_some (by rw [charKey_ok hb.2]; exact bytesChar_some hb.1),
      ih (fun x hx => h x (by simp [hx]))]
    rfl

theorem mapBytes_error {P : Platform} {s : Str} (hs : ∀ b ∈ s, b < 256) (hc : P.charSigned = true)
    (h : ∃ b ∈ s, 128 ≤ b) : mapBytes P s = .error (.throws .outOfRange) := by
  induction s with
  | nil => simp at h
  | cons b s ih =>
    by_cases hb : 128 ≤ b
    · have hk : charKey P b = b + 65536 - 256 := by simp [charKey, hc, hb]
      exact mapBytes_cons_none (by rw [hk]; exact bytesChar_none (by omega))
    · have h' : ∃ b ∈ s, 128 ≤ b := by
        obtain ⟨x, hx, hx2⟩ := h
        simp at hx; rcases hx with rfl | hx
        · exact absurd hx2 hb
        · exact ⟨x, hx, hx2⟩
      rw [mapBytes_cons_some (by rw [charKey_ok (fun _ => by omega)]; exact bytesChar_some (hs b (by simp))),
        ih (fun x hx => hs x (by simp [hx])) h']
      rfl

theorem mapBytes_iff {P : Platform} {s : Str} (hs : ∀ b ∈ s, b < 256) :
    (KeyOk P s ∧ mapBytes P s = .ok (utf8 (byteText s))) ∨
    (¬ KeyOk P s ∧ mapBytes P s = .error (.throws .outOfRange)) := by
  by_cases h : KeyOk P s
  · exact .inl ⟨h, mapBytes_ok h⟩
  · refine .inr ⟨h, ?_⟩
    obtain ⟨b, hb, h⟩ : ∃ b, b ∈ s ∧ ¬ (b < 256 ∧ (P.charSigned = true → b < 128)) := by
      apply Classical.byContradiction
      intro hn
      exact h fun b hb => Classical.byContradiction fun hb' => hn ⟨b, hb, hb'⟩
    have := hs b hb
    refine mapBytes_error hs ?_ ⟨b, hb, ?_⟩
    · by_cases hc : P.charSigned = true
      · exact hc
      · exact absurd ⟨this, fun h => absurd h hc⟩ h
    · by_cases hb' : 128 ≤ b
      · exact hb'
      · exact absurd ⟨this, fun _ => by omega⟩ h

theorem utf8Enc1_bytes {c : Nat} (hc : isScalar c = true) : ∀ b ∈ utf8Enc1 c, b < 256 := by
  rw [isScalar_iff] at hc
  intro b hb
  unfold utf8Enc1 at hb
  split at hb
  · simp at hb; omega
  · split at hb
    · simp only [List.mem_cons, List.not_mem_nil, or_false] at hb; omega
    · split at hb
      · simp only [List.mem_cons, List.not_mem_nil, or_false] at hb; omega
      · simp only [List.mem_cons, List.not_mem_nil, or_false] at hb; omega

theorem utf8_bytes {w : WStr} (hw : Scalars w) : ∀ b ∈ utf8 w, b < 256 := by
  intro b hb
  simp only [utf8, List.mem_flatMap] at hb
  obtain ⟨c, hc, hb⟩ := hb
  exact utf8Enc1_bytes (hw c hc) b hb

/-- All splits through the byte table. -/
theorem mapSplits_ok {P : Platform} {l : List Split} (h : ∀ s ∈ l, KeyOk P s.normalized) :
    mapSplits P l = .ok (l.map fun s => { s with normalized := utf8 (byteText s.normalized) }) := by
  induction l with
  | nil => rfl
  | cons s l ih =>
    simp only [mapSplits, mapBytes_ok (h s (by simp)), ih (fun x hx => h x (by simp [hx])), res_ok_bind,
      res_pure, List.map_cons]

theorem mapSplits_error {P : Platform} {l : List Split} (hs : ∀ s ∈ l, ∀ b ∈ s.normalized, b < 256)
    (h : ¬ ∀ s ∈ l, KeyOk P s.normalized) : mapSplits P l = .error (.throws .outOfRange) := by
  induction l with
  | nil => simp at h
  | cons s l ih =>
    rcases mapBytes_iff (P := P) (hs s (by simp)) with ⟨hk, e⟩ | ⟨hk, e⟩
    · have : ¬ ∀ s ∈ l, KeyOk P s.normalized := by
        intro h'; apply h; intro x hx; simp at hx; rcases hx with rfl | hx
        · exact hk
        · exact h' x hx
      simp only [mapSplits, e, ih (fun x hx => hs x (by simp [hx])) this, res_ok_bind, res_error_bind]
    · simp only [mapSplits, e, res_error_bind]

/-! ### The decoder -/

theorem utf16_small {w : WStr} (h : ∀ c ∈ w, c < 0xD800) : utf16 w = w := by
  induction w with
  | nil => rfl
  | cons c w ih =>
    have hc := h c (by simp)
    rw [utf16_cons, ih (fun x hx => h x (by simp [hx]))]
    simp [utf16Enc1, show c < 0x10000 by omega]

theorem char32At_small {u : U16} (h : ∀ c ∈ u, c < 0xD800) {i : Nat} {c : Nat} (hi : u[i]? = some c) :
    char32At u i = c := by
  have hc := h c (List.mem_of_getElem? hi)
  have h1 : isLead c = false := by simp [isLead]; omega
  have h2 : isTrail c = false := by simp [isTrail]; omega
  simp [char32At, hi, h1, h2]

theorem mapSet_mem {κ ν : Type} [DecidableEq κ] {m : List (κ × ν)} {k : κ} {v : ν} {p : κ × ν}
    (h : p ∈ mapSet m k v) : p = (k, v) ∨ p ∈ m := by
  induction m with
  | nil => simp [mapSet] at h; exact .inl h
  | cons q m ih =>
    obtain ⟨k', v'⟩ := q
    simp only [mapSet] at h
    split at h
    · simp at h ⊢; rcases h with h | h
      · exact .inl h
      · exact .inr (.inr h)
    · simp only [List.mem_cons] at h ⊢
      rcases h with h | h
      · exact .inr (.inl h)
      · rcases ih h with h | h
        · exact .inl h
        · exact .inr (.inr h)

theorem charBytes_entry {p : Str × Nat} (h : p ∈ charBytes) : (p.2, p.1) ∈ bytesChar := by
  have : ∀ (l : List (Nat × Str)) (m : List (Str × Nat)),
      p ∈ l.foldl (fun m p => mapSet m p.2 p.1) m → (p.2, p.1) ∈ l ∨ p ∈ m := by
    intro l
    induction l with
    | nil => intro m h; exact .inr h
    | cons q l ih =>
      intro m h
      simp only [List.foldl_cons] at h
      rcases ih _ h with h | h
      · exact .inl (by simp [h])
      · rcases mapSet_mem h with rfl | h
        · exact .inl (by simp)
        · exact .inr h
  rcases this _ _ h with h | h
  · exact h
  · simp at h

theorem utf8Enc1_single {c ch : Nat} (h : utf8Enc1 c = [ch]) : c = ch ∧ c < 128 := by
  unfold utf8Enc1 at h
  split at h
  · simp at h; omega
  · split at h
    · cases h
    · split at h <;> cases h

theorem charBytes_table {ch : Nat} :
    (match mapFind charBytes [ch] with | some b => b % 256 | none => ch) = ch := by
  cases hf : mapFind charBytes [ch] with
  | none => rfl
  | some b =>
    obtain ⟨h1, h2⟩ := bytesChar_entry (charBytes_entry (mapFind_mem hf))
    obtain ⟨h3, h4⟩ := utf8Enc1_single h1.symm
    simp only at h2 h3 h4 ⊢
    unfold byteCode at h3 h4
    split at h3
    · omega
    · rename_i hp; simp [hp] at h4; omega

attribute [local irreducible] charBytes

theorem decodeUnit_small {u : U16} (h : ∀ c ∈ u, c < 0xD800) {i : Nat} {c : Nat} (hi : u[i]? = some c) :
    decodeUnit u i = c % 256 := by
  unfold decodeUnit
  rw [char32At_small h hi]
  exact charBytes_table

theorem decodeBytes_small {w : WStr} (h : ∀ c ∈ w, c < 0xD800) : decodeBytes (utf8 w) = w.map (· % 256) := by
  have hw : Scalars w := fun c hc => isScalar_iff.2 (.inl (h c hc))
  unfold decodeBytes
  simp only [fromUTF8_utf8 hw, utf16_small h]
  apply List.ext_getElem?
  intro i
  rw [List.getElem?_map, List.getElem?_map]
  by_cases hi : i < w.length
  · rw [List.getElem?_range hi, List.getElem?_eq_getElem hi]
    simp only [Option.map_some]
    rw [decodeUnit_small h (List.getElem?_eq_getElem hi)]
  · rw [List.getElem?_eq_none (by simpa using hi), List.getElem?_eq_none (by simpa using hi)]
    rfl

end Tok
