import Verif.Props.ByteLevel
import Verif.Proofs.Room2

set_option autoImplicit false

/-!
C95: what the ByteLevel pre-tokenizer does with a text, in every case.
-/

namespace Tok
open Spec

/-- The text with the space that `add_prefix_space` puts in front, unless it starts with white space. -/
def prefixed (P : Platform) (a : Bool) : WStr → WStr
  | [] => []
  | c :: w => if a = true ∧ P.iswspace c = false then 0x20 :: c :: w else c :: w

theorem bl_flatten {bs : List Str} {part : List Split}
    (h : Each (fun b q => q.tokens = [] ∧ Utf8Text (byteText b) q.normalized) bs part) :
    Utf8Text (byteText bs.flatten) (part.map (·.normalized)).flatten := by
  induction h with
  | nil => exact .nil
  | @cons b q _ _ hbq _ ih =>
    obtain ⟨h1, h2⟩ := utf8Text_iff.1 hbq.2
    obtain ⟨h3, h4⟩ := utf8Text_iff.1 ih
    refine utf8Text_iff.2 ⟨?_, ?_⟩
    · simp only [List.flatten_cons, byteText, List.map_append]
      exact Scalars.append.2 ⟨h1, h3⟩
    · simp only [List.flatten_cons, List.map_cons, byteText, List.map_append, utf8_append]
      rw [h2, h4]; rfl

theorem bl_ascii {w : WStr} : (∀ b ∈ utf8 w, b < 128) ↔ Ascii w := by
  constructor
  · intro h c hc
    have h3 : ∀ b ∈ utf8Enc1 c, b < 128 := fun x hx => h x (List.mem_flatMap.2 ⟨c, hc, hx⟩)
    unfold utf8Enc1 at h3
    split at h3
    · assumption
    · split at h3
      · have := h3 _ (List.mem_cons_self ..); omega
      · split at h3
        · have := h3 _ (List.mem_cons_self ..); omega
        · have := h3 _ (List.mem_cons_self ..); omega
  · intro h
    rw [utf8_ascii h]; exact h

theorem bl_one (P : Platform) (u : Bool) (find : U16 → List (Nat × Nat)) (hfind : P.regex byteLevelPattern = some find)
    (hgood : GoodEngine find) {v : WStr} (hv : Scalars v) (n : NS) (o : Nat × Nat) :
    ((P.charSigned = true → Ascii v) → ∃ p', (PreTokenizer.byteLevel false u).run P { normalized := n, splits := [{ normalized := utf8 v, offsets := o }] } = .ok p' ∧
      Utf8Text (byteText (utf8 v)) (p'.splits.map (·.normalized)).flatten) ∧
    (¬ (P.charSigned = true → Ascii v) → (PreTokenizer.byteLevel false u).run P { normalized := n, splits := [{ normalized := utf8 v, offsets := o }] } =
      .error (.throws .outOfRange)) := by
  have htext : ∀ s ∈ [({ normalized := utf8 v, offsets := o } : Split)], ∃ w, HasText s w := by
    intro s hs; simp at hs; subst hs; exact ⟨v, utf8Text_iff.2 ⟨hv, rfl⟩⟩
  have hkey : KeySafe P [({ normalized := utf8 v, offsets := o } : Split)] ↔ (P.charSigned = true → Ascii v) := by
    unfold KeySafe
    constructor
    · intro h hc; exact bl_ascii.1 (h hc _ (List.mem_singleton.2 rfl))
    · intro h hc s hs; simp at hs; subst hs; exact bl_ascii.2 (h hc)
  constructor
  · intro h
    obtain ⟨p', parts, h1, _, h3, h4⟩ := C04_lossless_partial P u find hfind hgood { normalized := n, splits := [{ normalized := utf8 v, offsets := o }] }
      htext (hkey.2 h)
    refine ⟨p', h1, ?_⟩
    rw [h3]
    cases h4 with
    | cons hc hr =>
      cases hr
      rcases hc with ⟨h5, _⟩ | ⟨_, bs, h6, h7, _⟩
      · simp at h5
      · have := bl_flatten h7
        rw [h6] at this
        simpa using this
  · intro h
    exact C04_fails_nonascii P u find hfind hgood _ htext fun hk => h (hkey.1 hk)

/-- **C95** ByteLevel pre-tokenization of a text, in every case: with `add_prefix_space` the empty text throws `out_of_range`;
where `char` is signed, so does every text that is not ASCII; in all other cases the call returns, and the texts of the splits,
one after the other, are the bytes of the text (with the space in front) written in the byte alphabet. -/
theorem C95_byteLevel (P : Platform) (a u : Bool) (find : U16 → List (Nat × Nat)) (hfind : P.regex byteLevelPattern = some find)
    (hgood : GoodEngine find) {w : WStr} (hw : ∀ c ∈ w, Scalar c) :
    ∃ p, PTS.ofNS (NS.ofText w) = .ok p ∧
      ((a = true ∧ w = []) ∨ (P.charSigned = true ∧ ¬ Ascii w) →
        (PreTokenizer.byteLevel a u).run P p = .error (.throws .outOfRange)) ∧
      (¬ ((a = true ∧ w = []) ∨ (P.charSigned = true ∧ ¬ Ascii w)) →
        ∃ p' bytes, (PreTokenizer.byteLevel a u).run P p = .ok p' ∧ Utf8Text (prefixed P a w) bytes ∧
          Utf8Text (byteText bytes) (p'.splits.map (·.normalized)).flatten) := by
  have hs : Scalars w := scalars_iff.1 hw
  refine ⟨{ normalized := NS.ofText w, splits := [{ normalized := utf8 w, offsets := (0, w.length) }] }, ofNS_text hs, ?_⟩
  -- the text to work on
  have hrun : (a = true ∧ w = [] ∧ (PreTokenizer.byteLevel a u).run P
        { normalized := NS.ofText w, splits := [{ normalized := utf8 w, offsets := (0, w.length) }] } = .error (.throws .outOfRange)) ∨
      (¬ (a = true ∧ w = []) ∧ ∃ n o, (PreTokenizer.byteLevel a u).run P
        { normalized := NS.ofText w, splits := [{ normalized := utf8 w, offsets := (0, w.length) }] } =
        (PreTokenizer.byteLevel false u).run P { normalized := n, splits := [{ normalized := utf8 (prefixed P a w), offsets := o }] }) := by
    cases a with
    | false =>
      right
      refine ⟨by simp, NS.ofText w, (0, w.length), ?_⟩
      cases w with
      | nil => rfl
      | cons c w => simp [prefixed]
    | true =>
      cases w with
      | nil => exact .inl ⟨rfl, rfl, C04_violated_empty P u _ rfl⟩
      | cons c w =>
        right
        refine ⟨by simp, ?_⟩
        cases hc : P.iswspace c with
        | true => exact ⟨_, _, by simp only [prefixed, hc]; exact C04_prefix_space_present P u _ c w rfl hc⟩
        | false =>
          have hroom := room_units (c :: w)
          have hlen : (unitLens (fromUTF32 (c :: w))).length ≠ 0 := by
            rw [unitLens_length]
            have := fromUTF32_length_ge (c :: w)
            simp at this; omega
          cases hl : unitLens (fromUTF32 (c :: w)) with
          | nil => rw [hl] at hlen; simp at hlen
          | cons k ks =>
            rw [hl] at hroom
            have hr := hroom.ranges
            rw [mkRanges] at hr
            have hk := hroom.pos k (by simp)
            have he := hroom.enough
            simp only [List.sum_cons] at he
            obtain ⟨n, s, h1, h2, h3⟩ := C04_prefix_space_added P u
              { normalized := NS.ofText (c :: w), splits := [{ normalized := utf8 (c :: w), offsets := (0, (c :: w).length) }] } c w rfl hw hc 0 k _ hr (by
                simp only; omega)
            obtain ⟨_, rfl⟩ := utf8Text_iff.1 h2
            exact ⟨n, _, by simp only [prefixed, hc]; exact h3⟩
  have hpre : Scalars (prefixed P a w) ∧ (Ascii (prefixed P a w) ↔ Ascii w) := by
    cases w with
    | nil => exact ⟨hs, Iff.rfl⟩
    | cons c w =>
      simp only [prefixed]
      split
      · refine ⟨Scalars.cons.2 ⟨rfl, hs⟩, ?_⟩
        simp [Ascii]
      · exact ⟨hs, Iff.rfl⟩
  rcases hrun with ⟨ha, hw0, hr⟩ | ⟨hne, n, o, hr⟩
  · exact ⟨fun _ => hr, fun h => absurd (.inl ⟨ha, hw0⟩) h⟩
  · obtain ⟨g1, g2⟩ := bl_one P u find hfind hgood hpre.1 n o
    rw [hr]
    constructor
    · rintro (h | ⟨h1, h2⟩)
      · exact absurd h hne
      · exact g2 fun h => h2 (hpre.2.1 (h h1))
    · intro h
      obtain ⟨p', e1, e2⟩ := g1 fun hc => hpre.2.2 (Classical.byContradiction fun hn => h (.inr ⟨hc, hn⟩))
      exact ⟨p', _, e1, utf8Text_iff.2 ⟨hpre.1, rfl⟩, e2⟩

-- with signed `char` "é" throws, with unsigned `char` it is written in the byte alphabet
example : ∃ p, PTS.ofNS (NS.ofText w!"aé") = .ok p ∧
    (PreTokenizer.byteLevel true true).run spacePlatform p = .error (.throws .outOfRange) ∧
    ∃ p' bytes, (PreTokenizer.byteLevel true true).run unsignedPlatform p = .ok p' ∧ Utf8Text w!" aé" bytes ∧
      Utf8Text (byteText bytes) (p'.splits.map (·.normalized)).flatten := by
  have hw : ∀ c ∈ w!"aé", Scalar c := by unfold Scalar; decide
  obtain ⟨p, h1, h2, _⟩ := C95_byteLevel spacePlatform true true _ rfl spaceFind_good hw
  obtain ⟨q, g1, _, g3⟩ := C95_byteLevel unsignedPlatform true true _ rfl spaceFind_good hw
  rw [h1] at g1; cases g1
  refine ⟨p, h1, h2 (.inr ⟨rfl, by unfold Ascii; decide⟩), ?_⟩
  exact g3 (by rintro (⟨_, h⟩ | ⟨h, _⟩) <;> cases h)

end Tok
