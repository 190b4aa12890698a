import Verif.Proofs.Config2

set_option autoImplicit false

/-!
Lemmas on the construction of a tokenizer: the recursive `with_…` functions against `Spec.Config`.
-/

namespace Tok
open Spec

/-! ### Depth -/

theorem depth_mem {l : List Json} {j : Json} (h : j ∈ l) : j.depth ≤ Json.depthList l := by
  induction l with
  | nil => simp at h
  | cons a l ih =>
    simp only [Json.depthList]
    simp at h; rcases h with rfl | h
    · omega
    · have := ih h; omega

theorem depth_fields {l : List (Str × Json)} {f : Str × Json} (h : f ∈ l) : f.2.depth ≤ Json.depthFields l := by
  induction l with
  | nil => simp at h
  | cons a l ih =>
    obtain ⟨k, v⟩ := a
    simp only [Json.depthFields]
    simp at h; rcases h with rfl | h
    · simp only; omega
    · have := ih h; omega

theorem depth_field {j v : Json} {k : Str} (h : Field j k v) : v.depth < j.depth := by
  obtain ⟨l, rfl, A, B, rfl, _⟩ := h
  simp only [Json.depth]
  have := depth_fields (l := A ++ (k, v) :: B) (f := (k, v)) (by simp)
  simp only at this; omega

theorem depth_pos (j : Json) : 0 < j.depth := by cases j <;> simp [Json.depth]

theorem depth_arr {l : List Json} {j : Json} (h : j ∈ l) : j.depth < (Json.arr l).depth := by
  have := depth_mem h
  simp only [Json.depth]; omega

theorem hasType_unique {j : Json} {s t : Str} (h : HasType j s) (h' : HasType j t) : s = t := (type_reads j).unique h h'

theorem field_unique {j v w : Json} {k : Str} (h : Field j k v) (h' : Field j k w) : v = w := (field_reads j k).unique h h'

theorem typed_reads {α : Type} {j : Json} {F : Str → Res α} {R : α → Prop} (h : ∀ s, HasType j s → Reads (F s) R)
    (hR : ∀ x, R x → ∃ s, HasType j s) :
    Reads (do let v ← j.field b!"type"; let s ← v.getString; F s) R := by
  refine ((field_reads j _).bind fun v hv => (getString_reads v).bind (S := fun _ x => R x) fun s hs => h s ⟨v, hv, hs⟩).congr
    fun x => ?_
  constructor
  · rintro ⟨_, _, _, _, h⟩; exact h
  · intro hx
    obtain ⟨s, v, hv, hs⟩ := hR x hx
    exact ⟨v, hv, s, hs, hx⟩

/-- The members of a sequence. -/
theorem seq_reads {α β : Type} {f : Json → Res (Option α)} {R : Json → Option α → Prop} {j : Json} {k : Str} {n : Nat}
    (hd : j.depth ≤ n + 1) (ih : ∀ v : Json, v.depth ≤ n → Reads (f v) (R v)) (g : List (Option α) → β) :
    Reads (do let v ← j.field k; let l ← v.getArray; let os ← mapRes f l; pure (g os))
      (fun x => ∃ l os, Field j k (.arr l) ∧ AllOf R l os ∧ x = g os) := by
  refine ((field_reads j k).bind fun v hv => (getArray_reads v).bind fun l hl =>
    (mapRes_reads l fun a ha => ih a ?_).bind fun os _ => Reads.ok (g os)).congr fun x => ?_
  · subst hl
    have h1 := depth_field hv
    have h2 := depth_arr ha
    omega
  · constructor
    · rintro ⟨v, hv, l, rfl, os, h, rfl⟩; exact ⟨l, os, hv, h, rfl⟩
    · rintro ⟨l, os, hv, h, rfl⟩; exact ⟨_, hv, l, rfl, os, h, rfl⟩

theorem normalizersOf_iff (l : List Json) (ns : List Normalizer) :
    NormalizersOf l ns ↔ ∃ os, AllOf NormalizerOf l os ∧ ns = os.filterMap id := by
  constructor
  · intro h
    induction l generalizing ns with
    | nil => cases h; exact ⟨[], .nil, rfl⟩
    | cons j l ih =>
      cases h with
      | cons h1 h2 => obtain ⟨os, h3, rfl⟩ := ih _ h2; exact ⟨_ :: os, .cons h1 h3, by simp⟩
      | skip h1 h2 => obtain ⟨os, h3, rfl⟩ := ih _ h2; exact ⟨_ :: os, .cons h1 h3, by simp⟩
  · rintro ⟨os, h, rfl⟩
    induction h with
    | nil => exact .nil
    | @cons a b l m h1 _ ih =>
      cases b with
      | none => exact .skip h1 ih
      | some n => exact .cons h1 ih

theorem preTokenizersOf_iff (l : List Json) (ns : List PreTokenizer) :
    PreTokenizersOf l ns ↔ ∃ os, AllOf PreTokenizerOf l os ∧ ns = os.filterMap id := by
  constructor
  · intro h
    induction l generalizing ns with
    | nil => cases h; exact ⟨[], .nil, rfl⟩
    | cons j l ih =>
      cases h with
      | cons h1 h2 => obtain ⟨os, h3, rfl⟩ := ih _ h2; exact ⟨_ :: os, .cons h1 h3, by simp⟩
      | skip h1 h2 => obtain ⟨os, h3, rfl⟩ := ih _ h2; exact ⟨_ :: os, .cons h1 h3, by simp⟩
  · rintro ⟨os, h, rfl⟩
    induction h with
    | nil => exact .nil
    | @cons a b l m h1 _ ih =>
      cases b with
      | none => exact .skip h1 ih
      | some n => exact .cons h1 ih

theorem decodersOf_iff (l : List Json) (ns : List Decoder) :
    DecodersOf l ns ↔ ∃ os, AllOf DecoderOf l os ∧ ns = os.filterMap id := by
  constructor
  · intro h
    induction l generalizing ns with
    | nil => cases h; exact ⟨[], .nil, rfl⟩
    | cons j l ih =>
      cases h with
      | cons h1 h2 => obtain ⟨os, h3, rfl⟩ := ih _ h2; exact ⟨_ :: os, .cons h1 h3, by simp⟩
      | skip h1 h2 => obtain ⟨os, h3, rfl⟩ := ih _ h2; exact ⟨_ :: os, .cons h1 h3, by simp⟩
  · rintro ⟨os, h, rfl⟩
    induction h with
    | nil => exact .nil
    | @cons a b l m h1 _ ih =>
      cases b with
      | none => exact .skip h1 ih
      | some n => exact .cons h1 ih

theorem postProcessorsOf_iff (l : List Json) (ns : List PostProcessor) :
    PostProcessorsOf l ns ↔ ∃ os, AllOf PostProcessorOf l os ∧ ns = os.filterMap id := by
  constructor
  · intro h
    induction l generalizing ns with
    | nil => cases h; exact ⟨[], .nil, rfl⟩
    | cons j l ih =>
      cases h with
      | cons h1 h2 => obtain ⟨os, h3, rfl⟩ := ih _ h2; exact ⟨_ :: os, .cons h1 h3, by simp⟩
      | skip h1 h2 => obtain ⟨os, h3, rfl⟩ := ih _ h2; exact ⟨_ :: os, .cons h1 h3, by simp⟩
  · rintro ⟨os, h, rfl⟩
    induction h with
    | nil => exact .nil
    | @cons a b l m h1 _ ih =>
      cases b with
      | none => exact .skip h1 ih
      | some n => exact .cons h1 ih

/-! ### Normalizers -/

theorem normalizer_reads (n : Nat) : ∀ j : Json, j.depth ≤ n → Reads (withNormalizer n j) (NormalizerOf j) := by
  induction n with
  | zero => intro j h; have := depth_pos j; omega
  | succ n ih =>
    intro j hd
    simp only [withNormalizer]
    refine typed_reads ?_ ?_
    · intro s ht
      by_cases gSequence : s = b!"Sequence"
      · rw [if_pos gSequence]; subst gSequence
        refine (seq_reads hd ih _).congr fun x => ?_
        constructor
        · rintro ⟨l, os, hl, ho, rfl⟩; exact .sequence ht hl ((normalizersOf_iff _ _).2 ⟨os, ho, rfl⟩)
        · intro h
          cases h with
          | sequence _ hl ho => obtain ⟨os, ho', rfl⟩ := (normalizersOf_iff _ _).1 ho; exact ⟨_, os, hl, ho', rfl⟩
          | nf h' hm => cases hasType_unique ht h'; exact absurd hm (by simp)
          | prepend h' _ => exact absurd (hasType_unique ht h') (by decide)
          | replace h' _ _ => exact absurd (hasType_unique ht h') (by decide)
          | bert h' _ _ _ _ => exact absurd (hasType_unique ht h') (by decide)
          | strip h' _ _ => exact absurd (hasType_unique ht h') (by decide)
          | stripAccents h' => exact absurd (hasType_unique ht h') (by decide)
          | other h' hm => cases hasType_unique ht h'; exact absurd hm (by simp)
      rw [if_neg gSequence]
      by_cases gNFC : s = b!"NFC"
      · rw [if_pos gNFC]; subst gNFC
        refine (Reads.ok _).congr fun x => ?_
        constructor
        · rintro rfl; exact .nf ht (by simp)
        · intro h
          cases h with
          | nf h' hm =>
            cases hasType_unique ht h'
            simp at hm; subst hm; rfl
          | sequence h' _ _ => exact absurd (hasType_unique ht h') (by decide)
          | prepend h' _ => exact absurd (hasType_unique ht h') (by decide)
          | replace h' _ _ => exact absurd (hasType_unique ht h') (by decide)
          | bert h' _ _ _ _ => exact absurd (hasType_unique ht h') (by decide)
          | strip h' _ _ => exact absurd (hasType_unique ht h') (by decide)
          | stripAccents h' => exact absurd (hasType_unique ht h') (by decide)
          | other h' hm => cases hasType_unique ht h'; exact absurd hm (by simp)
      rw [if_neg gNFC]
      by_cases gNFD : s = b!"NFD"
      · rw [if_pos gNFD]; subst gNFD
        refine (Reads.ok _).congr fun x => ?_
        constructor
        · rintro rfl; exact .nf ht (by simp)
        · intro h
          cases h with
          | nf h' hm =>
            cases hasType_unique ht h'
            simp at hm; subst hm; rfl
          | sequence h' _ _ => exact absurd (hasType_unique ht h') (by decide)
          | prepend h' _ => exact absurd (hasType_unique ht h') (by decide)
          | replace h' _ _ => exact absurd (hasType_unique ht h') (by decide)
          | bert h' _ _ _ _ => exact absurd (hasType_unique ht h') (by decide)
          | strip h' _ _ => exact absurd (hasType_unique ht h') (by decide)
          | stripAccents h' => exact absurd (hasType_unique ht h') (by decide)
          | other h' hm => cases hasType_unique ht h'; exact absurd hm (by simp)
      rw [if_neg gNFD]
      by_cases gNFKC : s = b!"NFKC"
      · rw [if_pos gNFKC]; subst gNFKC
        refine (Reads.ok _).congr fun x => ?_
        constructor
        · rintro rfl; exact .nf ht (by simp)
        · intro h
          cases h with
          | nf h' hm =>
            cases hasType_unique ht h'
            simp at hm; subst hm; rfl
          | sequence h' _ _ => exact absurd (hasType_unique ht h') (by decide)
          | prepend h' _ => exact absurd (hasType_unique ht h') (by decide)
          | replace h' _ _ => exact absurd (hasType_unique ht h') (by decide)
          | bert h' _ _ _ _ => exact absurd (hasType_unique ht h') (by decide)
          | strip h' _ _ => exact absurd (hasType_unique ht h') (by decide)
          | stripAccents h' => exact absurd (hasType_unique ht h') (by decide)
          | other h' hm => cases hasType_unique ht h'; exact absurd hm (by simp)
      rw [if_neg gNFKC]
      by_cases gNFKD : s = b!"NFKD"
      · rw [if_pos gNFKD]; subst gNFKD
        refine (Reads.ok _).congr fun x => ?_
        constructor
        · rintro rfl; exact .nf ht (by simp)
        · intro h
          cases h with
          | nf h' hm =>
            cases hasType_unique ht h'
            simp at hm; subst hm; rfl
          | sequence h' _ _ => exact absurd (hasType_unique ht h') (by decide)
          | prepend h' _ => exact absurd (hasType_unique ht h') (by decide)
          | replace h' _ _ => exact absurd (hasType_unique ht h') (by decide)
          | bert h' _ _ _ _ => exact absurd (hasType_unique ht h') (by decide)
          | strip h' _ _ => exact absurd (hasType_unique ht h') (by decide)
          | stripAccents h' => exact absurd (hasType_unique ht h') (by decide)
          | other h' hm => cases hasType_unique ht h'; exact absurd hm (by simp)
      rw [if_neg gNFKD]
      by_cases gPrepend : s = b!"Prepend"
      · rw [if_pos gPrepend]; subst gPrepend
        refine ((string_opt j _).bind fun _ _ => Reads.ok _).congr fun x => ?_
        constructor
        · rintro ⟨a0, h0, rfl⟩; exact .prepend ht h0
        · intro h
          cases h with
          | prepend _ h0 => exact ⟨_, h0, rfl⟩
          | sequence h' _ _ => exact absurd (hasType_unique ht h') (by decide)
          | nf h' hm => cases hasType_unique ht h'; exact absurd hm (by simp)
          | replace h' _ _ => exact absurd (hasType_unique ht h') (by decide)
          | bert h' _ _ _ _ => exact absurd (hasType_unique ht h') (by decide)
          | strip h' _ _ => exact absurd (hasType_unique ht h') (by decide)
          | stripAccents h' => exact absurd (hasType_unique ht h') (by decide)
          | other h' hm => cases hasType_unique ht h'; exact absurd hm (by simp)
      rw [if_neg gPrepend]
      by_cases gReplace : s = b!"Replace"
      · rw [if_pos gReplace]; subst gReplace
        refine ((pattern_reads j _).bind fun _ _ => (string_opt j _).bind fun _ _ => Reads.ok _).congr fun x => ?_
        constructor
        · rintro ⟨a0, h0, a1, h1, rfl⟩; exact .replace ht h0 h1
        · intro h
          cases h with
          | replace _ h0 h1 => exact ⟨_, h0, _, h1, rfl⟩
          | sequence h' _ _ => exact absurd (hasType_unique ht h') (by decide)
          | nf h' hm => cases hasType_unique ht h'; exact absurd hm (by simp)
          | prepend h' _ => exact absurd (hasType_unique ht h') (by decide)
          | bert h' _ _ _ _ => exact absurd (hasType_unique ht h') (by decide)
          | strip h' _ _ => exact absurd (hasType_unique ht h') (by decide)
          | stripAccents h' => exact absurd (hasType_unique ht h') (by decide)
          | other h' hm => cases hasType_unique ht h'; exact absurd hm (by simp)
      rw [if_neg gReplace]
      by_cases gBertNormalizer : s = b!"BertNormalizer"
      · rw [if_pos gBertNormalizer]; subst gBertNormalizer
        refine ((bool_opt j _ _).bind fun _ _ => (bool_opt j _ _).bind fun _ _ => (bool_opt j _ _).bind fun _ _ => (bool_opt j _ _).bind fun _ _ => Reads.ok _).congr fun x => ?_
        constructor
        · rintro ⟨a0, h0, a1, h1, a2, h2, a3, h3, rfl⟩; exact .bert ht h0 h1 h2 h3
        · intro h
          cases h with
          | bert _ h0 h1 h2 h3 => exact ⟨_, h0, _, h1, _, h2, _, h3, rfl⟩
          | sequence h' _ _ => exact absurd (hasType_unique ht h') (by decide)
          | nf h' hm => cases hasType_unique ht h'; exact absurd hm (by simp)
          | prepend h' _ => exact absurd (hasType_unique ht h') (by decide)
          | replace h' _ _ => exact absurd (hasType_unique ht h') (by decide)
          | strip h' _ _ => exact absurd (hasType_unique ht h') (by decide)
          | stripAccents h' => exact absurd (hasType_unique ht h') (by decide)
          | other h' hm => cases hasType_unique ht h'; exact absurd hm (by simp)
      rw [if_neg gBertNormalizer]
      by_cases gStrip : s = b!"Strip"
      · rw [if_pos gStrip]; subst gStrip
        refine ((bool_opt j _ _).bind fun _ _ => (bool_opt j _ _).bind fun _ _ => Reads.ok _).congr fun x => ?_
        constructor
        · rintro ⟨a0, h0, a1, h1, rfl⟩; exact .strip ht h0 h1
        · intro h
          cases h with
          | strip _ h0 h1 => exact ⟨_, h0, _, h1, rfl⟩
          | sequence h' _ _ => exact absurd (hasType_unique ht h') (by decide)
          | nf h' hm => cases hasType_unique ht h'; exact absurd hm (by simp)
          | prepend h' _ => exact absurd (hasType_unique ht h') (by decide)
          | replace h' _ _ => exact absurd (hasType_unique ht h') (by decide)
          | bert h' _ _ _ _ => exact absurd (hasType_unique ht h') (by decide)
          | stripAccents h' => exact absurd (hasType_unique ht h') (by decide)
          | other h' hm => cases hasType_unique ht h'; exact absurd hm (by simp)
      rw [if_neg gStrip]
      by_cases gStripAccents : s = b!"StripAccents"
      · rw [if_pos gStripAccents]; subst gStripAccents
        refine (Reads.ok _).congr fun x => ?_
        constructor
        · rintro rfl; exact .stripAccents ht
        · intro h
          cases h with
          | stripAccents _ => rfl
          | sequence h' _ _ => exact absurd (hasType_unique ht h') (by decide)
          | nf h' hm => cases hasType_unique ht h'; exact absurd hm (by simp)
          | prepend h' _ => exact absurd (hasType_unique ht h') (by decide)
          | replace h' _ _ => exact absurd (hasType_unique ht h') (by decide)
          | bert h' _ _ _ _ => exact absurd (hasType_unique ht h') (by decide)
          | strip h' _ _ => exact absurd (hasType_unique ht h') (by decide)
          | other h' hm => cases hasType_unique ht h'; exact absurd hm (by simp)
      rw [if_neg gStripAccents]
      refine (Reads.ok _).congr fun x => ?_
      constructor
      · rintro rfl; exact .other ht (by simp only [List.mem_cons, List.not_mem_nil, or_false, not_or]; exact ⟨gSequence, gNFC, gNFD, gNFKC, gNFKD, gPrepend, gReplace, gBertNormalizer, gStrip, gStripAccents⟩)
      · intro h
        cases h with
        | other _ _ => rfl
        | sequence h' _ _ => exact absurd (hasType_unique ht h') gSequence
        | nf h' hm =>
          cases hasType_unique ht h'
          simp only [List.mem_cons, Prod.mk.injEq, List.not_mem_nil, or_false] at hm
          rcases hm with h | h | h | h
          · exact absurd h.1 gNFC
          · exact absurd h.1 gNFD
          · exact absurd h.1 gNFKC
          · exact absurd h.1 gNFKD
        | prepend h' _ => exact absurd (hasType_unique ht h') gPrepend
        | replace h' _ _ => exact absurd (hasType_unique ht h') gReplace
        | bert h' _ _ _ _ => exact absurd (hasType_unique ht h') gBertNormalizer
        | strip h' _ _ => exact absurd (hasType_unique ht h') gStrip
        | stripAccents h' => exact absurd (hasType_unique ht h') gStripAccents
    · intro x h
      cases h <;> exact ⟨_, by assumption⟩

/-! ### Pre-tokenizers -/

theorem preTokenizer_reads (n : Nat) : ∀ j : Json, j.depth ≤ n → Reads (withPreTokenizer n j) (PreTokenizerOf j) := by
  induction n with
  | zero => intro j h; have := depth_pos j; omega
  | succ n ih =>
    intro j hd
    simp only [withPreTokenizer]
    refine typed_reads ?_ ?_
    · intro s ht
      by_cases gBertPreTokenizer : s = b!"BertPreTokenizer"
      · rw [if_pos gBertPreTokenizer]; subst gBertPreTokenizer
        refine (Reads.ok _).congr fun x => ?_
        constructor
        · rintro rfl; exact .bert ht
        · intro h
          cases h with
          | bert _ => rfl
          | sequence h' _ _ => exact absurd (hasType_unique ht h') (by decide)
          | split h' _ _ _ _ => exact absurd (hasType_unique ht h') (by decide)
          | byteLevel h' _ _ => exact absurd (hasType_unique ht h') (by decide)
          | other h' hm => cases hasType_unique ht h'; exact absurd hm (by simp)
      rw [if_neg gBertPreTokenizer]
      by_cases gSequence : s = b!"Sequence"
      · rw [if_pos gSequence]; subst gSequence
        refine (seq_reads hd ih _).congr fun x => ?_
        constructor
        · rintro ⟨l, os, hl, ho, rfl⟩; exact .sequence ht hl ((preTokenizersOf_iff _ _).2 ⟨os, ho, rfl⟩)
        · intro h
          cases h with
          | sequence _ hl ho => obtain ⟨os, ho', rfl⟩ := (preTokenizersOf_iff _ _).1 ho; exact ⟨_, os, hl, ho', rfl⟩
          | bert h' => exact absurd (hasType_unique ht h') (by decide)
          | split h' _ _ _ _ => exact absurd (hasType_unique ht h') (by decide)
          | byteLevel h' _ _ => exact absurd (hasType_unique ht h') (by decide)
          | other h' hm => cases hasType_unique ht h'; exact absurd hm (by simp)
      rw [if_neg gSequence]
      by_cases gSplit : s = b!"Split"
      · rw [if_pos gSplit]; subst gSplit
        refine ((pattern_reads j _).bind fun _ _ => (string_opt j _).bind fun _ _ => (bool_opt j _ _).bind fun _ _ => Reads.ok _).congr fun x => ?_
        constructor
        · rintro ⟨p, hp, s, hs, i, hi, rfl⟩; exact .split ht hp hs ((getBehavior_iff _ _).1 rfl) hi
        · intro h
          cases h with
          | split _ hp hs hb hi => rw [← getBehavior_iff] at hb; exact ⟨_, hp, _, hs, _, hi, by rw [hb]⟩
          | bert h' => exact absurd (hasType_unique ht h') (by decide)
          | sequence h' _ _ => exact absurd (hasType_unique ht h') (by decide)
          | byteLevel h' _ _ => exact absurd (hasType_unique ht h') (by decide)
          | other h' hm => cases hasType_unique ht h'; exact absurd hm (by simp)
      rw [if_neg gSplit]
      by_cases gByteLevel : s = b!"ByteLevel"
      · rw [if_pos gByteLevel]; subst gByteLevel
        refine ((bool_opt j _ _).bind fun _ _ => (bool_opt j _ _).bind fun _ _ => Reads.ok _).congr fun x => ?_
        constructor
        · rintro ⟨a0, h0, a1, h1, rfl⟩; exact .byteLevel ht h0 h1
        · intro h
          cases h with
          | byteLevel _ h0 h1 => exact ⟨_, h0, _, h1, rfl⟩
          | bert h' => exact absurd (hasType_unique ht h') (by decide)
          | sequence h' _ _ => exact absurd (hasType_unique ht h') (by decide)
          | split h' _ _ _ _ => exact absurd (hasType_unique ht h') (by decide)
          | other h' hm => cases hasType_unique ht h'; exact absurd hm (by simp)
      rw [if_neg gByteLevel]
      refine (Reads.ok _).congr fun x => ?_
      constructor
      · rintro rfl; exact .other ht (by simp only [List.mem_cons, List.not_mem_nil, or_false, not_or]; exact ⟨gBertPreTokenizer, gSequence, gSplit, gByteLevel⟩)
      · intro h
        cases h with
        | other _ _ => rfl
        | bert h' => exact absurd (hasType_unique ht h') gBertPreTokenizer
        | sequence h' _ _ => exact absurd (hasType_unique ht h') gSequence
        | split h' _ _ _ _ => exact absurd (hasType_unique ht h') gSplit
        | byteLevel h' _ _ => exact absurd (hasType_unique ht h') gByteLevel
    · intro x h
      cases h <;> exact ⟨_, by assumption⟩

/-! ### Decoders -/

theorem decoder_reads (n : Nat) : ∀ j : Json, j.depth ≤ n → Reads (withDecoder n j) (DecoderOf j) := by
  induction n with
  | zero => intro j h; have := depth_pos j; omega
  | succ n ih =>
    intro j hd
    simp only [withDecoder]
    refine typed_reads ?_ ?_
    · intro s ht
      by_cases gSequence : s = b!"Sequence"
      · rw [if_pos gSequence]; subst gSequence
        refine (seq_reads hd ih _).congr fun x => ?_
        constructor
        · rintro ⟨l, os, hl, ho, rfl⟩; exact .sequence ht hl ((decodersOf_iff _ _).2 ⟨os, ho, rfl⟩)
        · intro h
          cases h with
          | sequence _ hl ho => obtain ⟨os, ho', rfl⟩ := (decodersOf_iff _ _).1 ho; exact ⟨_, os, hl, ho', rfl⟩
          | wordPiece h' _ _ => exact absurd (hasType_unique ht h') (by decide)
          | strip h' _ _ _ => exact absurd (hasType_unique ht h') (by decide)
          | replace h' _ _ => exact absurd (hasType_unique ht h') (by decide)
          | byteFallback h' => exact absurd (hasType_unique ht h') (by decide)
          | fuse h' => exact absurd (hasType_unique ht h') (by decide)
          | byteLevel h' => exact absurd (hasType_unique ht h') (by decide)
          | other h' hm => cases hasType_unique ht h'; exact absurd hm (by simp)
      rw [if_neg gSequence]
      by_cases gWordPiece : s = b!"WordPiece"
      · rw [if_pos gWordPiece]; subst gWordPiece
        refine ((string_opt j _).bind fun _ _ => (bool_opt j _ _).bind fun _ _ => Reads.ok _).congr fun x => ?_
        constructor
        · rintro ⟨a0, h0, a1, h1, rfl⟩; exact .wordPiece ht h0 h1
        · intro h
          cases h with
          | wordPiece _ h0 h1 => exact ⟨_, h0, _, h1, rfl⟩
          | sequence h' _ _ => exact absurd (hasType_unique ht h') (by decide)
          | strip h' _ _ _ => exact absurd (hasType_unique ht h') (by decide)
          | replace h' _ _ => exact absurd (hasType_unique ht h') (by decide)
          | byteFallback h' => exact absurd (hasType_unique ht h') (by decide)
          | fuse h' => exact absurd (hasType_unique ht h') (by decide)
          | byteLevel h' => exact absurd (hasType_unique ht h') (by decide)
          | other h' hm => cases hasType_unique ht h'; exact absurd hm (by simp)
      rw [if_neg gWordPiece]
      by_cases gStrip : s = b!"Strip"
      · rw [if_pos gStrip]; subst gStrip
        refine ((string_opt j _).bind fun _ _ => (int_opt j _ _).bind fun _ _ => (int_opt j _ _).bind fun _ _ => Reads.ok _).congr fun x => ?_
        constructor
        · rintro ⟨a0, h0, a1, h1, a2, h2, rfl⟩; exact .strip ht h0 h1 h2
        · intro h
          cases h with
          | strip _ h0 h1 h2 => exact ⟨_, h0, _, h1, _, h2, rfl⟩
          | sequence h' _ _ => exact absurd (hasType_unique ht h') (by decide)
          | wordPiece h' _ _ => exact absurd (hasType_unique ht h') (by decide)
          | replace h' _ _ => exact absurd (hasType_unique ht h') (by decide)
          | byteFallback h' => exact absurd (hasType_unique ht h') (by decide)
          | fuse h' => exact absurd (hasType_unique ht h') (by decide)
          | byteLevel h' => exact absurd (hasType_unique ht h') (by decide)
          | other h' hm => cases hasType_unique ht h'; exact absurd hm (by simp)
      rw [if_neg gStrip]
      by_cases gReplace : s = b!"Replace"
      · rw [if_pos gReplace]; subst gReplace
        refine ((pattern_reads j _).bind fun _ _ => (string_opt j _).bind fun _ _ => Reads.ok _).congr fun x => ?_
        constructor
        · rintro ⟨a0, h0, a1, h1, rfl⟩; exact .replace ht h0 h1
        · intro h
          cases h with
          | replace _ h0 h1 => exact ⟨_, h0, _, h1, rfl⟩
          | sequence h' _ _ => exact absurd (hasType_unique ht h') (by decide)
          | wordPiece h' _ _ => exact absurd (hasType_unique ht h') (by decide)
          | strip h' _ _ _ => exact absurd (hasType_unique ht h') (by decide)
          | byteFallback h' => exact absurd (hasType_unique ht h') (by decide)
          | fuse h' => exact absurd (hasType_unique ht h') (by decide)
          | byteLevel h' => exact absurd (hasType_unique ht h') (by decide)
          | other h' hm => cases hasType_unique ht h'; exact absurd hm (by simp)
      rw [if_neg gReplace]
      by_cases gByteFallback : s = b!"ByteFallback"
      · rw [if_pos gByteFallback]; subst gByteFallback
        refine (Reads.ok _).congr fun x => ?_
        constructor
        · rintro rfl; exact .byteFallback ht
        · intro h
          cases h with
          | byteFallback _ => rfl
          | sequence h' _ _ => exact absurd (hasType_unique ht h') (by decide)
          | wordPiece h' _ _ => exact absurd (hasType_unique ht h') (by decide)
          | strip h' _ _ _ => exact absurd (hasType_unique ht h') (by decide)
          | replace h' _ _ => exact absurd (hasType_unique ht h') (by decide)
          | fuse h' => exact absurd (hasType_unique ht h') (by decide)
          | byteLevel h' => exact absurd (hasType_unique ht h') (by decide)
          | other h' hm => cases hasType_unique ht h'; exact absurd hm (by simp)
      rw [if_neg gByteFallback]
      by_cases gFuse : s = b!"Fuse"
      · rw [if_pos gFuse]; subst gFuse
        refine (Reads.ok _).congr fun x => ?_
        constructor
        · rintro rfl; exact .fuse ht
        · intro h
          cases h with
          | fuse _ => rfl
          | sequence h' _ _ => exact absurd (hasType_unique ht h') (by decide)
          | wordPiece h' _ _ => exact absurd (hasType_unique ht h') (by decide)
          | strip h' _ _ _ => exact absurd (hasType_unique ht h') (by decide)
          | replace h' _ _ => exact absurd (hasType_unique ht h') (by decide)
          | byteFallback h' => exact absurd (hasType_unique ht h') (by decide)
          | byteLevel h' => exact absurd (hasType_unique ht h') (by decide)
          | other h' hm => cases hasType_unique ht h'; exact absurd hm (by simp)
      rw [if_neg gFuse]
      by_cases gByteLevel : s = b!"ByteLevel"
      · rw [if_pos gByteLevel]; subst gByteLevel
        refine (Reads.ok _).congr fun x => ?_
        constructor
        · rintro rfl; exact .byteLevel ht
        · intro h
          cases h with
          | byteLevel _ => rfl
          | sequence h' _ _ => exact absurd (hasType_unique ht h') (by decide)
          | wordPiece h' _ _ => exact absurd (hasType_unique ht h') (by decide)
          | strip h' _ _ _ => exact absurd (hasType_unique ht h') (by decide)
          | replace h' _ _ => exact absurd (hasType_unique ht h') (by decide)
          | byteFallback h' => exact absurd (hasType_unique ht h') (by decide)
          | fuse h' => exact absurd (hasType_unique ht h') (by decide)
          | other h' hm => cases hasType_unique ht h'; exact absurd hm (by simp)
      rw [if_neg gByteLevel]
      refine (Reads.ok _).congr fun x => ?_
      constructor
      · rintro rfl; exact .other ht (by simp only [List.mem_cons, List.not_mem_nil, or_false, not_or]; exact ⟨gSequence, gWordPiece, gStrip, gReplace, gByteFallback, gFuse, gByteLevel⟩)
      · intro h
        cases h with
        | other _ _ => rfl
        | sequence h' _ _ => exact absurd (hasType_unique ht h') gSequence
        | wordPiece h' _ _ => exact absurd (hasType_unique ht h') gWordPiece
        | strip h' _ _ _ => exact absurd (hasType_unique ht h') gStrip
        | replace h' _ _ => exact absurd (hasType_unique ht h') gReplace
        | byteFallback h' => exact absurd (hasType_unique ht h') gByteFallback
        | fuse h' => exact absurd (hasType_unique ht h') gFuse
        | byteLevel h' => exact absurd (hasType_unique ht h') gByteLevel
    · intro x h
      cases h <;> exact ⟨_, by assumption⟩

/-! ### Post-processors -/

theorem pieceFields_reads (l : List (Str × Json)) : Reads (pieceFields l) (AllOf PieceOf l) := by
  induction l with
  | nil =>
    refine (Reads.ok _).congr fun x => ?_
    constructor
    · rintro rfl; exact .nil
    · intro h; cases h; rfl
  | cons f r ih =>
    obtain ⟨k, v⟩ := f
    simp only [pieceFields]
    refine ((field_reads v _).bind fun a _ => (getString_reads a).bind fun _ _ => (field_reads v _).bind fun b _ =>
      (getInt_reads b).bind fun _ _ => ih.bind fun _ _ => Reads.ok _).congr fun x => ?_
    constructor
    · rintro ⟨a, ha, s, hs, b, hb, i, hi, m, hm, rfl⟩
      exact .cons ⟨rfl, ⟨a, ha, hs⟩, b, hb, hi⟩ hm
    · intro h
      cases h with
      | @cons _ p _ m h1 h2 =>
        obtain ⟨h0, ⟨a, ha, hs⟩, b, hb, hi⟩ := h1
        refine ⟨a, ha, _, hs, b, hb, _, hi, m, h2, ?_⟩
        cases p; cases h0; rfl

theorem pieces_reads (j : Json) (k : Str) : Reads (pieces j k) (Opt TemplateOf [] j k) := by
  unfold pieces
  refine opt_reads fun v _ => ?_
  refine ((getArray_reads v).bind fun l _ => (mapRes_reads l fun e _ =>
    (getObject_reads e).bind fun l _ => pieceFields_reads l).bind fun _ _ => Reads.ok _).congr fun x => ?_
  unfold TemplateOf ArrayOf
  constructor
  · rintro ⟨l, hl, pss, hp, rfl⟩; exact ⟨pss, ⟨l, hl, hp⟩, rfl⟩
  · rintro ⟨pss, ⟨l, hl, hp⟩, rfl⟩; exact ⟨l, hl, pss, hp, rfl⟩

theorem special_reads (v : Json) : Reads (specialField v) (SpecialTokenOf v) := by
  unfold specialField SpecialTokenOf
  refine ((field_reads v _).bind fun a _ => (getString_reads a).bind fun _ _ =>
    (field_reads v _).bind fun b _ => (getArray_reads b).bind fun l _ => (mapRes_reads l fun e _ => getInt_reads e).bind fun _ _ =>
    (field_reads v _).bind fun c _ => (getArray_reads c).bind fun l _ => (mapRes_reads l fun e _ => getString_reads e).bind fun _ _ =>
    Reads.ok _).congr fun x => ?_
  unfold ArrayOf
  constructor
  · rintro ⟨a, ha, s, hs, b, hb, l, hl, is, hi, c, hc, m, hm, ts, ht, rfl⟩
    exact ⟨⟨a, ha, hs⟩, ⟨b, hb, l, hl, hi⟩, c, hc, m, hm, ht⟩
  · rintro ⟨⟨a, ha, hs⟩, ⟨b, hb, l, hl, hi⟩, c, hc, m, hm, ht⟩
    exact ⟨a, ha, _, hs, b, hb, l, hl, _, hi, c, hc, m, hm, _, ht, rfl⟩

theorem specials_reads (j : Json) (k : Str) : Reads (j.opt k [] fun v => do mapRes (fun e => specialField e.2) (← v.getObject))
    (Opt SpecialTokensOf [] j k) :=
  opt_reads fun v _ => (getObject_reads v).bind fun l _ => mapRes_reads l fun e _ => special_reads e.2

/-! ### Post-processors, recursively -/

theorem postProcessor_reads (n : Nat) : ∀ j : Json, j.depth ≤ n → Reads (withPostProcessor n j) (PostProcessorOf j) := by
  induction n with
  | zero => intro j h; have := depth_pos j; omega
  | succ n ih =>
    intro j hd
    simp only [withPostProcessor]
    refine typed_reads ?_ ?_
    · intro s ht
      by_cases gTemplateProcessing : s = b!"TemplateProcessing"
      · rw [if_pos gTemplateProcessing]; subst gTemplateProcessing
        refine ((pieces_reads j _).bind fun _ _ => (pieces_reads j _).bind fun _ _ => (specials_reads j _).bind fun _ _ => Reads.ok _).congr fun x => ?_
        constructor
        · rintro ⟨a0, h0, a1, h1, a2, h2, rfl⟩; exact .template ht h0 h1 h2
        · intro h
          cases h with
          | template _ h0 h1 h2 => exact ⟨_, h0, _, h1, _, h2, rfl⟩
          | sequence h' _ _ => exact absurd (hasType_unique ht h') (by decide)
          | byteLevel h' _ _ => exact absurd (hasType_unique ht h') (by decide)
          | other h' hm => cases hasType_unique ht h'; exact absurd hm (by simp)
      rw [if_neg gTemplateProcessing]
      by_cases gSequence : s = b!"Sequence"
      · rw [if_pos gSequence]; subst gSequence
        refine (seq_reads hd ih _).congr fun x => ?_
        constructor
        · rintro ⟨l, os, hl, ho, rfl⟩; exact .sequence ht hl ((postProcessorsOf_iff _ _).2 ⟨os, ho, rfl⟩)
        · intro h
          cases h with
          | sequence _ hl ho => obtain ⟨os, ho', rfl⟩ := (postProcessorsOf_iff _ _).1 ho; exact ⟨_, os, hl, ho', rfl⟩
          | template h' _ _ _ => exact absurd (hasType_unique ht h') (by decide)
          | byteLevel h' _ _ => exact absurd (hasType_unique ht h') (by decide)
          | other h' hm => cases hasType_unique ht h'; exact absurd hm (by simp)
      rw [if_neg gSequence]
      by_cases gByteLevel : s = b!"ByteLevel"
      · rw [if_pos gByteLevel]; subst gByteLevel
        refine ((bool_opt j _ _).bind fun _ _ => (bool_opt j _ _).bind fun _ _ => Reads.ok _).congr fun x => ?_
        constructor
        · rintro ⟨a0, h0, a1, h1, rfl⟩; exact .byteLevel ht h0 h1
        · intro h
          cases h with
          | byteLevel _ h0 h1 => exact ⟨_, h0, _, h1, rfl⟩
          | template h' _ _ _ => exact absurd (hasType_unique ht h') (by decide)
          | sequence h' _ _ => exact absurd (hasType_unique ht h') (by decide)
          | other h' hm => cases hasType_unique ht h'; exact absurd hm (by simp)
      rw [if_neg gByteLevel]
      refine (Reads.ok _).congr fun x => ?_
      constructor
      · rintro rfl; exact .other ht (by simp only [List.mem_cons, List.not_mem_nil, or_false, not_or]; exact ⟨gTemplateProcessing, gSequence, gByteLevel⟩)
      · intro h
        cases h with
        | other _ _ => rfl
        | template h' _ _ _ => exact absurd (hasType_unique ht h') gTemplateProcessing
        | sequence h' _ _ => exact absurd (hasType_unique ht h') gSequence
        | byteLevel h' _ _ => exact absurd (hasType_unique ht h') gByteLevel
    · intro x h
      cases h <;> exact ⟨_, by assumption⟩

end Tok
