import Verif.Spec.Config

set_option autoImplicit false

/-!
Documents with the same content, written differently.
-/

namespace Tok.Spec

/-- The names of the fields that mean something to the library. -/
def fieldNames : List Str :=
  [b!"truncation", b!"padding", b!"added_tokens", b!"normalizer", b!"pre_tokenizer", b!"model", b!"decoder", b!"post_processor",
   b!"direction", b!"strategy", b!"max_length", b!"stride", b!"pad_id", b!"pad_type_id", b!"pad_token", b!"pad_to_multiple_of",
   b!"id", b!"content", b!"single_word", b!"lstrip", b!"rstrip", b!"normalized", b!"special",
   b!"type", b!"normalizers", b!"prepend", b!"pattern", b!"String", b!"Regex", b!"clean_text", b!"handle_chinese_chars",
   b!"strip_accents", b!"lowercase", b!"strip_left", b!"strip_right", b!"pretokenizers", b!"behavior", b!"invert",
   b!"add_prefix_space", b!"use_regex", b!"vocab", b!"unk_token", b!"max_input_chars_per_word", b!"continuing_subword_prefix",
   b!"merges", b!"dropout", b!"end_of_word_suffix", b!"fuse_unk", b!"byte_fallback", b!"ignore_merges", b!"decoders", b!"prefix",
   b!"cleanup", b!"start", b!"stop", b!"single", b!"pair", b!"special_tokens", b!"processors", b!"trim_offsets", b!"type_id",
   b!"ids", b!"tokens"]

/-- The fields whose value, or whose elements, are not records: the library reads all their fields, whatever their names. -/
def mapNames : List Str := [b!"vocab", b!"strategy", b!"single", b!"pair", b!"special_tokens"]

mutual
/-- Two values of the field `k` with the same content.  Strings may be escaped differently.  A record may list its fields in another
order and have other fields that mean nothing; no field occurs twice.  The vocabulary may list its entries in another order. -/
inductive SameContent : Str → Json → Json → Prop
  | same (k : Str) (j : Json) : SameContent k j j
  | string {k raw raw' : Str} : (∀ s, Denotes raw s ↔ Denotes raw' s) → SameContent k (.str raw) (.str raw')
  | array {k : Str} {l l' : List Json} : SameElements k l l' → SameContent k (.arr l) (.arr l')
  | record {k : Str} {l l' : List (Str × Json)} : k ∉ mapNames → (l.map (·.1)).Nodup → (l'.map (·.1)).Nodup →
      (∀ n ∈ fieldNames, (∃ v, (n, v) ∈ l) ↔ ∃ v, (n, v) ∈ l') →
      (∀ n v v', n ∈ fieldNames → (n, v) ∈ l → (n, v') ∈ l' → SameContent n v v') → SameContent k (.obj l) (.obj l')
  | vocabulary {l l' : List (Str × Json)} : (l.map (·.1)).Nodup → l.Perm l' → SameContent b!"vocab" (.obj l) (.obj l')
  | fields {k : Str} {l l' : List (Str × Json)} : SameFields l l' → SameContent k (.obj l) (.obj l')
/-- Element by element. -/
inductive SameElements : Str → List Json → List Json → Prop
  | nil {k : Str} : SameElements k [] []
  | cons {k : Str} {j j' : Json} {l l' : List Json} : SameContent k j j' → SameElements k l l' → SameElements k (j :: l) (j' :: l')
/-- The same fields in the same order. -/
inductive SameFields : List (Str × Json) → List (Str × Json) → Prop
  | nil : SameFields [] []
  | cons {k : Str} {j j' : Json} {l l' : List (Str × Json)} : SameContent k j j' → SameFields l l' →
      SameFields ((k, j) :: l) ((k, j') :: l')
end

end Tok.Spec
