import Verif.Spec.Config

set_option autoImplicit false

/-!
Documents from which the components of a type that the library does not have are taken out.
-/

namespace Tok.Spec

/-- The kinds of components, each with the name of its section, the name of the list in a `Sequence` of such components, and the types
the library has (the support matrix of `docs/README.md`). -/
def componentKinds : List (Str × Str × List Str) :=
  [(b!"normalizer", b!"normalizers",
      [b!"Sequence", b!"NFC", b!"NFD", b!"NFKC", b!"NFKD", b!"Prepend", b!"Replace", b!"BertNormalizer", b!"Strip", b!"StripAccents"]),
   (b!"pre_tokenizer", b!"pretokenizers", [b!"BertPreTokenizer", b!"Sequence", b!"Split", b!"ByteLevel"]),
   (b!"decoder", b!"decoders",
      [b!"Sequence", b!"WordPiece", b!"Strip", b!"Replace", b!"ByteFallback", b!"Fuse", b!"ByteLevel"]),
   (b!"post_processor", b!"processors", [b!"TemplateProcessing", b!"Sequence", b!"ByteLevel"])]

/-- A component whose type is not in the list. -/
def Foreign (types : List Str) (j : Json) : Prop := ∃ s, HasType j s ∧ s ∉ types

mutual
/-- In a `Sequence`, and in the sequences in it, members of a type that is not in the list have been taken out. -/
inductive Weeded (types : List Str) (list : Str) : Json → Json → Prop
  | same (j : Json) : Weeded types list j j
  | sequence {A B : List (Str × Json)} {l l' : List Json} : HasType (.obj (A ++ (list, .arr l) :: B)) b!"Sequence" →
      (∀ f ∈ A, f.1 ≠ list) → WeededAll types list l l' →
      Weeded types list (.obj (A ++ (list, .arr l) :: B)) (.obj (A ++ (list, .arr l') :: B))
/-- Some members have been taken out of a list. -/
inductive WeededAll (types : List Str) (list : Str) : List Json → List Json → Prop
  | nil : WeededAll types list [] []
  | keep {j j' : Json} {l l' : List Json} : Weeded types list j j' → WeededAll types list l l' →
      WeededAll types list (j :: l) (j' :: l')
  | drop {j : Json} {l l' : List Json} : Foreign types j → WeededAll types list l l' → WeededAll types list (j :: l) l'
end

/-- A section without the components of other types: `null` if the section itself is such a component. -/
def WeededSection (types : List Str) (list : Str) (j j' : Json) : Prop :=
  (Foreign types j ∧ j' = .null) ∨ Weeded types list j j'

/-- A document from which some components of types that the library does not have are taken out, one section after the other. -/
inductive WeededDoc : Json → Json → Prop
  | same (doc : Json) : WeededDoc doc doc
  | step {A B : List (Str × Json)} {name list : Str} {types : List Str} {v v' doc : Json} : (name, list, types) ∈ componentKinds →
      (∀ f ∈ A, f.1 ≠ name) → WeededSection types list v v' → WeededDoc (.obj (A ++ (name, v') :: B)) doc →
      WeededDoc (.obj (A ++ (name, v) :: B)) doc

end Tok.Spec
