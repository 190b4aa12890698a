import Verif.Props.Config

set_option autoImplicit false

/-!
C94: what the constructor does, in every case.
-/

namespace Tok
open Spec

/-- **C94** Constructing a tokenizer, in every case: without path and configuration it throws `std::invalid_argument`; a source
that cannot be read, and a document that describes no tokenizer, make it throw `std::runtime_error`; a document that describes
a tokenizer makes it succeed exactly if the added tokens are safe to register, and the behaviour is undefined otherwise. -/
theorem C94_outcome (P : Platform) :
    Tokenizer.make P .bothEmpty = .error (.throws .invalidArgument) ∧
    Tokenizer.make P .unreadable = .error (.throws .runtimeError) ∧
    ∀ doc : Json,
      ((¬ ∃ t, Describes P doc t) → Tokenizer.make P (.document doc) = .error (.throws .runtimeError)) ∧
      ∀ t, Describes P doc t →
        (SafeConfig t → ∃ t', Tokenizer.make P (.document doc) = .ok t') ∧
        (¬ SafeConfig t → ∃ k, Tokenizer.make P (.document doc) = .error (.ub k)) :=
  ⟨rfl, rfl, fun doc => ⟨fun h => (C52_throws_iff P doc _).2 ⟨rfl, h⟩, fun t ht =>
    ⟨C52_succeeds_partial P doc t ht, C52_unsafe P doc t ht⟩⟩⟩

-- the three outcomes of a document: two special tokens; a token that is not special; a section missing
example : (∃ t, Tokenizer.make ascii (.document (wpDoc [(b!"[UNK]", .num b!"0")]
      (.arr [.obj [(b!"id", .num b!"0"), (b!"content", .str b!"[UNK]"), (b!"special", .bool true)]]))) = .ok t) ∧
    Tokenizer.make ascii (.document (wpDoc [(b!"a", .num b!"0")]
      (.arr [.obj [(b!"id", .num b!"1"), (b!"content", .str b!"new")]]))) = .error (.ub .invalidIterator) ∧
    Tokenizer.make ascii (.document (.obj [(b!"model", .null)])) = .error (.throws .runtimeError) :=
  ⟨⟨_, rfl⟩, rfl, C52_missing_section ascii _ b!"normalizer" (by decide) (by
    rintro v ⟨l, e, A, B, h, _⟩
    cases e
    have : (b!"normalizer", v) ∈ [(b!"model", Json.null)] := by rw [h]; simp
    simp at this)⟩

end Tok
