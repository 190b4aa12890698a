import Verif.Sample

set_option autoImplicit false

/-
Tests, not proofs: the unit tests under /repo/tests replayed on the model.  They check
that the model was read off the code correctly; no property rests on them.
-/

namespace Tok.Examples
open Tok

/-- tests/common.cpp -/
example : convertToString w!"Hello, 世界!" = .ok b!"Hello, 世界!" := by decide +kernel
example : convertFromString b!"Hello, 世界!" = .ok w!"Hello, 世界!" := by decide +kernel

/-- tests/model.cpp: the answer of a model for one word. -/
def wp (v : Vocab) (unk : Str) (n : Int) (pre : Str) : WordPiece := { vocab := v, unkToken := unk, maxChars := n, pre }

example : (wp [] b!"[UNK]" 100 b!"##").word b!"hello world" = [⟨0, b!"[UNK]", (0, 11)⟩] := by decide +kernel
example : (wp [(b!"hello", 420), (b!"[UNK]", 333)] b!"[UNK]" 100 b!"##").word b!"hello world"
    = [⟨333, b!"[UNK]", (0, 11)⟩] := by decide +kernel
example : (wp [(b!"[UNK]", 333)] b!"[UNK]" 10 b!"##").word b!"hello world"
    = [⟨333, b!"[UNK]", (0, 11)⟩] := by decide +kernel
example : (wp [(b!"hello", 420), (b!"TEST_## world", 111)] b!"[UNK]" 100 b!"TEST_##").word b!"hello world"
    = [⟨420, b!"hello", (0, 5)⟩, ⟨111, b!"TEST_## world", (5, 11)⟩] := by decide +kernel

def noDrop : Dropout := { on := false, draw := fun _ => false }
def allDrop : Dropout := { on := true, draw := fun _ => true }

def bpeUnk (fuse : Bool) : BPE :=
  { vocab := [(b!"<unk>", 0), (b!"a", 1), (b!"b", 2)], merges := [], dropout := noDrop,
    unkToken := b!"<unk>", pre := [], suf := [], fuseUnk := fuse, byteFallback := false, ignoreMerges := true }

example : ((bpeUnk false).word ascii b!"cc").1 = .ok [⟨0, b!"<unk>", (0, 1)⟩, ⟨0, b!"<unk>", (1, 2)⟩] := by
  decide +kernel
example : ((bpeUnk true).word ascii b!"cc").1 = .ok [⟨0, b!"<unk>", (0, 2)⟩] := by decide +kernel
example : ((bpeUnk true).word ascii b!"accb").1
    = .ok [⟨1, b!"a", (0, 1)⟩, ⟨0, b!"<unk>", (1, 3)⟩, ⟨2, b!"b", (3, 4)⟩] := by decide +kernel

def unVocab : Vocab :=
  [(b!"u", 0), (b!"n", 1), (b!"r", 2), (b!"e", 3), (b!"l", 4), (b!"a", 5), (b!"t", 6), (b!"d", 7),
   (b!"re", 8), (b!"at", 9), (b!"ed", 10), (b!"un", 11), (b!"ated", 12), (b!"rel", 13),
   (b!"related", 14), (b!"unrelated", 15)]
def unMerges : List Str :=
  [b!"r e", b!"a t", b!"e d", b!"u n", b!"at ed", b!"re l", b!"rel ated", b!"un related"]
def unBPE (d : Dropout) : Res BPE := BPE.make unVocab unMerges d [] [] [] false false false

example : (do let m ← unBPE noDrop; (m.word ascii b!"unrelated").1) = .ok [⟨15, b!"unrelated", (0, 9)⟩] := by
  decide +kernel
example : (do let m ← unBPE allDrop; (m.word ascii b!"unrelated").1) =
    .ok [⟨0, b!"u", (0, 1)⟩, ⟨1, b!"n", (1, 2)⟩, ⟨2, b!"r", (2, 3)⟩, ⟨3, b!"e", (3, 4)⟩, ⟨4, b!"l", (4, 5)⟩,
         ⟨5, b!"a", (5, 6)⟩, ⟨6, b!"t", (6, 7)⟩, ⟨3, b!"e", (7, 8)⟩, ⟨7, b!"d", (8, 9)⟩] := by
  decide +kernel

/-- tests/pre_tokenizer.cpp -/
def preSplits (pt : PreTokenizer) (w : WStr) : Res (List (Str × (Nat × Nat))) := do
  let p ← PTS.ofNS (NS.ofText w)
  let p ← pt.run ascii p
  return p.splits.map fun s => (s.normalized, s.offsets)

example : preSplits .bert w!"Hey friend!     How are you?!?" =
    .ok [(b!"Hey", (0, 3)), (b!"friend", (4, 10)), (b!"!", (10, 11)), (b!"How", (16, 19)), (b!"are", (20, 23)),
      (b!"you", (24, 27)), (b!"?", (27, 28)), (b!"!", (28, 29)), (b!"?", (29, 30))] := by decide +kernel
example : preSplits .bert w!"野 口 里 佳 Noguchi Rika" =
    .ok [(b!"野", (0, 1)), (b!"口", (2, 3)), (b!"里", (4, 5)), (b!"佳", (6, 7)), (b!"Noguchi", (8, 15)),
      (b!"Rika", (16, 20))] := by decide +kernel
example : preSplits (.byteLevel false false) w!"How are ya doing?" = .ok [(b!"HowĠareĠyaĠdoing?", (0, 17))] := by
  decide +kernel
example : preSplits (.byteLevel true false) w!"How are ya doing?" = .ok [(b!"ĠHowĠareĠyaĠdoing?", (0, 18))] := by
  decide +kernel

/-- tests/normalizer.cpp -/
def normText (n : Normalizer) (w : WStr) : Res WStr := do return (← n.run ascii (NS.ofText w)).normalized

example : normText (.seq [.prepend b!"▁", .replace b!" " b!"▁"]) w!"Hello World!\tThis is a test.\n"
    = .ok w!"▁Hello▁World!\tThis▁is▁a▁test.\n" := by decide +kernel
example : normText (.bert true false false false) w!"Hello World!\tThis is a test.\n"
    = .ok w!"Hello World! This is a test. " := by decide +kernel
example : normText (.bert false true false false) w!"Hello 世界!" = .ok w!"Hello  世  界 !" := by decide +kernel
example : normText (.bert false false false true) w!"HELLO WORLD! THIS IS A TEST!"
    = .ok w!"hello world! this is a test!" := by decide +kernel
example : normText (.prepend b!"_") w!"Hello World!" = .ok w!"_Hello World!" := by decide +kernel
example : normText (.replace b!" " b!"▁") w!"Hello World!" = .ok w!"Hello▁World!" := by decide +kernel
example : normText (.strip true true) w!"  Hello World!  " = .ok w!"Hello World!" := by decide +kernel
example : normText .stripAccents w!"e\u0304\u0304\u0304o" = .ok w!"eo" := by decide +kernel

/-- tests/utils.cpp -/
def enc2 : Encoding :=
  { ids := [12, 14], typeIds := [0, 0], tokens := [b!"hello", b!"world"], words := [some 0, some 0],
    offsets := [(0, 5), (6, 11)], specialTokensMask := [0, 0], attentionMask := [1, 1] }
def encW : Enc :=
  { ids := [14], typeIds := [0], tokens := [b!"world"], words := [some 0],
    offsets := [(6, 11)], specialTokensMask := [0], attentionMask := [1] }
example : ({ direction := .right, strategy := .longestFirst, maxLength := 1, stride := 0 } : Truncation).run enc2 =
    .ok { ids := [12], typeIds := [0], tokens := [b!"hello"], words := [some 0], offsets := [(0, 5)],
          specialTokensMask := [0], attentionMask := [1],
          overflowing := [encW] } := by decide +kernel
def enc4 : Encoding :=
  { ids := [12, 14, 16, 18], typeIds := [0, 0, 0, 0], tokens := [b!"hello", b!"world", b!"from", b!"tokenizers"],
    words := [some 0, some 0, some 0, some 0], offsets := [(0, 5), (6, 11), (12, 16), (17, 27)],
    specialTokensMask := [0, 0, 0, 0], attentionMask := [1, 1, 1, 1] }
example : ({ direction := .right, strategy := .batchLongest, fixedSize := -1, padId := 1, padTypeId := 1,
             padToken := b!"[PAD]", padToMultipleOf := 3 } : Padding).run enc4 =
    .ok { ids := [12, 14, 16, 18, 1, 1], typeIds := [0, 0, 0, 0, 1, 1],
          tokens := [b!"hello", b!"world", b!"from", b!"tokenizers", b!"[PAD]", b!"[PAD]"],
          words := [some 0, some 0, some 0, some 0, some 0, some 0],
          offsets := [(0, 5), (6, 11), (12, 16), (17, 27), (0, 0), (0, 0)],
          specialTokensMask := [0, 0, 0, 0, 1, 1], attentionMask := [1, 1, 1, 1, 0, 0] } := by decide +kernel

/-- tests/post_processor.cpp -/
def clsSep : PostProcessor :=
  .template [⟨b!"SpecialToken", b!"[CLS]", 0⟩, ⟨b!"Sequence", b!"A", 0⟩, ⟨b!"SpecialToken", b!"[SEP]", 0⟩] []
    [⟨b!"[CLS]", [101], [b!"[CLS]"]⟩, ⟨b!"[SEP]", [102], [b!"[SEP]"]⟩]
example : clsSep.run true enc2 =
    .ok { ids := [101, 12, 14, 102], typeIds := [0, 0, 0, 0], tokens := [b!"[CLS]", b!"hello", b!"world", b!"[SEP]"],
          words := [none, some 0, some 0, none], offsets := [(0, 0), (0, 5), (6, 11), (0, 0)],
          specialTokensMask := [1, 0, 0, 1], attentionMask := [1, 1, 1, 1] } := by decide +kernel
example : clsSep.run false enc2 = .ok enc2 := by decide +kernel
example : (do return (← PostProcessor.run false (.byteLevel false true)
      { ids := [0, 1, 2, 3, 4], tokens := [b!"Ġ", b!"ĠĠĠĠHelloĠĠ", b!"ĠĠHello", b!"HelloĠĠ", b!"ĠĠĠĠ"],
        offsets := [(0, 1), (0, 11), (11, 18), (18, 25), (25, 29)] }).offsets)
    = (.ok [(1, 1), (4, 9), (13, 18), (18, 23), (29, 29)] : Res _) := by decide +kernel

/-- tests/decoder.cpp -/
example : (Decoder.wordPiece b!"##" true).run [b!"##uelo", b!"Ara ?", b!"##új", b!"##o", b!"No .", b!"##guera"]
    = .ok [b!"##uelo", b!" Ara?", b!"új", b!"o", b!" No.", b!"guera"] := by decide +kernel
example : Decoder.byteLevel.run [b!"How", b!"Ġare", b!"Ġya", b!"Ġdoing", b!"?"] = .ok [b!"How are ya doing?"] := by
  decide +kernel

/-- tests/added_vocabulary.cpp -/
def special (s : Str) (i : Int) : AddedToken := { id := i, content := s, normalized := false, special := true }
def bertAdded : List AddedToken :=
  [special b!"[PAD]" 0, special b!"[UNK]" 100, special b!"[CLS]" 101, special b!"[SEP]" 102, special b!"[MASK]" 103]
def bertVocab : Vocab :=
  [(b!"[PAD]", 0), (b!"[UNK]", 100), (b!"[CLS]", 101), (b!"[SEP]", 102), (b!"[MASK]", 103)]
example : (do
      let (_, a) ← (AddedVocab.init bertAdded).addTokensCore (some bertVocab) true bertAdded
      let p ← (a.extract ascii none w!"[CLS] my name is, SLIM SHADY? [MASK] is my name!").1
      return p.splits.map fun s => (s.normalized, s.offsets))
    = (.ok [(b!"[CLS]", (0, 5)), (b!" my name is, SLIM SHADY? ", (5, 30)), (b!"[MASK]", (30, 36)),
        (b!" is my name!", (36, 48))] : Res _) := by decide +kernel

/-- tests/tokenizer.cpp, from the JSON document. -/

def tokJson (s : Str) (i : Str) : Json :=
  .obj [(b!"id", .num i), (b!"content", .str s), (b!"single_word", .bool false), (b!"lstrip", .bool false),
        (b!"rstrip", .bool false), (b!"normalized", .bool false), (b!"special", .bool true)]
def pieceJson (k id ty : Str) : Json := .obj [(k, .obj [(b!"id", .str id), (b!"type_id", .num ty)])]
def stJson (s n : Str) : Str × Json :=
  (s, .obj [(b!"id", .str s), (b!"ids", .arr [.num n]), (b!"tokens", .arr [.str s])])
def bertDoc : Json := .obj
  [(b!"version", .str b!"1.0"), (b!"truncation", .null), (b!"padding", .null),
   (b!"added_tokens", .arr [tokJson b!"[PAD]" b!"0", tokJson b!"[UNK]" b!"100", tokJson b!"[CLS]" b!"101",
      tokJson b!"[SEP]" b!"102", tokJson b!"[MASK]" b!"103"]),
   (b!"normalizer", .obj [(b!"type", .str b!"BertNormalizer"), (b!"clean_text", .bool true),
      (b!"handle_chinese_chars", .bool true), (b!"strip_accents", .null), (b!"lowercase", .bool true)]),
   (b!"pre_tokenizer", .obj [(b!"type", .str b!"BertPreTokenizer")]),
   (b!"post_processor", .obj [(b!"type", .str b!"TemplateProcessing"),
      (b!"single", .arr [pieceJson b!"SpecialToken" b!"[CLS]" b!"0", pieceJson b!"Sequence" b!"A" b!"0",
         pieceJson b!"SpecialToken" b!"[SEP]" b!"0"]),
      (b!"pair", .null), (b!"special_tokens", .obj [stJson b!"[CLS]" b!"101", stJson b!"[SEP]" b!"102"])]),
   (b!"decoder", .obj [(b!"type", .str b!"WordPiece"), (b!"prefix", .str b!"##"), (b!"cleanup", .bool true)]),
   (b!"model", .obj [(b!"type", .str b!"WordPiece"), (b!"unk_token", .str b!"[UNK]"),
      (b!"continuing_subword_prefix", .str b!"##"), (b!"max_input_chars_per_word", .num b!"100"),
      (b!"vocab", .obj [(b!"[PAD]", .num b!"0")])])]
example : (do let t ← Tokenizer.make ascii (.document bertDoc); (t.encode ascii w!"Hello World!" true).1) =
    .ok { ids := [101, 0, 0, 0, 102], typeIds := [0, 0, 0, 0, 0],
          tokens := [b!"[CLS]", b!"[UNK]", b!"[UNK]", b!"[UNK]", b!"[SEP]"],
          words := [none, some 0, some 1, some 2, none],
          offsets := [(0, 0), (0, 5), (6, 11), (11, 12), (0, 0)],
          specialTokensMask := [1, 0, 0, 0, 1], attentionMask := [1, 1, 1, 1, 1] } := by decide +kernel
def emptyDoc : Json := .obj
  [(b!"truncation", .null), (b!"padding", .null), (b!"added_tokens", .null), (b!"normalizer", .null),
   (b!"pre_tokenizer", .null), (b!"model", .null), (b!"post_processor", .null), (b!"decoder", .null)]
example : (do let t ← Tokenizer.make ascii (.document emptyDoc); (t.encode ascii w!"Hello World!" true).1) =
    .ok {} := by decide +kernel
example : (match Tokenizer.make ascii (.document (.obj [])) with | .error e => some e | .ok _ => none)
    = some (.throws .runtimeError) := by decide +kernel

end Tok.Examples
