import Verif.Tokenizer
import Verif.Proofs.Base

set_option autoImplicit false

/-!
Property C61: sequences of components.
-/

namespace Tok

theorem norm_append (P : Platform) (l m : List Normalizer) (s : NS) :
    Normalizer.runList P (l ++ m) s = (Normalizer.runList P l s >>= Normalizer.runList P m) := by
  induction l generalizing s with
  | nil => rfl
  | cons n l ih =>
    simp only [List.cons_append, Normalizer.runList]
    cases n.run P s with
    | error e => rfl
    | ok s' => simp only [res_ok_bind]; exact ih s'

theorem pre_append (P : Platform) (l m : List PreTokenizer) (s : PTS) :
    PreTokenizer.runList P (l ++ m) s = (PreTokenizer.runList P l s >>= PreTokenizer.runList P m) := by
  induction l generalizing s with
  | nil => rfl
  | cons n l ih =>
    simp only [List.cons_append, PreTokenizer.runList]
    cases n.run P s with
    | error e => rfl
    | ok s' => simp only [res_ok_bind]; exact ih s'

theorem post_append (b : Bool) (l m : List PostProcessor) (s : Encoding) :
    PostProcessor.runList b (l ++ m) s = (PostProcessor.runList b l s >>= PostProcessor.runList b m) := by
  induction l generalizing s with
  | nil => rfl
  | cons n l ih =>
    simp only [List.cons_append, PostProcessor.runList]
    cases n.run b s with
    | error e => rfl
    | ok s' => simp only [res_ok_bind]; exact ih s'

theorem dec_append (l m : List Decoder) (s : List Str) :
    Decoder.runList (l ++ m) s = (Decoder.runList l s >>= Decoder.runList m) := by
  induction l generalizing s with
  | nil => rfl
  | cons n l ih =>
    simp only [List.cons_append, Decoder.runList]
    cases n.run s with
    | error e => rfl
    | ok s' => simp only [res_ok_bind]; exact ih s'

/-- **C61** for normalizers: a sequence is its members one after the other (stopping at the first that fails), an
empty sequence changes nothing, and a sequence in a sequence can be written out. -/
theorem C61_normalizers (P : Platform) (l m r : List Normalizer) (n : Normalizer) (s : NS) :
    (Normalizer.seq []).run P s = .ok s ∧
    (Normalizer.seq [n]).run P s = n.run P s ∧
    (Normalizer.seq (l ++ m)).run P s = ((Normalizer.seq l).run P s >>= (Normalizer.seq m).run P) ∧
    (Normalizer.seq (l ++ [.seq m] ++ r)).run P s = (Normalizer.seq (l ++ m ++ r)).run P s := by
  have e : ∀ l, Normalizer.run P (.seq l) = Normalizer.runList P l := fun l => by
    funext s; simp only [Normalizer.run]
  have one : ∀ n s, Normalizer.runList P [n] s = n.run P s := fun n s => by
    simp only [Normalizer.runList]; cases n.run P s <;> rfl
  refine ⟨by rw [e]; rfl, by rw [e, one], by rw [e, e, e, norm_append], ?_⟩
  rw [e, e, norm_append, norm_append, norm_append, norm_append]
  congr 1
  have : Normalizer.runList P [.seq m] = Normalizer.runList P m := by funext s; rw [one, e]
  rw [this]

/-- **C61** for pre-tokenizers. -/
theorem C61_preTokenizers (P : Platform) (l m r : List PreTokenizer) (n : PreTokenizer) (s : PTS) :
    (PreTokenizer.seq []).run P s = .ok s ∧
    (PreTokenizer.seq [n]).run P s = n.run P s ∧
    (PreTokenizer.seq (l ++ m)).run P s = ((PreTokenizer.seq l).run P s >>= (PreTokenizer.seq m).run P) ∧
    (PreTokenizer.seq (l ++ [.seq m] ++ r)).run P s = (PreTokenizer.seq (l ++ m ++ r)).run P s := by
  have e : ∀ l, PreTokenizer.run P (.seq l) = PreTokenizer.runList P l := fun l => by
    funext s; simp only [PreTokenizer.run]
  have one : ∀ n s, PreTokenizer.runList P [n] s = n.run P s := fun n s => by
    simp only [PreTokenizer.runList]; cases n.run P s <;> rfl
  refine ⟨by rw [e]; rfl, by rw [e, one], by rw [e, e, e, pre_append], ?_⟩
  rw [e, e, pre_append, pre_append, pre_append, pre_append]
  congr 1
  have : PreTokenizer.runList P [.seq m] = PreTokenizer.runList P m := by funext s; rw [one, e]
  rw [this]

/-- **C61** for post-processors. -/
theorem C61_postProcessors (b : Bool) (l m r : List PostProcessor) (n : PostProcessor) (s : Encoding) :
    (PostProcessor.seq []).run b s = .ok s ∧
    (PostProcessor.seq [n]).run b s = n.run b s ∧
    (PostProcessor.seq (l ++ m)).run b s = ((PostProcessor.seq l).run b s >>= (PostProcessor.seq m).run b) ∧
    (PostProcessor.seq (l ++ [.seq m] ++ r)).run b s = (PostProcessor.seq (l ++ m ++ r)).run b s := by
  have e : ∀ l, PostProcessor.run b (.seq l) = PostProcessor.runList b l := fun l => by
    funext s; simp only [PostProcessor.run]
  have one : ∀ n s, PostProcessor.runList b [n] s = n.run b s := fun n s => by
    simp only [PostProcessor.runList]; cases n.run b s <;> rfl
  refine ⟨by rw [e]; rfl, by rw [e, one], by rw [e, e, e, post_append], ?_⟩
  rw [e, e, post_append, post_append, post_append, post_append]
  congr 1
  have : PostProcessor.runList b [.seq m] = PostProcessor.runList b m := by funext s; rw [one, e]
  rw [this]

/-- **C61** for decoders. -/
theorem C61_decoders (l m r : List Decoder) (n : Decoder) (s : List Str) :
    (Decoder.seq []).run s = .ok s ∧
    (Decoder.seq [n]).run s = n.run s ∧
    (Decoder.seq (l ++ m)).run s = ((Decoder.seq l).run s >>= (Decoder.seq m).run) ∧
    (Decoder.seq (l ++ [.seq m] ++ r)).run s = (Decoder.seq (l ++ m ++ r)).run s := by
  have e : ∀ l, Decoder.run (.seq l) = Decoder.runList l := fun l => by
    funext s; simp only [Decoder.run]
  have one : ∀ n s, Decoder.runList [n] s = n.run s := fun n s => by
    simp only [Decoder.runList]; cases n.run s <;> rfl
  refine ⟨by rw [e]; rfl, by rw [e, one], by rw [e, e, e, dec_append], ?_⟩
  rw [e, e, dec_append, dec_append, dec_append, dec_append]
  congr 1
  have : Decoder.runList [.seq m] = Decoder.runList m := by funext s; rw [one, e]
  rw [this]

end Tok
