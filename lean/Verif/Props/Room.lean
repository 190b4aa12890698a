import Verif.Proofs.Room2
import Verif.Props.Total
import Verif.Props.Recognized

set_option autoImplicit false

/-!
C73 with any normalizer: `encode` returns exactly if the normalizer returns on every ordinary piece of the text.
-/

namespace Tok
open Spec

theorem preTokenized_runs (P : Platform) {t : Tokenizer} {n : Normalizer} {a : AddedVocab} {w w' : WStr} {p : PTS}
    (ha : t.added = some a) (hn : t.normalizer = some n) (hw : NormalText P n a w w') (h : (t.preTokenized P w).1 = .ok p) :
    ∃ cuts, CutInto a a.nonNormTrie w cuts ∧ ∀ x y, (none, (x, y)) ∈ cuts → ∃ s, n.run P (NS.ofText (between w x y)) = .ok s := by
  unfold Tokenizer.preTokenized at h
  rw [ofNS_text (bmp_scalars hw.before.1)] at h
  simp only [ha, hn] at h
  obtain ⟨p0, h1, _⟩ := res_bind_ok.1 h
  exact extract_runs P hw.ne hw.before hw.described hw.ascii hw.filled h1

/-- **C73 with any normalizer and added tokens** (partial: what the normalizer returns on the ordinary pieces must be
usable).  With a WordPiece model, or none, `encode` returns if the normalizer returns on every ordinary piece of the text;
without flags on the added tokens, only if. -/
theorem C73_normalized_partial (P : Platform) (t : Tokenizer) (n : Normalizer) (a : AddedVocab) (w w' : WStr) (b : Bool)
    (ha : t.added = some a) (hn : t.normalizer = some n) (hw : NormalText P n a w w')
    (hpt : ∀ pt, t.preTokenizer = some pt → SafePre P (w ++ w') pt) (hend : SafeEnd t)
    (hm : t.model = none ∨ ∃ m, t.model = some (.wordPiece m)) :
    ((∀ v, OrdinaryPiece a w v → ∃ s, n.run P (NS.ofText v) = .ok s) → ∃ e, (t.encode P w b).1 = .ok e) ∧
    (FlagFree a → (∃ e, (t.encode P w b).1 = .ok e) → ∀ v, OrdinaryPiece a w v → ∃ s, n.run P (NS.ofText v) = .ok s) := by
  constructor
  · intro hN
    obtain ⟨p, lens, h1, h2, h3⟩ := preTokenized_room P ha hn hw hN hpt
    rcases hm with hm | ⟨m, hm⟩
    · exact encode_total_room hend ⟨p, h1, by rw [hm]⟩ h2 fun s hs => (h3 s hs).1
    · refine encode_total_room (q := m.tokenize p) hend ⟨p, h1, by rw [hm]; rfl⟩ h2 fun s hs => ?_
      obtain ⟨s0, hs0, rfl⟩ := List.mem_map.1 hs
      exact (h3 s0 hs0).1
  · rintro hfree ⟨e, he⟩ v ⟨cuts, x, y, hc, hm, rfl⟩
    obtain ⟨q, _, ⟨p, hp, _⟩, _, _⟩ := encode_ok he
    obtain ⟨cuts', hc', hr⟩ := preTokenized_runs P ha hn hw hp
    rw [C85_unique hfree hc hc'] at hm
    exact hr x y hm

/-- **C73 with any normalizer, added tokens and a byte-pair model** (partial in the same way).  If the normalizer returns on
every ordinary piece, `encode` returns exactly if every pre-token is answered by `ignore_merges` or has a byte that yields a
symbol. -/
theorem C73_bpe_normalized_partial (P : Platform) (t : Tokenizer) (n : Normalizer) (a : AddedVocab) (w w' : WStr) (b : Bool)
    {lines : List Str} {m : BPE} (hmade : Made lines m) (before : List PTS)
    (ha : t.added = some a) (hn : t.normalizer = some n) (hw : NormalText P n a w w')
    (hN : ∀ v, OrdinaryPiece a w v → ∃ s, n.run P (NS.ofText v) = .ok s)
    (hpt : ∀ pt, t.preTokenizer = some pt → SafePre P (w ++ w') pt) (hend : SafeEnd t)
    (hm : t.model = some (.bpe (usedBPE P m before))) :
    ∃ p, (t.preTokenized P w).1 = .ok p ∧ (∀ s ∈ p.splits, s.normalized ≠ []) ∧ ((∀ s ∈ p.splits, Fits m s.normalized) →
      ((∃ e, (t.encode P w b).1 = .ok e) ↔ ∀ s ∈ p.splits, Direct m s.normalized ∨
        ∃ i, i < s.normalized.length ∧ Yields (tokenToId m.vocab) m.pre m.suf m.unkToken m.byteFallback s.normalized i)) := by
  obtain ⟨p, lens, h1, h2, h3⟩ := preTokenized_room P ha hn hw hN hpt
  refine ⟨p, h1, fun s hs => (h3 s hs).2, fun hfit => ⟨?_, ?_⟩⟩
  · rintro ⟨e, he⟩ s hs
    obtain ⟨q, x, ⟨p', hp', hq⟩, _, _⟩ := encode_ok he
    rw [h1] at hp'; cases hp'
    rw [hm] at hq
    have hq' := (bpe_tokenize P hmade before p q).1 hq
    obtain ⟨s', _, _, hword⟩ := each_left hq'.2 s hs
    by_cases hd : Direct m s.normalized
    · exact .inl hd
    · refine .inr (Classical.byContradiction fun hy => ?_)
      rw [C23_violated P hmade s.normalized (fun i hi hyi => hy ⟨i, hi, hyi⟩) hd] at hword
      cases hword
  · intro hall
    obtain ⟨l, hl⟩ := each_total (R := fun (s s' : Split) => s'.normalized = s.normalized ∧ s'.offsets = s.offsets ∧
        (m.word P s.normalized).1 = .ok s'.tokens) p.splits (by
      intro s hs
      have : ∃ ts, (m.word P s.normalized).1 = .ok ts := by
        rcases hall s hs with hd | hy
        · rcases word_answer P (made_cache hmade) s.normalized with ⟨i, _, _, h⟩ | ⟨h, _⟩
          · exact ⟨_, h⟩
          · exact absurd hd h
        · exact C15_terminates P hmade s.normalized hy (hfit s hs)
      obtain ⟨ts, hts⟩ := this
      exact ⟨{ s with tokens := ts }, rfl, rfl, hts⟩)
    refine encode_total_room (q := { p with splits := l }) hend ⟨p, h1, ?_⟩ h2 ?_
    · rw [hm]
      exact (bpe_tokenize P hmade before p _).2 ⟨rfl, hl⟩
    · intro s hs
      obtain ⟨s0, hs0, _, h, _⟩ := each_mem_right hl s hs
      rw [h]; exact (h3 s0 hs0).1

end Tok
