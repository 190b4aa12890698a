import Verif.Props.Added
import Verif.Proofs.Independent
import Verif.Spec.Numbering

set_option autoImplicit false

/-!
C102: the ids of added tokens after any history, for any vocabulary.
-/

namespace Tok
open Spec

/-- Keys occur once, and nothing is recorded with an empty vocabulary. -/
def NbInv (v : Vocab) (a : AddedVocab) : Prop := (a.map.map (·.1)).Nodup ∧ (v = [] → a.map = [])

theorem nb_keys {κ ν : Type} [DecidableEq κ] (m : List (κ × ν)) (k : κ) (v : ν) (h : (m.map (·.1)).Nodup) :
    ((mapSet m k v).map (·.1)).Nodup := by
  induction m with
  | nil => simp [mapSet]
  | cons p r ih =>
    obtain ⟨k', v'⟩ := p
    simp only [List.map_cons, List.nodup_cons] at h
    simp only [mapSet]
    split
    · rename_i he
      subst he
      simpa using h
    · rename_i he
      simp only [List.map_cons, List.nodup_cons]
      refine ⟨?_, ih h.2⟩
      intro hm
      obtain ⟨q, hq, hqk⟩ := List.mem_map.1 hm
      rcases mapSet_mem hq with rfl | hq
      · exact he hqk.symm
      · exact h.1 (hqk ▸ List.mem_map_of_mem hq)

theorem nb_next {a : AddedVocab} {v : Vocab} {c : Str} {i : Int} (h : newId a (some v) c = .ok i)
    (hI : NbInv v a) (h1 : mapFind a.map c = none)
    (h2 : tokenToId v c = none) : v ≠ [] ∧ NextId v (mapFind a.map) i := by
  unfold newId at h
  simp only [h1, h2] at h
  have hne : v ≠ [] := by
    intro he
    rw [hI.2 he, he] at h
    simp [maxId, vocabSize] at h
  refine ⟨hne, ?_⟩
  have hpos : 0 < vocabSize v := by
    have := List.length_pos_iff.2 hne
    unfold vocabSize; omega
  have hmem : ∀ c j, mapFind a.map c = some j → (c, j) ∈ a.map := fun c j h => mapFind_mem h
  split at h
  · rename_i hm
    have hm := maxId_none hm
    rw [if_neg (by omega)] at h
    cases h
    rw [hm]
    exact ⟨⟨Int.le_refl _, fun c j hc => by cases hc⟩, fun k hk _ => hk⟩
  · rename_i w hm
    obtain ⟨g1, p, hp, rfl⟩ := maxId_some hm
    split at h
    · rename_i hc
      cases h
      refine ⟨⟨by omega, fun c j hc => ?_⟩, fun k _ hk => ?_⟩
      · have := g1 _ (hmem c j hc)
        simp only at this; omega
      · have := hk p.1 p.2 ((mapFind_iff_mem hI.1 _ _).2 hp); omega
    · cases h
      refine ⟨⟨Int.le_refl _, fun c j hc => ?_⟩, fun k hk _ => hk⟩
      have := g1 _ (hmem c j hc)
      simp only at this; omega

theorem nb_find_set (m : List (Str × Int)) (c : Str) (i : Int) : mapFind (mapSet m c i) = numbered (mapFind m) c i := by
  funext x
  rw [mapFind_set]
  unfold numbered
  by_cases h : x = c
  · rw [if_pos h, if_pos h.symm]
  · rw [if_neg h, if_neg (Ne.symm h)]

theorem nb_numbered_same {f : Str → Option Int} {c : Str} {i : Int} (h : f c = some i) : numbered f c i = f := by
  funext x
  unfold numbered
  split
  · rename_i he; rw [he, h]
  · rfl

theorem nb_assign {v : Vocab} {al : Bool} (l : List AddedToken) : ∀ {a a' : AddedVocab}, NbInv v a →
    assignIds (some v) al l a = .ok a' →
    Numbers v (mapFind a.map) (l.map (·.content)) (mapFind a'.map) ∧ NbInv v a' := by
  induction l with
  | nil => intro a a' hI h; cases h; exact ⟨.nil _, hI⟩
  | cons t r ih =>
    intro a a' hI h
    rcases assignIds_cons h with ⟨he, h⟩ | ⟨hne, i, a1, hj, h, hm, -⟩
    · obtain ⟨h1, h2⟩ := ih hI h
      refine ⟨?_, h2⟩
      rw [List.map_cons, he]; exact .empty h1
    · have hv : v ≠ [] := by
        intro hv
        have h0 := hI.2 hv
        unfold newId at hj
        rw [h0, hv] at hj
        simp [mapFind, tokenToId, maxId, vocabSize] at hj
      have hI1 : NbInv v a1 := by
        refine ⟨?_, fun h => absurd h hv⟩
        rw [hm]; exact nb_keys _ _ _ hI.1
      obtain ⟨h1, h2⟩ := ih hI1 h
      refine ⟨?_, h2⟩
      rw [hm, nb_find_set] at h1
      rcases newId_some a v _ hj with hr | ⟨hr, hk⟩ | ⟨hr, hk, _⟩
      · rw [nb_numbered_same hr] at h1
        exact .again hne hr h1
      · exact .known hne hr hk h1
      · exact .new hne hr hk hv (nb_next hj hI hr hk).2 h1

theorem nb_append {v : Vocab} {f g k : Str → Option Int} {l l' : List Str} (h : Numbers v f l g)
    (h' : Numbers v g l' k) : Numbers v f (l ++ l') k := by
  induction h with
  | nil => exact h'
  | empty _ ih => exact .empty (ih h')
  | again h1 h2 _ ih => exact .again h1 h2 (ih h')
  | known h1 h2 h3 _ ih => exact .known h1 h2 h3 (ih h')
  | new h1 h2 h3 h4 h5 _ ih => exact .new h1 h2 h3 h4 h5 (ih h')

theorem nb_unique {v : Vocab} {f : Str → Option Int} {i j : Int} (h : NextId v f i) (h' : NextId v f j) : i = j := by
  have := h.2 j h'.1.1 h'.1.2
  have := h'.2 i h.1.1 h.1.2
  omega

/-- **C102** The numbers are determined by the contents and the order in which they are given. -/
theorem C102_unique {v : Vocab} {f g g' : Str → Option Int} {l : List Str} (h : Numbers v f l g)
    (h' : Numbers v f l g') : g = g' := by
  induction h with
  | nil => cases h'; rfl
  | empty _ ih =>
    cases h' with
    | empty h' => exact ih h'
    | again h1 => exact absurd rfl h1
    | known h1 => exact absurd rfl h1
    | new h1 => exact absurd rfl h1
  | again h1 h2 _ ih =>
    cases h' with
    | empty h' => exact absurd rfl h1
    | again _ _ h' => exact ih h'
    | known _ h3 => rw [h2] at h3; cases h3
    | new _ h3 => rw [h2] at h3; cases h3
  | known h1 h2 h3 _ ih =>
    cases h' with
    | empty h' => exact absurd rfl h1
    | again _ h4 => rw [h2] at h4; cases h4
    | known _ _ h4 h' => rw [h3] at h4; cases h4; exact ih h'
    | new _ _ h4 => rw [h3] at h4; cases h4
  | new h1 h2 h3 h4 h5 _ ih =>
    cases h' with
    | empty h' => exact absurd rfl h1
    | again _ h4 => rw [h2] at h4; cases h4
    | known _ _ h4 => rw [h3] at h4; cases h4
    | new _ _ _ _ h6 h' => rw [nb_unique h5 h6] at ih; exact ih h'

theorem nb_core {v : Vocab} {al : Bool} {l : List AddedToken} {a a' : AddedVocab} {n : Nat} (hI : NbInv v a)
    (h : a.addTokensCore (some v) al l = .ok (n, a')) :
    Numbers v (mapFind a.map) (l.map (·.content)) (mapFind a'.map) ∧ NbInv v a' := by
  obtain ⟨-, a1, h1, h2⟩ := addTokensCore_ok h
  have hr := (registerSpecials_map l a).1
  have := nb_assign l (a := registerSpecials l a) (by unfold NbInv; rw [hr]; exact hI) h1
  rw [hr] at this
  unfold NbInv at this ⊢
  rw [(refresh_ok h2).1]; exact this

theorem nb_history {P : Platform} {t t' : Tokenizer} {cs : List Call} (h : History P t cs t') : ∀ {v : Vocab} {a : AddedVocab},
    t.vocab? = some v → t.added = some a → NbInv v a → t'.vocab? = some v ∧ ∃ a', t'.added = some a' ∧ NbInv v a' ∧
      Numbers v (mapFind a.map) (cs.flatMap Call.given) (mapFind a'.map) := by
  induction h with
  | nil t => intro v a hv ha hI; exact ⟨hv, a, ha, hI, .nil _⟩
  | @cons t u t'' c cs h1 _ ih =>
    intro v a hv ha hI
    obtain ⟨hu, hc⟩ := after_added h1
    have hu := hu.trans hv
    have : ∃ b, u.added = some b ∧ NbInv v b ∧ Numbers v (mapFind a.map) c.given (mapFind b.map) := by
      have quiet : ∀ w b', u = (t.encode P w b').2 → ∃ b, u.added = some b ∧ NbInv v b ∧
          Numbers v (mapFind a.map) [] (mapFind b.map) := by
        intro w b' hu
        rw [hu]
        rcases (encode_state P t w b').1 with h | ⟨a0, ha0, h⟩
        · exact ⟨a, h.trans ha, hI, .nil _⟩
        · rw [ha] at ha0; cases ha0
          have hm := (extract_touched P t.normalizer a w).map
          refine ⟨_, h, ?_, ?_⟩
          · unfold NbInv; rw [hm]; exact hI
          · rw [hm]; exact .nil _
      have add : ∀ l n, t.addTokens l = .ok (n, u) → ∃ b, u.added = some b ∧ NbInv v b ∧
          Numbers v (mapFind a.map) (l.map (·.content)) (mapFind b.map) := by
        intro l n h
        obtain ⟨a0, b, ha0, hc, rfl⟩ := addTokens_ok h
        rw [ha] at ha0; cases ha0
        rw [hv] at hc
        obtain ⟨g1, g2⟩ := nb_core hI hc
        exact ⟨b, rfl, g2, g1⟩
      cases h1 with
      | encode w b => exact quiet w b rfl
      | decode ids b => exact ⟨a, ha, hI, .nil _⟩
      | addTokens h => exact add _ _ h
      | addSpecialTokens h => exact add _ _ h
    obtain ⟨b, hb, hIb, hn⟩ := this
    obtain ⟨g1, a', g2, g3, g4⟩ := ih hu hb hIb
    refine ⟨g1, a', g2, g3, ?_⟩
    rw [List.flatMap_cons]
    exact nb_append hn g4

theorem nb_constructed {t0 t : Tokenizer} {l : List AddedToken} {v : Vocab} (h0 : t0.added = some (AddedVocab.init l))
    (hv : t0.vocab? = some v) (hf : t0.finish = .ok t) : t.vocab? = some v ∧ ∃ a, t.added = some a ∧ NbInv v a ∧
      Numbers v (fun _ => none) (l.map (·.content)) (mapFind a.map) := by
  rcases finish_ok hf with ⟨hn, _⟩ | ⟨a, a', n, ha, rfl, h⟩
  · rw [hn] at h0; cases h0
  · rw [ha] at h0; cases h0
    rw [hv] at h
    obtain ⟨g1, g2⟩ := nb_core (a := AddedVocab.init l) ⟨by simp [AddedVocab.init], fun _ => rfl⟩ h
    refine ⟨hv, a', rfl, g2, ?_⟩
    have : (mapFind (AddedVocab.init l).map : Str → Option Int) = fun _ => none := by funext x; rfl
    rw [this] at g1
    exact g1

theorem nb_recorded {t : Tokenizer} {a : AddedVocab} (h : t.added = some a) : recorded t = mapFind a.map := by
  funext c; unfold recorded; rw [h]; rfl

theorem nb_model {t : Tokenizer} {v : Vocab} (h : t.vocab? = some v) (c : Str) : modelId t c = tokenToId v c := by
  unfold Tokenizer.vocab? at h
  unfold modelId
  cases hq : t.model with
  | none => rw [hq] at h; cases h
  | some m =>
    rw [hq] at h
    simp only [Option.map_some, Option.some.injEq] at h
    simp [h]

/-- **C102** After any history on a constructed tokenizer, with any vocabulary, the ids recorded for added
tokens are those that the specification gives for the configured contents followed by those of the calls. -/
theorem C102_numbering (P : Platform) {t0 t t' : Tokenizer} {l : List AddedToken} {m : Model} {cs : List Call}
    (h0 : t0.added = some (AddedVocab.init l)) (hm : t0.model = some m) (hf : t0.finish = .ok t) (h : History P t cs t') :
    Numbers m.vocab (fun _ => none) (l.map (·.content) ++ cs.flatMap Call.given) (recorded t') := by
  obtain ⟨hv, a, ha, hI, h1⟩ := nb_constructed h0 (v := m.vocab) (by unfold Tokenizer.vocab?; rw [hm]; rfl) hf
  obtain ⟨_, a', ha', _, h2⟩ := nb_history h hv ha hI
  rw [nb_recorded ha']
  exact nb_append h1 h2

/-! ### Looking an id up -/

/-- What the reverse map holds after the contents `L` have been given. -/
structure NbLook (L : List Str) (a : AddedVocab) : Prop where
  nil : mapFind a.map [] = none
  seen : ∀ x ∈ L, x ≠ [] → ∃ i, mapFind a.map x = some i
  look : ∀ i, (mapFind a.mapR i).map (·.content) = (L.filter fun c => mapFind a.map c = some i).getLast?

theorem nb_filter {L : List Str} {m : List (Str × Int)} {c : Str} {i : Int} (hne : c ≠ [])
    (seen : ∀ x ∈ L, x ≠ [] → ∃ i, mapFind m x = some i) (hi : ∀ j, mapFind m c = some j → j = i) (j : Int) :
    ((L ++ [c]).filter fun x => mapFind (mapSet m c i) x = some j) =
      (L.filter fun x => mapFind m x = some j) ++ (if i = j then [c] else []) := by
  rw [List.filter_append]
  congr 1
  · apply List.filter_congr
    intro x hx
    rw [mapFind_set]
    by_cases he : c = x
    · subst he
      obtain ⟨k, hk⟩ := seen c hx hne
      have := hi k hk; subst this
      simp [hk]
    · rw [if_neg he]
  · by_cases he : i = j
    · subst he; simp [mapFind_set]
    · simp [mapFind_set, he]

theorem nb_look_assign {M : Option Vocab} {al : Bool} (l : List AddedToken) : ∀ {a a' : AddedVocab} {L : List Str}, NbLook L a →
    assignIds M al l a = .ok a' → NbLook (L ++ l.map (·.content)) a' := by
  induction l with
  | nil => intro a a' L hI h; cases h; simpa using hI
  | cons t r ih =>
    intro a a' L hI h
    rcases assignIds_cons h with ⟨he, h⟩ | ⟨hne, i, a1, hj, h, hm, hr, -⟩
    · have : NbLook (L ++ [t.content]) a := by
        refine ⟨hI.nil, ?_, ?_⟩
        · intro x hx hx0
          rcases List.mem_append.1 hx with hx | hx
          · exact hI.seen x hx hx0
          · simp only [List.mem_singleton] at hx; rw [hx, he] at hx0; exact absurd rfl hx0
        · intro i
          rw [hI.look, List.filter_append, he]
          simp [hI.nil]
      have := ih this h
      simpa using this
    · have hi : ∀ j, mapFind a.map t.content = some j → j = i := by
        intro j hj'
        unfold newId at hj
        rw [hj'] at hj
        exact Except.ok.inj hj
      have : NbLook (L ++ [t.content]) a1 := by
        refine ⟨by rw [hm, mapFind_set, if_neg hne]; exact hI.nil, ?_, ?_⟩
        · intro x hx hx0
          rw [hm, mapFind_set]
          split
          · exact ⟨_, rfl⟩
          · rename_i hxe
            rcases List.mem_append.1 hx with hx | hx
            · exact hI.seen x hx hx0
            · simp only [List.mem_singleton] at hx; exact absurd hx.symm hxe
        · intro j
          rw [hm, nb_filter hne hI.seen hi, hr, mapFind_set]
          split
          · simp
          · simpa using hI.look j
      have := ih this h
      simpa using this

theorem nb_look_core {M : Option Vocab} {al : Bool} {l : List AddedToken} {a a' : AddedVocab} {n : Nat} {L : List Str}
    (hI : NbLook L a) (h : a.addTokensCore M al l = .ok (n, a')) : NbLook (L ++ l.map (·.content)) a' := by
  obtain ⟨-, a1, h1, h2⟩ := addTokensCore_ok h
  obtain ⟨r1, r2, -⟩ := registerSpecials_map l a
  have := nb_look_assign l (a := registerSpecials l a) (L := L)
    ⟨by rw [r1]; exact hI.nil, by rw [r1]; exact hI.seen, by rw [r1, r2]; exact hI.look⟩ h1
  obtain ⟨e1, e2, -⟩ := refresh_ok h2
  exact ⟨by rw [e1]; exact this.nil, by rw [e1]; exact this.seen, by rw [e1, e2]; exact this.look⟩

theorem nb_look_history {P : Platform} {t t' : Tokenizer} {cs : List Call} (h : History P t cs t') :
    ∀ {a : AddedVocab} {L : List Str}, (∀ v, t.vocab? = some v → tokenToId v [] = none) → KTok t → t.added = some a →
    NbLook L a → ∃ a', t'.added = some a' ∧ NbLook (L ++ cs.flatMap Call.given) a' := by
  induction h with
  | nil t => intro a L _ _ ha hI; exact ⟨a, ha, by simpa using hI⟩
  | @cons t u t'' c cs h1 _ ih =>
    intro a L hM hK ha hI
    obtain ⟨hu, hA⟩ := after_added h1
    obtain ⟨k1, k2⟩ := hK a ha
    have hK' : KTok u := by
      intro b hb
      rw [hu]
      rcases hA with h | ⟨a0, a', ha0, ha', h⟩
      · exact hK b (by rw [← h]; exact hb)
      · rw [ha'] at hb; cases hb
        rw [ha] at ha0; cases ha0
        rcases h with h | ⟨l, n, _, h⟩
        · exact touched_kinv k1 k2 h
        · exact core_kinv h (fun t ht hne => .inr (k1.found t ht hne)) k1.model k1.back
    have add : ∀ l n, t.addTokens l = .ok (n, u) → ∃ b, u.added = some b ∧ NbLook (L ++ l.map (·.content)) b := by
      intro l n h
      obtain ⟨a0, b, ha0, hc, rfl⟩ := addTokens_ok h
      rw [ha] at ha0; cases ha0
      exact ⟨b, rfl, nb_look_core hI hc⟩
    have : ∃ b, u.added = some b ∧ NbLook (L ++ c.given) b := by
      cases h1 with
      | encode w b =>
        simp only [Call.given, List.append_nil]
        rcases (encode_state P t w b).1 with h | ⟨a0, ha0, h⟩
        · exact ⟨a, h.trans ha, hI⟩
        · rw [ha] at ha0; cases ha0
          have ht := extract_touched P t.normalizer a w
          refine ⟨_, h, ?_⟩
          refine ⟨by rw [ht.map]; exact hI.nil, by rw [ht.map]; exact hI.seen, ?_⟩
          intro i
          rw [ht.map, touched_find hM k1 k2 ht]
          exact hI.look i
      | decode ids b => exact ⟨a, ha, by simpa [Call.given] using hI⟩
      | addTokens h => exact add _ _ h
      | addSpecialTokens h => exact add _ _ h
    obtain ⟨b, hb, hIb⟩ := this
    obtain ⟨a', g1, g2⟩ := ih (by rw [hu]; exact hM) hK' hb hIb
    refine ⟨a', g1, ?_⟩
    rw [List.flatMap_cons, ← List.append_assoc]
    exact g2

/-- **C102** After any history, an id is looked up as the content given last among those recorded under
it, otherwise as the model's token, and otherwise the lookup throws. -/
theorem C102_lookup (P : Platform) {t0 t t' : Tokenizer} {l : List AddedToken} {m : Model} {cs : List Call}
    (h0 : t0.added = some (AddedVocab.init l)) (hm : t0.model = some m) (hf : t0.finish = .ok t) (h : History P t cs t')
    (hM : tokenToId m.vocab [] = none) (i : Int) :
    t'.idToken i = match contentOf m.vocab (l.map (·.content) ++ cs.flatMap Call.given) (recorded t') i with
      | some c => .ok c
      | none => .error (.throws .badOptionalAccess) := by
  have hv0 : t0.vocab? = some m.vocab := by unfold Tokenizer.vocab?; rw [hm]; rfl
  obtain ⟨hv, a, ha, hI, h1⟩ := nb_constructed h0 hv0 hf
  have hL : NbLook (l.map (·.content)) a := by
    rcases finish_ok hf with ⟨hn, _⟩ | ⟨b, b', n, hb, rfl, hc⟩
    · rw [hn] at h0; cases h0
    · rw [hb] at h0; cases h0
      cases ha
      exact nb_look_core (L := []) (a := AddedVocab.init l) ⟨rfl, by simp, by intro i; rfl⟩ hc
  have hc : Constructed t := ⟨t0, some l, h0, hf⟩
  obtain ⟨a', ha', hL'⟩ := nb_look_history h (by rw [hv]; intro v hv; cases hv; exact hM) (constructed_ktok hc) ha hL
  have hv' := (nb_history h hv ha hI).1
  unfold Tokenizer.idToken contentOf
  rw [ha', nb_recorded ha', ← hL'.look i]
  simp only [AddedVocab.idToToken]
  cases hq : Option.map (fun x => x.content) (mapFind a'.mapR i) with
  | some c => simp
  | none =>
    simp only [Option.none_or]
    unfold Tokenizer.vocab? at hv'
    cases hqm : t'.model with
    | none => rw [hqm] at hv'; cases hv'
    | some m' =>
      rw [hqm] at hv'
      simp only [Option.map_some, Option.some.injEq] at hv'
      simp only [hv']
      cases idToToken m.vocab i <;> rfl

/-! ### When ids clash -/

theorem nb_longer (l : List Str) : ∃ n, ∀ c ∈ l, c.length < n := by
  induction l with
  | nil => exact ⟨0, by simp⟩
  | cons c r ih =>
    obtain ⟨n, hn⟩ := ih
    refine ⟨n + c.length + 1, ?_⟩
    intro d hd
    rcases List.mem_cons.1 hd with rfl | hd
    · omega
    · have := hn d hd; omega

theorem nb_fresh (l : List Str) : ∃ c : Str, c ≠ [] ∧ c ∉ l := by
  obtain ⟨n, hn⟩ := nb_longer l
  refine ⟨List.replicate (n + 1) 0x61, by simp, fun h => ?_⟩
  have := hn _ h
  simp only [List.length_replicate] at this; omega

/-- Adding one new token. -/
theorem nb_add_new {P : Platform} {t : Tokenizer} {v : Vocab} {a : AddedVocab} (hv : t.vocab? = some v) (ha : t.added = some a)
    (hI : NbInv v a) (hne : v ≠ []) : ∃ t' c i, History P t [.addTokens [{ content := c }]] t' ∧ t'.vocab? = some v ∧
      tokenToId v c = none ∧ NextId v (recorded t) i ∧ recorded t' = numbered (recorded t) c i ∧
      ∃ a', t'.added = some a' ∧ NbInv v a' := by
  obtain ⟨c, hc0, hc⟩ := nb_fresh (v.map (·.1) ++ a.map.map (·.1))
  simp only [List.mem_append, not_or] at hc
  have h1 : mapFind a.map c = none := by
    cases hf : mapFind a.map c with
    | none => rfl
    | some j => exact absurd (List.mem_map_of_mem (mapFind_mem hf)) hc.2
  have h2 : tokenToId v c = none := by
    cases hf : tokenToId v c with
    | none => rfl
    | some j => exact absurd (List.mem_map_of_mem (mapFind_mem hf)) hc.1
  have hmod : ∃ m, t.model = some m ∧ m.vocab = v := by
    unfold Tokenizer.vocab? at hv
    cases hq : t.model with
    | none => rw [hq] at hv; cases hv
    | some m => rw [hq] at hv; exact ⟨m, rfl, by simpa using hv⟩
  obtain ⟨m, hm, hmv⟩ := hmod
  obtain ⟨t', ht', -⟩ := C27_returns ha hm (by rw [hmv]; exact hne) [{ content := c }]
  have hh : History P t [.addTokens [{ content := c }]] t' := .cons (.addTokens ht') (.nil _)
  obtain ⟨hv', a', ha', hI', hn⟩ := nb_history hh hv ha hI
  refine ⟨t', c, ?_⟩
  simp only [List.flatMap_cons, List.flatMap_nil, Call.given, List.map_cons, List.map_nil, List.append_nil] at hn
  rw [nb_recorded ha, nb_recorded ha']
  generalize mapFind a'.map = g at hn ⊢
  cases hn with
  | empty _ => exact absurd rfl hc0
  | again _ h3 => rw [h1] at h3; cases h3
  | known _ _ h3 => rw [h2] at h3; cases h3
  | new _ _ _ _ h3 h4 => cases h4; exact ⟨_, hh, hv', h2, h3, rfl, a', ha', hI'⟩

theorem nb_history_append {P : Platform} {t t' t'' : Tokenizer} {cs cs' : List Call} (h : History P t cs t')
    (h' : History P t' cs' t'') : History P t (cs ++ cs') t'' := by
  induction h with
  | nil => exact h'
  | cons ha _ ih => exact .cons ha (ih h')

/-- With an entry above everything recorded, some history leads to a clash. -/
theorem nb_clash {P : Platform} {v : Vocab} {p : Str × Int} (hp : tokenToId v p.1 = some p.2) (hs : vocabSize v ≤ p.2) (n : Nat) :
    ∀ {t : Tokenizer} {a : AddedVocab}, t.vocab? = some v → t.added = some a → NbInv v a →
    (∀ c j, recorded t c = some j → j < p.2) → (∃ c j, (recorded t c = some j ∨ j = vocabSize v - 1) ∧ p.2 - j ≤ n) →
    ∃ cs t', History P t cs t' ∧ ¬ NoClash t' := by
  induction n with
  | zero =>
    intro t a hv ha hI hr ⟨c, j, hj, hn⟩
    rcases hj with hj | hj
    · have := hr c j hj; omega
    · omega
  | succ n ih =>
    intro t a hv ha hI hr ⟨c, j, hj, hn⟩
    have hne : v ≠ [] := by intro h; rw [h] at hp; cases hp
    obtain ⟨t', d, i, hh, hv', hd, hi, hrec, a', ha', hI'⟩ := nb_add_new (P := P) hv ha hI hne
    have hle : i ≤ p.2 := hi.2 p.2 hs hr
    have hji : j < i := by
      rcases hj with hj | hj
      · exact hi.1.2 c j hj
      · have := hi.1.1; omega
    by_cases he : i = p.2
    · refine ⟨_, t', hh, fun hc => ?_⟩
      have := hc d p.1 i (by rw [hrec]; simp [numbered]) (.inr (by rw [nb_model hv', hp, he]))
      rw [this, hp] at hd; cases hd
    · obtain ⟨cs, t'', h1, h2⟩ := ih hv' ha' hI' (by
        intro c k hk
        rw [hrec] at hk
        unfold numbered at hk
        split at hk
        · cases hk; omega
        · exact hr c k hk) ⟨d, i, .inl (by rw [hrec]; simp [numbered]), by omega⟩
      exact ⟨_, t'', nb_history_append hh h1, h2⟩

theorem nb_keeps_clash_free {v : Vocab} (hinj : ∀ p ∈ v, ∀ q ∈ v, p.2 = q.2 → p = q)
    {f g : Str → Option Int} {l : List Str} (h : Numbers v f l g) :
    (∀ c c' i, f c = some i → f c' = some i ∨ tokenToId v c' = some i → c = c') →
    (∀ p ∈ v, p.2 < vocabSize v ∨ ∃ c j, f c = some j ∧ p.2 ≤ j) →
    ∀ c c' i, g c = some i → g c' = some i ∨ tokenToId v c' = some i → c = c' := by
  have hin : ∀ {c c' i}, tokenToId v c = some i → tokenToId v c' = some i → c = c' := by
    intro c c' i h1 h2
    have := hinj (c, i) (mapFind_mem h1) (c', i) (mapFind_mem h2) rfl
    exact congrArg Prod.fst this
  induction h with
  | nil => exact fun h _ => h
  | empty _ ih => exact ih
  | again _ _ _ ih => exact ih
  | @known f g r c i h1 h2 h3 _ ih =>
    intro hc hb
    refine ih ?_ ?_
    · intro x y k hx hy
      unfold numbered at hx hy
      by_cases hxc : x = c
      · by_cases hyc : y = c
        · rw [hxc, hyc]
        · rw [if_pos hxc] at hx; cases hx
          rw [if_neg hyc] at hy
          rw [hxc]
          rcases hy with hy | hy
          · exact (hc y c i hy (.inr h3)).symm
          · exact hin h3 hy
      · rw [if_neg hxc] at hx
        by_cases hyc : y = c
        · subst hyc
          rw [if_pos rfl] at hy
          refine hc x y k hx (.inr ?_)
          rcases hy with hy | hy
          · cases hy; exact h3
          · exact hy
        · rw [if_neg hyc] at hy; exact hc x y k hx hy
    · intro p hp
      rcases hb p hp with h | ⟨d, j, hd, hj⟩
      · exact .inl h
      · refine .inr ⟨d, j, ?_, hj⟩
        unfold numbered
        rw [if_neg (by rintro rfl; rw [h2] at hd; cases hd)]; exact hd
  | @new f g r c i h1 h2 h3 h4 h5 _ ih =>
    intro hc hb
    have hno : ∀ y, tokenToId v y ≠ some i := by
      intro y hy
      rcases hb (y, i) (mapFind_mem hy) with h | ⟨d, j, hd, hj⟩
      · have := h5.1.1; simp only at h; omega
      · have := h5.1.2 d j hd; simp only at hj; omega
    refine ih ?_ ?_
    · intro x y k hx hy
      unfold numbered at hx hy
      by_cases hxc : x = c
      · by_cases hyc : y = c
        · rw [hxc, hyc]
        · rw [if_pos hxc] at hx; cases hx
          rw [if_neg hyc] at hy
          rcases hy with hy | hy
          · have := h5.1.2 y i hy; omega
          · exact absurd hy (hno y)
      · rw [if_neg hxc] at hx
        by_cases hyc : y = c
        · subst hyc
          rw [if_pos rfl] at hy
          rcases hy with hy | hy
          · cases hy; have := h5.1.2 x i hx; omega
          · rw [h3] at hy; cases hy
        · rw [if_neg hyc] at hy; exact hc x y k hx hy
    · intro p hp
      rcases hb p hp with h | ⟨d, j, hd, hj⟩
      · exact .inl h
      · refine .inr ⟨d, j, ?_, hj⟩
        unfold numbered
        rw [if_neg (by rintro rfl; rw [h2] at hd; cases hd)]; exact hd

/-- **C102** (and C29, exactly) On a constructed tokenizer with an added vocabulary and a model, no history ever
gives two contents the same id if and only if none share one now, the ids of the model's vocabulary are
distinct, and each of them is below the number of entries or at most the id of some recorded token. -/
theorem C102_no_clash_iff (P : Platform) {t : Tokenizer} {a : AddedVocab} {m : Model} (hc : Constructed t)
    (ha : t.added = some a) (hm : t.model = some m) (hk : (m.vocab.map (·.1)).Nodup) :
    (∀ cs t', History P t cs t' → NoClash t') ↔
      NoClash t ∧ (∀ p ∈ m.vocab, ∀ q ∈ m.vocab, p.2 = q.2 → p = q) ∧
      ∀ p ∈ m.vocab, p.2 < vocabSize m.vocab ∨ ∃ c j, recorded t c = some j ∧ p.2 ≤ j := by
  have hv : t.vocab? = some m.vocab := by unfold Tokenizer.vocab?; rw [hm]; rfl
  have hI : NbInv m.vocab a := by
    obtain ⟨t0, l, h0, hf⟩ := hc
    cases l with
    | none =>
      rcases finish_ok hf with ⟨hn, rfl⟩ | ⟨b, b', n, hb, rfl, _⟩
      · rw [hn] at ha; cases ha
      · rw [hb] at h0; cases h0
    | some l =>
      have h0v : t0.vocab? = some m.vocab := by
        rcases finish_ok hf with ⟨_, rfl⟩ | ⟨b, b', n, hb, rfl, _⟩
        · exact hv
        · exact hv
      obtain ⟨_, b, hb, hI, _⟩ := nb_constructed h0 h0v hf
      rw [ha] at hb; cases hb; exact hI
  have hK := (constructed_ktok hc a ha).1
  constructor
  · intro h
    refine ⟨h [] t (.nil _), ?_, ?_⟩
    · have key : ∀ p ∈ m.vocab, ∀ q ∈ m.vocab, p.2 = q.2 → p.1 ≠ [] → p.1 = q.1 := by
        intro p hp q hq he hne
        have h1 : tokenToId m.vocab p.1 = some p.2 := (mapFind_iff_mem hk _ _).2 hp
        have h2 : tokenToId m.vocab q.1 = some q.2 := (mapFind_iff_mem hk _ _).2 hq
        have hmv : m.vocab ≠ [] := by intro h; rw [h] at hp; cases hp
        obtain ⟨t', ht', -⟩ := C27_returns ha hm hmv [{ content := p.1 }]
        have hh : History P t [.addTokens [{ content := p.1 }]] t' := .cons (.addTokens ht') (.nil _)
        obtain ⟨hv', a', ha', -, -⟩ := nb_history hh hv ha hI
        have hr : recorded t' p.1 = some p.2 := by
          cases hr : recorded t p.1 with
          | none => exact C28_model_id_kept (.inl ht') p.1 hr ⟨_, List.mem_singleton.2 rfl, rfl⟩ p.2 (by rw [nb_model hv]; exact h1) hne
          | some j =>
            rw [nb_recorded ha] at hr
            have := hK.model m.vocab hv _ _ _ hr h1
            subst this
            exact C28_ids_stable P hh _ _ (by rw [nb_recorded ha]; exact hr)
        exact h _ t' hh p.1 q.1 p.2 hr (.inr (by rw [nb_model hv', h2, he]))
      intro p hp q hq he
      have hfst : p.1 = q.1 := by
        by_cases h1 : p.1 = []
        · by_cases h2 : q.1 = []
          · rw [h1, h2]
          · exact (key q hq p hp he.symm h2).symm
        · exact key p hp q hq he h1
      exact Prod.ext hfst he
    · intro p hp
      by_cases h1 : p.2 < vocabSize m.vocab
      · exact .inl h1
      · refine .inr (Classical.byContradiction fun h2 => ?_)
        obtain ⟨cs, t', hh, hn⟩ := nb_clash (P := P) (p := p) ((mapFind_iff_mem hk _ _).2 hp) (by omega)
          (p.2 - (vocabSize m.vocab - 1)).toNat hv ha hI (by
            intro c j hj
            refine Int.not_le.1 fun hle => h2 ⟨c, j, hj, hle⟩) ⟨[], vocabSize m.vocab - 1, .inr rfl, by omega⟩
        exact hn (h cs t' hh)
  · intro ⟨h1, h2, h3⟩ cs t' hh
    obtain ⟨hv', a', ha', -, hn⟩ := nb_history hh hv ha hI
    have := nb_keeps_clash_free h2 hn (by
      intro c c' i hc hc'
      refine h1 c c' i (by rw [nb_recorded ha]; exact hc) ?_
      rw [nb_recorded ha, nb_model hv]; exact hc') (by rw [nb_recorded ha] at h3; exact h3)
    intro c c' i hc hc'
    rw [nb_recorded ha'] at hc hc'
    rw [nb_model hv'] at hc'
    exact this c c' i hc hc'

/-- **C102** After any history, adding tokens returns exactly when the model has a vocabulary entry or every
content given is empty. -/
theorem C102_returns_iff (P : Platform) {t0 t t' : Tokenizer} {l : List AddedToken} {m : Model} {cs : List Call}
    (h0 : t0.added = some (AddedVocab.init l)) (hm : t0.model = some m) (hf : t0.finish = .ok t) (h : History P t cs t')
    (l' : List AddedToken) :
    (∃ n u, t'.addTokens l' = .ok (n, u)) ↔ m.vocab ≠ [] ∨ ∀ x ∈ l', x.content = [] := by
  have hv0 : t0.vocab? = some m.vocab := by unfold Tokenizer.vocab?; rw [hm]; rfl
  obtain ⟨hv, a, ha, hI, h1⟩ := nb_constructed h0 hv0 hf
  obtain ⟨hv', a', ha', hI', -⟩ := nb_history h hv ha hI
  constructor
  · intro ⟨n, u, hu⟩
    by_cases he : m.vocab = []
    · refine .inr fun x hx => Classical.byContradiction fun hne => ?_
      obtain ⟨hvu, b, hb, hIb, hn⟩ := nb_history (P := P) (.cons (.addTokens hu) (.nil _)) hv' ha' hI'
      obtain ⟨a0, b', ha0, hc, rfl⟩ := addTokens_ok hu
      cases hb
      rw [ha'] at ha0; cases ha0
      obtain ⟨_, a1, g1, g2⟩ := addTokensCore_ok hc
      obtain ⟨i, hi⟩ := assignIds_records l' g1 x hx hne
      rw [← (refresh_ok g2).1, hIb.2 he] at hi
      cases hi
    · exact .inl he
  · intro hor
    have hmod : ∃ m', t'.model = some m' ∧ m'.vocab = m.vocab := by
      unfold Tokenizer.vocab? at hv'
      cases hq : t'.model with
      | none => rw [hq] at hv'; cases hv'
      | some m' => rw [hq] at hv'; exact ⟨m', rfl, by simpa using hv'⟩
    obtain ⟨m', hm', hmv⟩ := hmod
    rcases hor with hne | hall
    · obtain ⟨u, hu, -⟩ := C27_returns ha' hm' (by rw [hmv]; exact hne) l'
      exact ⟨_, u, hu⟩
    · have : ∀ b, assignIds (some m.vocab) false l' b = .ok b := by
        induction l' with
        | nil => intro b; rfl
        | cons x r ih =>
          intro b
          simp only [assignIds]
          rw [if_pos (hall x (by simp))]
          exact ih (fun y hy => hall y (by simp [hy])) b
      unfold Tokenizer.addTokens
      rw [ha', hm']
      simp only [Option.map_some, hmv]
      unfold AddedVocab.addTokens AddedVocab.addTokensCore
      rw [this]
      exact ⟨_, _, rfl⟩

/-! ### The hypotheses are met -/

/-- A vocabulary with a gap and a special token configured under the highest id. -/
def nbTk : Tokenizer :=
  { added := some (AddedVocab.init [{ content := b!"z", special := true }]), model := some (wpOf [(b!"a", 0), (b!"z", 4)]),
    decoder := some .byteLevel }

/-- The configured `z` has the model's id 4, so that new tokens are numbered from 5 on. -/
example : (nbTk.finish >>= fun t => recordedAfter t [plain [b!"x", [], b!"a"], plain [b!"y", b!"x"]]
    [b!"x", b!"y", b!"a", b!"z", []]) = .ok [some 5, some 6, some 0, some 4, none] := by decide +kernel

example : (nbTk.finish.isOk) = true := by decide +kernel
example : tokenToId [(b!"a", 0), (b!"z", 4)] [] = none := by decide

/-- **C102** Both outcomes occur: the vocabulary with a gap clashes, `denseV` never does. -/
theorem C102_examples (P : Platform) :
    (∃ cs t', History P (tkOf gapVocab) cs t' ∧ ¬ NoClash t') ∧
    (∀ cs t', History P (tkOf denseV) cs t' → NoClash t') := by
  have c1 : Constructed (tkOf gapVocab) := ⟨tkOf gapVocab, some [], rfl, rfl⟩
  have c2 : Constructed (tkOf denseV) := ⟨tkOf denseV, some [], rfl, rfl⟩
  refine ⟨?_, ?_⟩
  · refine Classical.byContradiction fun h => ?_
    have h : ∀ cs t', History P (tkOf gapVocab) cs t' → NoClash t' := fun cs t' hh =>
      Classical.byContradiction fun hn => h ⟨cs, t', hh, hn⟩
    have := ((C102_no_clash_iff P c1 rfl rfl (by decide)).1 h).2.2 (b!"a", 1) (by decide)
    rcases this with h | ⟨c, j, hc, _⟩
    · revert h; decide
    · cases hc
  · refine (C102_no_clash_iff P c2 rfl rfl (by decide)).2 ⟨?_, by decide, ?_⟩
    · intro c c' i hc; cases hc
    · intro p hp; left; revert p hp; decide

end Tok
