import Verif.Spec.Renumber
import Verif.Proofs.BPE
import Verif.Sample
import Verif.Props.Traced

set_option autoImplicit false

/-!
C140: the numbers of the tokens do not matter.
-/

namespace Tok
open Spec

/-! ### Tables -/

theorem rn_find {κ κ' ν ν' : Type} [DecidableEq κ] [DecidableEq κ'] {g : κ → κ'} (hg : ∀ a b, g a = g b → a = b) (h : ν → ν') (m : List (κ × ν)) (k : κ) :
    mapFind (m.map fun p => (g p.1, h p.2)) (g k) = (mapFind m k).map h := by
  induction m with
  | nil => rfl
  | cons p m ih =>
    obtain ⟨a, v⟩ := p
    simp only [List.map_cons, mapFind]
    by_cases e : a = k
    · rw [if_pos e, if_pos (by rw [e])]; rfl
    · rw [if_neg e, if_neg (fun h => e (hg _ _ h)), ih]

theorem rn_set {κ κ' ν ν' : Type} [DecidableEq κ] [DecidableEq κ'] {g : κ → κ'} (hg : ∀ a b, g a = g b → a = b) (h : ν → ν') (m : List (κ × ν)) (k : κ) (v : ν) :
    mapSet (m.map fun p => (g p.1, h p.2)) (g k) (h v) = (mapSet m k v).map fun p => (g p.1, h p.2) := by
  induction m with
  | nil => rfl
  | cons p m ih =>
    obtain ⟨a, w⟩ := p
    simp only [List.map_cons, mapSet]
    by_cases e : a = k
    · rw [if_pos e, if_pos (by rw [e])]; rfl
    · rw [if_neg e, if_neg (fun h => e (hg _ _ h)), ih]; rfl

theorem rn_insert {κ κ' ν ν' : Type} [DecidableEq κ] [DecidableEq κ'] {g : κ → κ'} (hg : ∀ a b, g a = g b → a = b) (h : ν → ν') (m : List (κ × ν)) (k : κ) (v : ν) :
    mapInsert (m.map fun p => (g p.1, h p.2)) (g k) (h v) = (mapInsert m k v).map fun p => (g p.1, h p.2) := by
  unfold mapInsert
  rw [rn_find hg h]
  cases mapFind m k <;> simp

theorem rn_ids_find (f : Int → Int) (v : List (Str × Int)) (k : Str) : mapFind (renIds f v) k = (mapFind v k).map f :=
  rn_find (g := fun k => k) (fun _ _ h => h) f v k

theorem rn_ids_set (f : Int → Int) (v : List (Str × Int)) (k : Str) (i : Int) : mapSet (renIds f v) k (f i) = renIds f (mapSet v k i) :=
  rn_set (g := fun k => k) (fun _ _ h => h) f v k i

theorem rn_merges_find {f : Int → Int} (hf : OneToOne f) (l : Merges) (a b : Int) :
    mapFind (renMerges f l) (f a, f b) = (mapFind l (a, b)).map fun p => (p.1, f p.2) :=
  rn_find (g := fun p : Int × Int => (f p.1, f p.2)) (by
    rintro ⟨a, b⟩ ⟨c, d⟩ h
    simp only [Prod.mk.injEq] at h
    rw [hf _ _ h.1, hf _ _ h.2]) (fun p : Int × Int => (p.1, f p.2)) l (a, b)

theorem rn_merges_insert {f : Int → Int} (hf : OneToOne f) (l : Merges) (a b r n : Int) :
    mapInsert (renMerges f l) (f a, f b) (r, f n) = renMerges f (mapInsert l (a, b) (r, n)) :=
  rn_insert (g := fun p : Int × Int => (f p.1, f p.2)) (by
    rintro ⟨a, b⟩ ⟨c, d⟩ h
    simp only [Prod.mk.injEq] at h
    rw [hf _ _ h.1, hf _ _ h.2]) (fun p : Int × Int => (p.1, f p.2)) l (a, b) (r, n)

theorem rn_back {f : Int → Int} (hf : OneToOne f) {ν : Type} (m : List (Int × ν)) (i : Int) : mapFind (m.map fun p => (f p.1, p.2)) (f i) = mapFind m i := by
  rw [rn_find hf (fun v : ν => v) m i]
  cases mapFind m i <;> rfl

theorem rn_back_set {f : Int → Int} (hf : OneToOne f) {ν : Type} (m : List (Int × ν)) (i : Int) (v : ν) :
    mapSet (m.map fun p => (f p.1, p.2)) (f i) v = (mapSet m i v).map fun p => (f p.1, p.2) := rn_set hf (fun v : ν => v) m i v

theorem rn_back_insert {f : Int → Int} (hf : OneToOne f) {ν : Type} (m : List (Int × ν)) (i : Int) (v : ν) :
    mapInsert (m.map fun p => (f p.1, p.2)) (f i) v = (mapInsert m i v).map fun p => (f p.1, p.2) := rn_insert hf (fun v : ν => v) m i v

theorem rn_vocabR {f : Int → Int} (hf : OneToOne f) (v : Vocab) : vocabR (renIds f v) = (vocabR v).map fun p => (f p.1, p.2) := by
  unfold vocabR
  suffices H : ∀ (v : Vocab) (m : List (Int × Str)), (renIds f v).foldl (fun m p => mapSet m p.2 p.1) (m.map fun p => (f p.1, p.2)) =
      (v.foldl (fun m p => mapSet m p.2 p.1) m).map fun p => (f p.1, p.2) from H v []
  intro v
  induction v with
  | nil => intro m; rfl
  | cons p v ih =>
    intro m
    show (renIds f v).foldl _ (mapSet (m.map fun p => (f p.1, p.2)) (f p.2) p.1) = _
    rw [rn_back_set hf, ih]
    rfl

/-! ### WordPiece -/

theorem rn_longest (f : Int → Int) (m : WordPiece) (u : U16) (start : Nat) : ∀ k,
    (renWordPiece f m).longest u start k = (m.longest u start k).map (renToken f)
  | 0 => rfl
  | k + 1 => by
    simp only [WordPiece.longest]
    rw [show (renWordPiece f m).piece u start (start + (k + 1)) = m.piece u start (start + (k + 1)) from rfl,
      show (renWordPiece f m).vocab = renIds f m.vocab from rfl, rn_ids_find]
    cases mapFind m.vocab (m.piece u start (start + (k + 1))) with
    | none => exact rn_longest f m u start k
    | some i => rfl

theorem rn_loop (f : Int → Int) (m : WordPiece) (u : U16) : ∀ fuel start,
    (renWordPiece f m).loop u fuel start = (m.loop u fuel start).map (List.map (renToken f)) := by
  intro fuel
  induction fuel with
  | zero =>
    intro start
    unfold WordPiece.loop
    split <;> rfl
  | succ fuel ih =>
    intro start
    unfold WordPiece.loop
    by_cases hlt : start < u.length
    · simp only [if_pos hlt, rn_longest]
      cases m.longest u start (u.length - start) with
      | none => rfl
      | some t =>
        simp only [Option.map_some]
        rw [show (renToken f t).offsets = t.offsets from rfl, ih]
        cases m.loop u fuel t.offsets.2 <;> rfl
    · simp only [if_neg hlt]; rfl

theorem rn_wp_word {f : Int → Int} {m : WordPiece} (h : tokenToId m.vocab m.unkToken ≠ none ∨ f 0 = 0) (s : Str) :
    (renWordPiece f m).word s = (m.word s).map (renToken f) := by
  have hu : ∀ n, (renWordPiece f m).unk n = (m.unk n).map (renToken f) := by
    intro n
    unfold WordPiece.unk
    rw [show (renWordPiece f m).vocab = renIds f m.vocab from rfl, show (renWordPiece f m).unkToken = m.unkToken from rfl, rn_ids_find]
    unfold tokenToId at h
    cases hm : mapFind m.vocab m.unkToken with
    | none =>
      rw [hm] at h
      rcases h with h | h
      · exact absurd rfl h
      · simp [renToken, h]
    | some i => rfl
  unfold WordPiece.word
  simp only [show (renWordPiece f m).maxChars = m.maxChars from rfl, rn_loop, hu]
  split
  · rfl
  · cases m.loop (fromUTF8 s) (fromUTF8 s).length 0 <;> rfl

/-! ### Byte-pair encoding -/

theorem rn_modify {α β : Type} {g : α → β} {a : α → α} {b : β → β} (h : ∀ x, g (a x) = b (g x)) : ∀ (l : List α) (i : Nat),
    (l.map g).modify i b = (l.modify i a).map g
  | [], i => by simp
  | x :: l, 0 => by simp [h]
  | x :: l, i + 1 => by simp [rn_modify h l i]

theorem rn_wordAdd (f : Int → Int) (w : List Symbol) (c : Int) (len : Nat) :
    wordAdd (w.map (renSymbol f)) (f c) len = (wordAdd w c len).map (renSymbol f) := by
  cases w with
  | nil => rfl
  | cons x w =>
    unfold wordAdd
    simp only [List.map_cons]
    rw [List.map_append, ← rn_modify (g := renSymbol f) (b := fun l => { l with next := ((x :: w).length : Int) }) (fun _ => rfl)]
    simp [renSymbol]

theorem rn_pushPair {P : Platform} {f : Int → Int} (hf : OneToOne f) (hq : BlindToIds P.pq) (merges : Merges) (q : List Merge) (pos : Nat) (a b : Int) :
    pushPair P (renMerges f merges) (q.map (renMerge f)) pos (f a) (f b) = (pushPair P merges q pos a b).map (renMerge f) := by
  unfold pushPair
  rw [rn_merges_find hf]
  cases mapFind merges (a, b) with
  | none => rfl
  | some p => exact (hq f hf).1 q { pos, rank := p.1, newId := p.2 }

theorem rn_initQueue {P : Platform} {f : Int → Int} (hf : OneToOne f) (hq : BlindToIds P.pq) (merges : Merges) : ∀ (w : List Symbol) (i : Nat) (q : List Merge),
    initQueue P (renMerges f merges) i (w.map (renSymbol f)) (q.map (renMerge f)) = (initQueue P merges i w q).map (renMerge f)
  | [], i, q => by simp [initQueue]
  | [a], i, q => by simp [initQueue]
  | a :: b :: r, i, q => by
    simp only [List.map_cons, initQueue]
    rw [show (renSymbol f a).c = f a.c from rfl, show (renSymbol f b).c = f b.c from rfl, rn_pushPair hf hq]
    exact rn_initQueue hf hq merges (b :: r) (i + 1) _

theorem rn_vecAt {α β : Type} (g : α → β) (l : List α) (i : Nat) : vecAt (l.map g) i = (vecAt l i).map g := by
  unfold vecAt
  rw [List.getElem?_map]
  cases l[i]? <;> rfl

theorem rn_bind {α β γ : Type} (g : α → β) (k : β → Res γ) (x : Res α) : (x.map g >>= k) = x >>= fun a => k (g a) := by
  cases x <;> rfl

theorem rn_map {α β γ : Type} (g : β → γ) (k : α → Res β) (x : Res α) : (x >>= k).map g = x >>= fun a => (k a).map g := by
  cases x <;> rfl

theorem rn_pushLeft {P : Platform} {f : Int → Int} (hf : OneToOne f) (hq : BlindToIds P.pq) (merges : Merges) (w : List Symbol) (q : List Merge) (c : Symbol) :
    pushLeft P (renMerges f merges) (w.map (renSymbol f)) (q.map (renMerge f)) (renSymbol f c) = (pushLeft P merges w q c).map (List.map (renMerge f)) := by
  unfold pushLeft
  simp only [List.length_map, show (renSymbol f c).prev = c.prev from rfl]
  split
  · rw [rn_vecAt, rn_bind, rn_map]
    congr 1
    funext s
    exact congrArg Except.ok (rn_pushPair hf hq merges q c.prev.toNat s.c c.c)
  · rfl

theorem rn_pushRight {P : Platform} {f : Int → Int} (hf : OneToOne f) (hq : BlindToIds P.pq) (merges : Merges) (w : List Symbol) (q : List Merge) (pos : Nat)
    (c : Symbol) :
    pushRight P (renMerges f merges) (w.map (renSymbol f)) (q.map (renMerge f)) pos (renSymbol f c) = (pushRight P merges w q pos c).map (List.map (renMerge f)) := by
  unfold pushRight
  simp only [List.length_map, show (renSymbol f c).next = c.next from rfl]
  split
  · rw [rn_vecAt, rn_bind, rn_map]
    congr 1
    funext s
    exact congrArg Except.ok (rn_pushPair hf hq merges q pos c.c s.c)
  · rfl

theorem rn_applyTop {P : Platform} {f : Int → Int} (hf : OneToOne f) (hq : BlindToIds P.pq) (merges : Merges) (w : List Symbol) (q : List Merge) (top : Merge) :
    applyTop P (renMerges f merges) (w.map (renSymbol f)) (q.map (renMerge f)) (renMerge f top) =
      (applyTop P merges w q top).map fun r => (r.1.map (renSymbol f), r.2.map (renMerge f)) := by
  unfold applyTop
  simp only [show (renMerge f top).pos = top.pos from rfl]
  rw [rn_vecAt, rn_bind, rn_map]
  congr 1
  funext s
  simp only [show (renSymbol f s).len = s.len from rfl, show (renSymbol f s).next = s.next from rfl, show (renSymbol f s).c = f s.c from rfl,
    List.length_map]
  split
  · rfl
  split
  · rfl
  split
  · rfl
  rw [rn_vecAt, rn_bind, rn_map]
  congr 1
  funext r
  rw [show (renSymbol f r).c = f r.c from rfl, rn_merges_find hf]
  cases mapFind merges (s.c, r.c) with
  | none => rfl
  | some p =>
    obtain ⟨rank, newId⟩ := p
    simp only [Option.map_some, show (renMerge f top).newId = f top.newId from rfl]
    by_cases hn : newId = top.newId
    · rw [if_neg (show ¬ (f newId ≠ f top.newId) by simp [hn]), if_neg (show ¬ (newId ≠ top.newId) by simp [hn])]
      have m1 : (w.map (renSymbol f)).modify top.pos (fun x => x.mergeWith (renSymbol f r) (f top.newId)) =
          (w.modify top.pos fun x => x.mergeWith r top.newId).map (renSymbol f) :=
        rn_modify (a := fun x : Symbol => x.mergeWith r top.newId) (b := fun x : Symbol => x.mergeWith (renSymbol f r) (f top.newId)) (fun _ => rfl) _ _
      have m2 : ∀ l : List Symbol, (l.map (renSymbol f)).modify s.next.toNat (fun x => { x with len := 0 }) =
          (l.modify s.next.toNat fun x => { x with len := 0 }).map (renSymbol f) := fun l =>
        rn_modify (a := fun x : Symbol => { x with len := 0 }) (b := fun x : Symbol => { x with len := 0 }) (fun _ => rfl) _ _
      have m3 : ∀ l : List Symbol, (l.map (renSymbol f)).modify r.next.toNat (fun x => { x with prev := (top.pos : Int) }) =
          (l.modify r.next.toNat fun x => { x with prev := (top.pos : Int) }).map (renSymbol f) := fun l =>
        rn_modify (a := fun x : Symbol => { x with prev := (top.pos : Int) }) (b := fun x : Symbol => { x with prev := (top.pos : Int) }) (fun _ => rfl) _ _
      simp only [m1, m2, List.length_map, show (renSymbol f r).next = r.next from rfl, m3, ← apply_ite (List.map (renSymbol f))]
      rw [rn_vecAt, rn_bind, rn_map]
      congr 1
      funext c
      rw [rn_pushLeft hf hq, rn_bind, rn_map]
      congr 1
      funext q1
      rw [rn_pushRight hf hq, rn_bind, rn_map]
      rfl
    · rw [if_pos hn, if_pos (fun h => hn (hf _ _ h))]
      rfl

def renState (f : Int → Int) (st : MState) : MState :=
  { st with syms := st.syms.map (renSymbol f), queue := st.queue.map (renMerge f), skip := st.skip.map (renMerge f) }

theorem rn_step {P : Platform} {f : Int → Int} (hf : OneToOne f) (hq : BlindToIds P.pq) (merges : Merges) (d : Dropout) (st : MState) :
    mergeStep P (renMerges f merges) d (renState f st) = (mergeStep P merges d st).map (Option.map (renState f)) := by
  unfold mergeStep
  rw [show (renState f st).queue = st.queue.map (renMerge f) from rfl, (hq f hf).2]
  cases P.pq.pop st.queue with
  | none => rfl
  | some r =>
    obtain ⟨top, q⟩ := r
    simp only [Option.map_some, show (renState f st).drawn = st.drawn from rfl]
    split
    · simp [renState, Except.map, pure, Except.pure]
    · have hfold : ∀ (l q : List Merge), (l.map (renMerge f)).foldl P.pq.push (q.map (renMerge f)) = (l.foldl P.pq.push q).map (renMerge f) := by
        intro l
        induction l with
        | nil => intro q; rfl
        | cons x l ih => intro q; simp only [List.map_cons, List.foldl_cons, (hq f hf).1]; exact ih _
      rw [show (renState f st).skip = st.skip.map (renMerge f) from rfl, show (renState f st).syms = st.syms.map (renSymbol f) from rfl,
        hfold, rn_applyTop hf hq, rn_bind, rn_map]
      rfl

theorem rn_mergeLoop {P : Platform} {f : Int → Int} (hf : OneToOne f) (hq : BlindToIds P.pq) (merges : Merges) (d : Dropout) : ∀ (n : Nat) (st : MState),
    mergeLoop P (renMerges f merges) d n (renState f st) = (mergeLoop P merges d n st).map (List.map (renSymbol f))
  | 0, st => rfl
  | n + 1, st => by
    simp only [mergeLoop]
    rw [rn_step hf hq, rn_bind, rn_map]
    congr 1
    funext x
    cases x with
    | none => rfl
    | some st' => exact rn_mergeLoop hf hq merges d n st'

theorem rn_mergeAll {P : Platform} {f : Int → Int} (hf : OneToOne f) (hq : BlindToIds P.pq) (merges : Merges) (d : Dropout) (w : List Symbol) :
    mergeAll P (renMerges f merges) d (w.map (renSymbol f)) = (mergeAll P merges d w).map (List.map (renSymbol f)) := by
  cases w with
  | nil => rfl
  | cons x w =>
    unfold mergeAll
    simp only [List.map_cons]
    have e : initQueue P (renMerges f merges) 0 (renSymbol f x :: w.map (renSymbol f)) [] = (initQueue P merges 0 (x :: w) []).map (renMerge f) :=
      rn_initQueue hf hq merges (x :: w) 0 []
    rw [e, show (renSymbol f x :: w.map (renSymbol f)).length = (x :: w).length by simp]
    have := rn_mergeLoop hf hq merges d (mergeFuel (x :: w).length)
      { syms := x :: w, queue := initQueue P merges 0 (x :: w) [], skip := [], drawn := 0 }
    simp only [renState, List.map_cons, List.map_nil] at this
    rw [this, rn_bind, rn_map]
    congr 1
    funext l
    refine congrArg Except.ok ?_
    rw [List.filter_map]
    rfl

theorem rn_addByte (f : Int → Int) (m : BPE) (b : Nat) (first last : Bool) (w : List Symbol) (unk : Option (Int × Nat)) :
    (renBPE f m).addByte b first last (w.map (renSymbol f)) (unk.map fun u => (f u.1, u.2)) =
      (((m.addByte b first last w unk).1.map (renSymbol f)), (m.addByte b first last w unk).2.map fun u => (f u.1, u.2)) := by
  unfold BPE.addByte
  simp only [show (renBPE f m).symbolKey b first last = m.symbolKey b first last from rfl, show (renBPE f m).vocab = renIds f m.vocab from rfl,
    show (renBPE f m).byteFallback = m.byteFallback from rfl, show (renBPE f m).unkToken = m.unkToken from rfl,
    show (renBPE f m).fuseUnk = m.fuseUnk from rfl, rn_ids_find]
  have hids : fallbackIds (renIds f m.vocab) (m.symbolKey b first last) = (fallbackIds m.vocab (m.symbolKey b first last)).map f := by
    unfold fallbackIds
    rw [List.map_filterMap]
    congr 1
    funext c
    exact rn_ids_find f m.vocab _
  have hfold : ∀ (l : List Int) (w : List Symbol), (l.map f).foldl (fun w i => wordAdd w i 1) (w.map (renSymbol f)) =
      (l.foldl (fun w i => wordAdd w i 1) w).map (renSymbol f) := by
    intro l
    induction l with
    | nil => intro w; rfl
    | cons i l ih => intro w; simp only [List.map_cons, List.foldl_cons, rn_wordAdd]; exact ih _
  cases mapFind m.vocab (m.symbolKey b first last) with
  | some i =>
    cases unk with
    | none => simp [rn_wordAdd]
    | some u => simp [rn_wordAdd]
  | none =>
    simp only [Option.map_none, hids]
    generalize he : (if m.byteFallback then fallbackIds m.vocab (m.symbolKey b first last) else []) = ids
    have he' : (if m.byteFallback then (fallbackIds m.vocab (m.symbolKey b first last)).map f else []) = ids.map f := by
      rw [← he]; split <;> rfl
    rw [he']
    by_cases h0 : ids = []
    · subst h0
      simp only [List.map_nil, ne_eq, not_true_eq_false, if_false]
      split
      · cases unk with
        | none =>
          cases m.fuseUnk <;> simp only [Option.map_none] <;> cases mapFind m.vocab m.unkToken <;> rfl
        | some u =>
          cases m.fuseUnk
          · simp only [Option.map_some]
            cases mapFind m.vocab m.unkToken <;> simp [rn_wordAdd]
          · rfl
      · rfl
    · rw [if_pos h0, if_pos (by simpa using h0), hfold]

theorem rn_symbols (f : Int → Int) (m : BPE) : ∀ (s : Str) (first : Bool) (w : List Symbol) (unk : Option (Int × Nat)),
    (renBPE f m).symbolsLoop first s (w.map (renSymbol f)) (unk.map fun u => (f u.1, u.2)) = (m.symbolsLoop first s w unk).map (renSymbol f)
  | [], first, w, unk => by
    cases unk with
    | none => rfl
    | some u => exact rn_wordAdd f w u.1 u.2
  | b :: s, first, w, unk => by
    simp only [BPE.symbolsLoop]
    rw [rn_addByte]
    exact rn_symbols f m s false _ _

theorem rn_mergeWord {P : Platform} {f : Int → Int} (hf : OneToOne f) (hq : BlindToIds P.pq) (m : BPE) (s : Str) :
    (renBPE f m).mergeWord P s = (m.mergeWord P s).map (List.map (renSymbol f)) := by
  unfold BPE.mergeWord BPE.symbols
  rw [show (renBPE f m).symbolsLoop true s [] none = (m.symbolsLoop true s [] none).map (renSymbol f) from rn_symbols f m s true [] none]
  exact rn_mergeAll hf hq m.merges m.dropout _

theorem rn_wordToTokens {f : Int → Int} (hf : OneToOne f) (m : BPE) : ∀ (w : List Symbol) (pos : Nat),
    (renBPE f m).wordToTokens pos (w.map (renSymbol f)) = (m.wordToTokens pos w).map (List.map (renToken f))
  | [], pos => rfl
  | s :: w, pos => by
    simp only [List.map_cons, BPE.wordToTokens]
    rw [show (renBPE f m).vocab = renIds f m.vocab from rfl, show (renSymbol f s).c = f s.c from rfl, rn_vocabR hf, rn_back hf,
      show (renSymbol f s).len = s.len from rfl]
    cases mapFind (vocabR m.vocab) s.c with
    | none => rfl
    | some v =>
      simp only
      rw [rn_wordToTokens hf m w, rn_bind, rn_map]
      rfl

/-- A result of the model under new numbers. -/
def rnPair (f : Int → Int) (r : Res (List Token) × BPE) : Res (List Token) × BPE := (r.1.map (List.map (renToken f)), renBPE f r.2)

theorem rn_cached {P : Platform} {f : Int → Int} (hf : OneToOne f) (hq : BlindToIds P.pq) (m : BPE) (s : Str) :
    (renBPE f m).tokenizeWithCache P s = rnPair f (m.tokenizeWithCache P s) := by
  unfold BPE.tokenizeWithCache
  have e1 : (if (renBPE f m).ignoreMerges then mapFind (renBPE f m).vocab s else none) = (if m.ignoreMerges then mapFind m.vocab s else none).map f := by
    rw [show (renBPE f m).ignoreMerges = m.ignoreMerges from rfl, show (renBPE f m).vocab = renIds f m.vocab from rfl, rn_ids_find]
    split <;> rfl
  have e2 : mapFind (renBPE f m).cache s = (mapFind m.cache s).map (List.map (renSymbol f)) :=
    rn_find (g := fun k => k) (fun _ _ h => h) (List.map (renSymbol f)) m.cache s
  rw [e1, e2]
  cases (if m.ignoreMerges then mapFind m.vocab s else none) with
  | some i => rfl
  | none =>
    simp only [Option.map_none]
    cases mapFind m.cache s with
    | some w => simp only [Option.map_some, rn_wordToTokens hf]; rfl
    | none =>
      simp only [Option.map_none]
      rw [rn_mergeWord hf hq]
      cases m.mergeWord P s with
      | error e => rfl
      | ok w =>
        simp only [Except.map]
        rw [rn_wordToTokens hf]
        cases m.wordToTokens 0 w with
        | error e => rfl
        | ok ts =>
          have e3 : mapInsert (renBPE f m).cache s (w.map (renSymbol f)) = (mapInsert m.cache s w).map fun p => (p.1, p.2.map (renSymbol f)) :=
            rn_insert (g := fun k => k) (fun _ _ h => h) (List.map (renSymbol f)) m.cache s w
          simp only [Except.map, rnPair]
          rw [e3]
          rfl

theorem rn_bpe_word {P : Platform} {f : Int → Int} (hf : OneToOne f) (hq : BlindToIds P.pq) (m : BPE) (s : Str) :
    (renBPE f m).word P s = rnPair f (m.word P s) := by
  unfold BPE.word
  rw [show (renBPE f m).dropout = m.dropout from rfl]
  split
  · exact rn_cached hf hq m s
  · rw [rn_mergeWord hf hq]
    cases m.mergeWord P s with
    | error e => rfl
    | ok w => simp only [Except.map, rn_wordToTokens hf]; rfl

/-- A split under new numbers. -/
def rnSplit (f : Int → Int) (s : Split) : Split := { s with tokens := s.tokens.map (renToken f) }

/-- A pre-tokenized text under new numbers. -/
def rnPTS (f : Int → Int) (p : PTS) : PTS := { p with splits := p.splits.map (rnSplit f) }

theorem rn_splitsLoop {P : Platform} {f : Int → Int} (hf : OneToOne f) (hq : BlindToIds P.pq) : ∀ (l : List Split) (m : BPE),
    BPE.splitsLoop P (renBPE f m) (l.map (rnSplit f)) = ((BPE.splitsLoop P m l).1.map (List.map (rnSplit f)), renBPE f (BPE.splitsLoop P m l).2)
  | [], m => rfl
  | s :: l, m => by
    simp only [List.map_cons, BPE.splitsLoop]
    rw [show (rnSplit f s).normalized = s.normalized from rfl, rn_bpe_word hf hq]
    cases m.word P s.normalized with
    | mk r m' =>
      cases r with
      | error e => rfl
      | ok ts =>
        simp only [rnPair, Except.map]
        rw [rn_splitsLoop hf hq l m']
        cases BPE.splitsLoop P m' l with
        | mk r' m'' => cases r' <;> rfl

theorem rn_model {P : Platform} {f : Int → Int} (hf : OneToOne f) (hq : BlindToIds P.pq) (m : Model)
    (hu : ∀ x, m = .wordPiece x → tokenToId x.vocab x.unkToken ≠ none ∨ f 0 = 0) (p : PTS) :
    (renModel f m).tokenize P (rnPTS f p) = ((m.tokenize P p).1.map (rnPTS f), renModel f (m.tokenize P p).2) := by
  cases m with
  | wordPiece m =>
    simp only [renModel, Model.tokenize, WordPiece.tokenize, rnPTS, Except.map, List.map_map]
    congr 3
    refine List.map_congr_left fun s _ => ?_
    simp only [Function.comp, rnSplit, rn_wp_word (hu m rfl)]
  | bpe m =>
    simp only [renModel, Model.tokenize, BPE.tokenize]
    rw [show (rnPTS f p).splits = p.splits.map (rnSplit f) from rfl, rn_splitsLoop hf hq]
    cases BPE.splitsLoop P m p.splits with
    | mk r m' => cases r <;> rfl

/-! ### Added tokens -/

def rnTriple (f : Int → Int) (m : Nat × Nat × Int) : Nat × Nat × Int := (m.1, m.2.1, f m.2.2)

def rnSeg (f : Int → Int) (s : TSeg) : TSeg := (s.1.map f, s.2)

theorem rn_wordIds (f : Int → Int) (trie : List (Str × Int)) : wordIds (renIds f trie) = renIds f (wordIds trie) := by
  unfold wordIds
  suffices H : ∀ (l m : List (Str × Int)), (renIds f l).foldl (fun m p => mapSet m p.1 p.2) (renIds f m) = renIds f (l.foldl (fun m p => mapSet m p.1 p.2) m) from
    H trie []
  intro l
  induction l with
  | nil => intro m; rfl
  | cons p l ih =>
    intro m
    show (renIds f l).foldl _ (mapSet (renIds f m) p.1 (f p.2)) = _
    rw [rn_ids_set, ih]
    rfl

theorem rn_scan (f : Int → Int) (ids : List (Str × Int)) (u : U16) : ∀ (rest : U16) (i cur : Nat),
    scan (renIds f ids) u rest i cur = (scan ids u rest i cur).map (rnTriple f)
  | [], i, cur => by
    unfold scan
    simp only [rn_ids_find]
    split
    · cases mapFind ids (toUTF8String (tempSubString u cur (i - cur))) <;> rfl
    · rfl
  | c :: rest, i, cur => by
    unfold scan
    simp only [rn_ids_find]
    cases mapFind ids (toUTF8String (tempSubString u cur (i - cur))) with
    | none => exact rn_scan f ids u rest _ _
    | some k =>
      simp only [Option.map_some, List.map_cons]
      rw [rn_scan f ids u rest]
      rfl

theorem rn_matchSegs {f : Int → Int} (hf : OneToOne f) (mapR : List (Int × AddedToken)) (s : Str) (total : Nat) : ∀ (ms : List (Nat × Nat × Int)) (p : Nat),
    matchSegs (mapR.map fun q => (f q.1, q.2)) s total (ms.map (rnTriple f)) p = (matchSegs mapR s total ms p).map (List.map (rnSeg f))
  | [], p => by
    simp only [List.map_nil, matchSegs]
    split <;> rfl
  | (x, y, i) :: ms, p => by
    simp only [List.map_cons, matchSegs, rnTriple]
    rw [rn_back hf]
    generalize (mapFind mapR i).getD {} = t
    rw [rn_map]
    congr 1
    funext b
    cases b with
    | false => exact rn_matchSegs hf mapR s total ms p
    | true =>
      simp only [if_true]
      have fin : ∀ st stop : Nat, (matchSegs (mapR.map fun q => (f q.1, q.2)) s total (ms.map (rnTriple f)) stop >>= fun rest =>
          (pure ((if p < st then [(none, (p, st))] else []) ++ (some (f i), (st, stop)) :: rest) : Res (List TSeg))) =
          (matchSegs mapR s total ms stop >>= fun rest =>
          (pure ((if p < st then [(none, (p, st))] else []) ++ (some i, (st, stop)) :: rest) : Res (List TSeg))).map (List.map (rnSeg f)) := by
        intro st stop
        rw [rn_matchSegs hf mapR s total ms, rn_bind, rn_map]
        congr 1
        funext l
        refine congrArg Except.ok ?_
        rw [List.map_append]
        congr 1
        split <;> rfl
      cases t.rstrip with
      | false => exact fin _ y
      | true =>
        simp only [if_true]
        rw [rn_map]
        congr 1
        funext z
        exact fin _ _

theorem rn_touchIds {f : Int → Int} (hf : OneToOne f) : ∀ (ms : List (Nat × Nat × Int)) (mapR : List (Int × AddedToken)),
    touchIds (ms.map (rnTriple f)) (mapR.map fun q => (f q.1, q.2)) = (touchIds ms mapR).map fun q => (f q.1, q.2)
  | [], mapR => rfl
  | (x, y, i) :: ms, mapR => by
    simp only [List.map_cons, touchIds, rnTriple]
    rw [rn_back_insert hf]
    exact rn_touchIds hf ms _

theorem rn_findMatches {f : Int → Int} (hf : OneToOne f) (a : AddedVocab) (s : Str) (trie : List (Str × Int)) :
    (renAdded f a).findMatches s (renIds f trie) = ((a.findMatches s trie).1.map (List.map (rnSeg f)), renAdded f (a.findMatches s trie).2) := by
  unfold AddedVocab.findMatches
  simp only [rn_wordIds, rn_scan]
  rw [show (renAdded f a).mapR = a.mapR.map fun q => (f q.1, q.2) from rfl, rn_matchSegs hf, rn_touchIds hf]
  rfl

theorem rn_segSplits (f : Int → Int) (w : WStr) (base : Nat) : ∀ l : List TSeg,
    segSplits w base (l.map (rnSeg f)) = (segSplits w base l).map (List.map (rnSplit f))
  | [] => rfl
  | (id, (x, y)) :: l => by
    simp only [List.map_cons, segSplits, rnSeg]
    rw [rn_map]
    congr 1
    funext v
    rw [rn_map]
    congr 1
    funext s
    rw [rn_segSplits f w base l, rn_bind, rn_map]
    congr 1
    funext r
    cases id <;> rfl

theorem rn_firstSplits {f : Int → Int} (hf : OneToOne f) (a : AddedVocab) (w : WStr) :
    (renAdded f a).firstSplits w = ((a.firstSplits w).1.map (rnPTS f), renAdded f (a.firstSplits w).2) := by
  unfold AddedVocab.firstSplits
  cases hp : PTS.ofNS (NS.ofText w) with
  | error e => rfl
  | ok p =>
    have hs : rnPTS f p = p := by
      unfold PTS.ofNS at hp
      obtain ⟨s, -, h⟩ := res_bind_ok.1 hp
      cases h
      rfl
    simp only
    cases convertToString w with
    | error e => rfl
    | ok text =>
      simp only
      rw [show (renAdded f a).nonNormTrie = renIds f a.nonNormTrie from rfl, rn_findMatches hf]
      simp only
      rw [rn_bind, rn_map]
      congr 2
      funext segs
      rw [rn_segSplits, rn_bind, rn_map]
      congr 1
      funext l
      cases l with
      | nil => exact congrArg Except.ok hs.symm
      | cons s l => rfl

theorem rn_normalizeSplit {P : Platform} {f : Int → Int} (hf : OneToOne f) (norm : Option Normalizer) (a : AddedVocab) (ns : NS) (ending : Nat) (s : Split) :
    normalizeSplit P norm (renAdded f a) ns ending (rnSplit f s) =
      ((normalizeSplit P norm a ns ending s).1.map fun r => (r.1, r.2.1.map (rnSplit f), r.2.2), renAdded f (normalizeSplit P norm a ns ending s).2) := by
  unfold normalizeSplit
  simp only [show (rnSplit f s).normalized = s.normalized from rfl, show (rnSplit f s).offsets = s.offsets from rfl]
  generalize (do
    let sub ← normalizeOpt P norm (NS.ofText (← convertFromString s.normalized))
    if ending + s.offsets.2 < s.offsets.1 then .error (.ub .outOfBounds)
    else do
      let ns ← ns.transformRange ending (ending + s.offsets.2 - s.offsets.1) sub
      let text ← convertToString sub.normalized
      return (ns, sub, text) : Res (NS × NS × Str)) = pre
  cases pre with
  | error e => rfl
  | ok x =>
    obtain ⟨ns', sub, text⟩ := x
    simp only
    rw [show (renAdded f a).normTrie = renIds f a.normTrie from rfl, rn_findMatches hf]
    simp only
    rw [rn_bind, rn_map]
    congr 2
    funext segs
    rw [rn_segSplits, rn_bind, rn_map]
    rfl

theorem rn_normalizeLoop {P : Platform} {f : Int → Int} (hf : OneToOne f) (norm : Option Normalizer) : ∀ (l : List Split) (a : AddedVocab) (ns : NS) (ending : Nat),
    normalizeLoop P norm (renAdded f a) ns ending (l.map (rnSplit f)) =
      ((normalizeLoop P norm a ns ending l).1.map fun r => (r.1, r.2.map (rnSplit f)), renAdded f (normalizeLoop P norm a ns ending l).2)
  | [], a, ns, ending => rfl
  | s :: l, a, ns, ending => by
    simp only [List.map_cons, normalizeLoop]
    have e : ((rnSplit f s).tokens ≠ []) ↔ s.tokens ≠ [] := by simp [rnSplit]
    by_cases h : s.tokens ≠ []
    · rw [if_pos h, if_pos (e.2 h), show (rnSplit f s).normalized = s.normalized from rfl, rn_normalizeLoop hf norm l]
      cases normalizeLoop P norm a ns (ending + s.normalized.length) l with
      | mk r a' => cases r <;> rfl
    · rw [if_neg h, if_neg (fun k => h (e.1 k)), rn_normalizeSplit hf]
      cases normalizeSplit P norm a ns ending s with
      | mk r a' =>
        cases r with
        | error x => rfl
        | ok x =>
          obtain ⟨ns', here, n⟩ := x
          simp only [Except.map]
          rw [rn_normalizeLoop hf norm l]
          cases normalizeLoop P norm a' ns' (ending + n) l with
          | mk r' a'' =>
            cases r' with
            | error x => rfl
            | ok x => simp [Except.map]

theorem rn_extract {P : Platform} {f : Int → Int} (hf : OneToOne f) (norm : Option Normalizer) (a : AddedVocab) (w : WStr) :
    (renAdded f a).extract P norm w = ((a.extract P norm w).1.map (rnPTS f), renAdded f (a.extract P norm w).2) := by
  unfold AddedVocab.extract
  rw [rn_firstSplits hf]
  cases a.firstSplits w with
  | mk r a' =>
    cases r with
    | error e => rfl
    | ok p =>
      simp only [Except.map]
      rw [show (rnPTS f p).normalized = p.normalized from rfl, show (rnPTS f p).splits = p.splits.map (rnSplit f) from rfl, rn_normalizeLoop hf]
      cases normalizeLoop P norm a' p.normalized 0 p.splits with
      | mk r' a'' =>
        cases r' with
        | error e => rfl
        | ok x =>
          obtain ⟨ns, l⟩ := x
          cases l <;> rfl

/-! ### Pre-tokenization -/

theorem rn_splitLoop (f : Int → Int) (fn : U16 → Res (List Seg)) (b : Behavior) : ∀ l : List Split,
    splitLoop fn b (l.map (rnSplit f)) = (splitLoop fn b l).map (List.map (rnSplit f))
  | [] => rfl
  | s :: l => by
    simp only [List.map_cons, splitLoop]
    have step : ∀ x : Res (List Split), (x.map (List.map (rnSplit f)) >>= fun here => splitLoop fn b (l.map (rnSplit f)) >>= fun rest =>
        (pure (here ++ rest) : Res (List Split))) =
        (x >>= fun here => splitLoop fn b l >>= fun rest => (pure (here ++ rest) : Res (List Split))).map (List.map (rnSplit f)) := by
      intro x
      rw [rn_bind, rn_map]
      congr 1
      funext here
      rw [rn_splitLoop f fn b l, rn_bind, rn_map]
      congr 1
      funext r
      exact congrArg Except.ok (List.map_append).symm
    have hs : splitNormalized (rnSplit f s) fn b = (splitNormalized s fn b).map (List.map (rnSplit f)) := by
      unfold splitNormalized
      rw [rn_map]
      simp only [show (rnSplit f s).normalized = s.normalized from rfl, show (rnSplit f s).offsets = s.offsets from rfl]
      congr 1
      funext m
      refine congrArg Except.ok ?_
      rw [List.map_map]
      rfl
    rw [show (rnSplit f s).tokens.length = s.tokens.length by simp [rnSplit]]
    split
    · exact step (.ok [s])
    · rw [hs]
      exact step _

theorem rn_split (f : Int → Int) (p : PTS) (fn : U16 → Res (List Seg)) (b : Behavior) : (rnPTS f p).split fn b = (p.split fn b).map (rnPTS f) := by
  unfold PTS.split
  rw [show (rnPTS f p).splits = p.splits.map (rnSplit f) from rfl, rn_splitLoop, rn_bind, rn_map]
  rfl

theorem rn_mapSplits (P : Platform) (f : Int → Int) : ∀ l : List Split, mapSplits P (l.map (rnSplit f)) = (mapSplits P l).map (List.map (rnSplit f))
  | [] => rfl
  | s :: l => by
    simp only [List.map_cons, mapSplits]
    rw [show (rnSplit f s).normalized = s.normalized from rfl, rn_map]
    congr 1
    funext n
    rw [rn_mapSplits P f l, rn_bind, rn_map]
    rfl

theorem rn_ofNS (f : Int → Int) (n : NS) : (PTS.ofNS n).map (rnPTS f) = PTS.ofNS n := by
  unfold PTS.ofNS
  rw [rn_map]
  rfl

theorem rn_byteLevel (P : Platform) (f : Int → Int) (x u : Bool) (p : PTS) :
    byteLevelPreTokenize P x u (rnPTS f p) = (byteLevelPreTokenize P x u p).map (rnPTS f) := by
  have tail : ∀ p : PTS, (do
      let p ← (rnPTS f p).split (fun v => if u then findMatches P byteLevelPattern v else .ok [((0, v.length), false)]) .isolated
      let splits ← mapSplits P p.splits
      return { p with splits } : Res PTS) = (do
      let p ← p.split (fun v => if u then findMatches P byteLevelPattern v else .ok [((0, v.length), false)]) .isolated
      let splits ← mapSplits P p.splits
      return { p with splits } : Res PTS).map (rnPTS f) := by
    intro p
    rw [rn_split, rn_bind, rn_map]
    congr 1
    funext q
    rw [show (rnPTS f q).splits = q.splits.map (rnSplit f) from rfl, rn_mapSplits, rn_bind, rn_map]
    rfl
  unfold byteLevelPreTokenize
  rw [show (rnPTS f p).normalized = p.normalized from rfl]
  have : ∀ (a b : Res PTS), a = b.map (rnPTS f) → (do
      let p ← a
      let p ← p.split (fun v => if u then findMatches P byteLevelPattern v else .ok [((0, v.length), false)]) .isolated
      let splits ← mapSplits P p.splits
      return { p with splits } : Res PTS) = (do
      let p ← b
      let p ← p.split (fun v => if u then findMatches P byteLevelPattern v else .ok [((0, v.length), false)]) .isolated
      let splits ← mapSplits P p.splits
      return { p with splits } : Res PTS).map (rnPTS f) := by
    rintro a b rfl
    rw [rn_bind, rn_map]
    congr 1
    funext p
    exact tail p
  cases x with
  | false => exact tail p
  | true =>
    simp only [if_true]
    cases p.normalized.normalized with
    | nil => rfl
    | cons c r =>
      simp only
      split
      · exact tail p
      · rw [rn_map]
        congr 1
        funext n
        exact this _ _ (rn_ofNS f n).symm

mutual
theorem rn_pre (P : Platform) (f : Int → Int) : (t : PreTokenizer) → (p : PTS) → t.run P (rnPTS f p) = (t.run P p).map (rnPTS f)
  | .bert, p => by
    simp only [PreTokenizer.run, bertPreTokenize]
    rw [rn_split, rn_bind, rn_map]
    congr 1
    funext q
    exact rn_split f q _ _
  | .split pat b i, p => by
    simp only [PreTokenizer.run, splitPreTokenize]
    exact rn_split f p _ _
  | .byteLevel x u, p => by
    simp only [PreTokenizer.run]
    exact rn_byteLevel P f x u p
  | .seq l, p => by
    simp only [PreTokenizer.run]
    exact rn_pres P f l p
theorem rn_pres (P : Platform) (f : Int → Int) : (l : List PreTokenizer) → (p : PTS) → PreTokenizer.runList P l (rnPTS f p) = (PreTokenizer.runList P l p).map (rnPTS f)
  | [], p => rfl
  | t :: l, p => by
    simp only [PreTokenizer.runList]
    rw [rn_pre P f t p, rn_bind, rn_map]
    congr 1
    funext q
    exact rn_pres P f l q
end

theorem rn_preTokenized {P : Platform} {f : Int → Int} (hf : OneToOne f) (t : Tokenizer) (w : WStr) :
    (renumbered f t).preTokenized P w = ((t.preTokenized P w).1.map (rnPTS f), renumbered f (t.preTokenized P w).2) := by
  have fin : ∀ r : Res PTS, (do
      let p ← r.map (rnPTS f)
      match t.preTokenizer with
      | none => .ok p
      | some pt => pt.run P p) = (do
      let p ← r
      match t.preTokenizer with
      | none => .ok p
      | some pt => pt.run P p : Res PTS).map (rnPTS f) := by
    intro r
    rw [rn_bind, rn_map]
    congr 1
    funext p
    cases t.preTokenizer with
    | none => rfl
    | some pt => exact rn_pre P f pt p
  unfold Tokenizer.preTokenized
  cases hp : PTS.ofNS (NS.ofText w) with
  | error e => rfl
  | ok p =>
    have hs : (Except.ok p : Res PTS) = (Except.ok p : Res PTS).map (rnPTS f) := by rw [← hp, rn_ofNS]
    simp only
    cases ha : t.added with
    | none =>
      simp only [renumbered, ha, Option.map_none]
      refine Prod.ext ?_ rfl
      exact (congrArg (fun x : Res PTS => (do
        let p ← x
        match t.preTokenizer with
        | none => .ok p
        | some pt => pt.run P p : Res PTS)) hs).trans (fin (.ok p))
    | some a =>
      simp only [renumbered, ha, Option.map_some]
      rw [rn_extract hf]
      exact Prod.ext (fin _) rfl

/-! ### From tokens to the encoding -/

theorem rn_append (f : Int → Int) (a b : Enc) : renEnc f (a.append b) = (renEnc f a).append (renEnc f b) := by
  simp [renEnc, Enc.append]

theorem rn_intoLoop (f : Int → Int) (ns : NS) (wi : Option Int) (ty : Int) : ∀ (l : List Split) (k : Nat),
    intoLoop ns wi ty k (l.map (rnSplit f)) = (intoLoop ns wi ty k l).map (renEnc f)
  | [], k => rfl
  | s :: l, k => by
    simp only [List.map_cons, intoLoop]
    rw [show (rnSplit f s).offsets = s.offsets from rfl, rn_map]
    congr 1
    funext rng
    rw [rn_map]
    congr 1
    funext base
    rw [rn_intoLoop f ns wi ty l, rn_bind, rn_map]
    congr 1
    funext e
    refine congrArg Except.ok ?_
    rw [rn_append]
    congr 1
    simp only [rnSplit, List.map_map]
    generalize s.tokens = ts
    induction ts with
    | nil => rfl
    | cons x ts ih =>
      simp only [List.map_cons, List.foldr_cons, rn_append, ih]
      rfl

theorem rn_sliceI {α β : Type} (g : α → β) (l : List α) (a b : Int) : sliceI (l.map g) a b = (sliceI l a b).map (List.map g) := by
  unfold sliceI
  split
  · unfold slice
    simp only [List.length_map]
    split
    · simp [Except.map, List.map_take, List.map_drop]
    · rfl
  · rfl

theorem rn_window (f : Int → Int) (e : Enc) (r : Int × Int) : (renEnc f e).window r = (e.window r).map (renEnc f) := by
  unfold Enc.window
  rw [show (renEnc f e).ids = e.ids.map f from rfl, rn_sliceI, rn_bind, rn_map]
  congr 1
  funext ids
  simp only [rn_map]
  rfl

theorem rn_windows (f : Int → Int) (e : Enc) : ∀ l, windows (renEnc f e) l = (windows e l).map (List.map (renEnc f))
  | [] => rfl
  | r :: l => by
    simp only [windows]
    rw [rn_window, rn_bind, rn_map]
    congr 1
    funext x
    rw [rn_windows f e l, rn_bind, rn_map]
    rfl

theorem rn_truncate (f : Int → Int) (e : Encoding) (m s : Int) (d : TDir) : truncate (renEncoding f e) m s d = (truncate e m s d).map (renEncoding f) := by
  unfold truncate
  have hl : (renEncoding f e).ids.length = e.ids.length := by simp [renEncoding, renEnc]
  rw [hl]
  split
  · rfl
  split
  · rfl
  rw [rn_map]
  congr 1
  funext rs
  cases rs with
  | nil => rfl
  | cons r rs =>
    simp only
    rw [show (renEncoding f e).toEnc = renEnc f e.toEnc from rfl, rn_window, rn_bind, rn_map]
    congr 1
    funext x
    rw [rn_windows, rn_bind, rn_map]
    rfl

theorem rn_truncation (f : Int → Int) (t : Truncation) (e : Encoding) : t.run (renEncoding f e) = (t.run e).map (renEncoding f) := by
  unfold Truncation.run
  have hl : (renEncoding f e).ids.length = e.ids.length := by simp [renEncoding, renEnc]
  simp only [hl, rn_truncate]
  split
  · rfl
  split
  · rfl
  split
  · rfl
  · split <;> rfl
  · rfl

theorem rn_padEnc (f : Int → Int) (p : Padding) (n : Int) (e : Enc) :
    padEnc { p with padId := f p.padId } n (renEnc f e) = (padEnc p n e).map (renEnc f) := by
  unfold padEnc
  have hl : (renEnc f e).ids.length = e.ids.length := by simp [renEnc]
  simp only [hl]
  split
  · rfl
  · cases p.direction with
    | unknown => rfl
    | left =>
      simp only
      split
      · rfl
      · simp [Except.map, renEnc]
    | right =>
      simp only
      split
      · rfl
      · simp [Except.map, renEnc]

theorem rn_padAll (f : Int → Int) (p : Padding) (n : Int) : ∀ l : List Enc,
    padAll { p with padId := f p.padId } n (l.map (renEnc f)) = (padAll p n l).map (List.map (renEnc f))
  | [] => rfl
  | e :: l => by
    simp only [List.map_cons, padAll]
    rw [rn_padEnc, rn_bind, rn_map]
    congr 1
    funext x
    rw [rn_padAll f p n l, rn_bind, rn_map]
    rfl

theorem rn_padding (f : Int → Int) (p : Padding) (e : Encoding) :
    ({ p with padId := f p.padId } : Padding).run (renEncoding f e) = (p.run e).map (renEncoding f) := by
  have hl : (renEncoding f e).ids.length = e.ids.length := by simp [renEncoding, renEnc]
  unfold Padding.run pad
  rw [hl, show ({ p with padId := f p.padId } : Padding).target e.ids.length = p.target e.ids.length from rfl,
    show (renEncoding f e).overflowing = e.overflowing.map (renEnc f) from rfl, rn_padAll, rn_bind, rn_map]
  congr 1
  funext x
  rw [show (renEncoding f e).toEnc = renEnc f e.toEnc from rfl, rn_padEnc, rn_bind, rn_map]
  rfl

theorem rn_specialEnc (f : Int → Int) (l : List SpecialToken) (p : Piece) : specialEnc (l.map (renSpecial f)) p = renEnc f (specialEnc l p) := by
  unfold specialEnc
  have : (l.map (renSpecial f)).find? (fun s => s.id == p.id) = (l.find? fun s => s.id == p.id).map (renSpecial f) := by
    induction l with
    | nil => rfl
    | cons s l ih =>
      simp only [List.map_cons, List.find?_cons, show (renSpecial f s).id = s.id from rfl, ih]
      split <;> rfl
  rw [this]
  cases l.find? fun s => s.id == p.id with
  | none => rfl
  | some s => simp [renSpecial, renEnc]

theorem rn_templateParts (f : Int → Int) (l : List SpecialToken) (b : Bool) : ∀ (ps : List Piece) (e : Enc),
    templateParts (l.map (renSpecial f)) b ps (renEnc f e) = (templateParts l b ps e).map (renEnc f)
  | [], e => rfl
  | p :: ps, e => by
    simp only [templateParts]
    split
    · by_cases h : p.id = b!"A"
      · simp only [h, if_true, List.map_cons]
        rw [← rn_templateParts f l b ps]
        rfl
      · simp only [h, if_false, List.map_cons]
        rw [← rn_templateParts f l b ps]
    split
    · split
      · rw [List.map_cons, rn_specialEnc, ← rn_templateParts f l b ps]
      · exact rn_templateParts f l b ps e
    · exact rn_templateParts f l b ps e

theorem rn_processOffsets (f : Int → Int) (a : Bool) (e : Enc) : processOffsets a (renEnc f e) = (processOffsets a e).map (renEnc f) := by
  unfold processOffsets
  rw [show (renEnc f e).tokens = e.tokens from rfl, show (renEnc f e).ids.length = e.ids.length by simp [renEnc], show (renEnc f e).offsets = e.offsets from rfl,
    rn_map]
  rfl

theorem rn_processAll (f : Int → Int) (a : Bool) : ∀ l : List Enc, processAll a (l.map (renEnc f)) = (processAll a l).map (List.map (renEnc f))
  | [] => rfl
  | e :: l => by
    simp only [List.map_cons, processAll]
    rw [rn_processOffsets, rn_bind, rn_map]
    congr 1
    funext x
    rw [rn_processAll f a l, rn_bind, rn_map]
    rfl

mutual
theorem rn_post (f : Int → Int) (b : Bool) : (p : PostProcessor) → (e : Encoding) → (renPost f p).run b (renEncoding f e) = (p.run b e).map (renEncoding f)
  | .template s _ l, e => by
    simp only [renPost, PostProcessor.run, templateProcess, Except.map]
    rw [show (renEncoding f e).toEnc = renEnc f e.toEnc from rfl, rn_templateParts]
    have : ∀ (l : List Enc) (x : Enc), (l.map (renEnc f)).foldl Enc.append (renEnc f x) = renEnc f (l.foldl Enc.append x) := by
      intro l
      induction l with
      | nil => intro x; rfl
      | cons y l ih => intro x; simp only [List.map_cons, List.foldl_cons, ← rn_append]; exact ih _
    have h := this (templateParts l b s e.toEnc) {}
    rw [show renEnc f {} = {} from rfl] at h
    rw [h]
    rfl
  | .byteLevel a t, e => by
    simp only [renPost, PostProcessor.run, byteLevelProcess]
    cases t with
    | false => rfl
    | true =>
      simp only [if_true]
      rw [show (renEncoding f e).toEnc = renEnc f e.toEnc from rfl, rn_processOffsets, rn_bind, rn_map]
      congr 1
      funext x
      rw [show (renEncoding f e).overflowing = e.overflowing.map (renEnc f) from rfl, rn_processAll, rn_bind, rn_map]
      rfl
  | .seq l, e => by
    simp only [renPost, PostProcessor.run]
    exact rn_posts f b l e
theorem rn_posts (f : Int → Int) (b : Bool) : (l : List PostProcessor) → (e : Encoding) →
    PostProcessor.runList b (renPosts f l) (renEncoding f e) = (PostProcessor.runList b l e).map (renEncoding f)
  | [], e => rfl
  | p :: l, e => by
    simp only [renPosts, PostProcessor.runList]
    rw [rn_post f b p e, rn_bind, rn_map]
    congr 1
    funext x
    exact rn_posts f b l x
end

theorem rn_doPostProcess (f : Int → Int) (t : Tokenizer) (e : Encoding) (b : Bool) :
    (renumbered f t).doPostProcess (renEncoding f e) b = (t.doPostProcess e b).map (renEncoding f) := by
  unfold Tokenizer.doPostProcess
  have h3 : ∀ e, (match t.padding.map (fun p => ({ p with padId := f p.padId } : Padding)) with | some x => x.run (renEncoding f e) | none => .ok (renEncoding f e)) =
      (match t.padding with | some x => x.run e | none => .ok e : Res Encoding).map (renEncoding f) := by
    intro e
    cases t.padding with
    | none => rfl
    | some x => exact rn_padding f x e
  have h2 : ∀ e, ((match t.postProcessor.map (renPost f) with | some x => x.run b (renEncoding f e) | none => .ok (renEncoding f e)) >>= fun e =>
        (match t.padding.map (fun p => ({ p with padId := f p.padId } : Padding)) with | some x => x.run e | none => .ok e : Res Encoding)) =
      ((match t.postProcessor with | some x => x.run b e | none => .ok e) >>= fun e =>
        (match t.padding with | some x => x.run e | none => .ok e : Res Encoding)).map (renEncoding f) := by
    intro e
    cases t.postProcessor with
    | none => exact h3 e
    | some x =>
      simp only [Option.map_some]
      rw [rn_post, rn_bind, rn_map]
      congr 1
      funext e2
      exact h3 e2
  have goal : ((match t.truncation with | some x => x.run (renEncoding f e) | none => .ok (renEncoding f e)) >>= fun e =>
      (match t.postProcessor.map (renPost f) with | some x => x.run b e | none => .ok e) >>= fun e =>
        (match t.padding.map (fun p => ({ p with padId := f p.padId } : Padding)) with | some x => x.run e | none => .ok e : Res Encoding)) =
      ((match t.truncation with | some x => x.run e | none => .ok e) >>= fun e => (match t.postProcessor with | some x => x.run b e | none => .ok e) >>= fun e =>
        (match t.padding with | some x => x.run e | none => .ok e : Res Encoding)).map (renEncoding f) := by
    cases t.truncation with
    | none => exact h2 e
    | some x =>
      simp only
      rw [rn_truncation, rn_bind, rn_map]
      congr 1
      funext e1
      exact h2 e1
  rw [show (renumbered f t).truncation = t.truncation from rfl, show (renumbered f t).postProcessor = t.postProcessor.map (renPost f) from rfl,
    show (renumbered f t).padding = t.padding.map fun p => { p with padId := f p.padId } from rfl]
  cases ht : t.truncation <;> cases hpp : t.postProcessor <;> rw [ht, hpp] at goal <;> exact goal

/-- **C140** A tokenizer whose tokens got other numbers encodes every text in the same way, under the other numbers: the result
differs in the ids only, or is the same exception; and so does the tokenizer that is left for the next call. -/
theorem C140_encode {P : Platform} (hq : BlindToIds P.pq) {f : Int → Int} (hf : OneToOne f) (t : Tokenizer) (hu : UnknownKept f t) (w : WStr) (b : Bool) :
    (renumbered f t).encode P w b = ((t.encode P w b).1.map (renEncoding f), renumbered f (t.encode P w b).2) := by
  unfold Tokenizer.encode
  rw [rn_preTokenized hf]
  have hm : (t.preTokenized P w).2.model = t.model := by
    unfold Tokenizer.preTokenized
    cases PTS.ofNS (NS.ofText w) with
    | error e => rfl
    | ok p => cases t.added <;> rfl
  cases hp : t.preTokenized P w with
  | mk r t' =>
    rw [hp] at hm
    cases r with
    | error e => rfl
    | ok p =>
      simp only [Except.map]
      have hd : (renumbered f t').doTokenize P (rnPTS f p) = ((t'.doTokenize P p).1.map (renEncoding f), renumbered f (t'.doTokenize P p).2) := by
        have hi : ∀ p : PTS, intoEncoding (rnPTS f p) none 0 = (intoEncoding p none 0).map (renEncoding f) := by
          intro p
          unfold intoEncoding
          rw [show (rnPTS f p).normalized = p.normalized from rfl, show (rnPTS f p).splits = p.splits.map (rnSplit f) from rfl, rn_intoLoop, rn_bind, rn_map]
          rfl
        unfold Tokenizer.doTokenize
        cases hx : t'.model with
        | none =>
          simp only [renumbered, hx, Option.map_none, hi]
        | some m =>
          simp only [renumbered, hx, Option.map_some]
          rw [rn_model hf hq m (fun x h => hu x (by rw [← hm]; simp only [hx, h])), rn_bind, rn_map]
          simp only [hi]
      rw [hd]
      cases t'.doTokenize P p with
      | mk r' t'' =>
        cases r' with
        | error e => rfl
        | ok e =>
          simp only [Except.map]
          rw [rn_doPostProcess]
          rfl

/-- **C140** Decoding the renumbered ids gives the same text, or the same exception. -/
theorem C140_decode {f : Int → Int} (hf : OneToOne f) (t : Tokenizer) (ids : List Int) (skip : Bool) :
    (renumbered f t).decode (ids.map f) skip = t.decode ids skip := by
  have one : ∀ i, (renumbered f t).idToken (f i) = t.idToken i := by
    intro i
    unfold Tokenizer.idToken
    cases ha : t.added with
    | none => simp only [renumbered, ha, Option.map_none]
    | some a =>
      simp only [renumbered, ha, Option.map_some]
      have : (renAdded f a).idToToken (f i) = a.idToToken i := by
        unfold AddedVocab.idToToken
        rw [show (renAdded f a).mapR = a.mapR.map fun q => (f q.1, q.2) from rfl, rn_back hf]
      rw [this]
      cases a.idToToken i with
      | some s => rfl
      | none =>
        cases t.model with
        | none => rfl
        | some m =>
          simp only [Option.map_some]
          rw [show (renModel f m).vocab = renIds f m.vocab by cases m <;> rfl]
          unfold idToToken
          rw [rn_vocabR hf, rn_back hf]
  have sp : ∀ s, (renumbered f t).isSpecial s = t.isSpecial s := by
    intro s
    unfold Tokenizer.isSpecial
    cases ha : t.added <;> simp only [renumbered, ha, Option.map_none, Option.map_some]
    rfl
  have all : ∀ ids : List Int, (renumbered f t).idTokens skip (ids.map f) = t.idTokens skip ids := by
    intro ids
    induction ids with
    | nil => rfl
    | cons i ids ih =>
      simp only [List.map_cons, Tokenizer.idTokens, one, ih, sp]
  unfold Tokenizer.decode
  rw [all]
  rfl

/-! ### Adding tokens -/

theorem rn_assign {f : Int → Int} (hf : OneToOne f) (v : Vocab) (al : Bool) : ∀ (l : List AddedToken) (a : AddedVocab),
    (∀ x ∈ l, x.content = [] ∨ tokenToId v x.content ≠ none) →
    assignIds (some (renIds f v)) al l (renAdded f a) = (assignIds (some v) al l a).map (renAdded f)
  | [], a, _ => rfl
  | x :: l, a, h => by
    simp only [assignIds]
    have hl := fun y hy => h y (List.mem_cons_of_mem _ hy)
    split
    · exact rn_assign hf v al l a hl
    · rename_i hc
      have hid : newId (renAdded f a) (some (renIds f v)) x.content = (newId a (some v) x.content).map f := by
        unfold newId
        rw [show (renAdded f a).map = renIds f a.map from rfl, rn_ids_find]
        cases mapFind a.map x.content with
        | some i => rfl
        | none =>
          have := (h x (by simp)).resolve_left hc
          unfold tokenToId at this ⊢
          simp only [Option.map_none]
          rw [rn_ids_find]
          cases hv : mapFind v x.content with
          | none => exact absurd hv this
          | some i => rfl
      rw [hid, rn_bind, rn_map]
      congr 1
      funext i
      have e : ({ renAdded f a with map := mapSet (renAdded f a).map x.content (f i), mapR := mapSet (renAdded f a).mapR (f i) x } : AddedVocab) =
          renAdded f { a with map := mapSet a.map x.content i, mapR := mapSet a.mapR i x } := by
        unfold renAdded
        simp only [rn_ids_set, rn_back_set hf]
      rw [e]
      have hs : ∀ a : AddedVocab, (renAdded f a).isSpecial x.content = a.isSpecial x.content := fun a => rfl
      rw [hs]
      split
      · exact rn_assign hf v al l _ hl
      split
      · rfl
      · rw [← rn_assign hf v al l _ hl]
        congr 1
        unfold renAdded
        simp only [rn_ids_set, rn_back_set hf]

theorem rn_register (f : Int → Int) : ∀ (l : List AddedToken) (a : AddedVocab), registerSpecials l (renAdded f a) = renAdded f (registerSpecials l a)
  | [], a => rfl
  | x :: l, a => by
    simp only [registerSpecials]
    rw [show (renAdded f a).isSpecial x.content = a.isSpecial x.content from rfl]
    split
    · rw [← rn_register f l]
      rfl
    · exact rn_register f l a

theorem rn_trieOf (f : Int → Int) (v : Vocab) (n : Bool) (l : List AddedToken) : trieOf (renIds f v) n l = renIds f (trieOf v n l) := by
  unfold trieOf renIds
  rw [List.map_filterMap]
  congr 1
  funext x
  have := rn_ids_find f v x.content
  unfold renIds at this
  unfold tokenToId
  rw [this]
  cases mapFind v x.content with
  | none => rfl
  | some i =>
    simp only [Option.map_some]
    split <;> rfl

/-- **C140** Adding tokens that are entries of the vocabulary keeps the correspondence. -/
theorem C140_add {f : Int → Int} (hf : OneToOne f) (t : Tokenizer) {m : Model} (hm : t.model = some m) (l : List AddedToken)
    (hl : ∀ x ∈ l, x.content = [] ∨ tokenToId m.vocab x.content ≠ none) :
    (renumbered f t).addTokens l = (t.addTokens l).map fun r => (r.1, renumbered f r.2) := by
  unfold Tokenizer.addTokens
  cases ha : t.added with
  | none => simp only [renumbered, ha, Option.map_none]; rfl
  | some a =>
    simp only [renumbered, ha, hm, Option.map_some]
    rw [show (renModel f m).vocab = renIds f m.vocab by cases m <;> rfl]
    have : (renAdded f a).addTokens (some (renIds f m.vocab)) l = (a.addTokens (some m.vocab) l).map fun r => (r.1, renAdded f r.2) := by
      unfold AddedVocab.addTokens AddedVocab.addTokensCore
      rw [rn_register, rn_assign hf m.vocab false l _ hl, rn_bind, rn_map]
      congr 1
      funext a'
      unfold AddedVocab.refresh
      refine congrArg Except.ok ?_
      refine Prod.ext rfl ?_
      simp only [rn_trieOf, renAdded]
      simp only [renIds, List.map_append]
    rw [this, rn_bind, rn_map]
    rfl

/-! ### Building a model, and the queue -/

theorem rn_addMerge {f : Int → Int} (hf : OneToOne f) (v : Vocab) (pre : Str) (i : Nat) (line : Str) (l : Merges) :
    addMerge (renIds f v) pre i line (renMerges f l) = (addMerge v pre i line l).map (renMerges f) := by
  unfold addMerge
  cases readWord line with
  | none => rfl
  | some x =>
    obtain ⟨part1, rest⟩ := x
    simp only
    cases readWord rest with
    | none => rfl
    | some y =>
      obtain ⟨part2, z⟩ := y
      simp only [rn_ids_find]
      cases mapFind v part1 with
      | none => rfl
      | some a =>
        cases mapFind v part2 with
        | none => rfl
        | some b =>
          simp only [Option.map_some]
          rw [rn_map]
          congr 1
          funext tail
          cases mapFind v (part1 ++ tail) with
          | none => rfl
          | some n => exact congrArg Except.ok (rn_merges_insert hf l a b i n)

theorem rn_addMerges {f : Int → Int} (hf : OneToOne f) (v : Vocab) (pre : Str) : ∀ (lines : List Str) (i : Nat) (l : Merges),
    addMerges (renIds f v) pre i lines (renMerges f l) = (addMerges v pre i lines l).map (renMerges f)
  | [], i, l => rfl
  | line :: lines, i, l => by
    simp only [addMerges]
    rw [rn_addMerge hf, rn_bind, rn_map]
    congr 1
    funext m
    exact rn_addMerges hf v pre lines (i + 1) m

/-- **C140** A pair-merging model that is built from the renumbered vocabulary and the same lines of merges is the renumbered model. -/
theorem C140_build {f : Int → Int} (hf : OneToOne f) (v : Vocab) (lines : List Str) (d : Dropout) (unk pre suf : Str) (fuse fb ig : Bool) :
    BPE.make (renIds f v) lines d unk pre suf fuse fb ig = (BPE.make v lines d unk pre suf fuse fb ig).map (renBPE f) := by
  unfold BPE.make
  have := rn_addMerges hf v pre lines 0 []
  rw [show addMerges (renIds f v) pre 0 lines [] = (addMerges v pre 0 lines []).map (renMerges f) from this, rn_bind, rn_map]
  rfl

theorem rn_popMax (f : Int → Int) : ∀ l : List Merge, popMax (l.map (renMerge f)) = (popMax l).map fun r => (renMerge f r.1, r.2.map (renMerge f))
  | [] => rfl
  | m :: l => by
    simp only [List.map_cons, popMax]
    rw [rn_popMax f l]
    cases popMax l with
    | none => rfl
    | some x =>
      obtain ⟨x, r⟩ := x
      simp only [Option.map_some, show (renMerge f m).rank = m.rank from rfl, show (renMerge f x).rank = x.rank from rfl]
      split <;> rfl

/-- The queue of the concrete platforms does not look at ids. -/
theorem rn_listPQ : BlindToIds listPQ := fun f _ => ⟨fun l m => by simp [listPQ], fun l => rn_popMax f l⟩

/-! ### Examples -/

/-- Every number ten higher. -/
def rnPlusTen (i : Int) : Int := i + 10

theorem rn_ten : OneToOne rnPlusTen := fun i j h => by unfold rnPlusTen at h; omega

/-- A tokenizer with a template and padding. -/
def rnTk : Tokenizer :=
  { uncasedTk true true true true with
    postProcessor := some (.template [⟨b!"SpecialToken", b!"[X]", 0⟩, ⟨b!"Sequence", b!"A", 0⟩] [] [{ id := b!"[X]", ids := [4], tokens := [b!"[X]"] }])
    padding := some { direction := .right, strategy := .fixed, fixedSize := 6, padId := 0, padTypeId := 0, padToken := b!"[UNK]", padToMultipleOf := 1 } }

example : BlindToIds spacePlatform.pq ∧ UnknownKept rnPlusTen rnTk ∧
    (rnTk.encode spacePlatform w!"HELLOs [X]" true).1.map (·.ids) = .ok [4, 1, 2, 4, 0, 0] ∧
    ((renumbered rnPlusTen rnTk).encode spacePlatform w!"HELLOs [X]" true).1.map (·.ids) = .ok [14, 11, 12, 14, 10, 10] := by
  refine ⟨rn_listPQ, ?_, ?_, ?_⟩
  · intro m h
    cases Model.wordPiece.inj (Option.some.inj h)
    exact .inl (by decide)
  all_goals decide +kernel

example : (∀ x ∈ [({ content := b!"hello" } : AddedToken)], x.content = [] ∨
      tokenToId [(b!"[UNK]", 0), (b!"hello", 1), (b!"##s", 2), (b!"\u4e2d", 3), (b!"[X]", 4), (b!"b", 5), (b!"e", 6)] x.content ≠ none) ∧
    (rnTk.addTokens [{ content := b!"hello" }]).bind (fun r => r.2.idToken 1) = .ok b!"hello" ∧
    ((renumbered rnPlusTen rnTk).addTokens [{ content := b!"hello" }]).bind (fun r => r.2.idToken 11) = .ok b!"hello" := by
  refine ⟨?_, ?_, ?_⟩ <;> decide +kernel

/-- Numbers at one's own risk: a word-piece model whose unknown token is missing reports 0 whatever the numbers are — which may be another token's —
and a token that is added without being in the vocabulary gets the size of the vocabulary as its number, which a vocabulary numbered from 2 already uses:
from then on the text of that token decodes to the added one. -/
theorem C140_violated :
    (∃ t : Tokenizer, (t.encode ascii w!"zz" true).1.map (·.ids) = .ok [0] ∧
      ((renumbered rnPlusTen t).encode ascii w!"zz" true).1.map (·.ids) = .ok [0]) ∧
    (∃ (t : Tokenizer) (x : AddedToken), OneToOne (fun i => i + 2) ∧
      (t.addTokens [x]).bind (fun r => r.2.decode [0] false) = .ok b!"a" ∧
      ((renumbered (fun i => i + 2) t).addTokens [x]).bind (fun r => r.2.decode [2] false) = .ok b!"n") := by
  refine ⟨⟨{ uncasedTk true true true true with model := some (.wordPiece { vocab := [(b!"a", 0)], unkToken := b!"[UNK]", maxChars := 100, pre := b!"##" }) }, ?_, ?_⟩,
    ⟨{ added := some (AddedVocab.init []), decoder := some (.wordPiece b!"##" false),
       model := some (.wordPiece { vocab := [(b!"a", 0), (b!"b", 1)], unkToken := b!"b", maxChars := 100, pre := b!"##" }) }, { content := b!"n" }, ?_, ?_, ?_⟩⟩
  rotate_left 2
  · intro i j h
    simp only at h
    omega
  all_goals decide +kernel

end Tok
