import Verif.Proofs.BPESym
import Verif.Proofs.Maps
import Verif.Spec.BPE

set_option autoImplicit false

/-!
Lemmas on the constructor of `BPE`: the merge table read off the merge list.
-/

namespace Tok
open Spec

theorem isspaceC_iff (c : Nat) : isspaceC c = true ↔ BlankByte c := by
  simp [isspaceC, BlankByte]; try omega

theorem takeWhile_append_drop {α : Type} (p : α → Bool) (l : List α) :
    l.takeWhile p ++ l.dropWhile p = l := List.takeWhile_append_dropWhile

theorem dropWhile_head {α : Type} (p : α → Bool) (l : List α) (a : α) (h : (l.dropWhile p).head? = some a) :
    p a = false := by
  induction l with
  | nil => simp at h
  | cons x r ih =>
    simp only [List.dropWhile_cons] at h
    split at h
    · exact ih h
    · rename_i hx; simp at h; subst h; simpa using hx

theorem mem_takeWhile' {α : Type} (p : α → Bool) (l : List α) (a : α) (h : a ∈ l.takeWhile p) : p a = true := by
  induction l with
  | nil => simp at h
  | cons x r ih =>
    simp only [List.takeWhile_cons] at h
    split at h
    · rename_i hx
      simp at h; rcases h with rfl | h
      · exact hx
      · exact ih h
    · simp at h

theorem takeWhile_exact {α : Type} (p : α → Bool) (a r : List α) (h : ∀ x ∈ a, p x = true)
    (hr : ∀ x, r.head? = some x → p x = false) : (a ++ r).takeWhile p = a ∧ (a ++ r).dropWhile p = r := by
  induction a with
  | nil =>
    cases r with
    | nil => simp
    | cons x r => have := hr x rfl; simp [this]
  | cons x a ih =>
    have hx := h x (by simp)
    have := ih (fun y hy => h y (by simp [hy]))
    simp [hx, this]

theorem readWord_some {s p rest : Str} : readWord s = some (p, rest) ↔
    ∃ b, s = b ++ p ++ rest ∧ p ≠ [] ∧ (∀ c ∈ b, BlankByte c) ∧ (∀ c ∈ p, ¬ BlankByte c) ∧
      (∀ c, rest.head? = some c → BlankByte c) := by
  constructor
  · intro h
    unfold readWord at h
    split at h
    · cases h
    · rename_i t ht
      simp only [Option.some.injEq, Prod.mk.injEq] at h
      obtain ⟨rfl, rfl⟩ := h
      refine ⟨s.takeWhile isspaceC, ?_, ?_, ?_, ?_, ?_⟩
      · rw [List.append_assoc, takeWhile_append_drop, takeWhile_append_drop]
      · intro h
        cases hd : s.dropWhile isspaceC with
        | nil => exact ht hd
        | cons x r =>
          have := dropWhile_head isspaceC s x (by rw [hd]; rfl)
          rw [hd, List.takeWhile_cons] at h
          simp [this] at h
      · intro c hc; exact (isspaceC_iff c).1 (mem_takeWhile' _ _ _ hc)
      · intro c hc hb
        have := mem_takeWhile' _ _ _ hc
        rw [(isspaceC_iff c).2 hb] at this; simp at this
      · intro c hc
        have := dropWhile_head _ _ _ hc
        exact (isspaceC_iff c).1 (by simpa using this)
  · rintro ⟨b, rfl, hp, hb, hnp, hr⟩
    obtain ⟨x, p', rfl⟩ : ∃ x p', p = x :: p' := by
      cases p with
      | nil => exact absurd rfl hp
      | cons x p' => exact ⟨x, p', rfl⟩
    have h1 := takeWhile_exact isspaceC b (x :: p' ++ rest) (fun c hc => (isspaceC_iff c).2 (hb c hc)) (by
      intro y hy; simp at hy; subst hy
      have := hnp x (by simp)
      cases he : isspaceC x with
      | false => rfl
      | true => exact absurd ((isspaceC_iff x).1 he) this)
    have h2 := takeWhile_exact (fun c => !isspaceC c) (x :: p') rest (by
      intro c hc
      have := hnp c hc
      cases he : isspaceC c with
      | false => rfl
      | true => exact absurd ((isspaceC_iff c).1 he) this) (by
      intro c hc; simp [(isspaceC_iff c).2 (hr c hc)])
    unfold readWord
    rw [List.append_assoc, h1.2]
    split
    · rename_i h; simp at h
    · rename_i h; rw [h2.1, h2.2]

theorem readWord_none {s : Str} (h : readWord s = none) : ∀ c ∈ s, BlankByte c := by
  unfold readWord at h
  split at h
  · rename_i hd
    have := takeWhile_append_drop isspaceC s
    rw [hd, List.append_nil] at this
    intro c hc; rw [← this] at hc
    exact (isspaceC_iff c).1 (mem_takeWhile' _ _ _ hc)
  · cases h

/-- The two fields the constructor reads. -/
theorem fields_iff (line p q : Str) : Fields line p q ↔
    ∃ rest rest', readWord line = some (p, rest) ∧ readWord rest = some (q, rest') := by
  constructor
  · rintro ⟨b1, b2, rest, rfl, hp, hq, hb2, h1, h2, h3, h4, h5⟩
    refine ⟨b2 ++ q ++ rest, rest, ?_, ?_⟩
    · rw [readWord_some]
      refine ⟨b1, by simp, hp, h1, h2, ?_⟩
      intro c hc
      cases b2 with
      | nil => exact absurd rfl hb2
      | cons x b2 => simp at hc; subst hc; exact h3 _ (by simp)
    · rw [readWord_some]
      exact ⟨b2, rfl, hq, h3, h4, h5⟩
  · rintro ⟨rest, rest', h1, h2⟩
    rw [readWord_some] at h1 h2
    obtain ⟨b1, rfl, hp, hb1, hnp, hr⟩ := h1
    obtain ⟨b2, rfl, hq, hb2, hnq, hr'⟩ := h2
    refine ⟨b1, b2, rest', by simp, hp, hq, ?_, hb1, hnp, hb2, hnq, hr'⟩
    intro h; subst h
    cases q with
    | nil => exact hq rfl
    | cons x q => exact hnq x (by simp) (hr x (by simp))

theorem fields_unique {line p q p' q' : Str} (h : Fields line p q) (h' : Fields line p' q') :
    p = p' ∧ q = q' := by
  obtain ⟨r1, r2, a1, a2⟩ := (fields_iff _ _ _).1 h
  obtain ⟨r1', r2', b1, b2⟩ := (fields_iff _ _ _).1 h'
  rw [a1] at b1; simp at b1; obtain ⟨rfl, rfl⟩ := b1
  rw [a2] at b2; simp at b2; exact ⟨rfl, b2.1⟩

/-- One line. -/
def LineSays (V : Str → Option Int) (pre line : Str) (a b new : Int) : Prop :=
  ∃ p q, Fields line p q ∧ V p = some a ∧ V q = some b ∧ V (p ++ q.drop pre.length) = some new

theorem lineSays_unique {V : Str → Option Int} {pre line : Str} {a b n a' b' n' : Int}
    (h : LineSays V pre line a b n) (h' : LineSays V pre line a' b' n') : a = a' ∧ b = b' ∧ n = n' := by
  obtain ⟨p, q, f, h1, h2, h3⟩ := h
  obtain ⟨p', q', f', h1', h2', h3'⟩ := h'
  obtain ⟨rfl, rfl⟩ := fields_unique f f'
  rw [h1] at h1'; rw [h2] at h2'; rw [h3] at h3'
  simp at h1' h2' h3'; exact ⟨h1', h2', h3'⟩

theorem addMerge_spec {vocab : Vocab} {pre : Str} {i : Nat} {line : Str} {merges merges' : Merges}
    (h : addMerge vocab pre i line merges = .ok merges') :
    (∃ a b n, LineSays (tokenToId vocab) pre line a b n ∧ merges' = mapInsert merges (a, b) ((i : Int), n)) ∨
    ((∀ a b n, ¬ LineSays (tokenToId vocab) pre line a b n) ∧ merges' = merges) := by
  unfold addMerge at h
  split at h
  · rename_i h1
    cases h; right
    refine ⟨?_, rfl⟩
    rintro a b n ⟨p, q, f, _⟩
    obtain ⟨_, _, a1, _⟩ := (fields_iff _ _ _).1 f
    rw [h1] at a1; cases a1
  · rename_i p rest h1
    split at h
    · rename_i h2
      cases h; right
      refine ⟨?_, rfl⟩
      rintro a b n ⟨p, q, f, _⟩
      obtain ⟨_, _, a1, a2⟩ := (fields_iff _ _ _).1 f
      rw [h1] at a1; simp at a1; obtain ⟨rfl, rfl⟩ := a1
      rw [h2] at a2; cases a2
    · rename_i q rest' h2
      have hf : Fields line p q := (fields_iff _ _ _).2 ⟨_, _, h1, h2⟩
      split at h
      · rename_i a b ha hb
        have htail : (∃ t, mergeTail pre q = .ok t ∧ t = q.drop pre.length) ∨
            mergeTail pre q = .error (.throws .outOfRange) := by
          unfold mergeTail
          split
          · split
            · exact .inl ⟨_, rfl, rfl⟩
            · exact .inr rfl
          · rename_i h0; simp at h0; exact .inl ⟨q, rfl, by simp [h0]⟩
        rcases htail with ⟨t, ht, ht'⟩ | ht
        · rw [ht, res_ok_bind] at h
          split at h
          · rename_i n hn
            cases h; left
            exact ⟨a, b, n, ⟨p, q, hf, ha, hb, by rw [← ht']; exact hn⟩, rfl⟩
          · rename_i hn
            cases h; right
            refine ⟨?_, rfl⟩
            rintro a' b' n ⟨p', q', f, _, _, h3⟩
            obtain ⟨rfl, rfl⟩ := fields_unique hf f
            rw [← ht', tokenToId, hn] at h3; cases h3
        · rw [ht] at h; cases h
      · rename_i hab
        cases h; right
        refine ⟨?_, rfl⟩
        rintro a b n ⟨p', q', f, h3, h4, _⟩
        obtain ⟨rfl, rfl⟩ := fields_unique hf f
        exact hab a b h3 h4

theorem mapFind_insert {κ ν : Type} [DecidableEq κ] (m : List (κ × ν)) (k k' : κ) (v : ν) :
    mapFind (mapInsert m k v) k' =
      if k = k' then (match mapFind m k with | some w => some w | none => some v) else mapFind m k' := by
  unfold mapInsert
  split
  · rename_i w h
    split
    · rename_i e; subst e; simp [h]
    · rfl
  · rename_i h
    rw [mapFind_append]
    split
    · rename_i e; subst e; simp [h, mapFind]
    · rename_i e; simp [mapFind, e]

theorem addMerges_spec {vocab : Vocab} {pre : Str} {lines : List Str} :
    ∀ {i : Nat} {merges merges' : Merges}, addMerges vocab pre i lines merges = .ok merges' →
    ∀ a b r n, mapFind merges' (a, b) = some (r, n) ↔
      mapFind merges (a, b) = some (r, n) ∨
      (mapFind merges (a, b) = none ∧ ∃ k, r = ((i + k : Nat) : Int) ∧
        Listed (tokenToId vocab) pre lines k a b n) := by
  induction lines with
  | nil =>
    intro i merges merges' h a b r n
    cases h
    constructor
    · exact .inl
    · rintro (h | ⟨_, k, _, ⟨⟨line, p, q, hl, _⟩, _⟩⟩)
      · exact h
      · simp at hl
  | cons line lines ih =>
    intro i merges merges' h a b r n
    simp only [addMerges] at h
    obtain ⟨m1, h1, h2⟩ := res_bind_ok.1 h
    rw [ih h2]
    have hsays : ∀ k a b n, Says (tokenToId vocab) pre (line :: lines) (k + 1) a b n ↔
        Says (tokenToId vocab) pre lines k a b n := by intro k a b n; simp [Says]
    have hsays0 : ∀ a b n, Says (tokenToId vocab) pre (line :: lines) 0 a b n ↔
        LineSays (tokenToId vocab) pre line a b n := by
      intro a b n
      simp only [Says, LineSays, List.getElem?_cons_zero, Option.some.injEq]
      constructor
      · rintro ⟨l, p, q, rfl, h⟩; exact ⟨p, q, h⟩
      · rintro ⟨p, q, h⟩; exact ⟨line, p, q, rfl, h⟩
    -- lines after the first, when the first one is about something else
    have hlater : (∀ n', ¬ LineSays (tokenToId vocab) pre line a b n') →
        ((∃ k, r = ((i + 1 + k : Nat) : Int) ∧ Listed (tokenToId vocab) pre lines k a b n) ↔
         ∃ k, r = ((i + k : Nat) : Int) ∧ Listed (tokenToId vocab) pre (line :: lines) k a b n) := by
      intro hno
      constructor
      · rintro ⟨k, rfl, hk, hmin⟩
        refine ⟨k + 1, by congr 1; omega, (hsays k a b n).2 hk, ?_⟩
        intro r' n' hr
        cases r' with
        | zero => exact absurd ((hsays0 _ _ _).1 hr) (hno n')
        | succ r' => have := hmin r' n' ((hsays r' a b n').1 hr); omega
      · rintro ⟨k, rfl, hk, hmin⟩
        cases k with
        | zero => exact absurd ((hsays0 _ _ _).1 hk) (hno n)
        | succ k =>
          refine ⟨k, by congr 1; omega, (hsays k a b n).1 hk, ?_⟩
          intro r' n' hr
          have := hmin (r' + 1) n' ((hsays r' a b n').2 hr); omega
    rcases addMerge_spec h1 with ⟨a0, b0, n0, hs, rfl⟩ | ⟨hno, rfl⟩
    · rw [mapFind_insert]
      by_cases hab : (a0, b0) = (a, b)
      · simp at hab; obtain ⟨rfl, rfl⟩ := hab
        rw [if_pos rfl]
        cases hm : mapFind merges (a0, b0) with
        | some w => simp
        | none =>
          simp only [Option.some.injEq, Prod.mk.injEq, reduceCtorEq, false_and, or_false, false_or, true_and]
          constructor
          · rintro ⟨rfl, rfl⟩
            exact ⟨0, by simp, (hsays0 _ _ _).2 hs, fun _ _ _ => Nat.zero_le _⟩
          · rintro ⟨k, rfl, hk, hmin⟩
            have hk0 := hmin 0 n0 ((hsays0 _ _ _).2 hs)
            have : k = 0 := by omega
            subst this
            have := (hsays0 _ _ _).1 hk
            exact ⟨by simp, (lineSays_unique hs this).2.2⟩
      · rw [if_neg hab]
        have hno : ∀ n', ¬ LineSays (tokenToId vocab) pre line a b n' := by
          intro n' hn'
          obtain ⟨rfl, rfl, _⟩ := lineSays_unique hs hn'
          exact hab rfl
        rw [hlater hno]
    · rw [hlater (fun n' => hno a b n')]

/-- The merge table of a constructed model. -/
theorem make_merges {vocab : Vocab} {lines : List Str} {d : Dropout} {unk pre suf : Str} {f bf ig : Bool} {m : BPE}
    (h : BPE.make vocab lines d unk pre suf f bf ig = .ok m) (a b : Int) (r n : Int) :
    mapFind m.merges (a, b) = some (r, n) ↔ ∃ k : Nat, r = k ∧ Listed (tokenToId m.vocab) m.pre lines k a b n := by
  unfold BPE.make at h
  obtain ⟨merges, h1, h2⟩ := res_bind_ok.1 h
  cases h2
  have := addMerges_spec h1 a b r n
  simp only [mapFind, reduceCtorEq, false_or, true_and, Nat.zero_add] at this
  exact this

theorem make_fields {vocab : Vocab} {lines : List Str} {d : Dropout} {unk pre suf : Str} {f bf ig : Bool} {m : BPE}
    (h : BPE.make vocab lines d unk pre suf f bf ig = .ok m) :
    m.vocab = vocab ∧ m.dropout = d ∧ m.unkToken = unk ∧ m.pre = pre ∧ m.suf = suf ∧ m.fuseUnk = f ∧
      m.byteFallback = bf ∧ m.ignoreMerges = ig ∧ m.cache = [] := by
  unfold BPE.make at h
  obtain ⟨merges, h1, h2⟩ := res_bind_ok.1 h
  cases h2
  exact ⟨rfl, rfl, rfl, rfl, rfl, rfl, rfl, rfl, rfl⟩

end Tok
