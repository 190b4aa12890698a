import Verif.Spec.Java
import Verif.Props.Independent
import Verif.Props.Config
import Verif.Props.Inputs
import Verif.Props.Cli

set_option autoImplicit false

/-!
C98: tokenizers used from Java do not influence each other, and earlier calls do not matter.
C99: the memory of a tokenizer is never given back.  C100: what the demonstration app shows.
-/

namespace Tok
open Spec

theorem jv_made {P : Platform} {src : Source} {t : Tokenizer} (h : Tokenizer.make P src = .ok t) :
    Constructed t ∧ ∀ m, t.model = some (.bpe m) → m.cache = [] := by
  cases src with
  | bothEmpty => cases h
  | unreadable => cases h
  | document doc =>
    have h0 := h
    simp only [Tokenizer.make] at h
    cases hp : parseSections P doc.depth doc with
    | error e => rw [hp] at h; cases e <;> cases h
    | ok t0 =>
      rw [hp] at h
      refine ⟨?_, ?_⟩
      · have hd := parse_sound P doc t0 hp
        rcases describes_added hd with ha | ⟨l, ha⟩
        · exact ⟨t0, none, ha, h⟩
        · exact ⟨t0, some l, ha, h⟩
      · intro m hm
        have hmod : t0.model = some (.bpe m) := by
          have hf := finish_fields (show t0.finish = .ok t from h)
          rw [hf]; exact hm
        unfold parseSections at hp
        obtain ⟨_, _, hp⟩ := res_bind_ok.1 hp
        obtain ⟨_, _, hp⟩ := res_bind_ok.1 hp
        obtain ⟨_, _, hp⟩ := res_bind_ok.1 hp
        obtain ⟨_, _, hp⟩ := res_bind_ok.1 hp
        obtain ⟨_, _, hp⟩ := res_bind_ok.1 hp
        obtain ⟨model, hmo, hp⟩ := res_bind_ok.1 hp
        obtain ⟨_, _, hp⟩ := res_bind_ok.1 hp
        obtain ⟨_, _, hp⟩ := res_bind_ok.1 hp
        cases hp
        simp only at hmod
        subst hmod
        unfold section' at hmo
        obtain ⟨j, hj, hmo⟩ := res_bind_ok.1 hmo
        have hmo : withModel P j = .ok (some (.bpe m)) := by
          cases j <;> first | exact hmo | cases hmo
        unfold withModel at hmo
        obtain ⟨_, _, hmo⟩ := res_bind_ok.1 hmo
        obtain ⟨ty, _, hmo⟩ := res_bind_ok.1 hmo
        obtain ⟨vocab, _, hmo⟩ := res_bind_ok.1 hmo
        by_cases h1 : ty = b!"WordPiece"
        · rw [if_pos h1] at hmo
          obtain ⟨_, _, hmo⟩ := res_bind_ok.1 hmo
          obtain ⟨_, _, hmo⟩ := res_bind_ok.1 hmo
          obtain ⟨_, _, hmo⟩ := res_bind_ok.1 hmo
          cases hmo
        · rw [if_neg h1] at hmo
          by_cases h2 : ty = b!"BPE"
          · rw [if_pos h2] at hmo
            obtain ⟨_, _, hmo⟩ := res_bind_ok.1 hmo
            obtain ⟨_, _, hmo⟩ := res_bind_ok.1 hmo
            obtain ⟨_, _, hmo⟩ := res_bind_ok.1 hmo
            obtain ⟨_, _, hmo⟩ := res_bind_ok.1 hmo
            obtain ⟨_, _, hmo⟩ := res_bind_ok.1 hmo
            obtain ⟨_, _, hmo⟩ := res_bind_ok.1 hmo
            obtain ⟨_, _, hmo⟩ := res_bind_ok.1 hmo
            obtain ⟨_, _, hmo⟩ := res_bind_ok.1 hmo
            obtain ⟨b, hb, hmo⟩ := res_bind_ok.1 hmo
            cases hmo
            exact (make_fields hb).2.2.2.2.2.2.2.2
          · rw [if_neg h2] at hmo
            cases hmo

/-- Every native object is what some calls of `encode` and `decode` left of the tokenizer that the constructor made of its
configuration. -/
def JInv (P : Platform) (read : Str → Source) (configs : List U16) (p : JProcess) : Prop :=
  p.native.length = configs.length ∧
  ∀ (h : Nat) (config : U16) (t : Tokenizer), configs[h]? = some config → p.native[h]? = some t →
    ∃ t0 cs, Tokenizer.make P (javaSource read config) = .ok t0 ∧ History P t0 cs t ∧ cs.filter Call.adds = []

theorem jv_append {P : Platform} {t t' t'' : Tokenizer} {cs cs' : List Call} (h : History P t cs t')
    (h' : History P t' cs' t'') : History P t (cs ++ cs') t'' := by
  induction h with
  | nil => exact h'
  | cons h1 _ ih => exact .cons h1 (ih h')

theorem jv_call {P : Platform} {read : Str → Source} {configs : List U16} {p p' : JProcess} {c : JCall} {r : JReply}
    (hi : JInv P read configs p) (h : p.call P read c = .ok (r, p')) : JInv P read (configs ++ created [c]) p' := by
  obtain ⟨h1, h2⟩ := hi
  cases c with
  | new config =>
    simp only [JProcess.call] at h
    obtain ⟨t, ht, h⟩ := res_bind_ok.1 h
    cases h
    refine ⟨by simp [created, h1], ?_⟩
    intro k cfg u hk hu
    simp only [created] at hk
    by_cases hlt : k < configs.length
    · rw [List.getElem?_append_left hlt] at hk
      rw [List.getElem?_append_left (by omega)] at hu
      exact h2 k cfg u hk hu
    · rw [List.getElem?_append_right (by omega)] at hk hu
      have : k - configs.length = 0 := by
        have := (List.getElem?_eq_some_iff.1 hk).1
        simp at this; omega
      rw [this] at hk
      rw [h1, this] at hu
      simp at hk hu
      subst hk hu
      exact ⟨_, [], ht, .nil _, rfl⟩
  | encode obj text b =>
    simp only [JProcess.call] at h
    obtain ⟨t, ht, h⟩ := res_bind_ok.1 h
    obtain ⟨ids, _, h⟩ := res_bind_ok.1 h
    cases h
    simp only [created, List.append_nil]
    refine ⟨by simpa using h1, ?_⟩
    intro k cfg u hk hu
    unfold vecAt at ht
    by_cases hko : obj = k
    · subst hko
      cases hg : p.native[obj]? with
      | none => rw [hg] at ht; cases ht
      | some t1 =>
        rw [hg] at ht
        cases ht
        have hlt := (List.getElem?_eq_some_iff.1 hg).1
        simp only [List.getElem?_set_self hlt, Option.some.injEq] at hu
        subst hu
        obtain ⟨t0, cs, e1, e2, e3⟩ := h2 obj cfg t hk hg
        exact ⟨t0, cs ++ [.encode text b], e1, jv_append e2 (.cons (.encode _ _ _) (.nil _)), by simp [e3, Call.adds]⟩
    · simp only [List.getElem?_set_ne hko] at hu
      exact h2 k cfg u hk hu
  | decode obj ids skip =>
    simp only [JProcess.call] at h
    obtain ⟨t, ht, h⟩ := res_bind_ok.1 h
    obtain ⟨s, _, h⟩ := res_bind_ok.1 h
    cases h
    simp only [created, List.append_nil]
    exact ⟨h1, h2⟩
  | collect obj =>
    simp only [JProcess.call] at h
    cases h
    simp only [created, List.append_nil]
    exact ⟨h1, h2⟩

theorem jv_created (c : JCall) (cs : List JCall) : created (c :: cs) = created [c] ++ created cs := by
  cases c <;> rfl

theorem jv_session {P : Platform} {read : Str → Source} : ∀ {cs : List JCall} {configs : List U16} {p p' : JProcess}
    {rs : List JReply}, JInv P read configs p → p.session P read cs = .ok (rs, p') →
    JInv P read (configs ++ created cs) p'
  | [], configs, p, p', rs, hi, h => by
    cases h
    simpa [created] using hi
  | c :: cs, configs, p, p', rs, hi, h => by
    simp only [JProcess.session] at h
    obtain ⟨⟨r, p1⟩, h1, h⟩ := res_bind_ok.1 h
    obtain ⟨⟨rs1, p2⟩, h2, h⟩ := res_bind_ok.1 h
    cases h
    have := jv_session (jv_call hi h1) h2
    rw [jv_created, ← List.append_assoc]
    exact this

theorem jv_start (P : Platform) (read : Str → Source) : JInv P read [] {} := ⟨rfl, fun h c t hk => by simp at hk⟩

theorem jv_object {P : Platform} {read : Str → Source} {cs : List JCall} {rs : List JReply} {p : JProcess}
    (h : ({} : JProcess).session P read cs = .ok (rs, p)) {obj : Nat} {config : U16}
    (hc : (created cs)[obj]? = some config) :
    ∃ t0 t hs, Tokenizer.make P (javaSource read config) = .ok t0 ∧ p.native[obj]? = some t ∧ History P t0 hs t ∧
      hs.filter Call.adds = [] := by
  obtain ⟨h1, h2⟩ := jv_session (jv_start P read) h
  simp only [List.nil_append] at h1 h2
  have hlt := (List.getElem?_eq_some_iff.1 hc).1
  obtain ⟨t0, hs, e1, e2, e3⟩ := h2 obj config _ hc (List.getElem?_eq_getElem (by omega))
  exact ⟨t0, _, hs, e1, List.getElem?_eq_getElem (by omega), e2, e3⟩

/-- **C98** (encode).  In every session, whatever tokenizers were created, used or let go before: `encode` on an object
answers as in a process that creates this tokenizer only and makes this call only - also when it fails. -/
theorem C98_encode (P : Platform) (read : Str → Source) {cs : List JCall} {rs : List JReply} {p : JProcess}
    (h : ({} : JProcess).session P read cs = .ok (rs, p)) {obj : Nat} {config : U16}
    (hc : (created cs)[obj]? = some config) (text : U16) (b : Bool) :
    (p.call P read (.encode obj text b)).map (·.1) = alone P read config fun o => .encode o text b := by
  obtain ⟨t0, t, hs, e1, e2, e3, e4⟩ := jv_object h hc
  have hnew := (jv_made e1).2
  have hsame := C47_encode P t0 hnew e3 (.nil t0) (by rw [e4]; rfl) text b
  simp only [alone, JProcess.call, e1, res_ok_bind, vecAt, e2, List.nil_append, List.length_nil,
    List.getElem?_cons_zero, Tokenizer.encodeJava, hsame, res_pure]
  cases (t0.encode P text b).1 <;> rfl

/-- **C98** (decode).  The same for `decode`, if the vocabulary has no empty token. -/
theorem C98_decode (P : Platform) (read : Str → Source) {cs : List JCall} {rs : List JReply} {p : JProcess}
    (h : ({} : JProcess).session P read cs = .ok (rs, p)) {obj : Nat} {config : U16}
    (hc : (created cs)[obj]? = some config)
    (hempty : ∀ t, Tokenizer.make P (javaSource read config) = .ok t → modelId t [] = none)
    (ids : List Int) (skip : Bool) :
    (p.call P read (.decode obj ids skip)).map (·.1) = alone P read config fun o => .decode o ids skip := by
  obtain ⟨t0, t, hs, e1, e2, e3, e4⟩ := jv_object h hc
  obtain ⟨hcon, hnew⟩ := jv_made e1
  have hsame := C47_decode P t0 hcon hnew (hempty _ e1) e3 (.nil t0) (by rw [e4]; rfl) ids skip
  simp only [alone, JProcess.call, e1, res_ok_bind, vecAt, e2, List.nil_append, List.length_nil,
    List.getElem?_cons_zero, Tokenizer.decodeJava, hsame, res_pure]
  cases t0.decode ids skip with
  | error e => rfl
  | ok s =>
    simp only [res_ok_bind]
    cases newStringUTF s <;> rfl

/-- **C98** (construction).  Creating a tokenizer does not depend on what happened before either: it succeeds or fails as
in a new process, and gives a new object. -/
theorem C98_new (P : Platform) (read : Str → Source) (p : JProcess) (config : U16) :
    (p.call P read (.new config)).map (·.1) =
      (({} : JProcess).call P read (.new config)).map fun _ => JReply.object p.native.length := by
  simp only [JProcess.call]
  cases Tokenizer.make P (javaSource read config) <;> rfl

/-- **C99** What becomes of the native objects: there are as many as were created, whatever was let go. -/
theorem C99_never_freed (P : Platform) (read : Str → Source) {cs : List JCall} {rs : List JReply} {p : JProcess}
    (h : ({} : JProcess).session P read cs = .ok (rs, p)) : p.native.length = (created cs).length := by
  have := (jv_session (jv_start P read) h).1
  simpa using this

theorem jv_concat {P : Platform} {read : Str → Source} : ∀ {cs ds : List JCall} {p p' p'' : JProcess} {rs ss : List JReply},
    p.session P read cs = .ok (rs, p') → p'.session P read ds = .ok (ss, p'') →
    p.session P read (cs ++ ds) = .ok (rs ++ ss, p'')
  | [], ds, p, p', p'', rs, ss, h, h' => by cases h; exact h'
  | c :: cs, ds, p, p', p'', rs, ss, h, h' => by
    simp only [JProcess.session] at h
    obtain ⟨⟨r, p1⟩, h1, h⟩ := res_bind_ok.1 h
    obtain ⟨⟨rs1, p2⟩, h2, h⟩ := res_bind_ok.1 h
    cases h
    simp only [List.cons_append, JProcess.session, h1, res_ok_bind, jv_concat h2 h', res_pure]

/-- **C99 is violated**: a program that creates a tokenizer and lets it go, `n` times, keeps no object and occupies the
memory of `n` tokenizers. -/
theorem C99_violated (P : Platform) (read : Str → Source) (config : U16) (t : Tokenizer)
    (ht : Tokenizer.make P (javaSource read config) = .ok t) (n : Nat) :
    ∃ cs rs p, ({} : JProcess).session P read cs = .ok (rs, p) ∧ p.alive = [] ∧ p.native = List.replicate n t := by
  induction n with
  | zero => exact ⟨[], [], {}, rfl, rfl, rfl⟩
  | succ n ih =>
    obtain ⟨cs, rs, p, h1, h2, h3⟩ := ih
    have h4 : p.session P read [.new config, .collect n] =
        .ok ([.object n, .done], { native := p.native ++ [t], alive := [] }) := by
      simp only [JProcess.session, JProcess.call, ht, res_ok_bind, res_pure, h2, h3, List.length_replicate]
      simp
    exact ⟨_, _, _, jv_concat h1 h4, rfl, by simp only [h3]; rw [List.replicate_succ']⟩

/-! ### The demonstration app -/

theorem jv_list (ids : List Int) : kotlinList ids = b!"[" ++ commaSeparated (ids.map decimal) ++ b!"]" := by
  have h : ∀ (r : List Int) (i : Int),
      decimal i ++ r.flatMap (fun j => b!", " ++ decimal j) = commaSeparated ((i :: r).map decimal) := by
    intro r
    induction r with
    | nil => intro i; simp [commaSeparated]
    | cons j r ih =>
      intro i
      have := ih j
      simp only [List.map_cons, List.flatMap_cons, commaSeparated, List.append_assoc] at this ⊢
      rw [this]
  cases ids with
  | nil => rfl
  | cons i r =>
    simp only [kotlinList, List.append_assoc]
    rw [← List.append_assoc (decimal i), h r i]

theorem jv_clicks {P : Platform} {t0 : Tokenizer} (hcon : Constructed t0) (hnew : ∀ m, t0.model = some (.bpe m) → m.cache = [])
    (hempty : modelId t0 [] = none) : ∀ (inputs : List U16) (p : JProcess) (t : Tokenizer) (hs : List Call),
    p.native = [t] → History P t0 hs t → hs.filter Call.adds = [] →
    p.clicks P 0 inputs = mapRes (shown P t0) inputs
  | [], p, t, hs, hp, hh, ha => rfl
  | x :: xs, p, t, hs, hp, hh, ha => by
    have e1 := C47_encode P t0 hnew hh (.nil t0) (by rw [ha]; rfl) x true
    have hh' : History P t0 (hs ++ [.encode x true]) (t.encode P x true).2 :=
      jv_append hh (.cons (.encode _ _ _) (.nil _))
    have ha' : (hs ++ [Call.encode x true]).filter Call.adds = [] := by simp [ha, Call.adds]
    have e2 := fun ids => C47_decode P t0 hcon hnew hempty hh' (.nil t0) (by rw [ha']; rfl) ids false
    simp only [JProcess.clicks, JProcess.click, mapRes, hp, vecAt, List.getElem?_cons_zero, res_ok_bind,
      Tokenizer.encodeJava, shown, e1, List.set_cons_zero, Tokenizer.decodeJava, e2, res_pure, jv_list]
    cases (t0.encode P x true).1 with
    | error e => rfl
    | ok enc =>
      simp only [res_ok_bind]
      cases t0.decode enc.ids false with
      | error e => rfl
      | ok d =>
        simp only [res_ok_bind]
        cases newStringUTF d with
        | error e => rfl
        | ok u =>
          simp only [res_ok_bind]
          rw [jv_clicks hcon hnew hempty xs _ _ _ rfl hh' ha']
          simp only [List.append_assoc, List.cons_append, List.nil_append]

/-- **C100** The demonstration app shows after every click what a new tokenizer gives for the input, however many inputs
there were before; it ends at the first input for which that fails. -/
theorem C100_app (P : Platform) (read : Str → Source) (config : U16) (t : Tokenizer)
    (ht : Tokenizer.make P (javaSource read config) = .ok t) (hempty : modelId t [] = none) (inputs : List U16) :
    demoApp P read config inputs = mapRes (shown P t) inputs := by
  obtain ⟨hcon, hnew⟩ := jv_made ht
  simp only [demoApp, JProcess.call, ht, res_ok_bind, res_pure]
  exact jv_clicks hcon hnew hempty inputs _ t [] rfl (.nil t) rfl

/-- **C100 is violated by the empty input**: if the configuration lists added tokens, a click without any text ends the
app, whatever was clicked before. -/
theorem C100_empty (P : Platform) (read : Str → Source) (config : U16) (t : Tokenizer) (a : AddedVocab)
    (ht : Tokenizer.make P (javaSource read config) = .ok t) (ha : t.added = some a) (hempty : modelId t [] = none)
    (before after : List U16) (outs : List U16) : demoApp P read config (before ++ [] :: after) ≠ .ok outs := by
  rw [C100_app P read config t ht hempty]
  obtain ⟨e, he, -⟩ := C53_violated P t true a ha
  have hs : shown P t [] = .error e := by
    simp only [shown, Tokenizer.encodeJava, he, res_error_bind]
  induction before generalizing outs with
  | nil =>
    intro h
    simp only [List.nil_append, mapRes, hs, res_error_bind] at h
    cases h
  | cons x xs ih =>
    intro h
    simp only [List.cons_append, mapRes] at h
    obtain ⟨o, _, h⟩ := res_bind_ok.1 h
    obtain ⟨os, h1, _⟩ := res_bind_ok.1 h
    exact ih os h1

-- A session with two tokenizers; the second object is let go, the first still answers.
example : (({} : JProcess).session ascii (fun _ => .document runDoc)
    [.new w!"x", .new w!"y", .encode 1 w!"play" false, .collect 1, .encode 0 w!"playing" true, .decode 0 [3, 4] false]).map (·.1) =
    .ok [.object 0, .object 1, .ids [3], .done, .ids [1, 3, 4, 2], .text w!"playing"] := by decide +kernel
example : (created [.new w!"x", .new w!"y", .encode 1 w!"play" false, .collect 1])[0]? = some w!"x" := rfl
-- The app.
example : demoApp ascii (fun _ => .document runDoc) w!"x" [w!"playing", w!"play"] =
    .ok [w!"Encoded: [1, 3, 4, 2]\nDecoded: [CLS] playing [SEP]", w!"Encoded: [1, 3, 2]\nDecoded: [CLS] play [SEP]"] := by
  decide +kernel
example : (Tokenizer.make ascii (javaSource (fun _ => .document runDoc) w!"x")).map (fun t => (modelId t [], t.added.isSome)) =
    .ok (none, true) := by decide +kernel

end Tok
