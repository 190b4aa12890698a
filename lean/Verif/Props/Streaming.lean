import Verif.Props.Decoder
import Verif.Proofs.ByteLevel

set_option autoImplicit false

/-!
C71: decoding ids as they arrive.
-/

namespace Tok.Spec
open Tok

mutual
/-- The decoder has no ByteLevel member. -/
def NoBytes : Decoder → Prop
  | .byteLevel => False
  | .seq l => NoBytesList l
  | _ => True
def NoBytesList : List Decoder → Prop
  | [] => True
  | d :: r => NoBytes d ∧ NoBytesList r
end

mutual
/-- A ByteLevel member, if any, comes last. -/
def BytesLast : Decoder → Prop
  | .seq l => BytesLastList l
  | _ => True
def BytesLastList : List Decoder → Prop
  | [] => True
  | [d] => BytesLast d
  | d :: r => NoBytes d ∧ BytesLastList r
end

end Tok.Spec

namespace Tok
open Spec

theorem wpDecodeLoop_append (pre : Str) (c : Bool) : ∀ (a b : List Str) (i : Nat) (x y : List Str),
    wpDecodeLoop pre c i a = .ok x → wpDecodeLoop pre c i (a ++ b) = .ok y → x <+: y := by
  intro a
  induction a with
  | nil => intro b i x y h _; cases h; exact List.nil_prefix
  | cons t a ih =>
    intro b i x y h h'
    simp only [wpDecodeLoop, List.cons_append] at h h'
    obtain ⟨u, hu, h⟩ := res_bind_ok.1 h
    obtain ⟨u', hu', h'⟩ := res_bind_ok.1 h'
    obtain ⟨v, hv, h⟩ := res_bind_ok.1 h
    obtain ⟨v', hv', h'⟩ := res_bind_ok.1 h'
    rw [hu] at hu'; cases hu'; cases h; cases h'
    exact List.cons_prefix_cons.2 ⟨rfl, ih b _ _ _ hv hv'⟩

mutual
theorem noBytes_prefix : ∀ (d : Decoder), NoBytes d → ∀ (a b x y : List Str), a <+: b → d.run a = .ok x → d.run b = .ok y → x <+: y
  | .wordPiece p c, _, a, b, x, y, hab, h, h' => by
    obtain ⟨r, rfl⟩ := hab
    simp only [Decoder.run] at h h'
    exact wpDecodeLoop_append p c a r 0 x y h h'
  | .replace _ _, _, a, b, x, y, _, h, h' => by simp only [Decoder.run] at h h'; cases h; exact List.nil_prefix
  | .byteFallback, _, a, b, x, y, _, h, h' => by simp only [Decoder.run] at h h'; cases h; exact List.nil_prefix
  | .fuse, _, a, b, x, y, _, h, h' => by simp only [Decoder.run] at h h'; cases h; exact List.nil_prefix
  | .strip _ _ _, _, a, b, x, y, _, h, h' => by simp only [Decoder.run] at h h'; cases h; exact List.nil_prefix
  | .byteLevel, hd, a, b, x, y, _, h, h' => by cases hd
  | .seq l, hd, a, b, x, y, hab, h, h' => by
    simp only [Decoder.run] at h h'
    exact noBytesList_prefix l hd a b x y hab h h'
theorem noBytesList_prefix : ∀ (l : List Decoder), NoBytesList l → ∀ (a b x y : List Str), a <+: b → Decoder.runList l a = .ok x →
    Decoder.runList l b = .ok y → x <+: y
  | [], _, a, b, x, y, hab, h, h' => by
    simp only [Decoder.runList] at h h'; cases h; cases h'; exact hab
  | d :: r, hd, a, b, x, y, hab, h, h' => by
    simp only [Decoder.runList] at h h'
    obtain ⟨u, hu, h⟩ := res_bind_ok.1 h
    obtain ⟨u', hu', h'⟩ := res_bind_ok.1 h'
    exact noBytesList_prefix r hd.2 u u' x y (noBytes_prefix d hd.1 a b u u' hab hu hu') h h'
end

theorem flatten_prefix {a b : List Str} (h : a <+: b) : a.flatten <+: b.flatten := by
  obtain ⟨r, rfl⟩ := h
  rw [List.flatten_append]; exact List.prefix_append _ _

mutual
theorem bytesLast_prefix : ∀ (d : Decoder), BytesLast d → ∀ (a b x y : List Str), a <+: b → d.run a = .ok x → d.run b = .ok y →
    x.flatten <+: y.flatten
  | .wordPiece p c, _, a, b, x, y, hab, h, h' => flatten_prefix (noBytes_prefix (.wordPiece p c) trivial a b x y hab h h')
  | .replace p c, _, a, b, x, y, hab, h, h' => flatten_prefix (noBytes_prefix (.replace p c) trivial a b x y hab h h')
  | .byteFallback, _, a, b, x, y, hab, h, h' => flatten_prefix (noBytes_prefix .byteFallback trivial a b x y hab h h')
  | .fuse, _, a, b, x, y, hab, h, h' => flatten_prefix (noBytes_prefix .fuse trivial a b x y hab h h')
  | .strip p c e, _, a, b, x, y, hab, h, h' => flatten_prefix (noBytes_prefix (.strip p c e) trivial a b x y hab h h')
  | .byteLevel, _, a, b, x, y, hab, h, h' => by
    obtain ⟨r, rfl⟩ := hab
    simp only [Decoder.run] at h h'; cases h; cases h'
    simp only [byteLevelDecode, List.flatten_cons, List.flatten_nil, List.append_nil, List.flatMap_append]
    exact List.prefix_append _ _
  | .seq l, hd, a, b, x, y, hab, h, h' => by
    simp only [Decoder.run] at h h'
    exact bytesLastList_prefix l hd a b x y hab h h'
theorem bytesLastList_prefix : ∀ (l : List Decoder), BytesLastList l → ∀ (a b x y : List Str), a <+: b →
    Decoder.runList l a = .ok x → Decoder.runList l b = .ok y → x.flatten <+: y.flatten
  | [], _, a, b, x, y, hab, h, h' => by
    simp only [Decoder.runList] at h h'; cases h; cases h'; exact flatten_prefix hab
  | [d], hd, a, b, x, y, hab, h, h' => by
    simp only [Decoder.runList] at h h'
    obtain ⟨u, hu, h⟩ := res_bind_ok.1 h
    obtain ⟨u', hu', h'⟩ := res_bind_ok.1 h'
    cases h; cases h'
    exact bytesLast_prefix d hd a b _ _ hab hu hu'
  | d :: e :: r, hd, a, b, x, y, hab, h, h' => by
    rw [Decoder.runList] at h h'
    obtain ⟨u, hu, h⟩ := res_bind_ok.1 h
    obtain ⟨u', hu', h'⟩ := res_bind_ok.1 h'
    exact bytesLastList_prefix (e :: r) hd.2 u u' x y (noBytes_prefix d hd.1 a b u u' hab hu hu') h h'
end

theorem idTokens_append (t : Tokenizer) (skip : Bool) : ∀ (a b : List Int) (y : List Str), t.idTokens skip (a ++ b) = .ok y →
    ∃ x z, t.idTokens skip a = .ok x ∧ t.idTokens skip b = .ok z ∧ y = x ++ z := by
  intro a
  induction a with
  | nil => intro b y h; exact ⟨[], y, rfl, h, rfl⟩
  | cons i a ih =>
    intro b y h
    simp only [Tokenizer.idTokens, List.cons_append] at h ⊢
    obtain ⟨s, hs, h⟩ := res_bind_ok.1 h
    obtain ⟨r, hr, h⟩ := res_bind_ok.1 h
    obtain ⟨x, z, hx, hz, rfl⟩ := ih b r hr
    cases h
    refine ⟨_, z, by rw [hs, res_ok_bind, hx, res_ok_bind]; rfl, hz, ?_⟩
    by_cases hc : (!skip || !t.isSpecial s) = true
    · simp only [hc, if_true, List.cons_append]
    · simp only [hc]; rfl

theorem idTokens_both (t : Tokenizer) (skip : Bool) : ∀ (a b : List Int) (x z : List Str), t.idTokens skip a = .ok x →
    t.idTokens skip b = .ok z → t.idTokens skip (a ++ b) = .ok (x ++ z) := by
  intro a
  induction a with
  | nil => intro b x z h h'; cases h; exact h'
  | cons i a ih =>
    intro b x z h h'
    simp only [Tokenizer.idTokens, List.cons_append] at h ⊢
    obtain ⟨s, hs, h⟩ := res_bind_ok.1 h
    obtain ⟨r, hr, h⟩ := res_bind_ok.1 h
    cases h
    rw [hs, res_ok_bind, ih b r z hr h', res_ok_bind]
    by_cases hc : (!skip || !t.isSpecial s) = true
    · simp only [hc, if_true, List.cons_append]; rfl
    · simp only [hc]; rfl

/-- **C71** When more ids are decoded, the text only grows at its end: the text of the first ids is a prefix of the
text of all of them.  If all the ids can be decoded, so can the first ones. -/
theorem C71_prefix (t : Tokenizer) (d : Decoder) (hd : t.decoder = some d) (hl : BytesLast d) (a b : List Int) (skip : Bool)
    (s' : Str) (h : t.decode (a ++ b) skip = .ok s') : ∃ s, t.decode a skip = .ok s ∧ s <+: s' := by
  simp only [Tokenizer.decode, hd] at h ⊢
  obtain ⟨y, hy, h⟩ := res_bind_ok.1 h
  obtain ⟨x, z, hx, hz, rfl⟩ := idTokens_append t skip a b y hy
  obtain ⟨v, hv, h⟩ := res_bind_ok.1 h
  cases h
  obtain ⟨u, hu⟩ := C49_decoder_total d x
  rw [hx, res_ok_bind, hu]
  exact ⟨_, rfl, bytesLast_prefix d hl x (x ++ z) u v (List.prefix_append _ _) hu hv⟩

/-- **C71** With the ByteLevel decoder the pieces may be decoded separately and joined. -/
theorem C71_concat (t : Tokenizer) (hd : t.decoder = some .byteLevel) (a b : List Int) (skip : Bool) (s s' : Str)
    (h : t.decode a skip = .ok s) (h' : t.decode b skip = .ok s') : t.decode (a ++ b) skip = .ok (s ++ s') := by
  simp only [Tokenizer.decode, hd] at h h' ⊢
  obtain ⟨x, hx, h⟩ := res_bind_ok.1 h
  obtain ⟨z, hz, h'⟩ := res_bind_ok.1 h'
  rw [idTokens_both t skip a b x z hx hz, res_ok_bind]
  simp only [Decoder.run, res_ok_bind, byteLevelDecode] at h h' ⊢
  cases h; cases h'
  simp only [concat, List.flatten_cons, List.flatten_nil, List.append_nil, List.flatMap_append]
  rfl

theorem decode_of {t : Tokenizer} {d : Decoder} (hd : t.decoder = some d) {ids : List Int} {skip : Bool} {ts : List Str}
    (h : t.idTokens skip ids = .ok ts) {y : Str} (h2 : d.run ts = .ok [y]) : t.decode ids skip = .ok y := by
  simp only [Tokenizer.decode, h, res_ok_bind, hd, h2, concat, List.flatten_cons, List.flatten_nil, List.append_nil]
  rfl

/-- A tokenizer with the vocabulary `he`, `##llo`, `Ġ.`, ` .` and the given decoder. -/
def streamTk (d : Decoder) : Tokenizer :=
  { model := some (.wordPiece { vocab := [(b!"he", 0), (b!"##llo", 1), (b!" ", 2), (b!".", 3)], unkToken := b!"[UNK]", maxChars := 100, pre := b!"##" })
    added := some (AddedVocab.init [])
    decoder := some d }

-- the hypotheses are met: `he`, then `hello`, then `hello .`
example : (streamTk (.wordPiece b!"##" false)).decode [0] true = .ok b!"he" ∧
    (streamTk (.wordPiece b!"##" false)).decode [0, 1] true = .ok b!"hello" ∧
    (streamTk (.wordPiece b!"##" false)).decode [0, 1, 3] true = .ok b!"hello ." ∧ BytesLast (.wordPiece b!"##" false) := by
  refine ⟨?_, ?_, ?_, trivial⟩ <;> decide +kernel
example : BytesLast (.seq [.wordPiece b!"##" true, .byteLevel]) := ⟨trivial, trivial⟩

/-- The order matters: cleaning up after the bytes have been joined can change text that was already there (a space
disappears when a full stop arrives). -/
theorem C71_order_needed :
    (streamTk (.seq [.byteLevel, .wordPiece b!"##" true])).decode [0, 2] true = .ok b!"he " ∧
    (streamTk (.seq [.byteLevel, .wordPiece b!"##" true])).decode [0, 2, 3] true = .ok b!"he." := by
  have h1 : decodeBytes b!"he" = b!"he" := decodeBytes_small (w := b!"he") (by decide)
  have h2 : decodeBytes b!" " = b!" " := decodeBytes_small (w := b!" ") (by decide)
  have h3 : decodeBytes b!"." = b!"." := decodeBytes_small (w := b!".") (by decide)
  have t1 : ∀ d, (streamTk d).idTokens true [0, 2] = .ok [b!"he", b!" "] := fun _ => rfl
  have t2 : ∀ d, (streamTk d).idTokens true [0, 2, 3] = .ok [b!"he", b!" ", b!"."] := fun _ => rfl
  have c1 : wpDecodeLoop b!"##" true 0 [b!"he "] = .ok [b!"he "] := by decide +kernel
  have c2 : wpDecodeLoop b!"##" true 0 [b!"he ."] = .ok [b!"he."] := by decide +kernel
  have run : ∀ (ts : List Str) (x y : Str), ts.flatMap decodeBytes = x → wpDecodeLoop b!"##" true 0 [x] = .ok [y] →
      (Decoder.seq [.byteLevel, .wordPiece b!"##" true]).run ts = .ok [y] := by
    intro ts x y hx hy
    simp only [Decoder.run, Decoder.runList, byteLevelDecode, hx, res_ok_bind, hy]
  have e1 : [b!"he", b!" "].flatMap decodeBytes = b!"he " := by
    simp only [List.flatMap_cons, List.flatMap_nil, h1, h2]; decide
  have e2 : [b!"he", b!" ", b!"."].flatMap decodeBytes = b!"he ." := by
    simp only [List.flatMap_cons, List.flatMap_nil, h1, h2, h3]; decide
  exact ⟨decode_of rfl (t1 _) (run _ _ _ e1 c1), decode_of rfl (t2 _) (run _ _ _ e2 c2)⟩

end Tok
