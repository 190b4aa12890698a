import Verif.Common

set_option autoImplicit false

/-
`include/tokenizers/normalizer.h`, `src/normalizer.cpp`.
-/

namespace Tok

/-- The four Unicode normal forms, implemented by ICU. -/
inductive NFKind | nfc | nfd | nfkc | nfkd
  deriving DecidableEq, Repr

/-- Services of ICU, libc and the C++ runtime that the library calls and the model does
not define.  All theorems quantify over them. -/
structure Platform where
  /-- `std::iswspace` in the current locale -/
  iswspace : Nat → Bool
  /-- `std::iswcntrl` in the current locale -/
  iswcntrl : Nat → Bool
  /-- `std::towlower` in the current locale -/
  towlower : Nat → Nat
  /-- `u_charType(c) == U_NON_SPACING_MARK` -/
  isNSM : Nat → Bool
  /-- `icu::Normalizer::normalize` on a sequence of scalar values -/
  nf : NFKind → WStr → WStr
  /-- `std::wregex` compilation and `std::wsregex_iterator`: match positions and
  lengths; `none` when the pattern does not compile -/
  wregex : WStr → Option (WStr → List (Nat × Nat))
  /-- ICU regex compilation and the `find` loop: match start/end pairs in UTF-16 units;
  `none` when the pattern does not compile -/
  regex : Str → Option (U16 → List (Nat × Nat))
  /-- the ICU regex class `\s` -/
  reSpace : Nat → Bool
  /-- the ICU regex class `\p{P}` -/
  rePunct : Nat → Bool
  /-- is plain `char` signed (x86) or unsigned (ARM Linux/Android) -/
  charSigned : Bool
  /-- `std::priority_queue<Merge>` -/
  pq : PQ
  /-- the float comparisons made for a dropout written as this JSON number -/
  dropout : Str → Dropout

/-- `normalizer.h:37-48` `NormalizedString`: the text, for each UTF-8 byte of the text
the original position, and for each UTF-16 unit of the text its byte start and byte
count. -/
structure NS where
  normalized : WStr
  offsets : List (Nat × Nat)
  ranges : List (Nat × Nat)
  deriving DecidableEq, Repr

/-- Running sums: consecutive `(first, second)` pairs with the given lengths. -/
def mkRanges : Nat → List Nat → List (Nat × Nat)
  | _, [] => []
  | idx, k :: r => (idx, k) :: mkRanges (idx + k) r

/-- `k` copies of `(i, i+1)` for the `i`-th length `k`. -/
def mkOffsets : Nat → List Nat → List (Nat × Nat)
  | _, [] => []
  | i, k :: r => List.replicate k (i, i + 1) ++ mkOffsets (i + 1) r

/-- `normalizer.cpp:51-55`: the byte length of the code point found at each UTF-16
unit. -/
def unitLens (u : U16) : List Nat :=
  (List.range u.length).map fun i => (utf8Enc1 (sanitize (char32At u i))).length

/-- `normalizer.cpp:45-62` constructor `NormalizedString(std::wstring)`.  The loop over
UTF-16 units is expressed by `unitLens` (what it appends per unit) and running sums. -/
def NS.ofText (w : WStr) : NS :=
  let lens := unitLens (fromUTF32 w)
  { normalized := w, offsets := mkOffsets 0 lens, ranges := mkRanges 0 lens }

/-- The operation names accepted by `NormalizedString::transform`. -/
inductive TOp | erase | pad | grow | shrink | add | replace
  deriving DecidableEq, Repr

/-- `normalizer.cpp:204-250` `NormalizedString::transform(i, op, n)`.  Every vector
access is bounds-checked to expose undefined behaviour. -/
def NS.transform (s : NS) (i : Nat) (op : TOp) (n : Nat) : Res NS := do
  let (start, limit) ← vecAt s.ranges i
  match op with
  | .erase =>
    let offsets ← eraseRange s.offsets start (start + limit)
    let ranges ← eraseRange s.ranges i (i + 1)
    return { s with offsets, ranges }
  | .pad =>
    let o ← vecAt s.offsets start
    let offsets ← insertAt s.offsets start [o, o]
    let rest := s.ranges.drop (i + 1)
    return { s with
      offsets
      ranges := s.ranges.take i ++ [(start, 1), (start + 1, limit), (start + limit + 1, 1)]
                ++ mkRanges (start + limit + 2) (rest.map (·.2)) }
  | .grow =>
    return { s with
      ranges := s.ranges.take i ++ [(start, 1), (start + 1, 1)] ++ s.ranges.drop (i + 1) }
  | .shrink =>
    return { s with ranges := s.ranges.take i ++ s.ranges.drop (i + 1) }
  | .add =>
    let o ← vecAt s.offsets start
    let offsets ← insertAt s.offsets start (List.replicate n o)
    return { s with
      offsets
      ranges := s.ranges.take i ++ [(start, n), (start + n, limit)]
                ++ mkRanges (start + n + limit) ((s.ranges.drop (i + 1)).map (·.2)) }
  | .replace =>
    let o ← vecAt s.offsets start
    -- `std::vector(n - 1, …)` with n = 0 asks for 2^64 - 1 elements
    if n = 0 then .error (.throws .lengthError)
    else
      let offsets ← insertAt s.offsets start (List.replicate (n - 1) o)
      return { s with
        offsets
        ranges := s.ranges.take i ++ [(start, n)]
                  ++ mkRanges (start + n) ((s.ranges.drop (i + 1)).map (·.2)) }

/-- `normalizer.cpp:179-194`: the loop that renumbers the offsets of the inserted part.
`prev` is the previous original pair, `last` the previous new pair. -/
def regroup (prev last : Nat × Nat) : List (Nat × Nat) → List (Nat × Nat)
  | [] => []
  | o :: r =>
    if prev = o then last :: regroup prev last r
    else (last.2, last.2 + 1) :: regroup o (last.2, last.2 + 1) r

/-- `normalizer.cpp:152-202` `NormalizedString::transform_range`. -/
def NS.transformRange (s : NS) (oStart oEnd : Nat) (sub : NS) : Res NS := do
  let (offStart, _) ← vecAt s.ranges oStart
  let (offEnd, _) ← if oEnd = s.ranges.length then vecAt s.ranges (oEnd - 1)
                    else vecAt s.ranges oEnd
  let head := mkRanges offStart (sub.ranges.map (·.2))
  let rest := s.ranges.drop oEnd
  -- `new_offset_ranges[j - 1]` with an empty vector
  if head = [] ∧ rest ≠ [] then .error (.ub .outOfBounds)
  else
    let headLen := (sub.ranges.map (·.2)).sum
    let newRanges := head ++ mkRanges (offStart + headLen) (rest.map (·.2))
    let newOffsets ← match sub.offsets with
      | [] => .ok []
      | o :: r => do
        let first ← vecAt s.offsets offStart
        .ok (first :: regroup o first r)
    let erased ← eraseRange s.offsets offStart offEnd
    let offsets ← insertAt erased offStart newOffsets
    return { s with offsets, ranges := s.ranges.take oStart ++ newRanges }

/-- `normalizer.cpp:271-280` (repeated in NFC/NFD/NFKC/NFKD): walk both strings, on a
mismatch remember the old index and skip two new characters. -/
def growIds : Nat → WStr → WStr → List Nat
  | oi, o :: os, r :: rs =>
    if o = r then growIds (oi + 1) os rs else oi :: growIds (oi + 1) os (rs.drop 1)
  | _, _, _ => []

/-- `normalizer.cpp:281-285`: apply `grow` at each remembered index, shifted by the
number of growths so far. -/
def applyGrow : List Nat → Nat → NS → Res NS
  | [], _, s => .ok s
  | i :: r, multi, s => do applyGrow r (multi + 1) (← s.transform (i + multi) .grow 0)

/-- `normalizer.cpp:254-288, 292-326, 330-364, 368-402`: the four normal forms.
Simplification: ICU never reports an error for text made of scalar values, so the
`throw` after `U_FAILURE` is not modelled. -/
def nfNormalize (P : Platform) (k : NFKind) (s : NS) : Res NS := do
  let result := P.nf k (s.normalized.map sanitize)
  let s' ← applyGrow (growIds 0 s.normalized result) 0 s
  return { s' with normalized := result }

/-- `normalizer.cpp:427-436` `is_whitespace(wchar_t)`. -/
def isWhitespaceW (P : Platform) (c : Nat) : Bool :=
  if c = 9 ∨ c = 10 ∨ c = 13 then true else P.iswspace c

/-- `normalizer.cpp:438-447` `is_control(wchar_t)`. -/
def isControlW (P : Platform) (c : Nat) : Bool :=
  if c = 9 ∨ c = 10 ∨ c = 13 then false else P.iswcntrl c

/-- `normalizer.cpp:449-454` `is_chinese_char(wchar_t)`. -/
def isChineseChar (c : Nat) : Bool :=
  (0x4E00 ≤ c && c ≤ 0x9FFF) || (0x3400 ≤ c && c ≤ 0x4DBF) ||
  (0x20000 ≤ c && c ≤ 0x2A6DF) || (0x2A700 ≤ c && c ≤ 0x2B73F) ||
  (0x2B740 ≤ c && c ≤ 0x2B81F) || (0x2B920 ≤ c && c ≤ 0x2CEAF) ||
  (0xF900 ≤ c && c ≤ 0xFAFF) || (0x2F800 ≤ c && c ≤ 0x2FA1F)

/-- `normalizer.cpp:459-470`: the loop of `do_clean_text`; the index `i` passed to
`transform` is the position in the *original* text. -/
def cleanLoop (P : Platform) : WStr → Nat → WStr → NS → Res (WStr × NS)
  | [], _, acc, s => .ok (acc, s)
  | c :: r, i, acc, s =>
    if c ≠ 0 ∧ c ≠ 0xFFFD ∧ isControlW P c = false then
      cleanLoop P r (i + 1) (acc ++ [if isWhitespaceW P c then 0x20 else c]) s
    else do
      let s' ← s.transform i .erase 0
      cleanLoop P r (i + 1) acc s'

/-- `normalizer.cpp:456-473` `BertNormalizer::do_clean_text`. -/
def doCleanText (P : Platform) (s : NS) : Res NS := do
  let (result, s') ← cleanLoop P s.normalized 0 [] s
  return { s' with normalized := result }

/-- `normalizer.cpp:480-488`: the vector `new_chars` of (character, change) pairs;
the change is 0 (overwrite) or 1 (insert). -/
def chineseChanges : WStr → List (Nat × Nat)
  | [] => []
  | c :: r =>
    if isChineseChar c then (0x20, 0) :: (c, 1) :: (0x20, 1) :: chineseChanges r
    else (c, 0) :: chineseChanges r

/-- `normalizer.cpp:480-488`: the vector `transform_ids`. -/
def chineseIds : Nat → WStr → List Nat
  | _, [] => []
  | i, c :: r => if isChineseChar c then i :: chineseIds (i + 1) r else chineseIds (i + 1) r

/-- `normalizer.cpp:489-494`. -/
def applyPad : List Nat → Nat → NS → Res NS
  | [], _, s => .ok s
  | ti :: r, multi, s => do applyPad r (multi + 2) (← s.transform (ti + multi) .pad 0)

/-- `normalizer.cpp:496-507`: replay the changes on the string at running index `i`.
`std::wstring::insert` throws past the end; writing `result[i]` past the end is
undefined.  The branch `change.second < 0` is unreachable (changes are 0 or 1). -/
def replayChanges : List (Nat × Nat) → Nat → WStr → Res WStr
  | [], _, result => .ok result
  | (ch, k) :: r, i, result =>
    if k > 0 then
      if i ≤ result.length then replayChanges r (i + 1) (result.take i ++ ch :: result.drop i)
      else .error (.throws .outOfRange)
    else if i < result.length then replayChanges r (i + 1) (result.set i ch)
    else .error (.ub .outOfBounds)

/-- `normalizer.cpp:475-510` `BertNormalizer::do_handle_chinese_chars`. -/
def doHandleChineseChars (s : NS) : Res NS := do
  let s' ← applyPad (chineseIds 0 s.normalized) 0 s
  let result ← replayChanges (chineseChanges s.normalized) 0 s'.normalized
  return { s' with normalized := result }

/-- `normalizer.cpp:515-524`: positions of the non-spacing marks. -/
def nsmIds (P : Platform) : Nat → WStr → List Nat
  | _, [] => []
  | i, c :: r => if P.isNSM c then i :: nsmIds P (i + 1) r else nsmIds P (i + 1) r

/-- `normalizer.cpp:525-529`: `shrink` at each index, shifted by the number already
removed.  `multi` is negated here: `id + multi` in C++ is `id - removed`. -/
def applyShrink : List Nat → Nat → NS → Res NS
  | [], _, s => .ok s
  | i :: r, removed, s => do applyShrink r (removed + 1) (← s.transform (i - removed) .shrink 0)

/-- `normalizer.cpp:512-532` `BertNormalizer::do_strip_accents`. -/
def doStripAccents (P : Platform) (s : NS) : Res NS := do
  let d ← nfNormalize P .nfd s
  let d' ← applyShrink (nsmIds P 0 d.normalized) 0 d
  return { d' with normalized := d.normalized.filter fun c => !P.isNSM c }

/-- `normalizer.cpp:534-539` `BertNormalizer::do_lowercase`. -/
def doLowercase (P : Platform) (s : NS) : NS :=
  { s with normalized := s.normalized.map P.towlower }

/-- `normalizer.cpp:411-425` `BertNormalizer::normalize`. -/
def bertNormalize (P : Platform) (cleanText handleChinese stripAccents lowercase : Bool)
    (s : NS) : Res NS := do
  let s ← if cleanText then doCleanText P s else .ok s
  let s ← if handleChinese then doHandleChineseChars s else .ok s
  let s ← if stripAccents || lowercase then doStripAccents P s else .ok s
  return if lowercase then doLowercase P s else s

/-- `normalizer.cpp:558-563` `Prepend::normalize`. -/
def prependNormalize (pre : Str) (s : NS) : Res NS := do
  let w ← convertFromString pre
  let s' ← s.transform 0 .add pre.length
  return { s' with normalized := w ++ s.normalized }

/-- `normalizer.cpp:585-589`: the index passed to `transform` is shifted by the length
of the replacement after each match. -/
def applyReplace : List Nat → Nat → Nat → Nat → NS → Res NS
  | [], _, _, _, s => .ok s
  | i :: r, multi, step, n, s => do
    applyReplace r (multi + step) step n (← s.transform (i + multi) .replace n)

/-- `normalizer.cpp:575-584` for a one-character replacement: the character at the
start of each match is overwritten (erase one, insert one). -/
def overwriteAll : List (Nat × Nat) → Nat → WStr → Res WStr
  | [], _, w => .ok w
  | (p, _) :: r, c, w => if p < w.length then overwriteAll r c (w.set p c) else .error (.ub .outOfBounds)

/-- `normalizer.cpp:568-591` `Replace::normalize`.  The loop edits the string that the
regex iterator is scanning.  With a one-character replacement erase and insert leave
the buffer and its size as they are, and libstdc++ then continues scanning after the
match; this case is modelled as working on the matches of the original text.  With any
other replacement the iterator is left dangling, which the model reports as undefined
behaviour as soon as there is a match. -/
def replaceNormalize (P : Platform) (pattern content : Str) (s : NS) : Res NS := do
  let wp ← convertFromString pattern
  match P.wregex wp with
  | none => .error (.throws .regexError)
  | some find => do
    let wc ← convertFromString content
    match find s.normalized, wc with
    | [], _ => return s
    | ms, [c] =>
      let w ← overwriteAll ms c s.normalized
      let s' ← applyReplace (ms.map (·.1)) 0 1 content.length { s with normalized := w }
      return s'
    | _, _ => .error (.ub .invalidIterator)

/-- `std::isspace` in the "C" locale. -/
def isspaceC (b : Nat) : Bool := b = 0x20 || (9 ≤ b && b ≤ 13)

/-- `normalizer.cpp:599-602, 606-607`: the test applied by Strip converts the wide
character to `unsigned char` first. -/
def stripTest (c : Nat) : Bool := isspaceC (c % 256)

/-- `normalizer.cpp:596-613` `Strip::normalize`: index loops from both ends followed by
`substr`; the offset table is left unchanged. -/
def stripNormalize (l r : Bool) (s : NS) : NS :=
  let w := if l then s.normalized.dropWhile stripTest else s.normalized
  let w := if r then (w.reverse.dropWhile stripTest).reverse else w
  { s with normalized := w }

/-- `normalizer.cpp:615` `isCombiningMark`. -/
def isCombiningMark (c : Nat) : Bool := 0x300 ≤ c && c ≤ 0x36F

/-- `normalizer.cpp:619-628` `StripAccents::normalize`; the offset table is left
unchanged. -/
def stripAccentsNormalize (s : NS) : NS :=
  { s with normalized := s.normalized.filter fun c => !isCombiningMark c }

/-- `normalizer.h:59-144`: the normalizer classes. -/
inductive Normalizer
  | bert (cleanText handleChinese stripAccents lowercase : Bool)
  | prepend (s : Str)
  | replace (pattern content : Str)
  | nf (k : NFKind)
  | strip (left right : Bool)
  | stripAccents
  | seq (l : List Normalizer)

mutual
/-- `Normalizer::normalize` (virtual dispatch). -/
def Normalizer.run (P : Platform) : Normalizer → NS → Res NS
  | .bert a b c d, s => bertNormalize P a b c d s
  | .prepend p, s => prependNormalize p s
  | .replace p c, s => replaceNormalize P p c s
  | .nf k, s => nfNormalize P k s
  | .strip l r, s => .ok (stripNormalize l r s)
  | .stripAccents, s => .ok (stripAccentsNormalize s)
  | .seq l, s => Normalizer.runList P l s
/-- `normalizer.cpp:545-554` `SequenceNormalizer::normalize` (`std::accumulate`). -/
def Normalizer.runList (P : Platform) : List Normalizer → NS → Res NS
  | [], s => .ok s
  | n :: r, s => do Normalizer.runList P r (← Normalizer.run P n s)
end

end Tok
