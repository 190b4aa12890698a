set_option autoImplicit false

/-
Outcomes and strings shared by the whole model.

The C++ code under /repo has no single counterpart for this file; it fixes how the
model represents C++ values and failures.
-/

namespace Tok

/-- `std::string`: a list of byte values (each `< 256` in a real string). -/
abbrev Str := List Nat
/-- `std::wstring` on a platform with 32-bit `wchar_t`: a list of code values. -/
abbrev WStr := List Nat
/-- `icu::UnicodeString`: a list of UTF-16 code units. -/
abbrev U16 := List Nat

/-- The C++ exceptions the modelled code can raise. -/
inductive Exn
  | invalidArgument    -- std::invalid_argument
  | runtimeError       -- std::runtime_error thrown by the library itself
  | outOfRange         -- std::out_of_range (`.at`, `.substr`)
  | rangeError         -- std::range_error (wstring_convert)
  | badOptionalAccess  -- std::bad_optional_access (`optional::value`)
  | lengthError        -- std::length_error (vector growth by a "negative" count)
  | jsonError          -- simdjson::simdjson_error
  | regexError         -- std::regex_error
  deriving DecidableEq, Repr

/-- The kinds of undefined behaviour that are made visible. -/
inductive UB
  | nullDeref          -- member access through a null (unique_)ptr
  | outOfBounds        -- vector/string operator[] or iterator range past the end
  | endDeref           -- dereference of an end() iterator
  | invalidIterator    -- use of an iterator invalidated by a container update
  | badString          -- a JNI function given a string that is not modified UTF-8
  deriving DecidableEq, Repr

/-- How a C++ call can fail to return a value. -/
inductive Err
  | throws (e : Exn)
  | ub (k : UB)
  | diverges
  deriving DecidableEq, Repr

/-- Result of a C++ call. -/
abbrev Res (α : Type) := Except Err α

deriving instance DecidableEq for Except

/-- `v[i]` on a `std::vector`/`std::wstring`: undefined behaviour out of range. -/
def vecAt {α : Type} (l : List α) (i : Nat) : Res α :=
  match l[i]? with
  | some a => .ok a
  | none => .error (.ub .outOfBounds)

/-- `v.erase(v.begin()+a, v.begin()+b)`: undefined behaviour unless `a ≤ b ≤ size`. -/
def eraseRange {α : Type} (l : List α) (a b : Nat) : Res (List α) :=
  if a ≤ b ∧ b ≤ l.length then .ok (l.take a ++ l.drop b) else .error (.ub .outOfBounds)

/-- `v.insert(v.begin()+a, xs...)`: undefined behaviour unless `a ≤ size`. -/
def insertAt {α : Type} (l : List α) (a : Nat) (xs : List α) : Res (List α) :=
  if a ≤ l.length then .ok (l.take a ++ xs ++ l.drop a) else .error (.ub .outOfBounds)

/-- `std::vector<T>(v.begin()+a, v.begin()+b)`: undefined behaviour unless
`a ≤ b ≤ size`. -/
def slice {α : Type} (l : List α) (a b : Nat) : Res (List α) :=
  if a ≤ b ∧ b ≤ l.length then .ok ((l.drop a).take (b - a)) else .error (.ub .outOfBounds)

/-- Implicit conversion of a (32-bit) `int` to `size_t` on a 64-bit platform, as it
happens in mixed comparisons such as `i < v.size()`. -/
def toSizeT (i : Int) : Nat := if 0 ≤ i then i.toNat else 2 ^ 64 - (-i).toNat

/-- Association-list lookup: `unordered_map::find`. -/
def mapFind {κ ν : Type} [DecidableEq κ] (m : List (κ × ν)) (k : κ) : Option ν :=
  match m with
  | [] => none
  | (k', v) :: r => if k' = k then some v else mapFind r k

/-- `m.at(k)` on an unordered_map: throws `std::out_of_range` for a missing key. -/
def mapAt {κ ν : Type} [DecidableEq κ] (m : List (κ × ν)) (k : κ) : Res ν :=
  match mapFind m k with
  | none => .error (.throws .outOfRange)
  | some v => .ok v

/-- `m[k] = v` on an unordered_map: overwrite if present, add otherwise. -/
def mapSet {κ ν : Type} [DecidableEq κ] (m : List (κ × ν)) (k : κ) (v : ν) : List (κ × ν) :=
  match m with
  | [] => [(k, v)]
  | (k', v') :: r => if k' = k then (k, v) :: r else (k', v') :: mapSet r k v

/-- `m.insert({k, v})` on an unordered_map: keeps an existing entry. -/
def mapInsert {κ ν : Type} [DecidableEq κ] (m : List (κ × ν)) (k : κ) (v : ν) : List (κ × ν) :=
  match mapFind m k with
  | some _ => m
  | none => m ++ [(k, v)]

/-- Concatenation of a vector of strings. -/
def concat (l : List Str) : Str := l.flatten

open Lean in
/-- `b!"…"`: the UTF-8 bytes of a literal, as an explicit list. -/
macro:max "b!" s:str : term => do
  let bs := s.getString.toUTF8.toList.map (fun b => Syntax.mkNumLit (toString b.toNat))
  let arr : TSyntaxArray `term := (bs.map (fun x => (⟨x.raw⟩ : TSyntax `term))).toArray
  `(([$arr,*] : List Nat))

open Lean in
/-- `w!"…"`: the code points of a literal, as an explicit list. -/
macro:max "w!" s:str : term => do
  let bs := s.getString.toList.map (fun b => Syntax.mkNumLit (toString b.toNat))
  let arr : TSyntaxArray `term := (bs.map (fun x => (⟨x.raw⟩ : TSyntax `term))).toArray
  `(([$arr,*] : List Nat))

example : b!"a▁" = [97, 0xE2, 0x96, 0x81] := rfl
example : w!"a▁" = [97, 0x2581] := rfl

end Tok
