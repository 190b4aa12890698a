import Verif.BPE

set_option autoImplicit false

/-!
What C135 says: how much work the models do for a pre-token.  For byte-pair encoding the work is the number of entries taken from the priority queue, for
WordPiece it is the number of pieces looked up in the vocabulary.
-/

namespace Tok.Spec

/-- `Rounds P merges d k st st'`: the loop of `Word::merge_all` (`model.cpp:241-294`) leads from `st` to `st'` by taking `k` entries from its queue. -/
inductive Rounds (P : Platform) (merges : Merges) (d : Dropout) : Nat → MState → MState → Prop
  | done (st : MState) : Rounds P merges d 0 st st
  | more {k : Nat} {st st1 st2 : MState} : mergeStep P merges d st = .ok (some st1) → Rounds P merges d k st1 st2 →
      Rounds P merges d (k + 1) st st2

/-- The merging of the pieces `w` ends, with an empty queue, after exactly `k` entries were taken from it, and leaves the pieces `out`. -/
def MergedIn (P : Platform) (merges : Merges) (d : Dropout) (w : List Symbol) (k : Nat) (out : List Symbol) : Prop :=
  ∃ st, Rounds P merges d k { syms := w, queue := initQueue P merges 0 w [], skip := [], drawn := 0 } st ∧ st.queue = [] ∧
    out = st.syms.filter fun s => s.len ≠ 0

/-- The candidates of the inner loop of WordPiece (`model.cpp:163-179`) that are looked up for the text from `start` on, when `k` units follow: those
longer than the one that is found, and that one. -/
def lookedUp (m : WordPiece) (u : U16) (start : Nat) : Nat → List Str
  | 0 => []
  | k + 1 =>
    let sub := m.piece u start (start + (k + 1))
    sub :: (match mapFind m.vocab sub with
      | some _ => []
      | none => lookedUp m u start k)

/-- `Searched m u start log ts`: WordPiece (`model.cpp:160-186`) cuts the text from `start` on into the tokens `ts` (`none` if it cannot), and has looked
up the candidates `log` for that, in this order. -/
inductive Searched (m : WordPiece) (u : U16) : Nat → List Str → Option (List Token) → Prop
  | nothing (start : Nat) : u.length ≤ start → Searched m u start [] (some [])
  | fails (start : Nat) : start < u.length → (∀ c ∈ lookedUp m u start (u.length - start), mapFind m.vocab c = none) →
      Searched m u start (lookedUp m u start (u.length - start)) none
  | takes {start len : Nat} {i : Int} {log : List Str} {ts : Option (List Token)} : 0 < len → start + len ≤ u.length →
      mapFind m.vocab (m.piece u start (start + len)) = some i →
      (∀ longer, len < longer → start + longer ≤ u.length → mapFind m.vocab (m.piece u start (start + longer)) = none) →
      Searched m u (start + len) log ts →
      Searched m u start (lookedUp m u start (u.length - start) ++ log)
        (ts.map ({ id := i, value := m.piece u start (start + len), offsets := (start, start + len) } :: ·))

end Tok.Spec
