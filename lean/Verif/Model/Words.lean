import Verif.Model.Buffer
/-
Model of `get_buffer_words` (/repo/src/context.rs) and of `CursorPosition` (/repo/src/editor.rs).
-/

namespace Liner

/-- The loop of `get_buffer_words`, src/context.rs:24-44.  Arguments: the characters still to be
read, the index of the next one, `word_start` and `just_had_backslash`.  The words that Rust pushes
on `res` are returned in the same order. -/
def wordsGo : Text → Nat → Option Nat → Bool → List (Nat × Nat)
  | [], i, some start, _ => [(start, i)]
  | [], _, none, _ => []
  | c :: cs, i, wordStart, jhb =>
    if c = '\\' then wordsGo cs (i + 1) wordStart true
    else match wordStart with
      | some start =>
        if c = ' ' ∧ ¬ jhb then (start, i) :: wordsGo cs (i + 1) none false
        else wordsGo cs (i + 1) (some start) false
      | none =>
        if c ≠ ' ' then wordsGo cs (i + 1) (some i) false
        else wordsGo cs (i + 1) none false

/-- `get_buffer_words`, src/context.rs:18-47. -/
def getBufferWords (b : Buffer) : List (Nat × Nat) := wordsGo b.data 0 none false

/-- `enum CursorPosition`, src/editor.rs:122-137. -/
inductive CursorPosition where
  | inWord (i : Nat)
  | onWordLeftEdge (i : Nat)
  | onWordRightEdge (i : Nat)
  | inSpace (left right : Option Nat)
deriving DecidableEq, Repr

/-- The `for` loop of `CursorPosition::get` and the final expression, src/editor.rs:153-168.
`i - 1` is only evaluated with `i > 0`: at `i = 0` the caller has already excluded
`cursor < start`, and the list is not empty. -/
def CursorPosition.go (cursor : Nat) : List (Nat × Nat) → Nat → CursorPosition
  | [], i => .inSpace (some (i - 1)) none
  | (start, stop) :: ws, i =>
    if start = cursor then .onWordLeftEdge i
    else if stop = cursor then .onWordRightEdge i
    else if start < cursor ∧ cursor < stop then .inWord i
    else if cursor < start then .inSpace (some (i - 1)) (some i)
    else CursorPosition.go cursor ws (i + 1)

/-- `CursorPosition::get`, src/editor.rs:141-169. -/
def CursorPosition.get (cursor : Nat) (words : List (Nat × Nat)) : CursorPosition :=
  match words with
  | [] => .inSpace none none
  | (left, _) :: _ =>
    if cursor = left then .onWordLeftEdge 0
    else if cursor < left then .inSpace none (some 0)
    else CursorPosition.go cursor words 0

end Liner
