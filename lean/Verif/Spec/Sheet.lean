import Verif.Props.Emacs
/-
Specification of all Emacs keys on a new line, except those that finish the line, leave it for another one, search or
complete: a text with a cursor in it, the texts that undo brings back, and the history entry whose last argument was
fetched.
-/

namespace Liner.Spec
open Liner Liner.Props

/-- A line being written. -/
structure Sheet where
  /-- the text before the cursor -/
  left : Text
  /-- the text after the cursor -/
  right : Text
  /-- what undo brings back, the next text first -/
  past : List Text := []
  /-- the entry whose last argument is being looked at -/
  arg : Option Nat := none
deriving DecidableEq, Repr

namespace Sheet

def text (p : Sheet) : Text := p.left ++ p.right

/-- The text and the cursor after an edit; undo brings back the text before it. -/
def put (p : Sheet) (l r : Text) : Sheet := { p with left := l, right := r, past := p.text :: p.past }

/-- The keys that leave the sheet: Enter, Tab, Ctrl-C, the searches and the ways to other lines. -/
def leaves : Key → Bool
  | .char c => c ∈ ['\t', '\n']
  | .up | .down => true
  | .ctrl c => c ∈ ['c', 'p', 'n', 'r', 's']
  | .alt c => c ∈ ['<', '>']
  | _ => false

/-- Does the key take the suggestion `o`? -/
def takes (o : Option Text) (key : Key) (p : Sheet) : Bool :=
  o.isSome && (key = .ctrl 'f' || key = .right && p.right = [])

/-- Does the editing key count as an edit for undo?  Ctrl-U and Ctrl-K do even if there is nothing to delete. -/
def counts (o : Option Text) (key : Key) (p : Sheet) : Bool :=
  match key with
  | .char _ | .ctrl 'u' | .ctrl 'k' => true
  | .backspace | .ctrl 'h' => p.left ≠ []
  | .delete | .ctrl 'd' => p.right ≠ []
  | key => p.takes o key

/-- After an editing key.  Taking a suggestion does not end the looking at last arguments, other keys do. -/
def edited (o : Option Text) (key : Key) (p : Sheet) : Sheet where
  left := (edit o key (p.left, p.right)).1
  right := (edit o key (p.left, p.right)).2
  past := if p.counts o key then p.text :: p.past else p.past
  arg := if p.takes o key then p.arg else none

/-- The word before the cursor is deleted, with what is between it and the cursor. -/
def Rubs (p q : Sheet) : Prop :=
  ∃ ws, IsDivision p.text ws ∧
    ((∃ w, WordBefore ws p.left.length true w ∧ q = { p.put (p.left.take w.1) p.right with arg := none }) ∨
      ((∀ w, ¬ WordBefore ws p.left.length true w) ∧ q = { p with arg := none }))

/-- The cursor moves over the same text. -/
def Moves (R : List (Nat × Nat) → Nat → Nat → Prop) (p q : Sheet) : Prop :=
  q.text = p.text ∧ q.past = p.past ∧ q.arg = none ∧
    ∃ ws, IsDivision p.text ws ∧ R ws p.left.length q.left.length

/-- Undo, with the cursor at the end. -/
def back (p : Sheet) : Sheet :=
  match p.past with
  | [] => { p with arg := none }
  | t :: ts => ⟨t, [], ts, none⟩

/-- Undo of everything. -/
def first (p : Sheet) : Sheet :=
  match p.past.getLast? with
  | none => { p with arg := none }
  | some t => ⟨t, [], [], none⟩

/-- The entry whose last argument Alt-`.` fetches; `shown` is the entry on the line, if any. -/
def nextArg (entries : List Text) (shown : Option Nat) (p : Sheet) : Option Nat :=
  if entries = [] then none
  else match p.arg with
    | none => some (shown.getD (entries.length - 1))
    | some 0 => none
    | some (i + 1) => some i

/-- What is between the cursor and the beginning of the last run of non-spaces is deleted. -/
def Drops (p q : Sheet) : Prop :=
  (∃ w, IsLastRun p.text w ∧ q = p.put (p.text.take (min p.left.length (p.text.length - w.length)))
    (p.text.drop (max p.left.length (p.text.length - w.length)))) ∨
  ((∀ c ∈ p.text, c = ' ') ∧ q = p)

/-- The last argument of an entry is inserted. -/
def Adds (x : Text) (p q : Sheet) : Prop :=
  (∃ w, IsLastRun x w ∧ q = p.put (p.left ++ w) p.right) ∨ ((∀ c ∈ x, c = ' ') ∧ q = p)

/-- Alt-`.` -/
def Fetches (entries : List Text) (shown : Option Nat) (p q : Sheet) : Prop :=
  match p.nextArg entries shown with
  | none => q = p
  | some i => ∃ m x n, (if p.arg = none then m = p else Drops p m) ∧ entries[i]? = some x ∧ Adds x m n ∧
      q = { n with arg := some i }

/-- What a key does to a sheet with the suggestion `o`, on the entry `shown` or on a new line. -/
def Does (entries : List Text) (o : Option Text) (shown : Option Nat) (key : Key) (p q : Sheet) : Prop :=
  if editing key then q = p.edited o key
  else if key = .ctrl 'w' ∨ key = .alt '\x7f' then Rubs p q
  else if key = .alt 'f' then Moves NextEnd p q
  else if key = .alt 'b' then Moves PrevStart p q
  else if key = .ctrl 'x' then q = p.back
  else if key = .alt 'r' then q = p.first
  else if key = .alt '.' then Fetches entries shown p q
  else q = { p with arg := none }

/-- Keys that give up the walk through the history. -/
def clears (o : Option Text) (key : Key) (p : Sheet) : Bool := p.takes o key || key = .ctrl 'l'

/-- Keys that begin to change an entry: those that change its log, and Delete even if there is nothing to delete. -/
def touches (key : Key) (p q : Sheet) : Bool := q.past ≠ p.past || key = .delete || key = .ctrl 'd'

/-- What a key does to a sheet that is a new line. -/
def Next (entries : List Text) (key : Key) (p q : Sheet) : Prop := Does entries (hint entries p.text) none key p q

/-- Keys one after the other. -/
def Run (entries : List Text) : List Key → Sheet → Sheet → Prop
  | [], p, q => q = p
  | key :: keys, p, q => ∃ m, Next entries key p m ∧ Run entries keys m q

/-- How `read_line` ends. -/
inductive Said where
  | line (t : Text)
  | stop (e : IoErr)
deriving DecidableEq

/-- What `read_line` makes of its input, where `none` is an error of reading: Enter gives back the text unless there is a
backslash before the cursor, and so does the end of the input; Ctrl-C interrupts, Ctrl-D on an empty line ends. -/
def Reads (entries : List Text) : List (Option Key) → Sheet → Said → Prop
  | [], p, o => o = .line p.text
  | none :: _, _, o => o = .stop .io
  | some key :: rest, p, o =>
    if key = .ctrl 'c' then o = .stop .interrupted
    else if key = .ctrl 'd' ∧ p.text = [] then o = .stop .unexpectedEof
    else if key = .char '\n' then
      if p.left.getLast? = some '\\' then Reads entries rest (p.put (p.left ++ ['\n']) p.right) o
      else o = .line p.text
    else ∃ m, Next entries key p m ∧ Reads entries rest m o

/-- The keys read. -/
def pressed : KeyMap.Input → Option Key
  | .key k _ => some k
  | .ioErr => none

end Sheet
end Liner.Spec
