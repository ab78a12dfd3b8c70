import Verif.Spec.Sheet
import Verif.Spec.Nav
/-
Specification of the Emacs keys with the history beside the new line: the line shown is the new line or an entry, an entry
is copied before it is changed, and with something typed only some of the entries are met.
-/

namespace Liner.Spec
open Liner Liner.Props

/-- A text with the texts that undo brings back. -/
structure Paper where
  text : Text := []
  past : List Text := []
deriving DecidableEq, Repr

/-- Everything the Emacs keys work on, besides the entries of the history. -/
structure Desk where
  /-- the line shown, before the cursor -/
  left : Text
  /-- the line shown, after the cursor -/
  right : Text := []
  /-- the entry whose last argument is being looked at -/
  arg : Option Nat := none
  /-- the new line -/
  new : Paper
  /-- the copy of the entry that was changed last -/
  copy : Paper := {}
  /-- the entry shown; `none` is the new line -/
  shown : Option Nat := none
  /-- is the copy shown instead of the entry? -/
  changed : Bool := false
  /-- the entries met with something typed, and the one reached -/
  met : List Nat := []
  walk : Option Nat := none
deriving DecidableEq, Repr

namespace Desk

def text (d : Desk) : Text := d.left ++ d.right

/-- At the beginning. -/
def fresh (t : Text) : Desk := { left := t, new := { text := t } }

/-- What undo brings back if the line shown is changed now.  Copying an entry counts as two edits of the previous copy: it
is emptied and then filled in. -/
def past (d : Desk) : List Text :=
  if d.shown = none then d.new.past
  else if d.changed then d.copy.past
  else [] :: d.copy.text :: d.copy.past

/-- The line shown, to be written on. -/
def sheet (d : Desk) : Sheet := ⟨d.left, d.right, d.past, d.arg⟩

/-- The suggestion: on a new line the newest entry that goes on, on an entry the entry itself until it is changed. -/
def suggestion (entries : List Text) (d : Desk) : Option Text :=
  if d.shown = none then hint entries d.text
  else if d.changed then none
  else some d.text

/-- The line shown becomes the sheet `q`: it is the new line or the copy of the entry, which may be made now (`touch`).
The walk may be given up (`clears`). -/
def write (touch clears : Bool) (q : Sheet) (d : Desk) : Desk where
  left := q.left
  right := q.right
  arg := q.arg
  new := if d.shown = none then ⟨q.text, q.past⟩ else d.new
  copy := if d.shown ≠ none ∧ (d.changed || touch) then ⟨q.text, q.past⟩ else d.copy
  shown := d.shown
  changed := d.shown ≠ none && (d.changed || touch)
  met := if clears then [] else d.met
  walk := if clears then none else d.walk

/-- The entries met with `t` typed, the first one met last. -/
def meets (entries : List Text) (t : Text) : List Nat :=
  (List.range entries.length).filter (fun i => (entries[i]?).any fun x => t <:+: x ∧ ¬ t <+: x) ++
    (List.range entries.length).filter (fun i => (entries[i]?).any fun x => t <+: x ∧ x ≠ t)

/-- Another line is shown, with the cursor at its end.  Changes of an entry are lost to sight. -/
def turn (entries : List Text) (line : Option Nat) (d : Desk) : Desk :=
  { d with
    left := match line with
      | none => d.new.text
      | some i => entries[i]?.getD []
    right := [], arg := none, shown := line, changed := false }

/-- Up.  With nothing typed to the entry before; with something typed to the one met before. -/
def up (entries : List Text) (d : Desk) : Desk :=
  if d.new.text = [] then
    match d.shown with
    | some i => d.turn entries (some (i - 1))
    | none => d.turn entries (if entries = [] then none else some (entries.length - 1))
  else
    match d.walk with
    | some 0 => d.turn entries d.shown
    | some (i + 1) => { d with walk := some i }.turn entries d.met[i]?
    | none =>
      let met := meets entries d.new.text
      match met.getLast? with
      | none => { d with met := [] }.turn entries d.shown
      | some j => { d with met := met, walk := some (met.length - 1) }.turn entries (some j)

/-- Down. -/
def down (entries : List Text) (d : Desk) : Desk :=
  if d.new.text = [] then
    match d.shown with
    | some i => d.turn entries (if i + 1 < entries.length then some (i + 1) else none)
    | none => d.turn entries none
  else
    match d.walk with
    | some i =>
      if i + 1 < d.met.length then { d with walk := some (i + 1) }.turn entries d.met[i + 1]?
      else { d with met := [], walk := none }.turn entries none
    | none => d.turn entries d.shown

/-- To the oldest entry. -/
def oldest (entries : List Text) (d : Desk) : Desk :=
  if entries = [] then { d with arg := none } else d.turn entries (some 0)

/-- To the new line. -/
def newest (entries : List Text) (d : Desk) : Desk :=
  if d.shown = none then { d with arg := none } else d.turn entries none

/-- The keys that leave the desk: Enter, Tab, Ctrl-C and the searches. -/
def leaves : Key → Bool
  | .char c => c ∈ ['\t', '\n']
  | .ctrl c => c ∈ ['c', 'r', 's']
  | _ => false

/-- What a key does. -/
def Next (entries : List Text) (key : Key) (d e : Desk) : Prop :=
  if key = .up ∨ key = .ctrl 'p' then e = d.up entries
  else if key = .down ∨ key = .ctrl 'n' then e = d.down entries
  else if key = .alt '<' then e = d.oldest entries
  else if key = .alt '>' then e = d.newest entries
  else ∃ q, d.sheet.Does entries (d.suggestion entries) d.shown key q ∧
    e = d.write (Sheet.touches key d.sheet q) (d.sheet.clears (d.suggestion entries) key) q

/-- Keys one after the other. -/
def Run (entries : List Text) : List Key → Desk → Desk → Prop
  | [], d, e => e = d
  | key :: keys, d, e => ∃ m, Next entries key d m ∧ Run entries keys m e

/-- What `read_line` makes of its input, where `none` is an error of reading: Enter gives back the line shown unless there
is a backslash before the cursor, and so does the end of the input; Ctrl-C interrupts, Ctrl-D on an empty line ends. -/
def Reads (entries : List Text) : List (Option Key) → Desk → Sheet.Said → Prop
  | [], d, o => o = .line d.text
  | none :: _, _, o => o = .stop .io
  | some key :: rest, d, o =>
    if key = .ctrl 'c' then o = .stop .interrupted
    else if key = .ctrl 'd' ∧ d.text = [] then o = .stop .unexpectedEof
    else if key = .char '\n' then
      if d.left.getLast? = some '\\' then
        Reads entries rest (d.write true true (d.sheet.put (d.left ++ ['\n']) d.right)) o
      else o = .line d.text
    else ∃ m, Next entries key d m ∧ Reads entries rest m o

end Desk
end Liner.Spec
