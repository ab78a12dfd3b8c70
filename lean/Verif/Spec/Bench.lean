import Verif.Spec.Desk
/-
Specification of the Emacs keys with the searches: the desk, and whether the history is being searched.  During a search the
new line is what is looked for, and `met` and `walk` are the entries that contain it and the one found.
-/

namespace Liner.Spec
open Liner Liner.Props

namespace Desk

/-- The entries that contain `t`; none if `t` is empty. -/
def holding (entries : List Text) (t : Text) : List Nat :=
  (List.range entries.length).filter fun i => (entries[i]?).any fun x => t ≠ [] ∧ t <:+: x

/-- Which of the entries `met` is found first.  Without an entry to begin at, it is the newest one, or, going forward, the
oldest one.  From the entry `t` on, it is the next one that is not newer than `t`, or, going forward, not older; if there is
none, it is the oldest one. -/
def begins (forward : Bool) (t : Option Nat) (met : List Nat) : Option Nat :=
  if met = [] then none
  else some (match t with
    | none => if forward then 0 else met.length - 1
    | some t =>
      if forward then (if (met.filter (· < t)).length < met.length then (met.filter (· < t)).length else 0)
      else (met.filter (· ≤ t)).length - 1)

/-- The new line is looked for.  It is shown, with the cursor as far to the right as it was if there are enough characters. -/
def look (entries : List Text) (forward : Bool) (d : Desk) : Desk :=
  { d with
    left := d.new.text.take d.left.length, right := d.new.text.drop d.left.length, shown := none, changed := false
    met := holding entries d.new.text
    walk := begins forward (d.walk.bind (d.met[·]?)) (holding entries d.new.text) }

/-- The entry found. -/
def found (entries : List Text) (d : Desk) : Option Text := (d.walk.bind (d.met[·]?)).bind (entries[·]?)

/-- To the entry found before; after the oldest one comes the newest one. -/
def back (d : Desk) : Desk :=
  { d with walk := d.walk.map fun i => if i = 0 then d.met.length - 1 else i - 1 }

/-- To the entry found after; after the newest one comes the oldest one. -/
def forth (d : Desk) : Desk :=
  { d with walk := d.walk.map fun i => if i + 1 < d.met.length then i + 1 else 0 }

/-- The line shown becomes the sheet `q` during a search.  If it was taken out for writing (`touch`), the search is made
again: for the new line, which is shown again if it was not. -/
def seek (entries : List Text) (forward touch : Bool) (q : Sheet) (d : Desk) : Desk :=
  if touch then (d.write true false q).look entries forward else d.write false false q

/-- The line shown becomes the entry found, which counts as two edits, or stays if there is none. -/
def accept (entries : List Text) (d : Desk) : Desk :=
  d.write true true (match d.found entries with
    | some x => ⟨x, [], [] :: d.text :: d.past, d.arg⟩
    | none => ⟨d.text, [], d.past, d.arg⟩)

/-- Is the line taken out for writing? -/
def taken (key : Key) (p q : Sheet) : Bool := Sheet.touches key p q || key = .ctrl 'x' || key = .alt 'r'

/-- Alt-`.` during a search: both the deletion of the last argument and the insertion of the next one search again. -/
def Fetch (entries : List Text) (forward : Bool) (d e : Desk) : Prop :=
  match d.sheet.nextArg entries d.shown with
  | none => e = d
  | some i => ∃ m x n, (if d.arg = none then m = d
      else ∃ q, Sheet.Drops d.sheet q ∧ m = d.seek entries forward (q.past ≠ d.past) q) ∧
    entries[i]? = some x ∧ Sheet.Adds x m.sheet n ∧
    e = { m.seek entries forward (n.past ≠ m.past) n with arg := some i }

end Desk

/-- The desk and the direction of the search, if there is one. -/
structure Bench where
  desk : Desk
  forward : Option Bool := none
deriving DecidableEq, Repr

namespace Bench
open Desk

/-- The suggestion: during a search the entry found. -/
def suggestion (entries : List Text) (b : Bench) : Option Text :=
  if b.forward = none then b.desk.suggestion entries else b.desk.found entries

/-- The keys that leave the bench: Enter, Tab and Ctrl-C. -/
def leaves : Key → Bool
  | .char c => c ∈ ['\t', '\n']
  | .ctrl c => c = 'c'
  | _ => false

/-- What a key does during a search in the direction `f`. -/
def Seeks (entries : List Text) (f : Bool) (key : Key) (d : Desk) (b : Bench) : Prop :=
  if key = .ctrl 'r' then b = ⟨d.back, some f⟩
  else if key = .ctrl 's' then b = ⟨d.forth, some f⟩
  else if key = .up ∨ key = .ctrl 'p' then b = ⟨{ d.back with arg := none }, some f⟩
  else if key = .down ∨ key = .ctrl 'n' then b = ⟨{ d.forth with arg := none }, some f⟩
  else if key = .alt '<' then b = ⟨d.oldest entries, some f⟩
  else if key = .alt '>' then b = ⟨d.newest entries, some f⟩
  else if key = .ctrl 'l' then b = ⟨d.write false true { d.sheet with arg := none }, none⟩
  else if d.sheet.takes (d.found entries) key then b = ⟨d.accept entries, none⟩
  else if key = .alt '.' then ∃ e, d.Fetch entries f e ∧ b = ⟨e, some f⟩
  else ∃ q, d.sheet.Does entries (d.found entries) d.shown key q ∧ b = ⟨d.seek entries f (taken key d.sheet q) q, some f⟩

/-- What a key does. -/
def Next (entries : List Text) (key : Key) (b c : Bench) : Prop :=
  match b.forward with
  | some f => Seeks entries f key b.desk c
  | none =>
    if key = .ctrl 'r' then c = ⟨b.desk.look entries false, some false⟩
    else if key = .ctrl 's' then c = ⟨b.desk.look entries true, some true⟩
    else ∃ e, b.desk.Next entries key e ∧ c = ⟨e, none⟩

/-- Keys one after the other. -/
def Run (entries : List Text) : List Key → Bench → Bench → Prop
  | [], b, c => c = b
  | key :: keys, b, c => ∃ m, Next entries key b m ∧ Run entries keys m c

/-- Enter ends a search first. -/
def enter (entries : List Text) (b : Bench) : Desk := if b.forward = none then b.desk else b.desk.accept entries

/-- What `read_line` makes of its input, where `none` is an error of reading. -/
def Reads (entries : List Text) : List (Option Key) → Bench → Sheet.Said → Prop
  | [], b, o => o = .line b.desk.text
  | none :: _, _, o => o = .stop .io
  | some key :: rest, b, o =>
    if key = .ctrl 'c' then o = .stop .interrupted
    else if key = .ctrl 'd' ∧ b.desk.text = [] then o = .stop .unexpectedEof
    else if key = .char '\n' then
      let d := b.enter entries
      if d.left.getLast? = some '\\' then
        Reads entries rest ⟨d.write true true (d.sheet.put (d.left ++ ['\n']) d.right), none⟩ o
      else o = .line d.text
    else ∃ m, Next entries key b m ∧ Reads entries rest m o

end Bench
end Liner.Spec
