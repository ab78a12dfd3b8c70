import Verif.Spec.ViLine
import Verif.Spec.Bench
import Verif.Spec.Search
import Verif.Spec.Emacs
/-
Specification of the vi keys with the history beside the new line: the board or the pen is on the line shown, which is the
new line or an entry, and Up and Down change the line shown.
-/

namespace Liner.Spec
open Liner Liner.Props

/-- A line with the texts that undo brings back; if it is `full` there is nothing more to undo. -/
structure Leaf where
  text : Text
  past : List Text := []
  full : Bool := false

/-- What there is besides the line shown. -/
structure Shelf where
  /-- the new line, as it was left -/
  new : Leaf
  /-- the entry shown; `none` is the new line -/
  shown : Option Nat := none
  /-- the entries met with something typed, and the one reached -/
  met : List Nat := []
  walk : Option Nat := none
  /-- the copy of an entry that was made last, as it was left -/
  copy : Leaf := ⟨[], [], true⟩

/-- The line shown, as nobody has changed it.  An entry is copied over the copy of another one; this counts as two
changes. -/
def Shelf.leaf (entries : List Text) (f : Shelf) : Leaf :=
  match f.shown with
  | none => f.new
  | some i => ⟨entries[i]?.getD [], [] :: f.copy.text :: f.copy.past, f.copy.full⟩

/-- Up.  With nothing typed to the entry before; with something typed to the one met before. -/
def Shelf.up (entries : List Text) (f : Shelf) : Shelf :=
  if f.new.text = [] then
    match f.shown with
    | some i => { f with shown := some (i - 1) }
    | none => { f with shown := if entries = [] then none else some (entries.length - 1) }
  else
    match f.walk with
    | some 0 => f
    | some (i + 1) => { f with walk := some i, shown := f.met[i]? }
    | none =>
      let met := Desk.meets entries f.new.text
      match met.getLast? with
      | none => { f with met := [] }
      | some j => { f with met := met, walk := some (met.length - 1), shown := some j }

/-- Down. -/
def Shelf.down (entries : List Text) (f : Shelf) : Shelf :=
  if f.new.text = [] then
    match f.shown with
    | some i => { f with shown := if i + 1 < entries.length then some (i + 1) else none }
    | none => f
  else
    match f.walk with
    | some i =>
      if i + 1 < f.met.length then { f with walk := some (i + 1), shown := f.met[i + 1]? }
      else { f with met := [], walk := none, shown := none }
    | none => f

/-- The hand is at commands or at an insertion; for the latter whether the texts for undo are all, and the last
character search, are beside the pen. -/
inductive Hand where
  | board (b : Board)
  | pen (p : Pen) (full : Bool) (last : Option (Char × CharMovement))

/-- The line before the cursor and from it on. -/
def Hand.left : Hand → Text
  | .board b => b.left
  | .pen p _ _ => p.left
def Hand.right : Hand → Text
  | .board b => b.right
  | .pen p _ _ => p.right

/-- How the line is left.  An insertion is ended. -/
def Hand.Left : Hand → Leaf → Prop
  | .board b, f => f = ⟨b.text, b.past, b.full⟩
  | .pen p full _, f => f.text = p.text ∧ f.full = full ∧
      (f.past = p.since :: p.past ∨ (p.text = p.since ∧ f.past = p.past))

/-- The hand goes to another line: the cursor is at its end, there is no count any more, and an insertion goes on as after
a movement of the cursor. -/
def Hand.over (f : Leaf) : Hand → Hand
  | .board b => .board ⟨f.text, f.text.length - 1, 0, b.last, b.done, f.past, f.full⟩
  | .pen p _ last => .pen ⟨f.text, [], p.how, p.typed, 0, p.times, true, f.text, f.past⟩ f.full last

structure Rack where
  hand : Hand
  shelf : Shelf

/-- What can be done. -/
inductive Act where
  /-- a command, at the board -/
  | command (c : Command)
  /-- the beginning of an insertion, with digits after `c` -/
  | begin (op : Opening) (ds : List Char)
  /-- a key during an insertion -/
  | key (k : Key)
  /-- Esc, at the end of an insertion -/
  | leave
  /-- Enter after a backslash -/
  | enter
  /-- Up or `k`, Down or `j`; the letters only at the board -/
  | turn (up letter : Bool)
  /-- the suggestion is taken with Right or Ctrl-F -/
  | take (right : Bool)
  /-- a search for the line is begun and goes on in these directions; the entry found is taken with Right or Ctrl-F -/
  | search (forward : Bool) (more : List Bool) (right : Bool)
  /-- during an insertion, a search for the line is begun and goes on with these keys; the entry found is taken with Right
  or Ctrl-F -/
  | quest (forward : Bool) (more : List Key) (right : Bool)

/-- The keys for searches. -/
def seekKey (forward : Bool) : Key := .ctrl (if forward then 's' else 'r')

/-- The keys that take a suggestion. -/
def takeKey (right : Bool) : Key := if right then .right else .ctrl 'f'

def Act.keys : Act → List Key
  | .command c => c.keys
  | .begin op ds => op.keys ds
  | .key k => [k]
  | .leave => [.esc]
  | .enter => [.char '\n']
  | .turn true true => [.char 'k']
  | .turn true false => [.up]
  | .turn false true => [.char 'j']
  | .turn false false => [.down]
  | .take right => [takeKey right]
  | .search forward more right => (forward :: more).map seekKey ++ [takeKey right]
  | .quest forward more right => seekKey forward :: more ++ [takeKey right]

/-- The line shown. -/
def Hand.text (h : Hand) : Text := h.left ++ h.right

/-- The cursor is as far to the right as it can be. -/
def Hand.AtEnd : Hand → Prop
  | .board b => b.right.length = 1
  | .pen p _ _ => p.right = []

/-- A suggestion has been taken: the cursor is at its end. -/
def Hand.took (x : Text) : Hand → Hand
  | .board b => .board { b with text := x, cur := x.length - 1, past := b.text :: b.past }
  | .pen p full last => .pen { p with left := x, right := [] } full last

/-- An entry has been found and taken: this counts as two changes. -/
def Hand.found (x : Text) : Hand → Hand
  | .board b => .board { b with text := x, cur := x.length - 1, past := [] :: b.text :: b.past }
  | .pen p full last => .pen { p with left := x, right := [] } full last

/-- What is before the cursor as far to the right as it can be on the line `x`. -/
def Hand.ending (x : Text) : Hand → Text
  | .board _ => x.dropLast
  | .pen _ _ _ => x

/-- The entry found by a search for `t` that begins in the direction `forward` and goes on in the directions `more`.  It
begins at the entry that a walk has reached. -/
def Shelf.finds (entries : List Text) (t : Text) (forward : Bool) (more : List Bool) (f : Shelf) : Option Text :=
  (((Desk.begins forward (f.walk.bind (f.met[·]?)) (Desk.holding entries t)).map
    (more.foldl (searchStep (Desk.holding entries t).length))).bind ((Desk.holding entries t)[·]?)).bind (entries[·]?)

/-- Keys during an insertion while a search is under way, which began in the direction `forward`; with the pen goes the
place of the entry found among those that contain the line.  The keys for searches lead to another one.  After any other
key the line is looked for again, from the entry found on. -/
inductive Hunts (entries : List Text) (forward : Bool) : List Key → Pen × Option Nat → Pen × Option Nat → Prop
  | nil (x : Pen × Option Nat) : Hunts entries forward [] x x
  | seek {f : Bool} {ks : List Key} {p : Pen} {k : Option Nat} {x : Pen × Option Nat}
      (t : Hunts entries forward ks (p, k.map (searchStep (Desk.holding entries p.text).length · f)) x) :
      Hunts entries forward (seekKey f :: ks) (p, k) x
  | write {key : Key} {ks : List Key} {p p' : Pen} {k : Option Nat} {x : Pen × Option Nat} (hk : WritingKey key)
      (h : Pen.Step key p p')
      (t : Hunts entries forward ks
        (p', Desk.begins forward (k.bind ((Desk.holding entries p.text)[·]?)) (Desk.holding entries p'.text)) x) :
      Hunts entries forward (key :: ks) (p, k) x

/-- The keys can be pressed, one after the other; Right at the end of the line would take the entry found. -/
def Hunts.Can (entries : List Text) (forward : Bool) : List Key → Pen × Option Nat → Prop
  | [], _ => True
  | key :: ks, x => ((∃ f, key = seekKey f) ∨ (WritingKey key ∧ (key = .right → x.1.right ≠ []))) ∧
      ∀ x', Hunts entries forward [key] x x' → Hunts.Can entries forward ks x'

/-- How a search for the line begins. -/
def Shelf.hunt (entries : List Text) (p : Pen) (forward : Bool) (f : Shelf) : Pen × Option Nat :=
  (p, Desk.begins forward (f.walk.bind (f.met[·]?)) (Desk.holding entries p.text))

/-- The entry found. -/
def quarry (entries : List Text) (x : Pen × Option Nat) : Option Text :=
  (x.2.bind ((Desk.holding entries x.1.text)[·]?)).bind (entries[·]?)

/-- It can be done.  (Enter within a command that inserts has to be written as `begin`, keys, `enter` and `leave`.)  A
suggestion can be taken on the new line, and an entry found; where there is none, Right can be pressed at the end during an insertion. -/
def Rack.Can (C : CharClass) (entries : List Text) (r : Rack) : Act → Prop
  | .command c => ∃ b, r.hand = .board b ∧ b.Can C c ∧ .char '\n' ∉ c.keys
  | .begin op ds => ∃ b, r.hand = .board b ∧ Digits ds ∧ op.Can b.last b.text
  | .key k => ∃ p full last, r.hand = .pen p full last ∧ WritingKey k ∧
      (k = .right → p.right ≠ [] ∨ (r.shelf.shown = none ∧ hint entries p.text = none))
  | .leave => ∃ p full last, r.hand = .pen p full last
  | .enter => r.hand.left.getLast? = some '\\'
  | .turn _ letter => letter = true → ∃ b, r.hand = .board b
  | .take right => r.shelf.shown = none ∧ hint entries r.hand.text ≠ none ∧ (right = true → r.hand.AtEnd)
  | .search forward more right => r.shelf.shown = none ∧ r.shelf.finds entries r.hand.text forward more ≠ none ∧
      (right = true → r.hand.AtEnd)
  | .quest forward more right => ∃ p full last, r.hand = .pen p full last ∧ r.shelf.shown = none ∧
      Hunts.Can entries forward more (r.shelf.hunt entries p forward) ∧
      ∀ x, Hunts entries forward more (r.shelf.hunt entries p forward) x → quarry entries x ≠ none ∧ (right = true → x.1.right = [])

/-- Before another line is shown, the line is put on the shelf.  (An entry that is as it was may not have been copied.) -/
def Rack.Put (entries : List Text) (r : Rack) (f : Shelf) : Prop :=
  ∃ l, r.hand.Left l ∧ match r.shelf.shown with
    | none => f = { r.shelf with new := l }
    | some i => f = { r.shelf with copy := l } ∨ (l.text = entries[i]?.getD [] ∧ f = r.shelf)

/-- Enter, and taking a suggestion, give up the walk through the entries met. -/
def Shelf.quit (f : Shelf) : Shelf := { f with met := [], walk := none }

/-- What it does. -/
inductive Rack.Step (C : CharClass) (entries : List Text) : Act → Rack → Rack → Prop
  | command {c : Command} {b b' : Board} {f : Shelf} (h : b.Step C c b') :
      Rack.Step C entries (.command c) ⟨.board b, f⟩ ⟨.board b', f⟩
  | begin {op : Opening} {ds : List Char} {b : Board} {f : Shelf} {p : Text × Text}
      (h : Opens C (op.total b.times ds) b.left b.right op p) :
      Rack.Step C entries (.begin op ds) ⟨.board b, f⟩ ⟨.pen (b.pen op ds p) b.full (op.search b.last), f⟩
  | key {k : Key} {p p' : Pen} {full : Bool} {last : Option (Char × CharMovement)} {f : Shelf} (h : Pen.Step k p p') :
      Rack.Step C entries (.key k) ⟨.pen p full last, f⟩ ⟨.pen p' full last, f⟩
  | leave {p : Pen} {full : Bool} {last : Option (Char × CharMovement)} {f : Shelf} {b0 b : Board} (h0 : b0.full = full)
      (h1 : b0.last = last) (h : p.Ends b0 b) :
      Rack.Step C entries .leave ⟨.pen p full last, f⟩ ⟨.board b, f⟩
  | enter {b b' : Board} {f : Shelf} (h : b.Step C .enter b') :
      Rack.Step C entries .enter ⟨.board b, f⟩ ⟨.board b', f.quit⟩
  | enterPen {p p' : Pen} {full : Bool} {last : Option (Char × CharMovement)} {f : Shelf} (h : Pen.Step (.char '\n') p p') :
      Rack.Step C entries .enter ⟨.pen p full last, f⟩ ⟨.pen p' full last, f.quit⟩
  | turn {up letter : Bool} {r : Rack} {f f' : Shelf} (h : r.Put entries f)
      (hf : f' = if up then f.up entries else f.down entries) :
      Rack.Step C entries (.turn up letter) r ⟨r.hand.over (f'.leaf entries), f'⟩
  | take {right : Bool} {r : Rack} {x : Text} (h : hint entries r.hand.text = some x) :
      Rack.Step C entries (.take right) r ⟨r.hand.took x, r.shelf.quit⟩
  | search {forward : Bool} {more : List Bool} {right : Bool} {r : Rack} {x : Text}
      (h : r.shelf.finds entries r.hand.text forward more = some x) :
      Rack.Step C entries (.search forward more right) r ⟨r.hand.found x, r.shelf.quit⟩
  | quest {forward : Bool} {more : List Key} {right : Bool} {p p' : Pen} {full : Bool} {last : Option (Char × CharMovement)} {f : Shelf}
      {k : Option Nat} {x : Text} (h : Hunts entries forward more (f.hunt entries p forward) (p', k)) (hx : quarry entries (p', k) = some x) :
      Rack.Step C entries (.quest forward more right) ⟨.pen p full last, f⟩ ⟨.pen { p' with left := x, right := [] } full last, f.quit⟩

/-- What can be done one after the other. -/
def Rack.CanAll (C : CharClass) (entries : List Text) : List Act → Rack → Prop
  | [], _ => True
  | a :: as, r => r.Can C entries a ∧ ∀ r', Rack.Step C entries a r r' → Rack.CanAll C entries as r'

inductive Rack.Steps (C : CharClass) (entries : List Text) : List Act → Rack → Rack → Prop
  | nil (r : Rack) : Rack.Steps C entries [] r r
  | cons {a : Act} {as : List Act} {r r1 r' : Rack} (h : Rack.Step C entries a r r1) (t : Rack.Steps C entries as r1 r') :
      Rack.Steps C entries (a :: as) r r'

/-- A line that begins with the text `d`: it begins with an insertion. -/
def Rack.fresh (d : Text) : Rack := ⟨.pen (.first d) true none, { new := { text := d } }⟩

/-- The line and the place among the entries that contain it, after what was done on a line that begins with `d`, the
beginning of a search, and more keys. -/
def Hunted (C : CharClass) (entries : List Text) (as : List Act) (d : Text) (forward : Bool) (more : List Key) (x : Pen × Option Nat) : Prop :=
  ∃ r p full last, Rack.Steps C entries as (.fresh d) r ∧ r.hand = .pen p full last ∧
    Hunts entries forward more (r.shelf.hunt entries p forward) x

end Liner.Spec
