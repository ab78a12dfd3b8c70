import Verif.Spec.Vi
/-
The vi commands on a line, without modes, keys or logs: the line, the cursor, the count, the last character
search, the last change and the texts that undo brings back.
-/

namespace Liner.Spec
open Liner

/-- The character search remembered after the keys of a motion. -/
def Motion.search (ks : List Key) (last : Option (Char × CharMovement)) : Motion → Option (Char × CharMovement)
  | .find mv c => match ks with
    | [_, _] => some (c, mv)
    | _ => last
  | _ => last

/-- The character search remembered after a change. -/
def Change.search (last : Option (Char × CharMovement)) : Change → Option (Char × CharMovement)
  | .delete m ks => m.search ks last
  | .change m ks _ => m.search ks last
  | _ => last

/-- The count left behind by a change: `~` does not take it away. -/
def Change.leaves (n : Nat) : Change → Nat
  | .toggle => n
  | _ => 0

/-- The count with which `.` will repeat the change: that of `D` and of a character search is not kept. -/
def Change.keeps (n : Nat) : Change → Nat
  | .cutEnd => 1
  | .delete (.find _ _) _ => 1
  | .change (.find _ _) _ _ => 1
  | _ => n

/-! ### Insertions -/

/-- What begins an insertion. -/
inductive Opening where
  /-- `i`, `a`, `I` or `A` -/
  | insert (c : Char)
  /-- `s` -/
  | subst
  /-- `c` and a motion, with the keys for it -/
  | change (m : Motion) (ks : List Key)
  /-- `cc` -/
  | line
  /-- `C` -/
  | tail

/-- The keys, with digits after `c`. -/
def Opening.keys (ds : List Char) : Opening → List Key
  | .insert c => [.char c]
  | .subst => [.char 's']
  | .change _ ks => .char 'c' :: (ds.map Key.char ++ ks)
  | .line => .char 'c' :: (ds.map Key.char ++ [.char 'c'])
  | .tail => [.char 'C']

/-- It is possible, `last` being the last character search. -/
def Opening.Can (last : Option (Char × CharMovement)) (t : Text) : Opening → Prop
  | .insert c => c ∈ ['i', 'a', 'I', 'A']
  | .change m ks => ks ∈ m.keys last ∧ (m.inclusive = true → t ≠ [])
  | _ => True

/-- The change that `.` will repeat if the keys `ts` are typed: neither `cc` nor `C` is repeated as it was. -/
def Opening.making (ts : List Key) : Opening → Option Change
  | .insert c => some (.insert c ts)
  | .subst => some (.subst ts)
  | .change m ks => some (.change m ks ts)
  | _ => none

/-- The count, from the count before it and the digits after `c`. -/
def Opening.total (n : Nat) (ds : List Char) : Opening → Nat
  | .change _ _ => if ds = [] then n else min (n * counted ds) 4294967295
  | _ => n

/-- How many more times than once the keys are typed. -/
def Opening.more (n : Nat) : Opening → Nat
  | .insert _ => n - 1
  | _ => 0

/-- The count kept for `.` if the keys are typed once. -/
def Opening.keeps (n : Nat) : Opening → Nat
  | .subst => n
  | .change (.find _ _) _ => 1
  | .change _ _ => n
  | _ => 1

/-- The character search remembered. -/
def Opening.search (last : Option (Char × CharMovement)) : Opening → Option (Char × CharMovement)
  | .change m ks => m.search ks last
  | _ => last

/-- Between which texts the typing begins, with the count `n`. -/
def Opens (C : CharClass) (n : Nat) (l r : Text) : Opening → Text × Text → Prop
  | .insert c, p => (c, p) ∈ [('i', l, r), ('a', l ++ r.take 1, r.drop 1), ('I', [], l ++ r), ('A', l ++ r, [])]
  | .subst, p => p = (l, r.drop n)
  | .change m _, p => ∃ q, Leads C (l ++ r) l.length n m q ∧
      p = ((l ++ r).take (min l.length q), (l ++ r).drop (max l.length q + if m.inclusive then 1 else 0))
  | .line, p => p = ([], [])
  | .tail, p => p = (l, [])

/-- A key that moves the cursor during an insertion. -/
def Moves (k : Key) : Prop := k = .left ∨ k = .home ∨ k = .end ∨ k = .right

def moveKey : Text × Text → Key → Text × Text
  | (l, r), .left => (l.dropLast, l.drop (l.length - 1) ++ r)
  | (l, r), .home => ([], l ++ r)
  | (l, r), .end => (l ++ r, [])
  | (l, r), .right => (l ++ r.take 1, r.drop 1)
  | p, _ => p

/-- A key without any meaning. -/
def Inert (k : Key) : Prop := (∃ c, k = .alt c) ∨ k = .null ∨ ∃ n, k = .other n

/-- What there is to know during an insertion. -/
structure Pen where
  left : Text
  right : Text
  /-- what began it, and the keys typed since then -/
  how : Opening
  typed : List Key
  /-- how many more times they are typed with Esc -/
  more : Nat
  /-- the count with which `.` repeats it, if they are not -/
  times : Nat
  /-- nothing has been typed since the cursor was moved -/
  moved : Bool
  /-- the text before the step that undo takes back next, and the texts before that one -/
  since : Text
  past : List Text

def Pen.text (p : Pen) : Text := p.left ++ p.right

/-- A key during an insertion: what is typed after the cursor was moved is an insertion of its own.  Enter after a
backslash goes into the line, but is not one of the keys that are typed again. -/
inductive Pen.Step : Key → Pen → Pen → Prop
  | type {k : Key} {p : Pen} (h : Types k) (hm : p.moved = false) :
      Pen.Step k p { p with left := (typeKey (p.left, p.right) k).1, right := (typeKey (p.left, p.right) k).2,
                            typed := p.typed ++ [k] }
  | restart {k : Key} {p : Pen} {past : List Text} (h : Types k) (hm : p.moved = true)
      (hp : past = p.since :: p.past ∨ (p.text = p.since ∧ past = p.past)) :
      Pen.Step k p { p with left := (typeKey (p.left, p.right) k).1, right := (typeKey (p.left, p.right) k).2,
                            how := .insert 'i', typed := [k], moved := false, since := p.text, past := past }
  | move {k : Key} {p : Pen} (h : Moves k) :
      Pen.Step k p { p with left := (moveKey (p.left, p.right) k).1, right := (moveKey (p.left, p.right) k).2,
                            more := 0, moved := true }
  | inert {k : Key} {p : Pen} (h : Inert k) : Pen.Step k p p
  | enter {p : Pen} (h : p.left.getLast? = some '\\') : Pen.Step (.char '\n') p { p with left := p.left ++ ['\n'] }

inductive Pen.Steps : List Key → Pen → Pen → Prop
  | nil (p : Pen) : Pen.Steps [] p p
  | cons {k : Key} {ks : List Key} {p p1 p' : Pen} (h : Pen.Step k p p1) (t : Pen.Steps ks p1 p') :
      Pen.Steps (k :: ks) p p'

/-- A key for an insertion. -/
def WritingKey (k : Key) : Prop := Types k ∨ Moves k ∨ Inert k

/-- The keys can be typed, one after the other: at the end of the line Right would take the suggestion, and Enter without
a backslash would end the line. -/
def Pen.CanAll : List Key → Pen → Prop
  | [], _ => True
  | k :: ks, p => ((WritingKey k ∧ (k = .right → p.right ≠ [])) ∨ (k = .char '\n' ∧ p.left.getLast? = some '\\')) ∧
      ∀ p', Pen.Step k p p' → Pen.CanAll ks p'

/-- What there is to know between two commands. -/
structure Board where
  text : Text
  cur : Nat
  /-- the count, 0 if there is none -/
  count : Nat
  last : Option (Char × CharMovement)
  /-- the last change and the count with which `.` repeats it, if known -/
  done : Option (Change × Nat)
  /-- the texts that undo brings back, the nearest first -/
  past : List Text
  /-- before these there is nothing to undo -/
  full : Bool

/-- How often the next command is done. -/
def Board.times (b : Board) : Nat := if b.count = 0 then 1 else b.count

/-- The text before the cursor and from it on. -/
def Board.left (b : Board) : Text := b.text.take b.cur
def Board.right (b : Board) : Text := b.text.drop b.cur

/-- Commands. -/
inductive Command where
  /-- a digit; `0` without a count before it leads to the beginning of the line -/
  | digit (d : Char)
  | move (m : Motion) (ks : List Key)
  | make (ch : Change) (ds : List Char)
  /-- an insertion, with keys that also move the cursor, and Esc -/
  | write (op : Opening) (ds : List Char) (ks : List Key)
  /-- `dd` -/
  | clear (ds : List Char)
  /-- Home and End -/
  | edge (last : Bool)
  /-- a key that waits for another one and does not get it -/
  | giveUp (c : Char) (ds : List Char)
  /-- a key without meaning -/
  | inert (k : Key)
  /-- `.` -/
  | again
  /-- `u` -/
  | undo
  /-- Esc -/
  | cancel
  /-- Enter after a backslash -/
  | enter

def Command.keys : Command → List Key
  | .digit d => [.char d]
  | .move _ ks => ks
  | .make ch ds => ch.keys ds
  | .write op ds ks => op.keys ds ++ ks ++ [.esc]
  | .clear ds => .char 'd' :: (ds.map Key.char ++ [.char 'd'])
  | .edge last => [if last then .end else .home]
  | .giveUp c ds => .char c :: (ds.map Key.char ++ [.esc])
  | .inert k => [k]
  | .again => [.char '.']
  | .undo => [.char 'u']
  | .cancel => [.esc]
  | .enter => [.char '\n']

/-- The beginning of an insertion. -/
def Board.pen (b : Board) (op : Opening) (ds : List Char) (p : Text × Text) : Pen :=
  ⟨p.1, p.2, op, [], op.more (op.total b.times ds), op.keeps (op.total b.times ds), false, b.text, b.past⟩

/-- The command can be given.  (The key Right takes the suggestion if the cursor is on the last character.) -/
def Board.Can (C : CharClass) (b : Board) : Command → Prop
  | .digit d => d ∈ digitChars
  | .move m ks => ks ∈ m.keys b.last ∨ (m = .right ∧ ks = [.right] ∧ b.cur + 1 < b.text.length)
  | .make ch ds => Digits ds ∧ ch.Can b.last b.text
  | .write op ds ks => Digits ds ∧ op.Can b.last b.text ∧
      ∀ p, Opens C (op.total b.times ds) b.left b.right op p → Pen.CanAll ks (b.pen op ds p)
  | .clear ds => Digits ds
  | .edge _ => True
  | .giveUp c ds => (c = 'd' ∧ Digits ds) ∨ (c ∈ ['r', 'g', 'f', 'F', 't', 'T'] ∧ ds = [])
  | .inert k => Inert k
  | .again => ∃ ch n, b.done = some (ch, n) ∧ ch.Can b.last b.text
  | .undo => b.full = true ∨ b.times ≤ b.past.length
  | .cancel => True
  | .enter => b.left.getLast? = some '\\'

/-- A change is a step for undo if it changes the text.  (If it does not, it may be one.) -/
def Board.Noted (b b' : Board) : Prop :=
  b'.full = b.full ∧ (b'.past = b.text :: b.past ∨ (b'.text = b.text ∧ b'.past = b.past))

/-- The change, `n` times. -/
structure Board.Does (C : CharClass) (b : Board) (ch : Change) (n : Nat) (b' : Board) : Prop where
  changes : Changes C n b.left b.right b'.text b'.cur ch
  last : b'.last = ch.search b.last
  noted : b.Noted b'

/-- The change is `r` with a count that leads beyond the end of the line, which does nothing and is not
remembered. -/
def Board.Short (b : Board) (ch : Change) : Prop := ∃ c, ch = .replace c ∧ b.right.length < b.times

/-- What Esc leaves of an insertion; the character search and the beginning of the texts for undo are as in `b`. -/
structure Pen.Ends (p : Pen) (b b' : Board) : Prop where
  typed : ∃ l r, (List.replicate p.more p.typed).flatten.foldl typeKey (p.left, p.right) = (l, r) ∧
    b'.text = l ++ r ∧ b'.cur = l.length - 1
  count : b'.count = 0
  last : b'.last = b.last
  done : b'.done = (p.how.making p.typed).map fun ch => (ch, if p.more = 0 then p.times else p.more + 1)
  past : b'.past = p.since :: p.past ∨ (b'.text = p.since ∧ b'.past = p.past)
  full : b'.full = b.full

/-- What the command does. -/
def Board.Step (C : CharClass) (b : Board) (c : Command) (b' : Board) : Prop :=
  match c with
  | .digit d =>
    if d = '0' ∧ b.count = 0 then b' = { b with cur := 0 }
    else b' = { b with count := min (10 * b.count + digitValue d) 4294967295 }
  | .move m ks => ∃ q, Leads C b.text b.cur b.times m q ∧
      b' = { b with cur := min q (b.text.length - 1), count := 0, last := m.search ks b.last }
  | .make ch ds => b.Does C ch (ch.total b.times ds) b' ∧ b'.count = ch.leaves b.count ∧
      (¬ b.Short ch → b'.done = some (ch, ch.keeps (ch.total b.times ds))) ∧ (b.Short ch → b'.done = b.done)
  | .write op ds ks => ∃ p pen, Opens C (op.total b.times ds) b.left b.right op p ∧ Pen.Steps ks (b.pen op ds p) pen ∧
      pen.Ends { b with last := op.search b.last } b'
  | .clear _ => b'.text = [] ∧ b'.cur = 0 ∧ b'.count = 0 ∧ b'.last = b.last ∧ b'.done = b.done ∧ b.Noted b'
  | .edge last => b' = { b with cur := if last then b.text.length - 1 else 0 }
  | .giveUp _ _ => b' = { b with count := 0 }
  | .inert _ => b' = b
  | .again => ∃ ch k, b.done = some (ch, k) ∧
      ∃ n, n = (if b.count = 0 then k else b.count) ∧ b.Does C ch n b' ∧ b'.count = ch.leaves n ∧
        b'.done = some (ch, ch.keeps n)
  | .undo => b'.count = 0 ∧ b'.last = b.last ∧ b'.done = b.done ∧ b'.full = b.full ∧
      b'.past = b.past.drop b.times ∧
      (b.text :: b.past)[min b.times b.past.length]? = some b'.text ∧
      (b'.cur = b'.text.length - 1 ∨ (b.past = [] ∧ b'.cur = b.cur))
  | .cancel => b' = { b with count := 0 }
  | .enter => b'.text = b.left ++ '\n' :: b.right ∧ b'.cur = b.cur + 1 ∧ b'.count = b.count ∧ b'.last = b.last ∧ b'.done = b.done ∧
      b.Noted b'

/-- Before the first key of a line that begins with the text `d`. -/
def Board.fresh (d : Text) : Board := ⟨d, d.length, 0, none, none, [], true⟩

/-- After the first insertion of a line that begins with the text `d`, ended with Esc. -/
def Board.Begun (d : Text) (ks : List Key) (b : Board) : Prop :=
  ∃ pen, Pen.Steps ks ((Board.fresh d).pen (.insert 'i') [] (d, [])) pen ∧ pen.Ends (Board.fresh d) b

/-- The commands can be given, one after the other. -/
def Board.CanAll (C : CharClass) : List Command → Board → Prop
  | [], _ => True
  | c :: cs, b => b.Can C c ∧ ∀ b', b.Step C c b' → Board.CanAll C cs b'

/-- What the commands do. -/
inductive Board.Steps (C : CharClass) : List Command → Board → Board → Prop
  | nil (b : Board) : Board.Steps C [] b b
  | cons {c : Command} {cs : List Command} {b b1 b' : Board} (h : b.Step C c b1) (t : Board.Steps C cs b1 b') :
      Board.Steps C (c :: cs) b b'

/-- The boards agree, but for undo. -/
def Board.Same (b b' : Board) : Prop :=
  b'.text = b.text ∧ b'.cur = b.cur ∧ b'.count = b.count ∧ b'.last = b.last ∧ b'.done = b.done

/-- Changes that can be made on every line, after any character search. -/
def Change.Always : Change → Prop
  | .delete m ks => ks ∈ m.keys none ∧ m.inclusive = false
  | .change m ks ts => ks ∈ m.keys none ∧ m.inclusive = false ∧ ∀ k ∈ ts, Types k
  | ch => ch.Can none []

/-- Insertions that can be begun on every line, and that `.` can repeat. -/
def Opening.Always : Opening → Prop
  | .insert c => c ∈ ['i', 'a', 'I', 'A']
  | .subst => True
  | .change m ks => ks ∈ m.keys none ∧ m.inclusive = false
  | _ => False

/-- Commands that can always be given, once there is a last change. -/
def Command.Always : Command → Prop
  | .digit d => d ∈ digitChars
  | .move m ks => ks ∈ m.keys none
  | .make ch ds => Digits ds ∧ ch.Always
  | .write op ds ks => Digits ds ∧ op.Always ∧ ∀ k ∈ ks, WritingKey k ∧ k ≠ .right
  | .clear ds => Digits ds
  | .giveUp c ds => (c = 'd' ∧ Digits ds) ∨ (c ∈ ['r', 'g', 'f', 'F', 't', 'T'] ∧ ds = [])
  | .inert k => Inert k
  | .edge _ | .again | .undo | .cancel => True
  | .enter => False

end Liner.Spec
