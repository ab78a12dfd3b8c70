/-
Model of /repo/src/buffer.rs.

`Vec<char>` is `List Char`.  Both action stacks are kept with the element that `pop` would return
first at the head of the list.  A panic is `none`.
-/

namespace Liner

/-- Text: `Vec<char>`, `&[char]`, `String` and `&str` all become lists of Unicode scalar values. -/
abbrev Text := List Char

/-- `enum Action`, src/buffer.rs:8-13. -/
inductive Action where
  | insert (start : Nat) (text : Text)
  | remove (start : Nat) (text : Text)
  | startGroup
  | endGroup
deriving DecidableEq, Repr

/-- `Buffer::remove_raw`, src/buffer.rs:306-308: `self.data.drain(start..end).collect()`.
Returns the drained characters and the remaining data; `drain` panics when `start > end` or
`end > len`. -/
def removeRaw (data : Text) (start stop : Nat) : Option (Text × Text) :=
  if start ≤ stop ∧ stop ≤ data.length then
    some ((data.drop start).take (stop - start), data.take start ++ data.drop stop)
  else
    none

/-- `Buffer::insert_raw`, src/buffer.rs:310-314: inserts the characters one by one;
`Vec::insert(index, _)` panics when `index > len`.  With an empty `text` the loop body never runs,
so nothing is checked. -/
def insertRaw : Text → Nat → Text → Option Text
  | data, _, [] => some data
  | data, start, c :: cs =>
    if start ≤ data.length then
      insertRaw (data.take start ++ c :: data.drop start) (start + 1) cs
    else
      none

/-- `Action::do_on`, src/buffer.rs:16-24, on the text of the buffer. -/
def Action.doOn (a : Action) (data : Text) : Option Text :=
  match a with
  | .insert start text => insertRaw data start text
  | .remove start text => (removeRaw data start (start + text.length)).map Prod.snd
  | .startGroup => some data
  | .endGroup => some data

/-- `Action::undo`, src/buffer.rs:26-34, on the text of the buffer. -/
def Action.undo (a : Action) (data : Text) : Option Text :=
  match a with
  | .insert start text => (removeRaw data start (start + text.length)).map Prod.snd
  | .remove start text => insertRaw data start text
  | .startGroup => some data
  | .endGroup => some data

/-- `struct Buffer`, src/buffer.rs:41-45.  `actions` and `undone` have the top of the Rust stack at
the head.  (`PartialEq`, src/buffer.rs:47-51, compares `data` only: see `Buffer.eq`.) -/
structure Buffer where
  data : Text := []
  actions : List Action := []
  undone : List Action := []
deriving Repr, DecidableEq

namespace Buffer

/-- `impl PartialEq for Buffer`, src/buffer.rs:47-51. -/
def eq (a b : Buffer) : Bool := a.data == b.data

/-- `Buffer::new`, src/buffer.rs:98-104. -/
def new : Buffer := { data := [], actions := [], undone := [] }

/-- `From<String>`, `From<&str>`, `FromIterator<char>`, src/buffer.rs:60-89. -/
def ofText (s : Text) : Buffer := { data := s, actions := [], undone := [] }

/-- `From<Buffer> for String` and `Display`, src/buffer.rs:54-58, 72-79. -/
def toText (b : Buffer) : Text := b.data

/-- `Buffer::clear_actions`, src/buffer.rs:106-109. -/
def clearActions (b : Buffer) : Buffer := { b with actions := [], undone := [] }

/-- `Buffer::start_undo_group`, src/buffer.rs:111-113.  The undone stack is not cleared. -/
def startUndoGroup (b : Buffer) : Buffer := { b with actions := .startGroup :: b.actions }

/-- `Buffer::end_undo_group`, src/buffer.rs:115-117. -/
def endUndoGroup (b : Buffer) : Buffer := { b with actions := .endGroup :: b.actions }

/-- `group_nest` after one iteration of the undo loop, src/buffer.rs:128-136. -/
def undoNest (act : Action) (nest : Int) : Int :=
  match act with
  | .endGroup => nest + 1
  | .startGroup => nest - 1
  | _ => nest

/-- `group_count` after one iteration of the undo loop, src/buffer.rs:128-136. -/
def undoCount (act : Action) (count : Nat) : Nat :=
  match act with
  | .endGroup => 0
  | .startGroup => count
  | _ => count + 1

/-- `group_nest` after one iteration of the redo loop, src/buffer.rs:155-163. -/
def redoNest (act : Action) (nest : Int) : Int :=
  match act with
  | .startGroup => nest + 1
  | .endGroup => nest - 1
  | _ => nest

/-- `group_count` after one iteration of the redo loop, src/buffer.rs:155-163. -/
def redoCount (act : Action) (count : Nat) : Nat :=
  match act with
  | .startGroup => 0
  | .endGroup => count
  | _ => count + 1

/-- The `while let` loop of `Buffer::undo`, src/buffer.rs:125-142, with `group_nest` (an `i32`,
here `Int`) and `group_count`. -/
def undoLoop : List Action → Text → List Action → Int → Nat → Option Buffer
  | [], data, undone, _, _ => some { data := data, actions := [], undone := undone }
  | act :: rest, data, undone, nest, count =>
    match act.undo data with
    | none => none
    | some data =>
      let nest' := undoNest act nest
      let count' := undoCount act count
      if nest' = 0 ∧ count' > 0 then
        some { data := data, actions := rest, undone := act :: undone }
      else
        undoLoop rest data (act :: undone) nest' count'

/-- `Buffer::undo`, src/buffer.rs:119-144. -/
def undo (b : Buffer) : Option (Bool × Buffer) :=
  (undoLoop b.actions b.data b.undone 0 0).map fun b' => (!b.actions.isEmpty, b')

/-- The `while let` loop of `Buffer::redo`, src/buffer.rs:152-169. -/
def redoLoop : List Action → Text → List Action → Int → Nat → Option Buffer
  | [], data, actions, _, _ => some { data := data, actions := actions, undone := [] }
  | act :: rest, data, actions, nest, count =>
    match act.doOn data with
    | none => none
    | some data =>
      let nest' := redoNest act nest
      let count' := redoCount act count
      if nest' = 0 ∧ count' > 0 then
        some { data := data, actions := act :: actions, undone := rest }
      else
        redoLoop rest data (act :: actions) nest' count'

/-- `Buffer::redo`, src/buffer.rs:146-171. -/
def redo (b : Buffer) : Option (Bool × Buffer) :=
  (redoLoop b.undone b.data b.actions 0 0).map fun b' => (!b.undone.isEmpty, b')

/-- `while self.undo() {}`, src/buffer.rs:178.  The first argument only bounds the number of
iterations; running out of it is an error (`none`), and `Props` shows this never happens for the
bound used in `revert`. -/
def revertLoop : Nat → Buffer → Option Buffer
  | 0, _ => none
  | n + 1, b =>
    match b.undo with
    | none => none
    | some (true, b') => revertLoop n b'
    | some (false, b') => some b'

/-- `Buffer::revert`, src/buffer.rs:173-180. -/
def revert (b : Buffer) : Option (Bool × Buffer) :=
  if b.actions.isEmpty then some (false, b)
  else (revertLoop (b.actions.length + 1) b).map fun b' => (true, b')

/-- `Buffer::push_action`, src/buffer.rs:182-185. -/
def pushAction (b : Buffer) (act : Action) : Buffer :=
  { b with actions := act :: b.actions, undone := [] }

/-- `slice::split` with a predicate: the pieces between the matching elements (at least one
piece).  Used for src/buffer.rs:189, 258, 265. -/
def splitOn (p : Char → Bool) : Text → List Text
  | [] => [[]]
  | c :: cs =>
    if p c then [] :: splitOn p cs
    else match splitOn p cs with
      | [] => [[c]]
      | h :: t => (c :: h) :: t

/-- `Buffer::last_arg`, src/buffer.rs:187-192. -/
def lastArg (b : Buffer) : Option Text :=
  ((splitOn (· == ' ') b.data).filter (fun s => !s.isEmpty)).getLast?

/-- `Buffer::num_chars`, src/buffer.rs:194-196. -/
def numChars (b : Buffer) : Nat := b.data.length

/-- Byte length of a `String`/`str`. -/
def byteLen (s : Text) : Nat := (s.map Char.utf8Size).sum

/-- `Buffer::num_bytes`, src/buffer.rs:198-201. -/
def numBytes (b : Buffer) : Nat := byteLen b.data

/-- `Buffer::char_before`, src/buffer.rs:203-209. -/
def charBefore (b : Buffer) (cursor : Nat) : Option Char :=
  if cursor = 0 then none else b.data[cursor - 1]?

/-- `Buffer::char_after`, src/buffer.rs:211-213. -/
def charAfter (b : Buffer) (cursor : Nat) : Option Char := b.data[cursor]?

/-- `Buffer::remove`, src/buffer.rs:216-221. -/
def remove (b : Buffer) (start stop : Nat) : Option (Nat × Buffer) :=
  match removeRaw b.data start stop with
  | none => none
  | some (s, data) => some (s.length, { b with data := data }.pushAction (.remove start s))

/-- `Buffer::insert`, src/buffer.rs:223-230. -/
def insert (b : Buffer) (start : Nat) (text : Text) : Option Buffer :=
  let act := Action.insert start text
  match act.doOn b.data with
  | none => none
  | some data => some ({ b with data := data }.pushAction act)

/-- `Buffer::insert_from_buffer`, src/buffer.rs:233-236.  `&other.data[start..]` panics when
`start > other.len`. -/
def insertFromBuffer (b other : Buffer) : Option Buffer :=
  let start := b.data.length
  if start ≤ other.data.length then b.insert start (other.data.drop start) else none

/-- `Buffer::copy_buffer`, src/buffer.rs:238-242. -/
def copyBuffer (b other : Buffer) : Option Buffer :=
  match b.remove 0 b.data.length with
  | none => none
  | some (_, b') => b'.insert 0 other.data

/-- `Buffer::range` and `Buffer::range_chars`, src/buffer.rs:244-250. -/
def range (b : Buffer) (start stop : Nat) : Option Text :=
  if start ≤ stop ∧ stop ≤ b.data.length then some ((b.data.drop start).take (stop - start)) else none

/-- `Buffer::range_width`, src/buffer.rs:256-261, for a string-width function `sw`
(`UnicodeWidthStr::width`). -/
def rangeWidth (sw : Text → Nat) (b : Buffer) (start stop : Nat) : Option (List Nat) :=
  (b.range start stop).map fun s => (splitOn (· == '\n') s).map sw

/-- `Buffer::width`, src/buffer.rs:252-254. -/
def width (sw : Text → Nat) (b : Buffer) : List Nat := (splitOn (· == '\n') b.data).map sw

/-- `Buffer::lines`, src/buffer.rs:263-268. -/
def lines (b : Buffer) : List Text := splitOn (· == '\n') b.data

/-- `Buffer::truncate`, src/buffer.rs:274-277. -/
def truncate (b : Buffer) (num : Nat) : Option Buffer :=
  (b.remove num b.data.length).map Prod.snd

/-- `Buffer::print`, src/buffer.rs:279-285, and `as_bytes`, src/buffer.rs:287-291: the characters
written. -/
def print (b : Buffer) : Text := b.data

/-- `Buffer::print_rest`, src/buffer.rs:296-304: the characters written and the returned byte
count. -/
def printRest (b : Buffer) (after : Nat) : Text × Nat :=
  (b.data.drop after, byteLen (b.data.drop after))

/-- `Buffer::starts_with`, src/buffer.rs:318-332. -/
def startsWith (b other : Buffer) : Bool :=
  if !other.data.isEmpty && b.data.length != other.data.length then
    ((b.data.zip other.data).takeWhile (fun p => p.1 == p.2)).length == other.data.length
  else
    false

/-- `slice::windows(n)` for `n > 0`. -/
def windows (n : Nat) (data : Text) : List Text :=
  (List.range (data.length + 1 - n)).map fun i => (data.drop i).take n

/-- `Buffer::contains`, src/buffer.rs:336-344. -/
def contains (b pattern : Buffer) : Bool :=
  if pattern.data.isEmpty then false
  else (windows pattern.data.length b.data).any (· == pattern.data)

/-- `Buffer::is_empty`, src/buffer.rs:347-349. -/
def isEmpty (b : Buffer) : Bool := b.data.isEmpty

end Buffer
end Liner
