import Verif.Model.KeyMap
/-
Model of /repo/src/keymap/vi.rs.

`handle_key_core` and `repeat` call each other (`.` replays keys).  The model gives this recursion
a depth bound, `fuel`; running out of it counts as a panic.  The counts are `u32` with saturating
arithmetic.
-/

namespace Liner

/-- `enum CharMovement` without `Repeat` and `ReverseRepeat`, src/keymap/vi.rs:9-16: those two are only
ever arguments of `handle_key_move_to_char`, and are modelled by `MoveArg`. -/
inductive CharMovement where
  | rightUntil | rightAt | leftUntil | leftAt
deriving DecidableEq, Repr

/-- The `movement` argument of `handle_key_move_to_char`. -/
inductive MoveArg where
  | dir (m : CharMovement)
  | repeat | reverseRepeat
deriving DecidableEq, Repr

/-- `enum Mode`, src/keymap/vi.rs:26-34. -/
inductive Mode where
  | insert | normal | replace
  | delete (start : Nat)
  | moveToChar (m : CharMovement)
  | g | tilde
deriving DecidableEq, Repr

/-- `struct Vi`, src/keymap/vi.rs:317-328, with the defaults of 330-346.  The mode stack has its top
at the head. -/
structure Vi where
  modeStack : List Mode := [.insert]
  currentCommand : List Key := []
  lastCommand : List Key := []
  currentInsert : Option Key := none
  lastInsert : Option Key := some (.char 'i')
  count : Nat := 0
  secondaryCount : Nat := 0
  lastCount : Nat := 0
  movementReset : Bool := false
  lastCharMovement : Option (Char × CharMovement) := none
deriving Repr

namespace Vi
open M KM

/-- `ModeStack::mode`, `Vi::mode`, src/keymap/vi.rs:46-48, 354-356. -/
def mode (v : Vi) : Mode := v.modeStack.headD .normal

/-- `is_movement_key`, src/keymap/vi.rs:65-92. -/
def isMovementKey : Key → Bool
  | .char c => c ∈ ['h', 'l', 'w', 'W', 'b', 'B', 'e', 'E', 'g', ' ', '^', '$', 't', 'f', 'T', 'F', ';', ',']
  | .left => true
  | .right => true
  | .backspace => true
  | .home => true
  | .end => true
  | _ => false

/-- `is_vi_keyword`, src/keymap/vi.rs:136-138. -/
def isKeyword (C : CharClass) (c : Char) : Bool := c == '_' || C.isAlphanumeric c

/-- `ViMoveDir::advance`, src/keymap/vi.rs:107-133: `none` when it cannot move.  (`right && cursor ==
max`: the cursor is never beyond `max` here.) -/
def advance (right : Bool) (cursor max : Nat) : Option Nat :=
  if right then (if cursor = max then none else some (cursor + 1))
  else if cursor = 0 then none else some (cursor - 1)

/-- `ViMoveDir::go_back`, src/keymap/vi.rs:111-116. -/
def goBack (right : Bool) (cursor max : Nat) : Nat := (advance (!right) cursor max).getD cursor

/-- The states of `vi_move_word`, src/keymap/vi.rs:165-169. -/
inductive WState where
  | whitespace | keyword | nonKeyword
deriving DecidableEq, Repr

/-- Classification of a character, src/keymap/vi.rs:176-180. -/
def classify (C : CharClass) (c : Char) : WState :=
  if C.isWhitespace c then .whitespace else if isKeyword C c then .keyword else .nonKeyword

/-- One step of the inner `match` of `vi_move_word`, src/keymap/vi.rs:189-204: `none` is `break`. -/
def wordStep (C : CharClass) (kw : Bool) (st : WState) (c : Char) : Option WState :=
  match st with
  | .whitespace => if C.isWhitespace c then some .whitespace else none
  | .keyword =>
    if C.isWhitespace c then some .whitespace
    else if kw && !isKeyword C c then none else some .keyword
  | .nonKeyword =>
    if C.isWhitespace c then some .whitespace
    else if kw && isKeyword C c then none else some .nonKeyword

/-- The inner loop of `vi_move_word`, src/keymap/vi.rs:183-205: the cursor, and whether to go on with
the next repetition (`false` is `break 'repeat`).  The first argument bounds the iterations: the
cursor moves in one direction between 0 and the length. -/
def wordLoop (C : CharClass) (kw right : Bool) (b : Buffer) : Nat → WState → Nat → Nat × Bool
  | 0, _, cursor => (cursor, true)
  | n + 1, st, cursor =>
    match advance right cursor b.numChars with
    | none => (cursor, true)
    | some cursor =>
      match b.charAfter cursor with
      | none => (cursor, false)
      | some c =>
        match wordStep C kw st c with
        | none => (cursor, true)
        | some st => wordLoop C kw right b n st cursor

/-- The outer loop of `vi_move_word`, src/keymap/vi.rs:172-206. -/
def moveWordFrom (C : CharClass) (kw right : Bool) (b : Buffer) : Nat → Nat → Nat
  | 0, cursor => cursor
  | n + 1, cursor =>
    match b.charAfter cursor with
    | none => cursor
    | some c =>
      match wordLoop C kw right b (b.numChars + 1) (classify C c) cursor with
      | (cursor, true) => moveWordFrom C kw right b n cursor
      | (cursor, false) => cursor

/-- `vi_move_word`, src/keymap/vi.rs:159-209. -/
def moveWord (E : Env) (kw right : Bool) (count : Nat) : EdM Unit := do
  let s ← get
  let b ← if count = 0 then pure s.newBuf else Editor.curBuf
  Editor.moveCursorTo E (moveWordFrom E.cc kw right b count s.cursor)

/-- The states of `vi_move_word_end`, src/keymap/vi.rs:233-238. -/
inductive EState where
  | whitespace | endOnWord | endOnOther | endOnWhitespace
deriving DecidableEq, Repr

/-- One step of the inner `match` of `vi_move_word_end`, src/keymap/vi.rs:251-281: `none` is
`go_back` and `break`. -/
def endStep (C : CharClass) (kw : Bool) (st : EState) (c : Char) : Option EState :=
  match st with
  | .whitespace =>
    if C.isWhitespace c then some .whitespace
    else if kw && isKeyword C c then some .endOnWord
    else if !kw then some .endOnWhitespace
    else some .endOnOther
  | .endOnWord => if !isKeyword C c then none else some .endOnWord
  | .endOnWhitespace => if C.isWhitespace c then none else some .endOnWhitespace
  | .endOnOther => if C.isWhitespace c || isKeyword C c then none else some .endOnOther

/-- The inner loop of `vi_move_word_end`, src/keymap/vi.rs:245-282. -/
def endLoop (C : CharClass) (kw right : Bool) (b : Buffer) : Nat → EState → Nat → Nat × Bool
  | 0, _, cursor => (cursor, true)
  | n + 1, st, cursor =>
    match advance right cursor b.numChars with
    | none => (cursor, true)
    | some cursor =>
      match b.charAfter cursor with
      | none => (cursor, false)
      | some c =>
        match endStep C kw st c with
        | none => (goBack right cursor b.numChars, true)
        | some st => endLoop C kw right b n st cursor

/-- The outer loop of `vi_move_word_end`, src/keymap/vi.rs:241-283. -/
def moveWordEndFrom (C : CharClass) (kw right : Bool) (b : Buffer) : Nat → Nat → Nat
  | 0, cursor => cursor
  | n + 1, cursor =>
    match endLoop C kw right b (b.numChars + 1) .whitespace cursor with
    | (cursor, true) => moveWordEndFrom C kw right b n cursor
    | (cursor, false) => cursor

/-- `vi_move_word_end`, src/keymap/vi.rs:227-286. -/
def moveWordEnd (E : Env) (kw right : Bool) (count : Nat) : EdM Unit := do
  let s ← get
  let b ← if count = 0 then pure s.newBuf else Editor.curBuf
  Editor.moveCursorTo E (moveWordEndFrom E.cc kw right b count s.cursor)

/-- The positions of a character, in order. -/
def positions (t : Text) (ch : Char) : List Nat :=
  (List.range t.length).filter fun i => t[i]? == some ch

/-- `find_char`, src/keymap/vi.rs:288-296 (`count > 0`). -/
def findChar (t : Text) (start : Nat) (ch : Char) (count : Nat) : Option Nat :=
  (((List.range t.length).drop start).filter fun i => t[i]? == some ch)[count - 1]?

/-- `find_char_rev`, src/keymap/vi.rs:298-308 (`count > 0`, and `start ≤ len`: the subtraction
underflows otherwise). -/
def findCharRev (t : Text) (start : Nat) (ch : Char) (count : Nat) : Option Nat :=
  (((List.range t.length).reverse.drop (t.length - start)).filter fun i => t[i]? == some ch)[count - 1]?

/-- A buffer operation that cannot panic, through `current_buffer_mut`. -/
def onBuf (f : Buffer → Buffer) : EdM Unit := Editor.curBufMut fun b => some ((), f b)

/-- `u32` arithmetic. -/
def u32max : Nat := 4294967295
def satMul (a b : Nat) : Nat := min (a * b) u32max
def satAdd (a b : Nat) : Nat := min (a + b) u32max

abbrev ViM := KM Vi

/-- `set_editor_mode`, src/keymap/vi.rs:368-381. -/
def setEditorMode (E : Env) : ViM Unit := do
  let v ← getK
  match v.mode with
  | .insert =>
    ed (Editor.setViMode .insert)
    ed (Editor.display E)
  | .normal =>
    ed (Editor.setViMode .normal)
    ed (Editor.display E)
  | _ => pure ()

/-- `ed.no_eol = ...` -/
def setNoEol (b : Bool) : ViM Unit := ed (modify fun s => { s with noEol := b })

/-- `set_mode_preserve_last`, src/keymap/vi.rs:383-399. -/
def setModePreserveLast (E : Env) (m : Mode) : ViM Unit := do
  setNoEol (m = .normal)
  modK fun v => { v with movementReset := m ≠ .insert, modeStack := m :: v.modeStack }
  setEditorMode E
  if m = .insert ∨ m = .tilde then ed (onBuf Buffer.startUndoGroup) else pure ()

/-- `set_mode`, src/keymap/vi.rs:358-366. -/
def setMode (E : Env) (m : Mode) : ViM Unit := do
  setModePreserveLast E m
  if m = .insert then modK fun v => { v with lastCount := 0, lastCommand := [] } else pure ()

/-- `ModeStack::pop`, src/keymap/vi.rs:60-62. -/
def popStack : ViM Mode := fun t =>
  .ok (t.1.modeStack.headD .normal) ({ t.1 with modeStack := t.1.modeStack.tail }, t.2)

/-- `pop_mode_after_movement`, src/keymap/vi.rs:401-445. -/
def popModeAfterMovement (E : Env) (inclusive : Bool) : ViM Unit := do
  let originalMode ← popStack
  let v ← getK
  let lastMode ← match v.mode with
    | .delete _ => popStack
    | _ => pure originalMode
  let v ← getK
  setNoEol (v.mode = .normal)
  modK fun v => { v with movementReset := v.mode ≠ .insert }
  match lastMode with
  | .delete startPos =>
    if inclusive then ed (Editor.deleteUntilInclusive E startPos)
    else ed (Editor.deleteUntil E startPos)
    modK fun v => { v with lastCommand := v.currentCommand, currentCommand := v.lastCommand,
                           lastInsert := v.currentInsert, lastCount := v.count,
                           count := 0, secondaryCount := 0 }
  | _ => pure ()
  if originalMode = .normal then modK fun v => { v with count := 0 } else pure ()
  setEditorMode E

/-- `display().unwrap()`: an I/O error becomes a panic. -/
def displayUnwrap (E : Env) : EdM Unit := fun s =>
  match Editor.display E s with
  | .ok a s => .ok a s
  | .err _ _ => .panic .ioUnwrap
  | .panic w => .panic w

/-- `pop_mode`, src/keymap/vi.rs:447-462. -/
def popMode (E : Env) : ViM Unit := do
  let lastMode ← popStack
  let v ← getK
  setNoEol (v.mode = .normal)
  modK fun v => { v with movementReset := v.mode ≠ .insert }
  if lastMode = .insert ∨ lastMode = .tilde then ed (onBuf Buffer.endUndoGroup) else pure ()
  if lastMode = .tilde then ed (displayUnwrap E) else pure ()
  setEditorMode E

/-- `normal_mode_abort`, src/keymap/vi.rs:465-470. -/
def normalModeAbort (E : Env) : ViM Unit := do
  modK fun v => { v with modeStack := [] }
  setNoEol true
  modK fun v => { v with count := 0 }
  setEditorMode E

/-- `move_count`, src/keymap/vi.rs:473-478. -/
def moveCount (v : Vi) : Nat := if v.count = 0 then 1 else v.count

/-- `move_count_left`, src/keymap/vi.rs:481-483. -/
def moveCountLeft : ViM Nat := do
  let v ← getK
  let s ← ed get
  pure (min s.cursor v.moveCount)

/-- `move_count_right`, src/keymap/vi.rs:486-491; the subtraction underflows when the cursor is past
the end. -/
def moveCountRight : ViM Nat := do
  let v ← getK
  let s ← ed get
  let b ← ed Editor.curBuf
  if b.numChars < s.cursor then M.panic else pure (min (b.numChars - s.cursor) v.moveCount)

/-- `handle_key_common`, src/keymap/vi.rs:517-535. -/
def handleKeyCommon (E : Env) (key : Key) : EdM Unit :=
  if key = .ctrl 'l' then Editor.clear E
  else match key with
    | .left => Editor.moveCursorLeft E 1
    | .right => Editor.moveCursorRight E 1
    | .up => Editor.moveUp E
    | .down => Editor.moveDown E
    | .home => Editor.moveCursorToStartOfLine E
    | .end => Editor.moveCursorToEndOfLine E
    | .backspace => Editor.deleteBeforeCursor E
    | .delete => Editor.deleteAfterCursor E
    | _ => pure ()

/-- The loop `for k in keys { self.handle_key_core(k, ed)?; }`. -/
def replay (core : Key → ViM Unit) (keys : List Key) : ViM Unit := forEach keys core

/-- The reset after a movement in insert mode, src/keymap/vi.rs:561-568, 574-581. -/
def resetInsert : ViM Unit := do
  let v ← getK
  if v.movementReset then
    ed (onBuf Buffer.endUndoGroup)
    ed (onBuf Buffer.startUndoGroup)
    modK fun v => { v with lastCommand := [], movementReset := false, lastInsert := some (.char 'i') }
  else pure ()

/-- The repetitions at the end of an insertion, src/keymap/vi.rs:547-552. -/
def insertRepeats (core : Key → ViM Unit) (n : Nat) : ViM Unit :=
  repeatN n do
    let v ← getK
    modK fun v => { v with lastCommand := [] }
    replay core v.lastCommand

/-- `handle_key_insert`, src/keymap/vi.rs:537-610. -/
def handleKeyInsert (core : Key → ViM Unit) (E : Env) (key : Key) : ViM Unit :=
  if key = .esc ∨ key = .ctrl '[' then do
    let v ← getK
    if v.count > 0 then
      modK fun v => { v with lastCount := v.count }
      insertRepeats core (v.count - 1)
      modK fun v => { v with count := 0 }
    else pure ()
    ed (Editor.moveCursorLeft E 1)
    popMode E
  else match key with
    | .char c => do
      resetInsert
      modK fun v => { v with lastCommand := v.lastCommand ++ [key] }
      ed (Editor.insertCharsAfterCursor E [c])
    | .backspace | .delete => do
      resetInsert
      modK fun v => { v with lastCommand := v.lastCommand ++ [key] }
      ed (handleKeyCommon E key)
    | .left | .right | .home | .end => do
      modK fun v => { v with count := 0, movementReset := true }
      ed (handleKeyCommon E key)
    | .up => do
      modK fun v => { v with count := 0, movementReset := true }
      ed (onBuf Buffer.endUndoGroup)
      ed (Editor.moveUp E)
      ed (onBuf Buffer.startUndoGroup)
    | .down => do
      modK fun v => { v with count := 0, movementReset := true }
      ed (onBuf Buffer.endUndoGroup)
      ed (Editor.moveDown E)
      ed (onBuf Buffer.startUndoGroup)
    | _ => ed (handleKeyCommon E key)

/-- `repeat`, src/keymap/vi.rs:493-515. -/
def repeatLast (core : Key → ViM Unit) : ViM Unit := do
  modK fun v => { v with lastCount := v.count }
  let v ← getK
  let keys := v.lastCommand
  modK fun v => { v with lastCommand := [] }
  match v.lastInsert with
  | some k => core k
  | none => pure ()
  replay core keys
  let v ← getK
  if v.lastInsert.isSome then core .esc else pure ()
  modK fun v => { v with lastCommand := keys }

/-- The movement chosen by `handle_key_move_to_char`, src/keymap/vi.rs:969-994: `none` aborts. -/
def resolveMove (key : Key) (arg : MoveArg) (last : Option (Char × CharMovement)) :
    Option (Char × CharMovement) :=
  match arg, last with
  | .repeat, some (c, m) => some (c, m)
  | .reverseRepeat, some (c, .leftUntil) => some (c, .rightUntil)
  | .reverseRepeat, some (c, .rightUntil) => some (c, .leftUntil)
  | .reverseRepeat, some (c, .leftAt) => some (c, .rightAt)
  | .reverseRepeat, some (c, .rightAt) => some (c, .leftAt)
  | .repeat, none => none
  | .reverseRepeat, none => none
  | .dir m, _ =>
    match key with
    | .char c => some (c, m)
    | _ => none

/-- Is the movement stored for `;` and `,`?  Only a fresh one, src/keymap/vi.rs:983-988. -/
def _root_.Liner.MoveArg.isDir : MoveArg → Bool
  | .dir _ => true
  | _ => false

/-- The target of a character movement, src/keymap/vi.rs:999-1029.  `i - 1` does not underflow:
`find_char` starts at `cursor + 1`.  A cursor past the end makes `find_char_rev` underflow. -/
def charTarget (t : Text) (cursor : Nat) (m : CharMovement) (c : Char) (count : Nat) :
    Option Nat :=
  match m with
  | .rightUntil => (findChar t (cursor + 1) c count).map (· - 1)
  | .rightAt => findChar t (cursor + 1) c count
  | .leftUntil => (findCharRev t cursor c count).map (· + 1)
  | .leftAt => findCharRev t cursor c count

/-- The move type, src/keymap/vi.rs:1001, 1008, 1015, 1022. -/
def _root_.Liner.CharMovement.inclusive : CharMovement → Bool
  | .rightUntil => true
  | .rightAt => true
  | _ => false

/-- `handle_key_move_to_char`, src/keymap/vi.rs:957-1038. -/
def handleKeyMoveToChar (E : Env) (key : Key) (arg : MoveArg) : ViM Unit := do
  let v ← getK
  let count := v.moveCount
  modK fun v => { v with count := 0 }
  match resolveMove key arg v.lastCharMovement with
  | none => normalModeAbort E
  | some (c, m) =>
    if arg.isDir then
      modK fun v => { v with lastCharMovement := some (c, m),
                             currentCommand := v.currentCommand ++ [key] }
    else pure ()
    let s ← ed get
    let b ← ed Editor.curBuf
    if !m.inclusive ∧ b.numChars < s.cursor then M.panic
    else
      match charTarget b.data s.cursor m c count with
      | some i => ed (Editor.moveCursorTo E i)
      | none => pure ()
      popModeAfterMovement E m.inclusive

/-- `for c in cs { ed.insert_after_cursor(c)?; }` -/
def insertEach (E : Env) (cs : Text) : EdM Unit :=
  forEach cs fun c => Editor.insertCharsAfterCursor E [c]

/-- One iteration of `~`, src/keymap/vi.rs:822-835.  `unwrap` panics at the end of the line. -/
def tildeStep (E : Env) : EdM Unit := do
  let b ← Editor.curBuf
  let s ← get
  let c ← ofOption (b.charAfter s.cursor)
  if E.cc.isLowercase c then
    Editor.deleteAfterCursor E
    insertEach E (E.cc.toUppercase c)
  else if E.cc.isUppercase c then
    Editor.deleteAfterCursor E
    insertEach E (E.cc.toLowercase c)
  else Editor.moveCursorRight E 1

/-- `for _ in 0..count { if !op()? { break; } }`, src/keymap/vi.rs:843-847, 853-858. -/
def repeatWhile (op : EdM Bool) : Nat → EdM Unit
  | 0 => pure ()
  | n + 1 => do
    let did ← op
    if did then repeatWhile op n else pure ()

/-- `i.to_digit(10)` of a digit. -/
def digit? (c : Char) : Option Nat :=
  if '0'.val ≤ c.val ∧ c.val ≤ '9'.val then some (c.val.toNat - '0'.val.toNat) else none

/-- Remember a one-key command for `.`. -/
def rememberKey (key : Key) : ViM Unit :=
  modK fun v => { v with lastInsert := none, lastCommand := [key] }

/-- The count used by `.`, src/keymap/vi.rs:702-709. -/
def dotCount (count lastCount : Nat) : Nat :=
  if count = 0 then (if lastCount = 0 then 1 else lastCount) else count

/-- The character keys of `handle_key_normal`, src/keymap/vi.rs:621-862. -/
def normalChar (core : Key → ViM Unit) (E : Env) (c : Char) : ViM Unit :=
  let key := Key.char c
  let enterInsert : ViM Unit := do
    modK fun v => { v with lastInsert := some key }
    setMode E .insert
  if c = 'i' then enterInsert
  else if c = 'a' then do
    enterInsert
    ed (Editor.moveCursorRight E 1)
  else if c = 'A' then do
    enterInsert
    ed (Editor.moveCursorToEndOfLine E)
  else if c = 'I' then do
    enterInsert
    ed (Editor.moveCursorToStartOfLine E)
  else if c = 's' then do
    enterInsert
    let n ← moveCountRight
    let s ← ed get
    ed (Editor.deleteUntil E (s.cursor + n))
    modK fun v => { v with lastCount := v.count, count := 0 }
  else if c = 'r' then setMode E .replace
  else if c = 'd' ∨ c = 'c' then do
    modK fun v => { v with currentCommand := [] }
    if c = 'd' then modK fun v => { v with currentInsert := none, currentCommand := [key] }
    else do
      modK fun v => { v with currentInsert := some key }
      setMode E .insert
    let s ← ed get
    setMode E (.delete s.cursor)
    modK fun v => { v with secondaryCount := v.count, count := 0 }
  else if c = 'D' then do
    rememberKey key
    modK fun v => { v with count := 0, lastCount := 0 }
    ed (Editor.deleteAllAfterCursor E)
  else if c = 'C' then do
    rememberKey key
    modK fun v => { v with count := 0, lastCount := 0 }
    setModePreserveLast E .insert
    ed (Editor.deleteAllAfterCursor E)
  else if c = '.' then do
    modK fun v => { v with count := dotCount v.count v.lastCount }
    repeatLast core
  else if c = 'h' then do
    let n ← moveCountLeft
    ed (Editor.moveCursorLeft E n)
    popModeAfterMovement E false
  else if c = 'l' ∨ c = ' ' then do
    let n ← moveCountRight
    ed (Editor.moveCursorRight E n)
    popModeAfterMovement E false
  else if c = 'k' then do
    ed (Editor.moveUp E)
    popModeAfterMovement E false
  else if c = 'j' then do
    ed (Editor.moveDown E)
    popModeAfterMovement E false
  else if c = 't' then setMode E (.moveToChar .rightUntil)
  else if c = 'T' then setMode E (.moveToChar .leftUntil)
  else if c = 'f' then setMode E (.moveToChar .rightAt)
  else if c = 'F' then setMode E (.moveToChar .leftAt)
  else if c = ';' then handleKeyMoveToChar E key .repeat
  else if c = ',' then handleKeyMoveToChar E key .reverseRepeat
  else if c = 'w' then do
    let v ← getK
    ed (moveWord E true true v.moveCount)
    popModeAfterMovement E false
  else if c = 'W' then do
    let v ← getK
    ed (moveWord E false true v.moveCount)
    popModeAfterMovement E false
  else if c = 'e' then do
    let v ← getK
    ed (moveWordEnd E true true v.moveCount)
    popModeAfterMovement E false
  else if c = 'E' then do
    let v ← getK
    ed (moveWordEnd E false true v.moveCount)
    popModeAfterMovement E false
  else if c = 'b' then do
    let v ← getK
    ed (moveWordEnd E true false v.moveCount)
    popModeAfterMovement E false
  else if c = 'B' then do
    let v ← getK
    ed (moveWordEnd E false false v.moveCount)
    popModeAfterMovement E false
  else if c = 'g' then setMode E .g
  else if c = '^' then do
    ed (Editor.moveCursorToStartOfLine E)
    popModeAfterMovement E false
  else if c = '$' then do
    ed (Editor.moveCursorToEndOfLine E)
    popModeAfterMovement E false
  else if c = 'x' then do
    rememberKey key
    modK fun v => { v with lastCount := v.count }
    let n ← moveCountRight
    let s ← ed get
    ed (Editor.deleteUntil E (s.cursor + n))
    modK fun v => { v with count := 0 }
  else if c = '~' then do
    rememberKey key
    modK fun v => { v with lastCount := v.count }
    setMode E .tilde
    let n ← moveCountRight
    repeatN n (ed (tildeStep E))
    popMode E
  else if c = 'u' then do
    let v ← getK
    modK fun v => { v with count := 0 }
    ed (repeatWhile (Editor.undo E) v.moveCount)
  else
    match digit? c with
    | some d => do
      let v ← getK
      if d = 0 ∧ v.count = 0 then
        ed (Editor.moveCursorToStartOfLine E)
        popModeAfterMovement E false
      else modK fun v => { v with count := satAdd (satMul v.count 10) d }
    | none => ed (handleKeyCommon E key)

/-- `handle_key_normal`, src/keymap/vi.rs:612-863.  The keys that share an arm with a character are
sent to that arm; `Delete` is remembered as itself. -/
def handleKeyNormal (core : Key → ViM Unit) (E : Env) (key : Key) : ViM Unit :=
  match key with
  | .esc => modK fun v => { v with count := 0 }
  | .char c => normalChar core E c
  | .left | .backspace => normalChar core E 'h'
  | .right => normalChar core E 'l'
  | .up => normalChar core E 'k'
  | .down => normalChar core E 'j'
  | .delete => do
    rememberKey key
    modK fun v => { v with lastCount := v.count }
    let n ← moveCountRight
    let s ← ed get
    ed (Editor.deleteUntil E (s.cursor + n))
    modK fun v => { v with count := 0 }
  | .ctrl c =>
    if c = 'r' then do
      let v ← getK
      modK fun v => { v with count := 0 }
      ed (repeatWhile (Editor.redo E) v.moveCount)
    else ed (handleKeyCommon E key)
  | _ => ed (handleKeyCommon E key)

/-- The replacement loop, src/keymap/vi.rs:883-886. -/
def replaceStep (E : Env) (c : Char) : EdM Unit := do
  Editor.deleteAfterCursor E
  Editor.insertCharsAfterCursor E [c]

/-- `handle_key_replace`, src/keymap/vi.rs:865-902. -/
def handleKeyReplace (E : Env) (key : Key) : ViM Unit := do
  match key with
  | .char c => do
    let n ← moveCountRight
    let v ← getK
    if n = v.moveCount then
      modK fun v => { v with lastInsert := none, lastCommand := [.char 'r', key],
                             lastCount := v.count }
      ed (onBuf Buffer.startUndoGroup)
      repeatN n (ed (replaceStep E c))
      ed (onBuf Buffer.endUndoGroup)
      ed (Editor.moveCursorLeft E 1)
    else pure ()
    popMode E
  | _ => normalModeAbort E
  modK fun v => { v with count := 0 }

/-- The count of an operator with a movement, src/keymap/vi.rs:913-921. -/
def operatorCount (count secondary : Nat) : Nat :=
  if count = 0 then secondary else if secondary = 0 then count else satMul secondary count

/-- `handle_key_delete_or_change`, src/keymap/vi.rs:904-955. -/
def handleKeyDeleteOrChange (core : Key → ViM Unit) (E : Env) (key : Key) : ViM Unit := do
  let v ← getK
  if isMovementKey key ∨ (key = .char '0' ∧ v.count = 0) then
    modK fun v => { v with count := operatorCount v.count v.secondaryCount,
                           currentCommand := v.currentCommand ++ [key] }
    handleKeyNormal core E key
  else if (match key with | .char c => (digit? c).isSome | _ => false) then
    handleKeyNormal core E key
  else if (key = .char 'c' ∧ v.currentInsert = some (.char 'c')) ∨
      (key = .char 'd' ∧ v.currentInsert = none) then
    modK fun v => { v with currentCommand := v.currentCommand ++ [key], count := 0,
                           secondaryCount := 0 }
    ed (Editor.moveCursorToStartOfLine E)
    ed (Editor.deleteAllAfterCursor E)
    popMode E
  else normalModeAbort E

/-- `handle_key_g`, src/keymap/vi.rs:1040-1065. -/
def handleKeyG (E : Env) (key : Key) : ViM Unit := do
  let v ← getK
  let count := v.moveCount
  modK fun v => { v with currentCommand := v.currentCommand ++ [key] }
  if key = .char 'e' then
    ed (moveWord E true false count)
    popModeAfterMovement E true
  else if key = .char 'E' then
    ed (moveWord E false false count)
    popModeAfterMovement E true
  else normalModeAbort E
  modK fun v => { v with count := 0 }

/-- The dispatch of `handle_key_core`, src/keymap/vi.rs:1080-1088, for a given `handle_key_core` used by
the recursive calls. -/
def coreStep (core : Key → ViM Unit) (E : Env) (key : Key) : ViM Unit := do
  let v ← getK
  match v.mode with
  | .normal => handleKeyNormal core E key
  | .insert => handleKeyInsert core E key
  | .replace => handleKeyReplace E key
  | .delete _ => handleKeyDeleteOrChange core E key
  | .moveToChar m => handleKeyMoveToChar E key (.dir m)
  | .g => handleKeyG E key
  | .tilde => M.panic

/-- `handle_key_core` with a bound on the depth of the recursion through `repeat`. -/
def coreFuel (E : Env) : Nat → Key → ViM Unit
  | 0, _ => M.panic
  | n + 1, key => coreStep (coreFuel E n) E key

/-- The bound used: `Props` shows that from every reachable state it is not reached. -/
def maxDepth : Nat := 8

/-- `handle_key_core`, src/keymap/vi.rs:1075-1089. -/
def handleKeyCore (E : Env) (key : Key) : ViM Unit := coreFuel E maxDepth key

/-- `init`, src/keymap/vi.rs:1069-1073. -/
def init (E : Env) : ViM Unit := do
  ed (onBuf Buffer.startUndoGroup)
  setEditorMode E

/-- `impl KeyMap for Vi`. -/
def keyMap : KeyMap Vi where
  core := handleKeyCore
  init := init

end Vi
end Liner
