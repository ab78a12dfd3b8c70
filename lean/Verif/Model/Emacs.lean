import Verif.Model.KeyMap
/-
Model of /repo/src/keymap/emacs.rs.
-/

namespace Liner

/-- `struct Emacs`, src/keymap/emacs.rs:16-19. -/
structure Emacs where
  lastArgFetchIndex : Option Nat := none
deriving Repr

namespace Emacs
open M KM

/-- The word chosen by `emacs_move_word`, src/keymap/emacs.rs:140-158.  `words.len() - 1` cannot
underflow: there is a word at the cursor. -/
def wordIndex (numWords : Nat) (pos : CursorPosition) (right : Bool) : Option Nat :=
  match pos with
  | .inWord i => some i
  | .onWordLeftEdge i => some (if i > 0 ∧ !right then i - 1 else i)
  | .onWordRightEdge i => some (if i < numWords - 1 ∧ right then i + 1 else i)
  | .inSpace l r => if right then r else l

/-- `emacs_move_word`, src/keymap/emacs.rs:134-173. -/
def moveWord (E : Env) (right : Bool) : EdM Unit := do
  let (ws, pos) ← Editor.wordsAndPos E
  match wordIndex ws.length pos right with
  | none => pure ()
  | some i =>
    let (start, stop) ← ofOption ws[i]?
    Editor.moveCursorTo E (if right then stop else start)

/-- The deletion of the previous argument, src/keymap/emacs.rs:79-84.  The last argument is never
longer than the buffer, so the subtraction does not underflow. -/
def deleteLastArg (E : Env) : EdM Unit := do
  let b ← Editor.curBuf
  match b.lastArg with
  | some arg => Editor.deleteUntil E (b.numChars - arg.length)
  | none => pure ()

/-- `handle_last_arg_fetch`, src/keymap/emacs.rs:63-96. -/
def handleLastArgFetch (E : Env) : KM Emacs Unit := do
  let s ← ed get
  let k ← getK
  if s.history.buffers.isEmpty then pure ()
  else if k.lastArgFetchIndex = some 0 then pure ()
  else
    let index := match k.lastArgFetchIndex with
      | some x => x - 1
      | none => s.curHistoryLoc.getD (s.history.buffers.length - 1)
    if k.lastArgFetchIndex.isSome then ed (deleteLastArg E) else pure ()
    let s ← ed get
    let b ← ofOption s.history.buffers[index]?
    match b.lastArg with
    | some arg => ed (Editor.insertCharsAfterCursor E arg)
    | none => pure ()
    modK fun k => { k with lastArgFetchIndex := some index }

/-- `'\x7F'` -/
def delChar : Char := Char.ofNat 0x7F

/-- `handle_ctrl_key`, src/keymap/emacs.rs:26-45. -/
def handleCtrlKey (E : Env) (c : Char) : EdM Unit :=
  if c = 'l' then Editor.clear E
  else if c = 'a' then Editor.moveCursorToStartOfLine E
  else if c = 'e' then Editor.moveCursorToEndOfLine E
  else if c = 'b' then Editor.moveCursorLeft E 1
  else if c = 'f' then Editor.moveCursorRight E 1
  else if c = 'd' then Editor.deleteAfterCursor E
  else if c = 'p' then Editor.moveUp E
  else if c = 'n' then Editor.moveDown E
  else if c = 'u' then Editor.deleteAllBeforeCursor E
  else if c = 'k' then Editor.deleteAllAfterCursor E
  else if c = 'w' then Editor.deleteWordBeforeCursor E true
  else if c = 'x' then do
    let _ ← Editor.undo E
    pure ()
  else pure ()

/-- `handle_alt_key`, src/keymap/emacs.rs:47-61. -/
def handleAltKey (E : Env) (c : Char) : KM Emacs Unit :=
  if c = '<' then ed (Editor.moveToStartOfHistory E)
  else if c = '>' then ed (Editor.moveToEndOfHistory E)
  else if c = delChar then ed (Editor.deleteWordBeforeCursor E true)
  else if c = 'f' then ed (moveWord E true)
  else if c = 'b' then ed (moveWord E false)
  else if c = 'r' then do
    let _ ← ed (Editor.revert E)
    pure ()
  else if c = '.' then handleLastArgFetch E
  else pure ()

/-- The second `match` of `handle_key_core`, src/keymap/emacs.rs:110-124. -/
def handleKeyBody (E : Env) : Key → KM Emacs Unit
  | .char c => ed (Editor.insertCharsAfterCursor E [c])
  | .alt c => handleAltKey E c
  | .ctrl c => ed (handleCtrlKey E c)
  | .left => ed (Editor.moveCursorLeft E 1)
  | .right => ed (Editor.moveCursorRight E 1)
  | .up => ed (Editor.moveUp E)
  | .down => ed (Editor.moveDown E)
  | .home => ed (Editor.moveCursorToStartOfLine E)
  | .end => ed (Editor.moveCursorToEndOfLine E)
  | .backspace => ed (Editor.deleteBeforeCursor E)
  | .delete => ed (Editor.deleteAfterCursor E)
  | _ => pure ()

/-- `handle_key_core`, src/keymap/emacs.rs:100-125. -/
def handleKeyCore (E : Env) (key : Key) : KM Emacs Unit := do
  if key = .alt '.' then pure () else modK fun k => { k with lastArgFetchIndex := none }
  handleKeyBody E key

/-- `impl KeyMap for Emacs`; `init` is the default one, src/keymap/mod.rs:15-17. -/
def keyMap : KeyMap Emacs where
  core := handleKeyCore
  init := fun _ => pure ()

end Emacs
end Liner
