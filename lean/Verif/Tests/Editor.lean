import Verif.Tests.Harness
/-
Tests, not proofs: the unit tests of /repo/src/keymap/emacs.rs and /repo/src/editor.rs on the model.
-/

namespace Liner.Tests.EmacsTests

/-- src/keymap/emacs.rs: `enter_is_done` -/
def enter_is_done : List (Step Emacs) :=
  [.ins "done",
   .cursor 4,
   .keys [.char '\n'] (some true),
   .cursor 4,
   .text "done"]
#guard check Emacs.keyMap enter_is_done

/-- src/keymap/emacs.rs: `move_cursor_left` -/
def move_cursor_left : List (Step Emacs) :=
  [.ins "let",
   .cursor 3,
   .keys [.left, .char 'f'] none,
   .cursor 3,
   .text "left"]
#guard check Emacs.keyMap move_cursor_left

/-- src/keymap/emacs.rs: `move_word` -/
def move_word : List (Step Emacs) :=
  [.ins "abc def ghi",
   .cursor 11,
   .keys [.alt 'b'] none,
   .cursor 8,
   .keys [.alt 'b', .alt 'f'] none,
   .cursor 7]
#guard check Emacs.keyMap move_word

/-- src/keymap/emacs.rs: `cursor_movement` -/
def cursor_movement : List (Step Emacs) :=
  [.ins "right",
   .cursor 5,
   .keys [.left, .left, .right] none,
   .cursor 4]
#guard check Emacs.keyMap cursor_movement

/-- src/keymap/emacs.rs: `ctrl_h` -/
def ctrl_h : List (Step Emacs) :=
  [.ins "not empty",
   .keys [.ctrl 'h'] none,
   .text "not empt"]
#guard check Emacs.keyMap ctrl_h

end Liner.Tests.EmacsTests

namespace Liner.Tests.EditorTests

/-- src/editor.rs: `delete_all_after_cursor_undo` -/
def delete_all_after_cursor_undo : List (Step Emacs) :=
  [.ins "delete all of this",
   .op Editor.moveCursorToStartOfLine,
   .op Editor.deleteAllAfterCursor,
   .op (fun E => do let _ ← Editor.undo E),
   .text "delete all of this"]
#guard check Emacs.keyMap delete_all_after_cursor_undo

/-- src/editor.rs: `move_cursor_left` -/
def move_cursor_left : List (Step Emacs) :=
  [.ins "let",
   .cursor 3,
   .op (Editor.moveCursorLeft · 1),
   .cursor 2,
   .ins "f",
   .cursor 3,
   .text "left"]
#guard check Emacs.keyMap move_cursor_left

/-- src/editor.rs: `cursor_movement` -/
def cursor_movement : List (Step Emacs) :=
  [.ins "right",
   .cursor 5,
   .op (Editor.moveCursorLeft · 2),
   .op (Editor.moveCursorRight · 1),
   .cursor 4]
#guard check Emacs.keyMap cursor_movement

/-- src/editor.rs: `delete_until_backwards` -/
def delete_until_backwards : List (Step Emacs) :=
  [.ins "right",
   .cursor 5,
   .op (Editor.deleteUntil · 0),
   .cursor 0,
   .text ""]
#guard check Emacs.keyMap delete_until_backwards

/-- src/editor.rs: `delete_until_forwards` -/
def delete_until_forwards : List (Step Emacs) :=
  [.ins "right",
   .op (fun _ => M.modify fun s => { s with cursor := 0 }),
   .op (Editor.deleteUntil · 5),
   .cursor 0,
   .text ""]
#guard check Emacs.keyMap delete_until_forwards

/-- src/editor.rs: `delete_until` -/
def delete_until : List (Step Emacs) :=
  [.ins "right",
   .op (fun _ => M.modify fun s => { s with cursor := 4 }),
   .op (Editor.deleteUntil · 1),
   .cursor 1,
   .text "rt"]
#guard check Emacs.keyMap delete_until

/-- src/editor.rs: `delete_until_inclusive` -/
def delete_until_inclusive : List (Step Emacs) :=
  [.ins "right",
   .op (fun _ => M.modify fun s => { s with cursor := 4 }),
   .op (Editor.deleteUntilInclusive · 1),
   .cursor 1,
   .text "r"]
#guard check Emacs.keyMap delete_until_inclusive

end Liner.Tests.EditorTests
