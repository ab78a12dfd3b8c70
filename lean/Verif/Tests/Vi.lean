import Verif.Tests.Harness
/-
Tests, not proofs: the unit tests of /repo/src/keymap/vi.rs on the model.
-/

namespace Liner.Tests.ViTests

/-- src/keymap/vi.rs: `enter_is_done` -/
def enter_is_done : List (Step Vi) :=
  [.init,
   .ins "done",
   .cursor 4,
   .keys [.char '\n'] (some true),
   .cursor 4,
   .text "done"]
#guard check Vi.keyMap enter_is_done

/-- src/keymap/vi.rs: `move_cursor_left` -/
def move_cursor_left : List (Step Vi) :=
  [.init,
   .ins "let",
   .cursor 3,
   .keys [.left, .char 'f'] none,
   .cursor 3,
   .text "left"]
#guard check Vi.keyMap move_cursor_left

/-- src/keymap/vi.rs: `cursor_movement` -/
def cursor_movement : List (Step Vi) :=
  [.init,
   .ins "right",
   .cursor 5,
   .keys [.left, .left, .right] none,
   .cursor 4]
#guard check Vi.keyMap cursor_movement

/-- src/keymap/vi.rs: `move_cursor_start_end` -/
def move_cursor_start_end : List (Step Vi) :=
  [.init,
   .ins "let there be tests",
   .cursor 18,
   .keys [.esc, .char '^'] none,
   .cursor 0,
   .keys [.char '^'] none,
   .cursor 0,
   .keys [.char '$'] none,
   .cursor 17,
   .keys [.char '$'] none,
   .cursor 17]
#guard check Vi.keyMap move_cursor_start_end

/-- src/keymap/vi.rs: `vi_initial_insert` -/
def vi_initial_insert : List (Step Vi) :=
  [.init,
   .keys [.char 'i', .char 'n', .char 's', .char 'e', .char 'r', .char 't'] none,
   .cursor 6,
   .text "insert"]
#guard check Vi.keyMap vi_initial_insert

/-- src/keymap/vi.rs: `vi_left_right_movement` -/
def vi_left_right_movement : List (Step Vi) :=
  [.init,
   .ins "data",
   .cursor 4,
   .keys [.left] none,
   .cursor 3,
   .keys [.right] none,
   .cursor 4,
   .keys [.esc, .left] none,
   .cursor 2,
   .keys [.right] none,
   .cursor 3,
   .keys [.char 'h'] none,
   .cursor 2,
   .keys [.char 'l'] none,
   .cursor 3]
#guard check Vi.keyMap vi_left_right_movement

/-- src/keymap/vi.rs: `vi_no_eol` -/
def vi_no_eol : List (Step Vi) :=
  [.init,
   .ins "data",
   .cursor 4,
   .keys [.esc] none,
   .cursor 3,
   .keys [.right, .right] none,
   .cursor 3,
   .keys [.char 'i', .right, .right] none,
   .cursor 4]
#guard check Vi.keyMap vi_no_eol

/-- src/keymap/vi.rs: `vi_switch_from_insert` -/
def vi_switch_from_insert : List (Step Vi) :=
  [.init,
   .ins "data",
   .cursor 4,
   .keys [.esc] none,
   .cursor 3,
   .keys [.char 'i', .esc, .char 'i', .ctrl '[', .char 'i', .esc, .char 'i', .ctrl '['] none,
   .cursor 0]
#guard check Vi.keyMap vi_switch_from_insert

/-- src/keymap/vi.rs: `vi_normal_history_cursor_eol` -/
def vi_normal_history_cursor_eol : List (Step Vi) :=
  [.hist "data history",
   .init,
   .ins "data",
   .cursor 4,
   .keys [.up] none,
   .cursor 12,
   .keys [.ctrl '[', .up] none,
   .cursor 11]
#guard check Vi.keyMap vi_normal_history_cursor_eol

/-- src/keymap/vi.rs: `vi_normal_history` -/
def vi_normal_history : List (Step Vi) :=
  [.hist "data second",
   .hist "skip1",
   .hist "data one",
   .hist "skip2",
   .init,
   .ins "data",
   .cursor 4,
   .keys [.up] none,
   .cursor 8,
   .keys [.ctrl '[', .char 'k'] none,
   .cursor 10]
#guard check Vi.keyMap vi_normal_history

/-- src/keymap/vi.rs: `vi_search_history` -/
def vi_search_history : List (Step Vi) :=
  [.hist "data pat second",
   .hist "skip1",
   .hist "data pat one",
   .hist "skip2",
   .init,
   .ins "pat",
   .cursor 3,
   .keys [.ctrl 'r', .right] none,
   .cursor 12,
   .op Editor.deleteAllBeforeCursor,
   .cursor 0,
   .keys [.ctrl 'r', .char 'p', .char 'a', .char 't', .ctrl '[', .char 'k', .ctrl 'f'] none,
   .cursor 14,
   .keys [.ctrl '[', .char 'u', .char 'i'] none,
   .cursor 0,
   .keys [.ctrl 's', .char 'p', .char 'a', .char 't', .ctrl 'f'] none,
   .cursor 15,
   .op Editor.deleteAllBeforeCursor,
   .cursor 0,
   .ins "pat",
   .cursor 3,
   .keys [.ctrl 's', .ctrl '[', .char 'j', .right] none,
   .cursor 11]
#guard check Vi.keyMap vi_search_history

/-- src/keymap/vi.rs: `vi_normal_delete` -/
def vi_normal_delete : List (Step Vi) :=
  [.hist "history",
   .init,
   .ins "data",
   .cursor 4,
   .keys [.esc, .char '0', .delete, .char 'x'] none,
   .cursor 0,
   .text "ta"]
#guard check Vi.keyMap vi_normal_delete

/-- src/keymap/vi.rs: `vi_substitute_command` -/
def vi_substitute_command : List (Step Vi) :=
  [.init,
   .ins "data",
   .cursor 4,
   .keys [.ctrl '[', .char '0', .char 's', .char 's'] none,
   .text "sata"]
#guard check Vi.keyMap vi_substitute_command

/-- src/keymap/vi.rs: `substitute_with_count` -/
def substitute_with_count : List (Step Vi) :=
  [.init,
   .ins "data",
   .cursor 4,
   .keys [.esc, .char '0', .char '2', .char 's', .char 'b', .char 'e'] none,
   .text "beta"]
#guard check Vi.keyMap substitute_with_count

/-- src/keymap/vi.rs: `substitute_with_count_repeat` -/
def substitute_with_count_repeat : List (Step Vi) :=
  [.init,
   .ins "data data",
   .keys [.esc, .char '0', .char '2', .char 's', .char 'b', .char 'e', .ctrl '[', .char '4', .char 'l', .char '.'] none,
   .text "beta beta"]
#guard check Vi.keyMap substitute_with_count_repeat

/-- src/keymap/vi.rs: `vi_count` -/
def vi_count : List (Step Vi) :=
  [.init,
   .keys [.esc] none,
   .km fun v _ => v.count = 0,
   .keys [.char '1'] none,
   .km fun v _ => v.count = 1,
   .keys [.char '1'] none,
   .km fun v _ => v.count = 11,
   .keys [.char 'i', .esc] none,
   .km fun v _ => v.count = 0,
   .text ""]
#guard check Vi.keyMap vi_count

/-- src/keymap/vi.rs: `vi_count_overflow` -/
def vi_count_overflow : List (Step Vi) :=
  [.init,
   .keys [.esc, .char '9', .char '9', .char '9', .char '9', .char '9', .char '9', .char '9', .char '9', .char '9', .char '9', .char '9', .char '9', .char '9', .char '9', .char '9', .char '9', .char '9', .char '9', .char '9', .char '9', .char '9', .char '9', .char '9', .char '9', .char '9', .char '9', .char '9', .char '9', .char '9', .char '9', .char '9', .char '9', .char '9', .char '9', .char '9', .char '9', .char '9', .char '9', .char '9', .char '9', .char '9', .char '9', .char '9', .char '9', .char '9', .char '9', .char '9', .char '9', .char '9', .char '9', .char '9', .char '9', .char '9', .char '9', .char '9', .char '9', .char '9', .char '9', .char '9', .char '9', .char '9', .char '9', .char '9', .char '9', .char '9'] none,
   .text ""]
#guard check Vi.keyMap vi_count_overflow

/-- src/keymap/vi.rs: `vi_count_overflow_zero` -/
def vi_count_overflow_zero : List (Step Vi) :=
  [.init,
   .keys [.esc, .char '1', .char '0', .char '0', .char '0', .char '0', .char '0', .char '0', .char '0', .char '0', .char '0', .char '0', .char '0', .char '0', .char '0', .char '0', .char '0', .char '0', .char '0', .char '0', .char '0', .char '0', .char '0', .char '0', .char '0', .char '0', .char '0', .char '0', .char '0', .char '0', .char '0', .char '0', .char '0', .char '0', .char '0', .char '0', .char '0', .char '0', .char '0', .char '0', .char '0', .char '0', .char '0', .char '0', .char '0', .char '0', .char '0', .char '0', .char '0', .char '0', .char '0', .char '0', .char '0', .char '0', .char '0', .char '0', .char '0', .char '0', .char '0', .char '0', .char '0'] none,
   .text ""]
#guard check Vi.keyMap vi_count_overflow_zero

/-- src/keymap/vi.rs: `vi_count_cancel` -/
def vi_count_cancel : List (Step Vi) :=
  [.init,
   .keys [.esc, .char '1', .char '0', .esc] none,
   .km fun v _ => v.count = 0,
   .text ""]
#guard check Vi.keyMap vi_count_cancel

/-- src/keymap/vi.rs: `vi_count_simple` -/
def vi_count_simple : List (Step Vi) :=
  [.init,
   .keys [.ctrl '[', .char '3', .char 'i', .char 't', .char 'h', .char 'i', .char 's', .esc] none,
   .text "thisthisthis"]
#guard check Vi.keyMap vi_count_simple

/-- src/keymap/vi.rs: `vi_dot_command` -/
def vi_dot_command : List (Step Vi) :=
  [.init,
   .keys [.char 'i', .char 'f', .esc, .char '.', .char '.'] none,
   .text "iiifff"]
#guard check Vi.keyMap vi_dot_command

/-- src/keymap/vi.rs: `vi_dot_command_repeat` -/
def vi_dot_command_repeat : List (Step Vi) :=
  [.init,
   .keys [.char 'i', .char 'f', .esc, .char '3', .char '.'] none,
   .text "iifififf"]
#guard check Vi.keyMap vi_dot_command_repeat

/-- src/keymap/vi.rs: `vi_dot_command_repeat_multiple` -/
def vi_dot_command_repeat_multiple : List (Step Vi) :=
  [.init,
   .keys [.char 'i', .char 'f', .esc, .char '3', .char '.', .char '.'] none,
   .text "iififiifififff"]
#guard check Vi.keyMap vi_dot_command_repeat_multiple

/-- src/keymap/vi.rs: `vi_dot_command_append` -/
def vi_dot_command_append : List (Step Vi) :=
  [.init,
   .keys [.esc, .char 'a', .char 'i', .char 'f', .esc, .char '.', .char '.'] none,
   .text "ififif"]
#guard check Vi.keyMap vi_dot_command_append

/-- src/keymap/vi.rs: `vi_dot_command_append_repeat` -/
def vi_dot_command_append_repeat : List (Step Vi) :=
  [.init,
   .keys [.esc, .char 'a', .char 'i', .char 'f', .esc, .char '3', .char '.'] none,
   .text "ifififif"]
#guard check Vi.keyMap vi_dot_command_append_repeat

/-- src/keymap/vi.rs: `vi_dot_command_movement` -/
def vi_dot_command_movement : List (Step Vi) :=
  [.init,
   .keys [.esc, .char 'a', .char 'd', .char 't', .char ' ', .left, .left, .char 'a', .esc, .right, .right, .char '.'] none,
   .text "data "]
#guard check Vi.keyMap vi_dot_command_movement

/-- src/keymap/vi.rs: `move_count` -/
def move_count : List (Step Vi) :=
  [.init,
   .km fun v _ => v.moveCount = 1,
   .setk fun v => { v with count := 1 },
   .km fun v _ => v.moveCount = 1,
   .setk fun v => { v with count := 99 },
   .km fun v _ => v.moveCount = 99]
#guard check Vi.keyMap move_count

/-- src/keymap/vi.rs: `vi_count_movement_reset` -/
def vi_count_movement_reset : List (Step Vi) :=
  [.init,
   .keys [.esc, .char '3', .char 'i', .char 't', .char 'h', .char 'i', .char 's', .left, .esc] none,
   .text "this"]
#guard check Vi.keyMap vi_count_movement_reset

/-- src/keymap/vi.rs: `movement_with_count` -/
def movement_with_count : List (Step Vi) :=
  [.init,
   .ins "right",
   .cursor 5,
   .keys [.esc, .char '3', .left] none,
   .cursor 1]
#guard check Vi.keyMap movement_with_count

/-- src/keymap/vi.rs: `movement_with_count_then_insert` -/
def movement_with_count_then_insert : List (Step Vi) :=
  [.init,
   .ins "right",
   .cursor 5,
   .keys [.esc, .char '3', .left, .char 'i', .char ' ', .esc] none,
   .text "r ight"]
#guard check Vi.keyMap movement_with_count_then_insert

/-- src/keymap/vi.rs: `count_at_buffer_edge` -/
def count_at_buffer_edge : List (Step Vi) :=
  [.init,
   .ins "replace",
   .cursor 7,
   .keys [.esc, .char '3', .char 'r', .char 'x'] none,
   .cursor 6,
   .text "replace"]
#guard check Vi.keyMap count_at_buffer_edge

/-- src/keymap/vi.rs: `basic_replace` -/
def basic_replace : List (Step Vi) :=
  [.init,
   .ins "replace",
   .cursor 7,
   .keys [.esc, .char 'r', .char 'x'] none,
   .cursor 6,
   .text "replacx"]
#guard check Vi.keyMap basic_replace

/-- src/keymap/vi.rs: `replace_with_count` -/
def replace_with_count : List (Step Vi) :=
  [.init,
   .ins "replace",
   .cursor 7,
   .keys [.esc, .char '0', .char '3', .char 'r', .char ' '] none,
   .cursor 2,
   .text "   lace"]
#guard check Vi.keyMap replace_with_count

/-- src/keymap/vi.rs: `replace_with_count_eol` -/
def replace_with_count_eol : List (Step Vi) :=
  [.init,
   .ins "replace",
   .cursor 7,
   .keys [.esc, .char '3', .char 'r', .char 'x'] none,
   .cursor 6,
   .text "replace"]
#guard check Vi.keyMap replace_with_count_eol

/-- src/keymap/vi.rs: `replace_then_normal` -/
def replace_then_normal : List (Step Vi) :=
  [.init,
   .ins "replace",
   .cursor 7,
   .keys [.esc, .char 'r', .char 'x', .char '0'] none,
   .cursor 0,
   .text "replacx"]
#guard check Vi.keyMap replace_then_normal

/-- src/keymap/vi.rs: `dot_replace` -/
def dot_replace : List (Step Vi) :=
  [.init,
   .ins "replace",
   .cursor 7,
   .keys [.esc, .char '0', .char 'r', .char 'x', .char '.', .char '.', .char '7', .char '.'] none,
   .text "xxxxxxx"]
#guard check Vi.keyMap dot_replace

/-- src/keymap/vi.rs: `dot_replace_count` -/
def dot_replace_count : List (Step Vi) :=
  [.init,
   .ins "replace",
   .cursor 7,
   .keys [.esc, .char '0', .char '2', .char 'r', .char 'x', .char '.', .char '.', .char '.', .char '.', .char '.'] none,
   .text "xxxxxxx"]
#guard check Vi.keyMap dot_replace_count

/-- src/keymap/vi.rs: `dot_replace_eol` -/
def dot_replace_eol : List (Step Vi) :=
  [.init,
   .ins "test",
   .keys [.esc, .char '0', .char '3', .char 'r', .char 'x', .char '.', .char '.'] none,
   .text "xxxt"]
#guard check Vi.keyMap dot_replace_eol

/-- src/keymap/vi.rs: `dot_replace_eol_multiple` -/
def dot_replace_eol_multiple : List (Step Vi) :=
  [.init,
   .ins "this is a test",
   .keys [.esc, .char '0', .char '3', .char 'r', .char 'x', .char '$', .char '.', .char '4', .char 'h', .char '.'] none,
   .text "xxxs is axxxst"]
#guard check Vi.keyMap dot_replace_eol_multiple

/-- src/keymap/vi.rs: `move_count_right` -/
def move_count_right : List (Step Vi) :=
  [.init,
   .ins "replace",
   .cursor 7,
   .km fun v e => value Vi.moveCountRight v e = some 0,
   .setk fun v => { v with count := 10 },
   .km fun v e => value Vi.moveCountRight v e = some 0,
   .setk fun v => { v with count := 0 },
   .keys [.esc, .left] none,
   .km fun v e => value Vi.moveCountRight v e = some 1]
#guard check Vi.keyMap move_count_right

/-- src/keymap/vi.rs: `move_count_left` -/
def move_count_left : List (Step Vi) :=
  [.init,
   .ins "replace",
   .cursor 7,
   .km fun v e => value Vi.moveCountLeft v e = some 1,
   .setk fun v => { v with count := 10 },
   .km fun v e => value Vi.moveCountLeft v e = some 7,
   .setk fun v => { v with count := 0 },
   .keys [.esc, .char '0'] none,
   .km fun v e => value Vi.moveCountLeft v e = some 0]
#guard check Vi.keyMap move_count_left

/-- src/keymap/vi.rs: `dot_x_delete` -/
def dot_x_delete : List (Step Vi) :=
  [.init,
   .ins "replace",
   .cursor 7,
   .keys [.esc, .char '0', .char '2', .char 'x', .char '.'] none,
   .text "ace"]
#guard check Vi.keyMap dot_x_delete

/-- src/keymap/vi.rs: `delete_line` -/
def delete_line : List (Step Vi) :=
  [.init,
   .ins "delete",
   .keys [.esc, .char 'd', .char 'd'] none,
   .cursor 0,
   .text ""]
#guard check Vi.keyMap delete_line

/-- src/keymap/vi.rs: `delete_line_normal` -/
def delete_line_normal : List (Step Vi) :=
  [.init,
   .ins "delete",
   .keys [.esc, .char 'd', .char 'd', .char 'i', .char 'n', .char 'e', .char 'w', .esc] none,
   .cursor 2,
   .text "new"]
#guard check Vi.keyMap delete_line_normal

/-- src/keymap/vi.rs: `delete_abort` -/
def delete_abort : List (Step Vi) :=
  [.init,
   .ins "don't delete",
   .keys [.esc, .char 'd', .esc, .char 'd', .char 'c', .char 'c', .char 'd'] none,
   .cursor 11,
   .text "don't delete"]
#guard check Vi.keyMap delete_abort

/-- src/keymap/vi.rs: `delete_char_left` -/
def delete_char_left : List (Step Vi) :=
  [.init,
   .ins "delete",
   .keys [.esc, .char 'd', .char 'h'] none,
   .cursor 4,
   .text "delee"]
#guard check Vi.keyMap delete_char_left

/-- src/keymap/vi.rs: `delete_chars_left` -/
def delete_chars_left : List (Step Vi) :=
  [.init,
   .ins "delete",
   .keys [.esc, .char '3', .char 'd', .char 'h'] none,
   .cursor 2,
   .text "dee"]
#guard check Vi.keyMap delete_chars_left

/-- src/keymap/vi.rs: `delete_char_right` -/
def delete_char_right : List (Step Vi) :=
  [.init,
   .ins "delete",
   .keys [.esc, .char '0', .char 'd', .char 'l'] none,
   .cursor 0,
   .text "elete"]
#guard check Vi.keyMap delete_char_right

/-- src/keymap/vi.rs: `delete_chars_right` -/
def delete_chars_right : List (Step Vi) :=
  [.init,
   .ins "delete",
   .keys [.esc, .char '0', .char '3', .char 'd', .char 'l'] none,
   .cursor 0,
   .text "ete"]
#guard check Vi.keyMap delete_chars_right

/-- src/keymap/vi.rs: `delete_and_repeat` -/
def delete_and_repeat : List (Step Vi) :=
  [.init,
   .ins "delete",
   .keys [.esc, .char '0', .char 'd', .char 'l', .char '.'] none,
   .cursor 0,
   .text "lete"]
#guard check Vi.keyMap delete_and_repeat

/-- src/keymap/vi.rs: `delete_until_end` -/
def delete_until_end : List (Step Vi) :=
  [.init,
   .ins "delete",
   .keys [.esc, .char '0', .char 'd', .char '$'] none,
   .cursor 0,
   .text ""]
#guard check Vi.keyMap delete_until_end

/-- src/keymap/vi.rs: `delete_until_end_shift_d` -/
def delete_until_end_shift_d : List (Step Vi) :=
  [.init,
   .ins "delete",
   .keys [.esc, .char '0', .char 'D'] none,
   .cursor 0,
   .text ""]
#guard check Vi.keyMap delete_until_end_shift_d

/-- src/keymap/vi.rs: `delete_until_start` -/
def delete_until_start : List (Step Vi) :=
  [.init,
   .ins "delete",
   .keys [.esc, .char '$', .char 'd', .char '0'] none,
   .cursor 0,
   .text "e"]
#guard check Vi.keyMap delete_until_start

/-- src/keymap/vi.rs: `delete_with_count` -/
def delete_with_count : List (Step Vi) :=
  [.init,
   .ins "delete",
   .keys [.esc, .char '0', .char '2', .char 'd', .char '2', .char 'l'] none,
   .cursor 0,
   .text "te"]
#guard check Vi.keyMap delete_with_count

/-- src/keymap/vi.rs: `delete_with_count_and_repeat` -/
def delete_with_count_and_repeat : List (Step Vi) :=
  [.init,
   .ins "delete delete",
   .keys [.esc, .char '0', .char '2', .char 'd', .char '2', .char 'l', .char '.'] none,
   .cursor 0,
   .text "elete"]
#guard check Vi.keyMap delete_with_count_and_repeat

/-- src/keymap/vi.rs: `move_to_end_of_word_simple` -/
def move_to_end_of_word_simple : List (Step Vi) :=
  [.ins "here are",
   .ins " som",
   .ins "e words",
   .op (Editor.moveCursorTo · 8),
   .op (fun E => Vi.moveWordEnd E true true 1),
   .cursor 12]
#guard check Vi.keyMap move_to_end_of_word_simple

/-- src/keymap/vi.rs: `move_to_end_of_word_comma` -/
def move_to_end_of_word_comma : List (Step Vi) :=
  [.ins "here ar",
   .ins "e",
   .ins ", som",
   .ins "e words",
   .op (Editor.moveCursorTo · 7),
   .op (fun E => Vi.moveWordEnd E true true 1),
   .cursor 8,
   .op (fun E => Vi.moveWordEnd E true true 1),
   .cursor 13]
#guard check Vi.keyMap move_to_end_of_word_comma

/-- src/keymap/vi.rs: `move_to_end_of_word_nonkeywords` -/
def move_to_end_of_word_nonkeywords : List (Step Vi) :=
  [.ins "here ar",
   .ins "e,,,",
   .ins ",som",
   .ins "e words",
   .op (Editor.moveCursorTo · 7),
   .op (fun E => Vi.moveWordEnd E true true 1),
   .cursor 11,
   .op (fun E => Vi.moveWordEnd E true true 1),
   .cursor 15]
#guard check Vi.keyMap move_to_end_of_word_nonkeywords

/-- src/keymap/vi.rs: `move_to_end_of_word_whitespace` -/
def move_to_end_of_word_whitespace : List (Step Vi) :=
  [.cursor 0,
   .ins "here are",
   .cursor 8,
   .ins "      som",
   .cursor 17,
   .ins "e words",
   .cursor 24,
   .op (Editor.moveCursorTo · 8),
   .cursor 8,
   .op (fun E => Vi.moveWordEnd E true true 1),
   .cursor 17]
#guard check Vi.keyMap move_to_end_of_word_whitespace

/-- src/keymap/vi.rs: `move_to_end_of_word_whitespace_nonkeywords` -/
def move_to_end_of_word_whitespace_nonkeywords : List (Step Vi) :=
  [.ins "here ar",
   .ins "e   ,,,",
   .ins ", som",
   .ins "e words",
   .op (Editor.moveCursorTo · 7),
   .op (fun E => Vi.moveWordEnd E true true 1),
   .cursor 14,
   .op (fun E => Vi.moveWordEnd E true true 1),
   .cursor 19]
#guard check Vi.keyMap move_to_end_of_word_whitespace_nonkeywords

/-- src/keymap/vi.rs: `move_to_end_of_word_ws_simple` -/
def move_to_end_of_word_ws_simple : List (Step Vi) :=
  [.ins "here are",
   .ins " som",
   .ins "e words",
   .op (Editor.moveCursorTo · 8),
   .op (fun E => Vi.moveWordEnd E false true 1),
   .cursor 12]
#guard check Vi.keyMap move_to_end_of_word_ws_simple

/-- src/keymap/vi.rs: `move_to_end_of_word_ws_comma` -/
def move_to_end_of_word_ws_comma : List (Step Vi) :=
  [.ins "here ar",
   .ins "e",
   .ins ", som",
   .ins "e words",
   .op (Editor.moveCursorTo · 7),
   .op (fun E => Vi.moveWordEnd E false true 1),
   .cursor 8,
   .op (fun E => Vi.moveWordEnd E false true 1),
   .cursor 13]
#guard check Vi.keyMap move_to_end_of_word_ws_comma

/-- src/keymap/vi.rs: `move_to_end_of_word_ws_nonkeywords` -/
def move_to_end_of_word_ws_nonkeywords : List (Step Vi) :=
  [.ins "here ar",
   .ins "e,,,,som",
   .ins "e words",
   .op (Editor.moveCursorTo · 7),
   .op (fun E => Vi.moveWordEnd E false true 1),
   .cursor 15]
#guard check Vi.keyMap move_to_end_of_word_ws_nonkeywords

/-- src/keymap/vi.rs: `move_to_end_of_word_ws_whitespace` -/
def move_to_end_of_word_ws_whitespace : List (Step Vi) :=
  [.ins "here are",
   .ins "      som",
   .ins "e words",
   .op (Editor.moveCursorTo · 8),
   .op (fun E => Vi.moveWordEnd E false true 1),
   .cursor 17]
#guard check Vi.keyMap move_to_end_of_word_ws_whitespace

/-- src/keymap/vi.rs: `move_to_end_of_word_ws_whitespace_nonkeywords` -/
def move_to_end_of_word_ws_whitespace_nonkeywords : List (Step Vi) :=
  [.ins "here ar",
   .ins "e   ,,,",
   .ins ", som",
   .ins "e words",
   .op (Editor.moveCursorTo · 7),
   .op (fun E => Vi.moveWordEnd E false true 1),
   .cursor 14,
   .op (fun E => Vi.moveWordEnd E false true 1),
   .cursor 19]
#guard check Vi.keyMap move_to_end_of_word_ws_whitespace_nonkeywords

/-- src/keymap/vi.rs: `move_word_simple` -/
def move_word_simple : List (Step Vi) :=
  [.ins "here ",
   .ins "are ",
   .ins "some words",
   .op Editor.moveCursorToStartOfLine,
   .op (fun E => Vi.moveWord E true true 1),
   .cursor 5,
   .op (fun E => Vi.moveWord E true true 1),
   .cursor 9,
   .op Editor.moveCursorToStartOfLine,
   .op (fun E => Vi.moveWord E false true 1),
   .cursor 5,
   .op (fun E => Vi.moveWord E false true 1),
   .cursor 9]
#guard check Vi.keyMap move_word_simple

/-- src/keymap/vi.rs: `move_word_whitespace` -/
def move_word_whitespace : List (Step Vi) :=
  [.ins "   ",
   .ins "word",
   .op Editor.moveCursorToStartOfLine,
   .op (fun E => Vi.moveWord E true true 1),
   .cursor 3,
   .op (fun E => Vi.moveWord E true true 1),
   .cursor 7,
   .op Editor.moveCursorToStartOfLine,
   .op (fun E => Vi.moveWord E false true 1),
   .cursor 3,
   .op (fun E => Vi.moveWord E false true 1),
   .cursor 7]
#guard check Vi.keyMap move_word_whitespace

/-- src/keymap/vi.rs: `move_word_nonkeywords` -/
def move_word_nonkeywords : List (Step Vi) :=
  [.ins "..=",
   .ins "word",
   .op Editor.moveCursorToStartOfLine,
   .op (fun E => Vi.moveWord E true true 1),
   .cursor 3,
   .op (fun E => Vi.moveWord E true true 1),
   .cursor 7,
   .op Editor.moveCursorToStartOfLine,
   .op (fun E => Vi.moveWord E false true 1),
   .cursor 7]
#guard check Vi.keyMap move_word_nonkeywords

/-- src/keymap/vi.rs: `move_word_whitespace_nonkeywords` -/
def move_word_whitespace_nonkeywords : List (Step Vi) :=
  [.ins "..=   ",
   .ins "..=",
   .ins "word",
   .op Editor.moveCursorToStartOfLine,
   .op (fun E => Vi.moveWord E true true 1),
   .cursor 6,
   .op (fun E => Vi.moveWord E true true 1),
   .cursor 9,
   .op Editor.moveCursorToStartOfLine,
   .op (fun E => Vi.moveWord E false true 1),
   .cursor 6,
   .op (fun E => Vi.moveWord E false true 1),
   .cursor 13]
#guard check Vi.keyMap move_word_whitespace_nonkeywords

/-- src/keymap/vi.rs: `move_word_and_back` -/
def move_word_and_back : List (Step Vi) :=
  [.ins "here ",
   .ins "are ",
   .ins "some",
   .ins "..= ",
   .ins "words",
   .op Editor.moveCursorToStartOfLine,
   .op (fun E => Vi.moveWord E true true 1),
   .cursor 5,
   .op (fun E => Vi.moveWord E true true 1),
   .cursor 9,
   .op (fun E => Vi.moveWord E true true 1),
   .cursor 13,
   .op (fun E => Vi.moveWord E true true 1),
   .cursor 17,
   .op (fun E => Vi.moveWord E true true 1),
   .cursor 22,
   .op (fun E => Vi.moveWordEnd E true false 1),
   .cursor 17,
   .op (fun E => Vi.moveWordEnd E true false 1),
   .cursor 13,
   .op (fun E => Vi.moveWordEnd E true false 1),
   .cursor 9,
   .op (fun E => Vi.moveWordEnd E true false 1),
   .cursor 5,
   .op (fun E => Vi.moveWordEnd E true false 1),
   .cursor 0,
   .op Editor.moveCursorToStartOfLine,
   .op (fun E => Vi.moveWord E false true 1),
   .cursor 5,
   .op (fun E => Vi.moveWord E false true 1),
   .cursor 9,
   .op (fun E => Vi.moveWord E false true 1),
   .cursor 17,
   .op (fun E => Vi.moveWord E false true 1),
   .cursor 22,
   .op (fun E => Vi.moveWordEnd E false false 1),
   .cursor 17,
   .op (fun E => Vi.moveWordEnd E false false 1),
   .cursor 9,
   .op (fun E => Vi.moveWordEnd E false false 1),
   .cursor 5,
   .op (fun E => Vi.moveWordEnd E false false 1),
   .cursor 0]
#guard check Vi.keyMap move_word_and_back

/-- src/keymap/vi.rs: `move_word_and_back_with_count` -/
def move_word_and_back_with_count : List (Step Vi) :=
  [.ins "here ",
   .ins "are ",
   .ins "some",
   .ins "..= ",
   .ins "words",
   .op Editor.moveCursorToStartOfLine,
   .op (fun E => Vi.moveWord E true true 3),
   .cursor 13,
   .op (fun E => Vi.moveWord E true true 2),
   .cursor 22,
   .op (fun E => Vi.moveWordEnd E true false 2),
   .cursor 13,
   .op (fun E => Vi.moveWordEnd E true false 3),
   .cursor 0,
   .op Editor.moveCursorToStartOfLine,
   .op (fun E => Vi.moveWord E false true 2),
   .cursor 9,
   .op (fun E => Vi.moveWord E false true 2),
   .cursor 22,
   .op (fun E => Vi.moveWordEnd E false false 2),
   .cursor 9,
   .op (fun E => Vi.moveWordEnd E false false 2),
   .cursor 0]
#guard check Vi.keyMap move_word_and_back_with_count

/-- src/keymap/vi.rs: `move_to_end_of_word_ws_whitespace_count` -/
def move_to_end_of_word_ws_whitespace_count : List (Step Vi) :=
  [.ins "here are",
   .ins "      som",
   .ins "e word",
   .ins "s and some",
   .op (Editor.moveCursorTo · 8),
   .op (fun E => Vi.moveWordEnd E false true 2),
   .cursor 23]
#guard check Vi.keyMap move_to_end_of_word_ws_whitespace_count

/-- src/keymap/vi.rs: `delete_word` -/
def delete_word : List (Step Vi) :=
  [.init,
   .ins "delete some words",
   .keys [.esc, .char '0', .char 'd', .char 'w'] none,
   .cursor 0,
   .text "some words"]
#guard check Vi.keyMap delete_word

/-- src/keymap/vi.rs: `change_line` -/
def change_line : List (Step Vi) :=
  [.init,
   .ins "change",
   .keys [.esc, .char 'c', .char 'c', .char 'd', .char 'o', .char 'n', .char 'e'] none,
   .cursor 4,
   .text "done"]
#guard check Vi.keyMap change_line

/-- src/keymap/vi.rs: `change_char_left` -/
def change_char_left : List (Step Vi) :=
  [.init,
   .ins "change",
   .keys [.esc, .char 'c', .char 'h', .char 'e', .esc] none,
   .cursor 4,
   .text "chanee"]
#guard check Vi.keyMap change_char_left

/-- src/keymap/vi.rs: `change_chars_left` -/
def change_chars_left : List (Step Vi) :=
  [.init,
   .ins "change",
   .keys [.esc, .char '3', .char 'c', .char 'h', .char 'e'] none,
   .cursor 3,
   .text "chee"]
#guard check Vi.keyMap change_chars_left

/-- src/keymap/vi.rs: `change_char_right` -/
def change_char_right : List (Step Vi) :=
  [.init,
   .ins "change",
   .keys [.esc, .char '0', .char 'c', .char 'l', .char 's'] none,
   .cursor 1,
   .text "shange"]
#guard check Vi.keyMap change_char_right

/-- src/keymap/vi.rs: `change_chars_right` -/
def change_chars_right : List (Step Vi) :=
  [.init,
   .ins "change",
   .keys [.esc, .char '0', .char '3', .char 'c', .char 'l', .char 's', .char 't', .char 'r', .char 'a', .esc] none,
   .cursor 3,
   .text "strange"]
#guard check Vi.keyMap change_chars_right

/-- src/keymap/vi.rs: `change_and_repeat` -/
def change_and_repeat : List (Step Vi) :=
  [.init,
   .ins "change",
   .keys [.esc, .char '0', .char 'c', .char 'l', .char 's', .esc, .char 'l', .char '.', .char 'l', .char '.'] none,
   .cursor 2,
   .text "sssnge"]
#guard check Vi.keyMap change_and_repeat

/-- src/keymap/vi.rs: `change_until_end` -/
def change_until_end : List (Step Vi) :=
  [.init,
   .ins "change",
   .keys [.esc, .char '0', .char 'c', .char '$', .char 'o', .char 'k', .esc] none,
   .cursor 1,
   .text "ok"]
#guard check Vi.keyMap change_until_end

/-- src/keymap/vi.rs: `change_until_end_shift_c` -/
def change_until_end_shift_c : List (Step Vi) :=
  [.init,
   .ins "change",
   .keys [.esc, .char '0', .char 'C', .char 'o', .char 'k'] none,
   .cursor 2,
   .text "ok"]
#guard check Vi.keyMap change_until_end_shift_c

/-- src/keymap/vi.rs: `change_until_end_from_middle_shift_c` -/
def change_until_end_from_middle_shift_c : List (Step Vi) :=
  [.init,
   .ins "change",
   .keys [.esc, .char '0', .char '2', .char 'l', .char 'C', .char ' ', .char 'o', .char 'k', .esc] none,
   .text "ch ok"]
#guard check Vi.keyMap change_until_end_from_middle_shift_c

/-- src/keymap/vi.rs: `change_until_start` -/
def change_until_start : List (Step Vi) :=
  [.init,
   .ins "change",
   .keys [.esc, .char '$', .char 'c', .char '0', .char 's', .char 't', .char 'r', .char 'a', .char 'n', .char 'g'] none,
   .cursor 6,
   .text "strange"]
#guard check Vi.keyMap change_until_start

/-- src/keymap/vi.rs: `change_with_count` -/
def change_with_count : List (Step Vi) :=
  [.init,
   .ins "change",
   .keys [.esc, .char '0', .char '2', .char 'c', .char '2', .char 'l', .char 's', .char 't', .char 'r', .char 'a', .char 'n', .esc] none,
   .cursor 4,
   .text "strange"]
#guard check Vi.keyMap change_with_count

/-- src/keymap/vi.rs: `change_with_count_and_repeat` -/
def change_with_count_and_repeat : List (Step Vi) :=
  [.init,
   .ins "change change",
   .keys [.esc, .char '0', .char '2', .char 'c', .char '2', .char 'l', .char 'o', .esc, .char '.'] none,
   .cursor 0,
   .text "ochange"]
#guard check Vi.keyMap change_with_count_and_repeat

/-- src/keymap/vi.rs: `change_word` -/
def change_word : List (Step Vi) :=
  [.init,
   .ins "change some words",
   .keys [.esc, .char '0', .char 'c', .char 'w', .char 't', .char 'w', .char 'e', .char 'a', .char 'k', .char ' '] none,
   .text "tweak some words"]
#guard check Vi.keyMap change_word

/-- src/keymap/vi.rs: `test_count_reset_around_insert_and_delete` -/
def test_count_reset_around_insert_and_delete : List (Step Vi) :=
  [.init,
   .ins "these are some words",
   .keys [.esc, .char '0', .char 'd', .char '3', .char 'w', .char 'i', .char 'w', .char 'o', .char 'r', .char 'd', .char 's', .char ' ', .esc, .char 'l', .char '.'] none,
   .text "words words words"]
#guard check Vi.keyMap test_count_reset_around_insert_and_delete

/-- src/keymap/vi.rs: `test_t_not_found` -/
def test_t_not_found : List (Step Vi) :=
  [.init,
   .ins "abc defg",
   .keys [.esc, .char '0', .char 't', .char 'z'] none,
   .cursor 0]
#guard check Vi.keyMap test_t_not_found

/-- src/keymap/vi.rs: `test_t_movement` -/
def test_t_movement : List (Step Vi) :=
  [.init,
   .ins "abc defg",
   .keys [.esc, .char '0', .char 't', .char 'd'] none,
   .cursor 3]
#guard check Vi.keyMap test_t_movement

/-- src/keymap/vi.rs: `test_t_movement_with_count` -/
def test_t_movement_with_count : List (Step Vi) :=
  [.init,
   .ins "abc defg d",
   .keys [.esc, .char '0', .char '2', .char 't', .char 'd'] none,
   .cursor 8]
#guard check Vi.keyMap test_t_movement_with_count

/-- src/keymap/vi.rs: `test_t_movement_then_normal` -/
def test_t_movement_then_normal : List (Step Vi) :=
  [.init,
   .ins "abc defg",
   .keys [.esc, .char '0', .char 't', .char 'd', .char 'l'] none,
   .cursor 4]
#guard check Vi.keyMap test_t_movement_then_normal

/-- src/keymap/vi.rs: `test_t_movement_with_delete` -/
def test_t_movement_with_delete : List (Step Vi) :=
  [.init,
   .ins "abc defg",
   .keys [.esc, .char '0', .char 'd', .char 't', .char 'd'] none,
   .cursor 0,
   .text "defg"]
#guard check Vi.keyMap test_t_movement_with_delete

/-- src/keymap/vi.rs: `test_t_movement_with_change` -/
def test_t_movement_with_change : List (Step Vi) :=
  [.init,
   .ins "abc defg",
   .keys [.esc, .char '0', .char 'c', .char 't', .char 'd', .char 'z', .char ' ', .esc] none,
   .cursor 1,
   .text "z defg"]
#guard check Vi.keyMap test_t_movement_with_change

/-- src/keymap/vi.rs: `test_f_movement` -/
def test_f_movement : List (Step Vi) :=
  [.init,
   .ins "abc defg",
   .keys [.esc, .char '0', .char 'f', .char 'd'] none,
   .cursor 4]
#guard check Vi.keyMap test_f_movement

/-- src/keymap/vi.rs: `test_cap_t_movement` -/
def test_cap_t_movement : List (Step Vi) :=
  [.init,
   .ins "abc defg",
   .keys [.esc, .char '$', .char 'T', .char 'd'] none,
   .cursor 5]
#guard check Vi.keyMap test_cap_t_movement

/-- src/keymap/vi.rs: `test_cap_f_movement` -/
def test_cap_f_movement : List (Step Vi) :=
  [.init,
   .ins "abc defg",
   .keys [.esc, .char '$', .char 'F', .char 'd'] none,
   .cursor 4]
#guard check Vi.keyMap test_cap_f_movement

/-- src/keymap/vi.rs: `test_semi_movement` -/
def test_semi_movement : List (Step Vi) :=
  [.init,
   .ins "abc abc",
   .keys [.esc, .char '0', .char 'f', .char 'c', .char ';'] none,
   .cursor 6]
#guard check Vi.keyMap test_semi_movement

/-- src/keymap/vi.rs: `test_comma_movement` -/
def test_comma_movement : List (Step Vi) :=
  [.init,
   .ins "abc abc",
   .keys [.esc, .char '0', .char 'f', .char 'c', .char '$', .char ','] none,
   .cursor 2]
#guard check Vi.keyMap test_comma_movement

/-- src/keymap/vi.rs: `test_semi_delete` -/
def test_semi_delete : List (Step Vi) :=
  [.init,
   .ins "abc abc",
   .keys [.esc, .char '0', .char 'f', .char 'c', .char 'd', .char ';'] none,
   .cursor 1,
   .text "ab"]
#guard check Vi.keyMap test_semi_delete

/-- src/keymap/vi.rs: `test_semi_delete_repeat` -/
def test_semi_delete_repeat : List (Step Vi) :=
  [.init,
   .ins "abc abc abc abc",
   .keys [.esc, .char '0', .char 'f', .char 'c', .char 'd', .char ';', .char '.', .char '.'] none,
   .text "ab"]
#guard check Vi.keyMap test_semi_delete_repeat

/-- src/keymap/vi.rs: `test_find_char` -/
def test_find_char : List (Step Vi) :=
  [.ins "abcdefg",
   .km fun _ e => Vi.findChar e.newBuf.data 0 'd' 1 = some 3]
#guard check Vi.keyMap test_find_char

/-- src/keymap/vi.rs: `test_find_char_with_start` -/
def test_find_char_with_start : List (Step Vi) :=
  [.ins "abcabc",
   .km fun _ e => Vi.findChar e.newBuf.data 1 'a' 1 = some 3]
#guard check Vi.keyMap test_find_char_with_start

/-- src/keymap/vi.rs: `test_find_char_with_count` -/
def test_find_char_with_count : List (Step Vi) :=
  [.ins "abcabc",
   .km fun _ e => Vi.findChar e.newBuf.data 0 'a' 2 = some 3]
#guard check Vi.keyMap test_find_char_with_count

/-- src/keymap/vi.rs: `test_find_char_not_found` -/
def test_find_char_not_found : List (Step Vi) :=
  [.ins "abcdefg",
   .km fun _ e => Vi.findChar e.newBuf.data 0 'z' 1 = none]
#guard check Vi.keyMap test_find_char_not_found

/-- src/keymap/vi.rs: `test_find_char_rev` -/
def test_find_char_rev : List (Step Vi) :=
  [.ins "abcdefg",
   .km fun _ e => Vi.findCharRev e.newBuf.data 6 'd' 1 = some 3]
#guard check Vi.keyMap test_find_char_rev

/-- src/keymap/vi.rs: `test_find_char_rev_with_start` -/
def test_find_char_rev_with_start : List (Step Vi) :=
  [.ins "abcabc",
   .km fun _ e => Vi.findCharRev e.newBuf.data 5 'c' 1 = some 2]
#guard check Vi.keyMap test_find_char_rev_with_start

/-- src/keymap/vi.rs: `test_find_char_rev_with_count` -/
def test_find_char_rev_with_count : List (Step Vi) :=
  [.ins "abcabc",
   .km fun _ e => Vi.findCharRev e.newBuf.data 6 'c' 2 = some 2]
#guard check Vi.keyMap test_find_char_rev_with_count

/-- src/keymap/vi.rs: `test_find_char_rev_not_found` -/
def test_find_char_rev_not_found : List (Step Vi) :=
  [.ins "abcdefg",
   .km fun _ e => Vi.findCharRev e.newBuf.data 6 'z' 1 = none]
#guard check Vi.keyMap test_find_char_rev_not_found

/-- src/keymap/vi.rs: `test_undo_with_counts` -/
def test_undo_with_counts : List (Step Vi) :=
  [.init,
   .ins "abcdefg",
   .keys [.esc, .char 'x', .char 'x', .char 'x', .char '3', .char 'u'] none,
   .text "abcdefg"]
#guard check Vi.keyMap test_undo_with_counts

/-- src/keymap/vi.rs: `test_redo_with_counts` -/
def test_redo_with_counts : List (Step Vi) :=
  [.init,
   .ins "abcdefg",
   .keys [.esc, .char 'x', .char 'x', .char 'x', .char 'u', .char 'u', .char 'u'] none,
   .op (fun E => do let _ ← Editor.redo E),
   .op (fun E => do let _ ← Editor.redo E),
   .text "abcde"]
#guard check Vi.keyMap test_redo_with_counts

/-- src/keymap/vi.rs: `change_word_ge_ws` -/
def change_word_ge_ws : List (Step Vi) :=
  [.init,
   .ins "change some words",
   .keys [.esc, .char 'c', .char 'g', .char 'E', .char 'e', .char 't', .char 'h', .char 'i', .char 'n', .char 'g', .esc] none,
   .text "change something"]
#guard check Vi.keyMap change_word_ge_ws

/-- src/keymap/vi.rs: `undo_insert` -/
def undo_insert : List (Step Vi) :=
  [.init,
   .keys [.char 'i', .char 'n', .char 's', .char 'e', .char 'r', .char 't', .esc, .char 'u'] none,
   .text ""]
#guard check Vi.keyMap undo_insert

/-- src/keymap/vi.rs: `undo_insert2` -/
def undo_insert2 : List (Step Vi) :=
  [.init,
   .keys [.esc, .char 'i', .char 'i', .char 'n', .char 's', .char 'e', .char 'r', .char 't', .esc, .char 'u'] none,
   .text ""]
#guard check Vi.keyMap undo_insert2

/-- src/keymap/vi.rs: `undo_insert_with_history` -/
def undo_insert_with_history : List (Step Vi) :=
  [.hist "insert something",
   .init,
   .keys [.esc, .char 'i', .char 'i', .char 'n', .char 's', .char 'e', .char 'r', .char 't', .up, .char 'h', .char 'i', .char 's', .char 't', .char 'o', .char 'r', .char 'y', .down, .char ' ', .char 't', .char 'e', .char 'x', .char 't', .esc, .char 'u'] none,
   .text "insert"]
#guard check Vi.keyMap undo_insert_with_history

/-- src/keymap/vi.rs: `undo_insert_with_history2` -/
def undo_insert_with_history2 : List (Step Vi) :=
  [.init,
   .keys [.esc, .char 'i', .char 'i', .char 'n', .char 's', .char 'e', .char 'r', .char 't', .up, .esc, .down, .char 'u'] none,
   .text ""]
#guard check Vi.keyMap undo_insert_with_history2

/-- src/keymap/vi.rs: `undo_insert_with_movement_reset` -/
def undo_insert_with_movement_reset : List (Step Vi) :=
  [.init,
   .keys [.esc, .char 'i', .char 'i', .char 'n', .char 's', .char 'e', .char 'r', .char 't', .left, .right, .char ' ', .char 't', .char 'e', .char 'x', .char 't', .esc, .char 'u'] none,
   .text "insert"]
#guard check Vi.keyMap undo_insert_with_movement_reset

/-- src/keymap/vi.rs: `undo_3x` -/
def undo_3x : List (Step Vi) :=
  [.init,
   .ins "rm some words",
   .keys [.esc, .char '0', .char '3', .char 'x', .char 'u'] none,
   .text "rm some words"]
#guard check Vi.keyMap undo_3x

/-- src/keymap/vi.rs: `undo_insert_with_count` -/
def undo_insert_with_count : List (Step Vi) :=
  [.init,
   .keys [.char 'i', .char 'n', .char 's', .char 'e', .char 'r', .char 't', .esc, .char '3', .char 'i', .char 'i', .char 'n', .char 's', .char 'e', .char 'r', .char 't', .esc, .char 'u'] none,
   .text "insert"]
#guard check Vi.keyMap undo_insert_with_count

/-- src/keymap/vi.rs: `undo_insert_with_repeat` -/
def undo_insert_with_repeat : List (Step Vi) :=
  [.init,
   .keys [.char 'i', .char 'n', .char 's', .char 'e', .char 'r', .char 't', .esc, .char '3', .char '.', .esc, .char 'u'] none,
   .text "insert"]
#guard check Vi.keyMap undo_insert_with_repeat

/-- src/keymap/vi.rs: `undo_s_with_count` -/
def undo_s_with_count : List (Step Vi) :=
  [.init,
   .ins "replace some words",
   .keys [.esc, .char '0', .char '8', .char 's', .char 'o', .char 'k', .esc, .char 'u'] none,
   .text "replace some words"]
#guard check Vi.keyMap undo_s_with_count

/-- src/keymap/vi.rs: `undo_multiple_groups` -/
def undo_multiple_groups : List (Step Vi) :=
  [.init,
   .ins "replace some words",
   .keys [.esc, .char 'A', .char ' ', .char 'h', .char 'e', .char 'r', .char 'e', .esc, .char '0', .char '8', .char 's', .char 'o', .char 'k', .esc, .char '2', .char 'u'] none,
   .text "replace some words"]
#guard check Vi.keyMap undo_multiple_groups

/-- src/keymap/vi.rs: `undo_r_command_with_count` -/
def undo_r_command_with_count : List (Step Vi) :=
  [.init,
   .ins "replace some words",
   .keys [.esc, .char '0', .char '8', .char 'r', .char ' ', .char 'u'] none,
   .text "replace some words"]
#guard check Vi.keyMap undo_r_command_with_count

/-- src/keymap/vi.rs: `tilde_basic` -/
def tilde_basic : List (Step Vi) :=
  [.init,
   .ins "tilde",
   .keys [.esc, .char '~'] none,
   .text "tildE"]
#guard check Vi.keyMap tilde_basic

/-- src/keymap/vi.rs: `tilde_basic2` -/
def tilde_basic2 : List (Step Vi) :=
  [.init,
   .ins "tilde",
   .keys [.esc, .char '~', .char '~'] none,
   .text "tilde"]
#guard check Vi.keyMap tilde_basic2

/-- src/keymap/vi.rs: `tilde_move` -/
def tilde_move : List (Step Vi) :=
  [.init,
   .ins "tilde",
   .keys [.esc, .char '0', .char '~', .char '~'] none,
   .text "TIlde"]
#guard check Vi.keyMap tilde_move

/-- src/keymap/vi.rs: `tilde_repeat` -/
def tilde_repeat : List (Step Vi) :=
  [.init,
   .ins "tilde",
   .keys [.esc, .char '~', .char '.'] none,
   .text "tilde"]
#guard check Vi.keyMap tilde_repeat

/-- src/keymap/vi.rs: `tilde_count` -/
def tilde_count : List (Step Vi) :=
  [.init,
   .ins "tilde",
   .keys [.esc, .char '0', .char '1', .char '0', .char '~'] none,
   .text "TILDE"]
#guard check Vi.keyMap tilde_count

/-- src/keymap/vi.rs: `tilde_count_short` -/
def tilde_count_short : List (Step Vi) :=
  [.init,
   .ins "TILDE",
   .keys [.esc, .char '0', .char '2', .char '~'] none,
   .text "tiLDE"]
#guard check Vi.keyMap tilde_count_short

/-- src/keymap/vi.rs: `tilde_nocase` -/
def tilde_nocase : List (Step Vi) :=
  [.init,
   .ins "ti_lde",
   .keys [.esc, .char '0', .char '6', .char '~'] none,
   .text "TI_LDE"]
#guard check Vi.keyMap tilde_nocase

/-- src/keymap/vi.rs: `ctrl_h` -/
def ctrl_h : List (Step Vi) :=
  [.init,
   .ins "not empty",
   .keys [.ctrl 'h'] none,
   .text "not empt"]
#guard check Vi.keyMap ctrl_h

/-- src/keymap/vi.rs: `repeat_char_move_no_char` -/
def repeat_char_move_no_char : List (Step Vi) :=
  [.init,
   .ins "abc defg",
   .keys [.esc, .char '$', .char ';'] none,
   .cursor 7]
#guard check Vi.keyMap repeat_char_move_no_char

end Liner.Tests.ViTests
