import Verif.Model.KeyMap
/-
Specification vocabulary for the editor: what a user sees of it, and its public operations.
-/

namespace Liner.Spec
open Liner

/-- The text of the current line; there is none when the displayed history entry does not exist. -/
def text? (s : Ed) : Option Text := s.curBuf?.map (·.data)

/-- The current line is `l ++ r` with the cursor between the two. -/
def At (s : Ed) (l r : Text) : Prop := text? s = some (l ++ r) ∧ s.cursor = l.length

/-- The cursor is inside the current line. -/
def Inside (s : Ed) : Prop := ∃ t, text? s = some t ∧ s.cursor ≤ t.length

/-- The line is `l ++ r` and the cursor rests between the two; where the cursor may not be after the
last character (`noEol`), it rests on that character instead. -/
def Lands (noEol : Bool) (s : Ed) (l r : Text) : Prop :=
  text? s = some (l ++ r) ∧
    s.cursor = if noEol = true ∧ r = [] then l.length - 1 else l.length

/-- The operation makes the line `l ++ r` with the cursor in between.  If the terminal fails, the text
is still exactly that. -/
def Makes {α : Type} (m : EdM α) (s : Ed) (l r : Text) : Prop :=
  (∀ a s', m s = .ok a s' → Lands s.noEol s' l r) ∧
  (∀ e s', m s = .err e s' → text? s' = some (l ++ r))

/-- During a search no history entry is displayed as the line being edited. -/
def SearchOnNewLine (s : Ed) : Prop :=
  s.reverseSearch = true ∨ s.forwardSearch = true → s.curHistoryLoc = none

/-- `b`, with its undo log, is the buffer being edited: the new line, or the editor's copy of a history
entry after it was changed. -/
def Edited (s : Ed) (b : Buffer) : Prop :=
  (s.curHistoryLoc = none ∧ s.newBuf = b) ∨
    ((∃ i, s.curHistoryLoc = some i) ∧ s.histBufValid = true ∧ s.histBuf = b)

/-- What undo, redo and revert do to the editor, given what they do to the buffer: the cursor goes to
the end of the line if there was something to do, and stays otherwise. -/
def Applies (f : Buffer → Option (Bool × Buffer)) (s : Ed) (b : Buffer) (did : Bool) (s' : Ed) :
    Prop :=
  ∃ b', f b = some (did, b') ∧ Edited s' b' ∧
    (did = true → Lands s.noEol s' b'.data []) ∧
    (did = false → ∀ l r, At s l r → Lands s.noEol s' l r)

/-- The histories that reloading the history file produces from `h`.  Only a shared history is
reloaded. -/
inductive Reloaded (fs : FS) (h : History) : History → Prop
  | refl : Reloaded fs h h
  | step {h' : History} : Reloaded fs h h' → h'.share = true →
      Reloaded fs h (h'.loadHistory fs false).2

/-- The public operations of the editor.  `current_buffer_mut` and `context_mut`, which hand out
the line and the context for arbitrary changes, and `take_exec_buffer` are not among them. -/
inductive EdOp where
  | handleNewline
  | search (forward : Bool)
  | flush
  | undo
  | redo
  | revert
  | skipCompletionsHint
  | complete (comp : Text → List Text)
  | deleteWordBeforeCursor (ignoreSpace : Bool)
  | clear
  | moveUp
  | moveDown
  | moveToStartOfHistory
  | moveToEndOfHistory
  | insert (cs : Text)
  | deleteBeforeCursor
  | deleteAfterCursor
  | deleteAllBeforeCursor
  | deleteAllAfterCursor
  | deleteUntil (pos : Nat)
  | deleteUntilInclusive (pos : Nat)
  | moveCursorLeft (n : Nat)
  | moveCursorRight (n : Nat)
  | moveCursorTo (pos : Nat)
  | moveCursorToStartOfLine
  | moveCursorToEndOfLine
  | acceptAutosuggestion
  | display
  | setViMode (m : ViPromptMode)
  | setPrompt (p : Prompt)

/-- Call an operation, dropping its result. -/
def runOp (E : Env) : EdOp → EdM Unit
  | .handleNewline => do let _ ← Editor.handleNewline E
  | .search forward => Editor.search E forward
  | .flush => Editor.flush E
  | .undo => do let _ ← Editor.undo E
  | .redo => do let _ ← Editor.redo E
  | .revert => do let _ ← Editor.revert E
  | .skipCompletionsHint => Editor.skipCompletionsHint
  | .complete comp => Editor.complete E comp
  | .deleteWordBeforeCursor ignoreSpace => Editor.deleteWordBeforeCursor E ignoreSpace
  | .clear => Editor.clear E
  | .moveUp => Editor.moveUp E
  | .moveDown => Editor.moveDown E
  | .moveToStartOfHistory => Editor.moveToStartOfHistory E
  | .moveToEndOfHistory => Editor.moveToEndOfHistory E
  | .insert cs => Editor.insertCharsAfterCursor E cs
  | .deleteBeforeCursor => Editor.deleteBeforeCursor E
  | .deleteAfterCursor => Editor.deleteAfterCursor E
  | .deleteAllBeforeCursor => Editor.deleteAllBeforeCursor E
  | .deleteAllAfterCursor => Editor.deleteAllAfterCursor E
  | .deleteUntil pos => Editor.deleteUntil E pos
  | .deleteUntilInclusive pos => Editor.deleteUntilInclusive E pos
  | .moveCursorLeft n => Editor.moveCursorLeft E n
  | .moveCursorRight n => Editor.moveCursorRight E n
  | .moveCursorTo pos => Editor.moveCursorTo E pos
  | .moveCursorToStartOfLine => Editor.moveCursorToStartOfLine E
  | .moveCursorToEndOfLine => Editor.moveCursorToEndOfLine E
  | .acceptAutosuggestion => Editor.acceptAutosuggestion E
  | .display => Editor.display E
  | .setViMode m => Editor.setViMode m
  | .setPrompt p => Editor.setPrompt p

/-- Operations one after the other; an error or a panic ends the sequence. -/
def runOps (E : Env) : List EdOp → EdM Unit
  | [] => pure ()
  | op :: ops => do
    runOp E op
    runOps E ops

/-- Keys handled one after the other, each with the completer's behaviour at that moment; an error or a
panic ends the sequence. -/
def press {κ : Type} (km : KeyMap κ) (E : Env) : List (Key × (Text → List Text)) → KM κ Unit
  | [] => pure ()
  | k :: ks => do
    let _ ← km.handleKey E k.2 k.1
    press km E ks

/-- What `read_line` does for a list of keys, as long as it does not return: the editor is created
and the keys are handled one after the other. -/
def session {κ : Type} (km : KeyMap κ) (E : Env) (prompt : Prompt)
    (keys : List (Key × (Text → List Text))) : KM κ Unit := do
  KM.ed (Editor.start E prompt)
  km.init E
  press km E keys

/-- A key for which the completer has no candidates. -/
def plain (k : Key) : Key × (Text → List Text) := (k, fun _ => [])

end Liner.Spec
