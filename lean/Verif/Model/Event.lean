import Verif.Model.KeyMap
import Verif.Model.Complete
/-
Model of /repo/src/event.rs and of the trait `Completer` in /repo/src/complete.rs: a completer with a state of
its own that is told about keys and may work on the editor.  Model/KeyMap describes the same code for a completer
that leaves the editor alone; Props/Event proves that the two agree.
-/

namespace Liner

/-- `EventKind`, src/event.rs:15-23. -/
inductive EventKind where
  | beforeKey (k : Key)
  | afterKey (k : Key)
  | beforeComplete
deriving DecidableEq, Repr

/-- `trait Completer`, src/complete.rs:6-9, for a completer with states in `η`.  `none` is a panic.  `onEvent` gets
the editor to change it (`Event::editor`, src/event.rs:4-7); an `io::Error` inside is its own business, because
`on_event` returns nothing. -/
structure Handler (η : Type) where
  completions : Text → η → Option (List Text × η)
  onEvent : EventKind → η × Ed → Option (η × Ed)

/-- `BasicCompleter`, src/complete.rs:11-31, with the default `on_event`, src/complete.rs:8. -/
def basicHandler (prefixes : List Text) : Handler Unit where
  completions w _ := some (basicCompletions prefixes w, ())
  onEvent _ t := some t

/-- `FilenameCompleter`, src/complete.rs:33-161, with the default `on_event`.  The state counts the questions;
`disk n` is the file system at the time of question `n`. -/
def fileHandler (disk : Nat → Disk) (workingDir : Option Text) (caseSensitive : Bool) : Handler Nat where
  completions w n := (fileCompletions (disk n) workingDir caseSensitive w).map (·, n + 1)
  onEvent _ t := some t

/-- A computation on the state of a key map, a completer and an editor. -/
abbrev KH (κ η : Type) := KM (κ × η)

namespace KH
variable {κ η α : Type}

/-- A step of the key map. -/
def map (m : KM κ α) : KH κ η α :=
  M.zoom (fun t => (t.1.1, t.2)) (fun u t => ((u.1, t.1.2), u.2)) m

/-- `handler.on_event(Event::new(editor, kind))`. -/
def fire (H : Handler η) (e : EventKind) : KH κ η Unit := fun t =>
  match H.onEvent e (t.1.2, t.2) with
  | some u => .ok () ((t.1.1, u.1), u.2)
  | none => .panic .op

/-- `handler.completions(word)`. -/
def ask (H : Handler η) (word : Text) : KH κ η (List Text) := fun t =>
  match H.completions word t.1.2 with
  | some u => .ok u.1 ((t.1.1, u.2), t.2)
  | none => .panic .op

end KH

namespace Handled
open M KM KH

variable {κ η : Type} (H : Handler η) (E : Env)

/-- What `complete` does with the candidates for `word`, src/editor.rs:583-612. -/
def offer (word : Text) (completions : List Text) : EdM Unit := do
  match completions with
  | [] => modify fun s => { s with showCompletionsHint := none }
  | [c] =>
    modify fun s => { s with showCompletionsHint := none }
    Editor.deleteWordBeforeCursor E false
    Editor.insertCharsAfterCursor E c
  | _ =>
    match findLongestCommonPrefix completions with
    | some p =>
      if Buffer.byteLen p > Buffer.byteLen word ∧ word.isPrefixOf p then
        Editor.deleteWordBeforeCursor E false
        Editor.insertCharsAfterCursor E p
      else
        modify fun s => { s with showCompletionsHint := some (completions, none) }
        Editor.display E
    | none =>
      modify fun s => { s with showCompletionsHint := some (completions, none) }
      Editor.display E

/-- `complete`, src/editor.rs:546-613. -/
def complete : KH κ η Unit := do
  fire H .beforeComplete
  let s ← ed get
  match s.showCompletionsHint with
  | some (completions, iIn) =>
    ed (Editor.completeNext E completions iIn)
    ed (Editor.display E)
  | none =>
    let range ← ed (Editor.getWordBeforeCursor E false)
    let word ← ed (Editor.curBufMut (Editor.readWord range))
    let completions ← ask H word
    ed (offer E word (Editor.sortDedup completions))

variable (km : KeyMap κ)

/-- The dispatch of `handle_key`, src/keymap/mod.rs:36-69. -/
def dispatch (isEmpty : Bool) (key : Key) : KH κ η Bool := do
  let s ← ed get
  if key = .ctrl 'c' then
    let _ ← ed (Editor.handleNewline E)
    throw .interrupted
  else if key = .ctrl 'd' ∧ isEmpty then
    let _ ← ed (Editor.handleNewline E)
    throw .unexpectedEof
  else if key = .char '\t' then
    complete H E
    pure false
  else if key = .char '\n' then
    ed (Editor.handleNewline E)
  else if key = .ctrl 'f' ∧ s.autosuggestion.isSome then
    ed (Editor.acceptAutosuggestion E)
    pure false
  else if key = .ctrl 'r' then
    ed (Editor.search E false)
    pure false
  else if key = .ctrl 's' then
    ed (Editor.search E true)
    pure false
  else
    let accept ← if key = .right ∧ s.autosuggestion.isSome then ed Editor.cursorIsAtEndOfLine
      else pure false
    if accept then
      ed (Editor.acceptAutosuggestion E)
    else
      map (km.core E key)
      ed Editor.skipCompletionsHint
    pure false

/-- `handle_key`, src/keymap/mod.rs:19-76. -/
def handleKey (key : Key) : KH κ η Bool := do
  fire H (.beforeKey key)
  let b ← ed Editor.curBuf
  let done ← dispatch H E km b.isEmpty (KeyMap.translate key)
  fire H (.afterKey (KeyMap.translate key))
  ed (Editor.flush E)
  pure done

/-- The loop of `handle_keys`, src/context.rs:203-215.  `none` in the list is a failed read, the end of the list is
`None` from `next_key`. -/
def loop : List (Option Key) → KH κ η Text
  | [] => do
    let s ← ed get
    ofOption (Editor.intoText s)
  | none :: _ => throw .io
  | some k :: rest => do
    let done ← handleKey H E km k
    if done then
      let s ← ed get
      ofOption (Editor.intoText s)
    else loop rest

/-- `read_line_with_init_buffer`, src/context.rs:171-192, and `handle_keys`, src/context.rs:194-216. -/
def readLine (prompt : Prompt) (input : List (Option Key)) : KH κ η Text := do
  ed (Editor.start E prompt)
  map (km.init E)
  loop H E km input

end Handled
end Liner
