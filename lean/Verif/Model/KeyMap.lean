import Verif.Model.Editor
/-
Model of /repo/src/keymap/mod.rs and of the reading loop in /repo/src/context.rs.
-/

namespace Liner

/-- `termion::event::Key`.  `other` stands for the keys that this crate never mentions (PageUp,
PageDown, BackTab, Insert, F(n) and so on). -/
inductive Key where
  | backspace | left | right | up | down | home | «end» | delete
  | char (c : Char)
  | alt (c : Char)
  | ctrl (c : Char)
  | null | esc
  | other (n : Nat)
deriving DecidableEq, Repr

/-- A computation of a key map with state `κ` on the editor. -/
abbrev KM (κ : Type) := M (κ × Ed)

namespace KM
variable {κ α : Type}

/-- An editor operation. -/
def ed (m : EdM α) : KM κ α := M.zoom Prod.snd (fun e t => (t.1, e)) m
/-- Read the state of the key map. -/
def getK : KM κ κ := fun t => .ok t.1 t
/-- Change the state of the key map. -/
def modK (f : κ → κ) : KM κ Unit := fun t => .ok () (f t.1, t.2)

end KM

/-- `trait KeyMap`, src/keymap/mod.rs:8-17. -/
structure KeyMap (κ : Type) where
  core : Env → Key → KM κ Unit
  init : Env → KM κ Unit

namespace KeyMap
open M KM

/-- `key == Key::Ctrl('h')`, src/keymap/mod.rs:31-34. -/
def translate (key : Key) : Key := if key = .ctrl 'h' then .backspace else key

/-- The dispatch of `handle_key`, src/keymap/mod.rs:36-69. -/
def dispatch {κ : Type} (km : KeyMap κ) (E : Env) (comp : Text → List Text) (isEmpty : Bool)
    (key : Key) : KM κ Bool := do
  let s ← ed get
  if key = .ctrl 'c' then
    let _ ← ed (Editor.handleNewline E)
    throw .interrupted
  else if key = .ctrl 'd' ∧ isEmpty then
    let _ ← ed (Editor.handleNewline E)
    throw .unexpectedEof
  else if key = .char '\t' then
    ed (Editor.complete E comp)
    pure false
  else if key = .char '\n' then
    ed (Editor.handleNewline E)
  else if key = .ctrl 'f' ∧ s.autosuggestion.isSome then
    ed (Editor.acceptAutosuggestion E)
    pure false
  else if key = .ctrl 'r' then
    ed (Editor.search E false)
    pure false
  else if key = .ctrl 's' then
    ed (Editor.search E true)
    pure false
  else
    let accept ← if key = .right ∧ s.autosuggestion.isSome then ed Editor.cursorIsAtEndOfLine
      else pure false
    if accept then
      ed (Editor.acceptAutosuggestion E)
    else
      km.core E key
      ed Editor.skipCompletionsHint
    pure false

/-- `handle_key`, src/keymap/mod.rs:19-76.  The completer's event handler is the default one, which
does nothing (src/complete.rs:8; others are in Model/Event); `comp` is its `completions` at this key. -/
def handleKey {κ : Type} (km : KeyMap κ) (E : Env) (comp : Text → List Text) (key : Key) :
    KM κ Bool := do
  let b ← ed Editor.curBuf
  let done ← km.dispatch E comp b.isEmpty (translate key)
  ed (Editor.flush E)
  pure done

/-- What `Tty::next_key` returns, with the completer's behaviour at that moment. -/
inductive Input where
  | key (k : Key) (comp : Text → List Text)
  | ioErr

/-- The loop of `handle_keys`, src/context.rs:203-215.  The end of the list is `None` from
`next_key`. -/
def loop {κ : Type} (km : KeyMap κ) (E : Env) : List Input → KM κ Text
  | [] => do
    let s ← ed get
    ofOption (Editor.intoText s)
  | .ioErr :: _ => throw .io
  | .key k comp :: rest => do
    let done ← km.handleKey E comp k
    if done then
      let s ← ed get
      ofOption (Editor.intoText s)
    else km.loop E rest

/-- `handle_keys`, src/context.rs:194-216. -/
def handleKeys {κ : Type} (km : KeyMap κ) (E : Env) (input : List Input) : KM κ Text := do
  km.init E
  km.loop E input

/-- `read_line_with_init_buffer`, src/context.rs:171-192 (and `read_line`, 139-149, with an empty
buffer), run on `Editor.initial`. -/
def readLine {κ : Type} (km : KeyMap κ) (E : Env) (prompt : Prompt) (input : List Input) :
    KM κ Text := do
  ed (Editor.start E prompt)
  km.handleKeys E input

end KeyMap

/-- `revert_all_history`, src/context.rs:218-222. -/
def revertAllHistory (h : History) : Option History :=
  (h.buffers.mapM fun (b : Buffer) => b.revert.map Prod.snd).map fun bs => { h with buffers := bs }

end Liner
