import Verif.Model.KeyMap
import Verif.Model.Emacs
import Verif.Model.Vi
/-
Model of /repo/src/context.rs, and of an application that reads one line after the other.
-/

namespace Liner

/-- `KeyBindings`, src/context.rs:51-55. -/
inductive KeyBindings where
  | vi | emacs
deriving DecidableEq, Repr

/-- `Context`, src/context.rs:110-116, with the files the history is kept in.  `word_divider_fn` and `terminal` are in `Env`.
`buffer` is the string the context collects what is written to it in (src/context.rs:254-260), as in `Ed.ctxBuf`. -/
structure Context where
  history : History := .new
  fs : FS
  keyBindings : KeyBindings := .emacs
  buffer : List Tok := []

/-- The arguments of a call of `read_line_with_init_buffer` (`read_line` has an empty buffer), with what the terminal, the
completer, the closure and the word divider do meanwhile. -/
structure Call where
  env : Env
  prompt : Prompt
  buffer : Text := []
  input : List KeyMap.Input

namespace Context

/-- How a call ends: the editor is dropped, the history, the files and what was written to the context stay. -/
def ended {κ : Type} (c : Context) : Out (κ × Ed) Text → Out (Context × List Tok) Text
  | .ok t s => .ok t ({ c with history := s.2.history, fs := s.2.fs, buffer := c.buffer ++ s.2.ctxBuf }, s.2.out)
  | .err e s => .err e ({ c with history := s.2.history, fs := s.2.fs, buffer := c.buffer ++ s.2.ctxBuf }, s.2.out)
  | .panic w => .panic w

/-- `read_line_with_init_buffer`, src/context.rs:171-192: what it returns, the context and what was written to the
terminal. -/
def readLine (c : Context) (r : Call) : Out (Context × List Tok) Text :=
  let s := Editor.initial r.prompt c.history c.fs (.ofText r.buffer)
  match c.keyBindings with
  | .emacs => c.ended (Emacs.keyMap.readLine r.env r.prompt r.input ({}, s))
  | .vi => c.ended (Vi.keyMap.readLine r.env r.prompt r.input ({}, s))

/-- `context.history.push(line.into())`, as in README.md:52 and examples/nocomments.rs:101. -/
def push (c : Context) (t : Text) : Context :=
  let r := c.history.push c.fs (.ofText t)
  { c with history := r.1, fs := r.2 }

end Context

/-- One round of an application: which keys are set (examples/nocomments.rs:82-89), the call, and the lines it prints in
answer. -/
structure Round where
  keys : KeyBindings
  call : Call
  answer : Text → List Text := fun _ => []

/-- The lines an application prints, in the cooked mode of the terminal. -/
def printed (ls : List Text) : List Tok := ls.map fun l => .text (l ++ ['\r', '\n'])

/-- The loop of an application, examples/nocomments.rs:75-123: each line is pushed onto the history and answered; after
Ctrl-C it goes on; Ctrl-D ends it.  (`none`: it panicked or ended with an I/O error.)  Gives the lines, the context and
what was written. -/
def converse : List Round → Context → Option (List Text × Context × List Tok)
  | [], c => some ([], c, [])
  | r :: rs, c =>
    match { c with keyBindings := r.keys }.readLine r.call with
    | .ok t (c1, o) =>
      (converse rs (c1.push t)).map fun x => (t :: x.1, x.2.1, o ++ printed (r.answer t) ++ x.2.2)
    | .err .interrupted (c1, o) => (converse rs c1).map fun x => (x.1, x.2.1, o ++ x.2.2)
    | .err .unexpectedEof (c1, o) => some ([], c1, o)
    | .err .io _ => none
    | .panic _ => none

end Liner
