/-
The monad of the editor model: a state, an I/O error that ends the call (the state at that point is
kept, as in Rust, where `?` returns early from a `&mut self` method), and a panic.
-/

namespace Liner

/-- The kinds of `io::Error` that matter. -/
inductive IoErr where
  /-- the terminal size could not be read, or a write failed, or reading a key failed -/
  | io
  /-- `ErrorKind::Interrupted` of Ctrl-C -/
  | interrupted
  /-- `ErrorKind::UnexpectedEof` of Ctrl-D -/
  | unexpectedEof
deriving DecidableEq, Repr

/-- Where a panic happens.  The program does not distinguish these; the tag lets theorems say which
panics remain possible. -/
inductive Site where
  /-- in an operation on the line, the history or the key map -/
  | op
  /-- while redrawing: cutting a line inside a character, or the `unreachable!()` -/
  | redraw
  /-- while redrawing, because the cursor's row does not fit in a `u16` -/
  | rows
  /-- `unwrap` of an I/O error -/
  | ioUnwrap
deriving DecidableEq, Repr

/-- Outcome of a call. -/
inductive Out (σ α : Type) where
  | ok (a : α) (s : σ)
  | err (e : IoErr) (s : σ)
  | panic (w : Site)

/-- Computations. -/
def M (σ α : Type) : Type := σ → Out σ α

namespace M
variable {σ α β : Type}

protected def pure (a : α) : M σ α := fun s => .ok a s

protected def bind (m : M σ α) (f : α → M σ β) : M σ β := fun s =>
  match m s with
  | .ok a s' => f a s'
  | .err e s' => .err e s'
  | .panic w => .panic w

instance : Monad (M σ) where
  pure := M.pure
  bind := M.bind

/-- Read the state. -/
def get : M σ σ := fun s => .ok s s
/-- Change the state. -/
def modify (f : σ → σ) : M σ Unit := fun s => .ok () (f s)
/-- Return an error. -/
def throw (e : IoErr) : M σ α := fun s => .err e s
/-- Panic. -/
def panicAt (w : Site) : M σ α := fun _ => .panic w
/-- Panic in an operation. -/
def panic : M σ α := panicAt .op
/-- A pure computation that may panic (`none`). -/
def ofOption : Option α → M σ α
  | some a => M.pure a
  | none => M.panic
/-- The same while redrawing. -/
def ofOptionRedraw : Option α → M σ α
  | some a => M.pure a
  | none => M.panicAt .redraw

/-- The same for rows that do not fit. -/
def ofOptionRows : Option α → M σ α
  | some a => M.pure a
  | none => M.panicAt .rows

/-- Run a computation on a part of a larger state. -/
def zoom {τ : Type} (getPart : τ → σ) (setPart : σ → τ → τ) (m : M σ α) : M τ α := fun t =>
  match m (getPart t) with
  | .ok a s => .ok a (setPart s t)
  | .err e s => .err e (setPart s t)
  | .panic w => .panic w

/-- Run an action a given number of times. -/
def repeatN : Nat → M σ Unit → M σ Unit
  | 0, _ => M.pure ()
  | n + 1, m => M.bind m fun _ => repeatN n m

/-- `for x in xs { f(x)?; }` -/
def forEach : List α → (α → M σ Unit) → M σ Unit
  | [], _ => M.pure ()
  | x :: xs, f => M.bind (f x) fun _ => forEach xs f

end M
end Liner
