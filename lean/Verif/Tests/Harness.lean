import Verif.Model.Emacs
import Verif.Model.Vi
/-
Tests, not proofs: the unit tests of /repo, run on the model.  They only check that the model agrees
with the code on the cases the authors of the code wrote down.
-/

namespace Liner.Tests

/-- ASCII classification. -/
def ascii : CharClass where
  isWhitespace := Char.isWhitespace
  isAlphanumeric := Char.isAlphanum
  isLowercase := Char.isLower
  isUppercase := Char.isUpper
  toUppercase := fun c => [c.toUpper]
  toLowercase := fun c => [c.toLower]

/-- An 80 column terminal that never fails, as in /repo/src/test.rs:24-31. -/
def env : Env where
  cc := ascii
  sw := List.length
  stripLen := fun t => (removeCodes t).length
  termSize := fun _ => some 80
  writeOk := fun _ => true
  ttyWidth := some 80

/-- One statement of a unit test. -/
inductive Step (κ : Type) where
  | hist (s : String)
  | init
  | ins (s : String)
  | op (f : Env → EdM Unit)
  | keys (ks : List Key) (done : Option Bool)
  | cursor (n : Nat)
  | text (s : String)
  | km (f : κ → Ed → Bool)
  | setk (f : κ → κ)

/-- The result of an action, if it succeeds. -/
def value {κ α : Type} (m : KM κ α) (k : κ) (e : Ed) : Option α :=
  match m (k, e) with
  | .ok a _ => some a
  | _ => none

/-- `simulate_keys`, src/keymap/vi.rs:1100-1115. -/
def simulate {κ : Type} (m : KeyMap κ) : List Key → KM κ Bool
  | [] => pure false
  | k :: ks => do
    let done ← m.handleKey env (fun _ => []) k
    if done then pure true else simulate m ks

/-- A failed assertion is an error. -/
def assert {κ : Type} (b : Bool) : KM κ Unit := if b then pure () else M.throw .io

def runStep {κ : Type} (m : KeyMap κ) : Step κ → KM κ Unit
  | .hist s => KM.ed (M.modify fun e =>
      { e with history := (e.history.push e.fs (Buffer.ofText s.toList)).1 })
  | .init => m.init env
  | .ins s => KM.ed (Editor.insertCharsAfterCursor env s.toList)
  | .op f => KM.ed (f env)
  | .keys ks done => do
    let d ← simulate m ks
    match done with
    | some d' => assert (d == d')
    | none => pure ()
  | .cursor n => do
    let e ← KM.ed M.get
    assert (e.cursor == n)
  | .text s => do
    let e ← KM.ed M.get
    assert (Editor.intoText e == some s.toList)
  | .km f => fun t => assert (f t.1 t.2) t
  | .setk f => KM.modK f

def runSteps {κ : Type} (m : KeyMap κ) : List (Step κ) → KM κ Unit
  | [] => pure ()
  | s :: ss => do
    runStep m s
    runSteps m ss

def noFiles : FS := { file := fun _ => none, canCreate := fun _ => false }

def start : Ed := Editor.initial { prompt := "prompt".toList } {} noFiles {}

def startOut : Out Ed Unit := Editor.start env { prompt := "prompt".toList } start

/-- Run a test from a fresh editor. -/
def check {κ : Type} [Inhabited κ] (m : KeyMap κ) (steps : List (Step κ)) : Bool :=
  match startOut with
  | .ok _ e =>
    match runSteps m steps (default, e) with
    | .ok _ _ => true
    | _ => false
  | _ => false

instance : Inhabited Emacs := ⟨{}⟩
instance : Inhabited Vi := ⟨{}⟩

end Liner.Tests
