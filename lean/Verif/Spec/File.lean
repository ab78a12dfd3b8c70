import Verif.Model.Buffer
/-
Specification of file name completion: what a path leads to, how a word is written on the command line, and
what should be offered for it.
-/

namespace Liner.Spec
open Liner

/-- The path begins at the root. -/
def rooted (t : Text) : Prop := t.head? = some '/'

instance (t : Text) : Decidable (rooted t) := by unfold rooted; infer_instance

/-- The names a path goes through: `.` and repeated separators lead nowhere. -/
def steps (t : Text) : List Text := (t.splitOn '/').filter fun p => p ≠ [] ∧ p ≠ ['.']

/-- The path `p` leads where `d` leads from the working directory. -/
structure Reaches (wd : Option Text) (d p : Text) : Prop where
  root : rooted p ↔ rooted d ∨ rooted (wd.getD [])
  steps : steps p = if rooted d then steps d else steps (wd.getD []) ++ steps d

/-- The part of a path before a name: nothing, or something up to a separator. -/
def Folder (d : Text) : Prop := d = [] ∨ ∃ e, d = e ++ ['/']

/-- Its last separator ends a name, the root or a leading `.`. -/
def Tidy (d : Text) : Prop :=
  d = [] ∨ d = ['/'] ∨ d = ['.', '/'] ∨
    ∃ e m, d = e ++ m ++ ['/'] ∧ Folder e ∧ '/' ∉ m ∧ m ≠ [] ∧ m ≠ ['.']

/-- A text with a backslash before every space. -/
def spaced : Text → Text
  | [] => []
  | c :: t => if c = ' ' then '\\' :: ' ' :: spaced t else c :: spaced t

/-- The word `w` stands for the path `x`: with backslashes, or in quotation marks. -/
def Writes (w x : Text) : Prop :=
  (w = spaced x ∧ w.head? ≠ some '"' ∧ w.head? ≠ some '\'') ∨ w = '"' :: x ++ ['"'] ∨ w = '\'' :: x ++ ['\'']

/-- What to write for the path of an entry. -/
def written (d : Text) (e : Text × Bool) : Text := spaced (d ++ e.1 ++ if e.2 then ['/'] else [])

/-- What should be offered for an entry of the directory `d`, when the word ends in the name `n`; `key` is what
counts of a name. -/
def offer (key : Text → Text) (d n : Text) : Option (Text × Bool) → Option Text
  | some e => if n = [] ∨ key n <+: key e.1 then some (written d e) else none
  | none => none

/-- The names of the entries are names. -/
def Names (es : List (Option (Text × Bool))) : Prop := ∀ e, some e ∈ es → e.1 ≠ [] ∧ '/' ∉ e.1

end Liner.Spec
