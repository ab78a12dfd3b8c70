import Verif.Spec.Editor
import Verif.Spec.History
import Mathlib.Data.List.Infix
/-
Specification of moving through the history: a position in a list of entries.
-/

namespace Liner.Spec
open Liner

/-- The position after moving up (`true`) or down (`false`): 0 is the new line, `n` the last entry
that can be reached. -/
def navStep (n : Nat) (pos : Nat) (up : Bool) : Nat := if up then min n (pos + 1) else pos - 1

/-- The line shown at a position: the typed text or one of the entries. -/
def navText (typed : Text) (entries : List Text) (pos : Nat) : Option Text :=
  if pos = 0 then some typed else entries[pos - 1]?

/-- The entries met when moving up with nothing typed: all, newest first. -/
def allEntries (h : History) : List Text := (texts h).reverse

/-- The entries met when moving up with `t` typed: those that properly start with it, then those that
contain it further on, each newest first. -/
def matchingEntries (h : History) (t : Text) : List Text :=
  (texts h).reverse.filter (fun x => t <+: x ∧ x ≠ t) ++
  (texts h).reverse.filter (fun x => t <:+: x ∧ ¬ t <+: x)

/-- Up and down as operations. -/
def navOps (dirs : List Bool) : List EdOp := dirs.map fun up => if up then .moveUp else .moveDown

/-- A history shared with other programs is the one in its file. -/
def UpToDate (s : Ed) : Prop :=
  s.history.share = true → (s.history.loadHistory s.fs false).2 = s.history

end Liner.Spec
