import Verif.Spec.Nav
/-
Specification of the incremental search.
-/

namespace Liner.Spec
open Liner

/-- The entries that contain the non-empty text `t`, oldest first. -/
def found (h : History) (t : Text) : List Text := (texts h).filter fun x => t ≠ [] ∧ t <:+: x

/-- The selection after one more step forward (`true`) or backward among `n` entries. -/
def searchStep (n : Nat) (pos : Nat) (forward : Bool) : Nat :=
  if forward then (pos + 1) % n else (pos + n - 1) % n

/-- The selection a search starts with. -/
def searchStart (n : Nat) (forward : Bool) : Nat := if forward then 0 else n - 1

/-- Searching forward (`true`) or backward as operations: the first starts the search, the others
continue it. -/
def searchOps (dirs : List Bool) : List EdOp := dirs.map .search

/-- `i` is the entry nearest to the entry `target` among those that contain `t`: looking forward, the
oldest one from `target` on; looking backward, the newest one up to `target`; if there is none in that
direction, the oldest of all. -/
def Picks (h : History) (t : Text) (forward : Bool) (target i : Nat) : Prop :=
  ContainsAt h t i ∧
  if forward then
    (target ≤ i ∧ ∀ j, target ≤ j → ContainsAt h t j → i ≤ j) ∨
    ((∀ j, ContainsAt h t j → j < target) ∧ ∀ j, ContainsAt h t j → i ≤ j)
  else
    (i ≤ target ∧ ∀ j, j ≤ target → ContainsAt h t j → j ≤ i) ∨
    ((∀ j, ContainsAt h t j → target < j) ∧ ∀ j, ContainsAt h t j → i ≤ j)

end Liner.Spec
