import Verif.Spec.Editor
import Verif.Spec.Words
/-
Specification of the word before the cursor and of completion, over plain texts.
-/

namespace Liner.Spec
open Liner

/-- `p` is the word that ends at or around the cursor: it is the last one that begins before the
cursor.  Unless `ignoreSpace`, the cursor must touch it. -/
structure WordBefore (ws : List (Nat × Nat)) (cursor : Nat) (ignoreSpace : Bool) (p : Nat × Nat) :
    Prop where
  mem : p ∈ ws
  before : p.1 < cursor
  touches : ignoreSpace = false → cursor ≤ p.2
  last : ∀ q ∈ ws, q.1 < cursor → q.1 ≤ p.1

/-- In the text `l ++ w1 ++ w2 ++ r` with the cursor after `w1`, the word touched by the cursor is
`w1 ++ w2`, or there is none and both parts are empty. -/
def Touched (l w1 w2 r : Text) : Prop :=
  ∀ ws, IsDivision (l ++ w1 ++ (w2 ++ r)) ws →
    (w1 ≠ [] ∧ WordBefore ws (l ++ w1).length false (l.length, (l ++ w1 ++ w2).length)) ∨
    (w1 = [] ∧ w2 = [] ∧ ∀ p, ¬ WordBefore ws (l ++ w1).length false p)

/-- `cs` lists the texts of `given` in lexicographic order of their code points, each one once. -/
def SortedSet (given cs : List Text) : Prop :=
  cs.Pairwise (· < ·) ∧ ∀ c, c ∈ cs ↔ c ∈ given

/-- `p` is a common prefix of all of `cs` and longer than any other. -/
def CommonPrefix (cs : List Text) (p : Text) : Prop :=
  (∀ c ∈ cs, p <+: c) ∧ ∀ q, (∀ c ∈ cs, q <+: c) → q <+: p

/-- A text that reads as one word wherever a word may begin: its first character is neither a space
nor a backslash and its spaces are escaped. -/
def OneWord (c : Text) : Prop :=
  (∃ x, c[0]? = some x ∧ x ≠ ' ' ∧ x ≠ '\\') ∧ ∀ i, c[i]? = some ' ' → Escaped c i

end Liner.Spec
