import Verif.Spec.Editor
/-
Specification of the Emacs editing keys: a text with a cursor in it, as a pair of the text before and
the text after the cursor.
-/

namespace Liner.Spec
open Liner

/-- The keys that edit the line. -/
def editing : Key → Bool
  | .char c => c != '\t' && c != '\n'
  | .left | .right | .home | .end | .backspace | .delete => true
  | .ctrl c => c ∈ ['a', 'e', 'b', 'f', 'd', 'h', 'u', 'k']
  | _ => false

/-- One character to the left. -/
def goLeft : Text × Text → Text × Text
  | (l, r) => (l.dropLast, l.getLast?.toList ++ r)

/-- One character to the right. -/
def goRight : Text × Text → Text × Text
  | (l, r) => (l ++ r.head?.toList, r.tail)

/-- What an editing key does while the suggestion `o` is shown. -/
def edit (o : Option Text) (key : Key) (t : Text × Text) : Text × Text :=
  match key with
  | .char c => (t.1 ++ [c], t.2)
  | .left | .ctrl 'b' => goLeft t
  | .right => match o with
    | some x => if t.2 = [] then (x, []) else goRight t
    | none => goRight t
  | .ctrl 'f' => match o with
    | some x => (x, [])
    | none => goRight t
  | .home | .ctrl 'a' => ([], t.1 ++ t.2)
  | .end | .ctrl 'e' => (t.1 ++ t.2, [])
  | .backspace | .ctrl 'h' => (t.1.dropLast, t.2)
  | .delete | .ctrl 'd' => (t.1, t.2.tail)
  | .ctrl 'u' => ([], t.2)
  | .ctrl 'k' => (t.1, [])
  | _ => t

/-- The newest entry that properly extends the non-empty text `t`. -/
def hint (entries : List Text) (t : Text) : Option Text :=
  if t = [] then none else entries.reverse.find? fun x => t.isPrefixOf x && t != x

/-- Editing keys one after the other on a new line. -/
def edits (entries : List Text) (keys : List Key) (t : Text × Text) : Text × Text :=
  keys.foldl (fun t key => edit (hint entries (t.1 ++ t.2)) key t) t

end Liner.Spec
