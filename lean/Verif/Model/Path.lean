import Verif.Model.Buffer
/-
The part of `std::path` (on Unix) used by src/complete.rs: paths as texts, with the components of the Rust
standard library.  This describes the documented behaviour of the library, not code of the crate.
-/

namespace Liner
namespace Path

/-- `std::path::Component`. -/
inductive Comp where
  | root
  | cur
  | parent
  | normal (name : Text)
deriving DecidableEq, Repr

/-- `Path::is_absolute`. -/
def isAbsolute (t : Text) : Bool := t.head? == some '/'

/-- Does the path begin with the component `.`? -/
def startsCur (t : Text) : Bool := t == ['.'] || t.take 2 == ['.', '/']

/-- Number of characters taken by the root or the first `.`. -/
def front (t : Text) : Nat := if isAbsolute t || startsCur t then 1 else 0

/-- The pieces after the root or the first `.`. -/
def pieces (t : Text) : List Text := Buffer.splitOn (· == '/') (t.drop (front t))

/-- Empty pieces and `.` are no components. -/
def blank (p : Text) : Bool := p == [] || p == ['.']

def piece (p : Text) : Comp := if p = ['.', '.'] then .parent else .normal p

/-- `Path::components`. -/
def comps (t : Text) : List Comp :=
  (if isAbsolute t then [.root] else if startsCur t then [.cur] else []) ++
    ((pieces t).filter (!blank ·)).map piece

/-- Pieces with the separators between them. -/
def join (ps : List Text) : Text := List.intercalate ['/'] ps

/-- `Path::parent`: without the last component and the blank pieces around it. -/
def parent (t : Text) : Option Text :=
  match (pieces t).reverse.dropWhile blank with
  | _ :: rest => some (t.take (front t) ++ join (rest.dropWhile blank).reverse)
  | [] => if isAbsolute t then none else if startsCur t then some [] else none

/-- `Path::file_name`. -/
def fileName (t : Text) : Option Text :=
  match (comps t).getLast? with
  | some (.normal n) => some n
  | _ => none

/-- `Path::ends_with("..")`. -/
def endsParent (t : Text) : Bool := (comps t).getLast? == some .parent

/-- `PathBuf::push`. -/
def push (t u : Text) : Text :=
  if isAbsolute u then u
  else if t ≠ [] ∧ t.getLast? ≠ some '/' then t ++ '/' :: u
  else t ++ u

/-- `PathBuf::pop`: the path after it, and whether there was something to remove. -/
def pop (t : Text) : Text × Bool :=
  match parent t with
  | some p => (p, true)
  | none => (t, false)

end Path
end Liner
