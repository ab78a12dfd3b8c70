import Verif.Spec.Board
import Verif.Spec.Loop
/-
A whole line in vi, up to the key that ends it.
-/

namespace Liner.Spec
open Liner

/-- What is typed for a line. -/
inductive ViLine where
  /-- the first insertion, without Esc -/
  | first (ks : List Key)
  /-- the first insertion with Esc, and commands -/
  | commands (ks : List Key) (cs : List Command)
  /-- these, and an insertion without Esc -/
  | writing (ks : List Key) (cs : List Command) (op : Opening) (ds : List Char) (ks' : List Key)

def ViLine.keys : ViLine → List Key
  | .first ks => ks
  | .commands ks cs => ks ++ [.esc] ++ cs.flatMap Command.keys
  | .writing ks cs op ds ks' => ks ++ [.esc] ++ cs.flatMap Command.keys ++ (op.keys ds ++ ks')

/-- The first insertion on a line that begins with the text `d`. -/
def Pen.first (d : Text) : Pen := (Board.fresh d).pen (.insert 'i') [] (d, [])

/-- It can be typed on a line that begins with the text `d`. -/
def ViLine.Can (C : CharClass) (d : Text) : ViLine → Prop
  | .first ks => Pen.CanAll ks (.first d)
  | .commands ks cs => Pen.CanAll ks (.first d) ∧ ∀ b, Board.Begun d ks b → Board.CanAll C cs b
  | .writing ks cs op ds ks' => Pen.CanAll ks (.first d) ∧ ∀ b, Board.Begun d ks b → Board.CanAll C cs b ∧
      ∀ b', Board.Steps C cs b b' → b'.Can C (.write op ds ks')

/-- It leaves the cursor between the texts `l` and `r`. -/
def ViLine.Leaves (C : CharClass) (d : Text) (l r : Text) : ViLine → Prop
  | .first ks => ∃ pen, Pen.Steps ks (.first d) pen ∧ pen.left = l ∧ pen.right = r
  | .commands ks cs => ∃ b b', Board.Begun d ks b ∧ Board.Steps C cs b b' ∧ b'.left = l ∧ b'.right = r
  | .writing ks cs op ds ks' => ∃ b b' p pen, Board.Begun d ks b ∧ Board.Steps C cs b b' ∧
      Opens C (op.total b'.times ds) b'.left b'.right op p ∧ Pen.Steps ks' (b'.pen op ds p) pen ∧ pen.left = l ∧ pen.right = r

/-- There is no undo in it. -/
def ViLine.NoUndo : ViLine → Prop
  | .first _ => True
  | .commands _ cs => .undo ∉ cs
  | .writing _ cs _ _ _ => .undo ∉ cs

end Liner.Spec
