import Verif.Spec.View
/-
What a conversation leaves on the screen.
-/

namespace Liner.Spec
open Liner

variable [Glyphs]

/-- What one round leaves on the screen: the lines above the prompt, the prompt, the line, the number of rows they took, and
what the application printed after it. -/
structure Piece where
  heads : List Text
  prompt : Text
  lines : List Text
  rows : Nat
  answer : List Text

/-- Exactly `n` characters: `t` with blanks after it, as far as there is room. -/
def fit (n : Nat) (t : Text) : Text := (t ++ List.replicate n ' ').take n

/-- The rows of a piece on a terminal with `w` columns, one after the other. -/
def Piece.text (w : Nat) (b : Piece) : Text :=
  headRows w b.heads ++ fit (b.rows * w) (rowsOf w (shown b.prompt b.lines)) ++ headRows w b.answer

/-- Nothing but blanks of the line is beyond the rows it took. -/
def Piece.Whole (w : Nat) (b : Piece) : Prop := ∀ c ∈ (rowsOf w (shown b.prompt b.lines)).drop (b.rows * w), c = ' '

/-- The rows of some pieces. -/
def piecesText (w : Nat) (bs : List Piece) : Text := (bs.map (Piece.text w)).flatten

end Liner.Spec
