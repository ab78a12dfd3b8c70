import Verif.Spec.Editor
/-
A terminal, and what a redraw should leave on it.
-/

namespace Liner.Spec
open Liner

/-- How many columns a terminal gives a character: one, two, or none if it is drawn into the column before it.  A space and the
mark `⏎` take one. -/
class Glyphs where
  width : Char → Nat
  space : width ' ' = 1
  mark : width '⏎' = 1

/-- The right half of a character of two columns. -/
def half : Char := Char.ofNat 0

/-- The columns a character takes. -/
def cells [Glyphs] (c : Char) : Text :=
  if c = '\r' ∨ c = '\n' then [c] else if Glyphs.width c = 0 then [] else if Glyphs.width c = 1 then [c] else [c, half]

/-- The columns a text takes. -/
def onScreen [Glyphs] (t : Text) : Text := t.flatMap cells

/-- The state of a terminal.  There is no last row: row numbers go on where a real terminal scrolls.
`wrap` says that the last column has just been written; the next character then goes to the next row. -/
structure Screen where
  row : Nat := 0
  col : Nat := 0
  wrap : Bool := false
  cell : Nat → Nat → Char := fun _ _ => ' '

namespace Screen

/-- The next column is written, on a terminal with `w` columns. -/
def put (w : Nat) (c : Char) (s : Screen) : Screen :=
  let r := if s.wrap then s.row + 1 else s.row
  let k := if s.wrap then 0 else s.col
  { row := r, col := if k + 1 < w then k + 1 else k, wrap := !decide (k + 1 < w),
    cell := fun i j => if i = r ∧ j = k then c else s.cell i j }

/-- There are two columns left on the row for the next character. -/
def roomy (w : Nat) (s : Screen) : Bool := decide ((if s.wrap then 0 else s.col) + 2 ≤ w)

/-- A character; the terminal is in raw mode, where a line feed keeps the column.  A character of two columns is not cut by the
right edge: it goes to the next row. -/
def glyph [Glyphs] (w : Nat) (c : Char) (s : Screen) : Screen :=
  if c = '\r' then { s with col := 0, wrap := false }
  else if c = '\n' then { s with row := s.row + 1, wrap := false }
  else if Glyphs.width c = 0 then s
  else if Glyphs.width c = 1 then s.put w c
  else ((if s.roomy w then s else { s with row := s.row + 1, col := 0, wrap := false }).put w c).put w half

/-- Characters one after the other. -/
def type [Glyphs] (w : Nat) : Text → Screen → Screen
  | [], s => s
  | c :: cs, s => type w cs (s.glyph w c)

/-- A piece of output.  Escape sequences inside a text (colours, modes, titles; see C14) show nothing.  A
movement by 0 is a movement by 1, as terminals read it, and no movement leaves the screen. -/
def tok [Glyphs] (w : Nat) (t : Tok) (s : Screen) : Screen :=
  match t with
  | .text t => s.type w (removeCodes t)
  | .up n => { s with row := s.row - max 1 n, wrap := false }
  | .left n => { s with col := s.col - max 1 n, wrap := false }
  | .right n => { s with col := min (w - 1) (s.col + max 1 n), wrap := false }
  | .clearAfter => { s with cell := fun i j => if s.row < i ∨ (i = s.row ∧ s.col ≤ j) then ' ' else s.cell i j }
  | .clearAll => { s with cell := fun _ _ => ' ' }
  | .gotoOrigin => { s with row := 0, col := 0, wrap := false }

/-- A list of them. -/
def toks [Glyphs] (w : Nat) : List Tok → Screen → Screen
  | [], s => s
  | t :: ts, s => toks w ts (s.tok w t)

/-- While a text is written, no character of two columns meets the right edge. -/
def TextFits [Glyphs] (w : Nat) : Text → Screen → Prop
  | [], _ => True
  | c :: cs, s => (2 ≤ Glyphs.width c → s.roomy w = true) ∧ TextFits w cs (s.glyph w c)

/-- The same for a list of pieces of output. -/
def Fits [Glyphs] (w : Nat) : List Tok → Screen → Prop
  | [], _ => True
  | .text t :: ts, s => TextFits w (removeCodes t) s ∧ Fits w ts (s.tok w (.text t))
  | t :: ts, s => Fits w ts (s.tok w t)

end Screen

/-- Lines with newlines between them. -/
def joinLines : List Text → Text
  | [] => []
  | [l] => l
  | l :: l' :: ls => l ++ '\n' :: joinLines (l' :: ls)

/-- The lines of a text. -/
def LinesOf (t : Text) (ls : List Text) : Prop := ls ≠ [] ∧ joinLines ls = t ∧ ∀ l ∈ ls, '\n' ∉ l

/-- The prompt before the first line, and the other lines indented by its width. -/
def indented (prompt : Text) : List Text → List Text
  | [] => []
  | l :: ls => (prompt ++ l) :: ls.map (List.replicate prompt.length ' ' ++ ·)

/-- The lines as they are shown after a prompt. -/
def shown [Glyphs] (prompt : Text) (ls : List Text) : List Text := indented (onScreen prompt) (ls.map onScreen)

/-- A line on the screen takes whole rows of `w` columns. -/
def wholeRows (w : Nat) (l : Text) : Text := l ++ List.replicate ((w - l.length % w) % w) ' '

/-- The rows for some lines, one after the other. -/
def rowsOf (w : Nat) (ls : List Text) : Text := (ls.map (wholeRows w)).flatten

/-- How far into the rows the end of the last of some lines is. -/
def endOf (w : Nat) (ls : List Text) : Nat :=
  (rowsOf w ls.dropLast).length + (ls.getLastD []).length

/-- From row `r` on the screen shows the text `t` and nothing else. -/
def Screen.Shows (s : Screen) (w r : Nat) (t : Text) : Prop :=
  ∀ i j, j < w → s.cell (r + i) j = t.getD (i * w + j) ' '

/-- The cursor of the terminal is on position `n`, counted from the beginning of row `r`. -/
def Screen.On (s : Screen) (w r n : Nat) : Prop :=
  s.wrap = false ∧ s.row = r + n / w ∧ s.col = n % w

/-- A text whose columns the editor counts as the terminal does. -/
def Counted [Glyphs] (E : Env) (t : Text) : Prop :=
  (∀ c ∈ t, c ≠ '\r' ∧ c ≠ '\n' ∧ c ≠ escChar) ∧ ∀ n, n ≤ t.length → E.sw (t.take n) = (onScreen (t.take n)).length

/-- A text of characters that take one column each. -/
def Narrow [Glyphs] (E : Env) (t : Text) : Prop := Counted E t ∧ ∀ c ∈ t, Glyphs.width c = 1

/-- The colouring closure changes nothing but colours. -/
def OnlyColours (E : Env) : Prop := ∀ f, E.closure = some f → ∀ t, removeCodes (f t) = removeCodes t

/-- What is drawn after the prompt: the suggestion when there is one (it begins with the line), or the line. -/
def drawn (s : Ed) (line : Text) : Text := (s.autosuggestion.map (·.data)).getD line

/-- What stands before the line found by a search for `term`: the mode, the term, and which of how many entries that
contain it this is. -/
def searchLine (mode term : Text) (place n : Nat) : Text :=
  mode ++ "(search)'".toList ++ term ++ "` (".toList ++ (toString place).toList ++ "/".toList ++ (toString n).toList ++ "): ".toList

/-- The rows of a list of candidates on a terminal of `w` columns: each candidate once and in order, in columns of the same
width with at least two spaces after each candidate; all rows have the same number of them but the last, which may have fewer;
no row is wider than the terminal. -/
def Listed (w : Nat) (cs rows : List Text) : Prop :=
  ∃ (cols width : Nat) (rs : List (List Text)), rs.flatten = cs ∧ (∀ r ∈ rs.dropLast, r.length = cols) ∧
    (∀ r ∈ rs, 0 < r.length ∧ r.length ≤ cols) ∧ (∀ c ∈ cs, c.length + 2 ≤ width) ∧ cols * width ≤ w ∧
    rows = rs.map fun r => r.flatMap fun c => c ++ List.replicate (width - c.length) ' '

/-- The number of columns of a list, if its longest candidate has `m` characters and two of them fit on a row. -/
def listColumns (w m : Nat) : Nat := w / (w / (w / m) + 2)

/-- A list of candidates that take one column for each character.  Two of the longest fit on a row, and the last row of the list
is not full (see C60 for lists that are not like this). -/
structure ListFits [Glyphs] (E : Env) (w : Nat) (cs : List Text) : Prop where
  narrow : ∀ c ∈ cs, Narrow E c
  half : ∀ c ∈ cs, 2 * c.length ≤ w
  wide : 3 ≤ w
  last : ∀ m, 1 ≤ m → (∀ c ∈ cs, c.length ≤ m) → (m = 1 ∨ ∃ c ∈ cs, c.length = m) → ¬ listColumns w m ∣ cs.length

/-- The list that an editor shows, if there is one, fits. -/
def HintFits [Glyphs] (E : Env) (w : Nat) (hint : Option (List Text × Option Nat)) : Prop := ∀ x, hint = some x → ListFits E w x.1

/-- The rows of the list that an editor shows, if there is one. -/
def HintRows (w : Nat) (hint : Option (List Text × Option Nat)) (rows : List Text) : Prop :=
  match hint with
  | none => rows = []
  | some x => Listed w x.1 rows

/-- The place of the entry shown, from 1 on; 0 without one. -/
def placeOf (s : Ed) : Nat := if s.historySubsetIndex = [] then 0 else s.historySubsetLoc.getD 0 + 1

end Liner.Spec
