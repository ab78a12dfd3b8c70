import Verif.Spec.Screen
import Verif.Spec.Loop
import Verif.Props.Util
/-
What a user sees, and that it is up to date.
-/

namespace Liner.Spec
open Liner
open Liner.Props (Strip)

variable [Glyphs]

/-- The states `a` and `b` look the same: the prompt, the line, the cursor, the suggestion, and during a search
what was found. -/
structure Look (a b : Ed) : Prop where
  prompt : b.prompt = a.prompt
  text : text? b = text? a
  cursor : b.cursor = a.cursor
  sug : b.autosuggestion.map (·.data) = a.autosuggestion.map (·.data)
  search : b.reverseSearch = a.reverseSearch ∧ b.forwardSearch = a.forwardSearch
  found : a.isSearch = true → b.historySubsetIndex = a.historySubsetIndex ∧ b.historySubsetLoc = a.historySubsetLoc
  line : b.termCursorLine = a.termCursorLine
  list : b.showCompletionsHint = none ∨ b.showCompletionsHint = a.showCompletionsHint

/-- The last thing that was written to the terminal is a redraw (made in a state `s0` with `C`) of a state that
looks like `s`. -/
def Fresh (E : Env) (C : Ed → Prop) (s : Ed) : Prop :=
  ∃ s0 s1, C s0 ∧ Editor.display E s0 = .ok () s1 ∧ s1.out = s.out ∧ Look s1 s

/-- The columns of texts of characters in `P` without a newline are counted right. -/
def CountsRight (E : Env) (P : Char → Prop) : Prop := ∀ t : Text, (∀ c ∈ t, P c) → '\n' ∉ t → Counted E t

/-- The prompt shows as `p`, on one row and not as wide as the terminal. -/
structure PromptFits (E : Env) (w : Nat) (pr : Prompt) (p : Text) : Prop where
  strip : Strip pr.toText p
  one : '\n' ∉ pr.toText
  counted : Counted E p
  fits : 0 < (onScreen p).length ∧ (onScreen p).length < w

/-- The prompt in a mode of the vi key map. -/
def inMode (pr : Prompt) (m : ViPromptMode) : Prompt := { pr with viStatus := pr.viStatus.map fun st => { st with mode := m } }

/-- What searches need: lines of one row, of characters of one column; the characters around the term and of the mode are in `P`
and counted right. -/
structure SearchFits (E : Env) (P : Char → Prop) (pr : Prompt) : Prop where
  one : ¬ P '\n'
  narrow : ∀ c, P c → Glyphs.width c = 1
  frame : ∀ c ∈ "(search)'` (0123456789/): ".toList, P c
  mode : ∀ m, ∀ c ∈ (inMode pr m).pre, P c
  len : ∀ m, E.stripLen (inMode pr m).pre = (inMode pr m).pre.length

/-- What there is to be seen of `s`: before the first line stands `p`, which is the prompt, or in a search the term and the
place of the entry; then come the lines `ls` of the text, of the suggestion that continues it or of the entry found; and
the cursor is on position `n` of the rows, which is where the text before the cursor of the editor ends, or in a search
where that part of the term ends. -/
def ToSee (E : Env) (w : Nat) (s : Ed) (p : Text) (ls : List Text) (n : Nat) : Prop :=
  ∃ line, text? s = some line ∧ LinesOf (drawn s line) ls ∧
    if s.reverseSearch ∨ s.forwardSearch then
      p = searchLine s.prompt.pre line (placeOf s) s.historySubsetIndex.length ∧ n = s.prompt.pre.length + 9 + s.cursor
    else PromptFits E w s.prompt p ∧ ∃ before, LinesOf (line.take s.cursor) before ∧ n = endOf w (shown p before)

/-- While `out` is written, the cursor of the terminal stays in the first 65535 rows, and no character of two columns meets the
right edge. -/
def InSight (scr : Screen) (w : Nat) (out : List Tok) : Prop := scr.Fits w out ∧ ∀ o, o <+: out → (scr.toks w o).row < 65535

/-- What a finished line leaves: from row `R` on the screen shows the lines `ls` after the prompt `p` and nothing else.  The
cursor of the terminal is at the beginning of the row below the one with position `n`; that row and those below it are
blank. -/
structure Finished (scr : Screen) (w R : Nat) (p : Text) (ls : List Text) (n : Nat) : Prop where
  shows : scr.Shows w R (rowsOf w (shown p ls))
  row : scr.row = R + n / w + 1
  col : scr.col = 0
  wrap : scr.wrap = false
  below : ∀ i j, scr.row ≤ i → j < w → scr.cell i j = ' '

/-- A text with escape sequences that shows as `h`, whatever comes after it. -/
def ShowsAs (t h : Text) : Prop := ∀ u v, Strip u v → Strip (t ++ u) (h ++ v)

/-- A line of the prompt above the last one takes whole rows, at least one. -/
def headRow (w : Nat) (l : Text) : Text := if l = [] then List.replicate w ' ' else wholeRows w l

def headRows (w : Nat) (hs : List Text) : Text := (hs.map fun h => headRow w (onScreen h)).flatten

/-- The row an editor begins on: the row of the cursor of the terminal, or the next one when the cursor is not in the first
column. -/
def firstRow (scr : Screen) : Nat := scr.row + (if scr.col = 0 ∧ scr.wrap = false then 0 else 1)

/-- The first row of the editor when the lines `hs` are above it. -/
def editorRow (w : Nat) (hs : List Text) (scr : Screen) : Nat := firstRow scr + (headRows w hs).length / w

/-- There is nothing on the rows an editor will be on. -/
def Clear (scr : Screen) (w : Nat) : Prop := ∀ i j, firstRow scr ≤ i → j < w → scr.cell i j = ' '

/-- A place before the cursor of the terminal. -/
def Before (scr : Screen) (i j : Nat) : Prop := i < scr.row ∨ (i = scr.row ∧ (j < scr.col ∨ scr.wrap = true))

/-- What is above an editor that was opened on the screen `scr`: what was before the cursor of the terminal, and the lines `hs`. -/
structure Topped (w : Nat) (hs : List Text) (scr scr' : Screen) : Prop where
  before : ∀ i j, Before scr i j → scr'.cell i j = scr.cell i j
  heads : ∀ i j, j < w → i * w + j < (headRows w hs).length → scr'.cell (firstRow scr + i) j = (headRows w hs).getD (i * w + j) ' '

/-- What is drawn for `s` (the suggestion, if there is one) ends where the text `line` ends, or later on the same row.  A
character of two columns under the cursor is not cut by the right edge. -/
structure SameRow (w : Nat) (s : Ed) (p line : Text) : Prop where
  ends : ∀ ls ts, LinesOf line ls → LinesOf (drawn s line) ts →
    endOf w (shown p ts) = endOf w (shown p ls) ∨
      (endOf w (shown p ts) / w = endOf w (shown p ls) / w ∧ endOf w (shown p ls) % w ≠ 0)
  under : ∀ c bs, line[s.cursor]? = some c → 2 ≤ Glyphs.width c → LinesOf (line.take s.cursor) bs → endOf w (shown p bs) % w + 1 ≠ w

end Liner.Spec
