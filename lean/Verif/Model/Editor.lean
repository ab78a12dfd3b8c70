import Verif.Model.Monad
import Verif.Model.Words
import Verif.Model.Util
import Verif.Model.History
import Mathlib.Data.List.Sort
/-
Model of /repo/src/editor.rs.

The context (`EditorContext`, src/context.rs:110-133) is part of the editor state: its history, its
output buffer and the terminal.  The terminal answers size queries and accepts writes according to
an arbitrary oracle (`Env.termSize`, `Env.writeOk`), indexed by a counter in the state, so that every
behaviour over time is covered.  Output is a list of tokens; the text that termion produces for each
token is trusted.  Byte-wise partial writes are not modelled: a failing write adds nothing to `out`.
`io::Error`s carry only their kind.
-/

namespace Liner

/-- `enum ViPromptMode`, src/editor.rs:14-17. -/
inductive ViPromptMode where
  | normal | insert
deriving DecidableEq, Repr

/-- `struct ViStatus`, src/editor.rs:21-25. -/
structure ViStatus where
  mode : ViPromptMode := .insert
  normal : Text := ['[', 'N', ']', ' ']
  insert : Text := ['[', 'I', ']', ' ']
deriving Repr

/-- `ViStatus::as_str` and `Display for ViStatus`, src/editor.rs:40-46, 59-67. -/
def ViStatus.asStr (v : ViStatus) : Text :=
  match v.mode with
  | .normal => v.normal
  | .insert => v.insert

/-- `struct Prompt`, src/editor.rs:89-92. -/
structure Prompt where
  prompt : Text
  viStatus : Option ViStatus := none
deriving Repr

/-- `Prompt::prefix`, src/editor.rs:103-108. -/
def Prompt.pre (p : Prompt) : Text :=
  match p.viStatus with
  | some st => st.asStr
  | none => []

/-- `Display for Prompt`, src/editor.rs:111-118. -/
def Prompt.toText (p : Prompt) : Text :=
  match p.viStatus with
  | some st => st.asStr ++ p.prompt
  | none => p.prompt

/-- What is written to the terminal.  `cursor::Up(n)` etc. of termion. -/
inductive Tok where
  | text (s : Text)
  | up (n : Nat)
  | left (n : Nat)
  | right (n : Nat)
  | clearAfter
  | clearAll
  | gotoOrigin
deriving DecidableEq, Repr

/-- termion's colour strings (`fg_str`, `bg_str`). -/
def csi (s : Text) : Text := escChar :: '[' :: s
def fgRed : Text := csi ['3', '8', ';', '5', ';', '1', 'm']
def fgGreen : Text := csi ['3', '8', ';', '5', ';', '2', 'm']
def fgYellow : Text := csi ['3', '8', ';', '5', ';', '3', 'm']
def fgBlack : Text := csi ['3', '8', ';', '5', ';', '0', 'm']
def bgWhite : Text := csi ['4', '8', ';', '5', ';', '7', 'm']
def fgReset : Text := csi ['3', '9', 'm']
def bgReset : Text := csi ['4', '9', 'm']

/-- The classification of characters of the Rust standard library, used by the vi key bindings. -/
structure CharClass where
  isWhitespace : Char → Bool
  isAlphanumeric : Char → Bool
  isLowercase : Char → Bool
  isUppercase : Char → Bool
  toUppercase : Char → Text
  toLowercase : Char → Text

/-- What the editor is given and never changes. -/
structure Env where
  /-- `char::is_whitespace` etc. -/
  cc : CharClass
  /-- `UnicodeWidthStr::width` -/
  sw : Text → Nat
  /-- the colouring closure -/
  closure : Option (Text → Text) := none
  /-- `EditorContext::word_divider` -/
  words : Buffer → List (Nat × Nat) := getBufferWords
  /-- `strip_ansi_escapes::strip(..).len()` -/
  stripLen : Text → Nat
  /-- `termion::terminal_size()`: the columns (a `u16`), or an error -/
  termSize : Nat → Option Nat
  /-- does the n-th write or flush succeed -/
  writeOk : Nat → Bool
  /-- `Tty::width` -/
  ttyWidth : Option Nat

/-- `struct Editor` with its context, src/editor.rs:173-222. -/
structure Ed where
  prompt : Prompt
  cursor : Nat := 0
  newBuf : Buffer := {}
  histBuf : Buffer := {}
  histBufValid : Bool := false
  curHistoryLoc : Option Nat := none
  termCursorLine : Nat := 1
  showCompletionsHint : Option (List Text × Option Nat) := none
  showAutosuggestions : Bool := true
  noEol : Bool := false
  reverseSearch : Bool := false
  forwardSearch : Bool := false
  bufferChanged : Bool := false
  historySubsetIndex : List Nat := []
  historySubsetLoc : Option Nat := none
  autosuggestion : Option Buffer := none
  historyFresh : Bool := false
  /-- `context.history` -/
  history : History
  /-- the file system, for `History::load_history` -/
  fs : FS
  /-- `context.buffer` -/
  ctxBuf : List Tok := []
  /-- everything written to the terminal so far -/
  out : List Tok := []
  /-- number of terminal calls so far -/
  tick : Nat := 0

abbrev EdM := M Ed

namespace Ed

/-- `cur_buf!`, src/editor.rs:240-248.  Indexing the history panics when out of range. -/
def curBuf? (s : Ed) : Option Buffer :=
  match s.curHistoryLoc with
  | some i => if s.histBufValid then some s.histBuf else s.history.buffers[i]?
  | none => some s.newBuf

/-- `is_search`, src/editor.rs:309-311. -/
def isSearch (s : Ed) : Bool := s.reverseSearch || s.forwardSearch

/-- `search_history_loc`, src/editor.rs:378-381. -/
def searchHistoryLoc (s : Ed) : Option Nat :=
  match s.historySubsetLoc with
  | some i => s.historySubsetIndex[i]?
  | none => none

end Ed

namespace Editor
open M

/-- `cur_buf!` as an action. -/
def curBuf : EdM Buffer := fun s =>
  match s.curBuf? with
  | some b => .ok b s
  | none => .panic .op

/-- The buffer that `cur_buf_mut!` hands out, src/editor.rs:224-238: a history entry is copied on
first use. -/
def workBuf (s : Ed) : Option Buffer :=
  match s.curHistoryLoc with
  | some i =>
    if s.histBufValid then some s.histBuf else (s.history.buffers[i]?).bind s.histBuf.copyBuffer
  | none => some s.newBuf

/-- The state after the buffer handed out by `cur_buf_mut!` was changed to `b`. -/
def setCur (s : Ed) (b : Buffer) : Ed :=
  match s.curHistoryLoc with
  | some _ => { s with bufferChanged := true, histBuf := b, histBufValid := true }
  | none => { s with bufferChanged := true, newBuf := b }

/-- `cur_buf_mut!`, src/editor.rs:224-238, applied to a buffer operation that may panic. -/
def curBufMut {α : Type} (f : Buffer → Option (α × Buffer)) : EdM α := fun s =>
  match workBuf s with
  | none => .panic .op
  | some b =>
    match f b with
    | none => .panic .op
    | some (a, b') => .ok a (setCur s b')

/-- A buffer operation without result. -/
def noRes (f : Buffer → Option Buffer) : Buffer → Option (Unit × Buffer) := fun b => (f b).map ((), ·)

/-- `clear_search`, src/editor.rs:313-318. -/
def clearSearch : EdM Unit := modify fun s =>
  { s with reverseSearch := false, forwardSearch := false, historySubsetLoc := none,
           historySubsetIndex := [] }

/-- `set_prompt`, src/editor.rs:331-338. -/
def setPrompt (p : Prompt) : EdM Unit := modify fun s =>
  match p.viStatus, s.prompt.viStatus with
  | some new, some old => { s with prompt := { p with viStatus := some { new with mode := old.mode } } }
  | _, _ => { s with prompt := p }

/-- `set_vi_mode`, src/editor.rs:1183-1187. -/
def setViMode (mode : ViPromptMode) : EdM Unit := modify fun s =>
  match s.prompt.viStatus with
  | some st => { s with prompt := { s.prompt with viStatus := some { st with mode := mode } } }
  | none => s

/-- `freshen_history`, src/editor.rs:383-388. -/
def freshenHistory : EdM Unit := modify fun s =>
  if s.history.share && !s.historyFresh then
    { s with history := (s.history.loadHistory s.fs false).2, historyFresh := true }
  else s

/-- The loop over the subset in `refresh_search`, src/editor.rs:400-411: index of the first entry
not older than the target, or its predecessor. -/
def refreshLoc (forward : Bool) (target : Nat) : List Nat → Nat → Option Nat
  | [], _ => none
  | loc :: rest, i =>
    if target ≤ loc then
      if forward || target = loc || i = 0 then some i else some (i - 1)
    else refreshLoc forward target rest (i + 1)

/-- The state after `refresh_search`, src/editor.rs:391-421. -/
def refreshed (forward : Bool) (s : Ed) : Ed :=
  let target := s.searchHistoryLoc
  let index := s.history.searchIndex s.newBuf
  let loc : Option Nat :=
    if index.isEmpty then none
    else
      let start := if forward then 0 else index.length - 1
      match target with
      | some t => some ((refreshLoc forward t index 0).getD start)
      | none => some start
  { s with historySubsetIndex := index, historySubsetLoc := loc, reverseSearch := !forward,
           forwardSearch := forward, curHistoryLoc := none, histBufValid := false,
           bufferChanged := false }

/-- `refresh_search`, src/editor.rs:391-421. -/
def refreshSearch (forward : Bool) : EdM Unit := modify (refreshed forward)

/-- `current_autosuggestion`, src/editor.rs:937-957. -/
def currentAutosuggestion : EdM (Option Buffer) := fun s =>
  if s.histBufValid then .ok none s
  else
    let idx : Option Nat :=
      if s.isSearch then s.searchHistoryLoc
      else if s.showAutosuggestions then
        match s.curHistoryLoc with
        | some i => some i
        | none => s.history.getNewestMatch (some s.history.buffers.length) s.newBuf
      else none
    match idx with
    | none => .ok none s
    | some i =>
      match s.history.buffers[i]? with
      | some b => .ok (some b) s
      | none => .panic .op

/-- Decimal digits of a number. -/
def fmtNat (n : Nat) : Text := Nat.toDigits 10 n

/-- The search prompt, src/editor.rs:977-985: "(search)'" etc. -/
def searchText (pre color line : Text) (hplace n : Nat) : Text :=
  pre ++ ['(', 's', 'e', 'a', 'r', 'c', 'h', ')', '\''] ++ color ++ line ++ fgReset ++
    ['`', ' ', '('] ++ fmtNat hplace ++ ['/'] ++ fmtNat n ++ [')', ':', ' ']

/-- The prompt and the width of its fixed part, for the current line `line`,
src/editor.rs:964-991. -/
def promptFor (E : Env) (s : Ed) (line : Buffer) : Text × Nat :=
  if s.isSearch then
    let hplace := if s.historySubsetIndex.isEmpty then 0 else s.historySubsetLoc.getD 0 + 1
    let color := if s.historySubsetIndex.isEmpty then fgRed else fgGreen
    (searchText s.prompt.pre color line.data hplace s.historySubsetIndex.length,
      E.stripLen s.prompt.pre + 9)
  else (s.prompt.toText, 0)

/-- `search_prompt`, src/editor.rs:964-991.  The current line is only looked at during a search. -/
def searchPrompt (E : Env) : EdM (Text × Nat) := fun s =>
  if s.isSearch then
    match s.curBuf? with
    | some line => .ok (promptFor E s line) s
    | none => .panic .op
  else .ok (promptFor E s {}) s

/-- `calc_width`, src/editor.rs:994-1006. -/
def calcWidth (promptWidth : Nat) (terminalWidth : Nat) : List Nat → Nat → Nat
  | [], total => total
  | line :: rest, total =>
    let total := if total % terminalWidth ≠ 0 then (total / terminalWidth + 1) * terminalWidth else total
    calcWidth promptWidth terminalWidth rest (total + (promptWidth + line))

/-- `termion::terminal_size()?`; each call moves the clock. -/
def terminalSize (E : Env) : EdM Nat := fun s =>
  match E.termSize s.tick with
  | some w => .ok w { s with tick := s.tick + 1 }
  | none => .err .io { s with tick := s.tick + 1 }

/-- `util::terminal_width`, src/util.rs:91-97. -/
def terminalWidth (E : Env) : EdM Nat := do
  let w ← terminalSize E
  pure (if w = 0 then 80 else w)

/-- A write to the terminal (`write_all`). -/
def writeTerm (E : Env) (toks : List Tok) : EdM Unit := fun s =>
  if E.writeOk s.tick then .ok () { s with tick := s.tick + 1, out := s.out ++ toks }
  else .err .io { s with tick := s.tick + 1 }

/-- `flush`, src/editor.rs:452-454. -/
def flush (E : Env) : EdM Unit := fun s =>
  if E.writeOk s.tick then .ok () { s with tick := s.tick + 1 }
  else .err .io { s with tick := s.tick + 1 }

/-- `x as u16`. -/
def asU16 (n : Nat) : Nat := n % 65536

/-- Number of columns and their width, src/editor.rs:499-503. -/
def completionLayout (w : Nat) (completions : List Text) : Nat × Nat :=
  let maxWordSize := completions.foldl (fun m x => max m x.length) 1
  let cols := max 1 (w / maxWordSize)
  let colWidth := 2 + w / cols
  (max 1 (w / colWidth), colWidth)

/-- `{:<1$}`: padded with spaces on the right to a number of characters. -/
def padRight (t : Text) (n : Nat) : Text := t ++ List.replicate (n - t.length) ' '

/-- The loop of `print_completion_list`, src/editor.rs:507-537.  `i` is the column.  The branch
`i > cols` of the code is unreachable: `i` is set to 0 when it reaches `cols`. -/
def completionToks (cols colWidth : Nat) (highlighted : Option Nat) :
    List Text → Nat → Nat → List Tok
  | [], _, _ => []
  | com :: rest, index, i =>
    let brk : List Tok := if i = cols then [.text ['\r', '\n']] else []
    let i := if i = cols then 0 else i
    let cell : List Tok :=
      if some index = highlighted then
        [.text (fgBlack ++ bgWhite), .text (padRight com colWidth), .text (bgReset ++ fgReset)]
      else [.text (padRight com colWidth)]
    brk ++ cell ++ completionToks cols colWidth highlighted rest (index + 1) (i + 1)

/-- `print_completion_list`, src/editor.rs:490-540: the number of lines and what is printed. -/
def printCompletionList (E : Env) (completions : List Text) (highlighted : Option Nat) :
    EdM (Nat × List Tok) := do
  let w ← terminalSize E
  let (cols, colWidth) := completionLayout w completions
  pure (completions.length / cols, completionToks cols colWidth highlighted completions 0 0)

/-- `&line[..n]` and `&line[n..]`: panics (`none`) when `n` is not on a character boundary. -/
def splitBytes : Text → Nat → Option (Text × Text)
  | t, 0 => some ([], t)
  | [], _ + 1 => none
  | c :: cs, n + 1 =>
    if c.utf8Size ≤ n + 1 then (splitBytes cs (n + 1 - c.utf8Size)).map fun p => (c :: p.1, p.2)
    else none

/-- The loop that prints the lines, src/editor.rs:1083-1121.  `i` is the line number, `n` the number
of lines, `rem` is `buf_num_remaining_bytes`. -/
def lineToks (E : Env) (search : Bool) (promptWidth : Nat) (n : Nat) :
    List Text → Nat → Nat → Option (List Tok)
  | [], _, _ => some []
  | line :: rest, i, rem =>
    let pre : List Tok := if i > 0 then [.right (asU16 promptWidth)] else []
    let post : List Tok := if i + 1 < n then [.text ['\r', '\n']] else []
    let colour (t : Text) : Text := match E.closure with
      | some f => f t
      | none => t
    if rem = 0 then
      (lineToks E search promptWidth n rest (i + 1) 0).map (pre ++ [.text line] ++ post ++ ·)
    else if Buffer.byteLen line > rem then
      match splitBytes line rem with
      | none => none
      | some (start, tail) =>
        let mid : List Tok :=
          if search then [.text fgYellow, .text (colour start), .text tail]
          else [.text (colour start), .text fgYellow, .text tail]
        (lineToks E search promptWidth n rest (i + 1) 0).map (pre ++ mid ++ post ++ ·)
    else
      let mid : List Tok :=
        if search then [.text fgYellow, .text (colour line)] else [.text (colour line)]
      (lineToks E search promptWidth n rest (i + 1) (rem - Buffer.byteLen line)).map
        (pre ++ mid ++ post ++ ·)

/-- The cursor after the two adjustments of `display_impl`, src/editor.rs:1016-1025. -/
def clampCursor (noEol : Bool) (len cursor : Nat) : Nat :=
  let c := if len < cursor then len else cursor
  if noEol ∧ c ≠ 0 ∧ c = len then c - 1 else c

/-- The widths up to the cursor, src/editor.rs:1032-1038. -/
def widthsToCursor (E : Env) (suggestion : Option Buffer) (buf : Buffer) (cursor : Nat) :
    Option (List Nat) :=
  match suggestion with
  | some sug =>
    if cursor < sug.numChars then sug.rangeWidth E.sw 0 cursor else buf.rangeWidth E.sw 0 cursor
  | none => buf.rangeWidth E.sw 0 cursor

/-- The final movement of the terminal cursor, src/editor.rs:1134-1155: `none` is the
`unreachable!()`. -/
def cursorMove (newTotal toCursor tw : Nat) : Option (List Tok) :=
  let newNumLines := (newTotal + tw) / tw
  let line := (toCursor + tw) / tw
  if newNumLines < line then none
  else
    let lineDiff := newNumLines - line
    let colDiff : Int := (newTotal : Int) - toCursor - lineDiff * tw
    some ((if lineDiff > 0 then [.up (asU16 lineDiff)] else []) ++
      (if colDiff > 0 then [.left (asU16 colDiff.toNat)]
       else if colDiff < 0 then [.right (asU16 (-colDiff).toNat)] else []))

/-- What a redraw prints and the row of the cursor in it. -/
structure Frame where
  toks : List Tok
  line : Nat

/-- Moving up to the first row of the previous redraw, src/editor.rs:1059-1063.
`self.term_cursor_line as u16 - 1` underflows when the truncated line is 0. -/
def upToks (line : Nat) : Option (List Tok) :=
  if line > 1 then (if asU16 line = 0 then none else some [.up (asU16 line - 1)]) else some []

/-- The list of completions, src/editor.rs:1067-1076: the number of lines and what is printed. -/
def completionPart (E : Env) (hint : Option (List Text × Option Nat)) : EdM (Nat × List Tok) :=
  match hint with
  | some (completions, i) => do
    let p ← printCompletionList E completions i
    pure (1 + p.1, p.2 ++ [.text ['\r', '\n']])
  | none => pure (0, [])

/-- The rest of a redraw, src/editor.rs:1040-1044, 1065, 1078-1158, given the state with the cursor
adjusted, the prompt `pr` with its fixed width, the terminal width, the current line, the widths up
to the cursor and what was already printed.  `none` is a panic. -/
def frame (E : Env) (showAutosuggest : Bool) (s : Ed) (pr : Text × Nat) (tw : Nat) (buf : Buffer)
    (toCursor : List Nat) (up : List Tok) (comp : Nat × List Tok) : Option Frame :=
  let promptWidth := lastPromptLineWidth E.sw pr.1
  let bufWidths := match s.autosuggestion with
    | some sug => sug.width E.sw
    | none => buf.width E.sw
  let newTotal := calcWidth promptWidth tw bufWidths 0
  let newTotalToCursor := calcWidth (if s.isSearch then pr.2 else promptWidth) tw toCursor 0
  let lines := match s.autosuggestion with
    | some sug => if showAutosuggest then sug.lines else buf.lines
    | none => buf.lines
  match lineToks E s.isSearch promptWidth lines.length lines 0 buf.numBytes,
      cursorMove newTotal newTotalToCursor tw with
  | some body, some move =>
    let reset : List Tok := if s.autosuggestion.isSome || s.isSearch then [.text fgReset] else []
    let eol : List Tok := if newTotal % tw = 0 then [.text ['\r', '\n']] else []
    some {
      toks := [.text (csi ['?', '1', '0', '0', '0', 'l'] ++ csi ['?', '1', 'l'])] ++ up ++
        [.text ['\r'], .clearAfter] ++ comp.2 ++ [.text pr.1] ++ body ++ reset ++ eol ++ move
      line := (newTotalToCursor + tw) / tw + comp.1 }
  | _, _ => none

/-- `display_impl`, src/editor.rs:993-1165. -/
def displayImpl (E : Env) (showAutosuggest : Bool) : EdM Unit := do
  let pr ← searchPrompt E
  let tw ← terminalWidth E
  let buf ← curBuf
  modify fun s => { s with cursor := clampCursor s.noEol buf.numChars s.cursor }
  let s ← get
  let toCursor ← ofOptionRedraw (widthsToCursor E s.autosuggestion buf s.cursor)
  let up ← ofOptionRows (upToks s.termCursorLine)
  let comp ← completionPart E s.showCompletionsHint
  let f ← ofOptionRedraw (frame E showAutosuggest s pr tw buf toCursor up comp)
  modify fun s => { s with termCursorLine := f.line, ctxBuf := s.ctxBuf ++ f.toks }
  writeTerm E f.toks
  flush E

/-- `display`, src/editor.rs:1168-1177. -/
def display (E : Env) : EdM Unit := do
  let s ← get
  if s.isSearch && s.bufferChanged then refreshSearch s.forwardSearch else pure ()
  let sug ← currentAutosuggestion
  modify fun s => { s with autosuggestion := sug }
  displayImpl E true

/-- `move_cursor_to_end_of_line`, src/editor.rs:890-893. -/
def moveCursorToEndOfLine (E : Env) : EdM Unit := do
  let b ← curBuf
  modify fun s => { s with cursor := b.numChars }
  display E

/-- `str::split('\n')` joined with "\r\n", src/editor.rs:273. -/
def joinCrLf (t : Text) : Text := List.intercalate ['\r', '\n'] (Buffer.splitOn (· == '\n') t)

/-- The prompt text kept by the editor, src/editor.rs:274-276: what follows the last newline. -/
def lastLine (t : Text) : Text := handlePrompt t

/-- The state built by `new_with_init_buffer`, src/editor.rs:279-300. -/
def initial (prompt : Prompt) (history : History) (fs : FS) (buffer : Buffer) : Ed :=
  { prompt := { prompt with prompt := lastLine prompt.prompt }, newBuf := buffer,
    history := history, fs := fs }

/-- `new_with_init_buffer`, src/editor.rs:255-307, as an action on `initial`.
`out.width().unwrap_or(80) - 1` underflows when the width is 0. -/
def start (E : Env) (prompt : Prompt) : EdM Unit := do
  writeTerm E [.text ['⏎']]
  let w := E.ttyWidth.getD 80
  if w = 0 then M.panic
  else
    repeatN (w - 1) (writeTerm E [.text [' ']])
    writeTerm E [.text ['\r', ' ', '\r']]
    writeTerm E [.text (joinCrLf prompt.prompt)]
    let s ← get
    if s.newBuf.isEmpty then pure () else moveCursorToEndOfLine E
    display E

/-- `search`, src/editor.rs:427-450. -/
def search (E : Env) (forward : Bool) : EdM Unit := do
  let s ← get
  if !s.isSearch then
    freshenHistory
    refreshSearch forward
  else if !s.historySubsetIndex.isEmpty then
    modify fun s => { s with historySubsetLoc :=
      match s.historySubsetLoc with
      | some p =>
        if forward then
          (if p < s.historySubsetIndex.length - 1 then some (p + 1) else some 0)
        else if p > 0 then some (p - 1)
        else some (s.historySubsetIndex.length - 1)
      | none => none }
  else pure ()
  display E

/-- `undo`, src/editor.rs:460-468. -/
def undo (E : Env) : EdM Bool := do
  let did ← curBufMut Buffer.undo
  if did then moveCursorToEndOfLine E else display E
  pure did

/-- `redo`, src/editor.rs:470-478. -/
def redo (E : Env) : EdM Bool := do
  let did ← curBufMut Buffer.redo
  if did then moveCursorToEndOfLine E else display E
  pure did

/-- `revert`, src/editor.rs:480-488. -/
def revert (E : Env) : EdM Bool := do
  let did ← curBufMut Buffer.revert
  if did then moveCursorToEndOfLine E else display E
  pure did

/-- `skip_completions_hint`, src/editor.rs:542-544. -/
def skipCompletionsHint : EdM Unit := modify fun s => { s with showCompletionsHint := none }

/-- `get_words_and_cursor_position`, src/editor.rs:325-329. -/
def wordsAndPos (E : Env) : EdM (List (Nat × Nat) × CursorPosition) := do
  let b ← curBuf
  let s ← get
  let ws := E.words b
  pure (ws, CursorPosition.get s.cursor ws)

/-- The choice made by `get_word_before_cursor`, src/editor.rs:617-635. -/
def wordBefore (ws : List (Nat × Nat)) (pos : CursorPosition) (ignoreSpace : Bool) :
    Option (Nat × Nat) :=
  match pos with
  | .inWord i => ws[i]?
  | .inSpace (some i) _ => if ignoreSpace then ws[i]? else none
  | .inSpace none _ => none
  | .onWordLeftEdge i => if ignoreSpace ∧ i > 0 then ws[i - 1]? else none
  | .onWordRightEdge i => ws[i]?

/-- `get_word_before_cursor`, src/editor.rs:615-636. -/
def getWordBeforeCursor (E : Env) (ignoreSpace : Bool) : EdM (Option (Nat × Nat)) := do
  let (ws, pos) ← wordsAndPos E
  pure (wordBefore ws pos ignoreSpace)

/-- `self.cursor -= n`, which underflows (panics) when `n` is larger. -/
def cursorSub (n : Nat) : EdM Unit := fun s =>
  if n ≤ s.cursor then .ok () { s with cursor := s.cursor - n } else .panic .op

/-- `delete_word_before_cursor`, src/editor.rs:643-652. -/
def deleteWordBeforeCursor (E : Env) (ignoreSpace : Bool) : EdM Unit := do
  let w ← getWordBeforeCursor E ignoreSpace
  match w with
  | some (start, _) =>
    let s ← get
    let moved ← curBufMut (fun b => b.remove start s.cursor)
    cursorSub moved
  | none => pure ()
  display E

/-- `insert_chars_after_cursor`, `insert_str_after_cursor`, `insert_after_cursor`,
src/editor.rs:758-776. -/
def insertCharsAfterCursor (E : Env) (cs : Text) : EdM Unit := do
  let s ← get
  curBufMut (noRes fun b => b.insert s.cursor cs)
  modify fun s => { s with cursor := s.cursor + cs.length }
  display E

/-- Order of `str` (bytewise, which is by code point). -/
def textLe : Text → Text → Bool
  | [], _ => true
  | _ :: _, [] => false
  | a :: as, b :: bs => if a.val < b.val then true else if b.val < a.val then false else textLe as bs

/-- `Vec::dedup`. -/
def dedupAdj : List Text → List Text
  | [] => []
  | [a] => [a]
  | a :: b :: rest => if a = b then dedupAdj (b :: rest) else a :: dedupAdj (b :: rest)

/-- `completions.sort(); completions.dedup();`, src/editor.rs:578-579. -/
def sortDedup (cs : List Text) : List Text :=
  dedupAdj (cs.insertionSort fun a b => textLe a b = true)

/-- The next candidate, src/editor.rs:550: `% 0` panics. -/
def nextCandidate (n : Nat) : Option Nat → Option Nat
  | none => some 0
  | some i => if n = 0 then none else some ((i + 1) % n)

/-- Whether the whole line is the previous candidate, src/editor.rs:553-554. -/
def isWhole (completions : List Text) : Option Nat → EdM Bool
  | none => pure false
  | some x => do
    let b ← curBuf
    let c ← ofOption completions[x]?
    pure (b.eq (Buffer.ofText c))

/-- Removing the previous candidate, src/editor.rs:554-559. -/
def dropCandidate (E : Env) (whole : Bool) : EdM Unit :=
  if whole then do
    curBufMut (noRes fun b => b.truncate 0)
    modify fun s => { s with cursor := 0 }
  else deleteWordBeforeCursor E false

/-- The first part of `complete`, src/editor.rs:549-562: another Tab while the list is shown. -/
def completeNext (E : Env) (completions : List Text) (iIn : Option Nat) : EdM Unit := do
  -- `self.show_completions_hint.take()`
  modify fun s => { s with showCompletionsHint := none }
  let i ← ofOption (nextCandidate completions.length iIn)
  let whole ← isWhole completions iIn
  dropCandidate E whole
  let c ← ofOption completions[i]?
  insertCharsAfterCursor E c
  modify fun s => { s with showCompletionsHint := some (completions, some i) }

/-- The text of the word to complete, `buf.range(start, end)` or the empty string,
src/editor.rs:572-575. -/
def readWord (range : Option (Nat × Nat)) (b : Buffer) : Option (Text × Buffer) :=
  match range with
  | some (start, stop) => (b.range start stop).map (·, b)
  | none => some ([], b)

/-- The second part of `complete`, src/editor.rs:568-612: no list is shown. -/
def completeFirst (E : Env) (comp : Text → List Text) : EdM Unit := do
  let range ← getWordBeforeCursor E false
  -- `cur_buf_mut!` is used although nothing is changed here
  let word ← curBufMut (readWord range)
  let completions := sortDedup (comp word)
  match completions with
  | [] => modify fun s => { s with showCompletionsHint := none }
  | [c] =>
    modify fun s => { s with showCompletionsHint := none }
    deleteWordBeforeCursor E false
    insertCharsAfterCursor E c
  | _ =>
    match findLongestCommonPrefix completions with
    | some p =>
      if Buffer.byteLen p > Buffer.byteLen word ∧ word.isPrefixOf p then
        deleteWordBeforeCursor E false
        insertCharsAfterCursor E p
      else
        modify fun s => { s with showCompletionsHint := some (completions, none) }
        display E
    | none =>
      modify fun s => { s with showCompletionsHint := some (completions, none) }
      display E

/-- `complete`, src/editor.rs:546-613.  The event `BeforeComplete` is modelled in Model/Event. -/
def complete (E : Env) (comp : Text → List Text) : EdM Unit := do
  let s ← get
  match s.showCompletionsHint with
  | some (completions, iIn) =>
    completeNext E completions iIn
    display E
  | none => completeFirst E comp

/-- `clear`, src/editor.rs:655-662.  Note that the codes go to the context's string buffer, not to
the terminal. -/
def clear (E : Env) : EdM Unit := do
  modify fun s => { s with ctxBuf := s.ctxBuf ++ [.clearAll, .gotoOrigin], termCursorLine := 1 }
  clearSearch
  display E

/-- `move_up` outside search, src/editor.rs:671-697. -/
def moveUpLoc : EdM Unit := do
  let s ← get
  if s.newBuf.numChars > 0 then
    match s.historySubsetLoc with
    | some i =>
      if i > 0 then
        let loc ← ofOption s.historySubsetIndex[i - 1]?
        modify fun s => { s with historySubsetLoc := some (i - 1), curHistoryLoc := some loc }
      else pure ()
    | none =>
      let subset := s.history.getHistorySubset s.newBuf
      modify fun s => { s with historySubsetIndex := subset }
      match subset.getLast? with
      | some loc =>
        modify fun s =>
          { s with historySubsetLoc := some (subset.length - 1), curHistoryLoc := some loc }
      | none => pure ()
  else
    match s.curHistoryLoc with
    | some i => if i > 0 then modify fun s => { s with curHistoryLoc := some (i - 1) } else pure ()
    | none =>
      if s.history.buffers.isEmpty then pure ()
      else modify fun s => { s with curHistoryLoc := some (s.history.buffers.length - 1) }

/-- `move_up`, src/editor.rs:665-700. -/
def moveUp (E : Env) : EdM Unit := do
  let s ← get
  if s.isSearch then search E false
  else
    modify fun s => { s with histBufValid := false }
    freshenHistory
    moveUpLoc
    moveCursorToEndOfLine E

/-- `move_down` outside search, src/editor.rs:708-727.  `len() - 1` underflows on an empty subset or
history. -/
def moveDownLoc : EdM Unit := do
  let s ← get
  if s.newBuf.numChars > 0 then
    match s.historySubsetLoc with
    | some i =>
      if s.historySubsetIndex.length = 0 then M.panic
      else if i < s.historySubsetIndex.length - 1 then
        let loc ← ofOption s.historySubsetIndex[i + 1]?
        modify fun s => { s with historySubsetLoc := some (i + 1), curHistoryLoc := some loc }
      else
        modify fun s => { s with curHistoryLoc := none, historySubsetLoc := none,
                                 historySubsetIndex := [], historyFresh := false }
    | none => pure ()
  else
    match s.curHistoryLoc with
    | some i =>
      if s.history.buffers.length = 0 then M.panic
      else if i < s.history.buffers.length - 1 then
        modify fun s => { s with curHistoryLoc := some (i + 1) }
      else modify fun s => { s with curHistoryLoc := none, historyFresh := false }
    | none => modify fun s => { s with curHistoryLoc := none, historyFresh := false }

/-- `move_down`, src/editor.rs:703-730. -/
def moveDown (E : Env) : EdM Unit := do
  let s ← get
  if s.isSearch then search E true
  else
    modify fun s => { s with histBufValid := false }
    moveDownLoc
    moveCursorToEndOfLine E

/-- `move_to_start_of_history`, src/editor.rs:733-742. -/
def moveToStartOfHistory (E : Env) : EdM Unit := do
  modify fun s => { s with histBufValid := false }
  let s ← get
  if s.history.buffers.isEmpty then
    modify fun s => { s with curHistoryLoc := none }
    display E
  else
    modify fun s => { s with curHistoryLoc := some 0 }
    moveCursorToEndOfLine E

/-- `move_to_end_of_history`, src/editor.rs:745-753. -/
def moveToEndOfHistory (E : Env) : EdM Unit := do
  modify fun s => { s with histBufValid := false }
  let s ← get
  if s.curHistoryLoc.isSome then
    modify fun s => { s with curHistoryLoc := none }
    moveCursorToEndOfLine E
  else display E

/-- `delete_before_cursor`, src/editor.rs:780-788. -/
def deleteBeforeCursor (E : Env) : EdM Unit := do
  let s ← get
  if s.cursor > 0 then
    let _ ← curBufMut (fun b => b.remove (s.cursor - 1) s.cursor)
    modify fun s => { s with cursor := s.cursor - 1 }
  else pure ()
  display E

/-- `delete_after_cursor`, src/editor.rs:792-801. -/
def deleteAfterCursor (E : Env) : EdM Unit := do
  let s ← get
  curBufMut (fun b =>
    if s.cursor < b.numChars then (b.remove s.cursor (s.cursor + 1)).map ((), ·.2) else some ((), b))
  display E

/-- `delete_all_before_cursor`, src/editor.rs:804-808. -/
def deleteAllBeforeCursor (E : Env) : EdM Unit := do
  let s ← get
  let _ ← curBufMut (fun b => b.remove 0 s.cursor)
  modify fun s => { s with cursor := 0 }
  display E

/-- `delete_all_after_cursor`, src/editor.rs:811-817. -/
def deleteAllAfterCursor (E : Env) : EdM Unit := do
  let s ← get
  curBufMut (noRes fun b => b.truncate s.cursor)
  display E

/-- `delete_until`, src/editor.rs:820-830. -/
def deleteUntil (E : Env) (position : Nat) : EdM Unit := do
  let s ← get
  let _ ← curBufMut (fun b => b.remove (min s.cursor position) (max s.cursor position))
  modify fun s => { s with cursor := min s.cursor position }
  display E

/-- `delete_until_inclusive`, src/editor.rs:833-843. -/
def deleteUntilInclusive (E : Env) (position : Nat) : EdM Unit := do
  let s ← get
  let _ ← curBufMut (fun b => b.remove (min s.cursor position) (max (s.cursor + 1) (position + 1)))
  modify fun s => { s with cursor := min s.cursor position }
  display E

/-- `move_cursor_left`, src/editor.rs:847-855. -/
def moveCursorLeft (E : Env) (count : Nat) : EdM Unit := do
  modify fun s => { s with cursor := s.cursor - (if count > s.cursor then s.cursor else count) }
  display E

/-- `move_cursor_right`, src/editor.rs:859-871.  `num_chars() - self.cursor` underflows when the
cursor is past the end. -/
def moveCursorRight (E : Env) (count : Nat) : EdM Unit := do
  let b ← curBuf
  let s ← get
  if b.numChars < s.cursor then M.panic
  else
    modify fun s => { s with cursor := s.cursor +
      (if count > b.numChars - s.cursor then b.numChars - s.cursor else count) }
    display E

/-- `move_cursor_to`, src/editor.rs:874-881. -/
def moveCursorTo (E : Env) (pos : Nat) : EdM Unit := do
  modify fun s => { s with cursor := pos }
  let b ← curBuf
  modify fun s => { s with cursor := if s.cursor > b.numChars then b.numChars else s.cursor }
  display E

/-- `move_cursor_to_start_of_line`, src/editor.rs:884-887. -/
def moveCursorToStartOfLine (E : Env) : EdM Unit := do
  modify fun s => { s with cursor := 0 }
  display E

/-- `cursor_is_at_end_of_line`, src/editor.rs:895-902.  `num_chars - 1` underflows on an empty line
when `no_eol` is set. -/
def cursorIsAtEndOfLine : EdM Bool := do
  let b ← curBuf
  let s ← get
  if s.noEol then
    (if b.numChars = 0 then M.panic else pure (s.cursor = b.numChars - 1))
  else pure (s.cursor = b.numChars)

/-- `accept_autosuggestion`, src/editor.rs:917-932. -/
def acceptAutosuggestion (E : Env) : EdM Unit := do
  let s ← get
  if s.showAutosuggestions then
    curBufMut (noRes fun b =>
      match s.autosuggestion with
      | some x => if s.isSearch then b.copyBuffer x else b.insertFromBuffer x
      | none => some b)
  else pure ()
  clearSearch
  moveCursorToEndOfLine E

/-- The second part of `handle_newline`, src/editor.rs:359-375. -/
def finishLine (E : Env) : EdM Bool := do
  let s ← get
  if s.showCompletionsHint.isSome then
    modify fun s => { s with showCompletionsHint := none }
    pure false
  else
    let b ← curBuf
    if b.charBefore s.cursor = some '\\' then
      insertCharsAfterCursor E ['\n']
      pure false
    else
      modify fun s => { s with cursor := b.numChars }
      displayImpl E false
      writeTerm E [.text ['\r', '\n']]
      modify fun s => { s with showCompletionsHint := none }
      pure true

/-- `if self.is_search() { self.accept_autosuggestion()?; }`, src/editor.rs:355-357. -/
def acceptIfSearch (E : Env) : EdM Unit := do
  let s ← get
  if s.isSearch then acceptAutosuggestion E else pure ()

/-- `handle_newline`, src/editor.rs:353-376. -/
def handleNewline (E : Env) : EdM Bool := do
  modify fun s => { s with historyFresh := false }
  acceptIfSearch E
  clearSearch
  finishLine E

/-- `take_exec_buffer`, src/editor.rs:1190-1202: the current buffer is replaced by the default
(empty) buffer, even when it is a stored history entry. -/
def takeExecBuffer : EdM Text := fun s =>
  match s.curHistoryLoc with
  | some i =>
    if s.histBufValid then .ok s.histBuf.data { s with histBuf := {} }
    else match s.history.buffers[i]? with
      | some b =>
        .ok b.data { s with history := { s.history with buffers := s.history.buffers.set i {} } }
      | none => .panic .op
  | none => .ok s.newBuf.data { s with newBuf := {} }

/-- `From<Editor<C>> for String`, src/editor.rs:1205-1222. -/
def intoText (s : Ed) : Option Text := s.curBuf?.map (·.data)

end Editor
end Liner
