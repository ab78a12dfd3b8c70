import Verif.Model.Buffer
/-
Model of /repo/src/history.rs, with an abstract file system.

Files are byte lists.  `Ok`/`Err` of `io::Result` are `some`/`none`.  Writes through a `BufWriter`
are assumed to reach the file completely when the writer is dropped (a full disk is not modelled;
a crash in the middle of a rewrite is, see `crashOverwrite`).  File names are valid Unicode.
`VecDeque<Buffer>` is a list with the oldest entry first.
-/

namespace Liner

abbrev Bytes := List UInt8
abbrev FPathName := Text

/-- UTF-8 encoding of a text (`str::as_bytes`). -/
def encode (t : Text) : Bytes := t.flatMap String.utf8EncodeChar

/-- UTF-8 decoding (`String::from_utf8` inside `BufRead::lines`). -/
def decode (bs : Bytes) : Option Text := (bs.toByteArray.utf8Decode?).map Array.toList

/-- A file: its content and what the process may do with it. -/
structure FileSt where
  bytes : Bytes
  readable : Bool := true
  writable : Bool := true
deriving Repr

/-- The file system as seen by the process. -/
structure FS where
  file : FPathName → Option FileSt
  canCreate : FPathName → Bool

namespace FS

/-- Replace the file at a path. -/
def set (fs : FS) (p : FPathName) (f : FileSt) : FS :=
  { fs with file := fun q => if q = p then some f else fs.file q }

/-- `File::open` for reading; gives the content. -/
def openRead (fs : FS) (p : FPathName) : Option Bytes :=
  match fs.file p with
  | some f => if f.readable then some f.bytes else none
  | none => none

/-- `File::create`: truncates an existing writable file, or makes a new one. -/
def create (fs : FS) (p : FPathName) : Option FS :=
  match fs.file p with
  | some f => if f.writable then some (fs.set p { f with bytes := [] }) else none
  | none => if fs.canCreate p then some (fs.set p { bytes := [] }) else none

/-- Appending bytes to an open file. -/
def append (fs : FS) (p : FPathName) (bs : Bytes) : FS :=
  match fs.file p with
  | some f => fs.set p { f with bytes := f.bytes ++ bs }
  | none => fs

/-- `OpenOptions::new().append(true).open(..)` succeeds: the file exists and is writable. -/
def canAppend (fs : FS) (p : FPathName) : Bool :=
  match fs.file p with
  | some f => f.writable
  | none => false

end FS

/-- `struct History`, src/history.rs:18-43. -/
structure History where
  buffers : List Buffer := []
  fileName : Option FPathName := none
  maxBuffersSize : Nat := 1000
  maxFileSize : Nat := 1000
  appendDuplicateEntries : Bool := false
  incAppend : Bool := false
  share : Bool := false
  fileSize : Nat := 0
  loadDuplicates : Bool := true
  compactionWrites : Nat := 0

namespace History

/-- `History::new`, src/history.rs:53-66. -/
def new : History := {}

/-- `clear_history`, src/history.rs:69-71. -/
def clearHistory (h : History) : History := { h with buffers := [] }

/-- Raw lines of `BufRead::lines`: `(bytes, terminated)`; a last line without newline is reported
only when it is not empty.  `acc` holds the bytes of the current line in reverse. -/
def rawLines : Bytes → Bytes → List (Bytes × Bool)
  | [], acc => if acc.isEmpty then [] else [(acc.reverse, false)]
  | b :: bs, acc => if b = 10 then (acc.reverse, true) :: rawLines bs [] else rawLines bs (b :: acc)

/-- `std::io::Lines`: a terminated line loses its newline and then one carriage return. -/
def stripCR (l : Bytes × Bool) : Bytes :=
  if l.2 && l.1.getLast? == some 13 then l.1.dropLast else l.1

/-- One item of `reader.lines()`; `none` is `Err` (invalid UTF-8).  Rust validates the line with its
line end included, which is ASCII and does not change validity. -/
def decodeLine (l : Bytes × Bool) : Option Text := decode (stripCR l)

/-- `match line { Ok(line) => .., Err(_) => break }`, src/history.rs:122-129 and 164-171. -/
def takeOk : List (Option Text) → List Text
  | [] => []
  | none :: _ => []
  | some t :: rest => t :: takeOk rest

/-- `str::starts_with('#')`. -/
def isComment (t : Text) : Bool := t.head? == some '#'

/-- The lines kept by the reading loops, src/history.rs:121-130 and 163-172. -/
def fileLines (bs : Bytes) : List Text :=
  (takeOk ((rawLines bs []).map decodeLine)).filter (fun t => !isComment t)

/-- `truncate`, src/history.rs:369-378. -/
def truncate (h : History) : History :=
  if h.buffers.length ≥ h.maxFileSize then
    { h with buffers := h.buffers.drop (h.buffers.length - h.maxFileSize) }
  else h

/-- `remove_duplicates`, src/history.rs:304-309.  The entry is compared without its newlines. -/
def removeDuplicates (bufs : List Buffer) (input : Text) : List Buffer :=
  bufs.filter fun b => b.lines.flatten != input

/-- The two `while let` loops, src/history.rs:135-141, on the reversed list (newest first): the
popped entries are kept in order and each removes its duplicates from what is left.  The first
argument bounds the number of iterations by the length. -/
def dedupRev : Nat → List Buffer → List Buffer
  | 0, _ => []
  | _ + 1, [] => []
  | n + 1, b :: rest => b :: dedupRev n (removeDuplicates rest b.data)

/-- src/history.rs:132-142. -/
def dedup (bufs : List Buffer) : List Buffer := (dedupRev bufs.length bufs.reverse).reverse

/-- `load_history_file_test`, src/history.rs:98-145. -/
def loadHistoryFileTest (h : History) (fs : FS) (path : FPathName) (length : Nat) (append : Bool) :
    Option Nat × History :=
  match fs.openRead path with
  | none => (none, h)
  | some bytes =>
    let newLength := bytes.length
    let h := if newLength = 0 ∧ length = 0 ∧ append = false then h.clearHistory else h
    if newLength ≠ length then
      let h := if append then h else h.clearHistory
      let h := { h with buffers := h.buffers ++ (fileLines bytes).map Buffer.ofText }
      let h := h.truncate
      let h := if h.loadDuplicates then h else { h with buffers := dedup h.buffers }
      (some newLength, h)
    else (some newLength, h)

/-- `load_history`, src/history.rs:75-89. -/
def loadHistory (h : History) (fs : FS) (append : Bool) : Option Nat × History :=
  match h.fileName with
  | none => (none, h)
  | some path =>
    match loadHistoryFileTest h fs path h.fileSize append with
    | (some l, h') => (some l, { h' with fileSize := l })
    | (none, h') => (none, h')

/-- `load_history_file`, src/history.rs:92-94. -/
def loadHistoryFile (h : History) (fs : FS) (path : FPathName) (append : Bool) :
    Option Nat × History :=
  loadHistoryFileTest h fs path 0 append

/-- The loops of `deduplicate_history_file`, src/history.rs:182-188, on the reversed list. -/
def dedupLinesRev : Nat → List Text → List Text
  | 0, _ => []
  | _ + 1, [] => []
  | n + 1, t :: rest => t :: dedupLinesRev n (rest.filter (· != t))

/-- The bytes of a list of lines, each ended by a newline (src/history.rs:194-197, 385-388). -/
def linesBytes (ls : List Text) : Bytes := ls.flatMap fun t => encode t ++ [10]

/-- What `deduplicate_history_file` keeps of the lines it has read, src/history.rs:173-188. -/
def compactLines (maxFileSize : Nat) (ls : List Text) : List Text :=
  let kept := if ls.length ≥ maxFileSize then ls.drop (ls.length - maxFileSize) else ls
  (dedupLinesRev kept.length kept.reverse).reverse

/-- `deduplicate_history_file`, src/history.rs:150-200. -/
def deduplicateHistoryFile (fs : FS) (path : FPathName) (maxFileSize : Nat) : Option FS :=
  match fs.openRead path with
  | none => none
  | some bytes =>
    let ls := fileLines bytes
    let kept := compactLines maxFileSize ls
    if ls.length ≠ kept.length then
      match fs.create path with
      | none => none
      | some fs' => some (fs'.append path (linesBytes kept))
    else some fs

/-- `set_file_name_and_load_history`, src/history.rs:203-216. -/
def setFileNameAndLoadHistory (h : History) (fs : FS) (path : FPathName) :
    Option Nat × History × FS :=
  let h := { h with fileName := some path, fileSize := 0 }
  match fs.file path with
  | some _ =>
    match h.loadHistoryFile fs path false with
    | (some l, h') => (some l, { h' with fileSize := l }, fs)
    | (none, h') => (none, h', fs)
  | none =>
    match fs.create path with
    | some fs' => (some 0, h, fs')
    | none => (none, h, fs)

/-- `overwrite_history`, src/history.rs:380-390. -/
def overwriteHistory (h : History) (fs : FS) (path : FPathName) : Option Unit × History × FS :=
  let h := h.truncate
  match fs.create path with
  | none => (none, h, fs)
  | some fs' => (some (), h, fs'.append path (linesBytes (h.buffers.map (·.data))))

/-- `overwrite_history` when the process dies while it writes: the file has been truncated and
the first `n` bytes have been written (all of them when `n` is large). -/
def crashOverwrite (h : History) (fs : FS) (path : FPathName) (n : Nat) : FS :=
  match fs.create path with
  | none => fs
  | some fs' => fs'.append path ((linesBytes (h.truncate.buffers.map (·.data))).take n)

/-- `commit_to_file_path`, src/history.rs:392-398. -/
def commitToFilePath (h : History) (fs : FS) (path : FPathName) : Option Unit × History × FS :=
  if h.incAppend then (some (), h, fs) else h.overwriteHistory fs path

/-- `commit_to_file`, src/history.rs:400-404. -/
def commitToFile (h : History) (fs : FS) : History × FS :=
  match h.fileName with
  | none => (h, fs)
  | some path => (h.commitToFilePath fs path).2

/-- Compaction inside `push`, src/history.rs:266-280. -/
def compact (h : History) (fs : FS) (path : FPathName) : History × FS :=
  if h.share then
    let (_, h1) := h.loadHistory fs false
    let (_, h2, fs2) := h1.overwriteHistory fs path
    (h2, fs2)
  else
    (h, (deduplicateHistoryFile fs path h.maxFileSize).getD fs)

/-- First part of `push`'s file handling, src/history.rs:258-286: the compaction counter. -/
def pushCompaction (h : History) (fs : FS) (path : FPathName) : History × FS :=
  if h.loadDuplicates then ({ h with compactionWrites := 1 }, fs)
  else
    let h := { h with compactionWrites := h.compactionWrites + 1 }
    if h.compactionWrites > 29 then
      let (h, fs) := h.compact fs path
      ({ h with compactionWrites := 0 }, fs)
    else (h, fs)

/-- Second part of `push`'s file handling, src/history.rs:287-298: append the line. -/
def pushAppend (h : History) (fs : FS) (path : FPathName) (item : Text) : History × FS :=
  if fs.canAppend path ∧ h.compactionWrites > 0 then
    ({ h with fileSize := h.fileSize + (encode item).length + 1 },
      fs.append path (encode item ++ [10]))
  else (h, fs)

/-- `push`, src/history.rs:242-301 (always returns `Ok`). -/
def push (h : History) (fs : FS) (item : Buffer) : History × FS :=
  if ¬ h.appendDuplicateEntries ∧ (h.buffers.getLast?.map (·.data)) = some item.data then (h, fs)
  else
    let bufs := h.buffers ++ [item]
    let h := { h with buffers := bufs.drop (bufs.length - h.maxBuffersSize) }
    match h.incAppend, h.fileName with
    | true, some path =>
      let (h, fs) := h.pushCompaction fs path
      h.pushAppend fs path item.data
    | _, _ => (h, fs)

/-- `get_match` on a descending range and `get_newest_match`, src/history.rs:311-333. -/
def getNewestMatch (h : History) (currPosition : Option Nat) (newBuff : Buffer) : Option Nat :=
  let pos := currPosition.getD h.buffers.length
  (List.range pos).reverse.find? fun i =>
    (h.buffers[i]?).any fun t => t.startsWith newBuff

/-- `get_history_subset`, src/history.rs:335-353. -/
def getHistorySubset (h : History) (term : Buffer) : List Nat :=
  let idx := List.range h.buffers.length
  let ret := idx.filter fun i =>
    (h.buffers[i]?).any fun t => t.contains term && !t.startsWith term && !t.eq term
  let v := idx.filter fun i =>
    (h.buffers[i]?).any fun t => t.startsWith term
  ret ++ v

/-- `search_index`, src/history.rs:355-361. -/
def searchIndex (h : History) (term : Buffer) : List Nat :=
  (List.range h.buffers.length).filter fun i =>
    (h.buffers[i]?).any fun t => t.contains term

end History
end Liner
