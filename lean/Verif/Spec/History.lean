import Verif.Model.History
/-
Specification vocabulary for the history properties, over plain lists of texts and bytes.
-/

namespace Liner.Spec
open Liner

/-- The newest `n` elements of a list (oldest first). -/
def lastN {α : Type} (n : Nat) (l : List α) : List α := l.drop (l.length - n)

/-- The lines accepted when a line equal to the previous accepted one is ignored. -/
def noRepeat : Option Text → List Text → List Text
  | _, [] => []
  | last, t :: ts => if last = some t then noRepeat last ts else t :: noRepeat (some t) ts

/-- Keep only the last occurrence of each text, in order. -/
def keepLast : List Text → List Text
  | [] => []
  | t :: ts => if t ∈ ts then keepLast ts else t :: keepLast ts

/-- The texts of a history, oldest first. -/
def texts (h : History) : List Text := h.buffers.map (·.data)

/-- No entry equals the next one. -/
def NoAdjacentEqual (l : List Text) : Prop :=
  ∀ i a b, l[i]? = some a → l[i + 1]? = some b → a ≠ b

/-- Push a list of lines, one after the other. -/
def pushAll (h : History) (fs : FS) : List Text → History × FS
  | [] => (h, fs)
  | t :: ts =>
    let (h', fs') := h.push fs (Buffer.ofText t)
    pushAll h' fs' ts

/-- The raw lines of a file made of the given newline-free segments separated by newlines: a
terminated line loses one carriage return at its end, the last segment is a line only when it is not
empty. -/
def linesOfSegments : List Bytes → List Bytes
  | [] => []
  | [last] => if last = [] then [] else [last]
  | s :: rest => (if s.getLast? = some 13 then s.dropLast else s) :: linesOfSegments rest

/-- The lines of a file up to the first one that is not valid UTF-8. -/
def FileHas (bytes : Bytes) (ts : List Text) : Prop :=
  ∃ (segs rest : List Bytes), segs ≠ [] ∧ (∀ s ∈ segs, (10 : UInt8) ∉ s) ∧
    bytes = List.intercalate [10] segs ∧
    linesOfSegments segs = ts.map encode ++ rest ∧ ∀ b ∈ rest.head?, ∀ t, b ≠ encode t

/-- The lines that are not comments. -/
def entries (ts : List Text) : List Text := ts.filter fun t => t.head? ≠ some '#'

/-- A text that survives being written as a line of a history file. -/
def Storable (t : Text) : Prop := '\n' ∉ t ∧ t.head? ≠ some '#' ∧ t.getLast? ≠ some '\r'

/-- The file content for a list of lines. -/
def asLines : List Text → Bytes
  | [] => []
  | t :: ts => encode t ++ 10 :: asLines ts

/-- Something a session sharing a history file does: push a line, or refresh from the file. -/
inductive Ev
  | push (i : Nat) (t : Text)
  | refresh (i : Nat)

/-- One event.  The last component is the line accepted by it, with its session. -/
def evStep (ss : List History) (fs : FS) : Ev → List History × FS × List (Nat × Text)
  | .push i t =>
    match ss[i]? with
    | none => (ss, fs, [])
    | some h =>
      let (h', fs') := h.push fs (Buffer.ofText t)
      (ss.set i h', fs',
        if h.appendDuplicateEntries = false ∧ (texts h).getLast? = some t then [] else [(i, t)])
  | .refresh i =>
    match ss[i]? with
    | none => (ss, fs, [])
    | some h => (ss.set i (h.loadHistory fs false).2, fs, [])

/-- A schedule of events.  The last component lists the accepted lines in schedule order. -/
def evRun (ss : List History) (fs : FS) : List Ev → List History × FS × List (Nat × Text)
  | [] => (ss, fs, [])
  | e :: es =>
    let (ss1, fs1, a) := evStep ss fs e
    let (ss2, fs2, b) := evRun ss1 fs1 es
    (ss2, fs2, a ++ b)

/-- Entry `i` of the history has `b` as a non-empty proper prefix. -/
def ProperPrefixAt (h : History) (b : Text) (i : Nat) : Prop :=
  ∃ t, (texts h)[i]? = some t ∧ b ≠ [] ∧ b <+: t ∧ b ≠ t

/-- Entry `i` of the history contains the non-empty text `b`. -/
def ContainsAt (h : History) (b : Text) (i : Nat) : Prop :=
  ∃ t, (texts h)[i]? = some t ∧ b ≠ [] ∧ ∃ pre post, t = pre ++ b ++ post

end Liner.Spec
