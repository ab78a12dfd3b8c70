import Verif.Model.Path
/-
Model of /repo/src/complete.rs.
-/

namespace Liner

/-- `BasicCompleter::completions`, src/complete.rs:23-31. -/
def basicCompletions (prefixes : List Text) (start : Text) : List Text :=
  prefixes.filter fun s => start.isPrefixOf s

/-- What the file name completer asks of the system.  `readDir` is `Path::read_dir`: `none` when the directory
cannot be read, otherwise its entries; an entry is `none` when reading it fails, otherwise its name (taken to be
valid Unicode) and whether its path is a directory.  `lower` is `str::to_lowercase`. -/
structure Disk where
  readDir : Text → Option (List (Option (Text × Bool)))
  lower : Text → Text

/-- `start.replace(r"\ ", " ")`. -/
def unescape : Text → Text
  | [] => []
  | '\\' :: ' ' :: t => ' ' :: unescape t
  | c :: t => c :: unescape t

/-- `replace(" ", r"\ ")`. -/
def escape (t : Text) : Text := t.flatMap fun c => if c = ' ' then ['\\', ' '] else [c]

/-- Does the word begin with a quotation mark? -/
def quoted (start : Text) : Bool := start.head? == some '"' || start.head? == some '\''

/-- The word without quotation marks or escapes, src/complete.rs:61-69: the rebound `start` and `start_owned`.
`&start[..start.len() - 1]` panics (`none`) when the last character has more than one byte. -/
def wordOf (start : Text) : Option (Text × Text) :=
  if quoted start then
    let t := start.drop 1
    match t.getLast? with
    | none => some (t, t)
    | some c => if c.utf8Size = 1 then some (t.dropLast, t.dropLast) else none
  else some (start, unescape start)

/-- The path typed, seen from the working directory, src/complete.rs:73-80. -/
def fullPath (workingDir : Option Text) (owned : Text) : Text :=
  match workingDir with
  | some wd => Path.push wd owned
  | none => owned

/-- The directory to read, the beginning of the names and `completing_dir`, src/complete.rs:82-115.
`none` is the panic of `file_name().unwrap()`. -/
def target (fold : Text → Text) (start owned full : Text) : Option (Text × Text × Bool) :=
  let whole := (full, [], start.isEmpty || start.getLast? == some '/' || Path.endsParent full)
  match Path.parent full with
  | some p =>
    if !start.isEmpty && owned.getLast? != some '/' && !Path.endsParent full then
      (Path.fileName full).map fun n => (p, fold n, false)
    else some whole
  | none => some whole

/-- The loop over the entries, src/complete.rs:122-157.  `none` is the early `return vec![]`. -/
def matchEntries (fold : Text → Text) (owned name : Text) (dir : Bool) :
    List (Option (Text × Bool)) → Option (List Text)
  | [] => some []
  | none :: es => matchEntries fold owned name dir es
  | some (file, isDir) :: es =>
    if name.isEmpty || name.isPrefixOf (fold file) then
      let a : Option Text :=
        if !Path.isAbsolute owned then some []
        else if dir then some owned
        else
          let (a, did) := Path.pop owned
          if did then some a else none
      match a with
      | none => none
      | some a =>
        let s := Path.push a file ++ if isDir then ['/'] else []
        let b := if dir then owned else (Path.pop owned).1
        (matchEntries fold owned name dir es).map (escape (Path.push b s) :: ·)
    else matchEntries fold owned name dir es

/-- `FilenameCompleter::completions`, src/complete.rs:58-161, with the fields `working_dir` and
`case_sensitive`.  `none` is a panic. -/
def fileCompletions (D : Disk) (workingDir : Option Text) (caseSensitive : Bool) (start : Text) :
    Option (List Text) :=
  let fold := if caseSensitive then id else D.lower
  match wordOf start with
  | none => none
  | some (start, owned) =>
    match target fold start owned (fullPath workingDir owned) with
    | none => none
    | some (p, name, dir) =>
      match D.readDir p with
      | none => some []
      | some es => some ((matchEntries fold owned name dir es).getD [])

end Liner
