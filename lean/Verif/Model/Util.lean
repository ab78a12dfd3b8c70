import Verif.Model.Buffer
/-
Model of /repo/src/util.rs.
-/

namespace Liner

/-- The `while end > 0` loop of `find_longest_common_prefix`, src/util.rs:24-43, counting down. -/
def lcpLoop (among : List Text) (shortest : Text) : Nat → Option Text
  | 0 => none
  | n + 1 =>
    let pre := shortest.take (n + 1)
    if among.all (fun s => pre.isPrefixOf s) then some pre else lcpLoop among shortest n

/-- `iter().min_by_key(|x| x.len())`, src/util.rs:22: the first element of minimal length. -/
def shortestWord : Text → List Text → Text
  | best, [] => best
  | best, w :: ws => if w.length < best.length then shortestWord w ws else shortestWord best ws

/-- `find_longest_common_prefix`, src/util.rs:9-44 (at element type `char`). -/
def findLongestCommonPrefix (among : List Text) : Option Text :=
  match among with
  | [] => none
  | [w] => some w
  | w :: ws =>
    if (w :: ws).any (fun s => s.isEmpty) then none
    else
      let shortest := shortestWord w ws
      lcpLoop (w :: ws) shortest shortest.length

/-- `enum AnsiState`, src/util.rs:46-51. -/
inductive AnsiState where
  | norm | esc | csi | osc
deriving DecidableEq, Repr

/-- `char::is_ascii_alphabetic`. -/
def isAsciiAlphabetic (c : Char) : Bool :=
  ('a' ≤ c && c ≤ 'z') || ('A' ≤ c && c ≤ 'Z')

/-- The escape character `'\x1B'`. -/
def escChar : Char := Char.ofNat 0x1B
/-- The bell character `'\x07'`. -/
def bel : Char := Char.ofNat 0x07

/-- The `for c in input.chars()` loop of `remove_codes`, src/util.rs:57-73. -/
def removeCodesGo : AnsiState → Text → Text
  | _, [] => []
  | .norm, c :: cs => if c = escChar then removeCodesGo .esc cs else c :: removeCodesGo .norm cs
  | .esc, c :: cs =>
    if c = '[' then removeCodesGo .csi cs
    else if c = ']' then removeCodesGo .osc cs
    else removeCodesGo .norm cs
  | .csi, c :: cs => if isAsciiAlphabetic c then removeCodesGo .norm cs else removeCodesGo .csi cs
  | .osc, c :: cs => if c = bel then removeCodesGo .norm cs else removeCodesGo .osc cs

/-- `remove_codes`, src/util.rs:53-79. -/
def removeCodes (input : Text) : Text :=
  if input.contains escChar then removeCodesGo .norm input else input

/-- `str::rfind(char)`: the index of the last occurrence (a character index here, a byte index in
Rust; it is only used to split the string just after that occurrence). -/
def rfindChar (p : Char) : Text → Option Nat
  | [] => none
  | c :: cs =>
    match rfindChar p cs with
    | some i => some (i + 1)
    | none => if c = p then some 0 else none

/-- `handle_prompt`, src/util.rs:82-89. -/
def handlePrompt (fullPrompt : Text) : Text :=
  match rfindChar '\n' fullPrompt with
  | some index => fullPrompt.drop (index + 1)
  | none => fullPrompt

/-- `last_prompt_line_width`, src/util.rs:4-7, for a string-width function `sw`. -/
def lastPromptLineWidth (sw : Text → Nat) (s : Text) : Nat := sw (removeCodes (handlePrompt s))

end Liner
