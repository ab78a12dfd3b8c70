import Verif.Spec.Bench
import Verif.Spec.Complete
/-
Specification of all Emacs keys, with Tab: the bench, and the candidates on the screen.
-/

namespace Liner.Spec
open Liner Liner.Props

namespace Bench

/-- The line shown becomes the sheet `q`, in a search or not. -/
def put (entries : List Text) (touch : Bool) (q : Sheet) (b : Bench) : Bench :=
  match b.forward with
  | none => ⟨b.desk.write touch false q, none⟩
  | some f => ⟨b.desk.seek entries f touch q, some f⟩

/-- `c` is put in before the cursor. -/
def paste (entries : List Text) (c : Text) (b : Bench) : Bench :=
  b.put entries true (b.desk.sheet.put (b.desk.left ++ c) b.desk.right)

/-- The word touched by the cursor is `w1 ++ w2`, with the cursor between the two and `l` and `r` around it; both are empty
if there is no such word. -/
structure Parts (b : Bench) (l w1 w2 r : Text) : Prop where
  left : b.desk.left = l ++ w1
  right : b.desk.right = w2 ++ r
  touched : Touched l w1 w2 r

/-- The part of the word that is before the cursor is deleted; this begins to change an entry if there is such a part, or
if it was begun before (`touch`). -/
def drop (entries : List Text) (touch : Bool) (l w1 : Text) (b : Bench) : Bench :=
  if w1 = [] then b.put entries touch b.desk.sheet else b.put entries true (b.desk.sheet.put l b.desk.right)

end Bench

/-- The bench with the list of candidates on the screen, if there is one, and the place of the candidate put in last. -/
structure Table where
  bench : Bench
  list : Option (List Text × Option Nat) := none
deriving DecidableEq, Repr

namespace Table
open Bench

/-- Tab without a list: `cs` are the candidates for the word touched, in order.  A single one replaces the part before the
cursor, and so does what all of them begin with if it says more than the word; otherwise the list is shown.  Without any
candidate nothing happens, but during a search or on an unchanged entry that leaves the editor in a state the table does not
describe, which is `none`. -/
def Begins (entries : List Text) (comp : Text → List Text) (b : Bench) (o : Option Table) : Prop :=
  ∃ l w1 w2 r cs, b.Parts l w1 w2 r ∧ SortedSet (comp (w1 ++ w2)) cs ∧
    ((cs = [] ∧ o = if b.forward = none ∧ (b.desk.shown = none ∨ b.desk.changed = true) then some ⟨b, none⟩ else none) ∨
    (∃ c, cs = [c] ∧ o = some ⟨(b.drop entries true l w1).paste entries c, none⟩) ∨
    (∃ p, 2 ≤ cs.length ∧ CommonPrefix cs p ∧ o = some (
      if w1 ++ w2 <+: p ∧ p ≠ w1 ++ w2 then ⟨(b.drop entries true l w1).paste entries p, none⟩
      else ⟨b.put entries true b.desk.sheet, some (cs, none)⟩)))

/-- The candidate after the last one put in. -/
def following (n : Nat) : Option Nat → Nat
  | none => 0
  | some i => if i + 1 = n then 0 else i + 1

/-- Tab with the list `cs`: the next candidate is put in, instead of the last one if that is the whole line, otherwise
instead of the part of the word before the cursor. -/
def Goes (entries : List Text) (cs : List Text) (last : Option Nat) (b : Bench) (o : Option Table) : Prop :=
  ∃ j c, j = following cs.length last ∧ cs[j]? = some c ∧
    ((∃ i, last = some i ∧ cs[i]? = some b.desk.text) ∧
        o = some ⟨b.put entries true ((b.desk.sheet.put [] []).put c []), some (cs, some j)⟩ ∨
      (∀ i, last = some i → cs[i]? ≠ some b.desk.text) ∧ ∃ l w1 w2 r, b.Parts l w1 w2 r ∧
        o = some ⟨(b.drop entries false l w1).paste entries c, some (cs, some j)⟩)

/-- The keys that leave the list where it is. -/
def keeps (entries : List Text) (key : Key) (b : Bench) : Bool :=
  key = .ctrl 'r' || key = .ctrl 's' || b.desk.sheet.takes (b.suggestion entries) key

/-- What a key does, where `comp` gives the candidates. -/
def Next (entries : List Text) (key : Key) (comp : Text → List Text) (t : Table) (o : Option Table) : Prop :=
  if key = .char '\t' then
    match t.list with
    | none => Begins entries comp t.bench o
    | some (cs, last) => Goes entries cs last t.bench o
  else ∃ c, t.bench.Next entries key c ∧ o = some ⟨c, if keeps entries key t.bench then t.list else none⟩

/-- Keys one after the other. -/
def Run (entries : List Text) : List (Key × (Text → List Text)) → Table → Option Table → Prop
  | [], t, o => o = some t
  | (key, comp) :: keys, t, o => ∃ m, Next entries key comp t m ∧ match m with
    | none => o = none
    | some m => Run entries keys m o

/-- What `read_line` makes of its input, where `none` is an error of reading; `none` as a result if the table does not
describe it.  Enter only takes the list away if there is one. -/
def Reads (entries : List Text) : List (Option (Key × (Text → List Text))) → Table → Option Sheet.Said → Prop
  | [], t, o => o = some (.line t.bench.desk.text)
  | none :: _, _, o => o = some (.stop .io)
  | some (key, comp) :: rest, t, o =>
    if key = .ctrl 'c' then o = some (.stop .interrupted)
    else if key = .ctrl 'd' ∧ t.bench.desk.text = [] then o = some (.stop .unexpectedEof)
    else if key = .char '\n' then
      let d := t.bench.enter entries
      if t.list ≠ none then Reads entries rest ⟨⟨d.write false true d.sheet, none⟩, none⟩ o
      else if d.left.getLast? = some '\\' then
        Reads entries rest ⟨⟨d.write true true (d.sheet.put (d.left ++ ['\n']) d.right), none⟩, none⟩ o
      else o = some (.line d.text)
    else ∃ m, Next entries key comp t m ∧ match m with
      | none => o = none
      | some m => Reads entries rest m o

/-- The keys read, with what the completer would say. -/
def heard : KeyMap.Input → Option (Key × (Text → List Text))
  | .key k comp => some (k, comp)
  | .ioErr => none

end Table
end Liner.Spec
