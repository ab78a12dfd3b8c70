import Verif.Model.Buffer
/-
Independent specification of buffer editing and undo: plain texts and a list of snapshots.
Nothing here mentions action logs.
-/

namespace Liner.Spec

/-- An editing call on a buffer, as a user writes it. -/
inductive Edit where
  | insert (start : Nat) (text : Text)
  | remove (start stop : Nat)
  | truncate (num : Nat)
  | insertFrom (other : Text)
deriving Repr, DecidableEq

/-- What an editing call does to the text; `none` when it is out of range. -/
def Edit.apply : Edit → Text → Option Text
  | .insert start text, d => if start ≤ d.length then some (d.take start ++ text ++ d.drop start) else none
  | .remove start stop, d =>
    if start ≤ stop ∧ stop ≤ d.length then some (d.take start ++ d.drop stop) else none
  | .truncate num, d => if num ≤ d.length then some (d.take num) else none
  | .insertFrom other, d => if d.length ≤ other.length then some (d ++ other.drop d.length) else none

/-- A block of edits: one edit, or a group of blocks. -/
inductive Block where
  | edit (e : Edit)
  | group (bs : List Block)
deriving Repr

mutual
/-- Text after a block. -/
def Block.apply : Block → Text → Option Text
  | .edit e, d => e.apply d
  | .group bs, d => Block.applyAll bs d
/-- Text after a list of blocks. -/
def Block.applyAll : List Block → Text → Option Text
  | [], d => some d
  | b :: bs, d => match b.apply d with
    | none => none
    | some d' => Block.applyAll bs d'
end

mutual
/-- No group inside is empty. -/
def Block.Full : Block → Prop
  | .edit _ => True
  | .group bs => bs ≠ [] ∧ Block.FullAll bs
def Block.FullAll : List Block → Prop
  | [] => True
  | b :: bs => b.Full ∧ Block.FullAll bs
end

/-- A step of a user's history on one buffer. -/
inductive Step where
  | block (b : Block)      -- one edit, or a group of edits
  | emptyGroup             -- a group in which nothing happened
  | copy (other : Text)    -- `copy_buffer`: clears the text, then inserts
  | undo
  | redo
  | revert
deriving Repr

/-- The abstract undo machine: snapshots before and after the current text. -/
structure Snap where
  past : List Text        -- most recent first
  cur : Text
  future : List Text      -- next first
deriving Repr, DecidableEq

def Snap.init (d : Text) : Snap := ⟨[], d, []⟩

/-- A change of the text is one snapshot and forgets what could be redone. -/
def Snap.change (s : Snap) (d : Text) : Snap := ⟨s.cur :: s.past, d, []⟩

def Snap.undo (s : Snap) : Snap :=
  match s.past with
  | [] => s
  | p :: ps => ⟨ps, p, s.cur :: s.future⟩

def Snap.redo (s : Snap) : Snap :=
  match s.future with
  | [] => s
  | f :: fs => ⟨s.cur :: s.past, f, fs⟩

/-- Go back over a list of snapshots. -/
def Snap.backAll : List Text → Text → List Text → Snap
  | [], c, f => ⟨[], c, f⟩
  | p :: ps, c, f => Snap.backAll ps p (c :: f)

def Snap.revert (s : Snap) : Snap := Snap.backAll s.past s.cur s.future

/-- The specification of one step; `none` when an edit is out of range. -/
def Snap.step (s : Snap) : Step → Option Snap
  | .block b => (b.apply s.cur).map s.change
  | .emptyGroup => some s
  | .copy other => some ((s.change []).change other)
  | .undo => some s.undo
  | .redo => some s.redo
  | .revert => some s.revert

def Snap.run (s : Snap) : List Step → Option Snap
  | [] => some s
  | x :: xs => match s.step x with
    | none => none
    | some s' => s'.run xs

/-- No group nested in a block of the step is empty. -/
def Step.Full : Step → Prop
  | .block b => b.Full
  | _ => True

end Liner.Spec
