import Verif.Spec.Undo
/-
Client programs over the modelled `Buffer` API: they only call the public operations.
-/

namespace Liner.Spec
open Liner

/-- Perform one editing call. -/
def runEdit (b : Buffer) : Edit → Option Buffer
  | .insert start text => b.insert start text
  | .remove start stop => (b.remove start stop).map Prod.snd
  | .truncate num => b.truncate num
  | .insertFrom other => b.insertFromBuffer (Buffer.ofText other)

mutual
/-- Perform a block; a group is bracketed by `start_undo_group` / `end_undo_group`. -/
def runBlock (b : Buffer) : Block → Option Buffer
  | .edit e => runEdit b e
  | .group bs => (runBlocks b.startUndoGroup bs).map Buffer.endUndoGroup
def runBlocks (b : Buffer) : List Block → Option Buffer
  | [] => some b
  | x :: xs => match runBlock b x with
    | none => none
    | some b' => runBlocks b' xs
end

/-- Perform one step of a well-grouped history. -/
def runStep (b : Buffer) : Step → Option Buffer
  | .block bl => runBlock b bl
  | .emptyGroup => some b.startUndoGroup.endUndoGroup
  | .copy other => b.copyBuffer (Buffer.ofText other)
  | .undo => b.undo.map Prod.snd
  | .redo => b.redo.map Prod.snd
  | .revert => b.revert.map Prod.snd

def runSteps (b : Buffer) : List Step → Option Buffer
  | [] => some b
  | x :: xs => match runStep b x with
    | none => none
    | some b' => runSteps b' xs

/-- Any public operation, with group markers used in any (possibly unbalanced) way. -/
inductive RawOp where
  | edit (e : Edit)
  | copy (other : Text)
  | startGroup
  | endGroup
  | undo
  | redo
  | revert
deriving Repr

def runRaw (b : Buffer) : RawOp → Option Buffer
  | .edit e => runEdit b e
  | .copy other => b.copyBuffer (Buffer.ofText other)
  | .startGroup => some b.startUndoGroup
  | .endGroup => some b.endUndoGroup
  | .undo => b.undo.map Prod.snd
  | .redo => b.redo.map Prod.snd
  | .revert => b.revert.map Prod.snd

/-- An operation is in range for a text when its edit is. -/
def RawOp.InRange (op : RawOp) (d : Text) : Prop :=
  match op with
  | .edit e => (e.apply d).isSome = true
  | _ => True

/-- Buffers reachable by in-range operations; the index is the text the buffer had when it was
created or when its log was last cleared. -/
inductive Reach : Text → Buffer → Prop where
  | init (d : Text) : Reach d (Buffer.ofText d)
  | op {d0 : Text} {b b' : Buffer} (op : RawOp) :
      Reach d0 b → op.InRange b.data → runRaw b op = some b' → Reach d0 b'
  | clear {d0 : Text} {b : Buffer} : Reach d0 b → Reach b.data b.clearActions

end Liner.Spec
