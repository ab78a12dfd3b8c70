import Verif.Proof.Blind
/-
Two runs of the vi keys with different histories.
-/

namespace Liner
open Liner.Editor M KM

namespace Vi

/-- The keys that look at the history. -/
def looks (key : Key) : Bool := key ∈ [.up, .char 'k']

/-- No recorded key looks at the history. -/
structure Shut (v : Liner.Vi) : Prop where
  last : ∀ k ∈ v.lastCommand, looks k = false
  cur : ∀ k ∈ v.currentCommand, looks k = false
  lastIns : ∀ k ∈ v.lastInsert, looks k = false
  curIns : ∀ k ∈ v.currentInsert, looks k = false

theorem shut_append {l : List Key} {key : Key} (h : ∀ k ∈ l, looks k = false) (hk : looks key = false) :
    ∀ k ∈ l ++ [key], looks k = false := by
  intro k hm
  rcases List.mem_append.1 hm with h1 | h1
  · exact h k h1
  · rw [List.mem_singleton.1 h1]; exact hk

/-- What is asked of a change of the records. -/
macro "shut" : tactic => `(tactic| (
  intro v hv
  refine ⟨?_, ?_, ?_, ?_⟩
  all_goals first
    | exact hv.last
    | exact hv.cur
    | exact hv.lastIns
    | exact hv.curIns
    | exact shut_append hv.last (by assumption)
    | exact shut_append hv.cur (by assumption)
    | (simp; done)
    | (simpa using (by assumption : looks _ = false))
    | simp_all [looks]))

/-- Go through the program text of the vi keys. -/
macro "simsP" H:term : tactic => `(tactic| repeat' (first
  | with_reducible assumption
  | with_reducible exact Ops.buf $H
  | with_reducible exact Ops.mutate $H _
  | with_reducible exact Ops.display $H
  | with_reducible exact Ops.clear $H
  | with_reducible exact Ops.toEnd $H
  | with_reducible exact Ops.viMode $H _
  | with_reducible exact sim_wordsAndPos $H
  | with_reducible exact sim_deleteWord $H _
  | with_reducible exact sim_insert $H _
  | with_reducible exact sim_undo $H
  | with_reducible exact sim_redo $H
  | with_reducible exact sim_revert $H
  | with_reducible exact sim_deleteBefore $H
  | with_reducible exact sim_deleteAfter $H
  | with_reducible exact sim_deleteAllBefore $H
  | with_reducible exact sim_deleteAllAfter $H
  | with_reducible exact sim_deleteUntil $H _
  | with_reducible exact sim_deleteUntilInclusive $H _
  | with_reducible exact sim_left $H _
  | with_reducible exact sim_right $H _
  | with_reducible exact sim_moveTo $H _
  | with_reducible exact sim_home $H
  | with_reducible exact sim_eol $H
  | with_reducible exact sim_onBuf $H _
  | with_reducible exact sim_displayUnwrap $H
  | with_reducible exact sim_pure _
  | with_reducible exact sim_panic
  | with_reducible exact sim_throw _
  | with_reducible exact sim_ofOption _
  | (with_reducible refine simP_modK ?_; shut; done)
  | (with_reducible refine simP_edget fun s t hr => ?_; simp only [Ops.cursor $H hr, Ops.newBuf $H hr])
  | (with_reducible refine sim_get fun s t hr => ?_; simp only [Ops.cursor $H hr, Ops.newBuf $H hr])
  | with_reducible apply simP_getK
  | with_reducible apply sim_bind
  | with_reducible apply sim_ite
  | with_reducible apply simP_ed
  | with_reducible apply sim_repeatN
  | with_reducible intro _
  | split
  | dsimp only))

variable {E E' : Env} {R : Ed → Ed → Prop}

section
variable (H : Ops E E' R)
include H

theorem shut_setNoEol (b : Bool) : Sim (OnP Shut R) (setNoEol b) (setNoEol b) :=
  simP_ed (sim_modify fun _ _ h => H.noEol b h)

omit H in
theorem shut_popStack : Sim (OnP Shut R) popStack popStack := by
  rintro s t ⟨⟨hr, h1⟩, h2⟩
  unfold popStack
  rw [hr]
  rw [hr] at h2
  exact twins_ok ⟨⟨rfl, h1⟩, h2.last, h2.cur, h2.lastIns, h2.curIns⟩

theorem shut_setEditorMode : Sim (OnP Shut R) (setEditorMode E) (setEditorMode E') := by
  unfold setEditorMode; simsP H

theorem shut_setModePreserveLast (m : Mode) :
    Sim (OnP Shut R) (setModePreserveLast E m) (setModePreserveLast E' m) := by
  have h1 := shut_setNoEol H
  have h2 := shut_setEditorMode H
  unfold setModePreserveLast
  simsP H
  exact h1 _

theorem shut_setMode (m : Mode) : Sim (OnP Shut R) (setMode E m) (setMode E' m) := by
  have h2 := shut_setModePreserveLast H m
  unfold setMode; simsP H

theorem shut_popModeAfterMovement (i : Bool) :
    Sim (OnP Shut R) (popModeAfterMovement E i) (popModeAfterMovement E' i) := by
  have h1 := shut_setNoEol H
  have h2 := shut_setEditorMode H
  have h3 : Sim (OnP Shut R) popStack popStack := shut_popStack
  unfold popModeAfterMovement
  simsP H
  all_goals exact h1 _

theorem shut_popMode : Sim (OnP Shut R) (popMode E) (popMode E') := by
  have h1 := shut_setNoEol H
  have h2 := shut_setEditorMode H
  have h3 : Sim (OnP Shut R) popStack popStack := shut_popStack
  unfold popMode
  simsP H
  all_goals exact h1 _

theorem shut_abort : Sim (OnP Shut R) (normalModeAbort E) (normalModeAbort E') := by
  have h1 := shut_setNoEol H
  have h2 := shut_setEditorMode H
  unfold normalModeAbort
  simsP H
  all_goals exact h1 _

theorem shut_countLeft : Sim (OnP Shut R) moveCountLeft moveCountLeft := by unfold moveCountLeft; simsP H
theorem shut_countRight : Sim (OnP Shut R) moveCountRight moveCountRight := by unfold moveCountRight; simsP H

theorem shut_resetInsert : Sim (OnP Shut R) resetInsert resetInsert := by unfold resetInsert; simsP H

theorem shut_moveToChar {key : Key} (hk : looks key = false) (arg : MoveArg) :
    Sim (OnP Shut R) (handleKeyMoveToChar E key arg) (handleKeyMoveToChar E' key arg) := by
  have h1 := shut_popModeAfterMovement H
  have h2 := shut_abort H
  unfold handleKeyMoveToChar; simsP H
  all_goals exact h1 _

theorem shut_replace {key : Key} (hk : looks key = false) :
    Sim (OnP Shut R) (handleKeyReplace E key) (handleKeyReplace E' key) := by
  have h1 := shut_countRight H
  have h2 := shut_popMode H
  have h3 := shut_abort H
  unfold handleKeyReplace replaceStep
  simsP H

theorem shut_g {key : Key} (hk : looks key = false) : Sim (OnP Shut R) (handleKeyG E key) (handleKeyG E' key) := by
  have h1 := shut_popModeAfterMovement H
  have h3 := shut_abort H
  have h9 := sim_moveWord H
  unfold handleKeyG
  simsP H
  all_goals first | exact h1 _ | exact h9 _ _ _

theorem shut_init : Sim (OnP Shut R) (Vi.keyMap.init E) (Vi.keyMap.init E') := by
  have h2 := shut_setEditorMode H
  show Sim (OnP Shut R) (Vi.init E) (Vi.init E')
  unfold Vi.init
  simsP H

variable (hd : Sim R (moveDown E) (moveDown E'))
include hd

theorem shut_common {key : Key} (h1 : key ≠ .up) :
    Sim R (handleKeyCommon E key) (handleKeyCommon E' key) := by
  unfold handleKeyCommon
  cases key with
  | up => exact absurd rfl h1
  | _ => simsP H

variable {core core' : Key → ViM Unit} (hc : ∀ k, looks k = false → Sim (OnP Shut R) (core k) (core' k))
include hc

omit H hd in
theorem shut_replay : ∀ {keys : List Key}, (∀ k ∈ keys, looks k = false) →
    Sim (OnP Shut R) (replay core keys) (replay core' keys)
  | [], _ => sim_pure ()
  | k :: ks, h => sim_bind (hc k (h k (by simp))) fun _ => shut_replay fun x hx => h x (by simp [hx])

omit H hd in
theorem shut_insertRepeats (n : Nat) : Sim (OnP Shut R) (insertRepeats core n) (insertRepeats core' n) := by
  unfold insertRepeats
  refine sim_repeatN (simP_getK fun k hk => sim_bind (simP_modK ?_) fun _ => shut_replay hc hk.last) n
  shut

theorem shut_insertKey {key : Key} (hk : looks key = false) :
    Sim (OnP Shut R) (handleKeyInsert core E key) (handleKeyInsert core' E' key) := by
  have h1 := shut_insertRepeats hc
  have h2 := shut_resetInsert H
  have h3 := shut_popMode H
  have ku : key ≠ .up := by rintro rfl; simp [looks] at hk
  have h4 := shut_common H hd ku
  unfold handleKeyInsert
  cases key with
  | up => exact absurd rfl ku
  | _ =>
    simsP H
    all_goals exact h1 _

omit H hd in
theorem shut_repeatLast : Sim (OnP Shut R) (repeatLast core) (repeatLast core') := by
  unfold repeatLast
  refine sim_bind (simP_modK (by shut)) fun _ => simP_getK fun v hv => ?_
  dsimp only
  refine sim_bind (simP_modK (by shut)) fun _ => ?_
  have hm : Sim (OnP Shut R) (KM.modK fun w : Liner.Vi => { w with lastCommand := v.lastCommand })
      (KM.modK fun w : Liner.Vi => { w with lastCommand := v.lastCommand }) :=
    simP_modK fun w hw => ⟨hv.last, hw.cur, hw.lastIns, hw.curIns⟩
  have h2 : Sim (OnP Shut R) (replay core v.lastCommand >>= fun _ => KM.getK >>= fun v' : Liner.Vi =>
        if v'.lastInsert.isSome then core .esc >>= fun _ => KM.modK fun w => { w with lastCommand := v.lastCommand }
        else KM.modK fun w => { w with lastCommand := v.lastCommand })
      (replay core' v.lastCommand >>= fun _ => KM.getK >>= fun v' : Liner.Vi =>
        if v'.lastInsert.isSome then core' .esc >>= fun _ => KM.modK fun w => { w with lastCommand := v.lastCommand }
        else KM.modK fun w => { w with lastCommand := v.lastCommand }) :=
    sim_bind (shut_replay hc hv.last) fun _ => simP_getK fun v' _ => sim_ite (sim_bind (hc _ rfl) fun _ => hm) hm
  cases hl : v.lastInsert with
  | none => exact h2
  | some k => exact sim_bind (hc k (hv.lastIns k (by rw [hl]; rfl))) fun _ => h2

set_option maxHeartbeats 3200000 in
theorem shut_normalChar {c : Char} (hk : c ≠ 'k') :
    Sim (OnP Shut R) (normalChar core E c) (normalChar core' E' c) := by
  have hl : looks (.char c) = false := by simp [looks, hk]
  have h1 := shut_popModeAfterMovement H
  have h2 := shut_setMode H
  have h3 := shut_setModePreserveLast H
  have h4 := shut_countLeft H
  have h5 := shut_countRight H
  have h6 : Sim R (handleKeyCommon E (.char c)) (handleKeyCommon E' (.char c)) := shut_common H hd nofun
  have h7 := shut_repeatLast hc
  have h8 := shut_moveToChar H hl
  have h9 := sim_moveWord H
  have h10 := sim_moveWordEnd H
  have h11 := sim_tilde H
  have h12 : ∀ n, Sim R (repeatWhile (Editor.undo E) n) (repeatWhile (Editor.undo E') n) :=
    sim_repeatWhile (sim_undo H)
  have h13 := shut_popMode H
  unfold normalChar rememberKey
  simp only [if_neg hk]
  simsP H
  all_goals first
    | exact h1 _ | exact h2 _ | exact h3 _ | exact h8 _ | exact h9 _ _ _
    | exact h10 _ _ _ | exact h12 _

theorem shut_normal {key : Key} (hk : looks key = false) :
    Sim (OnP Shut R) (handleKeyNormal core E key) (handleKeyNormal core' E' key) := by
  have h5 := shut_countRight H
  have ku : key ≠ .up := by rintro rfl; simp [looks] at hk
  have h6 := shut_common H hd ku
  have h12 : ∀ n, Sim R (repeatWhile (Editor.redo E) n) (repeatWhile (Editor.redo E') n) :=
    sim_repeatWhile (sim_redo H)
  unfold handleKeyNormal rememberKey
  cases key with
  | up => exact absurd rfl ku
  | char c =>
    exact shut_normalChar H hd hc (by rintro rfl; simp [looks] at hk)
  | down => exact shut_normalChar H hd hc (by decide)
  | left => exact shut_normalChar H hd hc (by decide)
  | right => exact shut_normalChar H hd hc (by decide)
  | backspace => exact shut_normalChar H hd hc (by decide)
  | _ =>
    simsP H
    all_goals exact h12 _

theorem shut_deleteOrChange {key : Key} (hk : looks key = false) :
    Sim (OnP Shut R) (handleKeyDeleteOrChange core E key) (handleKeyDeleteOrChange core' E' key) := by
  have h1 := shut_normal H hd hc hk
  have h2 := shut_popMode H
  have h3 := shut_abort H
  unfold handleKeyDeleteOrChange
  simsP H

theorem shut_coreStep {key : Key} (hk : looks key = false) :
    Sim (OnP Shut R) (coreStep core E key) (coreStep core' E' key) := by
  have h1 := shut_normal H hd hc hk
  have h2 := shut_insertKey H hd hc hk
  have h3 := shut_replace H hk
  have h4 := shut_deleteOrChange H hd hc hk
  have h5 := shut_moveToChar H hk
  have h6 := shut_g H hk
  unfold coreStep
  simsP H
  all_goals exact h5 _

end

/-- Every key that does not look at the history. -/
theorem shut_core (H : Ops E E' R) (hd : Sim R (moveDown E) (moveDown E')) {key : Key} (hk : looks key = false) :
    Sim (OnP Shut R) (Vi.keyMap.core E key) (Vi.keyMap.core E' key) := by
  have : ∀ n key, looks key = false → Sim (OnP Shut R) (coreFuel E n key) (coreFuel E' n key) := by
    intro n
    induction n with
    | zero => exact fun _ _ => sim_panic
    | succ n ih => exact fun key hk => shut_coreStep H hd ih hk
  exact this _ key hk

end Vi
end Liner
