import Verif.Proof.Sim
/-
Two runs of the key maps.
-/

namespace Liner
open Liner.Editor M KM

/-- Up and Down keep the relation, too. -/
structure OpsUp (E E' : Env) (R : Ed → Ed → Prop) : Prop extends Ops E E' R where
  up : Sim R (moveUp E) (moveUp E')
  down : Sim R (moveDown E) (moveDown E')

/-- Go through the program text of a key map. -/
macro "sims" H:term : tactic => `(tactic| repeat' (first
  | with_reducible assumption
  | with_reducible exact Ops.buf $H
  | with_reducible exact Ops.mutate $H _
  | with_reducible exact Ops.display $H
  | with_reducible exact Ops.clear $H
  | with_reducible exact Ops.toEnd $H
  | with_reducible exact Ops.viMode $H _
  | with_reducible exact sim_wordsAndPos $H
  | with_reducible exact sim_deleteWord $H _
  | with_reducible exact sim_insert $H _
  | with_reducible exact sim_undo $H
  | with_reducible exact sim_redo $H
  | with_reducible exact sim_revert $H
  | with_reducible exact sim_deleteBefore $H
  | with_reducible exact sim_deleteAfter $H
  | with_reducible exact sim_deleteAllBefore $H
  | with_reducible exact sim_deleteAllAfter $H
  | with_reducible exact sim_deleteUntil $H _
  | with_reducible exact sim_deleteUntilInclusive $H _
  | with_reducible exact sim_left $H _
  | with_reducible exact sim_right $H _
  | with_reducible exact sim_moveTo $H _
  | with_reducible exact sim_home $H
  | with_reducible exact sim_eol $H
  | with_reducible exact sim_onBuf $H _
  | with_reducible exact sim_displayUnwrap $H
  | with_reducible exact sim_pure _
  | with_reducible exact sim_panic
  | with_reducible exact sim_throw _
  | with_reducible exact sim_ofOption _
  | with_reducible exact sim_modK _
  | (with_reducible refine sim_edget fun s t hr => ?_; simp only [Ops.cursor $H hr, Ops.newBuf $H hr])
  | (with_reducible refine sim_get fun s t hr => ?_; simp only [Ops.cursor $H hr, Ops.newBuf $H hr])
  | with_reducible apply sim_getK
  | with_reducible apply sim_bind
  | with_reducible apply sim_ite
  | with_reducible apply sim_ed
  | with_reducible apply sim_repeatN
  | with_reducible apply sim_forEach
  | with_reducible intro _
  | split
  | dsimp only))

/-! ### Vi -/

namespace Vi
variable {E E' : Env} {R : Ed → Ed → Prop}

section
variable (H : Ops E E' R)
include H

theorem sim_setNoEol (b : Bool) : Sim (OnK R) (setNoEol b) (setNoEol b) :=
  sim_ed (sim_modify fun _ _ h => H.noEol b h)

omit H in
theorem sim_popStack : Sim (OnK R) popStack popStack := by
  intro s t hr
  unfold popStack
  rw [hr.1]
  exact twins_ok ⟨rfl, hr.2⟩

theorem sim_setEditorMode : Sim (OnK R) (setEditorMode E) (setEditorMode E') := by
  unfold setEditorMode; sims H

theorem sim_setModePreserveLast (m : Mode) :
    Sim (OnK R) (setModePreserveLast E m) (setModePreserveLast E' m) := by
  have h1 := sim_setNoEol H
  have h2 := sim_setEditorMode H
  unfold setModePreserveLast
  sims H
  exact h1 _

theorem sim_setMode (m : Mode) : Sim (OnK R) (setMode E m) (setMode E' m) := by
  have h2 := sim_setModePreserveLast H m
  unfold setMode; sims H

theorem sim_popModeAfterMovement (i : Bool) :
    Sim (OnK R) (popModeAfterMovement E i) (popModeAfterMovement E' i) := by
  have h1 := sim_setNoEol H
  have h2 := sim_setEditorMode H
  have h3 : Sim (OnK R) popStack popStack := sim_popStack
  unfold popModeAfterMovement
  sims H
  all_goals exact h1 _

theorem sim_popMode : Sim (OnK R) (popMode E) (popMode E') := by
  have h1 := sim_setNoEol H
  have h2 := sim_setEditorMode H
  have h3 : Sim (OnK R) popStack popStack := sim_popStack
  unfold popMode
  sims H
  all_goals exact h1 _

theorem sim_abort : Sim (OnK R) (normalModeAbort E) (normalModeAbort E') := by
  have h1 := sim_setNoEol H
  have h2 := sim_setEditorMode H
  unfold normalModeAbort
  sims H
  all_goals exact h1 _

theorem sim_countLeft : Sim (OnK R) moveCountLeft moveCountLeft := by unfold moveCountLeft; sims H
theorem sim_countRight : Sim (OnK R) moveCountRight moveCountRight := by unfold moveCountRight; sims H

theorem sim_resetInsert : Sim (OnK R) resetInsert resetInsert := by unfold resetInsert; sims H

theorem sim_moveToChar (key : Key) (arg : MoveArg) :
    Sim (OnK R) (handleKeyMoveToChar E key arg) (handleKeyMoveToChar E' key arg) := by
  have h1 := sim_popModeAfterMovement H
  have h2 := sim_abort H
  unfold handleKeyMoveToChar; sims H
  all_goals exact h1 _

theorem sim_moveWord (kw r : Bool) (n : Nat) : Sim R (moveWord E kw r n) (moveWord E' kw r n) := by
  unfold moveWord
  rw [H.cc]
  sims H

theorem sim_moveWordEnd (kw r : Bool) (n : Nat) :
    Sim R (moveWordEnd E kw r n) (moveWordEnd E' kw r n) := by
  unfold moveWordEnd
  rw [H.cc]
  sims H

theorem sim_tilde : Sim R (tildeStep E) (tildeStep E') := by
  unfold tildeStep insertEach
  rw [H.cc]
  sims H

omit H in
theorem sim_repeatWhile {op op' : EdM Bool} (h : Sim R op op') :
    ∀ n, Sim R (repeatWhile op n) (repeatWhile op' n)
  | 0 => sim_pure _
  | n + 1 => by
    have := sim_repeatWhile h n
    unfold repeatWhile
    exact sim_bind h fun _ => sim_ite this (sim_pure _)

theorem sim_replace (key : Key) : Sim (OnK R) (handleKeyReplace E key) (handleKeyReplace E' key) := by
  have h1 := sim_countRight H
  have h2 := sim_popMode H
  have h3 := sim_abort H
  unfold handleKeyReplace replaceStep
  sims H

theorem sim_g (key : Key) : Sim (OnK R) (handleKeyG E key) (handleKeyG E' key) := by
  have h1 := sim_popModeAfterMovement H
  have h3 := sim_abort H
  have h9 := sim_moveWord H
  unfold handleKeyG
  sims H
  all_goals first | exact h1 _ | exact h9 _ _ _

theorem sim_init : Sim (OnK R) (Vi.keyMap.init E) (Vi.keyMap.init E') := by
  have h2 := sim_setEditorMode H
  show Sim (OnK R) (Vi.init E) (Vi.init E')
  unfold Vi.init
  sims H

end

section
variable (H : OpsUp E E' R)
include H

theorem sim_common (key : Key) : Sim R (handleKeyCommon E key) (handleKeyCommon E' key) := by
  have h1 := H.up
  have h2 := H.down
  unfold handleKeyCommon; sims H.toOps

variable {core core' : Key → ViM Unit} (hc : ∀ k, Sim (OnK R) (core k) (core' k))
include hc

omit H in
theorem sim_replay (keys : List Key) : Sim (OnK R) (replay core keys) (replay core' keys) :=
  sim_forEach hc keys

omit H in
theorem sim_insertRepeats (n : Nat) : Sim (OnK R) (insertRepeats core n) (insertRepeats core' n) := by
  have h1 := sim_replay hc
  unfold insertRepeats
  exact sim_repeatN (sim_getK fun k => sim_bind (sim_modK _) fun _ => h1 _) n

theorem sim_insertKey (key : Key) :
    Sim (OnK R) (handleKeyInsert core E key) (handleKeyInsert core' E' key) := by
  have h1 := sim_insertRepeats hc
  have h2 := sim_resetInsert H.toOps
  have h3 := sim_popMode H.toOps
  have h4 := sim_common H
  have h5 := H.up
  have h6 := H.down
  unfold handleKeyInsert
  sims H.toOps
  all_goals first | exact h1 _ | exact h4 _

omit H in
theorem sim_repeatLast : Sim (OnK R) (repeatLast core) (repeatLast core') := by
  have h1 := sim_replay hc
  unfold repeatLast
  refine sim_bind (sim_modK _) fun _ => sim_getK fun v => ?_
  dsimp only
  refine sim_bind (sim_modK _) fun _ => ?_
  have h2 : Sim (OnK R) (replay core v.lastCommand >>= fun _ => KM.getK >>= fun v' : Liner.Vi =>
        if v'.lastInsert.isSome then core .esc >>= fun _ => KM.modK fun w => { w with lastCommand := v.lastCommand }
        else KM.modK fun w => { w with lastCommand := v.lastCommand })
      (replay core' v.lastCommand >>= fun _ => KM.getK >>= fun v' : Liner.Vi =>
        if v'.lastInsert.isSome then core' .esc >>= fun _ => KM.modK fun w => { w with lastCommand := v.lastCommand }
        else KM.modK fun w => { w with lastCommand := v.lastCommand }) :=
    sim_bind (h1 _) fun _ => sim_getK fun v' => sim_ite (sim_bind (hc _) fun _ => sim_modK _) (sim_modK _)
  cases v.lastInsert with
  | none => exact h2
  | some k => exact sim_bind (hc k) fun _ => h2

set_option maxHeartbeats 1600000 in
theorem sim_normalChar (c : Char) : Sim (OnK R) (normalChar core E c) (normalChar core' E' c) := by
  have h1 := sim_popModeAfterMovement H.toOps
  have h2 := sim_setMode H.toOps
  have h3 := sim_setModePreserveLast H.toOps
  have h4 := sim_countLeft H.toOps
  have h5 := sim_countRight H.toOps
  have h6 := sim_common H
  have h7 := sim_repeatLast hc
  have h8 := sim_moveToChar H.toOps
  have h9 := sim_moveWord H.toOps
  have h10 := sim_moveWordEnd H.toOps
  have h11 := sim_tilde H.toOps
  have h12 : ∀ n, Sim R (repeatWhile (Editor.undo E) n) (repeatWhile (Editor.undo E') n) :=
    sim_repeatWhile (sim_undo H.toOps)
  have h13 := sim_popMode H.toOps
  have h14 := H.up
  have h15 := H.down
  unfold normalChar rememberKey
  sims H.toOps
  all_goals first
    | exact h1 _ | exact h2 _ | exact h3 _ | exact h6 _ | exact h8 _ _ | exact h9 _ _ _
    | exact h10 _ _ _ | exact h12 _

theorem sim_normal (key : Key) :
    Sim (OnK R) (handleKeyNormal core E key) (handleKeyNormal core' E' key) := by
  have h1 := sim_normalChar H hc
  have h5 := sim_countRight H.toOps
  have h6 := sim_common H
  have h12 : ∀ n, Sim R (repeatWhile (Editor.redo E) n) (repeatWhile (Editor.redo E') n) :=
    sim_repeatWhile (sim_redo H.toOps)
  unfold handleKeyNormal rememberKey
  sims H.toOps
  all_goals first | exact h1 _ | exact h6 _ | exact h12 _

theorem sim_deleteOrChange (key : Key) :
    Sim (OnK R) (handleKeyDeleteOrChange core E key) (handleKeyDeleteOrChange core' E' key) := by
  have h1 := sim_normal H hc
  have h2 := sim_popMode H.toOps
  have h3 := sim_abort H.toOps
  unfold handleKeyDeleteOrChange
  sims H.toOps
  all_goals exact h1 _

theorem sim_coreStep (key : Key) : Sim (OnK R) (coreStep core E key) (coreStep core' E' key) := by
  have h1 := sim_normal H hc
  have h2 := sim_insertKey H hc
  have h3 := sim_replace H.toOps
  have h4 := sim_deleteOrChange H hc
  have h5 := sim_moveToChar H.toOps
  have h6 := sim_g H.toOps
  unfold coreStep
  sims H.toOps
  all_goals first
    | exact h1 _ | exact h2 _ | exact h3 _ | exact h4 _ | exact h5 _ _ | exact h6 _

end

theorem sim_core (H : OpsUp E E' R) (key : Key) :
    Sim (OnK R) (Vi.keyMap.core E key) (Vi.keyMap.core E' key) := by
  have : ∀ n key, Sim (OnK R) (coreFuel E n key) (coreFuel E' n key) := by
    intro n
    induction n with
    | zero => exact fun _ => sim_panic
    | succ n ih => exact fun key => sim_coreStep H ih key
  exact this _ key

end Vi

/-! ### Emacs -/

namespace Emacs
variable {E E' : Env} {R : Ed → Ed → Prop} (H : Ops E E' R)
include H

theorem sim_moveWord (r : Bool) : Sim R (moveWord E r) (moveWord E' r) := by
  unfold moveWord; sims H

/-- The keys that look at the history. -/
def looks (key : Key) : Bool :=
  key ∈ [.up, .down, .ctrl 'p', .ctrl 'n', .alt '<', .alt '.']

/-- Every key that does not look at the history. -/
theorem sim_core (key : Key)
    (hl : looks key = true → Sim (OnK R) (keyMap.core E key) (keyMap.core E' key)) :
    Sim (OnK R) (keyMap.core E key) (keyMap.core E' key) := by
  by_cases hk : looks key = true
  · exact hl hk
  have hk : key ≠ .up ∧ key ≠ .down ∧ key ≠ .ctrl 'p' ∧ key ≠ .ctrl 'n' ∧ key ≠ .alt '<' ∧ key ≠ .alt '.' := by
    simpa [looks] using hk
  obtain ⟨k1, k2, k3, k4, k5, k6⟩ := hk
  have h1 := sim_moveWord H
  show Sim (OnK R) (handleKeyCore E key) (handleKeyCore E' key)
  unfold handleKeyCore
  simp only [if_neg k6]
  refine sim_bind (sim_modK _) fun _ => ?_
  unfold handleKeyBody
  cases key with
  | alt c =>
    have c1 : c ≠ '<' := fun h => k5 (by rw [h])
    have c2 : c ≠ '.' := fun h => k6 (by rw [h])
    dsimp only
    unfold handleAltKey
    simp only [if_neg c1, if_neg c2]
    sims H
    all_goals exact h1 _
  | ctrl c =>
    have c1 : c ≠ 'p' := fun h => k3 (by rw [h])
    have c2 : c ≠ 'n' := fun h => k4 (by rw [h])
    dsimp only
    unfold handleCtrlKey
    simp only [if_neg c1, if_neg c2]
    sims H
  | up => exact absurd rfl k1
  | down => exact absurd rfl k2
  | _ =>
    dsimp only
    sims H

end Emacs

/-! ### The reading loop -/

section
variable {κ : Type} (km : KeyMap κ) {E E' : Env} {R : Ed → Ed → Prop}

theorem sim_loop
    (ht : ∀ {s t}, R s t → intoText s = intoText t) :
    ∀ (input : List KeyMap.Input)
      (_ : ∀ k comp, KeyMap.Input.key k comp ∈ input → Sim (OnK R) (km.handleKey E comp k) (km.handleKey E' comp k)),
      Sim (OnK R) (km.loop E input) (km.loop E' input)
  | [], _ => by
    unfold KeyMap.loop
    exact sim_edget fun s t hr => by rw [ht hr]; exact sim_ofOption _
  | .ioErr :: rest, _ => sim_throw _
  | .key k comp :: rest, hk => by
    unfold KeyMap.loop
    refine sim_bind (hk k comp (by simp)) fun d => sim_ite ?_ ?_
    · exact sim_edget fun s t hr => by rw [ht hr]; exact sim_ofOption _
    · exact sim_loop ht rest fun k' c' h => hk k' c' (by simp [h])

end

end Liner
