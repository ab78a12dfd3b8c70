import Verif.Proof.Log
/-
Key maps change the editor only through its operations.  So whatever the operations keep is kept by
every sequence of keys.
-/

namespace Liner
open Liner.Spec Liner.Editor M KM

/-- The two key maps. -/
inductive Who where
  | emacs | vi

/-- The operations each key map uses. -/
def Allowed (w : Who) (o : EdOp) : Prop :=
  (w = .emacs → ∀ m, o ≠ .setViMode m) ∧ (w = .vi → o ≠ .moveToStartOfHistory)

/-- A program that changes the editor only through its operations. -/
inductive Uses (E : Env) (w : Who) : ∀ {α : Type}, EdM α → Prop
  | op (o : EdOp) (h : Allowed w o) : Uses E w (runOp E o)
  | newline : Uses E w (handleNewline E)
  | undo : Uses E w (undo E)
  | redo : Uses E w (redo E)
  | revert : Uses E w (revert E)
  | start (p : Prompt) : Uses E w (start E p)
  | startGroup (h : w = .vi) : Uses E w (Vi.onBuf Buffer.startUndoGroup)
  | endGroup (h : w = .vi) : Uses E w (Vi.onBuf Buffer.endUndoGroup)
  | setNoEol (h : w = .vi) (b : Bool) : Uses E w (M.modify fun s : Ed => { s with noEol := b })
  | displayUnwrap (h : w = .vi) : Uses E w (Vi.displayUnwrap E)
  | curBuf : Uses E w curBuf
  | get : Uses E w M.get
  | panic {α : Type} : Uses E w (M.panic : EdM α)
  | ofOption {α : Type} (o : Option α) : Uses E w (M.ofOption o : EdM α)
  | pure {α : Type} (a : α) : Uses E w (pure a : EdM α)
  | bind {α β : Type} {m : EdM α} {f : α → EdM β} : Uses E w m → (∀ a, Uses E w (f a)) →
      Uses E w (m >>= f)

/-- The same for a program with the state of a key map, which itself returns only the errors in `T`. -/
inductive UsesK (E : Env) (w : Who) (T : IoErr → Prop) {κ : Type} : ∀ {α : Type}, KM κ α → Prop
  | ed {α : Type} {m : EdM α} : Uses E w m → UsesK E w T (KM.ed m : KM κ α)
  | step {α : Type} (f : κ → α × κ) : UsesK E w T fun t => .ok (f t.1).1 ((f t.1).2, t.2)
  | throw {α : Type} (e : IoErr) (h : T e) : UsesK E w T (M.throw e : KM κ α)
  | panic {α : Type} : UsesK E w T (M.panic : KM κ α)
  | ofOption {α : Type} (o : Option α) : UsesK E w T (M.ofOption o : KM κ α)
  | bind {α β : Type} {m : KM κ α} {f : α → KM κ β} : UsesK E w T m → (∀ a, UsesK E w T (f a)) →
      UsesK E w T (m >>= f)

/-- Any error. -/
abbrev Any : IoErr → Prop := fun _ => True

/-! ### What the operations keep is kept -/

/-- From states in `C` the program leads to states in `C`, related by `R` to the first; after an error
`F` relates the two. -/
def Keep {α : Type} (C : Ed → Prop) (R F : Ed → Ed → Prop) (m : EdM α) : Prop :=
  ∀ s, C s → Wp m s (fun _ s' => C s' ∧ R s s') (fun _ s' => F s s') (fun _ => True)

def KeepK {κ α : Type} (C : Ed → Prop) (R F : Ed → Ed → Prop) (m : KM κ α) : Prop :=
  ∀ t, C t.2 → Wp m t (fun _ t' => C t'.2 ∧ R t.2 t'.2) (fun _ t' => F t.2 t'.2) (fun _ => True)

/-- The conditions on the operations. -/
structure Kept (E : Env) (w : Who) (C : Ed → Prop) (R F : Ed → Ed → Prop) : Prop where
  refl : ∀ s, R s s
  frefl : ∀ s, F s s
  trans : ∀ a b c, R a b → R b c → R a c
  ftrans : ∀ a b c, R a b → F b c → F a c
  op : ∀ o, Allowed w o → Keep C R F (runOp E o)
  newline : Keep C R F (handleNewline E)
  undo : Keep C R F (undo E)
  redo : Keep C R F (redo E)
  revert : Keep C R F (revert E)
  start : ∀ p, Keep C R F (start E p)
  startGroup : w = .vi → Keep C R F (Vi.onBuf Buffer.startUndoGroup)
  endGroup : w = .vi → Keep C R F (Vi.onBuf Buffer.endUndoGroup)
  setNoEol : w = .vi → ∀ b, Keep C R F (M.modify fun s : Ed => { s with noEol := b })

section
variable {E : Env} {w : Who} {T : IoErr → Prop} {C : Ed → Prop} {R F : Ed → Ed → Prop} {κ α : Type}

theorem Kept.uses (h : Kept E w C R F) {m : EdM α} (hm : Uses E w m) : Keep C R F m := by
  induction hm with
  | op o ho => exact h.op o ho
  | newline => exact h.newline
  | undo => exact h.undo
  | redo => exact h.redo
  | revert => exact h.revert
  | start p => exact h.start p
  | startGroup hw => exact h.startGroup hw
  | endGroup hw => exact h.endGroup hw
  | setNoEol hw b => exact h.setNoEol hw b
  | displayUnwrap hw =>
    intro s hs
    have : Wp (display E) s (fun _ s' => C s' ∧ R s s') (fun _ s' => F s s') (fun _ => True) :=
      h.op .display (by simp [Allowed]) s hs
    unfold Wp Vi.displayUnwrap
    unfold Wp at this
    cases hd : display E s with
    | ok a s' => rw [hd] at this; exact this
    | err e s' => trivial
    | panic w => trivial
  | curBuf =>
    intro s hs
    rw [wp_curBuf]
    exact ⟨fun _ _ => ⟨hs, h.refl s⟩, fun _ => trivial⟩
  | get => exact fun s hs => ⟨hs, h.refl s⟩
  | panic => exact fun _ _ => trivial
  | ofOption o =>
    intro s hs
    rw [wp_ofOption]
    exact ⟨fun _ _ => ⟨hs, h.refl s⟩, fun _ => trivial⟩
  | pure a => exact fun s hs => ⟨hs, h.refl s⟩
  | bind _ _ ih1 ih2 =>
    intro s hs
    rw [wp_bind]
    refine wp_mono (ih1 s hs) (fun a s1 h1 => ?_) (fun _ _ h1 => h1) (fun _ h1 => h1)
    exact wp_mono (ih2 a s1 h1.1) (fun _ _ h2 => ⟨h2.1, h.trans _ _ _ h1.2 h2.2⟩)
      (fun _ _ h2 => h.ftrans _ _ _ h1.2 h2) (fun _ h2 => h2)

theorem Kept.usesK (h : Kept E w C R F) {m : KM κ α} (hm : UsesK E w T m) : KeepK C R F m := by
  induction hm with
  | ed hm =>
    intro t ht
    rw [wp_ed]
    exact h.uses hm t.2 ht
  | step f => exact fun t ht => ⟨ht, h.refl _⟩
  | throw e _ => exact fun t _ => h.frefl _
  | panic => exact fun _ _ => trivial
  | ofOption o =>
    intro s hs
    rw [wp_ofOption]
    exact ⟨fun _ _ => ⟨hs, h.refl _⟩, fun _ => trivial⟩
  | bind _ _ ih1 ih2 =>
    intro s hs
    rw [wp_bind]
    refine wp_mono (ih1 s hs) (fun a s1 h1 => ?_) (fun _ _ h1 => h1) (fun _ h1 => h1)
    exact wp_mono (ih2 a s1 h1.1) (fun _ _ h2 => ⟨h2.1, h.trans _ _ _ h1.2 h2.2⟩)
      (fun _ _ h2 => h.ftrans _ _ _ h1.2 h2) (fun _ h2 => h2)

end

/-! ### Two instances -/

/-- The history is only ever reloaded. -/
structure HRel (s s' : Ed) : Prop where
  hist : Reloaded s.fs s.history s'.history
  fs : s'.fs = s.fs

theorem HRel.refl (s : Ed) : HRel s s := ⟨.refl, rfl⟩

theorem HRel.trans {a b c : Ed} (h1 : HRel a b) (h2 : HRel b c) : HRel a c :=
  ⟨Reloaded.trans h1.hist (by rw [← h1.fs]; exact h2.hist), h2.fs.trans h1.fs⟩

theorem Editor.Rel.h {a b : Ed} (h : Rel a b) : HRel a b := ⟨h.hist, h.fs⟩

theorem hist_of_pres {α : Type} {m : EdM α} (h : Pres m) : Keep (fun _ => True) HRel HRel m :=
  fun s _ => wp_mono (h s) (fun _ _ h1 => ⟨trivial, h1.h⟩) (fun _ _ h1 => h1.h) (fun _ h1 => h1)

/-- Whatever happens, the stored history is at most reloaded. -/
theorem hist_kept (E : Env) (w : Who) : Kept E w (fun _ => True) HRel HRel where
  refl := HRel.refl
  frefl := HRel.refl
  trans _ _ _ h1 h2 := h1.trans h2
  ftrans _ _ _ h1 h2 := h1.trans h2
  op o _ := by
    cases o
    case setPrompt p =>
      intro s _
      show _ ∧ _
      refine ⟨trivial, ?_⟩
      dsimp only
      split <;> exact ⟨.refl, rfl⟩
    case setViMode m =>
      intro s _
      show _ ∧ _
      refine ⟨trivial, ?_⟩
      dsimp only
      split <;> exact ⟨.refl, rfl⟩
    all_goals exact hist_of_pres (pres_op E _ (by simp) (by simp))
  newline := hist_of_pres (pres_newline E)
  undo := hist_of_pres (pres_undo E)
  redo := hist_of_pres (pres_redo E)
  revert := hist_of_pres (pres_revert E)
  start p := hist_of_pres (pres_start E p)
  startGroup _ := hist_of_pres (pres_curBufMut _)
  endGroup _ := hist_of_pres (pres_curBufMut _)
  setNoEol _ b := fun s _ => ⟨trivial, .refl, rfl⟩

theorem inside_of {α : Type} {m : EdM α} (h1 : Keeps m) (h2 : Logs m) :
    Keep Inside Log (fun _ _ => True) m :=
  fun s hs => wp_mono (wp_and (h1 s hs) (h2 s hs)) (fun _ _ h => h) (fun _ _ _ => trivial)
    (fun _ _ => trivial)

/-- The cursor stays inside the line and the undo logs stay consistent. -/
theorem inside_kept (E : Env) (w : Who) : Kept E w Inside Log (fun _ _ => True) where
  refl := Log.refl
  frefl _ := trivial
  trans _ _ _ h1 h2 := h1.trans h2
  ftrans _ _ _ _ _ := trivial
  op o _ := inside_of (keeps_op E o) (logs_op E o)
  newline := inside_of (keeps_newline E) (logs_newline E)
  undo := inside_of (ends_undo E).keeps (lg_undo E).logs
  redo := inside_of (ends_redo E).keeps (lg_redo E).logs
  revert := inside_of (ends_revert E).keeps (lg_revert E).logs
  start p := inside_of (ends_start E p).keeps (lg_start E p).logs
  startGroup _ := inside_of (keeps_curBufMut fun b a b' h => by cases h; rfl)
    (lg_curBufMut invOk_start).logs
  endGroup _ := inside_of (keeps_curBufMut fun b a b' h => by cases h; rfl)
    (lg_curBufMut invOk_end).logs
  setNoEol _ b := fun s hs => ⟨hs, Log.refl s⟩

/-! ### Programs built from operations -/

section
variable {E : Env} {w : Who} {T : IoErr → Prop} {κ α β : Type}

theorem uses_ite {c : Prop} [Decidable c] {a b : EdM α} (ha : Uses E w a) (hb : Uses E w b) :
    Uses E w (if c then a else b) := by split <;> assumption
theorem uses_repeatN {m : EdM Unit} (h : Uses E w m) : ∀ n, Uses E w (M.repeatN n m)
  | 0 => .pure ()
  | n + 1 => .bind h fun _ => uses_repeatN h n
theorem uses_forEach {f : β → EdM Unit} (h : ∀ x, Uses E w (f x)) : ∀ xs, Uses E w (M.forEach xs f)
  | [] => .pure ()
  | x :: xs => .bind (h x) fun _ => uses_forEach h xs
theorem uses_atEnd : Uses E w cursorIsAtEndOfLine := by
  unfold cursorIsAtEndOfLine
  refine .bind .curBuf fun b => .bind .get fun s => ?_
  split
  · exact uses_ite .panic (.pure _)
  · exact .pure _

theorem usesK_pure (a : α) : UsesK E w T (pure a : KM κ α) := .step fun k => (a, k)
theorem usesK_getK : UsesK E w T (KM.getK : KM κ κ) := .step fun k => (k, k)
theorem usesK_modK (f : κ → κ) : UsesK E w T (KM.modK f) := .step fun k => ((), f k)
theorem usesK_ite {c : Prop} [Decidable c] {a b : KM κ α} (ha : UsesK E w T a)
    (hb : UsesK E w T b) :
    UsesK E w T (if c then a else b) := by split <;> assumption
theorem usesK_repeatN {m : KM κ Unit} (h : UsesK E w T m) : ∀ n, UsesK E w T (M.repeatN n m)
  | 0 => usesK_pure ()
  | n + 1 => .bind h fun _ => usesK_repeatN h n
theorem usesK_forEach {f : β → KM κ Unit} (h : ∀ x, UsesK E w T (f x)) :
    ∀ xs, UsesK E w T (M.forEach xs f)
  | [] => usesK_pure ()
  | x :: xs => .bind (h x) fun _ => usesK_forEach h xs

end

section
variable (E : Env) {w : Who}

theorem uses_search (f : Bool) : Uses E w (search E f) := Uses.op (.search f) (by simp [Allowed])
theorem uses_flush : Uses E w (flush E) := Uses.op .flush (by simp [Allowed])
theorem uses_skip : Uses E w skipCompletionsHint := Uses.op .skipCompletionsHint (by simp [Allowed])
theorem uses_complete (c : Text → List Text) : Uses E w (complete E c) := Uses.op (.complete c) (by simp [Allowed])
theorem uses_deleteWord (i : Bool) : Uses E w (deleteWordBeforeCursor E i) :=
  Uses.op (.deleteWordBeforeCursor i) (by simp [Allowed])
theorem uses_clear : Uses E w (clear E) := Uses.op .clear (by simp [Allowed])
theorem uses_moveUp : Uses E w (moveUp E) := Uses.op .moveUp (by simp [Allowed])
theorem uses_moveDown : Uses E w (moveDown E) := Uses.op .moveDown (by simp [Allowed])
theorem uses_histStart : Uses E .emacs (moveToStartOfHistory E) := Uses.op .moveToStartOfHistory (by simp [Allowed])
theorem uses_histEnd : Uses E w (moveToEndOfHistory E) := Uses.op .moveToEndOfHistory (by simp [Allowed])
theorem uses_insert (cs : Text) : Uses E w (insertCharsAfterCursor E cs) := Uses.op (.insert cs) (by simp [Allowed])
theorem uses_deleteBefore : Uses E w (deleteBeforeCursor E) := Uses.op .deleteBeforeCursor (by simp [Allowed])
theorem uses_deleteAfter : Uses E w (deleteAfterCursor E) := Uses.op .deleteAfterCursor (by simp [Allowed])
theorem uses_deleteAllBefore : Uses E w (deleteAllBeforeCursor E) := Uses.op .deleteAllBeforeCursor (by simp [Allowed])
theorem uses_deleteAllAfter : Uses E w (deleteAllAfterCursor E) := Uses.op .deleteAllAfterCursor (by simp [Allowed])
theorem uses_deleteUntil (p : Nat) : Uses E w (deleteUntil E p) := Uses.op (.deleteUntil p) (by simp [Allowed])
theorem uses_deleteUntilInclusive (p : Nat) : Uses E w (deleteUntilInclusive E p) :=
  Uses.op (.deleteUntilInclusive p) (by simp [Allowed])
theorem uses_left (n : Nat) : Uses E w (moveCursorLeft E n) := Uses.op (.moveCursorLeft n) (by simp [Allowed])
theorem uses_right (n : Nat) : Uses E w (moveCursorRight E n) := Uses.op (.moveCursorRight n) (by simp [Allowed])
theorem uses_to (n : Nat) : Uses E w (moveCursorTo E n) := Uses.op (.moveCursorTo n) (by simp [Allowed])
theorem uses_home : Uses E w (moveCursorToStartOfLine E) := Uses.op .moveCursorToStartOfLine (by simp [Allowed])
theorem uses_end : Uses E w (moveCursorToEndOfLine E) := Uses.op .moveCursorToEndOfLine (by simp [Allowed])
theorem uses_accept : Uses E w (acceptAutosuggestion E) := Uses.op .acceptAutosuggestion (by simp [Allowed])
theorem uses_display : Uses E w (display E) := Uses.op .display (by simp [Allowed])

theorem uses_setViMode (m : ViPromptMode) : Uses E .vi (setViMode m) := Uses.op (.setViMode m) (by simp [Allowed])

end

/-- Go through the program text of a key map. -/
macro "uses" : tactic => `(tactic| repeat' (first
  | with_reducible assumption
  | with_reducible exact Uses.newline
  | with_reducible exact Uses.undo
  | with_reducible exact Uses.redo
  | with_reducible exact Uses.revert
  | with_reducible exact uses_atEnd
  | with_reducible exact uses_search _ _
  | with_reducible exact uses_flush _
  | with_reducible exact uses_skip _
  | with_reducible exact uses_complete _ _
  | with_reducible exact uses_deleteWord _ _
  | with_reducible exact uses_clear _
  | with_reducible exact uses_moveUp _
  | with_reducible exact uses_moveDown _
  | with_reducible exact uses_histStart _
  | with_reducible exact uses_histEnd _
  | with_reducible exact uses_insert _ _
  | with_reducible exact uses_deleteBefore _
  | with_reducible exact uses_deleteAfter _
  | with_reducible exact uses_deleteAllBefore _
  | with_reducible exact uses_deleteAllAfter _
  | with_reducible exact uses_deleteUntil _ _
  | with_reducible exact uses_deleteUntilInclusive _ _
  | with_reducible exact uses_left _ _
  | with_reducible exact uses_right _ _
  | with_reducible exact uses_to _ _
  | with_reducible exact uses_home _
  | with_reducible exact uses_end _
  | with_reducible exact uses_accept _
  | with_reducible exact uses_display _
  | with_reducible exact uses_setViMode _ _
  | with_reducible exact Uses.curBuf
  | with_reducible exact Uses.get
  | with_reducible exact Uses.panic
  | with_reducible exact Uses.pure _
  | with_reducible exact Uses.ofOption _
  | with_reducible exact usesK_getK
  | with_reducible exact usesK_modK _
  | with_reducible exact usesK_pure _
  | with_reducible exact UsesK.panic
  | with_reducible exact UsesK.throw _ trivial
  | with_reducible exact UsesK.ofOption _
  | with_reducible apply UsesK.bind
  | with_reducible apply usesK_ite
  | with_reducible apply UsesK.ed
  | with_reducible apply usesK_repeatN
  | with_reducible apply usesK_forEach
  | with_reducible apply Uses.bind
  | with_reducible apply uses_ite
  | with_reducible apply uses_repeatN
  | with_reducible apply uses_forEach
  | with_reducible intro _
  | split
  | dsimp only))

/-! ### The reading loop -/

section
variable {κ : Type} (km : KeyMap κ) (E : Env) {w : Who}

theorem uses_dispatch (comp : Text → List Text) (e : Bool) (key : Key)
    (hc : UsesK E w Any (km.core E key)) : UsesK E w Any (km.dispatch E comp e key) := by
  unfold KeyMap.dispatch
  uses

theorem uses_handleKey (comp : Text → List Text) (key : Key)
    (hc : UsesK E w Any (km.core E (KeyMap.translate key))) : UsesK E w Any (km.handleKey E comp key) := by
  have := fun b => uses_dispatch km E comp b (KeyMap.translate key) hc
  unfold KeyMap.handleKey
  uses
  exact this _

theorem uses_loop (hc : ∀ key, UsesK E w Any (km.core E key)) :
    ∀ input, UsesK E w Any (km.loop E input)
  | [] => by unfold KeyMap.loop; uses
  | .ioErr :: rest => by unfold KeyMap.loop; uses
  | .key k comp :: rest => by
    have h1 := uses_handleKey km E comp k (hc _)
    have h2 := uses_loop hc rest
    unfold KeyMap.loop; uses

theorem uses_press : ∀ keys, (∀ k ∈ keys, UsesK E w Any (km.core E (KeyMap.translate k.1))) →
    UsesK E w Any (press km E keys)
  | [], _ => usesK_pure _
  | k :: ks, hc => UsesK.bind (uses_handleKey km E k.2 k.1 (hc k (by simp))) fun _ =>
      uses_press ks fun k' hk => hc k' (by simp [hk])

theorem uses_session (hi : UsesK E w Any (km.init E)) (p : Prompt)
    (keys : List (Key × (Text → List Text)))
    (hc : ∀ k ∈ keys, UsesK E w Any (km.core E (KeyMap.translate k.1))) :
    UsesK E w Any (session km E p keys) := by
  unfold session
  exact UsesK.bind (UsesK.ed (.start p)) fun _ => UsesK.bind hi fun _ => uses_press km E keys hc

theorem uses_readLine (hc : ∀ key, UsesK E w Any (km.core E key)) (hi : UsesK E w Any (km.init E))
    (p : Prompt) (input : List KeyMap.Input) : UsesK E w Any (km.readLine E p input) := by
  unfold KeyMap.readLine KeyMap.handleKeys
  exact UsesK.bind (UsesK.ed (.start p)) fun _ => UsesK.bind hi fun _ => uses_loop km E hc input

/-- A session starts with a redraw, so the cursor is inside the line from then on. -/
theorem inside_session (hc : ∀ key, UsesK E w Any (km.core E key)) (hi : UsesK E w Any (km.init E))
    (p : Prompt) (keys : List (Key × (Text → List Text))) (t : κ × Ed) :
    Wp (session km E p keys) t (fun _ t' => Inside t'.2 ∧ Log t.2 t'.2) (fun _ _ => True)
      (fun _ => True) := by
  unfold session
  rw [wp_bind, wp_ed]
  refine wp_mono (wp_and (ends_start E p t.2) (lg_start E p t.2)) (fun _ s1 h1 => ?_)
    (fun _ _ _ => trivial) (fun _ _ => trivial)
  exact wp_mono ((inside_kept E w).usesK
      (UsesK.bind hi fun _ => uses_press km E keys fun k _ => hc _) (t.1, s1) h1.1)
    (fun _ _ h => ⟨h.1, h1.2.trans h.2⟩) (fun _ _ _ => trivial) (fun _ h => h)

end

/-! ### Emacs -/

namespace Emacs
variable (E : Env) {w : Who} {T : IoErr → Prop}

theorem uses_moveWord (r : Bool) : Uses E w (moveWord E r) := by
  unfold moveWord wordsAndPos; uses
theorem uses_deleteLastArg : Uses E w (deleteLastArg E) := by unfold deleteLastArg; uses
theorem uses_lastArg : UsesK E w T (handleLastArgFetch E) := by
  have h2 := uses_deleteLastArg (w := w) E
  unfold handleLastArgFetch; uses
theorem uses_altKey (c : Char) (hc : c ≠ '<') : UsesK E w T (handleAltKey E c) := by
  have h1 := uses_moveWord (w := w) E
  have h3 := uses_lastArg (w := w) (T := T) E
  unfold handleAltKey
  rw [if_neg hc]
  uses
  all_goals exact h1 _
theorem uses_ctrlKey (c : Char) : Uses E w (handleCtrlKey E c) := by
  unfold handleCtrlKey; uses

/-- Without Alt-<, no key uses `move_to_start_of_history`. -/
theorem uses_core_ne (key : Key) (hk : key ≠ .alt '<') : UsesK E w T (keyMap.core E key) := by
  have h5 := uses_ctrlKey (w := w) E
  have h6 : UsesK E w T (handleKeyBody E key) := by
    unfold handleKeyBody; uses
    · exact uses_altKey E _ (fun h => hk (by rw [h]))
    · exact h5 _
  show UsesK E w T (handleKeyCore E key)
  unfold handleKeyCore
  uses

theorem uses_core (key : Key) : UsesK E .emacs T (keyMap.core E key) := by
  by_cases hk : key = .alt '<'
  · subst hk
    refine UsesK.bind (usesK_modK _) fun _ => ?_
    exact UsesK.ed (uses_histStart E)
  · exact uses_core_ne E key hk

theorem uses_init : UsesK E w T (keyMap.init E) := usesK_pure _

end Emacs

/-! ### Vi -/

namespace Vi
variable (E : Env) {T : IoErr → Prop}

theorem uses_startGroup : Uses E .vi (onBuf Buffer.startUndoGroup) := .startGroup rfl
theorem uses_endGroup : Uses E .vi (onBuf Buffer.endUndoGroup) := .endGroup rfl
theorem uses_displayUnwrap : Uses E .vi (displayUnwrap E) := .displayUnwrap rfl
theorem uses_setNoEol (b : Bool) : UsesK E .vi T (setNoEol b) := .ed (.setNoEol rfl b)
theorem uses_popStack : UsesK E .vi T popStack :=
  .step fun v : Liner.Vi => (v.modeStack.headD .normal, { v with modeStack := v.modeStack.tail })

theorem uses_setEditorMode : UsesK E .vi T (setEditorMode E) := by unfold setEditorMode; uses

theorem uses_setModePreserveLast (m : Mode) : UsesK E .vi T (setModePreserveLast E m) := by
  have h1 := uses_setNoEol (T := T) E
  have h2 := uses_setEditorMode (T := T) E
  have h3 := uses_startGroup E
  unfold setModePreserveLast
  uses
  exact h1 _

theorem uses_setMode (m : Mode) : UsesK E .vi T (setMode E m) := by
  have h2 := uses_setModePreserveLast (T := T) E m
  unfold setMode; uses

theorem uses_popModeAfterMovement (i : Bool) : UsesK E .vi T (popModeAfterMovement E i) := by
  have h1 := uses_setNoEol (T := T) E
  have h2 := uses_setEditorMode (T := T) E
  have h3 := uses_popStack (T := T) E
  unfold popModeAfterMovement
  uses
  all_goals exact h1 _

theorem uses_popMode : UsesK E .vi T (popMode E) := by
  have h1 := uses_setNoEol (T := T) E
  have h2 := uses_setEditorMode (T := T) E
  have h3 := uses_popStack (T := T) E
  have h4 := uses_displayUnwrap E
  have h5 := uses_endGroup E
  unfold popMode
  uses
  all_goals exact h1 _

theorem uses_abort : UsesK E .vi T (normalModeAbort E) := by
  have h1 := uses_setNoEol (T := T) E
  have h2 := uses_setEditorMode (T := T) E
  unfold normalModeAbort
  uses
  all_goals exact h1 _

theorem uses_countLeft : UsesK E .vi T moveCountLeft := by unfold moveCountLeft; uses
theorem uses_countRight : UsesK E .vi T moveCountRight := by unfold moveCountRight; uses
theorem uses_common (key : Key) : Uses E .vi (handleKeyCommon E key) := by unfold handleKeyCommon; uses

section
variable {core : Key → ViM Unit} (hc : ∀ k, UsesK E .vi T (core k))
include hc

theorem uses_replay (keys : List Key) : UsesK E .vi T (replay core keys) := usesK_forEach hc keys

omit hc in
theorem uses_resetInsert : UsesK E .vi T resetInsert := by
  have h1 := uses_startGroup E
  have h2 := uses_endGroup E
  unfold resetInsert; uses

theorem uses_insertRepeats (n : Nat) : UsesK E .vi T (insertRepeats core n) := by
  have h1 := uses_replay E hc
  unfold insertRepeats; uses
  exact h1 _

theorem uses_insertKey (key : Key) : UsesK E .vi T (handleKeyInsert core E key) := by
  have h1 := uses_insertRepeats E hc
  have h2 := uses_resetInsert (T := T) E
  have h3 := uses_popMode (T := T) E
  have h4 := uses_common E
  have h5 := uses_startGroup E
  have h6 := uses_endGroup E
  unfold handleKeyInsert
  uses
  all_goals first | exact h1 _ | exact h4 _

theorem uses_repeatLast : UsesK E .vi T (repeatLast core) := by
  have h1 := uses_replay E hc
  unfold repeatLast; uses
  all_goals first | exact h1 _ | exact hc _

omit hc in
theorem uses_moveToChar (key : Key) (arg : MoveArg) : UsesK E .vi T (handleKeyMoveToChar E key arg) := by
  have h1 := uses_popModeAfterMovement (T := T) E
  have h2 := uses_abort (T := T) E
  unfold handleKeyMoveToChar; uses
  all_goals exact h1 _

omit hc in
theorem uses_moveWord (kw r : Bool) (n : Nat) : Uses E .vi (moveWord E kw r n) := by
  unfold moveWord; uses

omit hc in
theorem uses_moveWordEnd (kw r : Bool) (n : Nat) : Uses E .vi (moveWordEnd E kw r n) := by
  unfold moveWordEnd; uses

omit hc in
theorem uses_tilde : Uses E .vi (tildeStep E) := by
  unfold tildeStep insertEach; uses

omit hc in
theorem uses_repeatWhile {op : EdM Bool} (h : Uses E .vi op) : ∀ n, Uses E .vi (repeatWhile op n)
  | 0 => by unfold repeatWhile; uses
  | n + 1 => by
    have := uses_repeatWhile h n
    unfold repeatWhile; uses

theorem uses_normalChar (c : Char) : UsesK E .vi T (normalChar core E c) := by
  have h1 := uses_popModeAfterMovement (T := T) E
  have h2 := uses_setMode (T := T) E
  have h3 := uses_setModePreserveLast (T := T) E
  have h4 := uses_countLeft (T := T) E
  have h5 := uses_countRight (T := T) E
  have h6 := uses_common E
  have h7 := uses_repeatLast E hc
  have h8 := uses_moveToChar (T := T) E
  have h9 := uses_moveWord E
  have h10 := uses_moveWordEnd E
  have h11 := uses_tilde E
  have h12 : ∀ n, Uses E .vi (repeatWhile (Editor.undo E) n) := uses_repeatWhile E Uses.undo
  have h13 := uses_popMode (T := T) E
  unfold normalChar rememberKey
  uses
  all_goals first
    | exact h1 _ | exact h2 _ | exact h3 _ | exact h6 _ | exact h8 _ _ | exact h9 _ _ _
    | exact h10 _ _ _ | exact h12 _

theorem uses_normal (key : Key) : UsesK E .vi T (handleKeyNormal core E key) := by
  have h1 := uses_normalChar E hc
  have h5 := uses_countRight (T := T) E
  have h6 := uses_common E
  have h12 : ∀ n, Uses E .vi (repeatWhile (Editor.redo E) n) := uses_repeatWhile E Uses.redo
  unfold handleKeyNormal rememberKey
  uses
  all_goals first | exact h1 _ | exact h6 _ | exact h12 _

omit hc in
theorem uses_replace (key : Key) : UsesK E .vi T (handleKeyReplace E key) := by
  have h1 := uses_countRight (T := T) E
  have h2 := uses_popMode (T := T) E
  have h3 := uses_abort (T := T) E
  have h5 := uses_startGroup E
  have h6 := uses_endGroup E
  unfold handleKeyReplace replaceStep
  uses

theorem uses_deleteOrChange (key : Key) : UsesK E .vi T (handleKeyDeleteOrChange core E key) := by
  have h1 := uses_normal E hc
  have h2 := uses_popMode (T := T) E
  have h3 := uses_abort (T := T) E
  unfold handleKeyDeleteOrChange
  uses
  all_goals exact h1 _

omit hc in
theorem uses_g (key : Key) : UsesK E .vi T (handleKeyG E key) := by
  have h1 := uses_popModeAfterMovement (T := T) E
  have h3 := uses_abort (T := T) E
  have h9 := uses_moveWord E
  unfold handleKeyG
  uses
  all_goals first | exact h1 _ | exact h9 _ _ _

theorem uses_coreStep (key : Key) : UsesK E .vi T (coreStep core E key) := by
  have h1 := uses_normal E hc
  have h2 := uses_insertKey E hc
  have h3 := uses_replace (T := T) E
  have h4 := uses_deleteOrChange E hc
  have h5 := uses_moveToChar (T := T) E
  have h6 := uses_g (T := T) E
  unfold coreStep
  uses
  all_goals first
    | exact h1 _ | exact h2 _ | exact h3 _ | exact h4 _ | exact h5 _ _ | exact h6 _

end

theorem uses_coreFuel : ∀ n key, UsesK E .vi T (coreFuel E n key)
  | 0, key => by unfold coreFuel; uses
  | n + 1, key => by
    unfold coreFuel
    exact uses_coreStep E (uses_coreFuel n) key

theorem uses_core (key : Key) : UsesK E .vi T (Vi.keyMap.core E key) := uses_coreFuel E _ key

theorem uses_init : UsesK E .vi T (Vi.keyMap.init E) := by
  have h1 := uses_startGroup E
  have h2 := uses_setEditorMode (T := T) E
  show UsesK E .vi T (Vi.init E)
  unfold Vi.init
  uses

end Vi
end Liner
