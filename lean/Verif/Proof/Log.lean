import Verif.Proof.Pres
/-
The undo logs stay consistent: whatever is done with the editor, undoing everything leads back to
the text the line started with.
-/

namespace Liner
namespace Editor
open Liner.Spec

/-- The undo logs keep leading back to where they started. -/
def Log (s s' : Ed) : Prop :=
  (∀ d, Buffer.Inv d s.newBuf → Buffer.Inv d s'.newBuf) ∧
    (∀ d, Buffer.Inv d s.histBuf → Buffer.Inv d s'.histBuf)

theorem Log.trans {a b c : Ed} (h1 : Log a b) (h2 : Log b c) : Log a c :=
  ⟨fun d h => h2.1 d (h1.1 d h), fun d h => h2.2 d (h1.2 d h)⟩

/-- A buffer operation that keeps the log. -/
def InvOk {α : Type} (f : Buffer → Option (α × Buffer)) : Prop :=
  ∀ d b a b', Buffer.Inv d b → f b = some (a, b') → Buffer.Inv d b'

theorem invOk_edit {b b' : Buffer} {d : Text} (e : Edit) (hi : Buffer.Inv d b)
    (hr : runEdit b e = some b') (ha : e.apply b.data ≠ none) : Buffer.Inv d b' := by
  obtain ⟨x, hx⟩ := Option.ne_none_iff_exists'.mp ha
  obtain ⟨b1, h1, h2, _⟩ := hi.edit e x hx
  rw [hr] at h1; cases h1; exact h2

theorem remove_inv {d : Text} {b b' : Buffer} {i j n : Nat} (hi : Buffer.Inv d b)
    (h : b.remove i j = some (n, b')) : Buffer.Inv d b' := by
  refine invOk_edit (.remove i j) hi (by simp [runEdit, h]) ?_
  intro hn
  have := (Props.C01_remove_panics_iff b i j).mpr (by
    simp only [Edit.apply, ite_eq_right_iff, reduceCtorEq, imp_false] at hn; omega)
  rw [this] at h; cases h

theorem insert_inv {d : Text} {b b' : Buffer} {i : Nat} {x : Text} (hi : Buffer.Inv d b)
    (hle : i ≤ b.data.length) (h : b.insert i x = some b') : Buffer.Inv d b' :=
  invOk_edit (.insert i x) hi h (by simp [Edit.apply, hle])

theorem copy_inv {d : Text} {b b' o : Buffer} (hi : Buffer.Inv d b)
    (h : b.copyBuffer o = some b') : Buffer.Inv d b' := by
  obtain ⟨b1, h1, h2, _⟩ := hi.copy o
  rw [h] at h1; cases h1; exact h2

theorem invOk_remove (i j : Nat) : InvOk (fun b => b.remove i j) :=
  fun _ _ _ _ hi h => remove_inv hi h

theorem invOk_truncate (i : Nat) : InvOk (noRes fun b => b.truncate i) := by
  intro d b a b' hi h
  simp only [noRes, Buffer.truncate, Option.map_map, Option.map_eq_some_iff] at h
  obtain ⟨⟨n, w⟩, h, he⟩ := h
  cases he
  exact remove_inv hi h

theorem invOk_removeNext (i : Nat) : InvOk (fun b =>
    if i < b.numChars then (b.remove i (i + 1)).map ((), ·.2) else some ((), b)) := by
  intro d b a b' hi h
  dsimp only at h
  split at h
  · rw [Option.map_eq_some_iff] at h
    obtain ⟨⟨n, w⟩, h, he⟩ := h
    cases he
    exact remove_inv hi h
  · cases h; exact hi

theorem invOk_accept (o : Option Buffer) (sr : Bool) : InvOk (noRes fun b =>
    match o with
    | some x => if sr then b.copyBuffer x else b.insertFromBuffer x
    | none => some b) := by
  intro d b a b' hi h
  simp only [noRes, Option.map_eq_some_iff] at h
  obtain ⟨w, h, he⟩ := h
  cases he
  split at h
  · split at h
    · exact copy_inv hi h
    · unfold Buffer.insertFromBuffer at h
      dsimp only at h
      split at h
      · exact insert_inv hi (Nat.le_refl _) h
      · cases h
  · cases h; exact hi

theorem invOk_readWord (r : Option (Nat × Nat)) : InvOk (readWord r) := by
  intro d b a b' hi h
  unfold readWord at h
  split at h
  · rw [Option.map_eq_some_iff] at h
    obtain ⟨_, _, h⟩ := h
    cases h; exact hi
  · cases h; exact hi

theorem invOk_undo : InvOk Buffer.undo := by
  intro d b a b' hi h
  obtain ⟨b1, h1, h2, _⟩ := hi.undo
  rw [h] at h1; cases h1; exact h2
theorem invOk_redo : InvOk Buffer.redo := by
  intro d b a b' hi h
  obtain ⟨b1, h1, h2, _⟩ := hi.redo
  rw [h] at h1; cases h1; exact h2
theorem invOk_revert : InvOk Buffer.revert := by
  intro d b a b' hi h
  obtain ⟨b1, h1, h2, _⟩ := hi.revert
  rw [h] at h1; cases h1; exact h2
theorem invOk_start : InvOk fun b => some ((), b.startUndoGroup) := by
  intro d b a b' hi h
  cases h; exact hi.start
theorem invOk_end : InvOk fun b => some ((), b.endUndoGroup) := by
  intro d b a b' hi h
  cases h; exact hi.end

/-- For operations that need no condition. -/
def Lg {α : Type} (m : EdM α) : Prop :=
  ∀ s, Wp m s (fun _ s' => Log s s') (fun _ _ => True) (fun _ => True)

/-- With the cursor inside the line.  (Inserting nothing outside the line breaks the log.) -/
def Logs {α : Type} (m : EdM α) : Prop :=
  ∀ s, Inside s → Wp m s (fun _ s' => Log s s') (fun _ _ => True) (fun _ => True)

theorem Log.refl (s : Ed) : Log s s := ⟨fun _ h => h, fun _ h => h⟩

section
variable {α β : Type}

theorem Lg.logs {m : EdM α} (h : Lg m) : Logs m := fun s _ => h s

theorem logs_bind {m : EdM α} {f : α → EdM β} (h1 : Logs m) (hk : Keeps m)
    (h2 : ∀ a, Logs (f a)) : Logs (m >>= f) := by
  intro s hs
  rw [wp_bind]
  refine wp_mono (wp_and (h1 s hs) (hk s hs)) (fun a s1 h => ?_) (fun _ _ h => trivial)
    (fun _ h => trivial)
  exact wp_mono (h2 a s1 h.2) (fun _ _ h' => h.1.trans h') (fun _ _ h' => h') (fun _ h => h)

theorem logs_bind' {m : EdM α} {f : α → EdM β} (h1 : Logs m) (h2 : ∀ a, Lg (f a)) :
    Logs (m >>= f) := by
  intro s hs
  rw [wp_bind]
  refine wp_mono (h1 s hs) (fun a s1 h => ?_) (fun _ _ h => trivial) (fun _ h => trivial)
  exact wp_mono (h2 a s1) (fun _ _ h' => h.trans h') (fun _ _ h' => h') (fun _ h => h)

theorem logs_bind_ends {m : EdM α} {f : α → EdM β} (h1 : Lg m) (hk : Ends m)
    (h2 : ∀ a, Logs (f a)) : Lg (m >>= f) := by
  intro s
  rw [wp_bind]
  refine wp_mono (wp_and (h1 s) (hk s)) (fun a s1 h => ?_) (fun _ _ h => trivial)
    (fun _ h => trivial)
  exact wp_mono (h2 a s1 h.2) (fun _ _ h' => h.1.trans h') (fun _ _ h' => h') (fun _ h => h)

theorem lg_bind {m : EdM α} {f : α → EdM β} (h1 : Lg m) (h2 : ∀ a, Lg (f a)) :
    Lg (m >>= f) := by
  intro s
  rw [wp_bind]
  refine wp_mono (h1 s) (fun a s1 h => ?_) (fun _ _ h => h) (fun _ h => h)
  exact wp_mono (h2 a s1) (fun _ _ h' => h.trans h') (fun _ _ h' => h') (fun _ h => h)

theorem logs_ite {c : Prop} [Decidable c] {a b : EdM α} (ha : Logs a) (hb : Logs b) :
    Logs (if c then a else b) := by split <;> assumption

theorem lg_pure (a : α) : Lg (pure a : EdM α) := fun s => Log.refl s
theorem lg_get : Lg (M.get : EdM Ed) := fun s => Log.refl s
theorem lg_throw (e : IoErr) : Lg (M.throw e : EdM α) := fun _ => trivial
theorem lg_panic : Lg (M.panic : EdM α) := fun _ => trivial
theorem lg_modify {f : Ed → Ed} (h : ∀ s, Log s (f s)) : Lg (M.modify f) := fun s => h s
theorem lg_ofOption (o : Option α) : Lg (M.ofOption o : EdM α) := by
  intro s
  rw [wp_ofOption]
  exact ⟨fun _ _ => Log.refl s, fun _ => trivial⟩
theorem lg_ite {c : Prop} [Decidable c] {a b : EdM α} (ha : Lg a) (hb : Lg b) :
    Lg (if c then a else b) := by split <;> assumption
theorem lg_curBuf : Lg curBuf := by
  intro s
  rw [wp_curBuf]
  exact ⟨fun _ _ => Log.refl s, fun _ => trivial⟩

/-- What `cur_buf_mut!` does to the logs. -/
theorem workBuf_log {s : Ed} {b b' : Buffer} (hb : workBuf s = some b)
    (h : ∀ d, Buffer.Inv d b → Buffer.Inv d b') : Log s (setCur s b') := by
  unfold workBuf at hb
  unfold setCur
  split at hb
  · refine ⟨fun _ h => h, fun d hi => h d ?_⟩
    split at hb
    · cases hb; exact hi
    · rw [Option.bind_eq_some_iff] at hb
      obtain ⟨e, _, hc⟩ := hb
      exact copy_inv hi hc
  · cases hb
    exact ⟨fun d hi => h d hi, fun _ h => h⟩

theorem lg_curBufMut {f : Buffer → Option (α × Buffer)} (hf : InvOk f) : Lg (curBufMut f) := by
  intro s
  rw [wp_curBufMut]
  exact ⟨fun b a b' hb hf' => workBuf_log hb fun d hi => hf d b a b' hi hf', fun _ => trivial⟩

theorem lg_display (E : Env) : Lg (display E) := by
  intro s
  refine wp_mono (display_wp E s) (fun _ s' h => ?_) (fun _ s' h => trivial) (fun _ _ => trivial)
  have := h.same
  exact ⟨fun d h => by rw [this.newBuf]; exact h, fun d h => by rw [this.histBuf]; exact h⟩

theorem lg_displayImpl (E : Env) (sa : Bool) : Lg (displayImpl E sa) := by
  intro s
  refine wp_mono (displayImpl_wp E sa s) (fun _ s' h => ?_) (fun _ s' h => trivial)
    (fun _ _ => trivial)
  obtain ⟨b, hb, l, c, o, t, rfl⟩ := h.drawn
  exact ⟨fun _ h => h, fun _ h => h⟩

theorem lg_writeTerm (E : Env) (toks : List Tok) : Lg (writeTerm E toks) := by
  intro s
  rw [wp_writeTerm]
  exact ⟨fun _ => ⟨fun _ h => h, fun _ h => h⟩, fun _ => trivial⟩

theorem lg_flush (E : Env) : Lg (flush E) := by
  intro s
  rw [wp_flush]
  exact ⟨fun _ => ⟨fun _ h => h, fun _ h => h⟩, fun _ => trivial⟩

theorem lg_freshen : Lg freshenHistory := by
  refine lg_modify fun s => ?_
  split <;> exact ⟨fun _ h => h, fun _ h => h⟩

theorem lg_refresh (fwd : Bool) : Lg (refreshSearch fwd) :=
  lg_modify fun _ => ⟨fun _ h => h, fun _ h => h⟩

theorem lg_clearSearch : Lg clearSearch := lg_modify fun _ => ⟨fun _ h => h, fun _ h => h⟩

theorem lg_cursorSub (n : Nat) : Lg (cursorSub n) := by
  intro s
  unfold Wp cursorSub
  split
  · rename_i h
    split at h
    · cases h; exact ⟨fun _ h => h, fun _ h => h⟩
    · cases h
  · rename_i h
    split at h <;> cases h
  · trivial

theorem lg_repeatN {m : EdM Unit} (h : Lg m) : ∀ n, Lg (M.repeatN n m)
  | 0 => lg_pure ()
  | n + 1 => lg_bind h fun _ => lg_repeatN h n

theorem lg_forEach {f : β → EdM Unit} (h : ∀ x, Lg (f x)) : ∀ xs, Lg (M.forEach xs f)
  | [] => lg_pure ()
  | x :: xs => lg_bind (h x) fun _ => lg_forEach h xs

end

/-- Go through the program text. -/
macro "lg" : tactic => `(tactic| repeat' (first
  | with_reducible exact lg_display _
  | with_reducible exact lg_displayImpl _ _
  | with_reducible exact lg_writeTerm _ _
  | with_reducible exact lg_flush _
  | with_reducible exact lg_freshen
  | with_reducible exact lg_refresh _
  | with_reducible exact lg_clearSearch
  | with_reducible exact lg_cursorSub _
  | with_reducible exact lg_curBuf
  | with_reducible exact lg_curBufMut invOk_undo
  | with_reducible exact lg_curBufMut invOk_redo
  | with_reducible exact lg_curBufMut invOk_revert
  | with_reducible exact lg_curBufMut (invOk_readWord _)
  | with_reducible exact lg_curBufMut (invOk_removeNext _)
  | with_reducible exact lg_curBufMut (invOk_remove _ _)
  | with_reducible exact lg_curBufMut (invOk_truncate _)
  | with_reducible exact lg_curBufMut (invOk_accept _ _)
  | with_reducible exact lg_get
  | with_reducible exact lg_panic
  | with_reducible exact lg_throw _
  | with_reducible exact lg_pure _
  | with_reducible exact lg_ofOption _
  | with_reducible assumption
  | with_reducible apply lg_bind
  | with_reducible apply lg_ite
  | with_reducible apply lg_repeatN
  | with_reducible apply lg_forEach
  | ((with_reducible apply lg_modify); intro s; exact ⟨fun _ h => h, fun _ h => h⟩)
  | with_reducible intro _
  | split
  | dsimp only))

section
variable (E : Env)

theorem lg_moveEnd : Lg (moveCursorToEndOfLine E) := by unfold moveCursorToEndOfLine; lg
theorem lg_undo : Lg (undo E) := by
  have := lg_moveEnd E
  unfold undo; lg
theorem lg_redo : Lg (redo E) := by
  have := lg_moveEnd E
  unfold redo; lg
theorem lg_revert : Lg (revert E) := by
  have := lg_moveEnd E
  unfold revert; lg
theorem lg_search (f : Bool) : Lg (search E f) := by unfold search; lg
theorem lg_skip : Lg skipCompletionsHint := by unfold skipCompletionsHint; lg
theorem lg_wordBefore (i : Bool) : Lg (getWordBeforeCursor E i) := by
  unfold getWordBeforeCursor wordsAndPos; lg
theorem lg_deleteWord (i : Bool) : Lg (deleteWordBeforeCursor E i) := by
  have := lg_wordBefore E i
  unfold deleteWordBeforeCursor; lg
theorem lg_clear : Lg (clear E) := by unfold clear; lg
theorem lg_moveUp : Lg (moveUp E) := by
  have h1 := lg_search E
  have h2 := lg_moveEnd E
  have h3 : Lg moveUpLoc := by unfold moveUpLoc; lg
  unfold moveUp; lg
  exact h1 _
theorem lg_moveDown : Lg (moveDown E) := by
  have h1 := lg_search E
  have h2 := lg_moveEnd E
  have h3 : Lg moveDownLoc := by unfold moveDownLoc; lg
  unfold moveDown; lg
  exact h1 _
theorem lg_histStart : Lg (moveToStartOfHistory E) := by
  have h2 := lg_moveEnd E
  unfold moveToStartOfHistory; lg
theorem lg_histEnd : Lg (moveToEndOfHistory E) := by
  have h2 := lg_moveEnd E
  unfold moveToEndOfHistory; lg
theorem lg_deleteBefore : Lg (deleteBeforeCursor E) := by unfold deleteBeforeCursor; lg
theorem lg_deleteAfter : Lg (deleteAfterCursor E) := by unfold deleteAfterCursor; lg
theorem lg_deleteAllBefore : Lg (deleteAllBeforeCursor E) := by
  unfold deleteAllBeforeCursor; lg
theorem lg_deleteAllAfter : Lg (deleteAllAfterCursor E) := by
  unfold deleteAllAfterCursor; lg
theorem lg_deleteUntil (p : Nat) : Lg (deleteUntil E p) := by unfold deleteUntil; lg
theorem lg_deleteUntilInclusive (p : Nat) : Lg (deleteUntilInclusive E p) := by
  unfold deleteUntilInclusive; lg
theorem lg_left (n : Nat) : Lg (moveCursorLeft E n) := by unfold moveCursorLeft; lg
theorem lg_right (n : Nat) : Lg (moveCursorRight E n) := by unfold moveCursorRight; lg
theorem lg_to (n : Nat) : Lg (moveCursorTo E n) := by unfold moveCursorTo; lg
theorem lg_home : Lg (moveCursorToStartOfLine E) := by unfold moveCursorToStartOfLine; lg
theorem lg_atEnd : Lg cursorIsAtEndOfLine := by unfold cursorIsAtEndOfLine; lg
theorem lg_accept : Lg (acceptAutosuggestion E) := by
  have h2 := lg_moveEnd E
  unfold acceptAutosuggestion; lg
theorem lg_start (p : Prompt) : Lg (start E p) := by
  have h1 := lg_moveEnd E
  unfold start; lg


theorem logs_insert (cs : Text) : Logs (insertCharsAfterCursor E cs) := by
  intro s hs
  have key : Wp (curBufMut (noRes fun b => b.insert s.cursor cs)) s (fun _ s' => Log s s')
      (fun _ _ => True) (fun _ => True) := by
    rw [wp_curBufMut]
    refine ⟨fun b a b' hb hf => workBuf_log hb fun d hi => ?_, fun _ => trivial⟩
    simp only [noRes, Option.map_eq_some_iff] at hf
    obtain ⟨w, hw, he⟩ := hf
    cases he
    obtain ⟨c, hc, hle⟩ := inside_iff.mp hs
    obtain ⟨c', hc', hd⟩ := curBuf_of_workBuf hb
    rw [hc] at hc'; cases hc'
    exact insert_inv hi (by rw [hd]; exact hle) hw
  have rest : Lg (do
      M.modify fun s : Ed => { s with cursor := s.cursor + cs.length }
      display E) := by lg
  simp only [insertCharsAfterCursor, wp_bind, wp_get, wp_modify]
  refine wp_mono key (fun a s1 h => ?_) (fun _ _ h => h) (fun _ h => h)
  have := rest s1
  simp only [wp_bind, wp_modify] at this
  exact wp_mono this (fun _ _ h' => h.trans h') (fun _ _ h' => h') (fun _ h => h)

theorem lg_isWhole (cs : List Text) (i : Option Nat) : Lg (isWhole cs i) := by unfold isWhole; lg

theorem lg_dropCandidate (w : Bool) : Lg (dropCandidate E w) := by
  have := lg_deleteWord E false
  unfold dropCandidate; lg

theorem keeps_isWhole (cs : List Text) (i : Option Nat) : Keeps (isWhole cs i) := by
  unfold isWhole
  split
  · exact keeps_pure _
  · exact keeps_bind keeps_curBuf fun _ => keeps_bind (keeps_ofOption _) fun _ => keeps_pure _

theorem ends_dropCandidate (w : Bool) : Ends (dropCandidate E w) := by
  unfold dropCandidate
  refine ends_ite ?_ (ends_deleteWord E false)
  intro s
  simp only [wp_bind, wp_modify, wp_curBufMut]
  refine ⟨fun b a b' hb hf => ?_, fun _ => trivial⟩
  rw [inside_iff]
  exact ⟨b', setCur_curBuf _ _, Nat.zero_le _⟩

theorem lg_completeNext (cs : List Text) (i : Option Nat) : Lg (completeNext E cs i) := by
  unfold completeNext
  refine lg_bind (lg_modify fun s => ⟨fun _ h => h, fun _ h => h⟩) fun _ =>
    lg_bind (lg_ofOption _) fun i => lg_bind (lg_isWhole _ _) fun w => ?_
  refine logs_bind_ends (lg_dropCandidate E w) (ends_dropCandidate E w) fun _ => ?_
  refine logs_bind (lg_ofOption _).logs (keeps_ofOption _) fun c => ?_
  exact logs_bind' (logs_insert E c) fun _ => lg_modify fun s => ⟨fun _ h => h, fun _ h => h⟩

theorem logs_completeFirst (c : Text → List Text) : Logs (completeFirst E c) := by
  have hsh : ∀ x : List Text × Option Nat, Lg (do
      M.modify fun s : Ed => { s with showCompletionsHint := some x }
      display E) := fun x => by lg
  have h3 := lg_deleteWord E false
  have h4 := (ends_deleteWord E false).keeps
  unfold completeFirst
  refine logs_bind (lg_wordBefore E false).logs ?_ fun r => ?_
  · unfold getWordBeforeCursor wordsAndPos
    exact keeps_bind (keeps_bind keeps_curBuf fun _ => keeps_bind keeps_get fun _ => keeps_pure _)
      fun _ => keeps_pure _
  refine logs_bind (lg_curBufMut (invOk_readWord r)).logs
    (keeps_curBufMut fun b a b' h => readWord_data h) fun w => ?_
  dsimp only
  split
  · exact (lg_modify fun s => ⟨fun _ h => h, fun _ h => h⟩).logs
  · exact logs_bind (lg_modify fun s => ⟨fun _ h => h, fun _ h => h⟩).logs
      (keeps_modify fun _ h => h) fun _ => logs_bind h3.logs h4 fun _ => logs_insert E _
  · split
    · exact logs_ite (logs_bind h3.logs h4 fun _ => logs_insert E _) (hsh _).logs
    · exact (hsh _).logs

theorem logs_complete (c : Text → List Text) : Logs (complete E c) := by
  unfold complete
  refine logs_bind lg_get.logs keeps_get fun s => ?_
  split
  · exact (lg_bind (lg_completeNext E _ _) fun _ => lg_display E).logs
  · exact logs_completeFirst E c

theorem logs_finishLine : Logs (finishLine E) := by
  unfold finishLine
  refine logs_bind lg_get.logs keeps_get fun s => logs_ite (Lg.logs (by lg)) ?_
  refine logs_bind lg_curBuf.logs keeps_curBuf fun b => logs_ite ?_ (Lg.logs (by lg))
  exact logs_bind' (logs_insert E _) fun _ => lg_pure _

theorem logs_newline : Logs (handleNewline E) := by
  have h1 := lg_accept E
  unfold handleNewline acceptIfSearch
  refine logs_bind (lg_modify fun s => ⟨fun _ h => h, fun _ h => h⟩).logs
    (keeps_modify fun _ h => h) fun _ => logs_bind (Lg.logs (by lg)) ?_ fun _ =>
    logs_bind lg_clearSearch.logs keeps_clearSearch fun _ => logs_finishLine E
  exact keeps_bind keeps_get fun s => keeps_ite (ends_accept E).keeps (keeps_pure _)

theorem lg_setViMode (m : ViPromptMode) : Lg (setViMode m) := by
  refine lg_modify fun s => ?_
  split <;> exact ⟨fun _ h => h, fun _ h => h⟩

theorem lg_setPrompt (p : Prompt) : Lg (setPrompt p) := by
  refine lg_modify fun s => ?_
  split <;> exact ⟨fun _ h => h, fun _ h => h⟩

theorem logs_op (op : EdOp) : Logs (runOp E op) := by
  cases op <;> simp only [runOp]
  case setPrompt p => exact (lg_setPrompt p).logs
  case setViMode p => exact (lg_setViMode p).logs
  case handleNewline => exact logs_bind' (logs_newline E) fun _ => lg_pure _
  case undo => exact (lg_bind (lg_undo E) fun _ => lg_pure _).logs
  case redo => exact (lg_bind (lg_redo E) fun _ => lg_pure _).logs
  case revert => exact (lg_bind (lg_revert E) fun _ => lg_pure _).logs
  case search f => exact (lg_search E f).logs
  case flush => exact (lg_flush E).logs
  case skipCompletionsHint => exact (lg_skip).logs
  case complete c => exact logs_complete E c
  case deleteWordBeforeCursor i => exact (lg_deleteWord E i).logs
  case clear => exact (lg_clear E).logs
  case moveUp => exact (lg_moveUp E).logs
  case moveDown => exact (lg_moveDown E).logs
  case moveToStartOfHistory => exact (lg_histStart E).logs
  case moveToEndOfHistory => exact (lg_histEnd E).logs
  case insert cs => exact logs_insert E cs
  case deleteBeforeCursor => exact (lg_deleteBefore E).logs
  case deleteAfterCursor => exact (lg_deleteAfter E).logs
  case deleteAllBeforeCursor => exact (lg_deleteAllBefore E).logs
  case deleteAllAfterCursor => exact (lg_deleteAllAfter E).logs
  case deleteUntil p => exact (lg_deleteUntil E p).logs
  case deleteUntilInclusive p => exact (lg_deleteUntilInclusive E p).logs
  case moveCursorLeft n => exact (lg_left E n).logs
  case moveCursorRight n => exact (lg_right E n).logs
  case moveCursorTo n => exact (lg_to E n).logs
  case moveCursorToStartOfLine => exact (lg_home E).logs
  case moveCursorToEndOfLine => exact (lg_moveEnd E).logs
  case acceptAutosuggestion => exact (lg_accept E).logs
  case display => exact (lg_display E).logs

end
end Editor
end Liner
