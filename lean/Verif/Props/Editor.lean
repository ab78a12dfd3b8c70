import Verif.Props.Buffer
import Verif.Proof.Sug
import Verif.Props.Witness
/-
Properties of the editor's operations: C28-C33, C37, C38, C62.
-/

namespace Liner.Props
open Liner Liner.Spec Liner.Editor Liner.Wit

/-! ### C28 -/

/-- C28: operations that succeed leave the cursor inside the line. -/
theorem C28_ops_partial (E : Env) (ops : List EdOp) (s s' : Ed) (hs : Inside s)
    (h : runOps E ops s = .ok () s') : Inside s' := by
  have key : ∀ ops s, Inside s →
      Wp (runOps E ops) s (fun _ s' => Inside s') (fun _ _ => True) (fun _ => True) := by
    intro ops
    induction ops with
    | nil => exact fun s hs => hs
    | cons o ops ih =>
      intro s hs
      unfold runOps
      rw [wp_bind]
      exact wp_mono (keeps_op E o s hs) (fun _ s1 h1 => ih s1 h1) (fun _ _ h => h) (fun _ h => h)
  exact wp_ok (key ops s hs) h

example : Inside (fresh ["ls"] "l") := ⟨['l'], rfl, by decide⟩

example : okAnd (runOps Tests.env [.moveUp, .insert ['x'], .moveCursorLeft 5, .deleteAfterCursor, .undo]
    (fresh ["ls"] "l")) (fun _ s => text? s == some ['l', 's', 'x'] && s.cursor == 3) = true := by
  decide +kernel

/-- C28: an operation that ends with a redraw puts the cursor inside the line even if it was not
there, as after an operation that failed. -/
theorem C28_recovers (E : Env) (s s' : Ed)
    (h : display E s = .ok () s' ∨ (∃ n, moveCursorLeft E n s = .ok () s') ∨
      moveCursorToEndOfLine E s = .ok () s' ∨ (∃ p, moveCursorTo E p s = .ok () s') ∨
      (∃ cs, insertCharsAfterCursor E cs s = .ok () s') ∨ deleteBeforeCursor E s = .ok () s' ∨
      deleteAfterCursor E s = .ok () s' ∨ moveUp E s = .ok () s' ∨ moveDown E s = .ok () s' ∨
      (∃ f, search E f s = .ok () s') ∨ clear E s = .ok () s') : Inside s' := by
  rcases h with h | ⟨_, h⟩ | h | ⟨_, h⟩ | ⟨_, h⟩ | h | h | h | h | ⟨_, h⟩ | h
  · exact wp_ok (ends_display E s) h
  · exact wp_ok (ends_left E _ s) h
  · exact wp_ok (ends_moveEnd E s) h
  · exact wp_ok (ends_to E _ s) h
  · exact wp_ok (ends_insert E _ s) h
  · exact wp_ok (ends_deleteBefore E s) h
  · exact wp_ok (ends_deleteAfter E s) h
  · exact wp_ok (ends_moveUp E s) h
  · exact wp_ok (ends_moveDown E s) h
  · exact wp_ok (ends_search E _ s) h
  · exact wp_ok (ends_clear E s) h

/-- C28: whatever Emacs keys are pressed while `read_line` runs, from any editor state. -/
theorem C28_emacs (E : Env) (p : Prompt) (keys : List (Key × (Text → List Text)))
    (k k' : Emacs) (s s' : Ed) (h : session Emacs.keyMap E p keys (k, s) = .ok () (k', s')) :
    Inside s' :=
  (wp_ok (inside_session Emacs.keyMap E (Emacs.uses_core E) (Emacs.uses_init E) p keys (k, s)) h).1

/-- C28: whatever vi keys are pressed while `read_line` runs, from any editor state. -/
theorem C28_vi (E : Env) (p : Prompt) (keys : List (Key × (Text → List Text)))
    (k k' : Vi) (s s' : Ed) (h : session Vi.keyMap E p keys (k, s) = .ok () (k', s')) :
    Inside s' :=
  (wp_ok (inside_session Vi.keyMap E (Vi.uses_core E) (Vi.uses_init E) p keys (k, s)) h).1

example : okAnd (emacs ["ls -l"] [.up, .left, .left, .ctrl 'k', .char 'x'])
    (fun _ t => text? t.2 == some "ls x".toList && t.2.cursor == 4) = true := by decide +kernel

example : okAnd (vi ["ls -l"] [.esc, .char 'k', .char 'b', .char 'x'])
    (fun _ t => text? t.2 == some "ls l".toList && t.2.cursor == 3) = true := by decide +kernel

/-- The terminal fails from the given call on. -/
def failing (n : Nat) : Env := { Tests.env with termSize := fun t => if t < n then some 80 else none }

/-- C28 fails after an I/O error: with the entry "abc" displayed, a search whose redraw fails leaves
the cursor at 3 on the empty new line. -/
theorem C28_io_error_violation : ∃ (E : Env) (s s1 s2 : Ed), Inside s ∧
    runOps E [.moveUp] s = .ok () s1 ∧ runOps E [.search false] s1 = .err .io s2 ∧ ¬ Inside s2 := by
  have h1 : okAnd (runOps (failing 3) [.moveUp] (fresh ["abc"])) (fun _ s1 =>
      errAnd (runOps (failing 3) [.search false] s1) (fun e s2 =>
        e == .io && text? s2 == some [] && s2.cursor == 3)) = true := by decide +kernel
  obtain ⟨_, s1, h1, h2⟩ := of_okAnd h1
  obtain ⟨e, s2, h2, h3⟩ := of_errAnd h2
  simp only [Bool.and_eq_true, beq_iff_eq] at h3
  obtain ⟨⟨rfl, h4⟩, h5⟩ := h3
  refine ⟨_, fresh ["abc"], s1, s2, ⟨[], rfl, by decide⟩, h1, h2, ?_⟩
  rintro ⟨t, ht, hc⟩
  rw [h4] at ht; cases ht
  rw [h5] at hc
  simp at hc

/-! ### C29 -/

theorem Reloaded.unshared {fs : FS} {h h' : History} (hr : Reloaded fs h h') (hs : h.share = false) :
    h' = h := by
  induction hr with
  | refl => rfl
  | step _ hs' ih => rw [ih] at hs'; rw [hs] at hs'; cases hs'

/-- C29: operations never change the stored history, except that a shared history may have been
reloaded from its file; also when an operation fails. -/
theorem C29_ops (E : Env) (ops : List EdOp) (s s' : Ed)
    (h : runOps E ops s = .ok () s' ∨ ∃ e, runOps E ops s = .err e s') :
    Reloaded s.fs s.history s'.history := by
  have key : ∀ ops s, Wp (runOps E ops) s (fun _ s' => HRel s s') (fun _ s' => HRel s s')
      (fun _ => True) := by
    intro ops
    induction ops with
    | nil => exact fun s => HRel.refl s
    | cons o ops ih =>
      intro s
      unfold runOps
      rw [wp_bind]
      have ho : Keep (fun _ => True) HRel HRel (runOp E o) := by
        cases o
        case moveToStartOfHistory =>
          exact (hist_kept E .emacs).op .moveToStartOfHistory (by simp [Allowed])
        all_goals exact (hist_kept E .vi).op _ (by simp [Allowed])
      exact wp_mono (ho s trivial)
        (fun _ s1 h1 => wp_mono (ih s1) (fun _ _ h2 => h1.2.trans h2) (fun _ _ h2 => h1.2.trans h2)
          (fun _ h => h)) (fun _ _ h => h) (fun _ h => h)
  rcases h with h | ⟨e, h⟩
  · exact (wp_ok (key ops s) h).hist
  · exact (wp_err (key ops s) h).hist

/-- C29: with a history that is not shared nothing changes at all. -/
theorem C29_ops_unshared (E : Env) (ops : List EdOp) (s s' : Ed) (hs : s.history.share = false)
    (h : runOps E ops s = .ok () s' ∨ ∃ e, runOps E ops s = .err e s') :
    s'.history = s.history :=
  Reloaded.unshared (C29_ops E ops s s' h) hs

/-- C29: the same for a whole `read_line` with Emacs keys, whether it returns a line or an error. -/
theorem C29_emacs (E : Env) (p : Prompt) (input : List KeyMap.Input) (k k' : Emacs) (s s' : Ed)
    (h : (∃ t, Emacs.keyMap.readLine E p input (k, s) = .ok t (k', s')) ∨
      ∃ e, Emacs.keyMap.readLine E p input (k, s) = .err e (k', s')) :
    Reloaded s.fs s.history s'.history := by
  have key := (hist_kept E .emacs).usesK
    (uses_readLine Emacs.keyMap E (Emacs.uses_core E) (Emacs.uses_init E) p input) (k, s) trivial
  rcases h with ⟨t, h⟩ | ⟨e, h⟩
  · exact (wp_ok key h).2.hist
  · exact (wp_err key h).hist

/-- C29: the same with vi keys. -/
theorem C29_vi (E : Env) (p : Prompt) (input : List KeyMap.Input) (k k' : Vi) (s s' : Ed)
    (h : (∃ t, Vi.keyMap.readLine E p input (k, s) = .ok t (k', s')) ∨
      ∃ e, Vi.keyMap.readLine E p input (k, s) = .err e (k', s')) :
    Reloaded s.fs s.history s'.history := by
  have key := (hist_kept E .vi).usesK
    (uses_readLine Vi.keyMap E (Vi.uses_core E) (Vi.uses_init E) p input) (k, s) trivial
  rcases h with ⟨t, h⟩ | ⟨e, h⟩
  · exact (wp_ok key h).2.hist
  · exact (wp_err key h).hist

example : okAnd (emacs ["ls", "cd"] [.up, .char 'x', .up, .char 'y', .ctrl 'u'])
    (fun _ t => text? t.2 == some [] && t.2.history.buffers.map (·.data) == [['l', 's'], ['c', 'd']])
    = true := by decide +kernel

/-- Outside the claim: `take_exec_buffer`, which ends the use of an editor, empties a stored entry
when one is displayed unchanged. -/
theorem C29_take_exec_buffer_violation : ∃ (s s' : Ed) (t : Text),
    takeExecBuffer s = .ok t s' ∧ s.history.buffers.map (·.data) = [['a']] ∧
      s'.history.buffers.map (·.data) = [[]] :=
  ⟨{ fresh ["a"] with curHistoryLoc := some 0 }, _, _, rfl, rfl, rfl⟩

/-! ### C30 -/

section
variable (E : Env) {s : Ed} {l m r : Text}

/-- C30: inserting. -/
theorem C30_insert_partial (h : At s l r) (hs : SearchOnNewLine s) (cs : Text) :
    Makes (insertCharsAfterCursor E cs) s (l ++ cs) r := makes_of (insert_makes E h hs cs)

/-- C30: Backspace. -/
theorem C30_delete_before_partial {c : Char} (h : At s (l ++ [c]) r) (hs : SearchOnNewLine s) :
    Makes (deleteBeforeCursor E) s l r := makes_of (deleteBefore_makes E h hs)

/-- C30: Backspace at the start of the line. -/
theorem C30_delete_before_start_partial (h : At s [] r) (hs : SearchOnNewLine s) :
    Makes (deleteBeforeCursor E) s [] r := makes_of (deleteBefore_start E h hs)

/-- C30: Delete. -/
theorem C30_delete_after_partial {c : Char} (h : At s l (c :: r)) (hs : SearchOnNewLine s) :
    Makes (deleteAfterCursor E) s l r := makes_of (deleteAfter_makes E h hs)

/-- C30: Delete at the end of the line. -/
theorem C30_delete_after_end_partial (h : At s l []) (hs : SearchOnNewLine s) :
    Makes (deleteAfterCursor E) s l [] := makes_of (deleteAfter_end E h hs)

theorem C30_delete_all_before_partial (h : At s l r) (hs : SearchOnNewLine s) :
    Makes (deleteAllBeforeCursor E) s [] r := makes_of (deleteAllBefore_makes E h hs)

theorem C30_delete_all_after_partial (h : At s l r) (hs : SearchOnNewLine s) :
    Makes (deleteAllAfterCursor E) s l [] := makes_of (deleteAllAfter_makes E h hs)

/-- C30: `delete_until` with a position after the cursor. -/
theorem C30_delete_until_forward_partial (h : At s l (m ++ r)) (hs : SearchOnNewLine s) :
    Makes (deleteUntil E (l.length + m.length)) s l r := makes_of (deleteUntil_forward E h hs rfl)

/-- C30: `delete_until` with a position before the cursor. -/
theorem C30_delete_until_backward_partial (h : At s (l ++ m) r) (hs : SearchOnNewLine s) :
    Makes (deleteUntil E l.length) s l r := makes_of (deleteUntil_backward E h hs rfl)

/-- C30: `delete_until_inclusive` also deletes the character at the later of the two positions. -/
theorem C30_delete_until_inclusive_forward_partial {c : Char} (h : At s l (m ++ c :: r))
    (hs : SearchOnNewLine s) : Makes (deleteUntilInclusive E (l.length + m.length)) s l r :=
  makes_of (deleteUntilInclusive_forward E h hs rfl)

theorem C30_delete_until_inclusive_backward_partial {c : Char} (h : At s (l ++ m) (c :: r))
    (hs : SearchOnNewLine s) : Makes (deleteUntilInclusive E l.length) s l r :=
  makes_of (deleteUntilInclusive_backward E h hs rfl)

/-- C30: `delete_until` past the end of the line panics. -/
theorem C30_delete_until_outside {t : Text} (h : text? s = some t) {p : Nat} (hp : t.length < p) :
    deleteUntil E p s = .panic .op := deleteUntil_panics E h hp

end

example : At { fresh [] "abcd" with cursor := 2 } ['a', 'b'] ['c', 'd'] ∧
    SearchOnNewLine { fresh [] "abcd" with cursor := 2 } := ⟨⟨rfl, rfl⟩, fun _ => rfl⟩

example : okAnd (deleteUntilInclusive Tests.env 1 { fresh [] "abcd" with cursor := 2 })
    (fun _ s => text? s == some ['a', 'd'] && s.cursor == 1) = true := by decide +kernel

/-- C30: the hypothesis on searches holds whenever `read_line` runs with vi keys. -/
theorem C30_hypothesis_vi (E : Env) (p p' : Prompt) (h : History) (fs : FS) (b : Buffer)
    (keys : List (Key × (Text → List Text))) (k k' : Vi) (s' : Ed)
    (hk : session Vi.keyMap E p keys (k, initial p' h fs b) = .ok () (k', s')) :
    SearchOnNewLine s' := by
  have := (wp_ok (tied_session Vi.keyMap E (b := true) (w := .vi) (fun _ => rfl) (Vi.uses_init E) p
    keys (fun k _ => Vi.uses_core E _) _ (initial_td _ _ _ _ _)) hk).td.son rfl
  exact searchOnNew_iff.mpr this

theorem C30_translate {k : Key} (h : k ≠ .alt '<') : KeyMap.translate k ≠ .alt '<' := by
  unfold KeyMap.translate
  split
  · simp
  · exact h

/-- C30: the hypothesis on searches holds whenever `read_line` runs with Emacs keys other than Alt-<. -/
theorem C30_hypothesis_emacs (E : Env) (p p' : Prompt) (h : History) (fs : FS) (b : Buffer)
    (keys : List (Key × (Text → List Text))) (k k' : Emacs) (s' : Ed)
    (hne : ∀ x ∈ keys, x.1 ≠ .alt '<')
    (hk : session Emacs.keyMap E p keys (k, initial p' h fs b) = .ok () (k', s')) :
    SearchOnNewLine s' := by
  have := (wp_ok (tied_session Emacs.keyMap E (b := true) (w := .vi) (fun _ => rfl)
    (Emacs.uses_init E) p keys (fun x hx => Emacs.uses_core_ne E _ (C30_translate (hne x hx))) _
    (initial_td _ _ _ _ _)) hk).td.son rfl
  exact searchOnNew_iff.mpr this

example : okAnd (emacs ["abc"] [.char 'b', .ctrl 'r', .char 'c', .left])
    (fun _ t => t.2.reverseSearch && text? t.2 == some ['b', 'c'] && t.2.cursor == 1) = true := by
  decide +kernel

/-- C30 fails when Alt-< is pressed during a search: the entry "abc" is shown as the current line with
the cursor at its end, but typing `x` then gives the empty line. -/
theorem C30_search_violation : ∃ (E : Env) (s s' : Ed), At s ['a', 'b', 'c'] [] ∧ ¬ s.noEol ∧
    insertCharsAfterCursor E ['x'] s = .ok () s' ∧ At s' [] [] := by
  have h : okAnd (emacs ["abc"] [.ctrl 'r', .alt '<']) (fun _ t =>
      text? t.2 == some ['a', 'b', 'c'] && t.2.cursor == 3 && !t.2.noEol &&
      okAnd (insertCharsAfterCursor Tests.env ['x'] t.2) (fun _ s' =>
        text? s' == some [] && s'.cursor == 0)) = true := by decide +kernel
  obtain ⟨_, t, _, h⟩ := of_okAnd h
  simp only [Bool.and_eq_true, beq_iff_eq, Bool.not_eq_true'] at h
  obtain ⟨⟨⟨h1, h2⟩, h3⟩, h4⟩ := h
  obtain ⟨_, s', h4, h5⟩ := of_okAnd h4
  simp only [Bool.and_eq_true, beq_iff_eq] at h5
  exact ⟨_, t.2, s', ⟨h1, h2⟩, by simp [h3], h4, h5.1, h5.2⟩

/-! ### C31 -/

section
variable (E : Env) {s : Ed} {l m r : Text}

/-- C31: left by `m.length`. -/
theorem C31_left_partial (h : At s (l ++ m) r) (hs : SearchOnNewLine s) :
    Makes (moveCursorLeft E m.length) s l (m ++ r) := makes_of (left_makes E h hs rfl)

/-- C31: left by more than there is. -/
theorem C31_left_clamps_partial (h : At s l r) (hs : SearchOnNewLine s) {n : Nat}
    (hn : l.length ≤ n) : Makes (moveCursorLeft E n) s [] (l ++ r) :=
  makes_of (left_clamps E h hs hn)

/-- C31: right by `m.length`; `Lands` adjusts for `no_eol`. -/
theorem C31_right_partial (h : At s l (m ++ r)) (hs : SearchOnNewLine s) :
    Makes (moveCursorRight E m.length) s (l ++ m) r := makes_of (right_makes E h hs rfl)

/-- C31: right by more than there is. -/
theorem C31_right_clamps_partial (h : At s l r) (hs : SearchOnNewLine s) {n : Nat}
    (hn : r.length ≤ n) : Makes (moveCursorRight E n) s (l ++ r) [] :=
  makes_of (right_clamps E h hs hn)

/-- C31: to a position. -/
theorem C31_to_partial (h : text? s = some (l ++ r)) (hs : SearchOnNewLine s) :
    Makes (moveCursorTo E l.length) s l r := makes_of (to_makes E h hs (.inl rfl))

/-- C31: to a position past the end. -/
theorem C31_to_clamps_partial (h : text? s = some l) (hs : SearchOnNewLine s) {p : Nat}
    (hp : l.length ≤ p) : Makes (moveCursorTo E p) s l [] :=
  makes_of (to_makes E (by rw [h, List.append_nil]) hs (.inr ⟨hp, rfl⟩))

theorem C31_start_partial (h : text? s = some r) (hs : SearchOnNewLine s) :
    Makes (moveCursorToStartOfLine E) s [] r := makes_of (home_makes E h hs)

theorem C31_end_partial (h : text? s = some l) (hs : SearchOnNewLine s) :
    Makes (moveCursorToEndOfLine E) s l [] := makes_of (end_makes E h hs)

end

example : okAnd (moveCursorRight Tests.env 7 { fresh [] "abcd" with cursor := 2 })
    (fun _ s => text? s == some "abcd".toList && s.cursor == 4) = true := by decide +kernel

example : okAnd (moveCursorRight Tests.env 7 { fresh [] "abcd" with cursor := 2, noEol := true })
    (fun _ s => text? s == some "abcd".toList && s.cursor == 3) = true := by decide +kernel

/-- C31 fails after Alt-< and Tab during a search: the line shown is "abc", and moving left gives the
empty line. -/
theorem C31_search_violation : ∃ (E : Env) (s s' : Ed), At s ['a', 'b', 'c'] [] ∧ ¬ s.noEol ∧
    moveCursorLeft E 1 s = .ok () s' ∧ At s' [] [] := by
  have h : okAnd (emacs ["abc"] [.ctrl 'r', .alt '<', .char '\t']) (fun _ t =>
      text? t.2 == some ['a', 'b', 'c'] && t.2.cursor == 3 && !t.2.noEol &&
      okAnd (moveCursorLeft Tests.env 1 t.2) (fun _ s' =>
        text? s' == some [] && s'.cursor == 0)) = true := by decide +kernel
  obtain ⟨_, t, _, h⟩ := of_okAnd h
  simp only [Bool.and_eq_true, beq_iff_eq, Bool.not_eq_true'] at h
  obtain ⟨⟨⟨h1, h2⟩, h3⟩, h4⟩ := h
  obtain ⟨_, s', h4, h5⟩ := of_okAnd h4
  simp only [Bool.and_eq_true, beq_iff_eq] at h5
  exact ⟨_, t.2, s', ⟨h1, h2⟩, by simp [h3], h4, h5.1, h5.2⟩

/-! ### C32 -/

section
variable (E : Env) {s s' : Ed} {b : Buffer} {did : Bool}

/-- C32: undo of the editor is undo of the buffer being edited. -/
theorem C32_undo_partial (h : Edited s b) (hs : SearchOnNewLine s) (hr : undo E s = .ok did s') :
    Applies Buffer.undo s b did s' := wp_ok (undo_applies E h hs) hr

theorem C32_redo_partial (h : Edited s b) (hs : SearchOnNewLine s) (hr : redo E s = .ok did s') :
    Applies Buffer.redo s b did s' := wp_ok (redo_applies E h hs) hr

theorem C32_revert_partial (h : Edited s b) (hs : SearchOnNewLine s)
    (hr : revert E s = .ok did s') : Applies Buffer.revert s b did s' :=
  wp_ok (revert_applies E h hs) hr

/-- C32: if the terminal fails during the redraw, the buffer operation was still done exactly once. -/
theorem C32_undo_error {e : IoErr} (h : Edited s b) (hs : SearchOnNewLine s)
    (hr : undo E s = .err e s') : ∃ did b', b.undo = some (did, b') ∧ Edited s' b' :=
  wp_err (undo_applies E h hs) hr

end

theorem pastNil {d e : Text} (h : Path [] d e) : e = d := by cases h; rfl

theorem revert_text {E : Env} {s s' : Ed} {did : Bool} {d : Text} (hl : s.curHistoryLoc = none)
    (hi : Buffer.Inv d s.newBuf) (hr : revert E s = .ok did s') : text? s' = some d := by
  have he : Edited s s.newBuf := .inl ⟨hl, rfl⟩
  obtain ⟨b', h1, h2, -, -⟩ := C32_revert_partial E he (fun _ => hl) hr
  obtain ⟨b'', h3, h4, h5⟩ := hi.revert
  rw [h1] at h3
  cases h3
  rw [text?_eq]
  have := h4.past
  rw [h5] at this
  exact ⟨b', edited_curBuf h2, (pastNil this)⟩

/-- C32: on the new line revert restores the initial text, after any Emacs keys. -/
theorem C32_revert_new_line_emacs (E : Env) (p p' : Prompt) (h : History) (fs : FS) (t : Text)
    (keys : List (Key × (Text → List Text))) (k k' : Emacs) (s' s'' : Ed) (did : Bool)
    (hk : session Emacs.keyMap E p keys (k, initial p' h fs (.ofText t)) = .ok () (k', s'))
    (hl : s'.curHistoryLoc = none) (hr : revert E s' = .ok did s'') : text? s'' = some t :=
  revert_text hl ((wp_ok (inside_session Emacs.keyMap E (Emacs.uses_core E) (Emacs.uses_init E) p keys
    (k, initial p' h fs (.ofText t))) hk).2.1 t (Buffer.Inv.ofText t)) hr

/-- C32: the same for vi keys. -/
theorem C32_revert_new_line_vi (E : Env) (p p' : Prompt) (h : History) (fs : FS) (t : Text)
    (keys : List (Key × (Text → List Text))) (k k' : Vi) (s' s'' : Ed) (did : Bool)
    (hk : session Vi.keyMap E p keys (k, initial p' h fs (.ofText t)) = .ok () (k', s'))
    (hl : s'.curHistoryLoc = none) (hr : revert E s' = .ok did s'') : text? s'' = some t :=
  revert_text hl ((wp_ok (inside_session Vi.keyMap E (Vi.uses_core E) (Vi.uses_init E) p keys
    (k, initial p' h fs (.ofText t))) hk).2.1 t (Buffer.Inv.ofText t)) hr

example : okAnd (emacs ["abc"] [.char 'x', .ctrl 'a', .ctrl 'k', .char 'y', .up, .down] "init")
    (fun _ t => t.2.curHistoryLoc == none && text? t.2 == some ['y'] &&
      okAnd (revert Tests.env t.2) fun did s => did && text? s == some "init".toList) = true := by
  decide +kernel

/-- C32 fails for history entries: right after Up has shown the entry "abc", undo empties the line
and reports that it undid something, although nothing was edited. -/
theorem C32_undo_entry_violation : ∃ (E : Env) (s s' : Ed), At s ['a', 'b', 'c'] [] ∧
    undo E s = .ok true s' ∧ At s' [] [] := by
  have h : okAnd (emacs ["abc"] [.up]) (fun _ t =>
      text? t.2 == some ['a', 'b', 'c'] && t.2.cursor == 3 &&
      okAnd (undo Tests.env t.2) (fun did s' =>
        did && text? s' == some [] && s'.cursor == 0)) = true := by decide +kernel
  obtain ⟨_, t, _, h⟩ := of_okAnd h
  simp only [Bool.and_eq_true, beq_iff_eq] at h
  obtain ⟨⟨h1, h2⟩, h4⟩ := h
  obtain ⟨_, s', h4, h5⟩ := of_okAnd h4
  simp only [Bool.and_eq_true, beq_iff_eq] at h5
  obtain ⟨⟨rfl, h5⟩, h6⟩ := h5
  exact ⟨_, t.2, s', ⟨h1, h2⟩, h4, h5, h6⟩

/-- C32 fails for history entries: reverting an edited entry always empties the line, after any Emacs
keys, instead of restoring the entry. -/
theorem C32_revert_entry_violation (E : Env) (p p' : Prompt) (h : History) (fs : FS) (b : Buffer)
    (keys : List (Key × (Text → List Text))) (k k' : Emacs) (s' s'' : Ed) (did : Bool) (i : Nat)
    (hk : session Emacs.keyMap E p keys (k, initial p' h fs b) = .ok () (k', s'))
    (hl : s'.curHistoryLoc = some i) (hv : s'.histBufValid = true) (hs : SearchOnNewLine s')
    (hr : revert E s' = .ok did s'') : text? s'' = some [] := by
  have hi : Buffer.Inv [] s'.histBuf := (wp_ok (inside_session Emacs.keyMap E (Emacs.uses_core E)
    (Emacs.uses_init E) p keys (k, initial p' h fs b)) hk).2.2 [] (Buffer.Inv.ofText [])
  have he : Edited s' s'.histBuf := .inr ⟨⟨i, hl⟩, hv, rfl⟩
  obtain ⟨b', h1, h2, -, -⟩ := C32_revert_partial E he hs hr
  obtain ⟨b'', h3, h4, h5⟩ := hi.revert
  rw [h1] at h3
  cases h3
  rw [text?_eq]
  have := h4.past
  rw [h5] at this
  exact ⟨b', edited_curBuf h2, (pastNil this)⟩

example : okAnd (emacs ["abc"] [.up, .char 'x']) (fun _ t => t.2.curHistoryLoc == some 0 &&
    t.2.histBufValid && !t.2.isSearch && okAnd (revert Tests.env t.2) fun _ _ => true) = true := by
  decide +kernel

/-! ### C33 -/

section
variable (E : Env) {s s' : Ed} {l r : Text}

/-- C33: with a list of completions shown, Enter only dismisses it. -/
theorem C33_dismisses_list (hn : ¬ s.reverseSearch) (hn' : ¬ s.forwardSearch)
    (hh : s.showCompletionsHint ≠ none) :
    ∃ s', handleNewline E s = .ok false s' ∧ s'.showCompletionsHint = none ∧
      text? s' = text? s ∧ s'.cursor = s.cursor := by
  have hs : s.isSearch = false := by simp [Ed.isSearch, hn, hn']
  have := (newline_run E hs).mpr (finish_hint E (s := quiet s) hh)
  unfold Wp at this
  split at this
  · rename_i h
    obtain ⟨rfl, h1, h2, h3⟩ := this
    exact ⟨_, h, h1, h2, h3⟩
  · exact this.elim
  · exact this.elim

/-- C33: after a backslash Enter inserts a newline and continues. -/
theorem C33_continues (hn : ¬ s.reverseSearch) (hn' : ¬ s.forwardSearch)
    (hh : s.showCompletionsHint = none) (h : At s (l ++ ['\\']) r) {done : Bool}
    (hr : handleNewline E s = .ok done s') :
    done = false ∧ Lands s.noEol s' (l ++ ['\\', '\n']) r := by
  have hs : s.isSearch = false := by simp [Ed.isSearch, hn, hn']
  have hq : SearchOnNewLine (quiet s) := fun h => by simp [quiet] at h
  exact wp_ok (a := done) (s' := s') ((newline_run E hs).mpr (finish_backslash E (s := quiet s) hq hh h)) hr

/-- C33: otherwise Enter finishes the line. -/
theorem C33_finishes (hn : ¬ s.reverseSearch) (hn' : ¬ s.forwardSearch)
    (hh : s.showCompletionsHint = none) (h : At s l r) (hl : l.getLast? ≠ some '\\') {done : Bool}
    (hr : handleNewline E s = .ok done s') :
    done = true ∧ Lands s.noEol s' (l ++ r) [] := by
  have hs : s.isSearch = false := by simp [Ed.isSearch, hn, hn']
  exact wp_ok (a := done) (s' := s') ((newline_run E hs).mpr (finish_done E (s := quiet s) hh h hl)) hr

end

example : okAnd (handleNewline Tests.env { fresh [] "ab\\cd" with cursor := 3 })
    (fun done s => !done && text? s == some "ab\\\ncd".toList && s.cursor == 4) = true := by
  decide +kernel

example : okAnd (handleNewline Tests.env { fresh [] "ab\\cd" with cursor := 2 })
    (fun done s => done && text? s == some "ab\\cd".toList && s.cursor == 5) = true := by
  decide +kernel

example : okAnd (handleNewline Tests.env { fresh [] "a" with showCompletionsHint := some ([['a']], none) })
    (fun done s => !done && text? s == some ['a'] && s.showCompletionsHint.isNone) = true := by
  decide +kernel

/-- C33 fails during a search: with a list of completions shown, Enter replaces the line by the
selected entry, besides dismissing the list. -/
theorem C33_search_list_violation : ∃ (E : Env) (s s' : Ed),
    s.showCompletionsHint ≠ none ∧ text? s = some ['c'] ∧
    handleNewline E s = .ok false s' ∧ text? s' = some ['a', 'c'] := by
  have h : okAnd (session Emacs.keyMap Tests.env { prompt := ['>', ' '] }
      [plain (.ctrl 'r'), plain (.char 'c'), (.char '\t', fun _ => [['c', 'd'], ['c', 'e']])]
      ({}, fresh ["ac"])) (fun _ t => t.2.showCompletionsHint.isSome && text? t.2 == some ['c'] &&
        okAnd (handleNewline Tests.env t.2) fun done s' =>
          !done && text? s' == some ['a', 'c']) = true := by decide +kernel
  obtain ⟨_, t, _, h⟩ := of_okAnd h
  simp only [Bool.and_eq_true, beq_iff_eq] at h
  obtain ⟨⟨h1, h2⟩, h4⟩ := h
  obtain ⟨_, s', h4, h5⟩ := of_okAnd h4
  simp only [Bool.and_eq_true, beq_iff_eq, Bool.not_eq_true'] at h5
  obtain ⟨rfl, h5⟩ := h5
  exact ⟨_, t.2, s', by rw [← Option.isSome_iff_ne_none]; exact h1, h2, h4, h5⟩

/-- Enter in a search: the selected entry becomes the line first. -/
theorem newline_search {E : Env} {s : Ed} {x : Buffer} {t : Text}
    (hs : s.isSearch = true) (hw : s.showAutosuggestions = true)
    (hx : s.autosuggestion = some x) (ht : text? s = some t) (hh : s.showCompletionsHint = none)
    {Q : Bool → Ed → Prop}
    (hn : s.noEol = false)
    (hq : ∀ s1, At s1 x.data [] → s1.noEol = false → SearchOnNewLine s1 →
      s1.showCompletionsHint = none → Wp (finishLine E) s1 Q (fun _ _ => True) (fun _ => True)) :
    Wp (handleNewline E) s Q (fun _ _ => True) (fun _ => True) := by
  unfold handleNewline acceptIfSearch
  rw [wp_bind, wp_modify, wp_bind, wp_bind, wp_get]
  have hs' : ({ s with historyFresh := false } : Ed).isSearch = true := hs
  rw [if_pos hs']
  refine wp_mono (wp_and (accept_same E (s := { s with historyFresh := false }))
    (accept_some E (s := { s with historyFresh := false }) hw hx ht
      (fun h => by rw [hs'] at h; cases h))) (fun _ s1 h => ?_) (fun _ _ _ => trivial)
      (fun _ _ => trivial)
  obtain ⟨⟨h1, h2⟩, h3⟩ := h
  rw [wp_bind, clearSearch, wp_modify]
  refine hq _ ⟨h3.1, ?_⟩ (h2.trans hn) (clearSearch_onNew _) (h1.trans hh)
  rw [h3.2]
  simp [hn]

/-- C33 in a search, not in vi normal mode: Enter first makes the selected entry the line, then does
the same as outside a search. -/
theorem C33_search {E : Env} {s s' : Ed} {x : Buffer} {t : Text} {done : Bool}
    (hs : s.reverseSearch ∨ s.forwardSearch) (hw : s.showAutosuggestions = true)
    (hx : s.autosuggestion = some x) (ht : text? s = some t) (hh : s.showCompletionsHint = none)
    (hn : s.noEol = false) (hr : handleNewline E s = .ok done s') :
    if x.data.getLast? = some '\\' then done = false ∧ At s' (x.data ++ ['\n']) []
    else done = true ∧ At s' x.data [] := by
  have hs' : s.isSearch = true := by simpa [Ed.isSearch] using hs
  refine wp_ok (Q := fun done s' => if x.data.getLast? = some '\\' then done = false ∧
    At s' (x.data ++ ['\n']) [] else done = true ∧ At s' x.data [])
    (newline_search hs' hw hx ht hh hn fun s1 h1 h2 h3 h4 => ?_) hr
  by_cases hl : x.data.getLast? = some '\\'
  · obtain ⟨l, hl'⟩ := List.getLast?_eq_some_iff.mp hl
    simp only [hl, if_true]
    rw [hl'] at h1 ⊢
    refine wp_mono (finish_backslash E h3 h4 h1) (fun _ s' h => ⟨h.1, h.2.1.trans (by simp), ?_⟩)
      (fun _ _ _ => trivial) (fun _ _ => trivial)
    rw [h.2.2]; simp [h2]
  · simp only [hl, if_false]
    refine wp_mono (finish_done E h4 h1 hl) (fun _ s' h => ⟨h.1, h.2.1.trans (by simp), ?_⟩)
      (fun _ _ _ => trivial) (fun _ _ => trivial)
    rw [h.2.2]; simp [h2]

example : okAnd (emacs ["make clean"] [.ctrl 'r', .char 'c', .char 'l']) (fun _ t =>
    t.2.reverseSearch && t.2.showAutosuggestions && !t.2.noEol && t.2.autosuggestion.isSome &&
    okAnd (handleNewline Tests.env t.2) fun done s =>
      done && text? s == some "make clean".toList) = true := by decide +kernel

/-! ### C37 -/

/-- `x` is the newest entry that properly extends the non-empty text `t`; `none` if there is none. -/
def Suggests (entries : List Text) (t : Text) : Option Text → Prop
  | some x => t ≠ [] ∧ ∃ older newer, entries = older ++ x :: newer ∧ (t <+: x ∧ t ≠ x) ∧
      ∀ y ∈ newer, ¬ (t <+: y ∧ t ≠ y)
  | none => t = [] ∨ ∀ x ∈ entries, ¬ (t <+: x ∧ t ≠ x)

theorem suggests_of {h : History} {b : Buffer} {o : Option Buffer}
    (ho : o = (h.getNewestMatch (some h.buffers.length) b).bind (h.buffers[·]?)) :
    Suggests (texts h) b.data (o.map (·.data)) := by
  have hlen : h.buffers.length = (texts h).length := by simp [texts]
  cases hm : h.getNewestMatch (some h.buffers.length) b with
  | none =>
    rw [hm] at ho
    cases ho
    rw [C17_no_match] at hm
    simp only [Option.getD_some, hlen] at hm
    by_cases hb : b.data = []
    · exact .inl hb
    · refine .inr fun x hx hp => ?_
      obtain ⟨i, hi, he⟩ := List.mem_iff_getElem.mp hx
      exact hm i hi ⟨x, by rw [List.getElem?_eq_getElem hi, he], hb, hp⟩
  | some i =>
    rw [hm] at ho
    rw [C17_newest_match] at hm
    simp only [Option.getD_some, hlen] at hm
    obtain ⟨h1, ⟨x, hx, hb, hp⟩, h3⟩ := hm
    have ho' : o.map (·.data) = some x := by
      rw [ho, Option.bind_some, ← hx, texts, List.getElem?_map]
    rw [ho']
    obtain ⟨hi, he⟩ := List.getElem?_eq_some_iff.mp hx
    refine ⟨hb, (texts h).take i, (texts h).drop (i + 1), ?_, hp, fun y hy hpy => ?_⟩
    · rw [← he, List.getElem_cons_drop, List.take_append_drop]
    · obtain ⟨j, hj, hje⟩ := List.mem_iff_getElem.mp hy
      rw [List.getElem_drop] at hje
      rw [List.length_drop] at hj
      refine h3 (i + 1 + j) (by omega) (by omega) ⟨y, ?_, hb, hpy⟩
      rw [List.getElem?_eq_getElem (by omega), hje]

/-- What holds whenever `read_line` waits for a key. -/
structure AtKey (s : Ed) : Prop where
  tied : Tied false s
  show' : s.showAutosuggestions = true
  inside : Inside s

theorem atKey_emacs {E : Env} {p p' : Prompt} {h : History} {fs : FS} {b : Buffer}
    {keys : List (Key × (Text → List Text))} {k k' : Emacs} {s' : Ed}
    (hk : session Emacs.keyMap E p keys (k, initial p' h fs b) = .ok () (k', s')) : AtKey s' where
  tied := wp_ok (a := ()) (s' := (k', s')) (tied_session Emacs.keyMap E (b := false) (w := .emacs) (by simp)
    (Emacs.uses_init E) p keys (fun k _ => Emacs.uses_core E _) _ (initial_td _ _ _ _ _)) hk
  show' := (wp_ok ((sets_kept E .emacs).usesK (uses_session Emacs.keyMap E (Emacs.uses_init E) p keys
    (fun k _ => Emacs.uses_core E _)) _ trivial) hk).2.showSug
  inside := C28_emacs E p keys k k' _ s' hk

theorem atKey_vi {E : Env} {p p' : Prompt} {h : History} {fs : FS} {b : Buffer}
    {keys : List (Key × (Text → List Text))} {k k' : Vi} {s' : Ed}
    (hk : session Vi.keyMap E p keys (k, initial p' h fs b) = .ok () (k', s')) : AtKey s' where
  tied := wp_ok (a := ()) (s' := (k', s')) (tied_session Vi.keyMap E (b := false) (w := .vi) (by simp)
    (Vi.uses_init E) p keys (fun k _ => Vi.uses_core E _) _ (initial_td _ _ _ _ _)) hk
  show' := (wp_ok ((sets_kept E .vi).usesK (uses_session Vi.keyMap E (Vi.uses_init E) p keys
    (fun k _ => Vi.uses_core E _)) _ trivial) hk).2.showSug
  inside := C28_vi E p keys k k' _ s' hk

theorem AtKey.suggests {s : Ed} (h : AtKey s) (hs : ¬ s.reverseSearch ∧ ¬ s.forwardSearch)
    (hl : s.curHistoryLoc = none) :
    ∃ t, text? s = some t ∧ Suggests (texts s.history) t (s.autosuggestion.map (·.data)) := by
  refine ⟨s.newBuf.data, by simp [text?, Ed.curBuf?, hl], ?_⟩
  exact suggests_of (h.tied.sug.newest (by simp [Ed.isSearch, hs.1, hs.2]) hl h.show')

/-- C37: after any Emacs keys. -/
theorem C37_emacs (E : Env) (p p' : Prompt) (h : History) (fs : FS) (b : Buffer)
    (keys : List (Key × (Text → List Text))) (k k' : Emacs) (s' : Ed)
    (hk : session Emacs.keyMap E p keys (k, initial p' h fs b) = .ok () (k', s'))
    (hs : ¬ s'.reverseSearch ∧ ¬ s'.forwardSearch) (hl : s'.curHistoryLoc = none) :
    ∃ t, text? s' = some t ∧ Suggests (texts s'.history) t (s'.autosuggestion.map (·.data)) :=
  (atKey_emacs hk).suggests hs hl

/-- C37: after any vi keys. -/
theorem C37_vi (E : Env) (p p' : Prompt) (h : History) (fs : FS) (b : Buffer)
    (keys : List (Key × (Text → List Text))) (k k' : Vi) (s' : Ed)
    (hk : session Vi.keyMap E p keys (k, initial p' h fs b) = .ok () (k', s'))
    (hs : ¬ s'.reverseSearch ∧ ¬ s'.forwardSearch) (hl : s'.curHistoryLoc = none) :
    ∃ t, text? s' = some t ∧ Suggests (texts s'.history) t (s'.autosuggestion.map (·.data)) :=
  (atKey_vi hk).suggests hs hl

theorem tied_ops (E : Env) : ∀ ops s, Tied false s →
    Wp (runOps E ops) s (fun _ s' => Tied false s' ∧ s'.showAutosuggestions = s.showAutosuggestions)
      (fun _ _ => True) (fun _ => True) := by
  intro ops
  induction ops with
  | nil => exact fun s hs => ⟨hs, rfl⟩
  | cons o ops ih =>
    intro s hs
    unfold runOps
    rw [wp_bind]
    have h1 : Keep (Tied false) (fun _ _ => True) (fun _ _ => True) (runOp E o) := by
      cases o
      case moveToStartOfHistory =>
        exact (tied_kept E .emacs false (by simp)).op .moveToStartOfHistory (by simp [Allowed])
      all_goals exact (tied_kept E .vi false (by simp)).op _ (by simp [Allowed])
    have h2 : Keep (fun _ => True) (fun s s' => s'.showAutosuggestions = s.showAutosuggestions)
        (fun _ _ => True) (runOp E o) := by
      have h3 : ∀ w, Keep (fun _ => True) (Sets w) (Sets w) (runOp E o) →
          Keep (fun _ => True) (fun s s' => s'.showAutosuggestions = s.showAutosuggestions)
            (fun _ _ => True) (runOp E o) := fun w h s hs =>
        wp_mono (h s hs) (fun _ _ h => ⟨trivial, h.2.showSug⟩) (fun _ _ _ => trivial) (fun _ h => h)
      cases o
      case moveToStartOfHistory =>
        exact h3 .emacs ((sets_kept E .emacs).op .moveToStartOfHistory (by simp [Allowed]))
      all_goals exact h3 .vi ((sets_kept E .vi).op _ (by simp [Allowed]))
    exact wp_mono (wp_and (h1 s hs) (h2 s trivial))
      (fun _ s1 h => wp_mono (ih s1 h.1.1) (fun _ _ h3 => ⟨h3.1, h3.2.trans h.2.2⟩) (fun _ _ h => h)
        (fun _ h => h)) (fun _ _ _ => trivial) (fun _ _ => trivial)

/-- C37: after any operations called on a new editor. -/
theorem C37_ops (E : Env) (p p' : Prompt) (h : History) (fs : FS) (b : Buffer) (ops : List EdOp)
    (s1 s' : Ed) (h1 : start E p (initial p' h fs b) = .ok () s1) (h2 : runOps E ops s1 = .ok () s')
    (hs : ¬ s'.reverseSearch ∧ ¬ s'.forwardSearch) (hl : s'.curHistoryLoc = none) :
    ∃ t, text? s' = some t ∧ Suggests (texts s'.history) t (s'.autosuggestion.map (·.data)) := by
  have ht := initial_td false p' h fs b
  have t1 : Tied false s1 := ⟨(wp_ok (td_start E p _ ht) h1 :), wp_ok (es_start E p _ ht) h1⟩
  have t2 := wp_ok (tied_ops E ops s1 t1) h2
  have w1 := (wp_ok ((sets_kept E .vi).uses (.start p) _ trivial) h1).2.showSug
  refine ⟨s'.newBuf.data, by simp [text?, Ed.curBuf?, hl], ?_⟩
  exact suggests_of (t2.1.sug.newest (by simp [Ed.isSearch, hs.1, hs.2]) hl (t2.2.trans w1))

example : okAnd (emacs ["make all", "make", "ls"] (chars "mak")) (fun _ t =>
    t.2.curHistoryLoc == none && !t.2.isSearch && text? t.2 == some "mak".toList &&
    t.2.autosuggestion.map (·.data) == some "make".toList) = true := by decide +kernel

example : okAnd (emacs ["make all", "make", "ls"] (chars "make")) (fun _ t =>
    t.2.autosuggestion.map (·.data) == some "make all".toList) = true := by decide +kernel

example : okAnd (emacs ["make all", "make", "ls"] (chars "make all")) (fun _ t =>
    t.2.autosuggestion.isNone) = true := by decide +kernel

/-! ### C38 -/

theorem AtKey.accept {s : Ed} (h : AtKey s) (E : Env) :
    (∀ s', acceptAutosuggestion E s = .ok () s' → ¬ s'.reverseSearch ∧ ¬ s'.forwardSearch ∧
      ∀ t, text? s = some t → Lands s.noEol s' ((s.autosuggestion.map (·.data)).getD t) []) ∧
    acceptAutosuggestion E s ≠ .panic .op := by
  obtain ⟨t, ht, hc⟩ := h.inside
  have hp : s.isSearch = false → ∀ x, s.autosuggestion = some x → t <+: x.data := by
    intro hs x hx
    obtain ⟨b, hb, hpre⟩ := h.tied.sug.pre hs x hx
    obtain ⟨b', hb', rfl⟩ := text?_eq.mp ht
    rw [hb] at hb'; cases hb'
    exact hpre
  refine ⟨fun s' hr => ?_, fun hr => ?_⟩
  · have he := wp_ok (accept_ends E) hr
    simp only [Ed.isSearch, Bool.or_eq_false_iff] at he
    refine ⟨by simp [he.1], by simp [he.2], fun t' ht' => ?_⟩
    rw [ht] at ht'; cases ht'
    cases hx : s.autosuggestion with
    | none => exact (wp_ok (accept_none E hx ht) hr :)
    | some x => exact (wp_ok (accept_some E h.show' hx ht (fun hs => hp hs x hx)) hr :)
  · exact wp_panic' (accept_no_op E ht hp) hr rfl

/-- C38: accepting the suggestion after any Emacs keys.  The line becomes the suggestion, or stays what
it is if there is none, the cursor goes to its end and the search is over; nothing panics, except
possibly the redraw (C42). -/
theorem C38_emacs_partial (E : Env) (p p' : Prompt) (h : History) (fs : FS) (b : Buffer)
    (keys : List (Key × (Text → List Text))) (k k' : Emacs) (s : Ed)
    (hk : session Emacs.keyMap E p keys (k, initial p' h fs b) = .ok () (k', s)) :
    (∀ s', acceptAutosuggestion E s = .ok () s' → ¬ s'.reverseSearch ∧ ¬ s'.forwardSearch ∧
      ∀ t, text? s = some t → Lands s.noEol s' ((s.autosuggestion.map (·.data)).getD t) []) ∧
    acceptAutosuggestion E s ≠ .panic .op := (atKey_emacs hk).accept E

/-- C38: accepting the suggestion after any vi keys. -/
theorem C38_vi_partial (E : Env) (p p' : Prompt) (h : History) (fs : FS) (b : Buffer)
    (keys : List (Key × (Text → List Text))) (k k' : Vi) (s : Ed)
    (hk : session Vi.keyMap E p keys (k, initial p' h fs b) = .ok () (k', s)) :
    (∀ s', acceptAutosuggestion E s = .ok () s' → ¬ s'.reverseSearch ∧ ¬ s'.forwardSearch ∧
      ∀ t, text? s = some t → Lands s.noEol s' ((s.autosuggestion.map (·.data)).getD t) []) ∧
    acceptAutosuggestion E s ≠ .panic .op := (atKey_vi hk).accept E

example : okAnd (emacs ["make all"] (chars "ma")) (fun _ t =>
    okAnd (acceptAutosuggestion Tests.env t.2) fun _ s =>
      text? s == some "make all".toList && s.cursor == 8) = true := by decide +kernel

example : okAnd (emacs ["make all"] ([.ctrl 'r'] ++ chars "all")) (fun _ t =>
    okAnd (acceptAutosuggestion Tests.env t.2) fun _ s =>
      text? s == some "make all".toList && !s.isSearch) = true := by decide +kernel

/-! ### C62: reverting the whole history -/

theorem revert_mapM : ∀ {ds : List Text} {bs : List Buffer}, List.Forall₂ Reach ds bs →
    ∃ bs', bs.mapM (fun b : Buffer => b.revert.map Prod.snd) = some bs' ∧ bs'.map (·.data) = ds ∧ ∀ b ∈ bs', b.actions = []
  | _, _, .nil => ⟨[], rfl, rfl, by simp⟩
  | _, _, .cons (l₁ := ds) (l₂ := bs) h t => by
    obtain ⟨b', h1, h2, h3⟩ := C05_revert _ _ h
    obtain ⟨bs', h4, h5, h6⟩ := revert_mapM t
    refine ⟨b' :: bs', ?_, ?_, ?_⟩
    · simp [h1, h4]
    · simp [h2, h5]
    · intro b hb
      rcases List.mem_cons.mp hb with rfl | hb
      · exact h3
      · exact h6 b hb

/-- `revert_all_history` gives every entry the text it was created with, and nothing to undo, and changes nothing else of
the history. -/
theorem C62_revert_all (h : History) (ds : List Text) (hr : List.Forall₂ Reach ds h.buffers) :
    ∃ bs, revertAllHistory h = some { h with buffers := bs } ∧ bs.map (·.data) = ds ∧ ∀ b ∈ bs, b.actions = [] := by
  obtain ⟨bs, h1, h2, h3⟩ := revert_mapM hr
  exact ⟨bs, by unfold revertAllHistory; rw [h1]; rfl, h2, h3⟩

/-- An entry that was edited and one that was not. -/
example : ∃ b, List.Forall₂ Reach [['a'], ['b', 'c']] ({ buffers := [.ofText ['a'], b] } : History).buffers ∧ b.data = ['c'] :=
  ⟨_, .cons (.init _) (.cons (.op (.edit (.remove 0 1)) (.init _) (by show Option.isSome _ = true; decide) rfl) .nil), by decide⟩

end Liner.Props
