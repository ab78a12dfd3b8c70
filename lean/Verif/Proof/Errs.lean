import Verif.Proof.Uses
/-
Which errors are returned.  With a working terminal the operations return none, and otherwise only
I/O errors.
-/

namespace Liner
open Liner.Spec

/-- Only the errors in `A` are returned. -/
structure Errs {σ α : Type} (A : IoErr → Prop) (m : M σ α) : Prop where
  only : ∀ s e s', m s = .err e s' → A e

section
variable {σ α β : Type} {A : IoErr → Prop}

theorem Errs.wp {m : M σ α} (h : Errs A m) (s : σ) :
    Wp m s (fun _ _ => True) (fun e _ => A e) (fun _ => True) := by
  unfold Wp
  cases hm : m s with
  | ok => trivial
  | err e s' => exact h.only s e s' hm
  | panic => trivial

theorem errs_of {m : M σ α}
    (h : ∀ s, Wp m s (fun _ _ => True) (fun e _ => A e) (fun _ => True)) : Errs A m := by
  refine ⟨fun s e s' hm => ?_⟩
  exact wp_err (h s) hm

theorem errs_pure (a : α) : Errs A (pure a : M σ α) := ⟨fun s e s' h => by cases h⟩
theorem errs_get : Errs A (M.get : M σ σ) := ⟨fun s e s' h => by cases h⟩
theorem errs_modify (f : σ → σ) : Errs A (M.modify f) := ⟨fun s e s' h => by cases h⟩
theorem errs_panic (w : Site) : Errs A (M.panicAt w : M σ α) := ⟨fun s e s' h => by cases h⟩
theorem errs_panic' : Errs A (M.panic : M σ α) := ⟨fun s e s' h => by cases h⟩
theorem errs_ofOption (o : Option α) : Errs A (M.ofOption o : M σ α) :=
  ⟨fun s e s' h => by cases o <;> cases h⟩
theorem errs_ofOptionRedraw (o : Option α) : Errs A (M.ofOptionRedraw o : M σ α) :=
  ⟨fun s e s' h => by cases o <;> cases h⟩
theorem errs_ofOptionRows (o : Option α) : Errs A (M.ofOptionRows o : M σ α) :=
  ⟨fun s e s' h => by cases o <;> cases h⟩

theorem errs_bind {m : M σ α} {f : α → M σ β} (h1 : Errs A m) (h2 : ∀ a, Errs A (f a)) :
    Errs A (m >>= f) := by
  refine errs_of fun s => ?_
  rw [wp_bind]
  exact wp_mono (h1.wp s) (fun a s1 _ => (h2 a).wp s1) (fun _ _ h => h) (fun _ h => h)

theorem errs_ite {c : Prop} [Decidable c] {a b : M σ α} (h1 : Errs A a) (h2 : Errs A b) :
    Errs A (if c then a else b) := by split <;> assumption

theorem errs_repeatN {m : M σ Unit} (h : Errs A m) (n : Nat) : Errs A (M.repeatN n m) :=
  errs_of fun s => wp_mono (wp_repeatN (I := fun _ => True) (fun s _ => h.wp s) n s trivial)
    (fun _ _ h => h) (fun _ _ h => h) (fun _ h => h)

theorem errs_forEach {f : β → M σ Unit} {xs : List β} (h : ∀ x ∈ xs, Errs A (f x)) :
    Errs A (M.forEach xs f) :=
  errs_of fun s => wp_mono (wp_forEach (I := fun _ => True) (fun x hx s _ => (h x hx).wp s) s trivial)
    (fun _ _ h => h) (fun _ _ h => h) (fun _ h => h)

theorem errs_ed {κ : Type} {m : EdM α} (h : Errs A m) : Errs A (KM.ed m : KM κ α) :=
  errs_of fun t => by rw [wp_ed]; exact h.wp t.2

theorem errs_getK {κ : Type} : Errs A (KM.getK : KM κ κ) := ⟨fun s e s' h => by cases h⟩
theorem errs_modK {κ : Type} (f : κ → κ) : Errs A (KM.modK f) := ⟨fun s e s' h => by cases h⟩

end

namespace Editor

/-- The terminal works: its size can be read and every write succeeds. -/
structure Works (E : Env) : Prop where
  size : ∀ n, (E.termSize n).isSome = true
  write : ∀ n, E.writeOk n = true

/-- Either the terminal works, or I/O errors are allowed. -/
abbrev Io (E : Env) (A : IoErr → Prop) : Prop := Works E ∨ A .io

section
variable {A : IoErr → Prop}

theorem errs_curBuf : Errs A curBuf := .mk fun s e s' h => by
  unfold curBuf at h; split at h <;> cases h

theorem errs_curBufMut {α : Type} (f : Buffer → Option (α × Buffer)) : Errs A (curBufMut f) :=
  .mk fun s e s' h => by
    unfold curBufMut at h
    split at h
    · cases h
    · split at h <;> cases h

theorem errs_currentAutosuggestion : Errs A currentAutosuggestion := .mk fun s e s' h => by
  unfold currentAutosuggestion at h
  split at h
  · cases h
  · dsimp only at h
    split at h
    · cases h
    · split at h <;> cases h

theorem errs_searchPrompt (E : Env) : Errs A (searchPrompt E) := .mk fun s e s' h => by
  unfold searchPrompt at h
  split at h
  · split at h <;> cases h
  · cases h

theorem errs_cursorSub (n : Nat) : Errs A (cursorSub n) := .mk fun s e s' h => by
  unfold cursorSub at h; split at h <;> cases h

end

/-- Decompose a computation. -/
macro "errs" : tactic => `(tactic|
  repeat' first
    | assumption
    | exact errs_pure _ | exact errs_get | exact errs_modify _ | exact errs_panic _
    | exact errs_panic' | exact errs_ofOption _ | exact errs_ofOptionRedraw _
    | exact errs_ofOptionRows _ | exact errs_getK | exact errs_modK _
    | exact errs_curBuf | exact errs_curBufMut _
    | exact errs_currentAutosuggestion | exact errs_searchPrompt _ | exact errs_cursorSub _
    | apply errs_ed
    | (with_reducible apply errs_bind) | intro _ | split | dsimp only)

section
variable {E : Env} {A : IoErr → Prop} (w : Io E A)
include w

theorem errs_terminalSize : Errs A (terminalSize E) := .mk fun s e s' h => by
  unfold terminalSize at h
  rcases w with w | w
  · have := w.size s.tick
    split at h
    · cases h
    · rename_i hn; rw [hn] at this; cases this
  · split at h <;> cases h
    exact w

theorem errs_writeTerm (t : List Tok) : Errs A (writeTerm E t) := .mk fun s e s' h => by
  unfold writeTerm at h
  rcases w with w | w
  · rw [if_pos (w.write _)] at h; cases h
  · split at h <;> cases h
    exact w

theorem errs_flush : Errs A (flush E) := .mk fun s e s' h => by
  unfold flush at h
  rcases w with w | w
  · rw [if_pos (w.write _)] at h; cases h
  · split at h <;> cases h
    exact w

theorem errs_displayImpl (sa : Bool) : Errs A (displayImpl E sa) := by
  have h1 := errs_terminalSize w
  have h2 := errs_writeTerm w
  have h3 := errs_flush w
  unfold displayImpl terminalWidth completionPart printCompletionList
  errs
  exact h2 _

theorem errs_display : Errs A (display E) := by
  have := errs_displayImpl w true
  unfold display refreshSearch
  errs

theorem errs_end : Errs A (moveCursorToEndOfLine E) := by
  have := errs_display w
  unfold moveCursorToEndOfLine
  errs

theorem errs_search (f : Bool) : Errs A (search E f) := by
  have := errs_display w
  unfold search freshenHistory refreshSearch
  errs

theorem errs_insert (cs : Text) : Errs A (insertCharsAfterCursor E cs) := by
  have := errs_display w
  unfold insertCharsAfterCursor
  errs

theorem errs_deleteWord (ig : Bool) : Errs A (deleteWordBeforeCursor E ig) := by
  have := errs_display w
  unfold deleteWordBeforeCursor getWordBeforeCursor wordsAndPos
  errs

theorem errs_complete (comp : Text → List Text) : Errs A (complete E comp) := by
  have h1 := errs_display w
  have h2 := errs_insert w
  have h3 := errs_deleteWord w
  unfold complete completeNext completeFirst getWordBeforeCursor wordsAndPos isWhole dropCandidate
  errs
  all_goals first | exact h2 _ | exact h3 _

theorem errs_moveUp : Errs A (moveUp E) := by
  have h1 := errs_search w
  have h2 := errs_end w
  unfold moveUp freshenHistory moveUpLoc
  errs
  all_goals exact h1 _

theorem errs_moveDown : Errs A (moveDown E) := by
  have h1 := errs_search w
  have h2 := errs_end w
  unfold moveDown moveDownLoc
  errs
  all_goals exact h1 _

theorem errs_moveCursorTo (p : Nat) : Errs A (moveCursorTo E p) := by
  have := errs_display w
  unfold moveCursorTo
  errs

theorem errs_accept : Errs A (acceptAutosuggestion E) := by
  have h2 := errs_end w
  unfold acceptAutosuggestion clearSearch
  errs

theorem errs_handleNewline : Errs A (handleNewline E) := by
  have h1 := errs_accept w
  have h2 := errs_insert w ['\n']
  have h3 := errs_writeTerm w [.text ['\r', '\n']]
  have h4 := errs_displayImpl w false
  unfold handleNewline acceptIfSearch clearSearch finishLine
  errs

theorem errs_undo : Errs A (undo E) := by
  have h1 := errs_display w
  have h2 := errs_end w
  unfold undo
  errs

theorem errs_redo : Errs A (redo E) := by
  have h1 := errs_display w
  have h2 := errs_end w
  unfold redo
  errs

theorem errs_revert : Errs A (revert E) := by
  have h1 := errs_display w
  have h2 := errs_end w
  unfold revert
  errs

theorem errs_start (p : Prompt) : Errs A (start E p) := by
  have h1 := errs_display w
  have h2 := errs_end w
  have h3 := errs_writeTerm w
  unfold start
  errs
  all_goals first | exact h3 _ | exact errs_repeatN (h3 _) _

theorem errs_op (o : EdOp) : Errs A (runOp E o) := by
  have h1 := errs_display w
  have h2 := errs_end w
  have h3 := errs_flush w
  have h4 := errs_handleNewline w
  have h5 := errs_undo w
  have h6 := errs_redo w
  have h7 := errs_revert w
  cases o <;> unfold runOp <;> try exact errs_bind (by assumption) (fun _ => errs_pure _)
  case search f => exact errs_search w f
  case complete c => exact errs_complete w c
  case deleteWordBeforeCursor c => exact errs_deleteWord w c
  case moveUp => exact errs_moveUp w
  case moveDown => exact errs_moveDown w
  case insert cs => exact errs_insert w cs
  case moveCursorTo p => exact errs_moveCursorTo w p
  case acceptAutosuggestion => exact errs_accept w
  all_goals try unfold skipCompletionsHint
  all_goals try unfold clear clearSearch
  all_goals try unfold moveToStartOfHistory
  all_goals try unfold moveToEndOfHistory
  all_goals try unfold deleteBeforeCursor
  all_goals try unfold deleteAfterCursor
  all_goals try unfold deleteAllBeforeCursor
  all_goals try unfold deleteAllAfterCursor
  all_goals try unfold deleteUntil
  all_goals try unfold deleteUntilInclusive
  all_goals try unfold moveCursorLeft
  all_goals try unfold moveCursorRight
  all_goals try unfold moveCursorToStartOfLine
  all_goals try unfold setViMode
  all_goals try unfold setPrompt
  all_goals errs

end
end Editor

open Editor

section
variable {E : Env} {A T : IoErr → Prop} {α κ : Type} {w : Who}

theorem errs_onBuf (f : Buffer → Buffer) : Errs A (Vi.onBuf f) := errs_curBufMut _

theorem errs_displayUnwrap : Errs A (Vi.displayUnwrap E) := .mk fun s e s' h => by
  unfold Vi.displayUnwrap at h
  split at h <;> cases h

theorem errs_uses (hE : Io E A) {m : EdM α} (hm : Uses E w m) : Errs A m := by
  induction hm with
  | op o ho => exact errs_op hE o
  | newline => exact errs_handleNewline hE
  | undo => exact errs_undo hE
  | redo => exact errs_redo hE
  | revert => exact errs_revert hE
  | start p => exact errs_start hE p
  | startGroup hw => exact errs_onBuf _
  | endGroup hw => exact errs_onBuf _
  | setNoEol hw b => exact errs_modify _
  | displayUnwrap hw => exact errs_displayUnwrap
  | curBuf => exact errs_curBuf
  | get => exact errs_get
  | panic => exact errs_panic'
  | ofOption o => exact errs_ofOption o
  | pure a => exact errs_pure a
  | bind _ _ ih1 ih2 => exact errs_bind ih1 ih2

theorem errs_usesK (hE : Io E A) (hT : ∀ e, T e → A e) {m : KM κ α} (hm : UsesK E w T m) :
    Errs A m := by
  induction hm with
  | ed hm => exact errs_ed (errs_uses hE hm)
  | step f => exact .mk fun s e s' h => by cases h
  | throw e he => exact .mk fun s e s' h => by cases h; exact hT _ he
  | panic => exact errs_panic'
  | ofOption o => exact errs_ofOption o
  | bind _ _ ih1 ih2 => exact errs_bind ih1 ih2

end
end Liner
