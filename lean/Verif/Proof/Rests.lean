import Verif.Proof.Uses
/-
Where the cursor may rest: inside the line, and with `noEol` on a character.
-/

namespace Liner
namespace Editor
open Liner.Spec

/-- The cursor is inside the line; with `noEol` it is on a character, or the line is empty. -/
def Rests (s : Ed) : Prop :=
  ∃ b, s.curBuf? = some b ∧ s.cursor ≤ b.data.length ∧
    (s.noEol = true → s.cursor < b.data.length ∨ s.cursor = 0)

theorem clamp_rests (e : Bool) (len c : Nat) :
    clampCursor e len c ≤ len ∧ (e = true → clampCursor e len c < len ∨ clampCursor e len c = 0) := by
  refine ⟨clampCursor_le _ _ _, fun he => ?_⟩
  subst he
  unfold clampCursor
  dsimp only
  split <;> split <;> simp_all <;> omega

/-! ### The cursor -/

/-- The operation leaves the cursor where it may rest, wherever it was before. -/
def Fixes {α : Type} (m : EdM α) : Prop :=
  ∀ s, Wp m s (fun _ s' => Rests s') (fun _ _ => True) (fun _ => True)

/-- The operation leaves the cursor where it may rest if it was there. -/
def Holds {α : Type} (m : EdM α) : Prop :=
  ∀ s, Rests s → Wp m s (fun _ s' => Rests s') (fun _ _ => True) (fun _ => True)

section
variable {α β : Type}

theorem Fixes.holds {m : EdM α} (h : Fixes m) : Holds m := fun s _ => h s

theorem fixes_bind {m : EdM α} {f : α → EdM β} (h2 : ∀ a, Fixes (f a)) : Fixes (m >>= f) := by
  intro s
  rw [wp_bind]
  exact wp_mono (wp_trivial (m := m) (s := s)) (fun a s1 _ => h2 a s1) (fun _ _ h => h)
    (fun _ h => h)

theorem fixes_bind_keeps {m : EdM α} {f : α → EdM β} (h1 : Fixes m) (h2 : ∀ a, Holds (f a)) :
    Fixes (m >>= f) := by
  intro s
  rw [wp_bind]
  exact wp_mono (h1 s) (fun a s1 h => h2 a s1 h) (fun _ _ h => h) (fun _ h => h)

theorem fixes_ite {c : Prop} [Decidable c] {a b : EdM α} (ha : Fixes a) (hb : Fixes b) :
    Fixes (if c then a else b) := by split <;> assumption

theorem fixes_panic : Fixes (M.panic : EdM α) := fun _ => trivial

theorem fixes_display (E : Env) : Fixes (display E) := by
  intro s
  refine wp_mono (display_wp E s) (fun _ s' h => ?_) (fun _ _ _ => trivial) (fun _ _ => trivial)
  obtain ⟨b, sug, hb, _, h⟩ := h.ex
  refine ⟨b, by rw [drawn_curBuf h, hb], ?_⟩
  have he := (pre_same s).noEol
  obtain ⟨l, c, o, t, rfl⟩ := h
  exact ⟨clampCursor_le _ _ _, fun h => (clamp_rests _ _ _).2 (he.symm.trans h)⟩

theorem fixes_displayImpl (E : Env) (sa : Bool) : Fixes (displayImpl E sa) := by
  intro s
  refine wp_mono (displayImpl_wp E sa s) (fun _ s' h => ?_) (fun _ _ _ => trivial)
    (fun _ _ => trivial)
  obtain ⟨b, hb, l, c, o, t, rfl⟩ := h.drawn
  exact ⟨b, hb, clamp_rests _ _ _⟩

theorem holds_bind {m : EdM α} {f : α → EdM β} (h1 : Holds m) (h2 : ∀ a, Holds (f a)) :
    Holds (m >>= f) := by
  intro s hs
  rw [wp_bind]
  exact wp_mono (h1 s hs) (fun a s1 h => h2 a s1 h) (fun _ _ h => h) (fun _ h => h)

theorem holds_pure (a : α) : Holds (pure a : EdM α) := fun _ hs => hs
theorem holds_get : Holds (M.get : EdM Ed) := fun _ hs => hs
theorem holds_throw (e : IoErr) : Holds (M.throw e : EdM α) := fun _ _ => trivial
theorem holds_panic : Holds (M.panic : EdM α) := fun _ _ => trivial
theorem holds_modify {f : Ed → Ed} (h : ∀ s, Rests s → Rests (f s)) : Holds (M.modify f) :=
  fun s hs => h s hs
theorem holds_ofOption (o : Option α) : Holds (M.ofOption o : EdM α) := by
  intro s hs
  rw [wp_ofOption]
  exact ⟨fun _ _ => hs, fun _ => trivial⟩
theorem holds_ite {c : Prop} [Decidable c] {a b : EdM α} (ha : Holds a) (hb : Holds b) :
    Holds (if c then a else b) := by split <;> assumption
theorem holds_curBuf : Holds curBuf := by
  intro s hs
  rw [wp_curBuf]
  exact ⟨fun _ _ => hs, fun _ => trivial⟩

/-- Changes of the buffer that keep its text. -/
theorem holds_curBufMut {f : Buffer → Option (α × Buffer)}
    (hf : ∀ b a b', f b = some (a, b') → b'.data = b.data) : Holds (curBufMut f) := by
  intro s hs
  rw [wp_curBufMut]
  refine ⟨fun b a b' hb hf' => ?_, fun _ => trivial⟩
  obtain ⟨c, hc, hle⟩ := hs
  obtain ⟨c', hc', hd⟩ := curBuf_of_workBuf hb
  rw [hc] at hc'; cases hc'
  refine ⟨b', setCur_curBuf _ _, ?_⟩
  have h1 : (setCur s b').cursor = s.cursor := by unfold setCur; split <;> rfl
  have h2 : (setCur s b').noEol = s.noEol := by unfold setCur; split <;> rfl
  rw [h1, h2, hf _ _ _ hf', hd]
  exact hle

theorem holds_writeTerm (E : Env) (toks : List Tok) : Holds (writeTerm E toks) := by
  intro s hs
  rw [wp_writeTerm]
  exact ⟨fun _ => hs, fun _ => trivial⟩

theorem holds_flush (E : Env) : Holds (flush E) := by
  intro s hs
  rw [wp_flush]
  exact ⟨fun _ => hs, fun _ => trivial⟩

theorem holds_repeatN {m : EdM Unit} (h : Holds m) : ∀ n, Holds (M.repeatN n m)
  | 0 => holds_pure ()
  | n + 1 => holds_bind h fun _ => holds_repeatN h n

theorem holds_forEach {f : β → EdM Unit} (h : ∀ x, Holds (f x)) : ∀ xs, Holds (M.forEach xs f)
  | [] => holds_pure ()
  | x :: xs => holds_bind (h x) fun _ => holds_forEach h xs

end

macro "fixes" : tactic => `(tactic| repeat' (first
  | with_reducible exact fixes_display _
  | with_reducible exact fixes_displayImpl _ _
  | with_reducible exact fixes_panic
  | with_reducible assumption
  | with_reducible apply fixes_bind
  | with_reducible apply fixes_ite
  | with_reducible intro _
  | split
  | dsimp only))

section
variable (E : Env)

theorem fixes_moveEnd : Fixes (moveCursorToEndOfLine E) := by unfold moveCursorToEndOfLine; fixes
theorem fixes_search (f : Bool) : Fixes (search E f) := by unfold search; fixes
theorem fixes_deleteWord (i : Bool) : Fixes (deleteWordBeforeCursor E i) := by
  unfold deleteWordBeforeCursor; fixes
theorem fixes_insert (cs : Text) : Fixes (insertCharsAfterCursor E cs) := by
  unfold insertCharsAfterCursor; fixes
theorem fixes_clear : Fixes (clear E) := by unfold clear; fixes
theorem fixes_moveUp : Fixes (moveUp E) := by
  have h1 := fixes_search E
  have h2 := fixes_moveEnd E
  unfold moveUp; fixes
  exact h1 _
theorem fixes_moveDown : Fixes (moveDown E) := by
  have h1 := fixes_search E
  have h2 := fixes_moveEnd E
  unfold moveDown; fixes
  exact h1 _
theorem fixes_histStart : Fixes (moveToStartOfHistory E) := by
  have h2 := fixes_moveEnd E
  unfold moveToStartOfHistory; fixes
theorem fixes_histEnd : Fixes (moveToEndOfHistory E) := by
  have h2 := fixes_moveEnd E
  unfold moveToEndOfHistory; fixes
theorem fixes_deleteBefore : Fixes (deleteBeforeCursor E) := by unfold deleteBeforeCursor; fixes
theorem fixes_deleteAfter : Fixes (deleteAfterCursor E) := by unfold deleteAfterCursor; fixes
theorem fixes_deleteAllBefore : Fixes (deleteAllBeforeCursor E) := by
  unfold deleteAllBeforeCursor; fixes
theorem fixes_deleteAllAfter : Fixes (deleteAllAfterCursor E) := by
  unfold deleteAllAfterCursor; fixes
theorem fixes_deleteUntil (p : Nat) : Fixes (deleteUntil E p) := by unfold deleteUntil; fixes
theorem fixes_deleteUntilInclusive (p : Nat) : Fixes (deleteUntilInclusive E p) := by
  unfold deleteUntilInclusive; fixes
theorem fixes_left (n : Nat) : Fixes (moveCursorLeft E n) := by unfold moveCursorLeft; fixes
theorem fixes_right (n : Nat) : Fixes (moveCursorRight E n) := by unfold moveCursorRight; fixes
theorem fixes_to (n : Nat) : Fixes (moveCursorTo E n) := by unfold moveCursorTo; fixes
theorem fixes_home : Fixes (moveCursorToStartOfLine E) := by unfold moveCursorToStartOfLine; fixes
theorem fixes_accept : Fixes (acceptAutosuggestion E) := by
  have h2 := fixes_moveEnd E
  unfold acceptAutosuggestion; fixes

theorem fixes_move (did : Bool) :
    Fixes (if did then moveCursorToEndOfLine E else display E) := by
  have h2 := fixes_moveEnd E
  fixes

theorem fixes_undo : Fixes (undo E) := by
  unfold undo
  refine fixes_bind fun did => ?_
  have h2 := (fixes_moveEnd E)
  split
  · exact fixes_bind_keeps h2 fun _ => holds_pure _
  · exact fixes_bind_keeps (fixes_display E) fun _ => holds_pure _
theorem fixes_redo : Fixes (redo E) := by
  unfold redo
  refine fixes_bind fun did => ?_
  have h2 := (fixes_moveEnd E)
  split
  · exact fixes_bind_keeps h2 fun _ => holds_pure _
  · exact fixes_bind_keeps (fixes_display E) fun _ => holds_pure _
theorem fixes_revert : Fixes (revert E) := by
  unfold revert
  refine fixes_bind fun did => ?_
  have h2 := (fixes_moveEnd E)
  split
  · exact fixes_bind_keeps h2 fun _ => holds_pure _
  · exact fixes_bind_keeps (fixes_display E) fun _ => holds_pure _

theorem holds_skip : Holds skipCompletionsHint := holds_modify fun _ h => h
theorem holds_clearSearch : Holds clearSearch := holds_modify fun _ h => h

theorem fixes_completeNext (cs : List Text) (i : Option Nat) : Fixes (completeNext E cs i) := by
  unfold completeNext
  refine fixes_bind fun _ => fixes_bind fun _ => fixes_bind fun _ => fixes_bind fun _ =>
    fixes_bind fun c => fixes_bind_keeps (fixes_insert E c) fun _ => ?_
  exact holds_modify fun _ h => h

theorem holds_completeFirst (c : Text → List Text) : Holds (completeFirst E c) := by
  unfold completeFirst
  refine holds_bind ?_ fun r => holds_bind (holds_curBufMut fun b a b' h => readWord_data h) fun w => ?_
  · unfold getWordBeforeCursor wordsAndPos
    exact holds_bind (holds_bind holds_curBuf fun _ => holds_bind holds_get fun _ => holds_pure _)
      fun _ => holds_pure _
  · have h1 := fixes_insert E
    have h2 : ∀ x : List Text × Option Nat, Fixes (do
        M.modify fun s : Ed => { s with showCompletionsHint := some x }
        display E) := fun x => fixes_bind fun _ => fixes_display E
    dsimp only
    split
    · exact holds_modify fun _ h => h
    · exact (fixes_bind fun _ => fixes_bind fun _ => h1 _).holds
    · split
      · exact (fixes_ite (fixes_bind fun _ => h1 _) (h2 _)).holds
      · exact (h2 _).holds

theorem holds_complete (c : Text → List Text) : Holds (complete E c) := by
  unfold complete
  refine holds_bind holds_get fun s => ?_
  split
  · exact (fixes_bind fun _ => fixes_display E).holds
  · exact holds_completeFirst E c

theorem holds_finishLine : Holds (finishLine E) := by
  unfold finishLine
  refine holds_bind holds_get fun s => holds_ite ?_ ?_
  · exact holds_bind (holds_modify fun _ h => h) fun _ => holds_pure _
  · refine holds_bind holds_curBuf fun b => holds_ite ?_ ?_
    · exact holds_bind (fixes_insert E _).holds fun _ => holds_pure _
    · refine (fixes_bind fun _ => fixes_bind_keeps (fixes_displayImpl E _) fun _ => ?_).holds
      exact holds_bind (holds_writeTerm E _) fun _ =>
        holds_bind (holds_modify fun _ h => h) fun _ => holds_pure _

theorem holds_newline : Holds (handleNewline E) := by
  unfold handleNewline acceptIfSearch
  refine holds_bind (holds_modify fun _ h => h) fun _ => holds_bind ?_ fun _ =>
    holds_bind holds_clearSearch fun _ => holds_finishLine E
  exact holds_bind holds_get fun s => holds_ite (fixes_accept E).holds (holds_pure _)

theorem holds_atEnd : Holds cursorIsAtEndOfLine := by
  unfold cursorIsAtEndOfLine
  refine holds_bind holds_curBuf fun b => holds_bind holds_get fun s => ?_
  exact holds_ite (holds_ite holds_panic (holds_pure _)) (holds_pure _)

theorem fixes_start (p : Prompt) : Fixes (start E p) := by
  unfold start; fixes

/-! ### All operations -/

theorem holds_setViMode (m : ViPromptMode) : Holds (setViMode m) := by
  refine holds_modify fun s h => ?_
  split <;> exact h

theorem holds_setPrompt (p : Prompt) : Holds (setPrompt p) := by
  refine holds_modify fun s h => ?_
  split <;> exact h

theorem holds_op (op : EdOp) : Holds (runOp E op) := by
  cases op <;> simp only [runOp]
  case setPrompt p => exact holds_setPrompt p
  case setViMode p => exact holds_setViMode p
  case handleNewline => exact holds_bind (holds_newline E) fun _ => holds_pure _
  case undo => exact holds_bind (fixes_undo E).holds fun _ => holds_pure _
  case redo => exact holds_bind (fixes_redo E).holds fun _ => holds_pure _
  case revert => exact holds_bind (fixes_revert E).holds fun _ => holds_pure _
  case search f => exact (fixes_search E f).holds
  case flush => exact holds_flush E
  case skipCompletionsHint => exact holds_skip
  case complete c => exact holds_complete E c
  case deleteWordBeforeCursor i => exact (fixes_deleteWord E i).holds
  case clear => exact (fixes_clear E).holds
  case moveUp => exact (fixes_moveUp E).holds
  case moveDown => exact (fixes_moveDown E).holds
  case moveToStartOfHistory => exact (fixes_histStart E).holds
  case moveToEndOfHistory => exact (fixes_histEnd E).holds
  case insert cs => exact (fixes_insert E cs).holds
  case deleteBeforeCursor => exact (fixes_deleteBefore E).holds
  case deleteAfterCursor => exact (fixes_deleteAfter E).holds
  case deleteAllBeforeCursor => exact (fixes_deleteAllBefore E).holds
  case deleteAllAfterCursor => exact (fixes_deleteAllAfter E).holds
  case deleteUntil p => exact (fixes_deleteUntil E p).holds
  case deleteUntilInclusive p => exact (fixes_deleteUntilInclusive E p).holds
  case moveCursorLeft n => exact (fixes_left E n).holds
  case moveCursorRight n => exact (fixes_right E n).holds
  case moveCursorTo n => exact (fixes_to E n).holds
  case moveCursorToStartOfLine => exact (fixes_home E).holds
  case moveCursorToEndOfLine => exact (fixes_moveEnd E).holds
  case acceptAutosuggestion => exact (fixes_accept E).holds
  case display => exact (fixes_display E).holds

end
end Editor
end Liner
