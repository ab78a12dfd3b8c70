import Verif.Proof.Uses
/-
Facts about the fields of the editor that hold whenever `read_line` runs: during a search the new line
is being edited (unless Alt-< was used), the copy of a history entry is only in use while an entry is
displayed, and the matches of a search are those of the new line unless the line was just changed.
-/

namespace Liner
namespace Editor
open Liner.Spec

/-- The matches of a search are those of the new line and one of them is selected, if there is any. -/
def Idx (s : Ed) : Prop :=
  s.historySubsetIndex = s.history.searchIndex s.newBuf ∧ s.histBufValid = false ∧
  (s.historySubsetIndex = [] ∨ ∃ i, s.historySubsetLoc = some i ∧ i < s.historySubsetIndex.length)

theorem refreshed_idx (fwd : Bool) (s : Ed) : Idx (refreshed fwd s) := by
  refine ⟨rfl, rfl, ?_⟩
  by_cases hi : (s.history.searchIndex s.newBuf) = []
  · exact .inl hi
  · right
    have hpos := List.length_pos_iff.mpr hi
    have he : (s.history.searchIndex s.newBuf).isEmpty = false := by simpa using hi
    simp only [refreshed, he, Bool.false_eq_true, if_false]
    split
    · rename_i t ht
      refine ⟨_, rfl, ?_⟩
      cases hr : refreshLoc fwd t (s.history.searchIndex s.newBuf) 0 with
      | none => simp only [Option.getD_none]; split <;> omega
      | some j =>
        have := refreshLoc_lt _ _ _ _ _ hr
        simpa using this
    · exact ⟨_, rfl, by split <;> omega⟩

/-- The first fact is only claimed when `b` is set. -/
structure Td (b : Bool) (s : Ed) : Prop where
  son : b = true → s.isSearch = true → s.curHistoryLoc = none
  valid : s.curHistoryLoc = none → s.histBufValid = false
  idx : s.isSearch = true → s.bufferChanged = false → Idx s

/-- `m` keeps them. -/
def KTd {α : Type} (b : Bool) (m : EdM α) : Prop :=
  ∀ s, Td b s → Wp m s (fun _ s' => Td b s') (fun _ _ => True) (fun _ => True)

section
variable {b : Bool} {α β : Type}

theorem Td.mk_cursor {s : Ed} (h : Td b s) (c : Nat) : Td b { s with cursor := c } :=
  ⟨h.son, h.valid, h.idx⟩

theorem td_bind {m : EdM α} {f : α → EdM β} (h1 : KTd b m) (h2 : ∀ a, KTd b (f a)) :
    KTd b (m >>= f) := by
  intro s hs
  rw [wp_bind]
  exact wp_mono (h1 s hs) (fun a s1 h => h2 a s1 h) (fun _ _ h => h) (fun _ h => h)

theorem td_pure (a : α) : KTd b (pure a : EdM α) := fun _ hs => hs
theorem td_get : KTd b (M.get : EdM Ed) := fun _ hs => hs
theorem td_throw (e : IoErr) : KTd b (M.throw e : EdM α) := fun _ _ => trivial
theorem td_panic : KTd b (M.panic : EdM α) := fun _ _ => trivial
theorem td_modify {f : Ed → Ed} (h : ∀ s, Td b s → Td b (f s)) : KTd b (M.modify f) :=
  fun s hs => h s hs
theorem td_ofOption (o : Option α) : KTd b (M.ofOption o : EdM α) := by
  intro s hs
  rw [wp_ofOption]
  exact ⟨fun _ _ => hs, fun _ => trivial⟩
theorem td_ite {c : Prop} [Decidable c] {m n : EdM α} (ha : KTd b m) (hb : KTd b n) :
    KTd b (if c then m else n) := by split <;> assumption
theorem td_curBuf : KTd b curBuf := by
  intro s hs
  rw [wp_curBuf]
  exact ⟨fun _ _ => hs, fun _ => trivial⟩

theorem Td.setCur {s : Ed} (h : Td b s) (w : Buffer) : Td b (setCur s w) := by
  unfold Editor.setCur
  split
  · rename_i i hi
    exact ⟨h.son, fun hn => by simp [hi] at hn, fun _ hn => by cases hn⟩
  · exact ⟨h.son, h.valid, fun _ hn => by cases hn⟩

theorem td_curBufMut (f : Buffer → Option (α × Buffer)) : KTd b (curBufMut f) := by
  intro s hs
  rw [wp_curBufMut]
  exact ⟨fun _ _ _ _ _ => hs.setCur _, fun _ => trivial⟩

theorem Td.pre {s : Ed} (h : Td b s) : Td b (pre s) := by
  unfold Editor.pre
  split
  · exact ⟨fun _ _ => rfl, fun _ => rfl, fun _ _ => refreshed_idx _ _⟩
  · exact h

theorem Shown.td {s s' : Ed} (h : Shown s s') (hs : Td b s) : Td b s' := by
  obtain ⟨b, sug, _, _, l, c, o, t, rfl⟩ := h.ex
  exact ⟨hs.pre.son, hs.pre.valid, hs.pre.idx⟩

theorem td_display (E : Env) : KTd b (display E) := fun s hs =>
  wp_mono (display_wp E s) (fun _ _ h => h.td hs) (fun _ _ _ => trivial) (fun _ _ => trivial)

theorem td_displayImpl (E : Env) (sa : Bool) : KTd b (displayImpl E sa) := by
  intro s hs
  refine wp_mono (displayImpl_wp E sa s) (fun _ s' h => ?_) (fun _ _ _ => trivial) (fun _ _ => trivial)
  obtain ⟨w, hb, l, c, o, t, rfl⟩ := h.drawn
  exact ⟨hs.son, hs.valid, hs.idx⟩

theorem td_writeTerm (E : Env) (toks : List Tok) : KTd b (writeTerm E toks) := by
  intro s hs
  rw [wp_writeTerm]
  exact ⟨fun _ => ⟨hs.son, hs.valid, hs.idx⟩, fun _ => trivial⟩

theorem td_flush (E : Env) : KTd b (flush E) := by
  intro s hs
  rw [wp_flush]
  exact ⟨fun _ => ⟨hs.son, hs.valid, hs.idx⟩, fun _ => trivial⟩

theorem td_refresh (fwd : Bool) : KTd b (refreshSearch fwd) :=
  td_modify fun _ _ => ⟨fun _ _ => rfl, fun _ => rfl, fun _ _ => refreshed_idx _ _⟩

theorem td_clearSearch : KTd b clearSearch :=
  td_modify fun _ h => ⟨fun _ h' => by simp [Ed.isSearch] at h', h.valid, fun h' => by simp [Ed.isSearch] at h'⟩

theorem td_cursorSub (n : Nat) : KTd b (cursorSub n) := by
  intro s hs
  unfold Wp cursorSub
  split
  · rename_i h
    split at h
    · cases h; exact hs.mk_cursor _
    · cases h
  · trivial
  · trivial

theorem td_repeatN {m : EdM Unit} (h : KTd b m) : ∀ n, KTd b (M.repeatN n m)
  | 0 => td_pure ()
  | n + 1 => td_bind h fun _ => td_repeatN h n

theorem td_forEach {f : β → EdM Unit} (h : ∀ x, KTd b (f x)) : ∀ xs, KTd b (M.forEach xs f)
  | [] => td_pure ()
  | x :: xs => td_bind (h x) fun _ => td_forEach h xs

end

macro "td" : tactic => `(tactic| repeat' (first
  | with_reducible exact td_display _
  | with_reducible exact td_displayImpl _ _
  | with_reducible exact td_writeTerm _ _
  | with_reducible exact td_flush _
  | with_reducible exact td_refresh _
  | with_reducible exact td_clearSearch
  | with_reducible exact td_cursorSub _
  | with_reducible exact td_curBuf
  | with_reducible exact td_curBufMut _
  | with_reducible exact td_get
  | with_reducible exact td_panic
  | with_reducible exact td_throw _
  | with_reducible exact td_pure _
  | with_reducible exact td_ofOption _
  | with_reducible assumption
  | with_reducible apply td_bind
  | with_reducible apply td_ite
  | with_reducible apply td_repeatN
  | with_reducible apply td_forEach
  | ((with_reducible apply td_modify); intro s hs; exact ⟨hs.son, hs.valid, hs.idx⟩)
  | with_reducible intro _
  | split
  | dsimp only))

section
variable {b : Bool} (E : Env)

theorem td_moveEnd : KTd b (moveCursorToEndOfLine E) := by unfold moveCursorToEndOfLine; td
theorem td_undo : KTd b (undo E) := by
  have := td_moveEnd (b := b) E
  unfold undo; td
theorem td_redo : KTd b (redo E) := by
  have := td_moveEnd (b := b) E
  unfold redo; td
theorem td_revert : KTd b (revert E) := by
  have := td_moveEnd (b := b) E
  unfold revert; td
/-- What `search` does before the redraw. -/
theorem td_searchStep (f : Bool) {s : Ed} (hs : Td b s) {Q : Unit → Ed → Prop}
    (hq : ∀ s1, Td b s1 → Wp (display E) s1 Q (fun _ _ => True) (fun _ => True)) :
    Wp (search E f) s Q (fun _ _ => True) (fun _ => True) := by
  unfold search
  rw [wp_bind, wp_get]
  split
  · simp only [wp_bind, freshenHistory, refreshSearch, wp_modify]
    exact hq _ ⟨fun _ _ => rfl, fun _ => rfl, fun _ _ => refreshed_idx _ _⟩
  · rename_i hn
    split
    · rename_i hne
      rw [wp_bind, wp_modify]
      refine hq _ ⟨hs.son, hs.valid, fun h1 h2 => ?_⟩
      obtain ⟨h3, h4, h5⟩ := hs.idx h1 h2
      refine ⟨h3, h4, ?_⟩
      rcases h5 with h5 | ⟨i, h5, h6⟩
      · exact .inl h5
      · right
        dsimp only
        rw [h5]
        dsimp only
        split
        · split
          · exact ⟨_, rfl, by omega⟩
          · exact ⟨_, rfl, by omega⟩
        · split
          · exact ⟨_, rfl, by omega⟩
          · exact ⟨_, rfl, by omega⟩
    · exact hq _ hs
theorem td_search (f : Bool) : KTd b (search E f) := fun _ hs =>
  td_searchStep E f hs fun s1 h1 => td_display E s1 h1
theorem td_wordBefore (i : Bool) : KTd b (getWordBeforeCursor E i) := by
  unfold getWordBeforeCursor wordsAndPos; td
theorem td_deleteWord (i : Bool) : KTd b (deleteWordBeforeCursor E i) := by
  have := td_wordBefore (b := b) E i
  unfold deleteWordBeforeCursor; td
theorem td_insert (cs : Text) : KTd b (insertCharsAfterCursor E cs) := by
  unfold insertCharsAfterCursor; td
theorem td_completeNext (cs : List Text) (i : Option Nat) : KTd b (completeNext E cs i) := by
  have h1 := td_deleteWord (b := b) E false
  have h2 := td_insert (b := b) E
  have h3 : KTd b (isWhole cs i) := by unfold isWhole; td
  unfold completeNext dropCandidate
  td
  all_goals exact h2 _
theorem td_completeFirst (c : Text → List Text) : KTd b (completeFirst E c) := by
  have h1 := td_deleteWord (b := b) E false
  have h2 := td_insert (b := b) E
  have h3 := td_wordBefore (b := b) E
  unfold completeFirst
  td
  all_goals first | exact h2 _ | exact h3 _
theorem td_complete (c : Text → List Text) : KTd b (complete E c) := by
  have h1 := td_completeNext (b := b) E
  have h2 := td_completeFirst (b := b) E
  unfold complete
  td
  all_goals first | exact h1 _ _ | exact h2 _
theorem td_clear : KTd b (clear E) := by unfold clear; td
theorem td_deleteBefore : KTd b (deleteBeforeCursor E) := by unfold deleteBeforeCursor; td
theorem td_deleteAfter : KTd b (deleteAfterCursor E) := by unfold deleteAfterCursor; td
theorem td_deleteAllBefore : KTd b (deleteAllBeforeCursor E) := by
  unfold deleteAllBeforeCursor; td
theorem td_deleteAllAfter : KTd b (deleteAllAfterCursor E) := by
  unfold deleteAllAfterCursor; td
theorem td_deleteUntil (p : Nat) : KTd b (deleteUntil E p) := by unfold deleteUntil; td
theorem td_deleteUntilInclusive (p : Nat) : KTd b (deleteUntilInclusive E p) := by
  unfold deleteUntilInclusive; td
theorem td_left (n : Nat) : KTd b (moveCursorLeft E n) := by unfold moveCursorLeft; td
theorem td_right (n : Nat) : KTd b (moveCursorRight E n) := by unfold moveCursorRight; td
theorem td_to (n : Nat) : KTd b (moveCursorTo E n) := by unfold moveCursorTo; td
theorem td_home : KTd b (moveCursorToStartOfLine E) := by unfold moveCursorToStartOfLine; td
theorem td_accept : KTd b (acceptAutosuggestion E) := by
  have h2 := td_moveEnd (b := b) E
  unfold acceptAutosuggestion; td
theorem td_newline : KTd b (handleNewline E) := by
  have h1 := td_accept (b := b) E
  have h2 := td_insert (b := b) E
  unfold handleNewline acceptIfSearch finishLine; td
  all_goals exact h2 _
theorem td_start (p : Prompt) : KTd b (start E p) := by
  have h1 := td_moveEnd (b := b) E
  unfold start; td

/-- Outside a search, with the copy not in use. -/
structure Free (s : Ed) : Prop where
  search : s.isSearch = false
  valid : s.histBufValid = false

theorem Free.td {s : Ed} (h : Free s) : Td b s :=
  ⟨fun _ h' => (by rw [h.search] at h'; cases h'), fun _ => h.valid,
    fun h' => (by rw [h.search] at h'; cases h')⟩

theorem free_moveUpLoc {s : Ed} (h : Free s) :
    Wp moveUpLoc s (fun _ s' => Free s') (fun _ _ => True) (fun _ => True) := by
  unfold moveUpLoc
  rw [wp_bind, wp_get]
  split
  · split
    · split
      · rw [wp_bind, wp_ofOption]
        exact ⟨fun _ _ => ⟨h.search, h.valid⟩, fun _ => trivial⟩
      · exact h
    · rw [wp_bind, wp_modify]
      split
      · exact ⟨h.search, h.valid⟩
      · exact ⟨h.search, h.valid⟩
  · split
    · split
      · exact ⟨h.search, h.valid⟩
      · exact h
    · split
      · exact h
      · exact ⟨h.search, h.valid⟩

theorem free_moveDownLoc {s : Ed} (h : Free s) :
    Wp moveDownLoc s (fun _ s' => Free s') (fun _ _ => True) (fun _ => True) := by
  unfold moveDownLoc
  rw [wp_bind, wp_get]
  split
  · split
    · split
      · trivial
      · split
        · rw [wp_bind, wp_ofOption]
          exact ⟨fun _ _ => ⟨h.search, h.valid⟩, fun _ => trivial⟩
        · exact ⟨h.search, h.valid⟩
    · exact h
  · split
    · split
      · trivial
      · split
        · exact ⟨h.search, h.valid⟩
        · exact ⟨h.search, h.valid⟩
    · exact ⟨h.search, h.valid⟩

theorem td_moveUp : KTd b (moveUp E) := by
  intro s hs
  unfold moveUp
  rw [wp_bind, wp_get]
  split
  · exact td_search E _ s hs
  · rename_i hn
    have hn' : s.isSearch = false := by simpa using hn
    rw [wp_bind, wp_modify, wp_bind, freshenHistory, wp_modify, wp_bind]
    have : Free (if s.history.share && !s.historyFresh then
        { s with histBufValid := false, history := (s.history.loadHistory s.fs false).2,
                 historyFresh := true } else { s with histBufValid := false }) := by
      split <;> exact ⟨hn', rfl⟩
    exact wp_mono (free_moveUpLoc this) (fun _ _ h => td_moveEnd E _ h.td) (fun _ _ h => h)
      (fun _ h => h)

theorem td_moveDown : KTd b (moveDown E) := by
  intro s hs
  unfold moveDown
  rw [wp_bind, wp_get]
  split
  · exact td_search E _ s hs
  · rename_i hn
    have hn' : s.isSearch = false := by simpa using hn
    rw [wp_bind, wp_modify, wp_bind]
    exact wp_mono (free_moveDownLoc (s := { s with histBufValid := false }) ⟨hn', rfl⟩)
      (fun _ _ h => td_moveEnd E _ h.td) (fun _ _ h => h) (fun _ h => h)

theorem td_histStart : KTd false (moveToStartOfHistory E) := by
  intro s hs
  unfold moveToStartOfHistory
  rw [wp_bind, wp_modify, wp_bind, wp_get]
  split
  · rw [wp_bind, wp_modify]
    exact td_display E _ ⟨fun _ _ => rfl, fun _ => rfl,
      fun h1 h2 => ⟨(hs.idx h1 h2).1, rfl, (hs.idx h1 h2).2.2⟩⟩
  · rw [wp_bind, wp_modify]
    exact td_moveEnd E _ ⟨fun h => (by cases h), fun _ => rfl,
      fun h1 h2 => ⟨(hs.idx h1 h2).1, rfl, (hs.idx h1 h2).2.2⟩⟩

theorem td_histEnd : KTd b (moveToEndOfHistory E) := by
  intro s hs
  have h2 := td_moveEnd (b := b) E
  unfold moveToEndOfHistory
  rw [wp_bind, wp_modify, wp_bind, wp_get]
  split
  · rw [wp_bind, wp_modify]
    exact h2 _ ⟨fun _ _ => rfl, fun _ => rfl,
      fun h1 h2 => ⟨(hs.idx h1 h2).1, rfl, (hs.idx h1 h2).2.2⟩⟩
  · exact td_display E _ ⟨hs.son, fun _ => rfl,
      fun h1 h2 => ⟨(hs.idx h1 h2).1, rfl, (hs.idx h1 h2).2.2⟩⟩

theorem td_op {w : Who} (o : EdOp) (h : Allowed w o) (hb : b = true → w = .vi) :
    KTd b (runOp E o) := by
  cases o <;> simp only [runOp]
  case handleNewline => exact td_bind (td_newline E) fun _ => td_pure _
  case undo => exact td_bind (td_undo E) fun _ => td_pure _
  case redo => exact td_bind (td_redo E) fun _ => td_pure _
  case revert => exact td_bind (td_revert E) fun _ => td_pure _
  case search f => exact td_search E f
  case flush => exact td_flush E
  case skipCompletionsHint => unfold skipCompletionsHint; td
  case complete c => exact td_complete E c
  case deleteWordBeforeCursor i => exact td_deleteWord E i
  case clear => exact td_clear E
  case moveUp => exact td_moveUp E
  case moveDown => exact td_moveDown E
  case moveToStartOfHistory =>
    cases b
    · exact td_histStart E
    · exact absurd rfl (h.2 (hb rfl))
  case moveToEndOfHistory => exact td_histEnd E
  case insert cs => exact td_insert E cs
  case deleteBeforeCursor => exact td_deleteBefore E
  case deleteAfterCursor => exact td_deleteAfter E
  case deleteAllBeforeCursor => exact td_deleteAllBefore E
  case deleteAllAfterCursor => exact td_deleteAllAfter E
  case deleteUntil p => exact td_deleteUntil E p
  case deleteUntilInclusive p => exact td_deleteUntilInclusive E p
  case moveCursorLeft n => exact td_left E n
  case moveCursorRight n => exact td_right E n
  case moveCursorTo n => exact td_to E n
  case moveCursorToStartOfLine => exact td_home E
  case moveCursorToEndOfLine => exact td_moveEnd E
  case acceptAutosuggestion => exact td_accept E
  case display => exact td_display E
  case setViMode m =>
    refine td_modify fun s hs => ?_
    split <;> exact ⟨hs.son, hs.valid, hs.idx⟩
  case setPrompt p =>
    refine td_modify fun s hs => ?_
    split <;> exact ⟨hs.son, hs.valid, hs.idx⟩

end
end Editor

open Editor

theorem td_of {α : Type} {b : Bool} {m : EdM α} (h : KTd b m) :
    Keep (Td b) (fun _ _ => True) (fun _ _ => True) m := fun s hs =>
  wp_mono (h s hs) (fun _ _ h => ⟨h, trivial⟩) (fun _ _ _ => trivial) (fun _ _ => trivial)

theorem td_kept (E : Env) (w : Who) (b : Bool) (hb : b = true → w = .vi) :
    Kept E w (Td b) (fun _ _ => True) (fun _ _ => True) where
  refl _ := trivial
  frefl _ := trivial
  trans _ _ _ _ _ := trivial
  ftrans _ _ _ _ _ := trivial
  op o h := td_of (td_op E o h hb)
  newline := td_of (td_newline E)
  undo := td_of (td_undo E)
  redo := td_of (td_redo E)
  revert := td_of (td_revert E)
  start p := td_of (td_start E p)
  startGroup _ := td_of (td_curBufMut _)
  endGroup _ := td_of (td_curBufMut _)
  setNoEol _ _ := td_of (td_modify fun _ hs => ⟨hs.son, hs.valid, hs.idx⟩)

/-! ### Settings -/

/-- The Emacs keys change no settings, the vi keys only the mode. -/
structure Sets (w : Who) (s s' : Ed) : Prop where
  showSug : s'.showAutosuggestions = s.showAutosuggestions
  noEol : w = .emacs → s'.noEol = s.noEol

theorem sets_of_pres {α : Type} {w : Who} {m : EdM α} (h : Pres m) :
    Keep (fun _ => True) (Sets w) (Sets w) m := fun s _ =>
  wp_mono (h s) (fun _ _ h1 => ⟨trivial, h1.showSug, fun _ => h1.noEol⟩)
    (fun _ _ h1 => ⟨h1.showSug, fun _ => h1.noEol⟩) (fun _ h1 => h1)

theorem sets_kept (E : Env) (w : Who) : Kept E w (fun _ => True) (Sets w) (Sets w) where
  refl _ := ⟨rfl, fun _ => rfl⟩
  frefl _ := ⟨rfl, fun _ => rfl⟩
  trans _ _ _ h1 h2 := ⟨h2.1.trans h1.1, fun h => (h2.2 h).trans (h1.2 h)⟩
  ftrans _ _ _ h1 h2 := ⟨h2.1.trans h1.1, fun h => (h2.2 h).trans (h1.2 h)⟩
  op o _ := by
    cases o
    case setPrompt p =>
      intro s _
      show _ ∧ _
      refine ⟨trivial, ?_⟩
      dsimp only
      split <;> exact ⟨rfl, fun _ => rfl⟩
    case setViMode m =>
      intro s _
      show _ ∧ _
      refine ⟨trivial, ?_⟩
      dsimp only
      split <;> exact ⟨rfl, fun _ => rfl⟩
    all_goals exact sets_of_pres (pres_op E _ (by simp) (by simp))
  newline := sets_of_pres (pres_newline E)
  undo := sets_of_pres (pres_undo E)
  redo := sets_of_pres (pres_redo E)
  revert := sets_of_pres (pres_revert E)
  start p := sets_of_pres (pres_start E p)
  startGroup _ := sets_of_pres (pres_curBufMut _)
  endGroup _ := sets_of_pres (pres_curBufMut _)
  setNoEol hw b := fun s _ => ⟨trivial, rfl, fun h => by rw [hw] at h; cases h⟩

end Liner
