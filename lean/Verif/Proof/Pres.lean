import Verif.Proof.Editor
import Verif.Proof.Grow
import Verif.Spec.Editor
import Verif.Model.Emacs
import Verif.Model.Vi
/-
What every operation leaves alone, whatever the state.
-/

namespace Liner
namespace Editor
open Liner.Spec

theorem Reloaded.trans {fs : FS} {a b c : History} (h1 : Reloaded fs a b) (h2 : Reloaded fs b c) :
    Reloaded fs a c := by
  induction h2 with
  | refl => exact h1
  | step _ hs ih => exact .step ih hs

/-- The history is only ever reloaded; settings stay. -/
structure Rel (s s' : Ed) : Prop where
  hist : Reloaded s.fs s.history s'.history
  fs : s'.fs = s.fs
  noEol : s'.noEol = s.noEol
  showSug : s'.showAutosuggestions = s.showAutosuggestions
  prompt : s'.prompt = s.prompt
  buf : s.ctxBuf <+: s'.ctxBuf

theorem Rel.refl (s : Ed) : Rel s s := ⟨.refl, rfl, rfl, rfl, rfl, List.prefix_refl _⟩

theorem Rel.trans {a b c : Ed} (h1 : Rel a b) (h2 : Rel b c) : Rel a c :=
  ⟨Reloaded.trans h1.hist (by rw [← h1.fs]; exact h2.hist), h2.fs.trans h1.fs,
    h2.noEol.trans h1.noEol, h2.showSug.trans h1.showSug, h2.prompt.trans h1.prompt,
    h1.buf.trans h2.buf⟩

/-- `m` changes nothing that `Rel` speaks about. -/
def Pres {α : Type} (m : EdM α) : Prop :=
  ∀ s, Wp m s (fun _ s' => Rel s s') (fun _ s' => Rel s s') (fun _ => True)

section
variable {α β : Type}

theorem pres_bind {m : EdM α} {f : α → EdM β} (h1 : Pres m) (h2 : ∀ a, Pres (f a)) :
    Pres (m >>= f) := by
  intro s
  rw [wp_bind]
  refine wp_mono (h1 s) (fun a s1 h => ?_) (fun _ _ h => h) (fun _ h => h)
  exact wp_mono (h2 a s1) (fun _ _ h' => h.trans h') (fun _ _ h' => h.trans h') (fun _ h => h)

theorem pres_pure (a : α) : Pres (pure a : EdM α) := fun s => Rel.refl s
theorem pres_get : Pres (M.get : EdM Ed) := fun s => Rel.refl s
theorem pres_throw (e : IoErr) : Pres (M.throw e : EdM α) := fun s => Rel.refl s
theorem pres_panic : Pres (M.panic : EdM α) := fun _ => trivial
theorem pres_modify {f : Ed → Ed} (h : ∀ s, Rel s (f s)) : Pres (M.modify f) := fun s => h s
theorem pres_ofOption (o : Option α) : Pres (M.ofOption o : EdM α) := by
  intro s
  rw [wp_ofOption]
  exact ⟨fun _ _ => Rel.refl s, fun _ => trivial⟩
theorem pres_ite {c : Prop} [Decidable c] {a b : EdM α} (ha : Pres a) (hb : Pres b) :
    Pres (if c then a else b) := by split <;> assumption
theorem pres_curBuf : Pres curBuf := by
  intro s
  rw [wp_curBuf]
  exact ⟨fun _ _ => Rel.refl s, fun _ => trivial⟩

theorem setCur_rel (s : Ed) (b : Buffer) : Rel s (setCur s b) := by
  unfold setCur
  split <;> exact ⟨.refl, rfl, rfl, rfl, rfl, List.prefix_refl _⟩

theorem pres_curBufMut (f : Buffer → Option (α × Buffer)) : Pres (curBufMut f) := by
  intro s
  rw [wp_curBufMut]
  exact ⟨fun _ _ _ _ _ => setCur_rel s _, fun _ => trivial⟩

theorem pres_display (E : Env) : Pres (display E) := by
  intro s
  refine wp_mono (wp_and (display_wp E s) (display_grows E s)) (fun _ s' h => ?_) (fun _ s' h => ?_) (fun _ _ => trivial)
  · have := h.1.same
    exact ⟨by rw [this.history]; exact .refl, this.fs, this.noEol, this.showSug, this.prompt, h.2.pre⟩
  · have := h.1.same
    exact ⟨by rw [this.history]; exact .refl, this.fs, this.noEol, this.showSug, this.prompt, h.2⟩

theorem pres_displayImpl (E : Env) (sa : Bool) : Pres (displayImpl E sa) := by
  intro s
  refine wp_mono (wp_and (displayImpl_wp E sa s) (displayImpl_grows E sa s)) (fun _ s' h => ?_) (fun _ s' h => ?_) (fun _ _ => trivial)
  · have g := h.2.pre
    obtain ⟨b, hb, l, c, o, t, rfl⟩ := h.1.drawn
    exact ⟨.refl, rfl, rfl, rfl, rfl, g⟩
  · have g := h.2
    obtain ⟨cu, ⟨l, c, o, t, rfl⟩, _⟩ := h.1
    exact ⟨.refl, rfl, rfl, rfl, rfl, g⟩

theorem pres_writeTerm (E : Env) (toks : List Tok) : Pres (writeTerm E toks) := by
  intro s
  rw [wp_writeTerm]
  exact ⟨fun _ => ⟨.refl, rfl, rfl, rfl, rfl, List.prefix_refl _⟩, fun _ => ⟨.refl, rfl, rfl, rfl, rfl, List.prefix_refl _⟩⟩

theorem pres_flush (E : Env) : Pres (flush E) := by
  intro s
  rw [wp_flush]
  exact ⟨fun _ => ⟨.refl, rfl, rfl, rfl, rfl, List.prefix_refl _⟩, fun _ => ⟨.refl, rfl, rfl, rfl, rfl, List.prefix_refl _⟩⟩

theorem pres_freshen : Pres freshenHistory := by
  refine pres_modify fun s => ?_
  split
  · rename_i h
    simp only [Bool.and_eq_true] at h
    exact ⟨.step .refl h.1, rfl, rfl, rfl, rfl, List.prefix_refl _⟩
  · exact Rel.refl s

theorem pres_refresh (fwd : Bool) : Pres (refreshSearch fwd) :=
  pres_modify fun _ => ⟨.refl, rfl, rfl, rfl, rfl, List.prefix_refl _⟩

theorem pres_clearSearch : Pres clearSearch :=
  pres_modify fun _ => ⟨.refl, rfl, rfl, rfl, rfl, List.prefix_refl _⟩

theorem pres_cursorSub (n : Nat) : Pres (cursorSub n) := by
  intro s
  unfold Wp cursorSub
  split
  · rename_i h
    split at h
    · cases h; exact ⟨.refl, rfl, rfl, rfl, rfl, List.prefix_refl _⟩
    · cases h
  · rename_i h
    split at h <;> cases h
  · trivial

theorem pres_repeatN {m : EdM Unit} (h : Pres m) : ∀ n, Pres (M.repeatN n m)
  | 0 => pres_pure ()
  | n + 1 => pres_bind h fun _ => pres_repeatN h n

theorem pres_forEach {f : β → EdM Unit} (h : ∀ x, Pres (f x)) : ∀ xs, Pres (M.forEach xs f)
  | [] => pres_pure ()
  | x :: xs => pres_bind (h x) fun _ => pres_forEach h xs

end

/-- Go through the program text. -/
macro "pres" : tactic => `(tactic| repeat' (first
  | with_reducible exact pres_display _
  | with_reducible exact pres_displayImpl _ _
  | with_reducible exact pres_writeTerm _ _
  | with_reducible exact pres_flush _
  | with_reducible exact pres_freshen
  | with_reducible exact pres_refresh _
  | with_reducible exact pres_clearSearch
  | with_reducible exact pres_cursorSub _
  | with_reducible exact pres_curBuf
  | with_reducible exact pres_curBufMut _
  | with_reducible exact pres_get
  | with_reducible exact pres_panic
  | with_reducible exact pres_throw _
  | with_reducible exact pres_pure _
  | with_reducible exact pres_ofOption _
  | with_reducible assumption
  | with_reducible apply pres_bind
  | with_reducible apply pres_ite
  | with_reducible apply pres_repeatN
  | with_reducible apply pres_forEach
  | (with_reducible apply pres_modify; intro s; exact ⟨.refl, rfl, rfl, rfl, rfl, List.prefix_refl _⟩)
  | (with_reducible apply pres_modify; intro s; exact ⟨.refl, rfl, rfl, rfl, rfl, List.prefix_append _ _⟩)
  | with_reducible intro _
  | split
  | dsimp only))

section
variable (E : Env)

theorem pres_moveEnd : Pres (moveCursorToEndOfLine E) := by unfold moveCursorToEndOfLine; pres
theorem pres_undo : Pres (undo E) := by
  have := pres_moveEnd E
  unfold undo; pres
theorem pres_redo : Pres (redo E) := by
  have := pres_moveEnd E
  unfold redo; pres
theorem pres_revert : Pres (revert E) := by
  have := pres_moveEnd E
  unfold revert; pres
theorem pres_search (f : Bool) : Pres (search E f) := by unfold search; pres
theorem pres_skip : Pres skipCompletionsHint := by unfold skipCompletionsHint; pres
theorem pres_wordBefore (i : Bool) : Pres (getWordBeforeCursor E i) := by
  unfold getWordBeforeCursor wordsAndPos; pres
theorem pres_deleteWord (i : Bool) : Pres (deleteWordBeforeCursor E i) := by
  have := pres_wordBefore E i
  unfold deleteWordBeforeCursor; pres
theorem pres_insert (cs : Text) : Pres (insertCharsAfterCursor E cs) := by
  unfold insertCharsAfterCursor; pres
theorem pres_completeNext (cs : List Text) (i : Option Nat) : Pres (completeNext E cs i) := by
  have h1 := pres_deleteWord E false
  have h2 := pres_insert E
  have h3 : Pres (isWhole cs i) := by unfold isWhole; pres
  unfold completeNext dropCandidate
  pres
  all_goals exact h2 _
theorem pres_completeFirst (c : Text → List Text) : Pres (completeFirst E c) := by
  have h1 := pres_deleteWord E false
  have h2 := pres_insert E
  have h3 := pres_wordBefore E
  unfold completeFirst
  pres
  all_goals first | exact h2 _ | exact h3 _
theorem pres_complete (c : Text → List Text) : Pres (complete E c) := by
  have h1 := pres_completeNext E
  have h2 := pres_completeFirst E
  unfold complete
  pres
  all_goals first | exact h1 _ _ | exact h2 _
theorem pres_clear : Pres (clear E) := by unfold clear; pres
theorem pres_moveUp : Pres (moveUp E) := by
  have h1 := pres_search E
  have h2 := pres_moveEnd E
  have h3 : Pres moveUpLoc := by unfold moveUpLoc; pres
  unfold moveUp; pres
  exact h1 _
theorem pres_moveDown : Pres (moveDown E) := by
  have h1 := pres_search E
  have h2 := pres_moveEnd E
  have h3 : Pres moveDownLoc := by unfold moveDownLoc; pres
  unfold moveDown; pres
  exact h1 _
theorem pres_histStart : Pres (moveToStartOfHistory E) := by
  have h2 := pres_moveEnd E
  unfold moveToStartOfHistory; pres
theorem pres_histEnd : Pres (moveToEndOfHistory E) := by
  have h2 := pres_moveEnd E
  unfold moveToEndOfHistory; pres
theorem pres_deleteBefore : Pres (deleteBeforeCursor E) := by unfold deleteBeforeCursor; pres
theorem pres_deleteAfter : Pres (deleteAfterCursor E) := by unfold deleteAfterCursor; pres
theorem pres_deleteAllBefore : Pres (deleteAllBeforeCursor E) := by
  unfold deleteAllBeforeCursor; pres
theorem pres_deleteAllAfter : Pres (deleteAllAfterCursor E) := by
  unfold deleteAllAfterCursor; pres
theorem pres_deleteUntil (p : Nat) : Pres (deleteUntil E p) := by unfold deleteUntil; pres
theorem pres_deleteUntilInclusive (p : Nat) : Pres (deleteUntilInclusive E p) := by
  unfold deleteUntilInclusive; pres
theorem pres_left (n : Nat) : Pres (moveCursorLeft E n) := by unfold moveCursorLeft; pres
theorem pres_right (n : Nat) : Pres (moveCursorRight E n) := by unfold moveCursorRight; pres
theorem pres_to (n : Nat) : Pres (moveCursorTo E n) := by unfold moveCursorTo; pres
theorem pres_home : Pres (moveCursorToStartOfLine E) := by unfold moveCursorToStartOfLine; pres
theorem pres_atEnd : Pres cursorIsAtEndOfLine := by unfold cursorIsAtEndOfLine; pres
theorem pres_accept : Pres (acceptAutosuggestion E) := by
  have h2 := pres_moveEnd E
  unfold acceptAutosuggestion; pres
theorem pres_newline : Pres (handleNewline E) := by
  have h1 := pres_accept E
  have h2 := pres_insert E
  unfold handleNewline acceptIfSearch finishLine; pres
  all_goals exact h2 _
theorem pres_start (p : Prompt) : Pres (start E p) := by
  have h1 := pres_moveEnd E
  unfold start; pres

end

/-! ### The cursor -/

/-- The operation leaves the cursor inside the line, wherever it was before. -/
def Ends {α : Type} (m : EdM α) : Prop :=
  ∀ s, Wp m s (fun _ s' => Inside s') (fun _ _ => True) (fun _ => True)

/-- The operation leaves the cursor inside the line if it was there. -/
def Keeps {α : Type} (m : EdM α) : Prop :=
  ∀ s, Inside s → Wp m s (fun _ s' => Inside s') (fun _ _ => True) (fun _ => True)

theorem inside_iff {s : Ed} : Inside s ↔ ∃ b, s.curBuf? = some b ∧ s.cursor ≤ b.data.length := by
  unfold Inside text?
  constructor
  · rintro ⟨t, ht, hc⟩
    rw [Option.map_eq_some_iff] at ht
    obtain ⟨b, hb, rfl⟩ := ht
    exact ⟨b, hb, hc⟩
  · rintro ⟨b, hb, hc⟩
    exact ⟨b.data, by rw [hb]; rfl, hc⟩

section
variable {α β : Type}

theorem Ends.keeps {m : EdM α} (h : Ends m) : Keeps m := fun s _ => h s

theorem ends_bind {m : EdM α} {f : α → EdM β} (h2 : ∀ a, Ends (f a)) : Ends (m >>= f) := by
  intro s
  rw [wp_bind]
  exact wp_mono (wp_trivial (m := m) (s := s)) (fun a s1 _ => h2 a s1) (fun _ _ h => h)
    (fun _ h => h)

theorem ends_bind_keeps {m : EdM α} {f : α → EdM β} (h1 : Ends m) (h2 : ∀ a, Keeps (f a)) :
    Ends (m >>= f) := by
  intro s
  rw [wp_bind]
  exact wp_mono (h1 s) (fun a s1 h => h2 a s1 h) (fun _ _ h => h) (fun _ h => h)

theorem ends_ite {c : Prop} [Decidable c] {a b : EdM α} (ha : Ends a) (hb : Ends b) :
    Ends (if c then a else b) := by split <;> assumption

theorem ends_panic : Ends (M.panic : EdM α) := fun _ => trivial

theorem ends_display (E : Env) : Ends (display E) := by
  intro s
  refine wp_mono (display_wp E s) (fun _ s' h => ?_) (fun _ _ _ => trivial) (fun _ _ => trivial)
  obtain ⟨b, sug, hb, _, h⟩ := h.ex
  rw [inside_iff]
  refine ⟨b, by rw [drawn_curBuf h, hb], ?_⟩
  obtain ⟨l, c, o, t, rfl⟩ := h
  exact clampCursor_le _ _ _

theorem ends_displayImpl (E : Env) (sa : Bool) : Ends (displayImpl E sa) := by
  intro s
  refine wp_mono (displayImpl_wp E sa s) (fun _ s' h => ?_) (fun _ _ _ => trivial)
    (fun _ _ => trivial)
  obtain ⟨b, hb, l, c, o, t, rfl⟩ := h.drawn
  rw [inside_iff]
  exact ⟨b, hb, clampCursor_le _ _ _⟩

theorem keeps_bind {m : EdM α} {f : α → EdM β} (h1 : Keeps m) (h2 : ∀ a, Keeps (f a)) :
    Keeps (m >>= f) := by
  intro s hs
  rw [wp_bind]
  exact wp_mono (h1 s hs) (fun a s1 h => h2 a s1 h) (fun _ _ h => h) (fun _ h => h)

theorem keeps_pure (a : α) : Keeps (pure a : EdM α) := fun _ hs => hs
theorem keeps_get : Keeps (M.get : EdM Ed) := fun _ hs => hs
theorem keeps_throw (e : IoErr) : Keeps (M.throw e : EdM α) := fun _ _ => trivial
theorem keeps_panic : Keeps (M.panic : EdM α) := fun _ _ => trivial
theorem keeps_modify {f : Ed → Ed} (h : ∀ s, Inside s → Inside (f s)) : Keeps (M.modify f) :=
  fun s hs => h s hs
theorem keeps_ofOption (o : Option α) : Keeps (M.ofOption o : EdM α) := by
  intro s hs
  rw [wp_ofOption]
  exact ⟨fun _ _ => hs, fun _ => trivial⟩
theorem keeps_ite {c : Prop} [Decidable c] {a b : EdM α} (ha : Keeps a) (hb : Keeps b) :
    Keeps (if c then a else b) := by split <;> assumption
theorem keeps_curBuf : Keeps curBuf := by
  intro s hs
  rw [wp_curBuf]
  exact ⟨fun _ _ => hs, fun _ => trivial⟩

/-- Changes of the buffer that keep its text. -/
theorem keeps_curBufMut {f : Buffer → Option (α × Buffer)}
    (hf : ∀ b a b', f b = some (a, b') → b'.data = b.data) : Keeps (curBufMut f) := by
  intro s hs
  rw [wp_curBufMut]
  refine ⟨fun b a b' hb hf' => ?_, fun _ => trivial⟩
  rw [inside_iff] at hs ⊢
  obtain ⟨c, hc, hle⟩ := hs
  obtain ⟨c', hc', hd⟩ := curBuf_of_workBuf hb
  rw [hc] at hc'; cases hc'
  refine ⟨b', setCur_curBuf _ _, ?_⟩
  have : (setCur s b').cursor = s.cursor := by unfold setCur; split <;> rfl
  rw [this, hf _ _ _ hf', hd]
  exact hle

theorem keeps_writeTerm (E : Env) (toks : List Tok) : Keeps (writeTerm E toks) := by
  intro s hs
  rw [wp_writeTerm]
  exact ⟨fun _ => hs, fun _ => trivial⟩

theorem keeps_flush (E : Env) : Keeps (flush E) := by
  intro s hs
  rw [wp_flush]
  exact ⟨fun _ => hs, fun _ => trivial⟩

theorem keeps_repeatN {m : EdM Unit} (h : Keeps m) : ∀ n, Keeps (M.repeatN n m)
  | 0 => keeps_pure ()
  | n + 1 => keeps_bind h fun _ => keeps_repeatN h n

theorem keeps_forEach {f : β → EdM Unit} (h : ∀ x, Keeps (f x)) : ∀ xs, Keeps (M.forEach xs f)
  | [] => keeps_pure ()
  | x :: xs => keeps_bind (h x) fun _ => keeps_forEach h xs

end

macro "ends" : tactic => `(tactic| repeat' (first
  | with_reducible exact ends_display _
  | with_reducible exact ends_displayImpl _ _
  | with_reducible exact ends_panic
  | with_reducible assumption
  | with_reducible apply ends_bind
  | with_reducible apply ends_ite
  | with_reducible intro _
  | split
  | dsimp only))

section
variable (E : Env)

theorem ends_moveEnd : Ends (moveCursorToEndOfLine E) := by unfold moveCursorToEndOfLine; ends
theorem ends_search (f : Bool) : Ends (search E f) := by unfold search; ends
theorem ends_deleteWord (i : Bool) : Ends (deleteWordBeforeCursor E i) := by
  unfold deleteWordBeforeCursor; ends
theorem ends_insert (cs : Text) : Ends (insertCharsAfterCursor E cs) := by
  unfold insertCharsAfterCursor; ends
theorem ends_clear : Ends (clear E) := by unfold clear; ends
theorem ends_moveUp : Ends (moveUp E) := by
  have h1 := ends_search E
  have h2 := ends_moveEnd E
  unfold moveUp; ends
  exact h1 _
theorem ends_moveDown : Ends (moveDown E) := by
  have h1 := ends_search E
  have h2 := ends_moveEnd E
  unfold moveDown; ends
  exact h1 _
theorem ends_histStart : Ends (moveToStartOfHistory E) := by
  have h2 := ends_moveEnd E
  unfold moveToStartOfHistory; ends
theorem ends_histEnd : Ends (moveToEndOfHistory E) := by
  have h2 := ends_moveEnd E
  unfold moveToEndOfHistory; ends
theorem ends_deleteBefore : Ends (deleteBeforeCursor E) := by unfold deleteBeforeCursor; ends
theorem ends_deleteAfter : Ends (deleteAfterCursor E) := by unfold deleteAfterCursor; ends
theorem ends_deleteAllBefore : Ends (deleteAllBeforeCursor E) := by
  unfold deleteAllBeforeCursor; ends
theorem ends_deleteAllAfter : Ends (deleteAllAfterCursor E) := by
  unfold deleteAllAfterCursor; ends
theorem ends_deleteUntil (p : Nat) : Ends (deleteUntil E p) := by unfold deleteUntil; ends
theorem ends_deleteUntilInclusive (p : Nat) : Ends (deleteUntilInclusive E p) := by
  unfold deleteUntilInclusive; ends
theorem ends_left (n : Nat) : Ends (moveCursorLeft E n) := by unfold moveCursorLeft; ends
theorem ends_right (n : Nat) : Ends (moveCursorRight E n) := by unfold moveCursorRight; ends
theorem ends_to (n : Nat) : Ends (moveCursorTo E n) := by unfold moveCursorTo; ends
theorem ends_home : Ends (moveCursorToStartOfLine E) := by unfold moveCursorToStartOfLine; ends
theorem ends_accept : Ends (acceptAutosuggestion E) := by
  have h2 := ends_moveEnd E
  unfold acceptAutosuggestion; ends

theorem ends_move (did : Bool) :
    Ends (if did then moveCursorToEndOfLine E else display E) := by
  have h2 := ends_moveEnd E
  ends

theorem ends_undo : Ends (undo E) := by
  unfold undo
  refine ends_bind fun did => ?_
  have h2 := (ends_moveEnd E)
  split
  · exact ends_bind_keeps h2 fun _ => keeps_pure _
  · exact ends_bind_keeps (ends_display E) fun _ => keeps_pure _
theorem ends_redo : Ends (redo E) := by
  unfold redo
  refine ends_bind fun did => ?_
  have h2 := (ends_moveEnd E)
  split
  · exact ends_bind_keeps h2 fun _ => keeps_pure _
  · exact ends_bind_keeps (ends_display E) fun _ => keeps_pure _
theorem ends_revert : Ends (revert E) := by
  unfold revert
  refine ends_bind fun did => ?_
  have h2 := (ends_moveEnd E)
  split
  · exact ends_bind_keeps h2 fun _ => keeps_pure _
  · exact ends_bind_keeps (ends_display E) fun _ => keeps_pure _

theorem keeps_skip : Keeps skipCompletionsHint := keeps_modify fun _ h => h
theorem keeps_clearSearch : Keeps clearSearch := keeps_modify fun _ h => h

theorem ends_completeNext (cs : List Text) (i : Option Nat) : Ends (completeNext E cs i) := by
  unfold completeNext
  refine ends_bind fun _ => ends_bind fun _ => ends_bind fun _ => ends_bind fun _ =>
    ends_bind fun c => ends_bind_keeps (ends_insert E c) fun _ => ?_
  exact keeps_modify fun _ h => h

theorem readWord_data {r : Option (Nat × Nat)} {b b' : Buffer} {t : Text}
    (h : readWord r b = some (t, b')) : b'.data = b.data := by
  unfold readWord at h
  split at h
  · rw [Option.map_eq_some_iff] at h
    obtain ⟨_, _, h⟩ := h
    cases h; rfl
  · cases h; rfl

theorem keeps_completeFirst (c : Text → List Text) : Keeps (completeFirst E c) := by
  unfold completeFirst
  refine keeps_bind ?_ fun r => keeps_bind (keeps_curBufMut fun b a b' h => readWord_data h) fun w => ?_
  · unfold getWordBeforeCursor wordsAndPos
    exact keeps_bind (keeps_bind keeps_curBuf fun _ => keeps_bind keeps_get fun _ => keeps_pure _)
      fun _ => keeps_pure _
  · have h1 := ends_insert E
    have h2 : ∀ x : List Text × Option Nat, Ends (do
        M.modify fun s : Ed => { s with showCompletionsHint := some x }
        display E) := fun x => ends_bind fun _ => ends_display E
    dsimp only
    split
    · exact keeps_modify fun _ h => h
    · exact (ends_bind fun _ => ends_bind fun _ => h1 _).keeps
    · split
      · exact (ends_ite (ends_bind fun _ => h1 _) (h2 _)).keeps
      · exact (h2 _).keeps

theorem keeps_complete (c : Text → List Text) : Keeps (complete E c) := by
  unfold complete
  refine keeps_bind keeps_get fun s => ?_
  split
  · exact (ends_bind fun _ => ends_display E).keeps
  · exact keeps_completeFirst E c

theorem keeps_finishLine : Keeps (finishLine E) := by
  unfold finishLine
  refine keeps_bind keeps_get fun s => keeps_ite ?_ ?_
  · exact keeps_bind (keeps_modify fun _ h => h) fun _ => keeps_pure _
  · refine keeps_bind keeps_curBuf fun b => keeps_ite ?_ ?_
    · exact keeps_bind (ends_insert E _).keeps fun _ => keeps_pure _
    · refine (ends_bind fun _ => ends_bind_keeps (ends_displayImpl E _) fun _ => ?_).keeps
      exact keeps_bind (keeps_writeTerm E _) fun _ =>
        keeps_bind (keeps_modify fun _ h => h) fun _ => keeps_pure _

theorem keeps_newline : Keeps (handleNewline E) := by
  unfold handleNewline acceptIfSearch
  refine keeps_bind (keeps_modify fun _ h => h) fun _ => keeps_bind ?_ fun _ =>
    keeps_bind keeps_clearSearch fun _ => keeps_finishLine E
  exact keeps_bind keeps_get fun s => keeps_ite (ends_accept E).keeps (keeps_pure _)

theorem keeps_atEnd : Keeps cursorIsAtEndOfLine := by
  unfold cursorIsAtEndOfLine
  refine keeps_bind keeps_curBuf fun b => keeps_bind keeps_get fun s => ?_
  exact keeps_ite (keeps_ite keeps_panic (keeps_pure _)) (keeps_pure _)

theorem ends_start (p : Prompt) : Ends (start E p) := by
  unfold start; ends

/-! ### Both together -/

theorem pres_op (op : EdOp) (h : ∀ p, op ≠ .setPrompt p) (h' : ∀ m, op ≠ .setViMode m) :
    Pres (runOp E op) := by
  cases op <;> simp only [runOp]
  case setPrompt p => exact absurd rfl (h p)
  case setViMode p => exact absurd rfl (h' p)
  case handleNewline => exact pres_bind (pres_newline E) fun _ => pres_pure _
  case undo => exact pres_bind (pres_undo E) fun _ => pres_pure _
  case redo => exact pres_bind (pres_redo E) fun _ => pres_pure _
  case revert => exact pres_bind (pres_revert E) fun _ => pres_pure _
  case search f => exact pres_search E f
  case flush => exact pres_flush E
  case skipCompletionsHint => exact pres_skip
  case complete c => exact pres_complete E c
  case deleteWordBeforeCursor i => exact pres_deleteWord E i
  case clear => exact pres_clear E
  case moveUp => exact pres_moveUp E
  case moveDown => exact pres_moveDown E
  case moveToStartOfHistory => exact pres_histStart E
  case moveToEndOfHistory => exact pres_histEnd E
  case insert cs => exact pres_insert E cs
  case deleteBeforeCursor => exact pres_deleteBefore E
  case deleteAfterCursor => exact pres_deleteAfter E
  case deleteAllBeforeCursor => exact pres_deleteAllBefore E
  case deleteAllAfterCursor => exact pres_deleteAllAfter E
  case deleteUntil p => exact pres_deleteUntil E p
  case deleteUntilInclusive p => exact pres_deleteUntilInclusive E p
  case moveCursorLeft n => exact pres_left E n
  case moveCursorRight n => exact pres_right E n
  case moveCursorTo n => exact pres_to E n
  case moveCursorToStartOfLine => exact pres_home E
  case moveCursorToEndOfLine => exact pres_moveEnd E
  case acceptAutosuggestion => exact pres_accept E
  case display => exact pres_display E

theorem keeps_setViMode (m : ViPromptMode) : Keeps (setViMode m) := by
  refine keeps_modify fun s h => ?_
  split <;> exact h

theorem keeps_setPrompt (p : Prompt) : Keeps (setPrompt p) := by
  refine keeps_modify fun s h => ?_
  split <;> exact h

theorem keeps_op (op : EdOp) : Keeps (runOp E op) := by
  cases op <;> simp only [runOp]
  case setPrompt p => exact keeps_setPrompt p
  case setViMode p => exact keeps_setViMode p
  case handleNewline => exact keeps_bind (keeps_newline E) fun _ => keeps_pure _
  case undo => exact keeps_bind (ends_undo E).keeps fun _ => keeps_pure _
  case redo => exact keeps_bind (ends_redo E).keeps fun _ => keeps_pure _
  case revert => exact keeps_bind (ends_revert E).keeps fun _ => keeps_pure _
  case search f => exact (ends_search E f).keeps
  case flush => exact keeps_flush E
  case skipCompletionsHint => exact keeps_skip
  case complete c => exact keeps_complete E c
  case deleteWordBeforeCursor i => exact (ends_deleteWord E i).keeps
  case clear => exact (ends_clear E).keeps
  case moveUp => exact (ends_moveUp E).keeps
  case moveDown => exact (ends_moveDown E).keeps
  case moveToStartOfHistory => exact (ends_histStart E).keeps
  case moveToEndOfHistory => exact (ends_histEnd E).keeps
  case insert cs => exact (ends_insert E cs).keeps
  case deleteBeforeCursor => exact (ends_deleteBefore E).keeps
  case deleteAfterCursor => exact (ends_deleteAfter E).keeps
  case deleteAllBeforeCursor => exact (ends_deleteAllBefore E).keeps
  case deleteAllAfterCursor => exact (ends_deleteAllAfter E).keeps
  case deleteUntil p => exact (ends_deleteUntil E p).keeps
  case deleteUntilInclusive p => exact (ends_deleteUntilInclusive E p).keeps
  case moveCursorLeft n => exact (ends_left E n).keeps
  case moveCursorRight n => exact (ends_right E n).keeps
  case moveCursorTo n => exact (ends_to E n).keeps
  case moveCursorToStartOfLine => exact (ends_home E).keeps
  case moveCursorToEndOfLine => exact (ends_moveEnd E).keeps
  case acceptAutosuggestion => exact (ends_accept E).keeps
  case display => exact (ends_display E).keeps

end
end Editor
end Liner
