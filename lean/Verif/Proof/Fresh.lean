import Verif.Spec.View
import Verif.Proof.Ink
import Verif.Proof.Pres
import Verif.Props.Util
/-
Every operation ends with a redraw: after it the screen is up to date.
-/

namespace Liner
namespace Editor
open Liner.Spec

/-- The characters an editor holds. -/
structure Inks (P : Char → Prop) (s : Ed) : Prop where
  new : BufInk P s.newBuf
  his : BufInk P s.histBuf
  ent : ∀ b ∈ s.history.buffers, Ink P b.data
  sug : ∀ b, s.autosuggestion = some b → Ink P b.data
  hint : ∀ x, s.showCompletionsHint = some x → ∀ c ∈ x.1, Ink P c

/-- A set `C` of states that editing with characters in `P` and lists of candidates in `H` does not leave.  `L` says
whether `clear` is used. -/
structure Scene (E : Env) (P : Char → Prop) (H : List Text → Prop) (L : Prop) (C : Ed → Prop) : Prop where
  inks : ∀ s, C s → Inks P s
  lists : ∀ s x, C s → s.showCompletionsHint = some x → H x.1
  disp : ∀ s, C s → Wp (display E) s (fun _ s' => C s') (fun _ _ => True) (fun _ => True)
  put : ∀ s n h c v l e bc si sl f, C s → BufInk P n → BufInk P h →
    C { s with newBuf := n, histBuf := h, cursor := c, histBufValid := v, curHistoryLoc := l, noEol := e, bufferChanged := bc,
               historySubsetIndex := si, historySubsetLoc := sl, historyFresh := f }
  list : ∀ s x, C s → (∀ y, x = some y → H y.1 ∧ ∀ c ∈ y.1, Ink P c) → C { s with showCompletionsHint := x }
  tick : ∀ s t, C s → C { s with tick := t }
  mode : ∀ s m st, C s → s.prompt.viStatus = some st →
    C { s with prompt := { s.prompt with viStatus := some { st with mode := m } } }
  load : ∀ s, C s → s.history.share = true → C { s with history := (s.history.loadHistory s.fs false).2, historyFresh := true }
  quiet : ∀ s, C s → C { s with reverseSearch := false, forwardSearch := false, historySubsetLoc := none, historySubsetIndex := [] }
  top : L → ∀ s t, C s → C { s with ctxBuf := t, termCursorLine := 1 }

/-- Keeps `C`. -/
def Kp {α : Type} (C : Ed → Prop) (m : EdM α) : Prop :=
  ∀ s, C s → Wp m s (fun _ s' => C s') (fun _ _ => True) (fun _ => True)

/-- `C`, and up to date. -/
def Now (E : Env) (C : Ed → Prop) (s : Ed) : Prop := C s ∧ Fresh E C s

/-- Keeps `C` and brings the screen up to date. -/
def Fin {α : Type} (E : Env) (C : Ed → Prop) (m : EdM α) : Prop :=
  ∀ s, C s → Wp m s (fun _ s' => Now E C s') (fun _ _ => True) (fun _ => True)

/-- Leaves the screen up to date. -/
def Up {α : Type} (E : Env) (C : Ed → Prop) (m : EdM α) : Prop :=
  ∀ s, Now E C s → Wp m s (fun _ s' => Now E C s') (fun _ _ => True) (fun _ => True)

/-- A buffer operation that brings in only characters in `P`. -/
def InkOk {α : Type} (P : Char → Prop) (f : Buffer → Option (α × Buffer)) : Prop :=
  ∀ b a b', BufInk P b → f b = some (a, b') → BufInk P b'

section
variable {P : Char → Prop}

theorem inkOk_remove (i j : Nat) : InkOk P (fun b => b.remove i j) := fun _ _ _ hb h => remove_ink h hb
theorem inkOk_noRes {f : Buffer → Option Buffer} (h : ∀ b b', BufInk P b → f b = some b' → BufInk P b') : InkOk P (noRes f) := by
  intro b a b' hb hf
  unfold noRes at hf
  rw [Option.map_eq_some_iff] at hf
  obtain ⟨c, h1, h2⟩ := hf
  cases h2
  exact h b _ hb h1
theorem inkOk_truncate (i : Nat) : InkOk P (noRes fun b => b.truncate i) := inkOk_noRes fun _ _ hb h => truncate_ink h hb
theorem inkOk_insert (i : Nat) {t : Text} (ht : Ink P t) : InkOk P (noRes fun b => b.insert i t) :=
  inkOk_noRes fun _ _ hb h => insert_ink h hb ht
theorem inkOk_removeNext (i : Nat) : InkOk P (fun b =>
    if i < b.numChars then (b.remove i (i + 1)).map ((), ·.2) else some ((), b)) := by
  intro b a b' hb h
  dsimp only at h
  split at h
  · rw [Option.map_eq_some_iff] at h
    obtain ⟨⟨n, w⟩, h, he⟩ := h
    cases he
    exact remove_ink h hb
  · cases h; exact hb
theorem inkOk_accept {o : Option Buffer} (sr : Bool) : (∀ x, o = some x → Ink P x.data) → InkOk P (noRes fun b =>
    match o with
    | some x => if sr then b.copyBuffer x else b.insertFromBuffer x
    | none => some b) := by
  intro ho
  refine inkOk_noRes fun b b' hb h => ?_
  cases o with
  | none => cases h; exact hb
  | some x =>
    dsimp only at h
    cases sr with
    | true => exact copyBuffer_ink h hb (ho _ rfl)
    | false => exact insertFrom_ink h hb (ho _ rfl)
theorem inkOk_readWord (r : Option (Nat × Nat)) : InkOk P (readWord r) := by
  intro b a b' hi h
  unfold readWord at h
  split at h
  · rw [Option.map_eq_some_iff] at h
    obtain ⟨_, _, h⟩ := h
    cases h; exact hi
  · cases h; exact hi
theorem inkOk_undo : InkOk P Buffer.undo := fun _ _ _ hb h => undo_ink h hb
theorem inkOk_redo : InkOk P Buffer.redo := fun _ _ _ hb h => redo_ink h hb
theorem inkOk_revert : InkOk P Buffer.revert := fun _ _ _ hb h => revert_ink h hb
theorem inkOk_start : InkOk P fun b => some ((), b.startUndoGroup) := fun _ _ _ hb h => by cases h; exact startGroup_ink hb
theorem inkOk_end : InkOk P fun b => some ((), b.endUndoGroup) := fun _ _ _ hb h => by cases h; exact endGroup_ink hb

theorem curBuf_ink {s : Ed} {b : Buffer} (h : Inks P s) (hb : s.curBuf? = some b) : Ink P b.data := by
  unfold Ed.curBuf? at hb
  split at hb
  · split at hb
    · cases hb; exact h.his.data
    · exact h.ent b (List.mem_of_getElem? hb)
  · cases hb; exact h.new.data

theorem workBuf_ink {s : Ed} {b : Buffer} (h : Inks P s) (hb : workBuf s = some b) : BufInk P b := by
  unfold workBuf at hb
  split at hb
  · split at hb
    · cases hb; exact h.his
    · rw [Option.bind_eq_some_iff] at hb
      obtain ⟨e, he, hc⟩ := hb
      exact copyBuffer_ink hc h.his (h.ent e (List.mem_of_getElem? he))
  · cases hb; exact h.new

end

section
variable {E : Env} {P : Char → Prop} {H : List Text → Prop} {L : Prop} {C : Ed → Prop} {α β : Type}

theorem Fin.kp {m : EdM α} (h : Fin E C m) : Kp C m :=
  fun s hs => wp_mono (h s hs) (fun _ _ h => h.1) (fun _ _ h => h) (fun _ h => h)
theorem Fin.up {m : EdM α} (h : Fin E C m) : Up E C m := fun s hs => h s hs.1

theorem kp_bind {m : EdM α} {f : α → EdM β} (h1 : Kp C m) (h2 : ∀ a, Kp C (f a)) : Kp C (m >>= f) := by
  intro s hs
  rw [wp_bind]
  exact wp_mono (h1 s hs) (fun a s1 h => h2 a s1 h) (fun _ _ h => h) (fun _ h => h)
theorem fin_bind {m : EdM α} {f : α → EdM β} (h1 : Kp C m) (h2 : ∀ a, Fin E C (f a)) : Fin E C (m >>= f) := by
  intro s hs
  rw [wp_bind]
  exact wp_mono (h1 s hs) (fun a s1 h => h2 a s1 h) (fun _ _ h => h) (fun _ h => h)
theorem fin_bind_up {m : EdM α} {f : α → EdM β} (h1 : Fin E C m) (h2 : ∀ a, Up E C (f a)) : Fin E C (m >>= f) := by
  intro s hs
  rw [wp_bind]
  exact wp_mono (h1 s hs) (fun a s1 h => h2 a s1 h) (fun _ _ h => h) (fun _ h => h)
theorem up_bind {m : EdM α} {f : α → EdM β} (h1 : Up E C m) (h2 : ∀ a, Up E C (f a)) : Up E C (m >>= f) := by
  intro s hs
  rw [wp_bind]
  exact wp_mono (h1 s hs) (fun a s1 h => h2 a s1 h) (fun _ _ h => h) (fun _ h => h)

theorem kp_pure (a : α) : Kp C (pure a : EdM α) := fun _ hs => hs
theorem kp_get : Kp C (M.get : EdM Ed) := fun _ hs => hs
theorem kp_panic : Kp C (M.panic : EdM α) := fun _ _ => trivial
theorem kp_modify {f : Ed → Ed} (h : ∀ s, C s → C (f s)) : Kp C (M.modify f) := fun s hs => h s hs
theorem kp_ofOption (o : Option α) : Kp C (M.ofOption o : EdM α) := by
  intro s hs
  rw [wp_ofOption]
  exact ⟨fun _ _ => hs, fun _ => trivial⟩
theorem kp_ite {c : Prop} [Decidable c] {a b : EdM α} (ha : Kp C a) (hb : Kp C b) : Kp C (if c then a else b) := by
  split <;> assumption
theorem kp_curBuf : Kp C curBuf := by
  intro s hs
  rw [wp_curBuf]
  exact ⟨fun _ _ => hs, fun _ => trivial⟩
theorem fin_ite {c : Prop} [Decidable c] {a b : EdM α} (ha : Fin E C a) (hb : Fin E C b) : Fin E C (if c then a else b) := by
  split <;> assumption
theorem fin_panic : Fin E C (M.panic : EdM α) := fun _ _ => trivial
theorem up_pure (a : α) : Up E C (pure a : EdM α) := fun _ hs => hs
theorem up_get : Up E C (M.get : EdM Ed) := fun _ hs => hs
theorem up_panic : Up E C (M.panic : EdM α) := fun _ _ => trivial
theorem up_ofOption (o : Option α) : Up E C (M.ofOption o : EdM α) := by
  intro s hs
  rw [wp_ofOption]
  exact ⟨fun _ _ => hs, fun _ => trivial⟩
theorem up_ite {c : Prop} [Decidable c] {a b : EdM α} (ha : Up E C a) (hb : Up E C b) : Up E C (if c then a else b) := by
  split <;> assumption
theorem up_curBuf : Up E C curBuf := by
  intro s hs
  rw [wp_curBuf]
  exact ⟨fun _ _ => hs, fun _ => trivial⟩
theorem up_repeatN {m : EdM Unit} (h : Up E C m) : ∀ n, Up E C (M.repeatN n m)
  | 0 => up_pure ()
  | n + 1 => up_bind h fun _ => up_repeatN h n
theorem up_forEach {f : β → EdM Unit} {xs : List β} (h : ∀ x ∈ xs, Up E C (f x)) : Up E C (M.forEach xs f) := by
  induction xs with
  | nil => exact up_pure ()
  | cons x xs ih => exact up_bind (h x (by simp)) fun _ => ih fun y hy => h y (by simp [hy])

variable (hC : Scene E P H L C)
include hC

theorem fin_display : Fin E C (display E) := by
  intro s hs
  refine wp_mono (wp_and (hC.disp s hs) wp_run) (fun _ s' h => ⟨h.1, s, s', hs, h.2, rfl, ?_⟩) (fun _ _ _ => trivial) (fun _ _ => trivial)
  exact ⟨rfl, rfl, rfl, rfl, ⟨rfl, rfl⟩, fun _ => ⟨rfl, rfl⟩, rfl, Or.inr rfl⟩

theorem kp_display : Kp C (display E) := hC.disp

theorem setCur_kept {s : Ed} {b : Buffer} (hs : C s) (hb : BufInk P b) : C (setCur s b) := by
  have hi := hC.inks s hs
  unfold setCur
  split
  · exact hC.put s _ _ _ _ _ _ _ _ _ _ hs hi.new hb
  · exact hC.put s _ _ _ _ _ _ _ _ _ _ hs hb hi.his

theorem kp_curBufMut {f : Buffer → Option (α × Buffer)} (hf : InkOk P f) : Kp C (curBufMut f) := by
  intro s hs
  rw [wp_curBufMut]
  exact ⟨fun b a b' hb hf' => setCur_kept hC hs (hf b a b' (workBuf_ink (hC.inks s hs) hb) hf'), fun _ => trivial⟩

theorem kp_freshen : Kp C freshenHistory := by
  refine kp_modify fun s hs => ?_
  split
  · rename_i h
    simp only [Bool.and_eq_true] at h
    exact hC.load s hs h.1
  · exact hs

theorem kp_clearSearch : Kp C clearSearch := kp_modify hC.quiet

theorem kp_flush : Kp C (flush E) := by
  intro s hs
  rw [wp_flush]
  exact ⟨fun _ => hC.tick s _ hs, fun _ => trivial⟩

theorem kp_cursorSub (n : Nat) : Kp C (cursorSub n) := by
  intro s hs
  unfold Wp cursorSub
  split
  · rename_i h
    split at h
    · cases h; exact hC.put s _ _ _ _ _ _ _ _ _ _ hs (hC.inks s hs).new (hC.inks s hs).his
    · cases h
  · trivial
  · trivial

omit hC in
/-- A change of the state that is not seen. -/
theorem up_modify {f : Ed → Ed} (h : ∀ s, C s → C (f s)) (hl : ∀ s, Look s (f s) ∧ (f s).out = s.out) : Up E C (M.modify f) := by
  rintro s ⟨hs, s0, s1, h0, h1, h2, h3⟩
  refine ⟨h s hs, s0, s1, h0, h1, h2.trans (hl s).2.symm, ?_⟩
  obtain ⟨h4, -⟩ := hl s
  refine ⟨h4.1.trans h3.1, h4.2.trans h3.2, h4.3.trans h3.3, h4.4.trans h3.4, ⟨h4.5.1.trans h3.5.1, h4.5.2.trans h3.5.2⟩, fun hx => ?_,
    h4.7.trans h3.7, h4.8.elim Or.inl fun h => h3.8.imp h.trans h.trans⟩
  have h5 : s.isSearch = true := by
    unfold Ed.isSearch at hx ⊢
    rw [h3.5.1, h3.5.2]
    exact hx
  exact ⟨(h4.6 h5).1.trans (h3.6 hx).1, (h4.6 h5).2.trans (h3.6 hx).2⟩

theorem up_flush : Up E C (flush E) := by
  rintro s ⟨hs, s0, s1, h0, h1, h2, h3⟩
  rw [wp_flush]
  exact ⟨fun _ => ⟨hC.tick s _ hs, s0, s1, h0, h1, h2, ⟨h3.1, h3.2, h3.3, h3.4, h3.5, h3.6, h3.7, h3.8⟩⟩, fun _ => trivial⟩

theorem up_noEol (b : Bool) : Up E C (M.modify fun s : Ed => { s with noEol := b }) :=
  up_modify (fun s hs => hC.put s _ _ _ _ _ _ _ _ _ _ hs (hC.inks s hs).new (hC.inks s hs).his)
    fun _ => ⟨⟨rfl, rfl, rfl, rfl, ⟨rfl, rfl⟩, fun _ => ⟨rfl, rfl⟩, rfl, Or.inr rfl⟩, rfl⟩

theorem up_skip : Up E C skipCompletionsHint :=
  up_modify (fun s hs => hC.list s none hs (fun _ h => nomatch h))
    fun _ => ⟨⟨rfl, rfl, rfl, rfl, ⟨rfl, rfl⟩, fun _ => ⟨rfl, rfl⟩, rfl, Or.inl rfl⟩, rfl⟩

/-- Changes of the buffer that keep its text are not seen. -/
theorem up_curBufMut {f : Buffer → Option (α × Buffer)} (hf : InkOk P f) (hd : ∀ b a b', f b = some (a, b') → b'.data = b.data) :
    Up E C (curBufMut f) := by
  rintro s ⟨hs, s0, s1, h0, h1, h2, h3⟩
  rw [wp_curBufMut]
  refine ⟨fun b a b' hb hf' => ⟨setCur_kept hC hs (hf b a b' (workBuf_ink (hC.inks s hs) hb) hf'), s0, s1, h0, h1, ?_, ?_⟩, fun _ => trivial⟩
  · rw [h2]
    unfold setCur; split <;> rfl
  · have ht : text? (setCur s b') = text? s := by
      unfold text?
      obtain ⟨c, hc, hcd⟩ := curBuf_of_workBuf hb
      rw [setCur_curBuf, hc]
      simp [hd b a b' hf', hcd]
    have hx : ∀ {γ : Type} (g : Ed → γ), (∀ (s : Ed) bc (n h : Buffer) v, g { s with bufferChanged := bc, newBuf := n, histBuf := h, histBufValid := v } = g s) →
        g (setCur s b') = g s := by
      intro γ g hg
      unfold setCur
      split
      · exact hg s _ _ _ _
      · exact hg s _ _ _ _
    refine ⟨?_, ht.trans h3.2, ?_, ?_, ⟨?_, ?_⟩, fun h => ⟨?_, ?_⟩, ?_, ?_⟩
    · exact (hx (·.prompt) fun _ _ _ _ _ => rfl).trans h3.1
    · exact (hx (·.cursor) fun _ _ _ _ _ => rfl).trans h3.3
    · exact (hx (·.autosuggestion.map (·.data)) fun _ _ _ _ _ => rfl).trans h3.4
    · exact (hx (·.reverseSearch) fun _ _ _ _ _ => rfl).trans h3.5.1
    · exact (hx (·.forwardSearch) fun _ _ _ _ _ => rfl).trans h3.5.2
    · exact (hx (·.historySubsetIndex) fun _ _ _ _ _ => rfl).trans (h3.6 h).1
    · exact (hx (·.historySubsetLoc) fun _ _ _ _ _ => rfl).trans (h3.6 h).2
    · exact (hx (·.termCursorLine) fun _ _ _ _ _ => rfl).trans h3.7
    · have h := hx (·.showCompletionsHint) fun _ _ _ _ _ => rfl
      exact h3.8.imp h.trans h.trans

end

/-- Go through the program text. -/
macro "scene " h:ident : tactic => `(tactic| repeat' (first
  | with_reducible exact fin_display $h
  | with_reducible exact kp_display $h
  | with_reducible exact kp_freshen $h
  | with_reducible exact kp_clearSearch $h
  | with_reducible exact kp_cursorSub $h _
  | with_reducible exact kp_curBuf
  | with_reducible exact kp_curBufMut $h inkOk_undo
  | with_reducible exact kp_curBufMut $h inkOk_redo
  | with_reducible exact kp_curBufMut $h inkOk_revert
  | with_reducible exact kp_curBufMut $h (inkOk_readWord _)
  | with_reducible exact kp_curBufMut $h (inkOk_removeNext _)
  | with_reducible exact kp_curBufMut $h (inkOk_remove _ _)
  | with_reducible exact kp_curBufMut $h (inkOk_truncate _)
  | with_reducible exact kp_get
  | with_reducible exact kp_panic
  | with_reducible exact kp_pure _
  | with_reducible exact kp_ofOption _
  | with_reducible exact fin_panic
  | with_reducible assumption
  | with_reducible apply fin_bind
  | with_reducible apply fin_ite
  | with_reducible apply kp_bind
  | with_reducible apply kp_ite
  | exact kp_modify fun s hs => Scene.put $h s _ _ _ _ _ _ _ _ _ _ hs (Scene.inks $h s hs).new (Scene.inks $h s hs).his
  | with_reducible intro _
  | split
  | dsimp only))

section
variable {E : Env} {P : Char → Prop} {H : List Text → Prop} {L : Prop} {C : Ed → Prop} (hC : Scene E P H L C)
include hC

theorem fin_moveEnd : Fin E C (moveCursorToEndOfLine E) := by unfold moveCursorToEndOfLine; scene hC
theorem fin_undo : Fin E C (undo E) := by
  have := fin_moveEnd hC
  unfold undo
  refine fin_bind (kp_curBufMut hC inkOk_undo) fun _ => fin_ite ?_ ?_
  · exact fin_bind_up this fun _ => up_pure _
  · exact fin_bind_up (fin_display hC) fun _ => up_pure _
theorem fin_redo : Fin E C (redo E) := by
  have := fin_moveEnd hC
  unfold redo
  refine fin_bind (kp_curBufMut hC inkOk_redo) fun _ => fin_ite ?_ ?_
  · exact fin_bind_up this fun _ => up_pure _
  · exact fin_bind_up (fin_display hC) fun _ => up_pure _
theorem fin_revert : Fin E C (revert E) := by
  have := fin_moveEnd hC
  unfold revert
  refine fin_bind (kp_curBufMut hC inkOk_revert) fun _ => fin_ite ?_ ?_
  · exact fin_bind_up this fun _ => up_pure _
  · exact fin_bind_up (fin_display hC) fun _ => up_pure _
omit hC in
theorem kp_wordBefore (i : Bool) : Kp C (getWordBeforeCursor E i) := by
  unfold getWordBeforeCursor wordsAndPos
  exact kp_bind (kp_bind kp_curBuf fun _ => kp_bind kp_get fun _ => kp_pure _) fun _ => kp_pure _
theorem fin_deleteWord (i : Bool) : Fin E C (deleteWordBeforeCursor E i) := by
  have := kp_wordBefore (E := E) (C := C) i
  unfold deleteWordBeforeCursor; scene hC
theorem fin_insert {cs : Text} (h : Ink P cs) : Fin E C (insertCharsAfterCursor E cs) := by
  have := fun i : Nat => kp_curBufMut hC (inkOk_insert i h)
  unfold insertCharsAfterCursor; scene hC
  exact this _
theorem fin_clear (hl : L) : Fin E C (clear E) := by
  unfold clear
  refine fin_bind (kp_modify fun s hs => hC.top hl s _ hs) fun _ => ?_
  scene hC
theorem fin_searchOn (f : Bool) (s : Ed) (hs : C s) (hi : s.isSearch = true) :
    Wp (search E f) s (fun _ s' => Now E C s') (fun _ _ => True) (fun _ => True) := by
  unfold search
  rw [wp_bind, wp_get]
  simp only [hi, Bool.not_true, Bool.false_eq_true, if_false]
  refine (?_ : Fin E C _) s hs
  scene hC
theorem fin_search (f : Bool) (hr : ∀ s, C s → C (refreshed f s)) : Fin E C (search E f) := by
  have : Kp C (refreshSearch f) := kp_modify hr
  unfold search; scene hC
theorem fin_moveUp : Fin E C (moveUp E) := by
  intro s hs
  unfold moveUp
  rw [wp_bind, wp_get]
  split
  · rename_i h
    exact fin_searchOn hC false s hs h
  · have h2 := fin_moveEnd hC
    have h3 : Kp C moveUpLoc := by unfold moveUpLoc; scene hC
    refine (?_ : Fin E C _) s hs
    scene hC
theorem fin_moveDown : Fin E C (moveDown E) := by
  intro s hs
  unfold moveDown
  rw [wp_bind, wp_get]
  split
  · rename_i h
    exact fin_searchOn hC true s hs h
  · have h2 := fin_moveEnd hC
    have h3 : Kp C moveDownLoc := by unfold moveDownLoc; scene hC
    refine (?_ : Fin E C _) s hs
    scene hC
theorem fin_histStart : Fin E C (moveToStartOfHistory E) := by
  have h2 := fin_moveEnd hC
  unfold moveToStartOfHistory; scene hC
theorem fin_histEnd : Fin E C (moveToEndOfHistory E) := by
  have h2 := fin_moveEnd hC
  unfold moveToEndOfHistory; scene hC
theorem fin_deleteBefore : Fin E C (deleteBeforeCursor E) := by unfold deleteBeforeCursor; scene hC
theorem fin_deleteAfter : Fin E C (deleteAfterCursor E) := by unfold deleteAfterCursor; scene hC
theorem fin_deleteAllBefore : Fin E C (deleteAllBeforeCursor E) := by unfold deleteAllBeforeCursor; scene hC
theorem fin_deleteAllAfter : Fin E C (deleteAllAfterCursor E) := by unfold deleteAllAfterCursor; scene hC
theorem fin_deleteUntil (p : Nat) : Fin E C (deleteUntil E p) := by unfold deleteUntil; scene hC
theorem fin_deleteUntilInclusive (p : Nat) : Fin E C (deleteUntilInclusive E p) := by unfold deleteUntilInclusive; scene hC
theorem fin_left (n : Nat) : Fin E C (moveCursorLeft E n) := by unfold moveCursorLeft; scene hC
theorem fin_right (n : Nat) : Fin E C (moveCursorRight E n) := by unfold moveCursorRight; scene hC
theorem fin_to (n : Nat) : Fin E C (moveCursorTo E n) := by unfold moveCursorTo; scene hC
theorem fin_home : Fin E C (moveCursorToStartOfLine E) := by unfold moveCursorToStartOfLine; scene hC
omit hC in
theorem up_atEnd : Up E C cursorIsAtEndOfLine := by
  unfold cursorIsAtEndOfLine
  refine up_bind up_curBuf fun b => up_bind up_get fun s => ?_
  exact up_ite (up_ite up_panic (up_pure _)) (up_pure _)

omit hC in
theorem kp_isWhole (cs : List Text) (i : Option Nat) : Kp C (isWhole cs i) := by
  unfold isWhole
  split
  · exact kp_pure _
  · exact kp_bind kp_curBuf fun _ => kp_bind (kp_ofOption _) fun _ => kp_pure _
theorem kp_dropCandidate (w : Bool) : Kp C (dropCandidate E w) := by
  have := (fin_deleteWord hC false).kp
  unfold dropCandidate; scene hC

theorem kp_hint {x : Option (List Text × Option Nat)} (hx : ∀ y, x = some y → H y.1 ∧ ∀ c ∈ y.1, Ink P c) :
    Kp C (M.modify fun s : Ed => { s with showCompletionsHint := x }) := kp_modify fun s hs => hC.list s x hs hx

theorem kp_completeNext {cs : List Text} (i : Option Nat) (hH : H cs) (hc : ∀ c ∈ cs, Ink P c) : Kp C (completeNext E cs i) := by
  unfold completeNext
  refine kp_bind (kp_hint hC (fun _ h => nomatch h)) fun _ => kp_bind (kp_ofOption _) fun i => kp_bind (kp_isWhole _ _) fun w =>
    kp_bind (kp_dropCandidate hC w) fun _ => ?_
  intro s hs
  rw [wp_bind, wp_ofOption]
  refine ⟨fun c hx => ?_, fun _ => trivial⟩
  have := kp_bind (fin_insert hC (hc c (List.mem_of_getElem? hx))).kp fun _ =>
    kp_hint hC (x := some (cs, some i)) (fun y h => by cases h; exact ⟨hH, hc⟩)
  exact this s hs

/-- The completer answers with characters in `P` and lists in `H`. -/
def CompOk (P : Char → Prop) (H : List Text → Prop) (comp : Text → List Text) : Prop :=
  ∀ w, (∀ c ∈ sortDedup (comp w), Ink P c) ∧ ((sortDedup (comp w)).length ≠ 0 → (sortDedup (comp w)).length ≠ 1 → H (sortDedup (comp w)))

omit hC in
theorem commonPrefix_ink {cs : List Text} {p : Text} (h : findLongestCommonPrefix cs = some p) (hc : ∀ c ∈ cs, Ink P c) : Ink P p := by
  match cs, h with
  | [w], h => cases h; exact hc _ (by simp)
  | w :: v :: ws, h =>
    obtain ⟨q, hq⟩ := ((Props.C13_lcp _ (by simp) p).mp h).2.1 w (by simp)
    have := hc w (by simp)
    rw [← hq] at this
    exact this.left

theorem up_completeFirst {comp : Text → List Text} (hc : CompOk P H comp) : Up E C (completeFirst E comp) := by
  have h3 := fin_deleteWord hC false
  unfold completeFirst
  refine up_bind ?_ fun r => up_bind (up_curBufMut hC (inkOk_readWord r) fun b a b' h => readWord_data h) fun w => ?_
  · unfold getWordBeforeCursor wordsAndPos
    exact up_bind (up_bind up_curBuf fun _ => up_bind up_get fun _ => up_pure _) fun _ => up_pure _
  obtain ⟨h1, h2⟩ := hc w
  dsimp only
  generalize sortDedup (comp w) = cs at h1 h2
  split
  · exact up_skip hC
  · exact up_bind (up_skip hC) fun _ => up_bind h3.up fun _ => (fin_insert hC (h1 _ (by simp))).up
  · rename_i hn0 hn1
    have hH : H cs := by
      refine h2 (fun h => hn0 (List.length_eq_zero_iff.mp h)) fun h => ?_
      obtain ⟨a, rfl⟩ := List.length_eq_one_iff.mp h
      exact hn1 a rfl
    have hd := (fin_bind (kp_hint hC (x := some (cs, none)) (fun y h => by cases h; exact ⟨hH, h1⟩)) fun _ => fin_display hC).up
    split
    · rename_i p hp
      refine up_ite (up_bind h3.up fun _ => (fin_insert hC (commonPrefix_ink hp h1)).up) hd
    · exact hd

theorem up_complete {comp : Text → List Text} (hc : CompOk P H comp) : Up E C (complete E comp) := by
  unfold complete
  intro s hs
  rw [wp_bind, wp_get]
  split
  · rename_i cs i hx
    have := (hC.inks s hs.1).hint _ hx
    exact fin_bind (kp_completeNext hC i (hC.lists s _ hs.1 hx) this) (fun _ => fin_display hC) s hs.1
  · exact up_completeFirst hC hc s hs

/-- After a redraw outside a search there is still no search. -/
theorem quiet_display (s : Ed) (hs : C s) (hi : s.isSearch = false) :
    Wp (display E) s (fun _ s' => Now E C s' ∧ s'.isSearch = false) (fun _ _ => True) (fun _ => True) :=
  wp_mono (wp_and (fin_display hC s hs) (display_wp E s)) (fun _ _ h => ⟨h.1, by rw [h.2.same.isSearch]; exact hi⟩)
    (fun _ _ _ => trivial) (fun _ _ => trivial)

/-- The end of `accept_autosuggestion`. -/
theorem fin_accept_quiet (s : Ed) (hs : C s) : Wp (acceptAutosuggestion E) s (fun _ s' => Now E C s' ∧ s'.isSearch = false)
    (fun _ _ => True) (fun _ => True) := by
  unfold acceptAutosuggestion
  rw [wp_bind, wp_get]
  have h1 : ∀ s1, C s1 → Wp (do clearSearch; moveCursorToEndOfLine E) s1 (fun _ s' => Now E C s' ∧ s'.isSearch = false)
      (fun _ _ => True) (fun _ => True) := by
    intro s1 h
    rw [wp_bind]
    show Wp (moveCursorToEndOfLine E) _ _ _ _
    unfold moveCursorToEndOfLine
    rw [wp_bind, wp_curBuf]
    refine ⟨fun b _ => ?_, fun _ => trivial⟩
    rw [wp_bind, wp_modify]
    have h2 := hC.quiet s1 h
    exact quiet_display hC _ (hC.put _ _ _ _ _ _ _ _ _ _ _ h2 (hC.inks _ h2).new (hC.inks _ h2).his) rfl
  dsimp only
  split
  · rw [wp_bind]
    exact wp_mono (kp_curBufMut hC (inkOk_accept _ fun x hx => (hC.inks s hs).sug x hx) s hs) (fun _ s1 h => h1 s1 h)
      (fun _ _ h => h) (fun _ h => h)
  · exact h1 s hs

theorem fin_accept : Fin E C (acceptAutosuggestion E) := fun s hs =>
  wp_mono (fin_accept_quiet hC s hs) (fun _ _ h => h.1) (fun _ _ h => h) (fun _ h => h)

theorem now_clearSearch (s : Ed) (hs : Now E C s) (hi : s.isSearch = false) :
    Wp clearSearch s (fun _ s' => Now E C s') (fun _ _ => True) (fun _ => True) := by
  obtain ⟨hs, s0, s1, h0, h1, h2, h3⟩ := hs
  refine ⟨hC.quiet s hs, s0, s1, h0, h1, h2, ?_⟩
  have hi' : s.reverseSearch = false ∧ s.forwardSearch = false := by simpa [Ed.isSearch] using hi
  refine ⟨h3.1, h3.2, h3.3, h3.4, ⟨hi'.1.symm.trans h3.5.1, hi'.2.symm.trans h3.5.2⟩, fun h => ?_, h3.7, h3.8⟩
  rw [Ed.isSearch, ← h3.5.1, ← h3.5.2, hi'.1, hi'.2] at h
  cases h

/-- Enter that does not finish the line. -/
theorem now_newline (hnl : P '\n') (s : Ed) (hs : Now E C s) :
    Wp (handleNewline E) s (fun r s' => r = false → Now E C s') (fun _ _ => True) (fun _ => True) := by
  unfold handleNewline acceptIfSearch
  rw [wp_bind, wp_modify, wp_bind, wp_bind, wp_get]
  have hf : ∀ s, Now E C s → Wp (finishLine E) s (fun r s' => r = false → Now E C s') (fun _ _ => True) (fun _ => True) := by
    intro s hs
    unfold finishLine
    rw [wp_bind, wp_get]
    split
    · rw [wp_bind]
      exact wp_mono (up_skip hC s hs) (fun _ _ h _ => h) (fun _ _ h => h) (fun _ h => h)
    · rw [wp_bind, wp_curBuf]
      refine ⟨fun b _ => ?_, fun _ => trivial⟩
      split
      · rw [wp_bind]
        have hn : Ink P ['\n'] := by intro c hc; cases hc with
          | head => exact hnl
          | tail _ h => cases h
        exact wp_mono (fin_insert hC hn s hs.1) (fun _ _ h _ => h) (fun _ _ h => h) (fun _ h => h)
      · simp only [wp_bind, wp_modify]
        refine wp_mono wp_trivial (fun _ _ _ => ?_) (fun _ _ h => h) (fun _ h => h)
        refine wp_mono wp_trivial (fun _ _ _ => ?_) (fun _ _ h => h) (fun _ h => h)
        exact fun h => nomatch h
  have hs1 : Now E C { s with historyFresh := false } :=
    up_modify (f := fun s : Ed => { s with historyFresh := false })
      (fun s hs => hC.put s _ _ _ _ _ _ _ _ _ _ hs (hC.inks s hs).new (hC.inks s hs).his)
      (fun _ => ⟨⟨rfl, rfl, rfl, rfl, ⟨rfl, rfl⟩, fun _ => ⟨rfl, rfl⟩, rfl, Or.inr rfl⟩, rfl⟩) s hs
  split
  · refine wp_mono (fin_accept_quiet hC _ hs1.1) (fun _ s1 h => ?_) (fun _ _ h => h) (fun _ h => h)
    rw [wp_bind]
    exact wp_mono (now_clearSearch hC s1 h.1 h.2) (fun _ s2 h => hf s2 h) (fun _ _ h => h) (fun _ h => h)
  · rename_i hn
    rw [wp_pure, wp_bind]
    exact wp_mono (now_clearSearch hC _ hs1 (by simpa using hn)) (fun _ s2 h => hf s2 h) (fun _ _ h => h) (fun _ h => h)

theorem kp_setViMode (m : ViPromptMode) : Kp C (setViMode m) := by
  refine kp_modify fun s hs => ?_
  split
  · rename_i st h
    exact hC.mode s m st hs h
  · exact hs

end
end Editor
end Liner
