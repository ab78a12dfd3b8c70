import Verif.Proof.AkinKeys
/-
Two runs with the same text: the start.
-/

namespace Liner
open Liner.Editor M KM

/-! ### Steps that concern the terminal only -/

/-- From the state `s0`, or one that differs from it in what concerns the terminal, the step leads to such a state. -/
def OuterAt {α : Type} (s0 : Ed) (m : EdM α) : Prop :=
  ∀ s, Alike s0 s → Lost (m s) ∨ ∃ a s1, m s = .ok a s1 ∧ Alike s0 s1

section
variable {α β : Type} {s0 : Ed} {E : Env}

theorem OuterAt.bind {m : EdM α} {f : α → EdM β} (h : OuterAt s0 m) (h' : ∀ a, OuterAt s0 (f a)) :
    OuterAt s0 (m >>= f) := by
  intro s hs
  show Lost (M.bind m f s) ∨ ∃ a s1, M.bind m f s = _ ∧ _
  unfold M.bind
  rcases h s hs with h1 | ⟨a, s1, e1, a1⟩
  · left
    revert h1
    cases m s <;> simp [Lost]
  · rw [e1]
    exact h' a s1 a1

theorem outerAt_pure (a : α) : OuterAt s0 (pure a : EdM α) := fun s hs => .inr ⟨a, s, rfl, hs⟩

theorem outerAt_get : OuterAt s0 M.get := fun s hs => .inr ⟨s, s, rfl, hs⟩

theorem outerAt_redraw (o : Option α) : OuterAt s0 (M.ofOptionRedraw o : EdM α) := fun s hs => by
  cases o with
  | none => exact .inl (by simp [Lost, M.ofOptionRedraw, M.panicAt])
  | some a => exact .inr ⟨a, s, rfl, hs⟩

theorem outerAt_rows (o : Option α) : OuterAt s0 (M.ofOptionRows o : EdM α) := fun s hs => by
  cases o with
  | none => exact .inl (by simp [Lost, M.ofOptionRows, M.panicAt])
  | some a => exact .inr ⟨a, s, rfl, hs⟩

theorem Outer.at {m : EdM Unit} (h : Outer m) : OuterAt s0 m := fun s hs => by
  rcases h s with h1 | ⟨s1, e1, a1⟩
  · exact .inl h1
  · exact .inr ⟨(), s1, e1, hs.trans a1⟩

theorem outerAt_size : OuterAt s0 (terminalSize E) := fun s hs => by
  unfold terminalSize
  split
  · exact .inr ⟨_, _, rfl, hs.trans ⟨_, _, _, _, _, rfl⟩⟩
  · exact .inl rfl

theorem outerAt_completions (x : Option (List Text × Option Nat)) : OuterAt s0 (completionPart E x) := by
  cases x with
  | none => exact outerAt_pure _
  | some x => exact OuterAt.bind (OuterAt.bind outerAt_size fun _ => outerAt_pure _) fun _ => outerAt_pure _

theorem Alike.buf {s t : Ed} (h : Alike s t) : t.curBuf? = s.curBuf? := by
  obtain ⟨p, l, c, o, n, rfl⟩ := h; rfl

/-- A redraw with the cursor within the line. -/
theorem outerAt_impl {b : Buffer} (hb : s0.curBuf? = some b)
    (hc : clampCursor s0.noEol b.numChars s0.cursor = s0.cursor) (x : Bool) : OuterAt s0 (displayImpl E x) := by
  unfold displayImpl
  refine OuterAt.bind (fun s hs => ?_) fun pr => OuterAt.bind (OuterAt.bind outerAt_size fun _ => outerAt_pure _) fun tw => ?_
  · unfold searchPrompt
    rw [hs.buf, hb]
    dsimp only
    split
    · exact .inr ⟨_, _, rfl, hs⟩
    · exact .inr ⟨_, _, rfl, hs⟩
  intro s hs
  have e : curBuf s = .ok b s := by unfold curBuf; rw [hs.buf, hb]
  show Lost (M.bind curBuf _ s) ∨ ∃ a s1, M.bind curBuf _ s = _ ∧ _
  unfold M.bind
  rw [e]
  dsimp only
  revert s hs
  have : OuterAt s0 (M.modify fun s : Ed => { s with cursor := clampCursor s.noEol b.numChars s.cursor }) := by
    intro s hs
    refine .inr ⟨(), _, rfl, ?_⟩
    obtain ⟨p, l, c, o, n, rfl⟩ := hs
    refine ⟨p, l, c, o, n, ?_⟩
    dsimp only
    rw [hc]
  intro s hs e
  refine (OuterAt.bind this fun _ => OuterAt.bind outerAt_get fun _ => OuterAt.bind (outerAt_redraw _) fun _ =>
    OuterAt.bind (outerAt_rows _) fun _ => OuterAt.bind (outerAt_completions _) fun _ =>
    OuterAt.bind (outerAt_redraw _) fun _ => OuterAt.bind (fun s hs => .inr ⟨_, _, rfl, hs.trans ⟨_, _, _, _, _, rfl⟩⟩) fun _ =>
    OuterAt.bind (Outer.at (outer_write _ _)) fun _ => Outer.at (outer_flush _)) s hs

end

/-! ### A line as it was begun -/

/-- The entry suggested for a text. -/
def proposal (h : History) (x : Text) : Option Buffer :=
  (h.getNewestMatch (some h.buffers.length) (.ofText x)).bind (h.buffers[·]?)

/-- The new line is `x`, with the cursor at its end, and nothing else was done but to redraw; the suggestion is `g`. -/
def Begun (h : History) (fs : FS) (x : Text) (g : Option Buffer) (s : Ed) : Prop := ∃ p l c o n b ch, b.data = x ∧
  s = { prompt := p, cursor := x.length, newBuf := b, bufferChanged := ch, autosuggestion := g, history := h, fs := fs,
        termCursorLine := l, ctxBuf := c, out := o, tick := n }

section
variable {h : History} {fs : FS} {x : Text} {g : Option Buffer} {s t : Ed} {E : Env}

theorem Begun.akin (w : Prop) (hs : Begun h fs x g s) (ht : Begun h fs x g t) : Akin w s t := by
  obtain ⟨p, l, c, o, n, b, ch, e, rfl⟩ := hs
  obtain ⟨p', l', c', o', n', b', ch', e', rfl⟩ := ht
  exact ⟨p', l', c', o', n', b', {}, ch', e'.trans e.symm, fun _ => rfl, nofun, fun _ => ⟨rfl, rfl, nofun⟩, rfl⟩

theorem Begun.outer (hs : Begun h fs x g s) (ha : Alike s t) : Begun h fs x g t := by
  obtain ⟨p, l, c, o, n, b, ch, e, rfl⟩ := hs
  obtain ⟨_, _, _, _, _, rfl⟩ := ha
  exact ⟨_, _, _, _, _, _, _, e, rfl⟩

theorem begun_suggestion (hs : Begun h fs x g s) : currentAutosuggestion s = .ok (proposal h x) s := by
  obtain ⟨p, l, c, o, n, b, ch, e, rfl⟩ := hs
  rw [suggestion_eq]
  unfold suggestedIdx
  have e1 : h.getNewestMatch (some h.buffers.length) b = h.getNewestMatch (some h.buffers.length) (.ofText x) :=
    newest_same _ _ e
  simp only [Ed.isSearch, Bool.or_self, Bool.false_eq_true, if_false, if_true, e1]
  unfold proposal
  cases hn : h.getNewestMatch (some h.buffers.length) (.ofText x) with
  | none => rfl
  | some i =>
    have hi := ((Props.C17_newest_match _ _ _ i).mp hn).1
    simp only [Option.getD_some] at hi
    simp only [Option.bind_some]
    rw [List.getElem?_eq_getElem hi]

theorem begun_display (hs : Begun h fs x g s) :
    Lost (display E s) ∨ ∃ s1, display E s = .ok () s1 ∧ Begun h fs x (proposal h x) s1 := by
  have hp : polled s = s := by
    obtain ⟨p, l, c, o, n, b, ch, e, rfl⟩ := hs
    rfl
  rw [display_polled, hp]
  show Lost (M.bind currentAutosuggestion _ s) ∨ ∃ s1, M.bind currentAutosuggestion _ s = _ ∧ _
  unfold M.bind
  rw [begun_suggestion hs]
  dsimp only
  have hs1 : Begun h fs x (proposal h x) { s with autosuggestion := proposal h x } := by
    obtain ⟨p, l, c, o, n, b, ch, e, rfl⟩ := hs
    exact ⟨_, _, _, _, _, _, _, e, rfl⟩
  show Lost (displayImpl E true { s with autosuggestion := proposal h x }) ∨
    ∃ s1, displayImpl E true { s with autosuggestion := proposal h x } = _ ∧ _
  have ho : OuterAt { s with autosuggestion := proposal h x } (displayImpl E true) := by
    obtain ⟨p, l, c, o, n, b, ch, e, rfl⟩ := hs
    exact outerAt_impl (b := b) rfl (by simp [clampCursor, Buffer.numChars, e]) _
  rcases ho _ (.refl _) with h1 | ⟨_, s1, e1, a1⟩
  · exact .inl h1
  · exact .inr ⟨s1, e1, hs1.outer a1⟩

/-- The step ends well in such a state, unless the terminal stops it. -/
def Ensues (m : EdM Unit) (s : Ed) (P : Ed → Prop) : Prop := Lost (m s) ∨ ∃ s1, m s = .ok () s1 ∧ P s1

theorem Ensues.bind {m : EdM Unit} {f : Unit → EdM Unit} {s : Ed} {P P' : Ed → Prop} (h : Ensues m s P)
    (h' : ∀ s1, P s1 → Ensues (f ()) s1 P') : Ensues (m >>= f) s P' := by
  show Lost (M.bind m f s) ∨ ∃ s1, M.bind m f s = _ ∧ _
  unfold M.bind
  rcases h with h1 | ⟨s1, e1, a1⟩
  · left
    revert h1
    cases m s <;> simp [Lost]
  · rw [e1]
    exact h' s1 a1

theorem begun_eol {p : Prompt} {l : Nat} {c o : List Tok} {n c0 : Nat} {b : Buffer} {ch : Bool} (e : b.data = x) :
    Ensues (moveCursorToEndOfLine E)
      { prompt := p, cursor := c0, newBuf := b, bufferChanged := ch, autosuggestion := g, history := h, fs := fs,
        termCursorLine := l, ctxBuf := c, out := o, tick := n } (Begun h fs x (proposal h x)) := by
  have e1 : moveCursorToEndOfLine E
      { prompt := p, cursor := c0, newBuf := b, bufferChanged := ch, autosuggestion := g, history := h, fs := fs,
        termCursorLine := l, ctxBuf := c, out := o, tick := n } = display E
      { prompt := p, cursor := x.length, newBuf := b, bufferChanged := ch, autosuggestion := g, history := h, fs := fs,
        termCursorLine := l, ctxBuf := c, out := o, tick := n } := by
    subst e
    rfl
  unfold Ensues
  rw [e1]
  exact begun_display ⟨_, _, _, _, _, _, _, e, rfl⟩

theorem begun_start (hE : E.ttyWidth ≠ some 0) (p p0 : Prompt) :
    Ensues (start E p) (initial p0 h fs (.ofText x)) (Begun h fs x (proposal h x)) := by
  have g0 : E.ttyWidth.getD 80 ≠ 0 := by
    cases hw : E.ttyWidth with
    | none => simp
    | some n => rw [hw] at hE; simpa using hE
  have hw : ∀ (m : EdM Unit), Outer m → ∀ s, Alike (initial p0 h fs (.ofText x)) s →
      Ensues m s (Alike (initial p0 h fs (.ofText x))) := by
    intro m hm s hs
    rcases hm s with h1 | ⟨s1, e1, a1⟩
    · exact .inl h1
    · exact .inr ⟨s1, e1, hs.trans a1⟩
  unfold start
  dsimp only
  rw [if_neg g0]
  refine (hw _ (outer_write _ _) _ (.refl _)).bind fun s hs => (hw _ (outer_repeat (outer_write _ _) _) s hs).bind fun s hs =>
    (hw _ (outer_write _ _) s hs).bind fun s hs => (hw _ (outer_write _ _) s hs).bind fun s hs => ?_
  obtain ⟨p, l, c, o, n, rfl⟩ := hs
  cases x with
  | nil => exact begun_display (g := none) ⟨_, _, _, _, _, {}, _, rfl, rfl⟩
  | cons y ys =>
    show Ensues (moveCursorToEndOfLine E >>= fun _ => display E)
      { prompt := p, cursor := 0, newBuf := .ofText (y :: ys), bufferChanged := false, autosuggestion := none, history := h, fs := fs,
        termCursorLine := l, ctxBuf := c, out := o, tick := n } _
    exact Ensues.bind (begun_eol (x := y :: ys) rfl) fun s hs => begun_display hs

/-- Vi starts with another redraw. -/
theorem begun_vi (hs : Begun h fs x g s) :
    Lost (Vi.keyMap.init E ({}, s)) ∨ ∃ s1, Vi.keyMap.init E ({}, s) = .ok () ({}, s1) ∧ Begun h fs x (proposal h x) s1 := by
  obtain ⟨p, l, c, o, n, b, ch, e, rfl⟩ := hs
  have hd : ∀ p, Begun h fs x g { prompt := p, cursor := x.length, newBuf := b.startUndoGroup, bufferChanged := true, autosuggestion := g, history := h, fs := fs, termCursorLine := l, ctxBuf := c, out := o, tick := n } :=
    fun p => ⟨p, l, c, o, n, b.startUndoGroup, true, e, rfl⟩
  have key : ∀ p, Vi.keyMap.init E (({} : Vi), { prompt := p, cursor := x.length, newBuf := b, bufferChanged := ch, autosuggestion := g, history := h, fs := fs, termCursorLine := l, ctxBuf := c, out := o, tick := n }) =
      (ed (display E) : KM Vi Unit) (({} : Vi), { (match p.viStatus with
        | some st => ({ prompt := { p with viStatus := some { st with mode := .insert } }, history := h, fs := fs } : Ed)
        | none => { prompt := p, history := h, fs := fs }) with cursor := x.length, newBuf := b.startUndoGroup, bufferChanged := true, autosuggestion := g, termCursorLine := l, ctxBuf := c, out := o, tick := n }) := by
    intro p
    cases hv : p.viStatus <;> simp [Vi.keyMap, Vi.init, Vi.setEditorMode, bind, M.bind, ed, M.zoom, getK, Vi.onBuf, curBufMut, workBuf, setCur, setViMode, M.modify, Vi.mode, hv]
  rw [key]
  unfold ed M.zoom
  dsimp only
  have hd2 : Begun h fs x g { (match p.viStatus with
        | some st => ({ prompt := { p with viStatus := some { st with mode := .insert } }, history := h, fs := fs } : Ed)
        | none => { prompt := p, history := h, fs := fs }) with cursor := x.length, newBuf := b.startUndoGroup, bufferChanged := true, autosuggestion := g, termCursorLine := l, ctxBuf := c, out := o, tick := n } := by
    cases p.viStatus <;> exact hd _
  rcases begun_display (E := E) hd2 with h1 | ⟨s1, e1, b1⟩
  · left
    revert h1
    generalize display E _ = r
    cases r <;> simp [Lost]
  · right
    refine ⟨s1, ?_, b1⟩
    rw [e1]

theorem begun_insert (hs : Begun h fs x g s) (y : Char) :
    Ensues (insertCharsAfterCursor E [y]) s (Begun h fs (x ++ [y]) (proposal h (x ++ [y]))) := by
  obtain ⟨p, l, c, o, n, b, ch, rfl, rfl⟩ := hs
  have hi : insertRaw b.data b.data.length [y] = some (b.data ++ [y]) := by
    simp [insertRaw]
  have e1 : insertCharsAfterCursor E [y]
      { prompt := p, cursor := b.data.length, newBuf := b, bufferChanged := ch, autosuggestion := g, history := h, fs := fs,
        termCursorLine := l, ctxBuf := c, out := o, tick := n } = display E
      { prompt := p, cursor := (b.data ++ [y]).length,
        newBuf := Buffer.pushAction { b with data := b.data ++ [y] } (.insert b.data.length [y]),
        bufferChanged := true, autosuggestion := g, history := h, fs := fs,
        termCursorLine := l, ctxBuf := c, out := o, tick := n } := by
    simp [insertCharsAfterCursor, bind, M.bind, M.get, curBufMut, workBuf, noRes, Buffer.insert, Action.doOn, hi, setCur, M.modify]
  unfold Ensues
  rw [e1]
  exact begun_display ⟨_, _, _, _, _, _, _, rfl, rfl⟩

/-- Typing a character. -/
theorem begun_type (hs : Begun h fs x g s) (comp : Text → List Text) {y : Char} (h1 : y ≠ '\t') (h2 : y ≠ '\n') :
    Lost (Emacs.keyMap.handleKey E comp (.char y) ({}, s)) ∨
      ∃ s1, Emacs.keyMap.handleKey E comp (.char y) ({}, s) = .ok false ({}, s1) ∧
        Begun h fs (x ++ [y]) (proposal h (x ++ [y])) s1 := by
  have hi := begun_insert (E := E) hs y
  have e : Emacs.keyMap.handleKey E comp (.char y) (({} : Emacs), s) =
      (ed (insertCharsAfterCursor E [y] >>= fun _ => skipCompletionsHint >>= fun _ => flush E) >>= fun _ => pure false :
        KM Emacs Bool) (({} : Emacs), s) := by
    obtain ⟨p, l, c, o, n, b, ch, rfl, rfl⟩ := hs
    have ht : KeyMap.translate (.char y) = .char y := by simp [KeyMap.translate]
    unfold KeyMap.handleKey KeyMap.dispatch
    simp only [ht]
    simp only [Emacs.keyMap, Emacs.handleKeyCore, Emacs.handleKeyBody,
      bind, M.bind, ed, M.zoom, curBuf, Ed.curBuf?, M.get, modK, pure, M.pure, reduceCtorEq, if_false, false_and,
      Key.char.injEq, h1, h2, skipCompletionsHint, M.modify, Bool.false_eq_true]
    generalize insertCharsAfterCursor E [y] _ = r
    cases r with
    | ok a s =>
      dsimp only
    | err => rfl
    | panic => rfl
  rw [e]
  have hr : Ensues (insertCharsAfterCursor E [y] >>= fun _ => skipCompletionsHint >>= fun _ => flush E) s
      (Begun h fs (x ++ [y]) (proposal h (x ++ [y]))) := by
    refine hi.bind fun s1 b1 => Ensues.bind (P := Begun h fs (x ++ [y]) (proposal h (x ++ [y]))) ?_ fun s2 b2 => ?_
    · refine .inr ⟨_, rfl, ?_⟩
      obtain ⟨p, l, c, o, n, b, ch, e, rfl⟩ := b1
      exact ⟨_, _, _, _, _, _, _, e, rfl⟩
    · rcases outer_flush E s2 with h3 | ⟨s3, e3, a3⟩
      · exact .inl h3
      · exact .inr ⟨s3, e3, b2.outer a3⟩
  show Lost (M.bind (ed _) _ _) ∨ ∃ s1, M.bind (ed _) _ _ = _ ∧ _
  unfold M.bind ed M.zoom
  dsimp only
  rcases hr with h3 | ⟨s3, e3, a3⟩
  · left
    revert h3
    generalize (insertCharsAfterCursor E [y] >>= fun _ => skipCompletionsHint >>= fun _ => flush E) s = r
    cases r <;> simp [Lost]
  · rw [e3]
    exact .inr ⟨s3, rfl, a3⟩

/-- Typing a text: a run that begins with it, and one that has it from the start. -/
theorem begun_loop {E' : Env} (hw : SameWords E E') {t : Ed} (input : List KeyMap.Input)
    (hk : ∀ k comp, KeyMap.Input.key k comp ∈ input → k ≠ .ctrl 'x' ∧ k ≠ .alt 'r') :
    ∀ (ys : List (Char × (Text → List Text))) (x : Text) (s : Ed), Begun h fs x (proposal h x) s →
      Begun h fs (x ++ ys.map Prod.fst) (proposal h (x ++ ys.map Prod.fst)) t →
      (∀ y ∈ ys, y.1 ≠ '\t' ∧ y.1 ≠ '\n') →
      Pair (OnK (Akin False)) (Emacs.keyMap.loop E (ys.map (fun y => .key (.char y.1) y.2) ++ input) ({}, s))
        (Emacs.keyMap.loop E' input ({}, t))
  | [], x, s, hs, ht, _ => by
    refine akin_loop (Q := Eq) Emacs.keyMap Emacs.keyMap input (fun k comp h => ?_) _ _ ⟨rfl, hs.akin False (by simpa using ht)⟩
    obtain ⟨h1, h2⟩ := hk k comp h
    refine akin_handleKey hw _ _ comp k fun _ _ _ => akin_emacs hw ?_ ?_
    · unfold KeyMap.translate; split
      · exact nofun
      · exact h1
    · unfold KeyMap.translate; split
      · exact nofun
      · exact h2
  | y :: ys, x, s, hs, ht, hy => by
    obtain ⟨h1, h2⟩ := hy y (by simp)
    have hcons : Emacs.keyMap.loop E ((y :: ys).map (fun y => .key (.char y.1) y.2) ++ input) (({} : Emacs), s) =
        (Emacs.keyMap.handleKey E y.2 (.char y.1) >>= fun done =>
          if done then ed M.get >>= fun s => ofOption (intoText s)
          else Emacs.keyMap.loop E (ys.map (fun y => .key (.char y.1) y.2) ++ input)) (({} : Emacs), s) := rfl
    rw [hcons]
    show Pair _ (M.bind _ _ _) _
    unfold M.bind
    rcases begun_type (E := E) hs y.2 h1 h2 with h3 | ⟨s1, e1, b1⟩
    · left
      revert h3
      generalize Emacs.keyMap.handleKey E y.2 (.char y.1) _ = r
      cases r <;> simp [Lost]
    · rw [e1]
      exact begun_loop hw input hk ys (x ++ [y.1]) s1 b1 (by simpa using ht) fun z hz => hy z (by simp [hz])

theorem begun_emacs_read (hE : E.ttyWidth ≠ some 0) (p : Prompt) (input : List KeyMap.Input) :
    Lost (Emacs.keyMap.readLine E p input ({}, initial p h fs (.ofText x))) ∨
      ∃ s1, Emacs.keyMap.readLine E p input ({}, initial p h fs (.ofText x)) = Emacs.keyMap.loop E input ({}, s1) ∧
        Begun h fs x (proposal h x) s1 := by
  have e : Emacs.keyMap.readLine E p input (({} : Emacs), initial p h fs (.ofText x)) =
      M.bind (ed (start E p)) (fun _ => Emacs.keyMap.handleKeys E input) (({} : Emacs), initial p h fs (.ofText x)) := rfl
  rw [e]
  unfold M.bind ed M.zoom
  dsimp only
  rcases begun_start (h := h) (fs := fs) (x := x) hE p p with h1 | ⟨s1, e1, b1⟩
  · left
    revert h1
    generalize start E p _ = r
    cases r <;> simp [Lost]
  · rw [e1]
    exact .inr ⟨s1, rfl, b1⟩

theorem begun_vi_read (hE : E.ttyWidth ≠ some 0) (p : Prompt) (input : List KeyMap.Input) :
    Lost (Vi.keyMap.readLine E p input ({}, initial p h fs (.ofText x))) ∨
      ∃ s1, Vi.keyMap.readLine E p input ({}, initial p h fs (.ofText x)) = Vi.keyMap.loop E input ({}, s1) ∧
        Begun h fs x (proposal h x) s1 := by
  have e : Vi.keyMap.readLine E p input (({} : Vi), initial p h fs (.ofText x)) =
      M.bind (ed (start E p)) (fun _ => M.bind (Vi.keyMap.init E) fun _ => Vi.keyMap.loop E input)
        (({} : Vi), initial p h fs (.ofText x)) := rfl
  rw [e]
  unfold M.bind ed M.zoom
  dsimp only
  rcases begun_start (h := h) (fs := fs) (x := x) hE p p with h1 | ⟨s1, e1, b1⟩
  · left
    revert h1
    generalize start E p _ = r
    cases r <;> simp [Lost]
  · rw [e1]
    dsimp only
    rcases begun_vi (E := E) b1 with h2 | ⟨s2, e2, b2⟩
    · left
      revert h2
      generalize Vi.keyMap.init E _ = r
      cases r <;> simp [Lost]
    · rw [e2]
      exact .inr ⟨s2, rfl, b2⟩

end
end Liner
