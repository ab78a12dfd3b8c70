import Verif.Proof.Wp
/-
What a redraw changes in the editor state.
-/

namespace Liner
namespace Editor

/-- The state from which a redraw draws: a running search is refreshed if the text changed. -/
def pre (s : Ed) : Ed :=
  if s.isSearch && s.bufferChanged then refreshed s.forwardSearch s else s

/-- The suggestion chosen by `current_autosuggestion`; the outer `none` is a panic. -/
def sugOf (s : Ed) : Option (Option Buffer) :=
  if s.histBufValid then some none
  else
    let idx : Option Nat :=
      if s.isSearch then s.searchHistoryLoc
      else if s.showAutosuggestions then
        match s.curHistoryLoc with
        | some i => some i
        | none => s.history.getNewestMatch (some s.history.buffers.length) s.newBuf
      else none
    match idx with
    | none => some none
    | some i =>
      match s.history.buffers[i]? with
      | some b => some (some b)
      | none => none

theorem currentAutosuggestion_run (s : Ed) :
    currentAutosuggestion s = match sugOf s with
      | some x => .ok x s
      | none => .panic .op := by
  unfold currentAutosuggestion sugOf
  by_cases h : s.histBufValid = true
  · simp [h]
  · simp only [h, if_false, Bool.false_eq_true]
    generalize (if s.isSearch = true then s.searchHistoryLoc else _) = idx
    cases idx with
    | none => rfl
    | some i =>
      dsimp only
      cases s.history.buffers[i]? <;> rfl

section
variable {Q : α → Ed → Prop} {R : IoErr → Ed → Prop} {P : Site → Prop} {s : Ed} {E : Env}

theorem wp_curBuf {Q : Buffer → Ed → Prop} : Wp curBuf s Q R P ↔
    (∀ b, s.curBuf? = some b → Q b s) ∧ (s.curBuf? = none → P .op) := by
  unfold Wp curBuf
  cases s.curBuf? <;> simp

theorem wp_terminalSize {Q : Nat → Ed → Prop} : Wp (terminalSize E) s Q R P ↔
    (∀ w, E.termSize s.tick = some w → Q w { s with tick := s.tick + 1 }) ∧
    (E.termSize s.tick = none → R .io { s with tick := s.tick + 1 }) := by
  unfold Wp terminalSize
  cases E.termSize s.tick <;> simp

theorem wp_terminalWidth {Q : Nat → Ed → Prop} : Wp (terminalWidth E) s Q R P ↔
    (∀ w, E.termSize s.tick = some w → Q (if w = 0 then 80 else w) { s with tick := s.tick + 1 }) ∧
    (E.termSize s.tick = none → R .io { s with tick := s.tick + 1 }) := by
  simp only [terminalWidth, wp_bind, wp_terminalSize, wp_pure]

theorem wp_writeTerm {toks : List Tok} {Q : Unit → Ed → Prop} : Wp (writeTerm E toks) s Q R P ↔
    (E.writeOk s.tick = true → Q () { s with tick := s.tick + 1, out := s.out ++ toks }) ∧
    (E.writeOk s.tick = false → R .io { s with tick := s.tick + 1 }) := by
  unfold Wp writeTerm
  cases E.writeOk s.tick <;> simp

theorem wp_flush {Q : Unit → Ed → Prop} : Wp (flush E) s Q R P ↔
    (E.writeOk s.tick = true → Q () { s with tick := s.tick + 1 }) ∧
    (E.writeOk s.tick = false → R .io { s with tick := s.tick + 1 }) := by
  unfold Wp flush
  cases E.writeOk s.tick <;> simp

theorem wp_currentAutosuggestion {Q : Option Buffer → Ed → Prop} :
    Wp currentAutosuggestion s Q R P ↔
      (∀ x, sugOf s = some x → Q x s) ∧ (sugOf s = none → P .op) := by
  unfold Wp
  rw [currentAutosuggestion_run]
  cases sugOf s <;> simp

end

/-- The prompt used when the current line is `b`. -/
theorem wp_searchPrompt {E : Env} {s : Ed} {Q : Text × Nat → Ed → Prop} {R : IoErr → Ed → Prop}
    {P : Site → Prop} :
    Wp (searchPrompt E) s Q R P ↔
      (s.isSearch = true → (∀ b, s.curBuf? = some b → Q (promptFor E s b) s) ∧
        (s.curBuf? = none → P .op)) ∧
      (s.isSearch = false → Q (promptFor E s {}) s) := by
  unfold Wp searchPrompt
  cases h : s.isSearch <;> cases h' : s.curBuf? <;> simp

theorem promptFor_noSearch {E : Env} {s : Ed} (h : s.isSearch = false) (b b' : Buffer) :
    promptFor E s b = promptFor E s b' := by
  simp [promptFor, h]

/-- What the list of completions contributes to a redraw at clock `t`. -/
def CompOf (E : Env) (hint : Option (List Text × Option Nat)) (t : Nat) (comp : Nat × List Tok) :
    Prop :=
  match hint with
  | none => comp = (0, [])
  | some (cs, i) => ∃ w, E.termSize t = some w ∧
      comp = (1 + cs.length / (completionLayout w cs).1,
        completionToks (completionLayout w cs).1 (completionLayout w cs).2 i cs 0 0 ++
          [.text ['\r', '\n']])

theorem wp_completionPart {E : Env} {s : Ed} {hint : Option (List Text × Option Nat)}
    {Q : Nat × List Tok → Ed → Prop} {R : IoErr → Ed → Prop} {P : Site → Prop}
    (hq : ∀ comp t, CompOf E hint s.tick comp → Q comp { s with tick := t })
    (hr : ∀ t, R .io { s with tick := t }) :
    Wp (completionPart E hint) s Q R P := by
  unfold completionPart
  match hint with
  | none => simpa [wp_pure] using hq (0, []) s.tick rfl
  | some (cs, i) =>
    simp only [printCompletionList, wp_bind, wp_terminalSize, wp_pure]
    exact ⟨fun w hw => hq _ _ ⟨w, hw, rfl⟩, fun _ => hr _⟩

/-- The terminal width used for a reported number of columns. -/
def widthOf (w : Nat) : Nat := if w = 0 then 80 else w

/-- The fields a redraw may change besides the suggestion, from `s` to `s'`. -/
def Drawn (s s' : Ed) (cursor : Nat) : Prop :=
  ∃ l c o t, s' = { s with cursor := cursor, termCursorLine := l, ctxBuf := c, out := o, tick := t }

/-- Everything about a successful redraw. -/
structure DrawOk (E : Env) (sa : Bool) (s s' : Ed) : Prop where
  ex : ∃ b w toCursor up comp f t,
    s.curBuf? = some b ∧ E.termSize s.tick = some w ∧
    widthsToCursor E s.autosuggestion b (clampCursor s.noEol b.numChars s.cursor) = some toCursor ∧
    upToks s.termCursorLine = some up ∧ CompOf E s.showCompletionsHint (s.tick + 1) comp ∧
    frame E sa s (promptFor E s b) (widthOf w) b toCursor up comp = some f ∧
    s' = { s with cursor := clampCursor s.noEol b.numChars s.cursor, termCursorLine := f.line,
                  ctxBuf := s.ctxBuf ++ f.toks, out := s.out ++ f.toks, tick := t }

/-- Everything about a redraw that panics. -/
def DrawPanic (E : Env) (sa : Bool) (s : Ed) : Site → Prop
  | .op => s.curBuf? = none
  | .rows => upToks s.termCursorLine = none
  | .redraw => ∃ b w, s.curBuf? = some b ∧ E.termSize s.tick = some w ∧
    (widthsToCursor E s.autosuggestion b (clampCursor s.noEol b.numChars s.cursor) = none ∨
     ∃ toCursor up comp,
       widthsToCursor E s.autosuggestion b (clampCursor s.noEol b.numChars s.cursor) =
         some toCursor ∧
       frame E sa s (promptFor E s b) (widthOf w) b toCursor up comp = none)
  | .ioUnwrap => False

theorem frame_congr (E : Env) (sa : Bool) (s s' : Ed) (h1 : s.autosuggestion = s'.autosuggestion)
    (h2 : s.isSearch = s'.isSearch) : frame E sa s = frame E sa s' := by
  unfold frame
  rw [h1, h2]

theorem displayImpl_wp (E : Env) (sa : Bool) (s : Ed) :
    Wp (displayImpl E sa) s
      (fun _ s' => DrawOk E sa s s')
      (fun _ s' => ∃ cu, Drawn s s' cu ∧
        (cu = s.cursor ∨ ∃ b, s.curBuf? = some b ∧ cu = clampCursor s.noEol b.numChars s.cursor))
      (DrawPanic E sa s) := by
  have key : ∀ pr, (∀ b, s.curBuf? = some b → pr = promptFor E s b) →
      Wp (do
        let tw ← terminalWidth E
        let buf ← curBuf
        M.modify fun s => { s with cursor := clampCursor s.noEol buf.numChars s.cursor }
        let s ← M.get
        let toCursor ← M.ofOptionRedraw (widthsToCursor E s.autosuggestion buf s.cursor)
        let up ← M.ofOptionRows (upToks s.termCursorLine)
        let comp ← completionPart E s.showCompletionsHint
        let f ← M.ofOptionRedraw (frame E sa s pr tw buf toCursor up comp)
        M.modify fun s => { s with termCursorLine := f.line, ctxBuf := s.ctxBuf ++ f.toks }
        writeTerm E f.toks
        flush E) s
      (fun _ s' => DrawOk E sa s s')
      (fun _ s' => ∃ cu, Drawn s s' cu ∧
        (cu = s.cursor ∨ ∃ b, s.curBuf? = some b ∧ cu = clampCursor s.noEol b.numChars s.cursor))
      (DrawPanic E sa s) := by
    intro pr hpr
    simp only [wp_bind, wp_terminalWidth, wp_curBuf, wp_modify, wp_get, wp_ofOptionRedraw,
      wp_ofOptionRows]
    refine ⟨fun w hw => ⟨fun b hb => ?_, fun h => h⟩, fun _ => ⟨s.cursor, ⟨_, _, _, _, rfl⟩, .inl rfl⟩⟩
    have hb' : s.curBuf? = some b := hb
    obtain rfl := hpr b hb'
    refine ⟨fun tc htc => ⟨fun up hup => ?_, fun h => h⟩, fun h => ⟨b, w, hb', hw, .inl h⟩⟩
    refine wp_completionPart (fun comp t hc => ?_) (fun t => ?_)
    · simp only [wp_writeTerm, wp_flush]
      refine ⟨fun f hf => ?_, fun h => ⟨b, w, hb', hw, .inr ⟨tc, up, comp, htc, ?_⟩⟩⟩
      · refine ⟨fun _ => ⟨fun _ => ?_, fun _ => ?_⟩, fun _ => ?_⟩
        · exact ⟨b, w, tc, up, comp, f, _, hb', hw, htc, hup, hc, hf, rfl⟩
        · exact ⟨_, ⟨_, _, _, _, rfl⟩, .inr ⟨b, hb', rfl⟩⟩
        · exact ⟨_, ⟨_, _, _, _, rfl⟩, .inr ⟨b, hb', rfl⟩⟩
      · exact h
    · exact ⟨_, ⟨_, _, _, _, rfl⟩, .inr ⟨b, hb', rfl⟩⟩
  unfold displayImpl
  rw [wp_bind, wp_searchPrompt]
  refine ⟨fun hs => ⟨fun b hb => key _ ?_, fun h => h⟩, fun hs => key _ ?_⟩
  · intro b' hb'
    rw [hb] at hb'
    cases hb'
    rfl
  · intro b _
    exact promptFor_noSearch hs _ _

theorem DrawOk.drawn {E : Env} {sa : Bool} {s s' : Ed} (h : DrawOk E sa s s') :
    ∃ b, s.curBuf? = some b ∧ Drawn s s' (clampCursor s.noEol b.numChars s.cursor) := by
  obtain ⟨b, w, tc, up, comp, f, t, h1, -, -, -, -, -, h2⟩ := h.ex
  exact ⟨b, h1, _, _, _, _, h2⟩

/-- The state after a redraw apart from what concerns the terminal: a running search is refreshed
and the suggestion is chosen. -/
structure Shown (s s' : Ed) : Prop where
  ex : ∃ b sug, (pre s).curBuf? = some b ∧ sugOf (pre s) = some sug ∧
    Drawn { pre s with autosuggestion := sug } s' (clampCursor s.noEol b.numChars s.cursor)

/-- The same after a redraw that failed. -/
structure ShownErr (s s' : Ed) : Prop where
  ex : ∃ cu sug, sugOf (pre s) = some sug ∧ Drawn { pre s with autosuggestion := sug } s' cu ∧
    (cu = s.cursor ∨ ∃ b, (pre s).curBuf? = some b ∧ cu = clampCursor s.noEol b.numChars s.cursor)

/-- When a redraw panics. -/
def ShowPanic (E : Env) (s : Ed) (w : Site) : Prop :=
  (w = .op ∧ sugOf (pre s) = none) ∨
  ∃ sug, sugOf (pre s) = some sug ∧ DrawPanic E true { pre s with autosuggestion := sug } w

theorem pre_noEol (s : Ed) : (pre s).noEol = s.noEol := by unfold pre; split <;> rfl
theorem pre_cursor (s : Ed) : (pre s).cursor = s.cursor := by unfold pre; split <;> rfl

theorem display_wp' (E : Env) (s : Ed) {Q : Unit → Ed → Prop} {R : IoErr → Ed → Prop}
    {P : Site → Prop} :
    Wp (display E) s Q R P ↔
      (∀ sug, sugOf (pre s) = some sug →
        Wp (displayImpl E true) { pre s with autosuggestion := sug } Q R P) ∧
      (sugOf (pre s) = none → P .op) := by
  have : Wp (display E) s Q R P ↔ Wp (do
      let sug ← currentAutosuggestion
      M.modify fun s => { s with autosuggestion := sug }
      displayImpl E true) (pre s) Q R P := by
    unfold display pre
    rw [wp_bind, wp_get]
    by_cases h : (s.isSearch && s.bufferChanged) = true
    · simp only [h, if_true, refreshSearch, wp_bind, wp_modify]
    · simp only [h, wp_bind, wp_pure, Bool.false_eq_true, if_false]
  rw [this, wp_bind, wp_currentAutosuggestion]
  simp only [wp_bind, wp_modify]

theorem display_wp (E : Env) (s : Ed) :
    Wp (display E) s (fun _ s' => Shown s s') (fun _ s' => ShownErr s s') (ShowPanic E s) := by
  rw [display_wp']
  refine ⟨fun sug hs => ?_, fun h => .inl ⟨rfl, h⟩⟩
  refine wp_mono (displayImpl_wp E true _) (fun _ s' h => ?_) (fun _ s' h => ?_)
    (fun w h => .inr ⟨sug, hs, h⟩)
  · obtain ⟨b, h1, h2⟩ := h.drawn
    refine ⟨b, sug, h1, hs, ?_⟩
    simpa [pre_noEol, pre_cursor] using h2
  · obtain ⟨cu, h1, h2⟩ := h
    refine ⟨cu, sug, hs, h1, ?_⟩
    simp only [pre_noEol, pre_cursor] at h2
    exact h2

end Editor
end Liner
