import Verif.Proof.SimKeys
import Verif.Model.Context
/-
Two runs with the same keys on different terminals.
-/

namespace Liner
open Liner.Editor M KM

/-- The editors differ at most in the prompt and in what concerns the terminal. -/
def Alike (s t : Ed) : Prop := ∃ p l c o n,
  t = { s with prompt := p, termCursorLine := l, ctxBuf := c, out := o, tick := n }

theorem Alike.refl (s : Ed) : Alike s s := ⟨_, _, _, _, _, rfl⟩

/-- A change that does not concern the terminal. -/
theorem sim_alike {f : Ed → Ed}
    (h : ∀ s p l c o n, Alike (f s) (f { s with prompt := p, termCursorLine := l, ctxBuf := c, out := o, tick := n })) :
    Sim Alike (M.modify f) (M.modify f) := by
  refine sim_modify fun s t hr => ?_
  obtain ⟨p, l, c, o, n, rfl⟩ := hr
  exact h s p l c o n

/-- Changes of the terminal only. -/
theorem Alike.tick {s t : Ed} (h : Alike s t) (f g : Ed → Nat) (o o' : Ed → List Tok) :
    Alike { s with tick := f s, out := o s } { t with tick := g t, out := o' t } := by
  obtain ⟨p, l, c, o, n, rfl⟩ := h
  exact ⟨_, _, _, _, _, rfl⟩

theorem screen_buf : Sim Alike curBuf curBuf := by
  rintro s t ⟨p, l, c, o, n, rfl⟩
  unfold curBuf
  show Pair _ _ (match s.curBuf? with | some b => _ | none => _)
  cases s.curBuf? with
  | none => exact .inr (.inr trivial)
  | some b => exact twins_ok ⟨_, _, _, _, _, rfl⟩

theorem screen_mut {α : Type} (f : Buffer → Option (α × Buffer)) : Sim Alike (curBufMut f) (curBufMut f) := by
  rintro s t ⟨p, l, c, o, n, rfl⟩
  unfold curBufMut
  show Pair _ _ (match workBuf s with | none => _ | some b => _)
  cases workBuf s with
  | none => exact .inr (.inr trivial)
  | some b =>
    dsimp only
    cases f b with
    | none => exact .inr (.inr trivial)
    | some r =>
      refine twins_ok ?_
      unfold setCur
      show Alike _ (match s.curHistoryLoc with | some _ => _ | none => _)
      cases s.curHistoryLoc <;> exact ⟨_, _, _, _, _, rfl⟩

theorem screen_viMode (m : ViPromptMode) : Sim Alike (setViMode m) (setViMode m) := by
  refine sim_alike fun s p l c o n => ?_
  dsimp only
  cases s.prompt.viStatus <;> cases p.viStatus <;> exact ⟨_, _, _, _, _, rfl⟩

theorem screen_write (E E' : Env) (x y : List Tok) : Sim Alike (writeTerm E x) (writeTerm E' y) := by
  intro s t hr
  unfold writeTerm
  split
  · split
    · exact twins_ok (hr.tick (fun s => s.tick + 1) (fun t => t.tick + 1) (fun s => s.out ++ x) (fun t => t.out ++ y))
    · exact .inr (.inl rfl)
  · exact .inl rfl

theorem screen_flush (E E' : Env) : Sim Alike (flush E) (flush E') := by
  intro s t hr
  unfold flush
  split
  · split
    · exact twins_ok (hr.tick (fun s => s.tick + 1) (fun t => t.tick + 1) (fun s => s.out) (fun t => t.out))
    · exact .inr (.inl rfl)
  · exact .inl rfl

theorem screen_size {β : Type} {E E' : Env} {f f' : Nat → EdM β} (h : ∀ a b, Sim Alike (f a) (f' b)) :
    Sim Alike (terminalSize E >>= f) (terminalSize E' >>= f') := by
  refine sim_apart (fun s t hr => ?_) h
  unfold terminalSize
  split
  · split
    · exact .inr (.inr (.inr ⟨_, _, _, _, rfl, rfl,
        hr.tick (fun s => s.tick + 1) (fun t => t.tick + 1) (fun s => s.out) (fun t => t.out)⟩))
    · exact .inr (.inl rfl)
  · exact .inl rfl

theorem screen_width {β : Type} {E E' : Env} {f f' : Nat → EdM β} (h : ∀ a b, Sim Alike (f a) (f' b)) :
    Sim Alike (terminalWidth E >>= f) (terminalWidth E' >>= f') := by
  have : Sim Alike (terminalSize E >>= fun w => f (if w = 0 then 80 else w))
      (terminalSize E' >>= fun w => f' (if w = 0 then 80 else w)) := screen_size fun a b => h _ _
  refine fun s t hr => ?_
  have h1 := this s t hr
  have e : ∀ (E : Env) (g : Nat → EdM β) s, (terminalWidth E >>= g) s =
      (terminalSize E >>= fun w => g (if w = 0 then 80 else w)) s := by
    intro E g s
    show M.bind (M.bind (terminalSize E) _) g s = M.bind _ _ s
    unfold M.bind
    cases terminalSize E s <;> rfl
  rw [e, e]
  exact h1

theorem screen_completions {β : Type} {E E' : Env} (hint : Option (List Text × Option Nat))
    {f f' : Nat × List Tok → EdM β} (h : ∀ a b, Sim Alike (f a) (f' b)) :
    Sim Alike (completionPart E hint >>= f) (completionPart E' hint >>= f') := by
  cases hint with
  | none => exact h _ _
  | some x =>
    refine sim_apart (fun s t hr => ?_) h
    show Lost (M.bind (M.bind (terminalSize E) _) _ s) ∨ Lost (M.bind (M.bind (terminalSize E') _) _ t) ∨
      (M.bind (M.bind (terminalSize E) _) _ s = _ ∧ M.bind (M.bind (terminalSize E') _) _ t = _) ∨
      ∃ _ _ _ _, M.bind (M.bind (terminalSize E) _) _ s = _ ∧ M.bind (M.bind (terminalSize E') _) _ t = _ ∧ _
    unfold M.bind terminalSize
    cases E.termSize s.tick with
    | none => exact .inl rfl
    | some w =>
      cases E'.termSize t.tick with
      | none => exact .inr (.inl rfl)
      | some w' =>
        exact .inr (.inr (.inr ⟨_, _, _, _, rfl, rfl,
          hr.tick (fun s => s.tick + 1) (fun t => t.tick + 1) (fun s => s.out) (fun t => t.out)⟩))

theorem screen_prompt {β : Type} {E E' : Env} {f f' : Text × Nat → EdM β}
    (h : ∀ a b, Sim Alike (f a) (f' b)) : Sim Alike (searchPrompt E >>= f) (searchPrompt E' >>= f') := by
  refine sim_apart (fun s t hr => ?_) h
  have e1 : t.isSearch = s.isSearch := by obtain ⟨p, l, c, o, n, rfl⟩ := hr; rfl
  have e2 : t.curBuf? = s.curBuf? := by obtain ⟨p, l, c, o, n, rfl⟩ := hr; rfl
  unfold searchPrompt
  rw [e1, e2]
  by_cases hs : s.isSearch = true
  · simp only [if_pos hs]
    cases s.curBuf? with
    | none => exact .inr (.inr (.inl ⟨rfl, rfl⟩))
    | some b => exact .inr (.inr (.inr ⟨_, _, _, _, rfl, rfl, hr⟩))
  · simp only [if_neg hs]
    exact .inr (.inr (.inr ⟨_, _, _, _, rfl, rfl, hr⟩))

theorem screen_displayImpl (E E' : Env) (b : Bool) : Sim Alike (displayImpl E b) (displayImpl E' b) := by
  unfold displayImpl
  refine screen_prompt fun pr pr' => screen_width fun tw tw' => sim_bind screen_buf fun buf =>
    sim_bind (sim_alike fun _ _ _ _ _ _ => ⟨_, _, _, _, _, rfl⟩) fun _ => sim_get fun s t hr =>
    sim_redraw _ _ _ _ fun w w' => sim_rows _ _ _ _ fun u u' => ?_
  have e : s.showCompletionsHint = t.showCompletionsHint := by
    obtain ⟨p, l, c, o, n, rfl⟩ := hr; rfl
  rw [e]
  refine screen_completions _ fun x x' => sim_redraw _ _ _ _ fun f f' => ?_
  refine sim_bind (sim_modify fun s t hr => ?_) fun _ => sim_bind (screen_write _ _ _ _) fun _ =>
    screen_flush _ _
  obtain ⟨p, l, c, o, n, rfl⟩ := hr
  exact ⟨_, _, _, _, _, rfl⟩

theorem screen_suggestion : Sim Alike currentAutosuggestion currentAutosuggestion := by
  rintro s t ⟨p, l, c, o, n, rfl⟩
  have e : ∀ s : Ed, currentAutosuggestion s =
      if s.histBufValid then .ok none s
      else match (if s.isSearch then s.searchHistoryLoc
        else if s.showAutosuggestions then
          match s.curHistoryLoc with
          | some i => some i
          | none => s.history.getNewestMatch (some s.history.buffers.length) s.newBuf
        else none : Option Nat) with
      | none => .ok none s
      | some i =>
        match s.history.buffers[i]? with
        | some b => .ok (some b) s
        | none => .panic .op := fun _ => rfl
  rw [e, e]
  show Pair _ _ (if s.histBufValid then _ else
    match (if s.isSearch then s.searchHistoryLoc
        else if s.showAutosuggestions then
          match s.curHistoryLoc with
          | some i => some i
          | none => s.history.getNewestMatch (some s.history.buffers.length) s.newBuf
        else none : Option Nat) with
      | none => _
      | some i => match s.history.buffers[i]? with | some b => _ | none => _)
  generalize (if s.isSearch then s.searchHistoryLoc
        else if s.showAutosuggestions then
          match s.curHistoryLoc with
          | some i => some i
          | none => s.history.getNewestMatch (some s.history.buffers.length) s.newBuf
        else none : Option Nat) = idx
  split
  · exact twins_ok ⟨_, _, _, _, _, rfl⟩
  · cases idx with
    | none => exact twins_ok ⟨_, _, _, _, _, rfl⟩
    | some i =>
      dsimp only
      cases s.history.buffers[i]? with
      | none => exact .inr (.inr trivial)
      | some b => exact twins_ok ⟨_, _, _, _, _, rfl⟩

theorem screen_refresh (f : Bool) : Sim Alike (refreshSearch f) (refreshSearch f) :=
  sim_alike fun _ _ _ _ _ _ => ⟨_, _, _, _, _, rfl⟩

theorem screen_display (E E' : Env) : Sim Alike (display E) (display E') := by
  have h : Sim Alike (currentAutosuggestion >>= fun sug =>
        (M.modify fun s : Ed => { s with autosuggestion := sug }) >>= fun _ => displayImpl E true)
      (currentAutosuggestion >>= fun sug =>
        (M.modify fun s : Ed => { s with autosuggestion := sug }) >>= fun _ => displayImpl E' true) :=
    sim_bind screen_suggestion fun sug =>
      sim_bind (sim_alike fun _ _ _ _ _ _ => ⟨_, _, _, _, _, rfl⟩) fun _ => screen_displayImpl E E' true
  unfold display
  refine sim_get fun s t hr => ?_
  obtain ⟨p, l, c, o, n, rfl⟩ := hr
  exact sim_ite (sim_bind (screen_refresh _) fun _ => h) h

theorem screen_clearSearch : Sim Alike clearSearch clearSearch :=
  sim_alike fun _ _ _ _ _ _ => ⟨_, _, _, _, _, rfl⟩

theorem screen_clear (E E' : Env) : Sim Alike (clear E) (clear E') :=
  sim_bind (sim_alike fun _ _ _ _ _ _ => ⟨_, _, _, _, _, rfl⟩) fun _ =>
    sim_bind screen_clearSearch fun _ => screen_display E E'

theorem screen_eol (E E' : Env) : Sim Alike (moveCursorToEndOfLine E) (moveCursorToEndOfLine E') :=
  sim_bind screen_buf fun _ =>
    sim_bind (sim_alike fun _ _ _ _ _ _ => ⟨_, _, _, _, _, rfl⟩) fun _ => screen_display E E'

theorem screen_freshen : Sim Alike freshenHistory freshenHistory := by
  refine sim_alike fun s p l c o n => ?_
  show Alike _ (if s.history.share && !s.historyFresh then _ else _)
  dsimp only
  split <;> exact ⟨_, _, _, _, _, rfl⟩

theorem screen_search (E E' : Env) (f : Bool) : Sim Alike (search E f) (search E' f) := by
  unfold search
  refine sim_get fun s t hr => ?_
  obtain ⟨p, l, c, o, n, rfl⟩ := hr
  dsimp only
  have h := screen_display E E'
  refine sim_ite (sim_bind screen_freshen fun _ => sim_bind (screen_refresh _) fun _ => h)
    (sim_ite (sim_bind (sim_alike fun _ _ _ _ _ _ => ⟨_, _, _, _, _, rfl⟩) fun _ => h) h)

theorem screen_upLoc : Sim Alike moveUpLoc moveUpLoc := by
  unfold moveUpLoc
  refine sim_get fun s t hr => ?_
  obtain ⟨p, l, c, o, n, rfl⟩ := hr
  dsimp only
  refine sim_ite ?_ ?_
  · split
    · exact sim_ite (sim_bind (sim_ofOption _) fun _ => sim_alike fun _ _ _ _ _ _ => ⟨_, _, _, _, _, rfl⟩) (sim_pure _)
    · refine sim_bind (sim_alike fun _ _ _ _ _ _ => ⟨_, _, _, _, _, rfl⟩) fun _ => ?_
      split
      · exact sim_alike fun _ _ _ _ _ _ => ⟨_, _, _, _, _, rfl⟩
      · exact sim_pure _
  · split
    · exact sim_ite (sim_alike fun _ _ _ _ _ _ => ⟨_, _, _, _, _, rfl⟩) (sim_pure _)
    · exact sim_ite (sim_pure _) (sim_alike fun _ _ _ _ _ _ => ⟨_, _, _, _, _, rfl⟩)

theorem screen_up (E E' : Env) : Sim Alike (moveUp E) (moveUp E') := by
  unfold moveUp
  refine sim_get fun s t hr => ?_
  obtain ⟨p, l, c, o, n, rfl⟩ := hr
  exact sim_ite (screen_search E E' false)
    (sim_bind (sim_alike fun _ _ _ _ _ _ => ⟨_, _, _, _, _, rfl⟩) fun _ =>
      sim_bind screen_freshen fun _ => sim_bind screen_upLoc fun _ => screen_eol E E')

theorem screen_downLoc : Sim Alike moveDownLoc moveDownLoc := by
  unfold moveDownLoc
  refine sim_get fun s t hr => ?_
  obtain ⟨p, l, c, o, n, rfl⟩ := hr
  dsimp only
  refine sim_ite ?_ ?_
  · split
    · exact sim_ite sim_panic (sim_ite
        (sim_bind (sim_ofOption _) fun _ => sim_alike fun _ _ _ _ _ _ => ⟨_, _, _, _, _, rfl⟩)
        (sim_alike fun _ _ _ _ _ _ => ⟨_, _, _, _, _, rfl⟩))
    · exact sim_pure _
  · split
    · exact sim_ite sim_panic (sim_ite (sim_alike fun _ _ _ _ _ _ => ⟨_, _, _, _, _, rfl⟩)
        (sim_alike fun _ _ _ _ _ _ => ⟨_, _, _, _, _, rfl⟩))
    · exact sim_alike fun _ _ _ _ _ _ => ⟨_, _, _, _, _, rfl⟩

theorem screen_down (E E' : Env) : Sim Alike (moveDown E) (moveDown E') := by
  unfold moveDown
  refine sim_get fun s t hr => ?_
  obtain ⟨p, l, c, o, n, rfl⟩ := hr
  exact sim_ite (screen_search E E' true)
    (sim_bind (sim_alike fun _ _ _ _ _ _ => ⟨_, _, _, _, _, rfl⟩) fun _ =>
      sim_bind screen_downLoc fun _ => screen_eol E E')

theorem screen_histStart (E E' : Env) : Sim Alike (moveToStartOfHistory E) (moveToStartOfHistory E') := by
  unfold moveToStartOfHistory
  refine sim_bind (sim_alike fun _ _ _ _ _ _ => ⟨_, _, _, _, _, rfl⟩) fun _ => sim_get fun s t hr => ?_
  obtain ⟨p, l, c, o, n, rfl⟩ := hr
  exact sim_ite (sim_bind (sim_alike fun _ _ _ _ _ _ => ⟨_, _, _, _, _, rfl⟩) fun _ => screen_display E E')
    (sim_bind (sim_alike fun _ _ _ _ _ _ => ⟨_, _, _, _, _, rfl⟩) fun _ => screen_eol E E')

theorem screen_histEnd (E E' : Env) : Sim Alike (moveToEndOfHistory E) (moveToEndOfHistory E') := by
  unfold moveToEndOfHistory
  refine sim_bind (sim_alike fun _ _ _ _ _ _ => ⟨_, _, _, _, _, rfl⟩) fun _ => sim_get fun s t hr => ?_
  obtain ⟨p, l, c, o, n, rfl⟩ := hr
  exact sim_ite (sim_bind (sim_alike fun _ _ _ _ _ _ => ⟨_, _, _, _, _, rfl⟩) fun _ => screen_eol E E')
    (screen_display E E')

/-- The operations the key maps use do the same on any terminal. -/
theorem screen_ops {E E' : Env} (hc : E.cc = E'.cc) (hw : E.words = E'.words) : OpsUp E E' Alike where
  cc := hc
  words := hw
  cursor h := by obtain ⟨p, l, c, o, n, rfl⟩ := h; rfl
  newBuf h := by obtain ⟨p, l, c, o, n, rfl⟩ := h; rfl
  buf := screen_buf
  mutate := screen_mut
  place f s t h := by obtain ⟨p, l, c, o, n, rfl⟩ := h; exact ⟨_, _, _, _, _, rfl⟩
  noEol b s t h := by obtain ⟨p, l, c, o, n, rfl⟩ := h; exact ⟨_, _, _, _, _, rfl⟩
  viMode := screen_viMode
  display := screen_display E E'
  clear := screen_clear E E'
  toEnd := screen_histEnd E E'
  up := screen_up E E'
  down := screen_down E E'

/-! ### The keys that the key maps do not see -/

section
variable {E E' : Env} (hc : E.cc = E'.cc) (hw : E.words = E'.words)
include hc hw

omit hc hw in
theorem screen_isWhole (cs : List Text) (i : Option Nat) : Sim Alike (isWhole cs i) (isWhole cs i) := by
  cases i with
  | none => exact sim_pure _
  | some x => exact sim_bind screen_buf fun b => sim_bind (sim_ofOption _) fun c => sim_pure _

theorem screen_complete (comp : Text → List Text) : Sim Alike (complete E comp) (complete E' comp) := by
  have H := (screen_ops hc hw).toOps
  have hd := H.display
  unfold complete
  refine sim_get fun s t hr => ?_
  obtain ⟨p, l, c, o, n, rfl⟩ := hr
  dsimp only
  cases s.showCompletionsHint with
  | some x =>
    refine sim_bind ?_ fun _ => hd
    unfold completeNext
    refine sim_bind (sim_alike fun _ _ _ _ _ _ => ⟨_, _, _, _, _, rfl⟩) fun _ =>
      sim_bind (sim_ofOption _) fun i => sim_bind (screen_isWhole _ _) fun w => ?_
    refine sim_bind ?_ fun _ => sim_bind (sim_ofOption _) fun c => sim_bind (sim_insert H c) fun _ =>
      sim_alike fun _ _ _ _ _ _ => ⟨_, _, _, _, _, rfl⟩
    unfold dropCandidate
    exact sim_ite (sim_bind (screen_mut _) fun _ => sim_alike fun _ _ _ _ _ _ => ⟨_, _, _, _, _, rfl⟩)
      (sim_deleteWord H _)
  | none =>
    dsimp only
    unfold completeFirst getWordBeforeCursor
    refine sim_bind (sim_bind (sim_wordsAndPos H) fun _ => sim_pure _) fun r =>
      sim_bind (screen_mut _) fun w => ?_
    dsimp only
    have h1 : ∀ cs : List Text, Sim Alike
        ((M.modify fun s : Ed => { s with showCompletionsHint := some (cs, none) }) >>= fun _ => display E)
        ((M.modify fun s : Ed => { s with showCompletionsHint := some (cs, none) }) >>= fun _ => display E') :=
      fun cs => sim_bind (sim_alike fun _ _ _ _ _ _ => ⟨_, _, _, _, _, rfl⟩) fun _ => hd
    split
    · exact sim_alike fun _ _ _ _ _ _ => ⟨_, _, _, _, _, rfl⟩
    · exact sim_bind (sim_alike fun _ _ _ _ _ _ => ⟨_, _, _, _, _, rfl⟩) fun _ =>
        sim_bind (sim_deleteWord H _) fun _ => sim_insert H _
    · split
      · exact sim_ite (sim_bind (sim_deleteWord H _) fun _ => sim_insert H _) (h1 _)
      · exact h1 _

omit hc hw in
theorem screen_accept : Sim Alike (acceptAutosuggestion E) (acceptAutosuggestion E') := by
  have h : Sim Alike (clearSearch >>= fun _ => moveCursorToEndOfLine E)
      (clearSearch >>= fun _ => moveCursorToEndOfLine E') :=
    sim_bind screen_clearSearch fun _ => screen_eol E E'
  unfold acceptAutosuggestion
  refine sim_get fun s t hr => ?_
  obtain ⟨p, l, c, o, n, rfl⟩ := hr
  exact sim_ite (sim_bind (screen_mut _) fun _ => h) h

theorem screen_newline : Sim Alike (handleNewline E) (handleNewline E') := by
  have H := (screen_ops hc hw).toOps
  unfold handleNewline
  refine sim_bind (sim_alike fun _ _ _ _ _ _ => ⟨_, _, _, _, _, rfl⟩) fun _ =>
    sim_bind ?_ fun _ => sim_bind screen_clearSearch fun _ => ?_
  · unfold acceptIfSearch
    refine sim_get fun s t hr => ?_
    obtain ⟨p, l, c, o, n, rfl⟩ := hr
    exact sim_ite (screen_accept) (sim_pure _)
  · unfold finishLine
    refine sim_get fun s t hr => ?_
    obtain ⟨p, l, c, o, n, rfl⟩ := hr
    refine sim_ite (sim_bind (sim_alike fun _ _ _ _ _ _ => ⟨_, _, _, _, _, rfl⟩) fun _ => sim_pure _) ?_
    refine sim_bind screen_buf fun b => sim_ite (sim_bind (sim_insert H _) fun _ => sim_pure _) ?_
    exact sim_bind (sim_alike fun _ _ _ _ _ _ => ⟨_, _, _, _, _, rfl⟩) fun _ =>
      sim_bind (screen_displayImpl E E' false) fun _ => sim_bind (screen_write _ _ _ _) fun _ =>
      sim_bind (sim_alike fun _ _ _ _ _ _ => ⟨_, _, _, _, _, rfl⟩) fun _ => sim_pure _

omit hc hw in
theorem screen_atEnd : Sim Alike cursorIsAtEndOfLine cursorIsAtEndOfLine := by
  unfold cursorIsAtEndOfLine
  refine sim_bind screen_buf fun b => sim_get fun s t hr => ?_
  obtain ⟨p, l, c, o, n, rfl⟩ := hr
  exact sim_ite (sim_ite sim_panic (sim_pure _)) (sim_pure _)

theorem screen_handleKey {κ : Type} (km : KeyMap κ)
    (hk : ∀ key, Sim (OnK Alike) (km.core E key) (km.core E' key)) (comp : Text → List Text) (key : Key) :
    Sim (OnK Alike) (km.handleKey E comp key) (km.handleKey E' comp key) := by
  have hn := screen_newline hc hw
  have ha : Sim Alike (acceptAutosuggestion E) (acceptAutosuggestion E') := screen_accept
  have ht := screen_complete hc hw comp
  unfold KeyMap.handleKey
  refine sim_bind (sim_ed screen_buf) fun b => sim_bind ?_ fun d =>
    sim_bind (sim_ed (screen_flush E E')) fun _ => sim_pure _
  unfold KeyMap.dispatch
  refine sim_edget fun s t hr => ?_
  obtain ⟨p, l, c, o, n, rfl⟩ := hr
  dsimp only
  refine sim_ite (sim_bind (sim_ed hn) fun _ => sim_throw _) <|
    sim_ite (sim_bind (sim_ed hn) fun _ => sim_throw _) <|
    sim_ite (sim_bind (sim_ed ht) fun _ => sim_pure _) <|
    sim_ite (sim_ed hn) <|
    sim_ite (sim_bind (sim_ed ha) fun _ => sim_pure _) <|
    sim_ite (sim_bind (sim_ed (screen_search E E' _)) fun _ => sim_pure _) <|
    sim_ite (sim_bind (sim_ed (screen_search E E' _)) fun _ => sim_pure _) ?_
  have hrest : ∀ b : Bool, Sim (OnK (κ := κ) Alike)
      (if b then ed (acceptAutosuggestion E) >>= fun _ => pure false
        else km.core E (KeyMap.translate key) >>= fun _ => ed skipCompletionsHint >>= fun _ => pure false)
      (if b then ed (acceptAutosuggestion E') >>= fun _ => pure false
        else km.core E' (KeyMap.translate key) >>= fun _ => ed skipCompletionsHint >>= fun _ => pure false) :=
    fun b => sim_ite (sim_bind (sim_ed ha) fun _ => sim_pure _) (sim_bind (hk _) fun _ =>
      sim_bind (sim_ed (sim_alike fun _ _ _ _ _ _ => ⟨_, _, _, _, _, rfl⟩)) fun _ => sim_pure _)
  exact sim_ite (sim_bind (sim_ed screen_atEnd) hrest) (hrest false)

/-! ### The start -/

omit hc hw

/-- A step that concerns the terminal only. -/
def Outer (m : EdM Unit) : Prop := ∀ s, Lost (m s) ∨ ∃ s1, m s = .ok () s1 ∧ Alike s s1

theorem Alike.symm {s t : Ed} (h : Alike s t) : Alike t s := by
  obtain ⟨p, l, c, o, n, rfl⟩ := h
  exact ⟨s.prompt, s.termCursorLine, s.ctxBuf, s.out, s.tick, rfl⟩

theorem Alike.trans {s t u : Ed} (h : Alike s t) (h2 : Alike t u) : Alike s u := by
  obtain ⟨p, l, c, o, n, rfl⟩ := h
  obtain ⟨p, l, c, o, n, rfl⟩ := h2
  exact ⟨_, _, _, _, _, rfl⟩

theorem outer_write (E : Env) (x : List Tok) : Outer (writeTerm E x) := by
  intro s
  unfold writeTerm
  split
  · exact .inr ⟨_, rfl, ⟨_, _, _, _, _, rfl⟩⟩
  · exact .inl rfl

theorem Outer.bind {m m' : EdM Unit} (h : Outer m) (h' : Outer m') : Outer (m >>= fun _ => m') := by
  intro s
  show Lost (M.bind m _ s) ∨ ∃ s1, M.bind m _ s = _ ∧ _
  unfold M.bind
  rcases h s with h1 | ⟨s1, e1, a1⟩
  · left
    revert h1
    cases m s <;> simp [Lost]
  · rw [e1]
    dsimp only
    rcases h' s1 with h2 | ⟨s2, e2, a2⟩
    · exact .inl h2
    · exact .inr ⟨s2, e2, a1.trans a2⟩

theorem outer_repeat {m : EdM Unit} (h : Outer m) : ∀ n, Outer (M.repeatN n m)
  | 0 => fun s => .inr ⟨s, rfl, .refl s⟩
  | n + 1 => h.bind (outer_repeat h n)

theorem Outer.sim {m m' : EdM Unit} (h : Outer m) (h' : Outer m') : Sim Alike m m' := by
  intro s t hr
  rcases h s with h1 | ⟨s1, e1, a1⟩
  · exact .inl h1
  rcases h' t with h2 | ⟨t1, e2, a2⟩
  · exact .inr (.inl h2)
  rw [e1, e2]
  exact twins_ok ((a1.symm.trans hr).trans a2)

theorem screen_start (h : E.ttyWidth ≠ some 0) (h' : E'.ttyWidth ≠ some 0) (p p' : Prompt) :
    Sim Alike (start E p) (start E' p') := by
  have g : ∀ o : Option Nat, o ≠ some 0 → o.getD 80 ≠ 0 := by
    intro o h
    cases o with
    | none => simp
    | some n => simpa using h
  unfold start
  refine sim_bind (screen_write _ _ _ _) fun _ => ?_
  dsimp only
  rw [if_neg (g _ h), if_neg (g _ h')]
  refine sim_bind ((outer_repeat (outer_write _ _) _).sim (outer_repeat (outer_write _ _) _)) fun _ =>
    sim_bind (screen_write _ _ _ _) fun _ => sim_bind (screen_write _ _ _ _) fun _ => sim_get fun s t hr => ?_
  obtain ⟨p, l, c, o, n, rfl⟩ := hr
  exact sim_ite (screen_display E E') (sim_bind (screen_eol E E') fun _ => screen_display E E')

section
include hc hw

theorem screen_readLine {κ : Type} (km : KeyMap κ) (h : E.ttyWidth ≠ some 0) (h' : E'.ttyWidth ≠ some 0)
    (hi : Sim (OnK Alike) (km.init E) (km.init E'))
    (hk : ∀ key, Sim (OnK Alike) (km.core E key) (km.core E' key)) (p p' : Prompt)
    (input : List KeyMap.Input) :
    Sim (OnK Alike) (km.readLine E p input) (km.readLine E' p' input) := by
  unfold KeyMap.readLine KeyMap.handleKeys
  refine sim_bind (sim_ed (screen_start h h' p p')) fun _ => sim_bind hi fun _ => ?_
  refine sim_loop km (fun {s t} hr => ?_) input fun k comp _ => screen_handleKey hc hw km hk comp k
  obtain ⟨p, l, c, o, n, rfl⟩ := hr
  rfl

theorem screen_lastArg : Sim (OnK Alike) (Emacs.handleLastArgFetch E) (Emacs.handleLastArgFetch E') := by
  have H := (screen_ops hc hw).toOps
  unfold Emacs.handleLastArgFetch
  refine sim_edget fun s t hr => ?_
  obtain ⟨p, l, c, o, n, rfl⟩ := hr
  refine sim_getK fun k => ?_
  dsimp only
  refine sim_ite (sim_pure _) (sim_ite (sim_pure _) ?_)
  have hd : Sim Alike (Emacs.deleteLastArg E) (Emacs.deleteLastArg E') := by
    unfold Emacs.deleteLastArg
    refine sim_bind screen_buf fun b => ?_
    split
    · exact sim_deleteUntil H _
    · exact sim_pure _
  have hr : ∀ i, Sim (OnK Alike)
      (ed M.get >>= fun s : Ed => (M.ofOption s.history.buffers[i]? : KM Emacs Buffer) >>= fun b =>
        match b.lastArg with
        | some arg => ed (insertCharsAfterCursor E arg) >>= fun _ =>
            modK fun k : Emacs => { k with lastArgFetchIndex := some i }
        | none => modK fun k : Emacs => { k with lastArgFetchIndex := some i })
      (ed M.get >>= fun s : Ed => (M.ofOption s.history.buffers[i]? : KM Emacs Buffer) >>= fun b =>
        match b.lastArg with
        | some arg => ed (insertCharsAfterCursor E' arg) >>= fun _ =>
            modK fun k : Emacs => { k with lastArgFetchIndex := some i }
        | none => modK fun k : Emacs => { k with lastArgFetchIndex := some i }) := by
    refine fun i => sim_edget fun s t hr => ?_
    obtain ⟨p, l, c, o, n, rfl⟩ := hr
    refine sim_bind (sim_ofOption _) fun b => ?_
    split
    · exact sim_bind (sim_ed (sim_insert H _)) fun _ => sim_modK _
    · exact sim_modK _
  exact sim_ite (sim_bind (sim_ed hd) fun _ => hr _) (hr _)

theorem screen_emacs (key : Key) :
    Sim (OnK Alike) (Emacs.keyMap.core E key) (Emacs.keyMap.core E' key) := by
  have H := screen_ops hc hw
  refine Emacs.sim_core H.toOps key fun hl => ?_
  have hl : key = .up ∨ key = .down ∨ key = .ctrl 'p' ∨ key = .ctrl 'n' ∨ key = .alt '<' ∨ key = .alt '.' := by
    simpa [Emacs.looks] using hl
  rcases hl with rfl | rfl | rfl | rfl | rfl | rfl
  · exact sim_bind (sim_modK _) fun _ => sim_ed H.up
  · exact sim_bind (sim_modK _) fun _ => sim_ed H.down
  · exact sim_bind (sim_modK _) fun _ => sim_ed H.up
  · exact sim_bind (sim_modK _) fun _ => sim_ed H.down
  · exact sim_bind (sim_modK _) fun _ => sim_ed (screen_histStart E E')
  · exact screen_lastArg hc hw

end

end

end Liner
