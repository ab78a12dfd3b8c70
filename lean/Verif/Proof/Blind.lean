import Verif.Proof.SimKeys
import Verif.Proof.Elsewhere
import Verif.Props.History
/-
Two runs with the same keys and different histories.
-/

namespace Liner
open Liner.Editor M KM

/-- Both editors are on the same new line, and neither searches.  Their histories, files and suggestions may differ. -/
structure Fellow (s t : Ed) : Prop where
  newBuf : s.newBuf = t.newBuf
  cursor : s.cursor = t.cursor
  noEol : s.noEol = t.noEol
  hint : s.showCompletionsHint = t.showCompletionsHint
  loc : s.curHistoryLoc = none
  loc' : t.curHistoryLoc = none
  search : s.isSearch = false
  search' : t.isSearch = false
  sub : s.historySubsetLoc = none
  sub' : t.historySubsetLoc = none

/-- A change that concerns neither the history nor a search. -/
theorem sim_fellow {f f' : Ed → Ed} (h : ∀ s t, Fellow s t → Fellow (f s) (f' t)) :
    Sim Fellow (M.modify f) (M.modify f') := sim_modify h

/-- Nothing that the relation looks at changes. -/
theorem Fellow.of {s t s1 t1 : Ed} (h : Fellow s t)
    (h1 : (s1.newBuf, s1.cursor, s1.noEol, s1.showCompletionsHint, s1.curHistoryLoc, s1.isSearch, s1.historySubsetLoc) =
      (s.newBuf, s.cursor, s.noEol, s.showCompletionsHint, s.curHistoryLoc, s.isSearch, s.historySubsetLoc))
    (h2 : (t1.newBuf, t1.cursor, t1.noEol, t1.showCompletionsHint, t1.curHistoryLoc, t1.isSearch, t1.historySubsetLoc) =
      (t.newBuf, t.cursor, t.noEol, t.showCompletionsHint, t.curHistoryLoc, t.isSearch, t.historySubsetLoc)) : Fellow s1 t1 := by
  simp only [Prod.mk.injEq] at h1 h2
  obtain ⟨a1, a2, a3, a4, a5, a6, a7⟩ := h1
  obtain ⟨b1, b2, b3, b4, b5, b6, b7⟩ := h2
  exact ⟨by rw [a1, b1, h.newBuf], by rw [a2, b2, h.cursor], by rw [a3, b3, h.noEol], by rw [a4, b4, h.hint],
    a5.trans h.loc, b5.trans h.loc', a6.trans h.search, b6.trans h.search', a7.trans h.sub, b7.trans h.sub'⟩

theorem Fellow.buf {s t : Ed} (h : Fellow s t) : s.curBuf? = some s.newBuf ∧ t.curBuf? = some s.newBuf := by
  unfold Ed.curBuf?
  rw [h.loc, h.loc', h.newBuf]
  exact ⟨rfl, rfl⟩

theorem blind_buf : Sim Fellow curBuf curBuf := by
  intro s t h
  unfold curBuf
  rw [h.buf.1, h.buf.2]
  exact twins_ok h

theorem blind_mut {α : Type} (f : Buffer → Option (α × Buffer)) : Sim Fellow (curBufMut f) (curBufMut f) := by
  intro s t h
  unfold curBufMut workBuf setCur
  rw [h.loc, h.loc', h.newBuf]
  dsimp only
  cases f t.newBuf with
  | none => exact .inr (.inr trivial)
  | some r => exact twins_ok ⟨rfl, h.cursor, h.noEol, h.hint, rfl, rfl, h.search, h.search', h.sub, h.sub'⟩

theorem blind_viMode (m : ViPromptMode) : Sim Fellow (setViMode m) (setViMode m) := by
  refine sim_fellow fun s t h => h.of ?_ ?_
  · cases s.prompt.viStatus <;> rfl
  · cases t.prompt.viStatus <;> rfl

theorem blind_write (E E' : Env) (x y : List Tok) : Sim Fellow (writeTerm E x) (writeTerm E' y) := by
  intro s t h
  unfold writeTerm
  split
  · split
    · exact twins_ok (h.of rfl rfl)
    · exact .inr (.inl rfl)
  · exact .inl rfl

theorem blind_flush (E E' : Env) : Sim Fellow (flush E) (flush E') := by
  intro s t h
  unfold flush
  split
  · split
    · exact twins_ok (h.of rfl rfl)
    · exact .inr (.inl rfl)
  · exact .inl rfl

theorem blind_width {β : Type} {E E' : Env} {f f' : Nat → EdM β} (h : ∀ a b, Sim Fellow (f a) (f' b)) :
    Sim Fellow (terminalWidth E >>= f) (terminalWidth E' >>= f') := by
  refine sim_apart (fun s t hr => ?_) h
  show Lost (M.bind (terminalSize E) _ s) ∨ Lost (M.bind (terminalSize E') _ t) ∨
      (M.bind (terminalSize E) _ s = _ ∧ M.bind (terminalSize E') _ t = _) ∨
      ∃ _ _ _ _, M.bind (terminalSize E) _ s = _ ∧ M.bind (terminalSize E') _ t = _ ∧ _
  unfold M.bind terminalSize
  cases E.termSize s.tick with
  | none => exact .inl rfl
  | some w =>
    cases E'.termSize t.tick with
    | none => exact .inr (.inl rfl)
    | some w' => exact .inr (.inr (.inr ⟨_, _, _, _, rfl, rfl, hr.of rfl rfl⟩))

theorem blind_completions {β : Type} {E E' : Env} (hint : Option (List Text × Option Nat))
    {f f' : Nat × List Tok → EdM β} (h : ∀ a b, Sim Fellow (f a) (f' b)) :
    Sim Fellow (completionPart E hint >>= f) (completionPart E' hint >>= f') := by
  cases hint with
  | none => exact h _ _
  | some x =>
    refine sim_apart (fun s t hr => ?_) h
    show Lost (M.bind (M.bind (terminalSize E) _) _ s) ∨ Lost (M.bind (M.bind (terminalSize E') _) _ t) ∨
      (M.bind (M.bind (terminalSize E) _) _ s = _ ∧ M.bind (M.bind (terminalSize E') _) _ t = _) ∨
      ∃ _ _ _ _, M.bind (M.bind (terminalSize E) _) _ s = _ ∧ M.bind (M.bind (terminalSize E') _) _ t = _ ∧ _
    unfold M.bind terminalSize
    cases E.termSize s.tick with
    | none => exact .inl rfl
    | some w =>
      cases E'.termSize t.tick with
      | none => exact .inr (.inl rfl)
      | some w' => exact .inr (.inr (.inr ⟨_, _, _, _, rfl, rfl, hr.of rfl rfl⟩))

theorem blind_prompt {β : Type} {E E' : Env} {f f' : Text × Nat → EdM β}
    (h : ∀ a b, Sim Fellow (f a) (f' b)) : Sim Fellow (searchPrompt E >>= f) (searchPrompt E' >>= f') := by
  refine sim_apart (fun s t hr => ?_) h
  unfold searchPrompt
  rw [hr.search, hr.search']
  simp only [Bool.false_eq_true, if_false]
  exact .inr (.inr (.inr ⟨_, _, _, _, rfl, rfl, hr⟩))

theorem blind_displayImpl (E E' : Env) (b : Bool) : Sim Fellow (displayImpl E b) (displayImpl E' b) := by
  unfold displayImpl
  refine blind_prompt fun pr pr' => blind_width fun tw tw' => sim_bind blind_buf fun buf =>
    sim_bind (sim_fellow fun s t h => ?_) fun _ => sim_get fun s t hr =>
    sim_redraw _ _ _ _ fun w w' => sim_rows _ _ _ _ fun u u' => ?_
  · exact ⟨h.newBuf, by show clampCursor s.noEol _ s.cursor = clampCursor t.noEol _ t.cursor; rw [h.noEol, h.cursor],
      h.noEol, h.hint, h.loc, h.loc', h.search, h.search', h.sub, h.sub'⟩
  rw [hr.hint]
  exact blind_completions _ fun x x' => sim_redraw _ _ _ _ fun f f' =>
    sim_bind (sim_fellow fun s t h => h.of rfl rfl) fun _ => sim_bind (blind_write _ _ _ _) fun _ =>
    blind_flush _ _

/-- Looking for a suggestion neither changes anything nor panics. -/
theorem suggestion_still {s : Ed} (hl : s.curHistoryLoc = none) (hs : s.isSearch = false) :
    ∃ sug, currentAutosuggestion s = .ok sug s := by
  have e : currentAutosuggestion s =
      if s.histBufValid then .ok none s
      else match (if s.isSearch then s.searchHistoryLoc
        else if s.showAutosuggestions then
          match s.curHistoryLoc with
          | some i => some i
          | none => s.history.getNewestMatch (some s.history.buffers.length) s.newBuf
        else none : Option Nat) with
      | none => .ok none s
      | some i =>
        match s.history.buffers[i]? with
        | some b => .ok (some b) s
        | none => .panic .op := rfl
  rw [e, hl, hs]
  simp only [Bool.false_eq_true, if_false]
  split
  · exact ⟨_, rfl⟩
  by_cases ha : s.showAutosuggestions = true
  · rw [if_pos ha]
    cases hn : s.history.getNewestMatch (some s.history.buffers.length) s.newBuf with
    | none => exact ⟨_, rfl⟩
    | some i =>
      have hi := ((Props.C17_newest_match _ _ _ i).mp hn).1
      simp only [Option.getD_some] at hi
      dsimp only
      rw [List.getElem?_eq_getElem hi]
      exact ⟨_, rfl⟩
  · rw [if_neg ha]
    exact ⟨_, rfl⟩

theorem blind_display (E E' : Env) : Sim Fellow (display E) (display E') := by
  unfold display
  refine sim_get fun s t h => ?_
  rw [h.search, h.search']
  refine sim_apart (fun s t h => ?_) fun a a' =>
    sim_bind (sim_fellow fun s t h => h.of rfl rfl) fun _ => blind_displayImpl E E' true
  obtain ⟨x, hx⟩ := suggestion_still h.loc h.search
  obtain ⟨y, hy⟩ := suggestion_still h.loc' h.search'
  exact .inr (.inr (.inr ⟨x, y, s, t, hx, hy, h⟩))

theorem blind_clearSearch : Sim Fellow clearSearch clearSearch :=
  sim_fellow fun _ _ h => ⟨h.newBuf, h.cursor, h.noEol, h.hint, h.loc, h.loc', rfl, rfl, rfl, rfl⟩

theorem blind_clear (E E' : Env) : Sim Fellow (clear E) (clear E') :=
  sim_bind (sim_fellow fun _ _ h => h.of rfl rfl) fun _ =>
    sim_bind blind_clearSearch fun _ => blind_display E E'

theorem blind_histEnd (E E' : Env) : Sim Fellow (moveToEndOfHistory E) (moveToEndOfHistory E') := by
  unfold moveToEndOfHistory
  refine sim_bind (sim_fellow fun _ _ h => h.of rfl rfl) fun _ => sim_get fun s t h => ?_
  rw [h.loc, h.loc']
  exact blind_display E E'

/-- The operations the key maps use, other than Up and Down, do the same with any history. -/
theorem blind_ops {E E' : Env} (hc : E.cc = E'.cc) (hw : E.words = E'.words) : Ops E E' Fellow where
  cc := hc
  words := hw
  cursor h := h.cursor
  newBuf h := h.newBuf
  buf := blind_buf
  mutate := blind_mut
  place f _ _ h := ⟨h.newBuf, congrArg f h.cursor, h.noEol, h.hint, h.loc, h.loc', h.search, h.search', h.sub, h.sub'⟩
  noEol _ _ _ h := ⟨h.newBuf, h.cursor, rfl, h.hint, h.loc, h.loc', h.search, h.search', h.sub, h.sub'⟩
  viMode := blind_viMode
  display := blind_display E E'
  clear := blind_clear E E'
  toEnd := blind_histEnd E E'

theorem blind_down {E E' : Env} (hc : E.cc = E'.cc) (hw : E.words = E'.words) :
    Sim Fellow (moveDown E) (moveDown E') := by
  unfold moveDown
  refine sim_get fun s t h => ?_
  rw [h.search, h.search']
  refine sim_bind (sim_fellow fun _ _ h => h.of rfl rfl) fun _ => sim_bind ?_ fun _ => sim_eol (blind_ops hc hw)
  unfold moveDownLoc
  refine sim_get fun s t h => ?_
  rw [h.sub, h.sub', h.loc, h.loc', h.newBuf]
  exact sim_ite (sim_pure _)
    (sim_fellow fun _ _ h => ⟨h.newBuf, h.cursor, h.noEol, h.hint, rfl, rfl, h.search, h.search', h.sub, h.sub'⟩)

theorem blind_hint (x : Option (List Text × Option Nat)) :
    Sim Fellow (M.modify fun s : Ed => { s with showCompletionsHint := x })
      (M.modify fun s : Ed => { s with showCompletionsHint := x }) :=
  sim_fellow fun _ _ h => ⟨h.newBuf, h.cursor, h.noEol, rfl, h.loc, h.loc', h.search, h.search', h.sub, h.sub'⟩

section
variable {E E' : Env} (hc : E.cc = E'.cc) (hw : E.words = E'.words)
include hc hw

omit hc hw in
theorem blind_isWhole (cs : List Text) (i : Option Nat) : Sim Fellow (isWhole cs i) (isWhole cs i) := by
  cases i with
  | none => exact sim_pure _
  | some x => exact sim_bind blind_buf fun b => sim_bind (sim_ofOption _) fun c => sim_pure _

theorem blind_complete (comp : Text → List Text) : Sim Fellow (complete E comp) (complete E' comp) := by
  have H := blind_ops hc hw
  have hd := H.display
  unfold complete
  refine sim_get fun s t hr => ?_
  rw [hr.hint]
  cases t.showCompletionsHint with
  | some x =>
    refine sim_bind ?_ fun _ => hd
    unfold completeNext
    refine sim_bind (blind_hint _) fun _ =>
      sim_bind (sim_ofOption _) fun i => sim_bind (blind_isWhole _ _) fun w => ?_
    refine sim_bind ?_ fun _ => sim_bind (sim_ofOption _) fun c => sim_bind (sim_insert H c) fun _ => blind_hint _
    unfold dropCandidate
    exact sim_ite (sim_bind (blind_mut _) fun _ => sim_place H fun _ => 0) (sim_deleteWord H _)
  | none =>
    dsimp only
    unfold completeFirst getWordBeforeCursor
    refine sim_bind (sim_bind (sim_wordsAndPos H) fun _ => sim_pure _) fun r =>
      sim_bind (blind_mut _) fun w => ?_
    dsimp only
    have h1 : ∀ cs : List Text, Sim Fellow
        ((M.modify fun s : Ed => { s with showCompletionsHint := some (cs, none) }) >>= fun _ => display E)
        ((M.modify fun s : Ed => { s with showCompletionsHint := some (cs, none) }) >>= fun _ => display E') :=
      fun cs => sim_bind (blind_hint _) fun _ => hd
    split
    · exact blind_hint _
    · exact sim_bind (blind_hint _) fun _ => sim_bind (sim_deleteWord H _) fun _ => sim_insert H _
    · split
      · exact sim_ite (sim_bind (sim_deleteWord H _) fun _ => sim_insert H _) (h1 _)
      · exact h1 _

theorem blind_newline : Sim Fellow (handleNewline E) (handleNewline E') := by
  have H := blind_ops hc hw
  unfold handleNewline
  refine sim_bind (sim_fellow fun _ _ h => h.of rfl rfl) fun _ =>
    sim_bind ?_ fun _ => sim_bind blind_clearSearch fun _ => ?_
  · unfold acceptIfSearch
    refine sim_get fun s t h => ?_
    rw [h.search, h.search']
    exact sim_pure _
  · unfold finishLine
    refine sim_get fun s t h => ?_
    rw [h.hint, h.cursor]
    refine sim_ite (sim_bind (blind_hint _) fun _ => sim_pure _) ?_
    refine sim_bind blind_buf fun b => sim_ite (sim_bind (sim_insert H _) fun _ => sim_pure _) ?_
    exact sim_bind (sim_place H fun _ => b.numChars) fun _ =>
      sim_bind (blind_displayImpl E E' false) fun _ => sim_bind (blind_write _ _ _ _) fun _ =>
      sim_bind (blind_hint _) fun _ => sim_pure _

end

/-! ### The keys -/

/-- The same key map state, of a kind, and related editors. -/
def OnP {κ : Type} (P : κ → Prop) (R : Ed → Ed → Prop) (t t' : κ × Ed) : Prop := OnK R t t' ∧ P t.1

section
variable {κ α : Type} {P : κ → Prop} {R : Ed → Ed → Prop}

theorem simP_ed {m m' : EdM α} (h : Sim R m m') : Sim (OnP P R) (ed m : KM κ α) (ed m') := by
  intro s t hr
  have h1 := h s.2 t.2 hr.1.2
  unfold KM.ed M.zoom
  revert h1
  cases m s.2 <;> cases m' t.2 <;> intro h1 <;> rcases h1 with h1 | h1 | h1 <;>
    first
    | exact .inl h1
    | exact .inr (.inl h1)
    | exact h1.elim
    | exact .inr (.inr ⟨h1.1, ⟨hr.1.1, h1.2⟩, hr.2⟩)
    | exact .inr (.inr trivial)

theorem simP_getK {f f' : κ → KM κ α} (h : ∀ k, P k → Sim (OnP P R) (f k) (f' k)) :
    Sim (OnP P R) (KM.getK >>= f) (KM.getK >>= f') := by
  intro s t hr
  have : Sim (OnP P R) (f s.1) (f' t.1) := hr.1.1 ▸ h s.1 hr.2
  exact this s t hr

theorem simP_modK {f : κ → κ} (h : ∀ k, P k → P (f k)) : Sim (OnP P R) (KM.modK f) (KM.modK f) := fun _ _ hr =>
  twins_ok ⟨⟨congrArg f hr.1.1, hr.1.2⟩, h _ hr.2⟩

theorem simP_edget {f f' : Ed → KM κ α} (h : ∀ s t, R s t → Sim (OnP P R) (f s) (f' t)) :
    Sim (OnP P R) (ed M.get >>= f) (ed M.get >>= f') := fun s t hr => h s.2 t.2 hr.1.2 s t hr

/-- When nothing is asked of the key map state. -/
theorem simP_of {m m' : KM κ α} (h : Sim (OnK R) m m') : Sim (OnP (fun _ => True) R) m m' := by
  have e : (OnP (fun _ : κ => True) R) = OnK R := by
    funext s t
    exact propext ⟨fun h => h.1, fun h => ⟨h, trivial⟩⟩
  rw [e]
  exact h

end

/-- The keys that take a suggestion or search, with any key map. -/
def takes (key : Key) : Bool := key ∈ [.right, .ctrl 'f', .ctrl 'r', .ctrl 's']

section
variable {E E' : Env} (hc : E.cc = E'.cc) (hw : E.words = E'.words)
include hc hw

theorem blind_handleKey {κ : Type} (km : KeyMap κ) (P : κ → Prop) (comp : Text → List Text) {key : Key}
    (ht : takes key = false)
    (hk : Sim (OnP P Fellow) (km.core E (KeyMap.translate key)) (km.core E' (KeyMap.translate key))) :
    Sim (OnP P Fellow) (km.handleKey E comp key) (km.handleKey E' comp key) := by
  have hn := blind_newline hc hw
  have hcm := blind_complete hc hw comp
  have ht' : KeyMap.translate key ≠ .right ∧ KeyMap.translate key ≠ .ctrl 'f' ∧ KeyMap.translate key ≠ .ctrl 'r' ∧
      KeyMap.translate key ≠ .ctrl 's' := by
    have : key ≠ .right ∧ key ≠ .ctrl 'f' ∧ key ≠ .ctrl 'r' ∧ key ≠ .ctrl 's' := by simpa [takes] using ht
    unfold KeyMap.translate
    split
    · exact ⟨nofun, nofun, nofun, nofun⟩
    · exact this
  obtain ⟨k1, k2, k3, k4⟩ := ht'
  unfold KeyMap.handleKey
  refine sim_bind (simP_ed blind_buf) fun b => sim_bind ?_ fun d =>
    sim_bind (simP_ed (blind_flush E E')) fun _ => sim_pure _
  unfold KeyMap.dispatch
  refine simP_edget fun s t hr => ?_
  simp only [if_neg k3, if_neg k4, k1, k2, false_and, if_false]
  have hrest : Sim (OnP P Fellow)
      (km.core E (KeyMap.translate key) >>= fun _ => ed skipCompletionsHint >>= fun _ => pure false)
      (km.core E' (KeyMap.translate key) >>= fun _ => ed skipCompletionsHint >>= fun _ => pure false) :=
    sim_bind hk fun _ => sim_bind (simP_ed (blind_hint none)) fun _ => sim_pure _
  exact sim_ite (sim_bind (simP_ed hn) fun _ => sim_throw _) <|
    sim_ite (sim_bind (simP_ed hn) fun _ => sim_throw _) <|
    sim_ite (sim_bind (simP_ed hcm) fun _ => sim_pure _) <|
    sim_ite (simP_ed hn) hrest

omit hc hw in
theorem blind_loop {κ : Type} (km : KeyMap κ) (P : κ → Prop) :
    ∀ (input : List KeyMap.Input)
      (_ : ∀ k comp, KeyMap.Input.key k comp ∈ input →
        Sim (OnP P Fellow) (km.handleKey E comp k) (km.handleKey E' comp k)),
      Sim (OnP P Fellow) (km.loop E input) (km.loop E' input)
  | [], _ => by
    unfold KeyMap.loop
    exact simP_edget fun s t h => by rw [intoText, intoText, h.buf.1, h.buf.2]; exact sim_ofOption _
  | .ioErr :: rest, _ => sim_throw _
  | .key k comp :: rest, hk => by
    unfold KeyMap.loop
    refine sim_bind (hk k comp (by simp)) fun d => sim_ite ?_ ?_
    · exact simP_edget fun s t h => by rw [intoText, intoText, h.buf.1, h.buf.2]; exact sim_ofOption _
    · exact blind_loop km P rest fun k' c' h => hk k' c' (by simp [h])

end

/-! ### The start -/

theorem Fellow.outer {m m' : EdM Unit} (h : Outer m) (h' : Outer m') : Sim Fellow m m' := by
  intro s t hr
  rcases h s with h1 | ⟨s1, e1, p, l, c, o, n, rfl⟩
  · exact .inl h1
  rcases h' t with h2 | ⟨t1, e2, p', l', c', o', n', rfl⟩
  · exact .inr (.inl h2)
  rw [e1, e2]
  exact twins_ok (hr.of rfl rfl)

theorem blind_start {E E' : Env} (hc : E.cc = E'.cc) (hw : E.words = E'.words) (h : E.ttyWidth ≠ some 0)
    (h' : E'.ttyWidth ≠ some 0) (p p' : Prompt) : Sim Fellow (start E p) (start E' p') := by
  have g : ∀ o : Option Nat, o ≠ some 0 → o.getD 80 ≠ 0 := by
    intro o h
    cases o with
    | none => simp
    | some n => simpa using h
  unfold start
  refine sim_bind (blind_write _ _ _ _) fun _ => ?_
  dsimp only
  rw [if_neg (g _ h), if_neg (g _ h')]
  refine sim_bind (Fellow.outer (outer_repeat (outer_write _ _) _) (outer_repeat (outer_write _ _) _)) fun _ =>
    sim_bind (blind_write _ _ _ _) fun _ => sim_bind (blind_write _ _ _ _) fun _ => sim_get fun s t hr => ?_
  rw [hr.newBuf]
  exact sim_ite (blind_display E E') (sim_bind (sim_eol (blind_ops hc hw)) fun _ => blind_display E E')

theorem blind_readLine {E E' : Env} (hc : E.cc = E'.cc) (hw : E.words = E'.words) {κ : Type} (km : KeyMap κ)
    (P : κ → Prop) (h : E.ttyWidth ≠ some 0) (h' : E'.ttyWidth ≠ some 0)
    (hi : Sim (OnP P Fellow) (km.init E) (km.init E')) (p p' : Prompt) {input : List KeyMap.Input}
    (hk : ∀ k comp, KeyMap.Input.key k comp ∈ input → takes k = false ∧
      Sim (OnP P Fellow) (km.core E (KeyMap.translate k)) (km.core E' (KeyMap.translate k))) :
    Sim (OnP P Fellow) (km.readLine E p input) (km.readLine E' p' input) := by
  unfold KeyMap.readLine KeyMap.handleKeys
  exact sim_bind (simP_ed (blind_start hc hw h h' p p')) fun _ => sim_bind hi fun _ =>
    blind_loop km P input fun k comp hm => blind_handleKey hc hw km P comp (hk k comp hm).1 (hk k comp hm).2

end Liner
