import Verif.Proof.Akin
import Verif.Proof.Blind
/-
Two runs with the same text: the keys.
-/

namespace Liner
open Liner.Editor M KM

/-- Related key map states and related editors. -/
def OnQ {κ κ' : Type} (Q : κ → κ' → Prop) (R : Ed → Ed → Prop) (t : κ × Ed) (t' : κ' × Ed) : Prop :=
  Q t.1 t'.1 ∧ R t.2 t'.2

section
variable {κ κ' α : Type} {Q : κ → κ' → Prop} {R : Ed → Ed → Prop}

theorem simQ_ed {m m' : EdM α} (h : Sim R m m') : Sim (OnQ Q R) (ed m : KM κ α) (ed m' : KM κ' α) := by
  intro s t hr
  have h1 := h s.2 t.2 hr.2
  unfold KM.ed M.zoom
  revert h1
  cases m s.2 <;> cases m' t.2 <;> intro h1 <;> rcases h1 with h1 | h1 | h1 <;>
    first
    | exact .inl h1
    | exact .inr (.inl h1)
    | exact h1.elim
    | exact .inr (.inr ⟨h1.1, hr.1, h1.2⟩)
    | exact .inr (.inr trivial)

theorem simQ_edget {f : Ed → KM κ α} {f' : Ed → KM κ' α} (h : ∀ s t, R s t → Sim (OnQ Q R) (f s) (f' t)) :
    Sim (OnQ Q R) (ed M.get >>= f) (ed M.get >>= f') := fun s t hr => h s.2 t.2 hr.2 s t hr

theorem simQ_modK {f : κ → κ} {f' : κ' → κ'} (h : ∀ k k', Q k k' → Q (f k) (f' k')) :
    Sim (OnQ Q R) (modK f) (modK f') := fun _ _ hr => twins_ok ⟨h _ _ hr.1, hr.2⟩

theorem sim_dite {σ τ : Type} {S : σ → τ → Prop} {c : Prop} [Decidable c] {a b : M σ α} {a' b' : M τ α}
    (ha : c → Sim S a a') (hb : ¬c → Sim S b b') : Sim S (if c then a else b) (if c then a' else b') := by
  split
  · exact ha ‹_›
  · exact hb ‹_›

/-- A step of the first run only. -/
theorem sim_first {σ τ : Type} {S : σ → τ → Prop} {x : M σ Unit} {m : M σ α} {m' : M τ α}
    (hx : ∀ s t, S s t → ∃ s1, x s = .ok () s1 ∧ S s1 t) (h : Sim S m m') : Sim S (x >>= fun _ => m) m' := by
  intro s t hr
  obtain ⟨s1, e, h1⟩ := hx s t hr
  show Pair S (M.bind x _ s) _
  unfold M.bind
  rw [e]
  exact h s1 t h1

/-- A step of the second run only. -/
theorem sim_second {σ τ : Type} {S : σ → τ → Prop} {x : M τ Unit} {m : M σ α} {m' : M τ α}
    (hx : ∀ s t, S s t → ∃ t1, x t = .ok () t1 ∧ S s t1) (h : Sim S m m') : Sim S m (x >>= fun _ => m') := by
  intro s t hr
  obtain ⟨t1, e, h1⟩ := hx s t hr
  show Pair S _ (M.bind x _ t)
  unfold M.bind
  rw [e]
  exact h s t1 h1

end

section
variable {w : Prop} {E E' : Env} {κ κ' : Type} {Q : κ → κ' → Prop}

theorem akin_handleKey (hw : SameWords E E') (km : KeyMap κ) (km' : KeyMap κ') (comp : Text → List Text) (key : Key)
    (hk : key ≠ .ctrl 'c' → key ≠ .ctrl 'r' → key ≠ .ctrl 's' → Sim (OnQ Q (Akin w)) (km.core E (KeyMap.translate key))
      (km'.core E' (KeyMap.translate key))) :
    Sim (OnQ Q (Akin w)) (km.handleKey E comp key) (km'.handleKey E' comp key) := by
  have hn : Sim (Akin w) (handleNewline E) (handleNewline E') := akin_newline
  have ha : Sim (Akin w) (acceptAutosuggestion E) (acceptAutosuggestion E') := akin_accept
  have ht : Sim (Akin w) (complete E comp) (complete E' comp) := akin_complete hw comp
  unfold KeyMap.handleKey
  refine sim_rel (Q := fun b b' : Buffer => b'.data = b.data) (fun s t hr => ?_) fun b b' hd => ?_
  · unfold KM.ed M.zoom curBuf
    rcases hr.2.buf with ⟨e1, e2⟩ | ⟨b, b', e1, e2, e⟩
    · rw [e1, e2]; exact .inr (.inr (.inl ⟨rfl, rfl⟩))
    · rw [e1, e2]; exact .inr (.inr (.inr ⟨_, _, _, _, rfl, rfl, e, hr⟩))
  have he : b'.isEmpty = b.isEmpty := by unfold Buffer.isEmpty; rw [hd]
  rw [he]
  refine sim_bind ?_ fun d => sim_bind (simQ_ed akin_flush) fun _ => sim_pure _
  unfold KeyMap.dispatch
  refine simQ_edget fun s t hr => ?_
  obtain ⟨p, l, c, o, n, b, hb, ch, e1, e2, e3, e4, rfl⟩ := hr
  dsimp only
  refine sim_dite (fun _ => sim_bind (simQ_ed hn) fun _ => sim_throw _) fun h1 =>
    sim_dite (fun _ => sim_bind (simQ_ed hn) fun _ => sim_throw _) fun _ =>
    sim_dite (fun _ => sim_bind (simQ_ed ht) fun _ => sim_pure _) fun _ =>
    sim_dite (fun _ => simQ_ed hn) fun _ =>
    sim_dite (fun _ => sim_bind (simQ_ed ha) fun _ => sim_pure _) fun _ =>
    sim_dite (fun _ => sim_bind (simQ_ed (akin_search _)) fun _ => sim_pure _) fun h2 =>
    sim_dite (fun _ => sim_bind (simQ_ed (akin_search _)) fun _ => sim_pure _) fun h3 => ?_
  have hk := hk (fun h => h1 (by rw [h]; rfl)) (fun h => h2 (by rw [h]; rfl)) (fun h => h3 (by rw [h]; rfl))
  have hrest : ∀ b : Bool, Sim (OnQ Q (Akin w))
      (if b then ed (acceptAutosuggestion E) >>= fun _ => pure false
        else km.core E (KeyMap.translate key) >>= fun _ => ed skipCompletionsHint >>= fun _ => pure false)
      (if b then ed (acceptAutosuggestion E') >>= fun _ => pure false
        else km'.core E' (KeyMap.translate key) >>= fun _ => ed skipCompletionsHint >>= fun _ => pure false) :=
    fun b => sim_ite (sim_bind (simQ_ed ha) fun _ => sim_pure _) (sim_bind hk fun _ =>
      sim_bind (simQ_ed (akin_hint none)) fun _ => sim_pure _)
  exact sim_ite (sim_bind (simQ_ed akin_atEnd) hrest) (hrest false)

theorem Akin.text {s t : Ed} (h : Akin w s t) : intoText s = intoText t := by
  unfold intoText
  rcases h.buf with ⟨e1, e2⟩ | ⟨b, b', e1, e2, e⟩
  · rw [e1, e2]
  · rw [e1, e2]; exact congrArg some e.symm

theorem akin_loop (km : KeyMap κ) (km' : KeyMap κ') : ∀ (input : List KeyMap.Input)
    (_ : ∀ k comp, KeyMap.Input.key k comp ∈ input → Sim (OnQ Q (Akin w)) (km.handleKey E comp k) (km'.handleKey E' comp k)),
    Sim (OnQ Q (Akin w)) (km.loop E input) (km'.loop E' input)
  | [], _ => by
    unfold KeyMap.loop
    exact simQ_edget fun s t hr => by rw [hr.text]; exact sim_ofOption _
  | .ioErr :: rest, _ => sim_throw _
  | .key k comp :: rest, hk => by
    unfold KeyMap.loop
    refine sim_bind (hk k comp (by simp)) fun d => sim_ite ?_ ?_
    · exact simQ_edget fun s t hr => by rw [hr.text]; exact sim_ofOption _
    · exact akin_loop km km' rest fun k' c' h => hk k' c' (by simp [h])

end

/-! ### Emacs twice -/

macro "akins" : term =>
  `(fun _ _ _ _ _ _ _ _ _ e1 e2 e3 _ => ⟨_, _, _, _, _, _, _, _, e1, e2, e3, False.elim, rfl⟩)

/-- The same, where the copy is dropped. -/
macro "akinv" : term =>
  `(fun _ _ _ _ _ _ _ _ _ e1 _ e3 _ => ⟨_, _, _, _, _, _, _, _, e1, fun h => Bool.noConfusion h, e3, False.elim, rfl⟩)

section
variable {E E' : Env}

theorem akin_freshen : Sim (Akin False) freshenHistory freshenHistory := by
  refine sim_akin fun s p l c o n b hb ch e1 e2 e3 e4 => ?_
  dsimp only
  split <;> exact ⟨_, _, _, _, _, _, _, _, e1, e2, e3, False.elim, rfl⟩

theorem akin_upLoc : Sim (Akin False) moveUpLoc moveUpLoc := by
  unfold moveUpLoc
  refine sim_get fun s t hr => ?_
  obtain ⟨p, l, c, o, n, b, hb, ch, e1, e2, e3, e4, rfl⟩ := hr
  dsimp only
  rw [numChars_same e1, subset_same _ e1]
  refine sim_ite ?_ ?_
  · split
    · exact sim_ite (sim_bind (sim_ofOption _) fun _ => sim_akin akins) (sim_pure _)
    · refine sim_bind (sim_akin akins) fun _ => ?_
      split
      · exact sim_akin akins
      · exact sim_pure _
  · split
    · exact sim_ite (sim_akin akins) (sim_pure _)
    · exact sim_ite (sim_pure _) (sim_akin akins)

theorem akin_up : Sim (Akin False) (moveUp E) (moveUp E') := by
  unfold moveUp
  refine sim_get fun s t hr => ?_
  rw [hr.isSearch]
  exact sim_ite (akin_search false)
    (sim_bind (sim_akin akinv) fun _ => sim_bind akin_freshen fun _ => sim_bind akin_upLoc fun _ => akin_eol)

theorem akin_downLoc : Sim (Akin False) moveDownLoc moveDownLoc := by
  unfold moveDownLoc
  refine sim_get fun s t hr => ?_
  obtain ⟨p, l, c, o, n, b, hb, ch, e1, e2, e3, e4, rfl⟩ := hr
  dsimp only
  rw [numChars_same e1]
  refine sim_ite ?_ ?_
  · split
    · exact sim_ite sim_panic (sim_ite (sim_bind (sim_ofOption _) fun _ => sim_akin akins) (sim_akin akins))
    · exact sim_pure _
  · split
    · exact sim_ite sim_panic (sim_ite (sim_akin akins) (sim_akin akins))
    · exact sim_akin akins

theorem akin_down : Sim (Akin False) (moveDown E) (moveDown E') := by
  unfold moveDown
  refine sim_get fun s t hr => ?_
  rw [hr.isSearch]
  exact sim_ite (akin_search true) (sim_bind (sim_akin akinv) fun _ => sim_bind akin_downLoc fun _ => akin_eol)

theorem akin_histStart : Sim (Akin False) (moveToStartOfHistory E) (moveToStartOfHistory E') := by
  unfold moveToStartOfHistory
  refine sim_bind (sim_akin akinv) fun _ => sim_get fun s t hr => ?_
  obtain ⟨p, l, c, o, n, b, hb, ch, e1, e2, e3, e4, rfl⟩ := hr
  exact sim_ite (sim_bind (sim_akin akins) fun _ => akin_display) (sim_bind (sim_akin akins) fun _ => akin_eol)

theorem akin_histEnd : Sim (Akin False) (moveToEndOfHistory E) (moveToEndOfHistory E') := by
  unfold moveToEndOfHistory
  refine sim_bind (sim_akin akinv) fun _ => sim_get fun s t hr => ?_
  obtain ⟨p, l, c, o, n, b, hb, ch, e1, e2, e3, e4, rfl⟩ := hr
  exact sim_ite (sim_bind (sim_akin akins) fun _ => akin_eol) akin_display

theorem akin_lastArg : Sim (OnK (Akin False)) (Emacs.handleLastArgFetch E) (Emacs.handleLastArgFetch E') := by
  unfold Emacs.handleLastArgFetch
  refine sim_edget fun s t hr => ?_
  obtain ⟨p, l, c, o, n, b, hb, ch, e1, e2, e3, e4, rfl⟩ := hr
  refine sim_getK fun k => ?_
  dsimp only
  refine sim_ite (sim_pure _) (sim_ite (sim_pure _) ?_)
  have hd : Sim (Akin False) (Emacs.deleteLastArg E) (Emacs.deleteLastArg E') := by
    unfold Emacs.deleteLastArg
    refine akin_buf fun b b' hd => ?_
    have e : b'.lastArg = b.lastArg := by unfold Buffer.lastArg; rw [hd]
    rw [e, numChars_same hd]
    split
    · exact akin_deleteUntil _
    · exact sim_pure _
  have hr : ∀ i, Sim (OnK (Akin False))
      (ed M.get >>= fun s : Ed => (M.ofOption s.history.buffers[i]? : KM Emacs Buffer) >>= fun b =>
        match b.lastArg with
        | some arg => ed (insertCharsAfterCursor E arg) >>= fun _ =>
            modK fun k : Emacs => { k with lastArgFetchIndex := some i }
        | none => modK fun k : Emacs => { k with lastArgFetchIndex := some i })
      (ed M.get >>= fun s : Ed => (M.ofOption s.history.buffers[i]? : KM Emacs Buffer) >>= fun b =>
        match b.lastArg with
        | some arg => ed (insertCharsAfterCursor E' arg) >>= fun _ =>
            modK fun k : Emacs => { k with lastArgFetchIndex := some i }
        | none => modK fun k : Emacs => { k with lastArgFetchIndex := some i }) := by
    refine fun i => sim_edget fun s t hr => ?_
    obtain ⟨p, l, c, o, n, b, hb, ch, e1, e2, e3, e4, rfl⟩ := hr
    refine sim_bind (sim_ofOption _) fun b => ?_
    split
    · exact sim_bind (sim_ed (akin_insert _)) fun _ => sim_modK _
    · exact sim_modK _
  exact sim_ite (sim_bind (sim_ed hd) fun _ => hr _) (hr _)

theorem akin_moveWord (hw : SameWords E E') (r : Bool) : Sim (Akin False) (Emacs.moveWord E r) (Emacs.moveWord E' r) := by
  unfold Emacs.moveWord
  refine sim_bind (akin_words hw) fun x => ?_
  dsimp only
  split
  · exact sim_pure _
  · exact sim_bind (sim_ofOption _) fun _ => akin_moveTo _

/-- Every key of the Emacs key map but Undo and Revert. -/
theorem akin_emacs (hw : SameWords E E') {key : Key} (h1 : key ≠ .ctrl 'x') (h2 : key ≠ .alt 'r') :
    Sim (OnK (Akin False)) (Emacs.keyMap.core E key) (Emacs.keyMap.core E' key) := by
  have body : Sim (OnK (Akin False)) (Emacs.handleKeyBody E key) (Emacs.handleKeyBody E' key) := by
    cases key with
    | char c => exact sim_ed (akin_insert _)
    | alt c =>
      show Sim _ (Emacs.handleAltKey E c) (Emacs.handleAltKey E' c)
      have hr : c ≠ 'r' := fun e => h2 (by rw [e])
      unfold Emacs.handleAltKey
      refine sim_ite (sim_ed akin_histStart) <| sim_ite (sim_ed akin_histEnd) <| sim_ite (sim_ed (akin_deleteWord hw _)) <|
        sim_ite (sim_ed (akin_moveWord hw _)) <| sim_ite (sim_ed (akin_moveWord hw _)) <|
        sim_dite (fun h => (hr h).elim) fun _ => sim_ite akin_lastArg (sim_pure _)
    | ctrl c =>
      refine sim_ed ?_
      have hr : c ≠ 'x' := fun e => h1 (by rw [e])
      unfold Emacs.handleCtrlKey
      refine sim_ite akin_clear <| sim_ite akin_home <| sim_ite akin_eol <| sim_ite (akin_left _) <|
        sim_ite (akin_right _) <| sim_ite akin_deleteAfter <| sim_ite akin_up <| sim_ite akin_down <|
        sim_ite akin_deleteAllBefore <| sim_ite akin_deleteAllAfter <| sim_ite (akin_deleteWord hw _) <|
        sim_dite (fun h => (hr h).elim) fun _ => sim_pure _
    | left => exact sim_ed (akin_left _)
    | right => exact sim_ed (akin_right _)
    | up => exact sim_ed akin_up
    | down => exact sim_ed akin_down
    | home => exact sim_ed akin_home
    | «end» => exact sim_ed akin_eol
    | backspace => exact sim_ed akin_deleteBefore
    | delete => exact sim_ed akin_deleteAfter
    | null => exact sim_pure _
    | esc => exact sim_pure _
    | other n => exact sim_pure _
  show Sim _ (Emacs.handleKeyCore E key) (Emacs.handleKeyCore E' key)
  unfold Emacs.handleKeyCore
  dsimp only
  exact sim_ite body (sim_bind (sim_modK _) fun _ => body)

end

/-! ### Emacs, and vi in insert mode -/

/-- The keys that both key maps treat alike while vi is in insert mode. -/
def common : Key → Bool
  | .char _ | .backspace | .delete | .left | .right | .home | .end | .null | .other _ => true
  | .ctrl c => c ∈ ['h', 'c', 'r', 's', 'l']
  | _ => false

/-- Vi is in insert mode. -/
def Inserting (_ : Emacs) (v : Vi) : Prop := v.mode = .insert

section
variable {E E' : Env}

theorem Akin.mark {s t : Ed} (h : Akin True s t) (f : Buffer → Buffer) (hf : ∀ b, (f b).data = b.data) :
    ∃ t1, Vi.onBuf f t = .ok () t1 ∧ Akin True s t1 := by
  obtain ⟨p, l, c, o, n, b, hb, ch, e1, e2, e3, e4, rfl⟩ := h
  refine ⟨{ s with prompt := p, termCursorLine := l, ctxBuf := c, out := o, tick := n, newBuf := f b, histBuf := hb, bufferChanged := true }, ?_,
    _, _, _, _, _, _, _, _, (hf b).trans e1, e2, fun _ => .inr ⟨trivial, rfl⟩, e4, rfl⟩
  unfold Vi.onBuf curBufMut workBuf setCur
  dsimp only
  rw [(e4 trivial).loc]

theorem akin_reset (s : Emacs × Ed) (t : Vi × Ed) (h : OnQ Inserting (Akin True) s t) :
    ∃ t1, Vi.resetInsert t = .ok () t1 ∧ OnQ Inserting (Akin True) s t1 := by
  obtain ⟨v, t⟩ := t
  unfold Vi.resetInsert
  show ∃ t1, (M.bind getK _) _ = _ ∧ _
  unfold M.bind getK
  dsimp only
  split
  · obtain ⟨t1, a1, b1⟩ := h.2.mark Buffer.endUndoGroup fun _ => rfl
    obtain ⟨t2, a2, b2⟩ := b1.mark Buffer.startUndoGroup fun _ => rfl
    refine ⟨({ v with lastCommand := [], movementReset := false, lastInsert := some (.char 'i') }, t2), ?_, h.1, b2⟩
    show M.bind (ed _) _ _ = _
    unfold M.bind ed M.zoom
    dsimp only at a1 ⊢
    rw [a1]
    dsimp only
    show M.bind (ed _) _ _ = _
    unfold M.bind ed M.zoom
    dsimp only
    rw [a2]
    rfl
  · exact ⟨_, rfl, h⟩

theorem akin_modVi (f : Vi → Vi) (hf : ∀ v, (f v).modeStack = v.modeStack) (s : Emacs × Ed) (t : Vi × Ed)
    (h : OnQ Inserting (Akin True) s t) : ∃ t1, modK f t = .ok () t1 ∧ OnQ Inserting (Akin True) s t1 :=
  ⟨_, rfl, by unfold OnQ Inserting Vi.mode at *; rw [hf]; exact h.1, h.2⟩

theorem akin_core {key : Key} (h : common key = true) (h1 : key ≠ .ctrl 'c') (h2 : key ≠ .ctrl 'r') (h3 : key ≠ .ctrl 's')
    (h4 : key ≠ .ctrl 'h') : Sim (OnQ Inserting (Akin True)) (Emacs.keyMap.core E key) (Vi.keyMap.core E' key) := by
  have body : Sim (OnQ Inserting (Akin True)) (Emacs.handleKeyBody E key)
      (Vi.handleKeyInsert (Vi.coreFuel E' 7) E' key) := by
    unfold Vi.handleKeyInsert
    have he : ¬ (key = .esc ∨ key = .ctrl '[') := by
      rintro (rfl | rfl) <;> simp [common] at h
    rw [if_neg he]
    cases key with
    | char c => exact sim_second akin_reset (sim_second (akin_modVi _ fun _ => rfl) (simQ_ed (akin_insert _)))
    | backspace => exact sim_second akin_reset (sim_second (akin_modVi _ fun _ => rfl) (simQ_ed akin_deleteBefore))
    | delete => exact sim_second akin_reset (sim_second (akin_modVi _ fun _ => rfl) (simQ_ed akin_deleteAfter))
    | left => exact sim_second (akin_modVi _ fun _ => rfl) (simQ_ed (akin_left _))
    | right => exact sim_second (akin_modVi _ fun _ => rfl) (simQ_ed (akin_right _))
    | home => exact sim_second (akin_modVi _ fun _ => rfl) (simQ_ed akin_home)
    | «end» => exact sim_second (akin_modVi _ fun _ => rfl) (simQ_ed akin_eol)
    | null => exact simQ_ed (sim_pure ())
    | other n => exact simQ_ed (sim_pure ())
    | up => simp [common] at h
    | down => simp [common] at h
    | alt c => simp [common] at h
    | esc => simp [common] at h
    | ctrl c =>
      have : c = 'l' := by
        have h : c = 'h' ∨ c = 'c' ∨ c = 'r' ∨ c = 's' ∨ c = 'l' := by simpa [common] using h
        rcases h with rfl | rfl | rfl | rfl | rfl
        · exact (h4 rfl).elim
        · exact (h1 rfl).elim
        · exact (h2 rfl).elim
        · exact (h3 rfl).elim
        · rfl
      subst this
      exact simQ_ed akin_clear
  have step : Sim (OnQ Inserting (Akin True)) (Emacs.handleKeyBody E key) (Vi.keyMap.core E' key) := by
    intro s t hr
    have := body s t hr
    have e : Vi.keyMap.core E' key t = Vi.coreStep (Vi.coreFuel E' 7) E' key t := rfl
    rw [e]
    unfold Vi.coreStep
    show Pair _ _ (M.bind getK _ t)
    unfold M.bind getK
    dsimp only
    rw [show t.1.mode = .insert from hr.1]
    exact this
  show Sim _ (Emacs.handleKeyCore E key) _
  unfold Emacs.handleKeyCore
  have hd : key ≠ .alt '.' := by rintro rfl; simp [common] at h
  rw [if_neg hd]
  exact sim_first (fun s t hr => ⟨_, rfl, hr.1, hr.2⟩) step

theorem akin_common (hw : SameWords E E') (comp : Text → List Text) {key : Key} (h : common key = true) :
    Sim (OnQ Inserting (Akin True)) (Emacs.keyMap.handleKey E comp key) (Vi.keyMap.handleKey E' comp key) := by
  refine akin_handleKey hw _ _ comp key fun h1 h2 h3 => ?_
  unfold KeyMap.translate
  split
  · exact akin_core rfl nofun nofun nofun nofun
  · exact akin_core h h1 h2 h3 ‹_›

end
end Liner
