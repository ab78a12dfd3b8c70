import Verif.Proof.Draft
/-
Two runs with the same text: vi in insert mode twice, and its drafts.
-/

namespace Liner
open Liner.Editor M KM

/-- The relation of `Akin`, with either run as the one that may have more changes marked. -/
def AkinS (s t : Ed) : Prop := Akin True s t ∨ Akin True t s

section
variable {σ α : Type} {R : σ → σ → Prop}

theorem Pair.flip {x y : Out σ α} (h : Pair R y x) : Pair (fun a b => R b a) x y := by
  rcases h with h | h | h
  · exact .inr (.inl h)
  · exact .inl h
  · refine .inr (.inr ?_)
    cases x <;> cases y <;> first | exact h.elim | exact ⟨h.1.symm, h.2⟩ | trivial

theorem Pair.mono {R' : σ → σ → Prop} {x y : Out σ α} (h : Pair R x y) (hr : ∀ a b, R a b → R' a b) : Pair R' x y := by
  rcases h with h | h | h
  · exact .inl h
  · exact .inr (.inl h)
  · refine .inr (.inr ?_)
    cases x <;> cases y <;> first | exact h.elim | exact ⟨h.1, hr _ _ h.2⟩ | trivial

end

section
variable {E E' : Env} {κ κ' α : Type} {Q : κ → κ' → Prop}

theorem simS {m m' : EdM α} (h : Sim (Akin True) m m') (h' : Sim (Akin True) m' m) : Sim AkinS m m' := by
  intro s t hr
  rcases hr with hr | hr
  · exact (h s t hr).mono fun _ _ h => .inl h
  · exact ((h' t s hr).flip).mono fun _ _ h => .inr h

theorem SameWords.symm (hw : SameWords E E') : SameWords E' E := fun b b' e => (hw b' b e.symm).symm

theorem AkinS.buf {s t : Ed} (h : AkinS s t) :
    (s.curBuf? = none ∧ t.curBuf? = none) ∨ ∃ b b', s.curBuf? = some b ∧ t.curBuf? = some b' ∧ b'.data = b.data := by
  rcases h with h | h
  · exact h.buf
  · rcases h.buf with ⟨e1, e2⟩ | ⟨b, b', e1, e2, e⟩
    · exact .inl ⟨e2, e1⟩
    · exact .inr ⟨b', b, e2, e1, e.symm⟩

theorem AkinS.suggested {s t : Ed} (h : AkinS s t) : t.autosuggestion = s.autosuggestion := by
  rcases h with ⟨_, _, _, _, _, _, _, _, _, _, _, _, rfl⟩ | ⟨_, _, _, _, _, _, _, _, _, _, _, _, rfl⟩ <;> rfl

theorem AkinS.text {s t : Ed} (h : AkinS s t) : intoText s = intoText t := by
  rcases h with h | h
  · exact h.text
  · exact h.text.symm

theorem akinS_handleKey (hw : SameWords E E') (km : KeyMap κ) (km' : KeyMap κ') (comp : Text → List Text) (key : Key)
    (hk : key ≠ .ctrl 'c' → key ≠ .ctrl 'r' → key ≠ .ctrl 's' → Sim (OnQ Q AkinS) (km.core E (KeyMap.translate key))
      (km'.core E' (KeyMap.translate key))) :
    Sim (OnQ Q AkinS) (km.handleKey E comp key) (km'.handleKey E' comp key) := by
  have hn : Sim AkinS (handleNewline E) (handleNewline E') := simS akin_newline akin_newline
  have ha : Sim AkinS (acceptAutosuggestion E) (acceptAutosuggestion E') := simS akin_accept akin_accept
  have ht : Sim AkinS (complete E comp) (complete E' comp) := simS (akin_complete hw comp) (akin_complete hw.symm comp)
  have hs : ∀ f, Sim AkinS (search E f) (search E' f) := fun f => simS (akin_search f) (akin_search f)
  unfold KeyMap.handleKey
  refine sim_rel (Q := fun b b' : Buffer => b'.data = b.data) (fun s t hr => ?_) fun b b' hd => ?_
  · unfold KM.ed M.zoom curBuf
    rcases hr.2.buf with ⟨e1, e2⟩ | ⟨b, b', e1, e2, e⟩
    · rw [e1, e2]; exact .inr (.inr (.inl ⟨rfl, rfl⟩))
    · rw [e1, e2]; exact .inr (.inr (.inr ⟨_, _, _, _, rfl, rfl, e, hr⟩))
  have he : b'.isEmpty = b.isEmpty := by unfold Buffer.isEmpty; rw [hd]
  rw [he]
  refine sim_bind ?_ fun d => sim_bind (simQ_ed (simS akin_flush akin_flush)) fun _ => sim_pure _
  unfold KeyMap.dispatch
  refine simQ_edget fun s t hr => ?_
  rw [hr.suggested]
  refine sim_dite (fun _ => sim_bind (simQ_ed hn) fun _ => sim_throw _) fun h1 =>
    sim_dite (fun _ => sim_bind (simQ_ed hn) fun _ => sim_throw _) fun _ =>
    sim_dite (fun _ => sim_bind (simQ_ed ht) fun _ => sim_pure _) fun _ =>
    sim_dite (fun _ => simQ_ed hn) fun _ =>
    sim_dite (fun _ => sim_bind (simQ_ed ha) fun _ => sim_pure _) fun _ =>
    sim_dite (fun _ => sim_bind (simQ_ed (hs _)) fun _ => sim_pure _) fun h2 =>
    sim_dite (fun _ => sim_bind (simQ_ed (hs _)) fun _ => sim_pure _) fun h3 => ?_
  have hk := hk (fun h => h1 (by rw [h]; rfl)) (fun h => h2 (by rw [h]; rfl)) (fun h => h3 (by rw [h]; rfl))
  have hrest : ∀ b : Bool, Sim (OnQ Q AkinS)
      (if b then ed (acceptAutosuggestion E) >>= fun _ => pure false
        else km.core E (KeyMap.translate key) >>= fun _ => ed skipCompletionsHint >>= fun _ => pure false)
      (if b then ed (acceptAutosuggestion E') >>= fun _ => pure false
        else km'.core E' (KeyMap.translate key) >>= fun _ => ed skipCompletionsHint >>= fun _ => pure false) :=
    fun b => sim_ite (sim_bind (simQ_ed ha) fun _ => sim_pure _) (sim_bind hk fun _ =>
      sim_bind (simQ_ed (simS (akin_hint none) (akin_hint none))) fun _ => sim_pure _)
  exact sim_ite (sim_bind (simQ_ed (simS akin_atEnd akin_atEnd)) hrest) (hrest false)

theorem akinS_loop (km : KeyMap κ) (km' : KeyMap κ') : ∀ (input : List KeyMap.Input)
    (_ : ∀ k comp, KeyMap.Input.key k comp ∈ input → Sim (OnQ Q AkinS) (km.handleKey E comp k) (km'.handleKey E' comp k)),
    Sim (OnQ Q AkinS) (km.loop E input) (km'.loop E' input)
  | [], _ => by
    unfold KeyMap.loop
    exact simQ_edget fun s t hr => by rw [hr.text]; exact sim_ofOption _
  | .ioErr :: rest, _ => sim_throw _
  | .key k comp :: rest, hk => by
    unfold KeyMap.loop
    refine sim_bind (hk k comp (by simp)) fun d => sim_ite ?_ ?_
    · exact simQ_edget fun s t hr => by rw [hr.text]; exact sim_ofOption _
    · exact akinS_loop km km' rest fun k' c' h => hk k' c' (by simp [h])

/-- Marking a change in the second run. -/
theorem AkinS.mark {s t : Ed} (h : AkinS s t) (f : Buffer → Buffer) (hf : ∀ b, (f b).data = b.data) :
    ∃ t1, Vi.onBuf f t = .ok () t1 ∧ AkinS s t1 := by
  rcases h with h | h
  · obtain ⟨t1, e, h1⟩ := h.mark f hf
    exact ⟨t1, e, .inl h1⟩
  · obtain ⟨p, l, c, o, n, b, hb, ch, e1, e2, e3, e4, rfl⟩ := h
    have h4 := e4 trivial
    refine ⟨{ t with newBuf := f t.newBuf, bufferChanged := true }, ?_, ?_⟩
    · unfold Vi.onBuf curBufMut workBuf setCur
      dsimp only
      rw [h4.loc]
    · have hon : ∀ x : Buffer, x.data = t.newBuf.data → OnNew { t with newBuf := x, bufferChanged := true } :=
        fun x hx => ⟨h4.loc, h4.valid, nofun⟩
      by_cases hc : ch = true
      · exact .inr ⟨p, l, c, o, n, b, hb, ch, e1.trans (hf _).symm, e2, fun _ => .inl hc, fun _ => hon _ (hf _), rfl⟩
      · refine .inl ⟨t.prompt, t.termCursorLine, t.ctxBuf, t.out, t.tick, f t.newBuf, t.histBuf, true, (hf _).trans e1.symm,
          fun h => (e2 h).symm, fun _ => .inr ⟨trivial, rfl⟩, fun _ => ⟨h4.loc, h4.valid, fun hs _ => ?_⟩, rfl⟩
        have hs : t.isSearch = true := hs
        have h5 := h4.search hs (by
          rcases e3 hs with h | ⟨-, h⟩
          · rw [← h]; exact Bool.eq_false_iff.mpr hc
          · exact absurd h hc)
        exact ⟨h5.dir, h5.index.trans (searchIndex_same _ e1).symm, h5.without, h5.within⟩

theorem AkinS.symm {s t : Ed} (h : AkinS s t) : AkinS t s := Or.symm h

/-- Vi is in insert mode in both runs. -/
def BothInsert (v v' : Vi) : Prop := v.mode = .insert ∧ v'.mode = .insert

theorem akinS_reset2 (s t : Vi × Ed) (h : OnQ BothInsert AkinS s t) :
    ∃ t1, Vi.resetInsert t = .ok () t1 ∧ OnQ BothInsert AkinS s t1 := by
  obtain ⟨v, t⟩ := t
  unfold Vi.resetInsert
  show ∃ t1, (M.bind getK _) _ = _ ∧ _
  unfold M.bind getK
  dsimp only
  split
  · obtain ⟨t1, a1, b1⟩ := h.2.mark Buffer.endUndoGroup fun _ => rfl
    obtain ⟨t2, a2, b2⟩ := b1.mark Buffer.startUndoGroup fun _ => rfl
    refine ⟨({ v with lastCommand := [], movementReset := false, lastInsert := some (.char 'i') }, t2), ?_, h.1, b2⟩
    show M.bind (ed _) _ _ = _
    unfold M.bind ed M.zoom
    dsimp only at a1 ⊢
    rw [a1]
    dsimp only
    show M.bind (ed _) _ _ = _
    unfold M.bind ed M.zoom
    dsimp only
    rw [a2]
    rfl
  · exact ⟨_, rfl, h⟩

theorem akinS_reset1 (s t : Vi × Ed) (h : OnQ BothInsert AkinS s t) :
    ∃ s1, Vi.resetInsert s = .ok () s1 ∧ OnQ BothInsert AkinS s1 t := by
  obtain ⟨s1, e, h1⟩ := akinS_reset2 t s ⟨h.1.symm, h.2.symm⟩
  exact ⟨s1, e, h1.1.symm, h1.2.symm⟩

theorem akinS_modVi (f : Vi → Vi) (hf : ∀ v, (f v).modeStack = v.modeStack) :
    Sim (OnQ BothInsert AkinS) (modK f) (modK f) :=
  simQ_modK fun k k' h => by unfold BothInsert Vi.mode at *; rw [hf, hf]; exact h

theorem akinS_core {key : Key} (h : common key = true) (h1 : key ≠ .ctrl 'c') (h2 : key ≠ .ctrl 'r') (h3 : key ≠ .ctrl 's')
    (h4 : key ≠ .ctrl 'h') : Sim (OnQ BothInsert AkinS) (Vi.keyMap.core E key) (Vi.keyMap.core E' key) := by
  have body : Sim (OnQ BothInsert AkinS) (Vi.handleKeyInsert (Vi.coreFuel E 7) E key)
      (Vi.handleKeyInsert (Vi.coreFuel E' 7) E' key) := by
    unfold Vi.handleKeyInsert
    have he : ¬ (key = .esc ∨ key = .ctrl '[') := by
      rintro (rfl | rfl) <;> simp [common] at h
    rw [if_neg he, if_neg he]
    have mv := @akinS_modVi
    cases key with
    | char c =>
      exact sim_first akinS_reset1 (sim_second akinS_reset2 (sim_bind (mv _ fun _ => rfl) fun _ =>
        simQ_ed (simS (akin_insert _) (akin_insert _))))
    | backspace =>
      exact sim_first akinS_reset1 (sim_second akinS_reset2 (sim_bind (mv _ fun _ => rfl) fun _ =>
        simQ_ed (simS akin_deleteBefore akin_deleteBefore)))
    | delete =>
      exact sim_first akinS_reset1 (sim_second akinS_reset2 (sim_bind (mv _ fun _ => rfl) fun _ =>
        simQ_ed (simS akin_deleteAfter akin_deleteAfter)))
    | left => exact sim_bind (mv _ fun _ => rfl) fun _ => simQ_ed (simS (akin_left _) (akin_left _))
    | right => exact sim_bind (mv _ fun _ => rfl) fun _ => simQ_ed (simS (akin_right _) (akin_right _))
    | home => exact sim_bind (mv _ fun _ => rfl) fun _ => simQ_ed (simS akin_home akin_home)
    | «end» => exact sim_bind (mv _ fun _ => rfl) fun _ => simQ_ed (simS akin_eol akin_eol)
    | null => exact simQ_ed (sim_pure ())
    | other n => exact simQ_ed (sim_pure ())
    | up => simp [common] at h
    | down => simp [common] at h
    | alt c => simp [common] at h
    | esc => simp [common] at h
    | ctrl c =>
      have : c = 'l' := by
        have h : c = 'h' ∨ c = 'c' ∨ c = 'r' ∨ c = 's' ∨ c = 'l' := by simpa [common] using h
        rcases h with rfl | rfl | rfl | rfl | rfl
        · exact (h4 rfl).elim
        · exact (h1 rfl).elim
        · exact (h2 rfl).elim
        · exact (h3 rfl).elim
        · rfl
      subst this
      exact simQ_ed (simS akin_clear akin_clear)
  intro s t hr
  have := body s t hr
  have e : ∀ {E : Env} (t : Vi × Ed), Vi.keyMap.core E key t = Vi.coreStep (Vi.coreFuel E 7) E key t := fun _ => rfl
  rw [e, e]
  unfold Vi.coreStep
  show Pair _ (M.bind getK _ s) (M.bind getK _ t)
  unfold M.bind getK
  dsimp only
  rw [hr.1.1, hr.1.2]
  exact this

theorem akinS_common (hw : SameWords E E') (comp : Text → List Text) {key : Key} (h : common key = true) :
    Sim (OnQ BothInsert AkinS) (Vi.keyMap.handleKey E comp key) (Vi.keyMap.handleKey E' comp key) := by
  refine akinS_handleKey hw _ _ comp key fun h1 h2 h3 => ?_
  unfold KeyMap.translate
  split
  · exact akinS_core rfl nofun nofun nofun nofun
  · exact akinS_core h h1 h2 h3 ‹_›

end

/-! ### Drafts in insert mode -/

/-- The keys that leave the cursor at the end of the line in insert mode, and make the same of it as with Emacs. -/
def viDrafting (key : Key) : Bool := drafting key && key != .ctrl 'u' && key != .ctrl '['

/-- The step ends well with such a result, unless the terminal stops it. -/
def EnsuesK {α : Type} (m : KM Vi α) (st : Vi × Ed) (P : α → Vi × Ed → Prop) : Prop :=
  Lost (m st) ∨ ∃ a st1, m st = .ok a st1 ∧ P a st1

section
variable {α β : Type} {h : History} {fs : FS} {x : Text} {E : Env} {st : Vi × Ed}

theorem EnsuesK.bind {m : KM Vi α} {f : α → KM Vi β} {P : α → Vi × Ed → Prop} {P' : β → Vi × Ed → Prop}
    (h : EnsuesK m st P) (h' : ∀ a st1, P a st1 → EnsuesK (f a) st1 P') : EnsuesK (m >>= f) st P' := by
  show Lost (M.bind m f st) ∨ ∃ a st1, M.bind m f st = _ ∧ _
  unfold M.bind
  rcases h with h1 | ⟨a, s1, e1, a1⟩
  · left
    revert h1
    cases m st <;> simp [Lost]
  · rw [e1]
    exact h' a s1 a1

/-- Vi in insert mode, on such a line. -/
def BegunV (h : History) (fs : FS) (x : Text) (st : Vi × Ed) : Prop :=
  st.1.mode = .insert ∧ Begun h fs x (proposal h x) st.2

theorem begunV_ed {m : EdM Unit} {x' : Text} (hs : BegunV h fs x st)
    (hm : Ensues m st.2 (Begun h fs x' (proposal h x'))) : EnsuesK (ed m : KM Vi Unit) st fun _ => BegunV h fs x' := by
  unfold EnsuesK ed M.zoom
  rcases hm with h1 | ⟨s1, e1, b1⟩
  · left
    revert h1
    cases m st.2 <;> simp [Lost]
  · rw [e1]
    exact .inr ⟨_, _, rfl, hs.1, b1⟩

theorem begunV_mod (f : Vi → Vi) (hf : ∀ v, (f v).modeStack = v.modeStack) (hs : BegunV h fs x st) :
    EnsuesK (modK f) st fun _ => BegunV h fs x :=
  .inr ⟨_, _, rfl, by
    have : (f st.1).mode = st.1.mode := by unfold Vi.mode; rw [hf]
    exact ⟨this.trans hs.1, hs.2⟩⟩

theorem begunV_mark (hs : BegunV h fs x st) (f : Buffer → Buffer) (hf : ∀ b, (f b).data = b.data) :
    EnsuesK (ed (Vi.onBuf f) : KM Vi Unit) st fun _ => BegunV h fs x := by
  refine begunV_ed hs ?_
  obtain ⟨p, l, c, o, n, b, ch, e, e1⟩ := hs.2
  rw [e1]
  exact .inr ⟨_, rfl, p, l, c, o, n, f b, true, (hf b).trans e, rfl⟩

theorem begunV_reset (hs : BegunV h fs x st) : EnsuesK Vi.resetInsert st fun _ => BegunV h fs x := by
  unfold Vi.resetInsert
  refine EnsuesK.bind (P := fun _ => BegunV h fs x) (.inr ⟨_, _, rfl, hs⟩) fun v st1 h1 => ?_
  split
  · exact EnsuesK.bind (begunV_mark h1 _ fun _ => rfl) fun _ _ h2 => EnsuesK.bind (begunV_mark h2 _ fun _ => rfl) fun _ _ h3 =>
      begunV_mod _ (fun _ => rfl) h3
  · exact .inr ⟨_, _, rfl, h1⟩

theorem begunV_insert {key : Key} (hs : BegunV h fs x st) (hk : viDrafting key = true) (h1 : key ≠ .ctrl 'h')
    (h2 : key = .right ∨ key = .ctrl 'f' → proposal h x = none) :
    EnsuesK (Vi.handleKeyInsert (Vi.coreFuel E 7) E key) st fun _ =>
      BegunV h fs (redrafted ((proposal h x).map (·.data)) x key) := by
  have hnop : ∀ {st : Vi × Ed}, BegunV h fs x st → EnsuesK (ed (pure ()) : KM Vi Unit) st fun _ => BegunV h fs x :=
    fun hs => begunV_ed hs (.inr ⟨_, rfl, hs.2⟩)
  have he : ¬ (key = .esc ∨ key = .ctrl '[') := by
    rintro (rfl | rfl) <;> simp [viDrafting, drafting] at hk
  unfold Vi.handleKeyInsert
  rw [if_neg he]
  cases key with
  | char c =>
    exact EnsuesK.bind (begunV_reset hs) fun _ _ g1 => EnsuesK.bind (begunV_mod _ (fun _ => rfl) g1) fun _ _ g2 =>
      begunV_ed g2 (begun_insert g2.2 c)
  | backspace =>
    exact EnsuesK.bind (begunV_reset hs) fun _ _ g1 => EnsuesK.bind (begunV_mod _ (fun _ => rfl) g1) fun _ _ g2 =>
      begunV_ed g2 (begun_backspace g2.2)
  | delete =>
    exact EnsuesK.bind (begunV_reset hs) fun _ _ g1 => EnsuesK.bind (begunV_mod _ (fun _ => rfl) g1) fun _ _ g2 =>
      begunV_ed g2 (begun_delete g2.2)
  | right =>
    rw [h2 (.inl rfl)]
    exact EnsuesK.bind (begunV_mod _ (fun _ => rfl) hs) fun _ _ g2 => begunV_ed g2 (begun_right g2.2)
  | «end» => exact EnsuesK.bind (begunV_mod _ (fun _ => rfl) hs) fun _ _ g2 => begunV_ed g2 (begun_end g2.2)
  | null => exact hnop hs
  | other n => exact hnop hs
  | ctrl c =>
    have hr : redrafted ((proposal h x).map (·.data)) x (.ctrl c) = x := by
      by_cases hf : c = 'f'
      · subst hf
        rw [h2 (.inr rfl)]
        rfl
      · have hu : c ≠ 'u' := by rintro rfl; simp [viDrafting] at hk
        have hh : c ≠ 'h' := by rintro rfl; exact h1 rfl
        simp [redrafted, hf, hu, hh]
    rw [hr]
    by_cases hl : c = 'l'
    · subst hl
      exact begunV_ed hs (begun_clear hs.2)
    · have : Vi.handleKeyCommon E (.ctrl c) = pure () := by simp [Vi.handleKeyCommon, hl]
      dsimp only
      rw [this]
      exact hnop hs
  | _ => simp [viDrafting, drafting] at hk

theorem begunV_core {key : Key} (hs : BegunV h fs x st) (hk : viDrafting key = true) (h1 : key ≠ .ctrl 'h')
    (h2 : key = .right ∨ key = .ctrl 'f' → proposal h x = none) :
    EnsuesK (Vi.keyMap.core E key) st fun _ => BegunV h fs (redrafted ((proposal h x).map (·.data)) x key) := by
  have e : Vi.keyMap.core E key st = Vi.handleKeyInsert (Vi.coreFuel E 7) E key st := by
    have e : Vi.keyMap.core E key st = Vi.coreStep (Vi.coreFuel E 7) E key st := rfl
    rw [e]
    unfold Vi.coreStep
    show M.bind getK _ st = _
    unfold M.bind getK
    dsimp only
    rw [hs.1]
  unfold EnsuesK
  rw [e]
  exact begunV_insert hs hk h1 h2

theorem begunV_key (hs : BegunV h fs x st) (comp : Text → List Text) {key : Key} (hk : viDrafting key = true) :
    EnsuesK (Vi.keyMap.handleKey E comp key) st fun d st1 =>
      d = false ∧ BegunV h fs (redrafted ((proposal h x).map (·.data)) x key) st1 := by
  have hg : ∀ {s : Ed}, Begun h fs x (proposal h x) s → s.autosuggestion = proposal h x := by
    rintro s ⟨p, l, c, o, n, b, ch, e, rfl⟩; rfl
  have hend : ∀ {s : Ed}, Begun h fs x (proposal h x) s → cursorIsAtEndOfLine s = .ok true s := by
    rintro s ⟨p, l, c, o, n, b, ch, rfl, rfl⟩
    simp [cursorIsAtEndOfLine, bind, M.bind, M.get, curBuf, Ed.curBuf?, Buffer.numChars, pure, M.pure]
  -- the key after translation
  obtain ⟨k, hkt, hkd, hkh, hkr⟩ : ∃ k, KeyMap.translate key = k ∧ viDrafting k = true ∧ k ≠ .ctrl 'h' ∧
      ∀ g x, redrafted g x key = redrafted g x k := by
    by_cases he : key = .ctrl 'h'
    · subst he; exact ⟨.backspace, rfl, rfl, nofun, fun _ _ => rfl⟩
    · exact ⟨key, by simp [KeyMap.translate, he], hk, he, fun _ _ => rfl⟩
  rw [hkr]
  unfold KeyMap.handleKey
  rw [hkt]
  refine EnsuesK.bind (P := fun _ => BegunV h fs x) ?_ fun b st1 h1 => ?_
  · obtain ⟨p, l, c, o, n, b, ch, e, e1⟩ := hs.2
    refine .inr ⟨b, st, ?_, hs⟩
    unfold ed M.zoom
    rw [e1]
    dsimp only [curBuf, Ed.curBuf?]
    rw [← e1]
  refine EnsuesK.bind (P := fun d st1 => d = false ∧ BegunV h fs (redrafted ((proposal h x).map (·.data)) x k) st1) ?_
    fun d st2 h2 => ?_
  · unfold KeyMap.dispatch
    refine EnsuesK.bind (P := fun s st2 => s.autosuggestion = proposal h x ∧ BegunV h fs x st2)
      (.inr ⟨_, _, rfl, hg h1.2, h1⟩) fun s st2 h2 => ?_
    have n1 : k ≠ .ctrl 'c' := by rintro rfl; simp [viDrafting, drafting] at hkd
    have n2 : k ≠ .ctrl 'd' := by rintro rfl; simp [viDrafting, drafting] at hkd
    have n3 : k ≠ .char '\t' := by rintro rfl; simp [viDrafting, drafting] at hkd
    have n4 : k ≠ .char '\n' := by rintro rfl; simp [viDrafting, drafting] at hkd
    have n5 : k ≠ .ctrl 'r' := by rintro rfl; simp [viDrafting, drafting] at hkd
    have n6 : k ≠ .ctrl 's' := by rintro rfl; simp [viDrafting, drafting] at hkd
    have core : (k = .right ∨ k = .ctrl 'f' → proposal h x = none) → EnsuesK
        (Vi.keyMap.core E k >>= fun _ => ed skipCompletionsHint >>= fun _ => pure false) st2
        (fun d st1 => d = false ∧ BegunV h fs (redrafted ((proposal h x).map (·.data)) x k) st1) := by
      intro hn
      refine (begunV_core h2.2 hkd hkh hn).bind fun _ _ g1 => (begunV_ed g1 ?_).bind fun _ _ g2 => .inr ⟨_, _, rfl, rfl, g2⟩
      obtain ⟨p, l, c, o, n, b, ch, e, e1⟩ := g1.2
      rw [e1]
      exact .inr ⟨_, rfl, _, _, _, _, _, _, _, e, rfl⟩
    have accept : ∀ y, proposal h x = some y → k = .right ∨ k = .ctrl 'f' → EnsuesK
        (ed (acceptAutosuggestion E) >>= fun _ => pure false : KM Vi Bool) st2
        (fun d st1 => d = false ∧ BegunV h fs (redrafted ((proposal h x).map (·.data)) x k) st1) := by
      intro y hy hkk
      have hx' : redrafted ((proposal h x).map (·.data)) x k = y.data := by
        rw [hy]
        rcases hkk with rfl | rfl <;> rfl
      rw [hx']
      refine (begunV_ed h2.2 (begun_accept (E := E) (hy ▸ h2.2.2) hy)).bind fun _ _ g2 => .inr ⟨_, _, rfl, rfl, g2⟩
    simp only [n1, n2, n3, n4, n5, n6, false_and, if_false, h2.1]
    cases hp : proposal h x with
    | none =>
      rw [hp] at core
      simp only [Option.isSome_none, Bool.false_eq_true, and_false, if_false]
      exact EnsuesK.bind (P := fun a st3 => a = false ∧ st3 = st2) (.inr ⟨_, _, rfl, rfl, rfl⟩) fun a st3 ⟨ha, hst⟩ => by
        subst ha hst
        exact core fun _ => rfl
    | some y =>
      rw [hp] at accept core
      simp only [Option.isSome_some, and_true]
      by_cases hf : k = .ctrl 'f'
      · rw [if_pos hf]
        exact accept y rfl (.inr hf)
      rw [if_neg hf]
      by_cases hr : k = .right
      · rw [if_pos hr]
        refine EnsuesK.bind (P := fun a st3 => a = true ∧ st3 = st2) ?_ fun a st3 ⟨ha, hst⟩ => ?_
        · refine .inr ⟨true, st2, ?_, rfl, rfl⟩
          unfold ed M.zoom
          rw [hend h2.2.2]
        · subst ha hst
          exact accept y rfl (.inl hr)
      · rw [if_neg hr]
        exact EnsuesK.bind (P := fun a st3 => a = false ∧ st3 = st2) (.inr ⟨_, _, rfl, rfl, rfl⟩) fun a st3 ⟨ha, hst⟩ => by
          subst ha hst
          exact core fun h => (h.elim hr hf).elim
  · obtain ⟨hd, h3⟩ := h2
    have g3 := h3.2
    subst hd
    refine (begunV_ed h3 ?_).bind fun _ _ g2 => .inr ⟨_, _, rfl, rfl, g2⟩
    rcases outer_flush E st2.2 with h3 | ⟨s3, e3, a3⟩
    · exact .inl h3
    · exact .inr ⟨s3, e3, g3.outer a3⟩

theorem begunV_drafted (input : List KeyMap.Input) :
    ∀ (keys : List (Key × (Text → List Text))) (x : Text) (st : Vi × Ed), BegunV h fs x st →
      (∀ k ∈ keys, viDrafting k.1 = true) →
      Lost (Vi.keyMap.loop E (keys.map (fun k => .key k.1 k.2) ++ input) st) ∨
      ∃ st1, Vi.keyMap.loop E (keys.map (fun k => .key k.1 k.2) ++ input) st = Vi.keyMap.loop E input st1 ∧
        BegunV h fs (drafted (fun x => (proposal h x).map (·.data)) x keys) st1
  | [], x, st, hs, _ => .inr ⟨st, rfl, hs⟩
  | k :: keys, x, st, hs, hk => by
    have hcons : Vi.keyMap.loop E ((k :: keys).map (fun k => .key k.1 k.2) ++ input) st =
        (Vi.keyMap.handleKey E k.2 k.1 >>= fun done =>
          if done then ed M.get >>= fun s => ofOption (intoText s)
          else Vi.keyMap.loop E (keys.map (fun k => .key k.1 k.2) ++ input)) st := rfl
    rw [hcons]
    show Lost (M.bind _ _ _) ∨ ∃ s1, M.bind _ _ _ = _ ∧ _
    unfold M.bind
    rcases begunV_key (E := E) hs k.2 (hk k (by simp)) with h3 | ⟨d, s1, e1, rfl, b1⟩
    · left
      revert h3
      generalize Vi.keyMap.handleKey E k.2 k.1 _ = r
      cases r <;> simp [Lost]
    · rw [e1]
      exact begunV_drafted input keys _ s1 b1 fun k' hk' => hk k' (by simp [hk'])

theorem begunV_read (hE : E.ttyWidth ≠ some 0) (p : Prompt) (d : List (Key × (Text → List Text))) (rest : List KeyMap.Input)
    (hd : ∀ k ∈ d, viDrafting k.1 = true) :
    Lost (Vi.keyMap.readLine E p (d.map (fun k => .key k.1 k.2) ++ rest) ({}, initial p h fs (.ofText x))) ∨
      ∃ st1, Vi.keyMap.readLine E p (d.map (fun k => .key k.1 k.2) ++ rest) ({}, initial p h fs (.ofText x)) =
          Vi.keyMap.loop E rest st1 ∧ BegunV h fs (drafted (fun x => (proposal h x).map (·.data)) x d) st1 := by
  rcases begun_vi_read (h := h) (fs := fs) (x := x) hE p (d.map (fun k => .key k.1 k.2) ++ rest) with h1 | ⟨s1, e1, b1⟩
  · exact .inl h1
  rw [e1]
  exact begunV_drafted rest d x ({}, s1) ⟨rfl, b1⟩ hd

theorem begunE_read (hE : E.ttyWidth ≠ some 0) (p : Prompt) (d : List (Key × (Text → List Text))) (rest : List KeyMap.Input)
    (hd : ∀ k ∈ d, drafting k.1 = true) :
    Lost (Emacs.keyMap.readLine E p (d.map (fun k => .key k.1 k.2) ++ rest) ({}, initial p h fs (.ofText x))) ∨
      ∃ s1, Emacs.keyMap.readLine E p (d.map (fun k => .key k.1 k.2) ++ rest) ({}, initial p h fs (.ofText x)) =
          Emacs.keyMap.loop E rest ({}, s1) ∧
        Begun h fs (drafted (fun x => (proposal h x).map (·.data)) x d)
          (proposal h (drafted (fun x => (proposal h x).map (·.data)) x d)) s1 := by
  rcases begun_emacs_read (h := h) (fs := fs) (x := x) hE p (d.map (fun k => .key k.1 k.2) ++ rest) with h1 | ⟨s1, e1, b1⟩
  · exact .inl h1
  rw [e1]
  exact begun_drafted rest d x s1 b1 hd

end
end Liner
