import Verif.Proof.Rests
/-
The modes of the vi key map: which stacks of modes there are, and what goes with each of them.
-/

namespace Liner
namespace Vi
open Liner.Spec Liner.Editor M KM

/-- Nothing is pending, or an operator is. -/
def Under (l : List Mode) : Prop :=
  l = [] ∨ ∃ p base, l = .delete p :: base ∧ (base = [] ∨ base = [.insert])

/-- The stacks between two keys. -/
def Stack (l : List Mode) : Prop :=
  l = [.insert] ∨ l = [.replace] ∨ Under l ∨ (∃ m r, l = .moveToChar m :: r ∧ Under r) ∨
  (∃ r, l = .g :: r ∧ Under r)

/-- Not the end of an insertion. -/
def Plain (k : Key) : Prop := k ≠ .esc ∧ k ≠ .ctrl '['

/-- An operator is pending. -/
def Pending (v : Vi) : Prop := ∃ p, Mode.delete p ∈ v.modeStack

structure NoEsc (v : Vi) : Prop where
  last : ∀ k ∈ v.lastCommand, Plain k
  cur : Pending v → ∀ k ∈ v.currentCommand, Plain k

/-- What goes with the stack. -/
structure VI (t : Vi × Ed) : Prop where
  stack : Stack t.1.modeStack
  esc : NoEsc t.1
  eol : t.2.noEol = decide (t.1.mode = .normal)
  rests : Rests t.2
  shown : ∀ st, t.2.prompt.viStatus = some st →
    st.mode = if .insert ∈ t.1.modeStack then .insert else .normal

/-- An action that keeps it. -/
def KVI {α : Type} (m : ViM α) : Prop :=
  ∀ t, VI t → Wp m t (fun _ t' => VI t') (fun _ _ => True) (fun _ => True)

abbrev T2 : IoErr → Vi × Ed → Prop := fun _ _ => True
abbrev T1 : Site → Prop := fun _ => True

section
variable {α β : Type}

theorem kvi_bind {m : ViM α} {f : α → ViM β} (h1 : KVI m) (h2 : ∀ a, KVI (f a)) : KVI (m >>= f) := by
  intro t ht
  rw [wp_bind]
  exact wp_mono (h1 t ht) (fun a t' h => h2 a t' h) (fun _ _ h => h) (fun _ h => h)

theorem kvi_pure (a : α) : KVI (pure a : ViM α) := fun _ h => h
theorem kvi_panic : KVI (M.panic : ViM α) := fun _ _ => trivial
theorem kvi_getK : KVI (getK : ViM Vi) := fun _ h => h
theorem kvi_ite {c : Prop} [Decidable c] {a b : ViM α} (ha : KVI a) (hb : KVI b) :
    KVI (if c then a else b) := by split <;> assumption

/-- Changes of the key map that do not concern the modes. -/
theorem VI.modK {t : Vi × Ed} (h : VI t) {v : Vi} (hs : v.modeStack = t.1.modeStack) (he : NoEsc v) :
    VI (v, t.2) :=
  ⟨hs ▸ h.stack, he, by simpa [mode, hs] using h.eol, h.rests, by simpa [hs] using h.shown⟩

/-- Operations of the editor. -/
theorem vi_ed {m : EdM α} (hp : Pres m) (hh : Holds m) {t : Vi × Ed} (h : VI t) :
    Wp (ed m) t (fun _ t' => VI t' ∧ t'.1 = t.1) T2 T1 := by
  rw [wp_ed]
  refine wp_mono (wp_and (hp t.2) (hh t.2 h.rests)) (fun _ s' h' => ?_) (fun _ _ _ => trivial)
    (fun _ _ => trivial)
  obtain ⟨h1, h2⟩ := h'
  exact ⟨⟨h.stack, h.esc, h1.noEol.trans h.eol, h2, by rw [h1.prompt]; exact h.shown⟩, rfl⟩

theorem kvi_ed {m : EdM α} (hp : Pres m) (hh : Holds m) : KVI (ed m) := fun _ h =>
  wp_mono (vi_ed hp hh h) (fun _ _ h => h.1) (fun _ _ h => h) (fun _ h => h)

theorem mode_nil {v : Vi} (h : v.modeStack = []) : v.mode = .normal := by simp [mode, h]

theorem mode_cons {v : Vi} {m : Mode} {r : List Mode} (h : v.modeStack = m :: r) : v.mode = m := by
  simp [mode, h]

/-- In normal mode the stack is empty. -/
theorem VI.nil {t : Vi × Ed} (h : VI t) (hm : t.1.mode = .normal) : t.1.modeStack = [] := by
  rcases h.stack with hs | hs | hs | ⟨m, r, hs, _⟩ | ⟨r, hs, _⟩
  · rw [mode_cons hs] at hm; cases hm
  · rw [mode_cons hs] at hm; cases hm
  · rcases hs with hs | ⟨p, base, hs, _⟩
    · exact hs
    · rw [mode_cons hs] at hm; cases hm
  · rw [mode_cons hs] at hm; cases hm
  · rw [mode_cons hs] at hm; cases hm

theorem VI.insert {t : Vi × Ed} (h : VI t) (hm : t.1.mode = .insert) : t.1.modeStack = [.insert] := by
  rcases h.stack with hs | hs | hs | ⟨m, r, hs, _⟩ | ⟨r, hs, _⟩
  · exact hs
  · rw [mode_cons hs] at hm; cases hm
  · rcases hs with hs | ⟨p, base, hs, _⟩
    · rw [mode_nil hs] at hm; cases hm
    · rw [mode_cons hs] at hm; cases hm
  · rw [mode_cons hs] at hm; cases hm
  · rw [mode_cons hs] at hm; cases hm

theorem VI.delete {t : Vi × Ed} (h : VI t) {p : Nat} (hm : t.1.mode = .delete p) :
    ∃ base, t.1.modeStack = .delete p :: base ∧ (base = [] ∨ base = [.insert]) := by
  rcases h.stack with hs | hs | hs | ⟨m, r, hs, _⟩ | ⟨r, hs, _⟩
  · rw [mode_cons hs] at hm; cases hm
  · rw [mode_cons hs] at hm; cases hm
  · rcases hs with hs | ⟨p, base, hs, hb⟩
    · rw [mode_nil hs] at hm; cases hm
    · rw [mode_cons hs] at hm; cases hm; exact ⟨base, hs, hb⟩
  · rw [mode_cons hs] at hm; cases hm
  · rw [mode_cons hs] at hm; cases hm

theorem VI.replace {t : Vi × Ed} (h : VI t) (hm : t.1.mode = .replace) :
    t.1.modeStack = [.replace] := by
  rcases h.stack with hs | hs | hs | ⟨m, r, hs, _⟩ | ⟨r, hs, _⟩
  · rw [mode_cons hs] at hm; cases hm
  · exact hs
  · rcases hs with hs | ⟨p, base, hs, _⟩
    · rw [mode_nil hs] at hm; cases hm
    · rw [mode_cons hs] at hm; cases hm
  · rw [mode_cons hs] at hm; cases hm
  · rw [mode_cons hs] at hm; cases hm

theorem VI.char {t : Vi × Ed} (h : VI t) {m : CharMovement} (hm : t.1.mode = .moveToChar m) :
    ∃ r, t.1.modeStack = .moveToChar m :: r ∧ Under r := by
  rcases h.stack with hs | hs | hs | ⟨m, r, hs, hu⟩ | ⟨r, hs, _⟩
  · rw [mode_cons hs] at hm; cases hm
  · rw [mode_cons hs] at hm; cases hm
  · rcases hs with hs | ⟨p, base, hs, _⟩
    · rw [mode_nil hs] at hm; cases hm
    · rw [mode_cons hs] at hm; cases hm
  · rw [mode_cons hs] at hm; cases hm; exact ⟨r, hs, hu⟩
  · rw [mode_cons hs] at hm; cases hm

theorem VI.g {t : Vi × Ed} (h : VI t) (hm : t.1.mode = .g) :
    ∃ r, t.1.modeStack = .g :: r ∧ Under r := by
  rcases h.stack with hs | hs | hs | ⟨m, r, hs, hu⟩ | ⟨r, hs, hu⟩
  · rw [mode_cons hs] at hm; cases hm
  · rw [mode_cons hs] at hm; cases hm
  · rcases hs with hs | ⟨p, base, hs, _⟩
    · rw [mode_nil hs] at hm; cases hm
    · rw [mode_cons hs] at hm; cases hm
  · rw [mode_cons hs] at hm; cases hm
  · exact ⟨r, hs, hu⟩

theorem VI.tilde {t : Vi × Ed} (h : VI t) : t.1.mode ≠ .tilde := by
  intro hm
  rcases h.stack with hs | hs | hs | ⟨m, r, hs, hu⟩ | ⟨r, hs, hu⟩
  · rw [mode_cons hs] at hm; cases hm
  · rw [mode_cons hs] at hm; cases hm
  · rcases hs with hs | ⟨p, base, hs, _⟩
    · rw [mode_nil hs] at hm; cases hm
    · rw [mode_cons hs] at hm; cases hm
  · rw [mode_cons hs] at hm; cases hm
  · rw [mode_cons hs] at hm; cases hm

end

section
variable (E : Env)

/-- The end of every change of mode. -/
theorem setEditorMode_wp {t : Vi × Ed} (hs : t.1.modeStack = [] ∨ t.1.modeStack = [.insert])
    (he : NoEsc t.1) (hn : t.2.noEol = decide (t.1.mode = .normal)) :
    Wp (setEditorMode E) t (fun _ t' => VI t' ∧ t'.1 = t.1) T2 T1 := by
  have key : ∀ m : ViPromptMode, m = (if .insert ∈ t.1.modeStack then .insert else .normal) →
      Wp (do ed (setViMode m); ed (display E) : ViM Unit) t (fun _ t' => VI t' ∧ t'.1 = t.1) T2 T1 := by
    intro m hm
    rw [wp_bind, wp_ed]
    unfold setViMode
    rw [wp_modify, wp_ed]
    refine wp_mono (wp_and (pres_display E _) (fixes_display E _)) (fun _ s' h' => ?_)
      (fun _ _ _ => trivial) (fun _ _ => trivial)
    obtain ⟨h1, h2⟩ := h'
    refine ⟨⟨?_, he, ?_, h2, ?_⟩, rfl⟩
    · rcases hs with hs | hs
      · exact .inr (.inr (.inl (.inl hs)))
      · exact .inl hs
    · refine h1.noEol.trans ?_
      split <;> exact hn
    · rw [h1.prompt]
      intro st hst
      dsimp only at hst ⊢
      split at hst
      · cases hst
        exact hm
      · rename_i h0
        rw [h0] at hst; cases hst
  unfold setEditorMode
  rw [wp_bind, wp_getK]
  rcases hs with hs | hs
  · rw [mode_nil hs]
    exact key .normal (by simp [hs])
  · rw [mode_cons hs]
    exact key .insert (by simp [hs])

theorem Stack.mode_ne {l : List Mode} (h : Stack l) : l.headD .normal ≠ .tilde := by
  rcases h with rfl | rfl | h | ⟨m, r, rfl, _⟩ | ⟨r, rfl, _⟩
  · simp
  · simp
  · rcases h with rfl | ⟨p, base, rfl, _⟩ <;> simp
  · simp
  · simp

/-- Pushing a mode. -/
theorem setModePreserveLast_wp {t : Vi × Ed} {m : Mode} (h : VI t) (hm : m ≠ .normal)
    (hs : Stack (m :: t.1.modeStack))
    (he : NoEsc { t.1 with modeStack := m :: t.1.modeStack }) :
    Wp (setModePreserveLast E m) t (fun _ t' => VI t' ∧
      t'.1 = { t.1 with movementReset := m ≠ .insert, modeStack := m :: t.1.modeStack }) T2 T1 := by
  have ht : m ≠ .tilde := hs.mode_ne
  have he' : NoEsc { t.1 with movementReset := m ≠ .insert, modeStack := m :: t.1.modeStack } :=
    ⟨he.last, he.cur⟩
  unfold setModePreserveLast setNoEol
  rw [wp_bind, wp_ed, wp_modify, wp_bind, wp_modK]
  dsimp only
  by_cases hi : m = .insert
  · subst hi
    have h0 : t.1.modeStack = [] := by
      rcases hs with hs | hs | hs | ⟨m, r, hs, _⟩ | ⟨r, hs, _⟩
      · simpa using hs
      · simp at hs
      · rcases hs with hs | ⟨p, base, hs, _⟩ <;> simp at hs
      · simp at hs
      · simp at hs
    rw [wp_bind]
    refine wp_mono (setEditorMode_wp E (.inr (by simp [h0])) he' (by simp [mode]))
      (fun _ t1 h1 => ?_) (fun _ _ h => h) (fun _ h => h)
    rw [if_pos (.inl rfl)]
    refine wp_mono (vi_ed (pres_curBufMut _) (holds_curBufMut fun b a b' h => by cases h; rfl) h1.1)
      (fun _ t2 h2 => ⟨h2.1, h2.2.trans h1.2⟩) (fun _ _ h => h) (fun _ h => h)
  · have hmode : ({ t.1 with movementReset := m ≠ .insert, modeStack := m :: t.1.modeStack } : Vi).mode
        = m := rfl
    rw [wp_bind]
    unfold setEditorMode
    rw [wp_bind, wp_getK]
    dsimp only
    rw [hmode]
    have hv : VI ({ t.1 with movementReset := m ≠ .insert, modeStack := m :: t.1.modeStack },
        { t.2 with noEol := decide (m = .normal) }) := by
      refine ⟨hs, he', by simp [mode], ?_, ?_⟩
      · obtain ⟨b, hb, hc, -⟩ := h.rests
        exact ⟨b, hb, hc, fun hn => by simp [hm] at hn⟩
      · intro st hst
        rw [h.shown st hst]
        simp [Ne.symm hi]
    cases m with
    | insert => exact absurd rfl hi
    | normal => exact absurd rfl hm
    | tilde => exact absurd rfl ht
    | _ =>
      dsimp only
      rw [wp_pure, if_neg (by simp), wp_pure]
      exact ⟨hv, rfl⟩

theorem setMode_wp {t : Vi × Ed} {m : Mode} (h : VI t) (hm : m ≠ .normal)
    (hs : Stack (m :: t.1.modeStack))
    (he : NoEsc { t.1 with modeStack := m :: t.1.modeStack }) :
    Wp (setMode E m) t (fun _ t' => VI t' ∧ t'.1.modeStack = m :: t.1.modeStack ∧
      t'.1.currentCommand = t.1.currentCommand) T2 T1 := by
  unfold setMode
  rw [wp_bind]
  refine wp_mono (setModePreserveLast_wp E h hm hs he) (fun _ t1 h1 => ?_) (fun _ _ h => h)
    (fun _ h => h)
  obtain ⟨h2, h3⟩ := h1
  split
  · rw [wp_modK]
    refine ⟨h2.modK rfl ⟨fun k hk => (by cases hk), h2.esc.cur⟩, ?_, ?_⟩ <;> rw [h3]
  · rw [wp_pure]
    exact ⟨h2, by rw [h3], by rw [h3]⟩

theorem wp_popStack {t : Vi × Ed} {Q : Mode → Vi × Ed → Prop} {R : IoErr → Vi × Ed → Prop}
    {P : Site → Prop} : Wp popStack t Q R P ↔
      Q (t.1.modeStack.headD .normal) ({ t.1 with modeStack := t.1.modeStack.tail }, t.2) := Iff.rfl

/-- A stack under a movement: the operator, if any, is below. -/
def MoveStack (l : List Mode) : Prop :=
  Under l ∨ (∃ m r, l = .moveToChar m :: r ∧ Under r) ∨ (∃ r, l = .g :: r ∧ Under r)

theorem base_filter {base : List Mode} (h : base = [] ∨ base = [.insert]) :
    base.filter (· = .insert) = base := by
  rcases h with rfl | rfl <;> rfl

/-- The end of a movement: only a pending insertion remains. -/
theorem popModeAfterMovement_wp {t : Vi × Ed} (i : Bool) (hs : MoveStack t.1.modeStack)
    (he : NoEsc t.1) :
    Wp (popModeAfterMovement E i) t (fun _ t' => VI t' ∧
      t'.1.modeStack = t.1.modeStack.filter (· = .insert)) T2 T1 := by
  -- an operator is carried out
  have key : ∀ (m : Mode) (p : Nat) (base : List Mode) (v : Vi) (s : Ed), (base = [] ∨ base = [.insert]) →
      v.modeStack = base → (∀ k ∈ v.currentCommand, Plain k) →
      Wp (do
        let v ← getK
        setNoEol (v.mode = .normal)
        modK fun v => { v with movementReset := v.mode ≠ .insert }
        if i then ed (Editor.deleteUntilInclusive E p)
        else ed (Editor.deleteUntil E p)
        modK fun v => { v with lastCommand := v.currentCommand, currentCommand := v.lastCommand,
                               lastInsert := v.currentInsert, lastCount := v.count,
                               count := 0, secondaryCount := 0 }
        if m = .normal then modK fun v => { v with count := 0 } else pure ()
        setEditorMode E : ViM Unit) (v, s)
        (fun _ t' => VI t' ∧ t'.1.modeStack = base) T2 T1 := by
    intro m p base v s hb hv hp
    rw [wp_bind, wp_getK, wp_bind]
    unfold setNoEol
    rw [wp_ed, wp_modify, wp_bind, wp_modK]
    have fin : ∀ (v' : Vi) (s' : Ed), v'.modeStack = base → (∀ k ∈ v'.lastCommand, Plain k) →
        s'.noEol = decide (v'.mode = .normal) →
        Wp (setEditorMode E) (v', s') (fun _ t' => VI t' ∧ t'.1.modeStack = base) T2 T1 := by
      intro v' s' h1 h2 h3
      refine wp_mono (setEditorMode_wp E (t := (v', s')) (by simpa [h1] using hb) ⟨h2, ?_⟩ h3)
        (fun _ t' h => ⟨h.1, by rw [h.2]; exact h1⟩) (fun _ _ h => h) (fun _ h => h)
      rintro ⟨q, hq⟩
      dsimp only at hq
      rw [h1] at hq
      rcases hb with rfl | rfl <;> simp at hq
    have rest : ∀ s' : Ed, s'.noEol = decide (v.mode = .normal) → Wp (do
        modK fun v => { v with lastCommand := v.currentCommand, currentCommand := v.lastCommand,
                               lastInsert := v.currentInsert, lastCount := v.count,
                               count := 0, secondaryCount := 0 }
        if m = .normal then modK fun v => { v with count := 0 } else pure ()
        setEditorMode E : ViM Unit)
        ({ v with movementReset := decide (v.mode ≠ .insert) }, s')
        (fun _ t' => VI t' ∧ t'.1.modeStack = base) T2 T1 := by
      intro s' hn
      rw [wp_bind, wp_modK]
      dsimp only
      split
      · rw [wp_bind, wp_modK]
        exact fin _ _ hv hp hn
      · exact fin _ _ hv hp hn
    dsimp only
    split
    · rw [wp_bind, wp_ed]
      exact wp_mono (pres_deleteUntilInclusive E p _) (fun _ s' h' => rest s' h'.noEol)
        (fun _ _ _ => trivial) (fun _ _ => trivial)
    · rw [wp_bind, wp_ed]
      exact wp_mono (pres_deleteUntil E p _) (fun _ s' h' => rest s' h'.noEol)
        (fun _ _ _ => trivial) (fun _ _ => trivial)
  -- no operator
  have key' : ∀ (m : Mode) (v : Vi) (s : Ed), v.modeStack = [] → NoEsc v → (∀ p, m ≠ .delete p) →
      Wp (do
        let v ← getK
        setNoEol (v.mode = .normal)
        modK fun v => { v with movementReset := v.mode ≠ .insert }
        if m = .normal then modK fun v => { v with count := 0 } else pure ()
        setEditorMode E : ViM Unit) (v, s)
        (fun _ t' => VI t' ∧ t'.1.modeStack = []) T2 T1 := by
    intro m v s hv he hm
    rw [wp_bind, wp_getK, wp_bind]
    unfold setNoEol
    rw [wp_ed, wp_modify, wp_bind, wp_modK]
    have fin : ∀ (v' : Vi) (s' : Ed), v'.modeStack = [] → NoEsc v' →
        s'.noEol = decide (v'.mode = .normal) →
        Wp (setEditorMode E) (v', s') (fun _ t' => VI t' ∧ t'.1.modeStack = []) T2 T1 := by
      intro v' s' h1 h2 h3
      exact wp_mono (setEditorMode_wp E (t := (v', s')) (.inl h1) h2 h3)
        (fun _ t' h => ⟨h.1, by rw [h.2]; exact h1⟩) (fun _ _ h => h) (fun _ h => h)
    dsimp only
    split
    · rw [wp_bind, wp_modK]
      exact fin _ _ hv ⟨he.last, he.cur⟩ rfl
    · exact fin _ _ hv ⟨he.last, he.cur⟩ rfl
  obtain ⟨v, s⟩ := t
  dsimp only at hs he ⊢
  have hcur : ∀ p, Mode.delete p ∈ v.modeStack → ∀ k ∈ v.currentCommand, Plain k :=
    fun p hp => he.cur ⟨p, hp⟩
  have hno : ∀ r, NoEsc { v with modeStack := ([] : List Mode), movementReset := r } := fun r =>
    ⟨he.last, by rintro ⟨p, hp⟩; cases hp⟩
  have hno' : NoEsc { v with modeStack := ([] : List Mode) } :=
    ⟨he.last, by rintro ⟨p, hp⟩; cases hp⟩
  -- one level above the operator
  have above : ∀ (m : Mode) (r : List Mode), v.modeStack = m :: r → Under r → (∀ p, m ≠ .delete p) →
      m ≠ .insert →
      Wp (popModeAfterMovement E i) (v, s)
        (fun _ t' => VI t' ∧ t'.1.modeStack = v.modeStack.filter (· = .insert)) T2 T1 := by
    intro m r hv hr hm hm'
    unfold popModeAfterMovement
    rw [wp_bind, wp_popStack]
    simp only [hv, List.headD_cons, List.tail_cons]
    rw [wp_bind, wp_getK]
    rcases hr with rfl | ⟨p, base, rfl, hb⟩
    · rw [show ({ v with modeStack := ([] : List Mode) } : Vi).mode = .normal from rfl]
      dsimp only
      rw [wp_bind, wp_pure]
      have := key' m { v with modeStack := ([] : List Mode) } s rfl hno' hm
      cases m with
      | delete p => exact absurd rfl (hm p)
      | insert => exact absurd rfl hm'
      | _ => exact this
    · rw [show ({ v with modeStack := (.delete p :: base : List Mode) } : Vi).mode = .delete p from rfl]
      dsimp only
      rw [wp_bind, wp_popStack]
      simp only [List.headD_cons, List.tail_cons]
      refine wp_mono (key m p base { v with modeStack := base } s hb rfl
        (hcur p (by rw [hv]; simp))) (fun _ t' h => ⟨h.1, ?_⟩) (fun _ _ h => h) (fun _ h => h)
      rw [h.2, List.filter_cons_of_neg (by simp [hm']), List.filter_cons_of_neg (by simp),
        base_filter hb]
  rcases hs with hs | ⟨m, r, hs, hr⟩ | ⟨r, hs, hr⟩
  · rcases hs with hs | ⟨p, base, hs, hb⟩
    · unfold popModeAfterMovement
      rw [wp_bind, wp_popStack]
      simp only [hs, List.headD_nil, List.tail_nil]
      rw [wp_bind, wp_getK]
      rw [show ({ v with modeStack := ([] : List Mode) } : Vi).mode = .normal from rfl]
      dsimp only
      rw [wp_bind, wp_pure]
      exact key' .normal { v with modeStack := ([] : List Mode) } s rfl hno' (by simp)
    · unfold popModeAfterMovement
      rw [wp_bind, wp_popStack]
      simp only [hs, List.headD_cons, List.tail_cons]
      rw [wp_bind, wp_getK]
      have := key (.delete p) p base { v with modeStack := base } s hb rfl
        (hcur p (by rw [hs]; simp))
      have hf : (Mode.delete p :: base).filter (· = .insert) = base := by
        rw [List.filter_cons_of_neg (by simp), base_filter hb]
      rw [hf]
      rcases hb with rfl | rfl
      · rw [show ({ v with modeStack := ([] : List Mode) } : Vi).mode = .normal from rfl]
        dsimp only
        rw [wp_bind, wp_pure]
        exact this
      · rw [show ({ v with modeStack := ([.insert] : List Mode) } : Vi).mode = .insert from rfl]
        dsimp only
        rw [wp_bind, wp_pure]
        exact this
  · exact above _ r hs hr (by simp) (by simp)
  · exact above _ r hs hr (by simp) (by simp)

/-- Giving up. -/
theorem normalModeAbort_wp {t : Vi × Ed} (he : ∀ k ∈ t.1.lastCommand, Plain k) :
    Wp (normalModeAbort E) t (fun _ t' => VI t' ∧ t'.1 = { t.1 with modeStack := [], count := 0 })
      T2 T1 := by
  unfold normalModeAbort setNoEol
  rw [wp_bind, wp_modK, wp_bind, wp_ed, wp_modify, wp_bind, wp_modK]
  exact wp_mono (setEditorMode_wp E (.inl rfl) ⟨he, by rintro ⟨p, hp⟩; cases hp⟩ rfl)
    (fun _ t' h => h) (fun _ _ h => h) (fun _ h => h)

theorem pres_displayUnwrap : Pres (displayUnwrap E) := by
  intro s
  have := pres_display E s
  unfold Wp displayUnwrap at *
  cases h : display E s with
  | ok a s' => rw [h] at this; exact this
  | err a s' => trivial
  | panic w => trivial

/-- The key map after the end of a mode. -/
def popped (v : Vi) : Vi :=
  { v with modeStack := v.modeStack.tail,
           movementReset := decide (v.modeStack.tail.headD .normal ≠ .insert) }

/-- The end of a mode. -/
theorem popMode_wp {t : Vi × Ed} (hs : t.1.modeStack.tail = [] ∨ t.1.modeStack.tail = [.insert])
    (he : ∀ k ∈ t.1.lastCommand, Plain k) :
    Wp (popMode E) t (fun _ t' => VI t' ∧ t'.1 = popped t.1) T2 T1 := by
  unfold popMode setNoEol
  rw [wp_bind, wp_popStack]
  rw [wp_bind, wp_getK, wp_bind, wp_ed, wp_modify, wp_bind, wp_modK]
  show Wp _ (popped t.1, { t.2 with noEol := decide ((popped t.1).mode = Mode.normal) }) _ _ _
  have hst : (popped t.1).modeStack = t.1.modeStack.tail := rfl
  have hla : (popped t.1).lastCommand = t.1.lastCommand := rfl
  rw [← hst] at hs
  rw [← hla] at he
  generalize popped t.1 = v at *
  have hno : NoEsc v := ⟨he, by
    rintro ⟨p, hp⟩
    rcases hs with h | h <;> rw [h] at hp <;> simp at hp⟩
  have fin : ∀ s', s'.noEol = decide (v.mode = .normal) →
      Wp (setEditorMode E) (v, s') (fun _ t' => VI t' ∧ t'.1 = v) T2 T1 := fun s' h =>
    setEditorMode_wp E (t := (v, s')) hs hno h
  have step : ∀ (m : EdM Unit) (Q : Unit → Vi × Ed → Prop) (k : Unit → ViM Unit) (s1 : Ed), Pres m →
      s1.noEol = decide (v.mode = .normal) →
      (∀ s', s'.noEol = decide (v.mode = .normal) → Wp (k ()) (v, s') Q T2 T1) →
      Wp (ed m >>= k) (v, s1) Q T2 T1 := by
    intro m Q k s1 hm h1 hk
    rw [wp_bind, wp_ed]
    exact wp_mono (hm s1) (fun _ s' h => hk s' (h.noEol.trans h1)) (fun _ _ _ => trivial)
      (fun _ _ => trivial)
  have second : ∀ s1 : Ed, s1.noEol = decide (v.mode = .normal) → Wp (do
      if t.1.modeStack.headD .normal = .tilde then ed (displayUnwrap E) else pure ()
      setEditorMode E : ViM Unit) (v, s1) (fun _ t' => VI t' ∧ t'.1 = v) T2 T1 := by
    intro s1 h1
    dsimp only
    split
    · exact step _ _ (fun _ => setEditorMode E) _ (pres_displayUnwrap E) h1 fin
    · exact fin _ h1
  dsimp only
  split
  · exact step (onBuf Buffer.endUndoGroup) _ (fun _ => do
      if t.1.modeStack.headD .normal = .tilde then ed (displayUnwrap E) else pure ()
      setEditorMode E) _ (pres_curBufMut _) rfl second
  · exact second _ rfl

/-! ### The keys -/

theorem edCurBuf_wp (t : Vi × Ed) : Wp (ed curBuf) t (fun _ t' => t' = t) T2 T1 := by
  rw [wp_ed]
  unfold Wp curBuf
  dsimp only
  cases t.2.curBuf? <;> simp [T1]

theorem countLeft_wp (t : Vi × Ed) : Wp moveCountLeft t (fun _ t' => t' = t) T2 T1 := by
  unfold moveCountLeft
  rw [wp_bind, wp_getK, wp_bind, wp_ed, wp_get, wp_pure]

theorem countRight_wp (t : Vi × Ed) : Wp moveCountRight t (fun _ t' => t' = t) T2 T1 := by
  unfold moveCountRight
  rw [wp_bind, wp_getK, wp_bind, wp_ed, wp_get, wp_bind]
  refine wp_mono (edCurBuf_wp t) ?_ (fun _ _ h => h) (fun _ h => h)
  rintro b t1 rfl
  split
  · trivial
  · rfl

theorem pres_onBuf (f : Buffer → Buffer) : Pres (onBuf f) := pres_curBufMut _
theorem holds_startGroup : Holds (onBuf Buffer.startUndoGroup) :=
  holds_curBufMut fun b a b' h => by cases h; rfl
theorem holds_endGroup : Holds (onBuf Buffer.endUndoGroup) :=
  holds_curBufMut fun b a b' h => by cases h; rfl

theorem pres_moveWord (kw r : Bool) (n : Nat) : Pres (moveWord E kw r n) := by
  have := pres_to E
  unfold moveWord
  pres
  all_goals exact this _
theorem fixes_moveWord (kw r : Bool) (n : Nat) : Fixes (moveWord E kw r n) := by
  have := fixes_to E
  unfold moveWord
  exact fixes_bind fun _ => fixes_ite (fixes_bind fun _ => this _) (fixes_bind fun _ => this _)
theorem pres_moveWordEnd (kw r : Bool) (n : Nat) : Pres (moveWordEnd E kw r n) := by
  have := pres_to E
  unfold moveWordEnd
  pres
  all_goals exact this _
theorem fixes_moveWordEnd (kw r : Bool) (n : Nat) : Fixes (moveWordEnd E kw r n) := by
  have := fixes_to E
  unfold moveWordEnd
  exact fixes_bind fun _ => fixes_ite (fixes_bind fun _ => this _) (fixes_bind fun _ => this _)

theorem pres_common (key : Key) : Pres (handleKeyCommon E key) := by
  unfold handleKeyCommon
  split
  · exact pres_clear E
  · split
    · exact pres_left E _
    · exact pres_right E _
    · exact pres_moveUp E
    · exact pres_moveDown E
    · exact pres_home E
    · exact pres_moveEnd E
    · exact pres_deleteBefore E
    · exact pres_deleteAfter E
    · exact pres_pure _

theorem holds_common (key : Key) : Holds (handleKeyCommon E key) := by
  unfold handleKeyCommon
  split
  · exact (fixes_clear E).holds
  · split
    · exact (fixes_left E _).holds
    · exact (fixes_right E _).holds
    · exact (fixes_moveUp E).holds
    · exact (fixes_moveDown E).holds
    · exact (fixes_home E).holds
    · exact (fixes_moveEnd E).holds
    · exact (fixes_deleteBefore E).holds
    · exact (fixes_deleteAfter E).holds
    · exact holds_pure _

theorem pres_tilde : Pres (tildeStep E) := by
  have h1 := pres_insert E
  have h2 := pres_deleteAfter E
  have h3 := pres_right E
  unfold tildeStep insertEach
  pres
  all_goals first | exact h1 _ | exact h3 _

theorem pres_repeatWhile {op : EdM Bool} (h : Pres op) : ∀ n, Pres (repeatWhile op n)
  | 0 => pres_pure _
  | n + 1 => by
    have := pres_repeatWhile h n
    unfold repeatWhile
    pres

theorem holds_repeatWhile {op : EdM Bool} (h : Holds op) : ∀ n, Holds (repeatWhile op n)
  | 0 => holds_pure _
  | n + 1 => by
    have := holds_repeatWhile h n
    unfold repeatWhile
    exact holds_bind h fun _ => holds_ite this (holds_pure _)

/-- A movement, or a key that is none, carried out. -/
theorem move_wp {t : Vi × Ed} {m : EdM Unit} (i : Bool) (h : VI t) (hs : MoveStack t.1.modeStack)
    (hp : Pres m) (hh : Holds m) :
    Wp (do ed m; popModeAfterMovement E i : ViM Unit) t (fun _ t' => VI t' ∧
      t'.1.modeStack = t.1.modeStack.filter (· = .insert)) T2 T1 := by
  rw [wp_bind]
  refine wp_mono (vi_ed hp hh h) (fun _ t1 h1 => ?_) (fun _ _ h => h) (fun _ h => h)
  have := popModeAfterMovement_wp E i (t := t1) (by rw [h1.2]; exact hs) h1.1.esc
  rw [h1.2] at this
  exact this

theorem noEsc_nil {v : Vi} (hs : v.modeStack = [] ∨ v.modeStack = [.insert])
    (h : ∀ k ∈ v.lastCommand, Plain k) : NoEsc v :=
  ⟨h, by rintro ⟨p, hp⟩; rcases hs with hs | hs <;> rw [hs] at hp <;> simp at hp⟩

/-- Looking for a character. -/
theorem moveToChar_wp {t : Vi × Ed} (key : Key) (arg : MoveArg) (h : VI t)
    (hs : MoveStack t.1.modeStack) :
    Wp (handleKeyMoveToChar E key arg) t (fun _ t' => VI t' ∧
      (t'.1.modeStack = [] ∨ t'.1.modeStack = t.1.modeStack.filter (· = .insert))) T2 T1 := by
  unfold handleKeyMoveToChar
  rw [wp_bind, wp_getK, wp_bind, wp_modK]
  have h1 : VI ({ t.1 with count := 0 }, t.2) := h.modK rfl ⟨h.esc.last, h.esc.cur⟩
  split
  · exact wp_mono (normalModeAbort_wp E h1.esc.last)
      (fun _ t' h => ⟨h.1, .inl (by rw [h.2])⟩) (fun _ _ h => h) (fun _ h => h)
  · rename_i c m hr
    have rest : ∀ t1 : Vi × Ed, VI t1 → t1.1.modeStack = t.1.modeStack →
        Wp (do
          let s ← ed get
          let b ← ed Editor.curBuf
          if !m.inclusive ∧ b.numChars < s.cursor then M.panic
          else
            match charTarget b.data s.cursor m c t.1.moveCount with
            | some i => ed (Editor.moveCursorTo E i)
            | none => pure ()
            popModeAfterMovement E m.inclusive : ViM Unit) t1 (fun _ t' => VI t' ∧
          (t'.1.modeStack = [] ∨ t'.1.modeStack = t.1.modeStack.filter (· = .insert))) T2 T1 := by
      intro t1 h1 h2
      rw [wp_bind, wp_ed, wp_get, wp_bind]
      refine wp_mono (edCurBuf_wp t1) ?_ (fun _ _ h => h) (fun _ h => h)
      rintro b t1 rfl
      split
      · trivial
      · split
        · refine wp_mono (move_wp E m.inclusive h1 (by rw [h2]; exact hs) (pres_to E _)
            (fixes_to E _).holds) (fun _ t' h => ⟨h.1, .inr (by rw [h.2, h2])⟩) (fun _ _ h => h)
            (fun _ h => h)
        · refine wp_mono (popModeAfterMovement_wp E m.inclusive (by rw [h2]; exact hs)
            h1.esc) (fun _ t' h => ⟨h.1, .inr (by rw [h.2, h2])⟩) (fun _ _ h => h) (fun _ h => h)
    dsimp only
    split
    · rename_i ha
      rw [wp_bind, wp_modK]
      refine rest _ (h1.modK rfl ⟨h1.esc.last, fun hp k hk => ?_⟩) rfl
      dsimp only at hk
      rcases List.mem_append.1 hk with hk | hk
      · exact h.esc.cur hp k hk
      · rw [List.mem_singleton] at hk
        subst hk
        cases arg with
        | dir m' =>
          cases k with
          | char c' => exact ⟨by simp, by simp⟩
          | _ => simp [resolveMove] at hr
        | «repeat» => cases ha
        | reverseRepeat => cases ha
    · exact rest _ h1 rfl

/-- `ge`, `gE`. -/
theorem g_wp {t : Vi × Ed} (key : Key) (h : VI t) (hm : t.1.mode = .g) :
    Wp (handleKeyG E key) t (fun _ t' => VI t' ∧ (t'.1.modeStack = [] ∨
      t'.1.modeStack = t.1.modeStack.filter (· = .insert))) T2 T1 := by
  obtain ⟨r, hs, hu⟩ := h.g hm
  have hms : MoveStack t.1.modeStack := .inr (.inr ⟨r, hs, hu⟩)
  unfold handleKeyG
  rw [wp_bind, wp_getK, wp_bind, wp_modK]
  have fin : ∀ t1 : Vi × Ed, VI t1 → (t1.1.modeStack = [] ∨
      t1.1.modeStack = t.1.modeStack.filter (· = .insert)) →
      Wp (modK fun v => { v with count := 0 } : ViM Unit) t1 (fun _ t' => VI t' ∧
        (t'.1.modeStack = [] ∨ t'.1.modeStack = t.1.modeStack.filter (· = .insert))) T2 T1 := by
    intro t1 h1 h2
    rw [wp_modK]
    exact ⟨h1.modK rfl ⟨h1.esc.last, h1.esc.cur⟩, h2⟩
  have hk : key = .char 'e' ∨ key = .char 'E' →
      VI ({ t.1 with currentCommand := t.1.currentCommand ++ [key] }, t.2) := by
    intro hk
    refine h.modK rfl ⟨h.esc.last, fun hp k hk' => ?_⟩
    dsimp only at hk'
    rcases List.mem_append.1 hk' with hk' | hk'
    · exact h.esc.cur hp k hk'
    · rw [List.mem_singleton] at hk'
      subst hk'
      rcases hk with rfl | rfl <;> exact ⟨by simp, by simp⟩
  dsimp only
  split
  · rename_i he
    have := move_wp E (m := moveWord E true false t.1.moveCount) true (hk (.inl he)) hms (pres_moveWord E _ _ _)
      (fixes_moveWord E _ _ _).holds
    rw [wp_bind] at this ⊢
    refine wp_mono this (fun _ t1 h1 => ?_) (fun _ _ h => h) (fun _ h => h)
    rw [wp_bind]
    exact wp_mono h1 (fun _ t2 h2 => fin t2 h2.1 (.inr h2.2)) (fun _ _ h => h) (fun _ h => h)
  · split
    · rename_i he
      have := move_wp E (m := moveWord E false false t.1.moveCount) true (hk (.inr he)) hms (pres_moveWord E _ _ _)
        (fixes_moveWord E _ _ _).holds
      rw [wp_bind] at this ⊢
      refine wp_mono this (fun _ t1 h1 => ?_) (fun _ _ h => h) (fun _ h => h)
      rw [wp_bind]
      exact wp_mono h1 (fun _ t2 h2 => fin t2 h2.1 (.inr h2.2)) (fun _ _ h => h) (fun _ h => h)
    · rw [wp_bind]
      exact wp_mono (normalModeAbort_wp E h.esc.last) (fun _ t2 h2 => fin t2 h2.1 (.inl (by rw [h2.2])))
        (fun _ _ h => h) (fun _ h => h)

theorem pres_replaceStep (c : Char) : Pres (replaceStep E c) := by
  have h1 := pres_insert E
  have h2 := pres_deleteAfter E
  unfold replaceStep
  pres
  exact h1 _

theorem fixes_replaceStep (c : Char) : Fixes (replaceStep E c) := by
  unfold replaceStep
  exact fixes_bind fun _ => fixes_insert E _

theorem edRepeat_wp {m : EdM Unit} (hp : Pres m) (hh : Holds m) {t : Vi × Ed} (h : VI t) (n : Nat) :
    Wp (repeatN n (ed m)) t (fun _ t' => VI t' ∧ t'.1 = t.1) T2 T1 :=
  wp_repeatN (I := fun t' => VI t' ∧ t'.1 = t.1)
    (fun _ h1 => wp_mono (vi_ed hp hh h1.1) (fun _ _ h2 => ⟨h2.1, h2.2.trans h1.2⟩) (fun _ _ h => h)
      (fun _ h => h)) n t ⟨h, rfl⟩

/-- `r`. -/
theorem replace_wp {t : Vi × Ed} (key : Key) (h : VI t) (hm : t.1.mode = .replace) :
    Wp (handleKeyReplace E key) t (fun _ t' => VI t' ∧ t'.1.modeStack = []) T2 T1 := by
  have hs := h.replace hm
  have fin : ∀ t1 : Vi × Ed, VI t1 → t1.1.modeStack = [] →
      Wp (modK fun v => { v with count := 0 } : ViM Unit) t1 (fun _ t' => VI t' ∧
        t'.1.modeStack = []) T2 T1 := by
    intro t1 h1 h2
    rw [wp_modK]
    exact ⟨h1.modK rfl ⟨h1.esc.last, h1.esc.cur⟩, h2⟩
  have fin' : ∀ t1 : Vi × Ed, VI t1 → t1.1.modeStack = [.replace] →
      Wp (do popMode E; modK fun v => { v with count := 0 } : ViM Unit) t1 (fun _ t' => VI t' ∧
        t'.1.modeStack = []) T2 T1 := by
    intro t1 h1 h2
    rw [wp_bind]
    exact wp_mono (popMode_wp E (.inl (by rw [h2]; rfl)) h1.esc.last)
      (fun _ t2 h3 => fin t2 h3.1 (by rw [h3.2]; simp [popped, h2])) (fun _ _ h => h) (fun _ h => h)
  have ab : Wp (do normalModeAbort E; modK fun v => { v with count := 0 } : ViM Unit) t
      (fun _ t' => VI t' ∧ t'.1.modeStack = []) T2 T1 := by
    rw [wp_bind]
    exact wp_mono (normalModeAbort_wp E h.esc.last) (fun _ t2 h2 => fin t2 h2.1 (by rw [h2.2]))
        (fun _ _ h => h) (fun _ h => h)
  unfold handleKeyReplace
  dsimp only
  cases key with
  | char c =>
    dsimp only
    rw [wp_bind]
    refine wp_mono (countRight_wp t) ?_ (fun _ _ h => h) (fun _ h => h)
    rintro n t1 rfl
    rw [wp_bind, wp_getK]
    split
    · rw [wp_bind, wp_modK, wp_bind]
      have h1 : VI ({ t1.1 with lastInsert := none, lastCommand := [.char 'r', .char c], lastCount := t1.1.count }, t1.2) := by
        refine h.modK rfl ⟨?_, h.esc.cur⟩
        intro k hk
        simp only [List.mem_cons, List.not_mem_nil, or_false] at hk
        rcases hk with rfl | rfl <;> exact ⟨by simp, by simp⟩
      refine wp_mono (vi_ed (pres_onBuf _) holds_startGroup h1) (fun _ t2 h2 => ?_) (fun _ _ h => h) (fun _ h => h)
      rw [wp_bind]
      refine wp_mono (edRepeat_wp (pres_replaceStep E c) (fixes_replaceStep E c).holds h2.1 n)
        (fun _ t3 h3 => ?_) (fun _ _ h => h) (fun _ h => h)
      rw [wp_bind]
      refine wp_mono (vi_ed (pres_onBuf _) holds_endGroup h3.1) (fun _ t4 h4 => ?_) (fun _ _ h => h) (fun _ h => h)
      rw [wp_bind]
      refine wp_mono (vi_ed (pres_left E 1) (fixes_left E 1).holds h4.1) (fun _ t5 h5 => ?_)
        (fun _ _ h => h) (fun _ h => h)
      exact fin' t5 h5.1 (by rw [h5.2, h4.2, h3.2, h2.2]; exact hs)
    · exact fin' _ h hs
  | _ => exact ab

/-! ### The keys in insert mode -/

/-- What the recursive calls are assumed to do. -/
structure CoreOk (core : Key → ViM Unit) : Prop where
  all : ∀ k, KVI (core k)
  ins : ∀ k, Plain k → ∀ t, VI t → t.1.modeStack = [.insert] →
    Wp (core k) t (fun _ t' => VI t' ∧ t'.1.modeStack = [.insert]) T2 T1

/-- In insert mode. -/
def Ins (t : Vi × Ed) : Prop := VI t ∧ t.1.modeStack = [.insert]

theorem Ins.noEsc {t : Vi × Ed} (h : Ins t) {v : Vi} (hs : v.modeStack = t.1.modeStack)
    (hl : ∀ k ∈ v.lastCommand, Plain k) : Ins (v, t.2) :=
  ⟨h.1.modK hs (noEsc_nil (.inr (hs.trans h.2)) hl), hs.trans h.2⟩

theorem ins_ed {α : Type} {m : EdM α} (hp : Pres m) (hh : Holds m) {t : Vi × Ed} (h : Ins t) :
    Wp (ed m) t (fun _ t' => Ins t') T2 T1 :=
  wp_mono (vi_ed hp hh h.1) (fun _ _ h' => ⟨h'.1, by rw [h'.2]; exact h.2⟩) (fun _ _ h => h)
    (fun _ h => h)

theorem ins_reset {t : Vi × Ed} (h : Ins t) : Wp resetInsert t (fun _ t' => Ins t') T2 T1 := by
  unfold resetInsert
  rw [wp_bind, wp_getK]
  split
  · rw [wp_bind]
    refine wp_mono (ins_ed (pres_onBuf _) holds_endGroup h) (fun _ t1 h1 => ?_) (fun _ _ h => h)
      (fun _ h => h)
    rw [wp_bind]
    refine wp_mono (ins_ed (pres_onBuf _) holds_startGroup h1) (fun _ t2 h2 => ?_) (fun _ _ h => h)
      (fun _ h => h)
    rw [wp_modK]
    exact h2.noEsc rfl (fun k hk => by cases hk)
  · exact h

/-- In insert mode every key but `Esc` stays there. -/
theorem insert_plain {core : Key → ViM Unit} {key : Key} (hk : Plain key) {t : Vi × Ed} (h : Ins t) :
    Wp (handleKeyInsert core E key) t (fun _ t' => Ins t') T2 T1 := by
  have typed : ∀ m : EdM Unit, Pres m → Holds m → Wp (do
      resetInsert
      modK fun v => { v with lastCommand := v.lastCommand ++ [key] }
      ed m : ViM Unit) t (fun _ t' => Ins t') T2 T1 := by
    intro m hp hh
    rw [wp_bind]
    refine wp_mono (ins_reset h) (fun _ t1 h1 => ?_) (fun _ _ h => h) (fun _ h => h)
    rw [wp_bind, wp_modK]
    refine ins_ed hp hh (h1.noEsc rfl (fun k hk' => ?_))
    rcases List.mem_append.1 hk' with hk' | hk'
    · exact h1.1.esc.last k hk'
    · rw [List.mem_singleton] at hk'; subst hk'; exact hk
  have moved : Wp (do
      modK fun v => { v with count := 0, movementReset := true }
      ed (handleKeyCommon E key) : ViM Unit) t (fun _ t' => Ins t') T2 T1 := by
    rw [wp_bind, wp_modK]
    exact ins_ed (pres_common E key) (holds_common E key) (h.noEsc rfl h.1.esc.last)
  have walked : ∀ m : EdM Unit, Pres m → Holds m → Wp (do
      modK fun v => { v with count := 0, movementReset := true }
      ed (onBuf Buffer.endUndoGroup)
      ed m
      ed (onBuf Buffer.startUndoGroup) : ViM Unit) t (fun _ t' => Ins t') T2 T1 := by
    intro m hp hh
    rw [wp_bind, wp_modK, wp_bind]
    refine wp_mono (ins_ed (pres_onBuf _) holds_endGroup (h.noEsc rfl h.1.esc.last)) (fun _ t1 h1 => ?_)
      (fun _ _ h => h) (fun _ h => h)
    rw [wp_bind]
    refine wp_mono (ins_ed hp hh h1) (fun _ t2 h2 => ?_) (fun _ _ h => h) (fun _ h => h)
    exact ins_ed (pres_onBuf _) holds_startGroup h2
  unfold handleKeyInsert
  rw [if_neg (by rintro (rfl | rfl); exacts [hk.1 rfl, hk.2 rfl])]
  cases key with
  | char c => exact typed _ (pres_insert E _) (fixes_insert E _).holds
  | backspace => exact typed _ (pres_common E _) (holds_common E _)
  | delete => exact typed _ (pres_common E _) (holds_common E _)
  | left => exact moved
  | right => exact moved
  | home => exact moved
  | «end» => exact moved
  | up => exact walked _ (pres_moveUp E) (fixes_moveUp E).holds
  | down => exact walked _ (pres_moveDown E) (fixes_moveDown E).holds
  | _ => exact ins_ed (pres_common E _) (holds_common E _) h

/-- `Esc` ends the insertion. -/
theorem insert_esc {core : Key → ViM Unit} (hc : CoreOk core) {key : Key} (hk : ¬ Plain key)
    {t : Vi × Ed} (h : Ins t) :
    Wp (handleKeyInsert core E key) t (fun _ t' => VI t' ∧ t'.1.modeStack = []) T2 T1 := by
  have fin : ∀ t1 : Vi × Ed, Ins t1 → Wp (do
      ed (Editor.moveCursorLeft E 1)
      popMode E : ViM Unit) t1 (fun _ t' => VI t' ∧ t'.1.modeStack = []) T2 T1 := by
    intro t1 h1
    rw [wp_bind]
    refine wp_mono (ins_ed (pres_left E 1) (fixes_left E 1).holds h1) (fun _ t2 h2 => ?_)
      (fun _ _ h => h) (fun _ h => h)
    exact wp_mono (popMode_wp E (.inl (by rw [h2.2]; rfl)) h2.1.esc.last)
      (fun _ t3 h3 => ⟨h3.1, by rw [h3.2]; simp [popped, h2.2]⟩) (fun _ _ h => h) (fun _ h => h)
  unfold handleKeyInsert
  rw [if_pos (by
    by_contra hne
    exact hk ⟨fun h => hne (.inl h), fun h => hne (.inr h)⟩)]
  rw [wp_bind, wp_getK]
  dsimp only
  split
  · rw [wp_bind, wp_modK, wp_bind]
    unfold insertRepeats replay
    refine wp_mono (wp_repeatN (I := Ins) (fun t1 h1 => ?_) _ _ (h.noEsc rfl h.1.esc.last))
      (fun _ t2 h2 => ?_) (fun _ _ h => h) (fun _ h => h)
    · rw [wp_bind, wp_getK, wp_bind, wp_modK]
      exact wp_forEach (I := Ins) (fun k hk' t3 h3 => hc.ins k (h1.1.esc.last k hk') t3 h3.1 h3.2) _
        (h1.noEsc rfl (fun k hk => by cases hk))
    · rw [wp_bind, wp_modK]
      exact fin _ (h2.noEsc rfl h2.1.esc.last)
  · exact fin t h

/-! ### The keys in normal mode -/

/-- Entering insert mode. -/
theorem enter_wp {t : Vi × Ed} (h : VI t) (hs : t.1.modeStack = []) (k : Option Key) :
    Wp (do modK fun v => { v with lastInsert := k }; setMode E .insert : ViM Unit) t
      (fun _ t' => Ins t') T2 T1 := by
  rw [wp_bind, wp_modK]
  have h1 : VI ({ t.1 with lastInsert := k }, t.2) := h.modK rfl ⟨h.esc.last, h.esc.cur⟩
  refine wp_mono (setMode_wp E (m := .insert) h1 (by simp) (by simp [hs, Stack])
    (noEsc_nil (.inr (by simp [hs])) h.esc.last)) (fun _ t' h' => ⟨h'.1, by rw [h'.2.1]; simp [hs]⟩)
    (fun _ _ h => h) (fun _ h => h)

theorem ed_fst {α : Type} (m : EdM α) (t : Vi × Ed) : Wp (ed m) t (fun _ t' => t'.1 = t.1) T2 T1 := by
  rw [wp_ed]
  exact wp_mono (wp_trivial (m := m) (s := t.2)) (fun _ _ _ => rfl) (fun _ _ _ => trivial)
    (fun _ _ => trivial)

/-- `~`. -/
theorem tilde_wp {t : Vi × Ed} (h : VI t) (hs : t.1.modeStack = []) :
    Wp (do
      setMode E .tilde
      let n ← moveCountRight
      repeatN n (ed (tildeStep E))
      popMode E : ViM Unit) t (fun _ t' => VI t' ∧ t'.1.modeStack = []) T2 T1 := by
  have fin : ∀ t1 : Vi × Ed, t1.1 = { t.1 with movementReset := true, modeStack := [.tilde] } →
      Wp (do
        let n ← moveCountRight
        repeatN n (ed (tildeStep E))
        popMode E : ViM Unit) t1 (fun _ t' => VI t' ∧ t'.1.modeStack = []) T2 T1 := by
    intro t1 h1
    rw [wp_bind]
    refine wp_mono (countRight_wp t1) ?_ (fun _ _ h => h) (fun _ h => h)
    rintro n t1 rfl
    rw [wp_bind]
    refine wp_mono (wp_repeatN (I := fun t2 => t2.1 = t1.1)
      (fun t2 h2 => wp_mono (ed_fst _ t2) (fun _ _ h => h.trans h2) (fun _ _ h => h) (fun _ h => h))
      n t1 rfl) (fun _ t3 h3 => ?_) (fun _ _ h => h) (fun _ h => h)
    refine wp_mono (popMode_wp E (.inl (by rw [h3, h1]; rfl)) (by rw [h3, h1]; exact h.esc.last))
      (fun _ t4 h4 => ⟨h4.1, by rw [h4.2, h3, h1]; rfl⟩) (fun _ _ h => h) (fun _ h => h)
  unfold setMode setModePreserveLast setNoEol setEditorMode
  simp only [wp_bind]
  rw [wp_ed, wp_modify, wp_modK, wp_getK]
  rw [show ({ t.1 with movementReset := decide (Mode.tilde ≠ .insert), modeStack := .tilde :: t.1.modeStack }
    : Vi).mode = .tilde from rfl]
  dsimp only
  rw [wp_pure, if_pos (.inr trivial)]
  refine wp_mono (ed_fst _ _) (fun _ t1 h1 => ?_) (fun _ _ h => h) (fun _ h => h)
  rw [if_neg (by simp), wp_pure]
  have := fin t1 (by rw [h1]; simp [hs])
  simpa only [wp_bind] using this

theorem wp_cases {c : Prop} [Decidable c] {α : Type} {a b : ViM α} {t : Vi × Ed}
    {Q : α → Vi × Ed → Prop} (ha : c → Wp a t Q T2 T1) (hb : ¬ c → Wp b t Q T2 T1) :
    Wp (if c then a else b) t Q T2 T1 := by
  split
  · exact ha ‹_›
  · exact hb ‹_›

/-- The digits. -/
def IsDigit (c : Char) : Prop := (digit? c).isSome

theorem plain_char (c : Char) : Plain (.char c) := ⟨by simp, by simp⟩

theorem repeatLast_kvi {core : Key → ViM Unit} (hc : CoreOk core) : KVI (repeatLast core) := by
  intro t h
  unfold repeatLast
  rw [wp_bind, wp_modK, wp_bind, wp_getK]
  dsimp only
  rw [wp_bind, wp_modK]
  have h1 : VI ({ t.1 with lastCount := t.1.count, lastCommand := [] }, t.2) :=
    h.modK rfl ⟨fun k hk => (by cases hk), h.esc.cur⟩
  have rest : ∀ t1 : Vi × Ed, VI t1 → Wp (do
      replay core t.1.lastCommand
      let v ← getK
      if v.lastInsert.isSome then core .esc else pure ()
      modK fun v => { v with lastCommand := t.1.lastCommand } : ViM Unit) t1 (fun _ t' => VI t') T2 T1 := by
    intro t1 h1
    have fin : ∀ t2 : Vi × Ed, VI t2 →
        Wp (modK fun v => { v with lastCommand := t.1.lastCommand } : ViM Unit) t2 (fun _ t' => VI t') T2 T1 := by
      intro t2 h2
      rw [wp_modK]
      exact h2.modK rfl ⟨h.esc.last, h2.esc.cur⟩
    rw [wp_bind]
    unfold replay
    refine wp_mono (wp_forEach (I := VI) (fun k _ t2 h2 => hc.all k t2 h2) _ h1) (fun _ t2 h2 => ?_)
      (fun _ _ h => h) (fun _ h => h)
    rw [wp_bind, wp_getK]
    dsimp only
    split
    · rw [wp_bind]
      exact wp_mono (hc.all .esc t2 h2) (fun _ t3 h3 => fin t3 h3) (fun _ _ h => h) (fun _ h => h)
    · exact fin t2 h2
  split
  · rw [wp_bind]
    exact wp_mono (hc.all _ _ h1) (fun _ t2 h2 => rest t2 h2) (fun _ _ h => h) (fun _ h => h)
  · exact rest _ h1

/-- The character keys of normal mode, also used for the movements of an operator. -/
theorem normalChar_wp {core : Key → ViM Unit} (hc : CoreOk core) (c : Char) {t : Vi × Ed} (h : VI t)
    (hs : t.1.modeStack = [] ∨ (Under t.1.modeStack ∧ (isMovementKey (.char c) ∨ IsDigit c))) :
    Wp (normalChar core E c) t (fun _ t' => VI t') T2 T1 := by
  have hu : Under t.1.modeStack := by
    rcases hs with hs | hs
    · exact .inl hs
    · exact hs.1
  have cmd : (isMovementKey (.char c) = false ∧ digit? c = none) → t.1.modeStack = [] := by
    rintro ⟨h1, h2⟩
    rcases hs with hs | ⟨_, hs | hs⟩
    · exact hs
    · rw [h1] at hs; cases hs
    · rw [IsDigit, h2] at hs; cases hs
  have mv : ∀ (m : EdM Unit), Pres m → Holds m →
      Wp (do ed m; popModeAfterMovement E false : ViM Unit) t (fun _ t' => VI t') T2 T1 := fun m hp hh =>
    wp_mono (move_wp E false h (.inl hu) hp hh) (fun _ _ h => h.1) (fun _ _ h => h) (fun _ h => h)
  have ent := fun (hs : t.1.modeStack = []) => enter_wp E h hs (some (.char c))
  have enter : ∀ (m : EdM Unit), t.1.modeStack = [] → Pres m → Holds m →
      Wp (do modK fun v => { v with lastInsert := some (.char c) }; setMode E .insert; ed m : ViM Unit) t
        (fun _ t' => VI t') T2 T1 := by
    intro m hs hp hh
    have := ent hs
    rw [wp_bind] at this ⊢
    rw [wp_modK] at this ⊢
    rw [wp_bind]
    exact wp_mono this (fun _ t1 h1 => wp_mono (ins_ed hp hh h1) (fun _ _ h => h.1) (fun _ _ h => h)
      (fun _ h => h)) (fun _ _ h => h) (fun _ h => h)
  have until' : ∀ t1 : Vi × Ed, VI t1 → ∀ f : Vi → Vi, (∀ v, (f v).modeStack = v.modeStack) →
      (∀ v, NoEsc v → NoEsc (f v)) → Wp (do
      let n ← moveCountRight
      let s ← ed get
      ed (Editor.deleteUntil E (s.cursor + n))
      modK f : ViM Unit) t1 (fun _ t' => VI t') T2 T1 := by
    intro t1 h1 f hf hn
    rw [wp_bind]
    refine wp_mono (countRight_wp t1) ?_ (fun _ _ h => h) (fun _ h => h)
    rintro n t1 rfl
    rw [wp_bind, wp_ed, wp_get, wp_bind]
    refine wp_mono (vi_ed (pres_deleteUntil E _) (fixes_deleteUntil E _).holds h1) (fun _ t2 h2 => ?_)
      (fun _ _ h => h) (fun _ h => h)
    rw [wp_modK]
    exact h2.1.modK (hf _) (hn _ h2.1.esc)
  have keep : ∀ v : Vi, ∀ a b, NoEsc v → NoEsc { v with lastCount := a, count := b } := fun v a b h =>
    ⟨h.last, h.cur⟩
  have remembered : ∀ a b, t.1.modeStack = [] →
      VI ({ t.1 with lastInsert := none, lastCommand := [.char c], count := a, lastCount := b }, t.2) :=
    fun a b hs => h.modK rfl (noEsc_nil (.inl hs) (fun k hk => by
      rw [List.mem_singleton.1 hk]; exact plain_char c))
  have find : ∀ m, Wp (setMode E (.moveToChar m)) t (fun _ t' => VI t') T2 T1 := fun m =>
    wp_mono (setMode_wp E h (by simp) (.inr (.inr (.inr (.inl ⟨m, _, rfl, hu⟩))))
      ⟨h.esc.last, fun ⟨p, hp⟩ => h.esc.cur ⟨p, by simpa using hp⟩⟩) (fun _ _ h => h.1) (fun _ _ h => h)
      (fun _ h => h)
  unfold normalChar
  dsimp only
  refine wp_cases (fun h0 => ?_) (fun _ => ?_)
  · subst c
    exact wp_mono (ent (cmd (by decide))) (fun _ _ h => h.1) (fun _ _ h => h) (fun _ h => h)
  refine wp_cases (fun h0 => ?_) (fun _ => ?_)
  · subst c
    exact enter _ (cmd (by decide)) (pres_right E 1) (fixes_right E 1).holds
  refine wp_cases (fun h0 => ?_) (fun _ => ?_)
  · subst c
    exact enter _ (cmd (by decide)) (pres_moveEnd E) (fixes_moveEnd E).holds
  refine wp_cases (fun h0 => ?_) (fun _ => ?_)
  · subst c
    exact enter _ (cmd (by decide)) (pres_home E) (fixes_home E).holds
  refine wp_cases (fun h0 => ?_) (fun _ => ?_)
  · subst c
    rw [wp_bind]
    exact wp_mono (ent (cmd (by decide))) (fun _ t1 h1 => until' t1 h1.1 _ (fun _ => rfl) (fun v => keep v _ _))
      (fun _ _ h => h) (fun _ h => h)
  refine wp_cases (fun h0 => ?_) (fun _ => ?_)
  · subst c
    have hs := cmd (by decide)
    exact wp_mono (setMode_wp E (m := .replace) h (by simp) (by simp [hs, Stack])
      ⟨h.esc.last, by rintro ⟨p, hp⟩; simp [hs] at hp⟩) (fun _ _ h => h.1) (fun _ _ h => h) (fun _ h => h)
  refine wp_cases (fun h0 => ?_) (fun _ => ?_)
  · have hdc := h0
    have hs := cmd (by rcases hdc with rfl | rfl <;> decide)
    rw [wp_bind, wp_modK]
    have del : ∀ t1 : Vi × Ed, VI t1 → (t1.1.modeStack = [] ∨ t1.1.modeStack = [.insert]) →
        (∀ k ∈ t1.1.currentCommand, Plain k) → Wp (do
        let s ← ed get
        setMode E (.delete s.cursor)
        modK fun v => { v with secondaryCount := v.count, count := 0 } : ViM Unit) t1
        (fun _ t' => VI t') T2 T1 := by
      intro t1 h1 h2 h3
      rw [wp_bind, wp_ed, wp_get, wp_bind]
      refine wp_mono (setMode_wp E (m := .delete t1.2.cursor) h1 (by simp)
        (.inr (.inr (.inl (.inr ⟨_, _, rfl, h2⟩)))) ⟨h1.esc.last, fun _ => h3⟩) (fun _ t2 h4 => ?_)
        (fun _ _ h => h) (fun _ h => h)
      rw [wp_modK]
      exact h4.1.modK rfl ⟨h4.1.esc.last, h4.1.esc.cur⟩
    refine wp_cases (fun _ => ?_) (fun _ => ?_)
    · rw [wp_bind, wp_modK]
      refine del _ (h.modK rfl (noEsc_nil (.inl hs) h.esc.last)) (.inl hs) (fun k hk => ?_)
      rw [List.mem_singleton.1 hk]; exact plain_char c
    · rw [wp_bind, wp_modK, wp_bind]
      have h1 : VI ({ t.1 with currentCommand := [], currentInsert := some (.char c) }, t.2) :=
        h.modK rfl (noEsc_nil (.inl hs) h.esc.last)
      refine wp_mono (setMode_wp E (m := .insert) h1 (by simp) (by simp [hs, Stack])
        (noEsc_nil (.inr (by simp [hs])) h.esc.last)) (fun _ t2 h2 => ?_) (fun _ _ h => h) (fun _ h => h)
      refine del t2 h2.1 (.inr (by rw [h2.2.1]; simp [hs])) (fun k hk => ?_)
      rw [h2.2.2] at hk; cases hk
  refine wp_cases (fun h0 => ?_) (fun _ => ?_)
  · subst c
    have hs := cmd (by decide)
    unfold rememberKey
    rw [wp_bind, wp_modK, wp_bind, wp_modK]
    exact wp_mono (vi_ed (pres_deleteAllAfter E) (fixes_deleteAllAfter E).holds (remembered 0 0 hs))
      (fun _ _ h => h.1) (fun _ _ h => h) (fun _ h => h)
  refine wp_cases (fun h0 => ?_) (fun _ => ?_)
  · subst c
    have hs := cmd (by decide)
    unfold rememberKey
    rw [wp_bind, wp_modK, wp_bind, wp_modK, wp_bind]
    refine wp_mono (setModePreserveLast_wp E (m := .insert) (remembered 0 0 hs) (by simp)
      (by simp [hs, Stack]) (noEsc_nil (.inr (by simp [hs])) (remembered 0 0 hs).esc.last)) (fun _ t1 h1 => ?_)
      (fun _ _ h => h) (fun _ h => h)
    exact wp_mono (vi_ed (pres_deleteAllAfter E) (fixes_deleteAllAfter E).holds h1.1)
      (fun _ _ h => h.1) (fun _ _ h => h) (fun _ h => h)
  refine wp_cases (fun h0 => ?_) (fun _ => ?_)
  · subst c
    rw [wp_bind, wp_modK]
    exact repeatLast_kvi hc _ (h.modK rfl ⟨h.esc.last, h.esc.cur⟩)
  refine wp_cases (fun h0 => ?_) (fun _ => ?_)
  · rw [wp_bind]
    refine wp_mono (countLeft_wp t) ?_ (fun _ _ h => h) (fun _ h => h)
    rintro n t1 rfl
    exact mv _ (pres_left E _) (fixes_left E _).holds
  refine wp_cases (fun h0 => ?_) (fun _ => ?_)
  · rw [wp_bind]
    refine wp_mono (countRight_wp t) ?_ (fun _ _ h => h) (fun _ h => h)
    rintro n t1 rfl
    exact mv _ (pres_right E _) (fixes_right E _).holds
  refine wp_cases (fun h0 => ?_) (fun _ => ?_)
  · exact mv _ (pres_moveUp E) (fixes_moveUp E).holds
  refine wp_cases (fun h0 => ?_) (fun _ => ?_)
  · exact mv _ (pres_moveDown E) (fixes_moveDown E).holds
  refine wp_cases (fun h0 => ?_) (fun _ => ?_)
  · exact find _
  refine wp_cases (fun h0 => ?_) (fun _ => ?_)
  · exact find _
  refine wp_cases (fun h0 => ?_) (fun _ => ?_)
  · exact find _
  refine wp_cases (fun h0 => ?_) (fun _ => ?_)
  · exact find _
  refine wp_cases (fun h0 => ?_) (fun _ => ?_)
  · exact wp_mono (moveToChar_wp E _ _ h (.inl hu)) (fun _ _ h => h.1) (fun _ _ h => h) (fun _ h => h)
  refine wp_cases (fun h0 => ?_) (fun _ => ?_)
  · exact wp_mono (moveToChar_wp E _ _ h (.inl hu)) (fun _ _ h => h.1) (fun _ _ h => h) (fun _ h => h)
  refine wp_cases (fun h0 => ?_) (fun _ => ?_)
  · rw [wp_bind, wp_getK]; exact mv _ (pres_moveWord E _ _ _) (fixes_moveWord E _ _ _).holds
  refine wp_cases (fun h0 => ?_) (fun _ => ?_)
  · rw [wp_bind, wp_getK]; exact mv _ (pres_moveWord E _ _ _) (fixes_moveWord E _ _ _).holds
  refine wp_cases (fun h0 => ?_) (fun _ => ?_)
  · rw [wp_bind, wp_getK]; exact mv _ (pres_moveWordEnd E _ _ _) (fixes_moveWordEnd E _ _ _).holds
  refine wp_cases (fun h0 => ?_) (fun _ => ?_)
  · rw [wp_bind, wp_getK]; exact mv _ (pres_moveWordEnd E _ _ _) (fixes_moveWordEnd E _ _ _).holds
  refine wp_cases (fun h0 => ?_) (fun _ => ?_)
  · rw [wp_bind, wp_getK]; exact mv _ (pres_moveWordEnd E _ _ _) (fixes_moveWordEnd E _ _ _).holds
  refine wp_cases (fun h0 => ?_) (fun _ => ?_)
  · rw [wp_bind, wp_getK]; exact mv _ (pres_moveWordEnd E _ _ _) (fixes_moveWordEnd E _ _ _).holds
  refine wp_cases (fun h0 => ?_) (fun _ => ?_)
  · exact wp_mono (setMode_wp E (m := .g) h (by simp) (.inr (.inr (.inr (.inr ⟨_, rfl, hu⟩))))
      ⟨h.esc.last, fun ⟨p, hp⟩ => h.esc.cur ⟨p, by simpa using hp⟩⟩) (fun _ _ h => h.1) (fun _ _ h => h)
      (fun _ h => h)
  refine wp_cases (fun h0 => ?_) (fun _ => ?_)
  · exact mv _ (pres_home E) (fixes_home E).holds
  refine wp_cases (fun h0 => ?_) (fun _ => ?_)
  · exact mv _ (pres_moveEnd E) (fixes_moveEnd E).holds
  refine wp_cases (fun h0 => ?_) (fun _ => ?_)
  · subst c
    have hs := cmd (by decide)
    unfold rememberKey
    rw [wp_bind, wp_modK, wp_bind, wp_modK]
    exact until' _ (remembered t.1.count t.1.count hs) _ (fun _ => rfl) (fun v h => ⟨h.last, h.cur⟩)
  refine wp_cases (fun h0 => ?_) (fun _ => ?_)
  · subst c
    have hs := cmd (by decide)
    unfold rememberKey
    rw [wp_bind, wp_modK, wp_bind, wp_modK]
    exact wp_mono (tilde_wp E (remembered t.1.count t.1.count hs) hs) (fun _ _ h => h.1) (fun _ _ h => h)
      (fun _ h => h)
  refine wp_cases (fun h0 => ?_) (fun _ => ?_)
  · rw [wp_bind, wp_getK, wp_bind, wp_modK]
    exact wp_mono (vi_ed (pres_repeatWhile (pres_undo E) _) (holds_repeatWhile (fixes_undo E).holds _)
      (h.modK rfl ⟨h.esc.last, h.esc.cur⟩)) (fun _ _ h => h.1) (fun _ _ h => h) (fun _ h => h)
  split
  · rw [wp_bind, wp_getK]
    split
    · exact mv _ (pres_home E) (fixes_home E).holds
    · rw [wp_modK]
      exact h.modK rfl ⟨h.esc.last, h.esc.cur⟩
  · exact kvi_ed (pres_common E _) (holds_common E _) t h

/-- Normal mode. -/
theorem normal_wp {core : Key → ViM Unit} (hc : CoreOk core) (key : Key) {t : Vi × Ed} (h : VI t)
    (hs : t.1.modeStack = [] ∨ (Under t.1.modeStack ∧ (isMovementKey key ∨ ∃ c, key = .char c ∧ IsDigit c))) :
    Wp (handleKeyNormal core E key) t (fun _ t' => VI t') T2 T1 := by
  have hu : Under t.1.modeStack := by
    rcases hs with hs | hs
    · exact .inl hs
    · exact hs.1
  have cmd : isMovementKey key = false → (∀ c, key ≠ .char c) → t.1.modeStack = [] := by
    intro h1 h2
    rcases hs with hs | ⟨_, hs | ⟨c, hc, _⟩⟩
    · exact hs
    · rw [h1] at hs; cases hs
    · exact absurd hc (h2 c)
  unfold handleKeyNormal
  split
  · rw [wp_modK]
    exact h.modK rfl ⟨h.esc.last, h.esc.cur⟩
  · rename_i c
    refine normalChar_wp E hc c h ?_
    rcases hs with hs | ⟨hu, hs | ⟨c', hc', hd⟩⟩
    · exact .inl hs
    · exact .inr ⟨hu, .inl hs⟩
    · cases hc'; exact .inr ⟨hu, .inr hd⟩
  · exact normalChar_wp E hc 'h' h (.inr ⟨hu, .inl (by decide)⟩)
  · exact normalChar_wp E hc 'h' h (.inr ⟨hu, .inl (by decide)⟩)
  · exact normalChar_wp E hc 'l' h (.inr ⟨hu, .inl (by decide)⟩)
  · exact normalChar_wp E hc 'k' h (.inl (cmd (by decide) (by simp)))
  · exact normalChar_wp E hc 'j' h (.inl (cmd (by decide) (by simp)))
  · have hs := cmd (by decide) (by simp)
    unfold rememberKey
    rw [wp_bind, wp_modK, wp_bind, wp_modK, wp_bind]
    refine wp_mono (countRight_wp _) ?_ (fun _ _ h => h) (fun _ h => h)
    rintro n t1 rfl
    rw [wp_bind, wp_ed, wp_get, wp_bind]
    have h1 : VI ({ t.1 with lastInsert := none, lastCommand := [.delete], lastCount := t.1.count }, t.2) :=
      h.modK rfl (noEsc_nil (.inl hs) (fun k hk => by
        rw [List.mem_singleton.1 hk]; exact ⟨by simp, by simp⟩))
    refine wp_mono (vi_ed (pres_deleteUntil E _) (fixes_deleteUntil E _).holds h1) (fun _ t2 h2 => ?_)
      (fun _ _ h => h) (fun _ h => h)
    rw [wp_modK]
    exact h2.1.modK rfl ⟨h2.1.esc.last, h2.1.esc.cur⟩
  · split
    · rw [wp_bind, wp_getK, wp_bind, wp_modK]
      exact wp_mono (vi_ed (pres_repeatWhile (pres_redo E) _) (holds_repeatWhile (fixes_redo E).holds _)
        (h.modK rfl ⟨h.esc.last, h.esc.cur⟩)) (fun _ _ h => h.1) (fun _ _ h => h) (fun _ h => h)
    · exact kvi_ed (pres_common E _) (holds_common E _) t h
  · exact kvi_ed (pres_common E _) (holds_common E _) t h

/-- Under an operator. -/
theorem delete_wp {core : Key → ViM Unit} (hc : CoreOk core) (key : Key) {p : Nat} {t : Vi × Ed}
    (h : VI t) (hm : t.1.mode = .delete p) :
    Wp (handleKeyDeleteOrChange core E key) t (fun _ t' => VI t') T2 T1 := by
  obtain ⟨base, hs, hb⟩ := h.delete hm
  have hu : Under t.1.modeStack := .inr ⟨p, base, hs, hb⟩
  unfold handleKeyDeleteOrChange
  rw [wp_bind, wp_getK]
  split
  · rename_i hk
    rw [wp_bind, wp_modK]
    refine normal_wp E hc key (h.modK rfl ⟨h.esc.last, fun hp k hk' => ?_⟩) (.inr ⟨hu, ?_⟩)
    · rcases List.mem_append.1 hk' with hk' | hk'
      · exact h.esc.cur hp k hk'
      · rw [List.mem_singleton.1 hk']
        constructor
        · rintro rfl; simp [isMovementKey] at hk
        · rintro rfl; simp [isMovementKey] at hk
    · rcases hk with hk | ⟨rfl, _⟩
      · exact .inl hk
      · exact .inr ⟨'0', rfl, by unfold IsDigit; decide⟩
  refine wp_cases (fun hk => ?_) (fun _ => ?_)
  · refine normal_wp E hc key h (.inr ⟨hu, .inr ?_⟩)
    cases key with
    | char c => exact ⟨c, rfl, hk⟩
    | _ => cases hk
  split
  · rename_i hk
    rw [wp_bind, wp_modK, wp_bind]
    have hpl : Plain key := by
      rcases hk with ⟨rfl, _⟩ | ⟨rfl, _⟩ <;> exact plain_char _
    have h1 : VI ({ t.1 with currentCommand := t.1.currentCommand ++ [key], count := 0,
                             secondaryCount := 0 }, t.2) := by
      refine h.modK rfl ⟨h.esc.last, fun hp k hk' => ?_⟩
      rcases List.mem_append.1 hk' with hk' | hk'
      · exact h.esc.cur hp k hk'
      · rw [List.mem_singleton.1 hk']; exact hpl
    refine wp_mono (vi_ed (pres_home E) (fixes_home E).holds h1) (fun _ t2 h2 => ?_) (fun _ _ h => h)
      (fun _ h => h)
    rw [wp_bind]
    refine wp_mono (vi_ed (pres_deleteAllAfter E) (fixes_deleteAllAfter E).holds h2.1) (fun _ t3 h3 => ?_)
      (fun _ _ h => h) (fun _ h => h)
    exact wp_mono (popMode_wp E (by rw [h3.2, h2.2]; dsimp only; rw [hs]; exact hb) h3.1.esc.last)
      (fun _ _ h => h.1) (fun _ _ h => h) (fun _ h => h)
  · exact wp_mono (normalModeAbort_wp E h.esc.last) (fun _ _ h => h.1) (fun _ _ h => h) (fun _ h => h)

theorem coreStep_ok {core : Key → ViM Unit} (hc : CoreOk core) : CoreOk (coreStep core E) := by
  constructor
  · intro k t h
    unfold coreStep
    rw [wp_bind, wp_getK]
    split
    · rename_i hm
      exact normal_wp E hc k h (.inl (h.nil hm))
    · rename_i hm
      by_cases hk : Plain k
      · exact wp_mono (insert_plain E hk ⟨h, h.insert hm⟩) (fun _ _ h => h.1) (fun _ _ h => h) (fun _ h => h)
      · exact wp_mono (insert_esc E hc hk ⟨h, h.insert hm⟩) (fun _ _ h => h.1) (fun _ _ h => h) (fun _ h => h)
    · rename_i hm
      exact wp_mono (replace_wp E k h hm) (fun _ _ h => h.1) (fun _ _ h => h) (fun _ h => h)
    · rename_i hm
      exact delete_wp E hc k h hm
    · rename_i m hm
      obtain ⟨r, hs, hu⟩ := h.char hm
      exact wp_mono (moveToChar_wp E k _ h (.inr (.inl ⟨m, r, hs, hu⟩))) (fun _ _ h => h.1) (fun _ _ h => h) (fun _ h => h)
    · rename_i hm
      exact wp_mono (g_wp E k h hm) (fun _ _ h => h.1) (fun _ _ h => h) (fun _ h => h)
    · trivial
  · intro k hk t h hs
    unfold coreStep
    rw [wp_bind, wp_getK]
    rw [mode_cons hs]
    exact insert_plain E hk ⟨h, hs⟩

theorem coreFuel_ok : ∀ n, CoreOk (coreFuel E n)
  | 0 => ⟨fun _ _ _ => trivial, fun _ _ _ _ _ => trivial⟩
  | n + 1 => coreStep_ok E (coreFuel_ok n)

theorem core_ok : CoreOk (handleKeyCore E) := coreFuel_ok E _

/-! ### Whole sessions -/

theorem kvi_throw {α : Type} (e : IoErr) : KVI (M.throw e : ViM α) := fun _ _ => trivial
theorem kvi_get : KVI (ed (M.get : EdM Ed) : ViM Ed) := fun _ h => h

theorem kvi_handleKey (comp : Text → List Text) (key : Key) :
    KVI (keyMap.handleKey E comp key) := by
  have hnl : KVI (ed (handleNewline E)) := kvi_ed (pres_newline E) (holds_newline E)
  have hacc : KVI (ed (acceptAutosuggestion E)) := kvi_ed (pres_accept E) (fixes_accept E).holds
  unfold KeyMap.handleKey KeyMap.dispatch
  refine kvi_bind (kvi_ed pres_curBuf holds_curBuf) fun b => kvi_bind (kvi_bind kvi_get fun s => ?_)
    fun d => kvi_bind (kvi_ed (pres_flush E) (holds_flush E)) fun _ => kvi_pure _
  refine kvi_ite (kvi_bind hnl fun _ => kvi_throw _) <| kvi_ite (kvi_bind hnl fun _ => kvi_throw _) <|
    kvi_ite (kvi_bind (kvi_ed (pres_complete E comp) (holds_complete E comp)) fun _ => kvi_pure _) <|
    kvi_ite hnl <| kvi_ite (kvi_bind hacc fun _ => kvi_pure _) <|
    kvi_ite (kvi_bind (kvi_ed (pres_search E _) (fixes_search E _).holds) fun _ => kvi_pure _) <|
    kvi_ite (kvi_bind (kvi_ed (pres_search E _) (fixes_search E _).holds) fun _ => kvi_pure _) ?_
  have rest : ∀ a : Bool, KVI (do
      if a then ed (acceptAutosuggestion E)
      else
        keyMap.core E (KeyMap.translate key)
        ed skipCompletionsHint
      pure false : ViM Bool) := fun a =>
    kvi_ite (kvi_bind hacc fun _ => kvi_pure _) (kvi_bind ((core_ok E).all _) fun _ =>
      kvi_bind (kvi_ed pres_skip holds_skip) fun _ => kvi_pure _)
  exact kvi_ite (kvi_bind (kvi_ed pres_atEnd holds_atEnd) rest) (kvi_bind (kvi_pure _) rest)

theorem kvi_press : ∀ keys, KVI (press keyMap E keys)
  | [] => kvi_pure _
  | k :: ks => by
    unfold press
    exact kvi_bind (kvi_handleKey E k.2 k.1) fun _ => kvi_press ks

/-- Reading a line starts in insert mode. -/
theorem vi_session (p p' : Prompt) (h : History) (fs : FS) (b : Buffer)
    (keys : List (Key × (Text → List Text))) :
    Wp (session keyMap E p keys) (({} : Vi), initial p' h fs b) (fun _ t' => VI t') T2 T1 := by
  unfold session
  rw [wp_bind, wp_ed]
  refine wp_mono (wp_and (pres_start E p _) (fixes_start E p _)) (fun _ s1 h1 => ?_) (fun _ _ _ => trivial)
    (fun _ _ => trivial)
  have hn : s1.noEol = false := h1.1.noEol
  have hi : Wp (keyMap.init E) (({} : Vi), s1) (fun _ t' => VI t') T2 T1 := by
    show Wp (Vi.init E) _ _ _ _
    unfold Vi.init
    rw [wp_bind, wp_ed]
    refine wp_mono (pres_onBuf Buffer.startUndoGroup s1) (fun _ s2 h2 => ?_) (fun _ _ _ => trivial) (fun _ _ => trivial)
    refine wp_mono (setEditorMode_wp E (t := (({} : Vi), s2)) (.inr rfl)
      (noEsc_nil (.inr rfl) (fun k hk => by cases hk)) ?_) (fun _ _ h => h.1) (fun _ _ h => h) (fun _ h => h)
    rw [h2.noEol, hn]; rfl
  rw [wp_bind]
  exact wp_mono hi (fun _ t1 h1 => kvi_press E keys t1 h1) (fun _ _ h => h) (fun _ h => h)

/-- `Esc` leads to normal mode from everywhere. -/
theorem core_esc {t : Vi × Ed} (h : VI t) {k : Key} (hk : k = .esc ∨ (k = .ctrl '[' ∧ t.1.mode ≠ .normal)) :
    Wp (handleKeyCore E k) t (fun _ t' => VI t' ∧ t'.1.modeStack = []) T2 T1 := by
  have hkm : isMovementKey k = false := by rcases hk with rfl | ⟨rfl, _⟩ <;> rfl
  have hkc : ∀ c, k ≠ .char c := by rcases hk with rfl | ⟨rfl, _⟩ <;> simp
  show Wp (coreStep (coreFuel E 7) E k) t _ _ _
  unfold coreStep
  rw [wp_bind, wp_getK]
  have ab := normalModeAbort_wp E h.esc.last
  split
  · rename_i hm
    rcases hk with rfl | ⟨rfl, hk⟩
    · unfold handleKeyNormal
      rw [wp_modK]
      exact ⟨h.modK rfl ⟨h.esc.last, h.esc.cur⟩, h.nil hm⟩
    · exact absurd hm hk
  · rename_i hm
    exact insert_esc E (coreFuel_ok E 7) (fun hp => by rcases hk with rfl | ⟨rfl, _⟩; exacts [hp.1 rfl, hp.2 rfl])
      ⟨h, h.insert hm⟩
  · rename_i hm
    exact replace_wp E k h hm
  · rename_i p hm
    unfold handleKeyDeleteOrChange
    rw [wp_bind, wp_getK, if_neg (by simp [hkm, hkc]), if_neg, if_neg (by simp [hkc])]
    · exact wp_mono ab (fun _ _ h => ⟨h.1, by rw [h.2]⟩) (fun _ _ h => h) (fun _ h => h)
    · rcases hk with rfl | ⟨rfl, _⟩ <;> simp
  · rename_i m hm
    unfold handleKeyMoveToChar
    rw [wp_bind, wp_getK, wp_bind, wp_modK]
    have : resolveMove k (.dir m) t.1.lastCharMovement = none := by
      rcases hk with rfl | ⟨rfl, _⟩ <;> simp [resolveMove]
    rw [this]
    exact wp_mono (normalModeAbort_wp E (t := ({ t.1 with count := 0 }, t.2)) h.esc.last)
      (fun _ _ h => ⟨h.1, by rw [h.2]⟩) (fun _ _ h => h) (fun _ h => h)
  · rename_i hm
    unfold handleKeyG
    rw [wp_bind, wp_getK, wp_bind, wp_modK]
    dsimp only
    rw [if_neg (hkc _), if_neg (hkc _), wp_bind]
    refine wp_mono (normalModeAbort_wp E
      (t := ({ t.1 with currentCommand := t.1.currentCommand ++ [k] }, t.2)) h.esc.last)
      (fun _ t2 h2 => ?_) (fun _ _ h => h) (fun _ h => h)
    rw [wp_modK]
    exact ⟨h2.1.modK rfl ⟨h2.1.esc.last, h2.1.esc.cur⟩, by rw [h2.2]⟩
  · trivial

end
end Vi
end Liner
