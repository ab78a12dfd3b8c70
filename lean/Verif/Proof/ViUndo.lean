import Verif.Proof.ViEdit
import Verif.Proof.Log
/-
What the vi commands leave in the undo log.
-/

namespace Liner
namespace Editor
open Liner.Spec

/-- The log of the current line grew by a list of actions (most recent first) with a property. -/
structure Grew (P : List Action → Prop) (s s' : Ed) : Prop where
  quiet : s'.isSearch = false
  log : ∀ b, workBuf s = some b → ∃ b' es, workBuf s' = some b' ∧ P es ∧
    b'.actions = es ++ b.actions ∧ Path es b.data b'.data

/-- Nothing, one edit at most, only edits. -/
def Nothing (es : List Action) : Prop := es = []
def Single (es : List Action) : Prop := es = [] ∨ ∃ a, a.isEdit = true ∧ es = [a]
def Plainly (es : List Action) : Prop := ∀ a ∈ es, a.isEdit = true

theorem Grew.mono {P Q : List Action → Prop} {s s' : Ed} (h : Grew P s s') (hpq : ∀ es, P es → Q es) :
    Grew Q s s' :=
  ⟨h.quiet, fun b hb => by
    obtain ⟨b', es, h1, h2, h3⟩ := h.log b hb
    exact ⟨b', es, h1, hpq _ h2, h3⟩⟩

theorem Grew.trans {P Q R : List Action → Prop} {a b c : Ed} (h1 : Grew P a b) (h2 : Grew Q b c)
    (hr : ∀ x y, P x → Q y → R (y ++ x)) : Grew R a c := by
  refine ⟨h2.quiet, fun w hw => ?_⟩
  obtain ⟨b1, e1, g1, g2, g3, g4⟩ := h1.log w hw
  obtain ⟨b2, e2, k1, k2, k3, k4⟩ := h2.log b1 g1
  refine ⟨b2, e2 ++ e1, k1, hr _ _ g2 k2, by rw [k3, g3, List.append_assoc], ?_⟩
  exact g4.append k4

theorem Grew.same {s s' : Ed} (hq : s'.isSearch = false) (hw : workBuf s' = workBuf s) :
    Grew Nothing s s' :=
  ⟨hq, fun b hb => ⟨b, [], by rw [hw, hb], rfl, rfl, .nil _⟩⟩

theorem Grew.refl {s : Ed} (hq : s.isSearch = false) : Grew Nothing s s := .same hq rfl

/-- A buffer operation that is one edit or nothing. -/
def EditOk {α : Type} (f : Buffer → Option (α × Buffer)) : Prop :=
  ∀ b a b', f b = some (a, b') → ∃ es, Single es ∧ b'.actions = es ++ b.actions ∧ Path es b.data b'.data

theorem editOk_of {b b' : Buffer} (e : Edit) (hr : runEdit b e = some b') (ha : e.apply b.data ≠ none) :
    ∃ es, Single es ∧ b'.actions = es ++ b.actions ∧ Path es b.data b'.data := by
  obtain ⟨x, hx⟩ := Option.ne_none_iff_exists'.mp ha
  obtain ⟨a, h1, h2, h3⟩ := runEdit_spec b e x hx
  rw [hr] at h3; cases h3
  exact ⟨[a], .inr ⟨a, h1, rfl⟩, rfl, .cons (.nil _) h2⟩

theorem remove_editOk {b b' : Buffer} {i j n : Nat} (h : b.remove i j = some (n, b')) :
    ∃ es, Single es ∧ b'.actions = es ++ b.actions ∧ Path es b.data b'.data := by
  refine editOk_of (.remove i j) (by simp [runEdit, h]) ?_
  intro hn
  have := (Props.C01_remove_panics_iff b i j).mpr (by
    simp only [Edit.apply, ite_eq_right_iff, reduceCtorEq, imp_false] at hn; omega)
  rw [this] at h; cases h

theorem editOk_remove (i j : Nat) : EditOk (fun b => b.remove i j) := fun _ _ _ h => remove_editOk h

theorem editOk_truncate (i : Nat) : EditOk (noRes fun b => b.truncate i) := by
  intro b a b' h
  simp only [noRes, Buffer.truncate, Option.map_map, Option.map_eq_some_iff] at h
  obtain ⟨⟨n, w⟩, h, he⟩ := h
  cases he
  exact remove_editOk h

theorem editOk_removeNext (i : Nat) : EditOk (fun b =>
    if i < b.numChars then (b.remove i (i + 1)).map ((), ·.2) else some ((), b)) := by
  intro b a b' h
  dsimp only at h
  split at h
  · rw [Option.map_eq_some_iff] at h
    obtain ⟨⟨n, w⟩, h, he⟩ := h
    cases he
    exact remove_editOk h
  · cases h; exact ⟨[], .inl rfl, rfl, .nil _⟩

theorem editOk_insert (i : Nat) (c : Char) : EditOk (noRes fun b => b.insert i [c]) := by
  intro b a b' h
  simp only [noRes, Option.map_eq_some_iff] at h
  obtain ⟨w, h, he⟩ := h
  cases he
  refine editOk_of (.insert i [c]) h ?_
  intro hn
  simp only [Edit.apply, ite_eq_right_iff, reduceCtorEq, imp_false] at hn
  rw [(Props.C01_insert_panics_iff b i [c]).mpr (by simp; omega)] at h
  cases h

/-- An operation outside a search by which the log grows. -/
def Gw {α : Type} (P : List Action → Prop) (m : EdM α) : Prop :=
  ∀ s, s.isSearch = false → Wp m s (fun _ s' => Grew P s s') (fun _ _ => True) (fun _ => True)

section
variable {α β : Type}

theorem gw_mono {P Q : List Action → Prop} {m : EdM α} (h : Gw P m) (hpq : ∀ es, P es → Q es) : Gw Q m :=
  fun s hs => wp_mono (h s hs) (fun _ _ h' => h'.mono hpq) (fun _ _ h => h) (fun _ h => h)

theorem gw_bind {P Q R : List Action → Prop} {m : EdM α} {f : α → EdM β} (h1 : Gw P m) (h2 : ∀ a, Gw Q (f a))
    (hr : ∀ x y, P x → Q y → R (y ++ x)) : Gw R (m >>= f) := by
  intro s hs
  rw [wp_bind]
  refine wp_mono (h1 s hs) (fun a s1 h => ?_) (fun _ _ h => h) (fun _ h => h)
  exact wp_mono (h2 a s1 h.quiet) (fun _ _ h' => h.trans h' hr) (fun _ _ h' => h') (fun _ h => h)

theorem gw_quiet {P : List Action → Prop} {m : EdM α} {f : α → EdM β} (h1 : Gw Nothing m) (h2 : ∀ a, Gw P (f a)) :
    Gw P (m >>= f) := gw_bind h1 h2 (fun x y hx hy => by rw [hx, List.append_nil]; exact hy)

theorem gw_then {P : List Action → Prop} {m : EdM α} {f : α → EdM β} (h1 : Gw P m) (h2 : ∀ a, Gw Nothing (f a)) :
    Gw P (m >>= f) := gw_bind h1 h2 (fun x y hx hy => by rw [hy]; exact hx)

theorem gw_pure (a : α) : Gw Nothing (pure a : EdM α) := fun _ hs => .refl hs
theorem gw_get : Gw Nothing (M.get : EdM Ed) := fun _ hs => .refl hs
theorem gw_panic {P : List Action → Prop} : Gw P (M.panic : EdM α) := fun _ _ => trivial
theorem gw_modify {f : Ed → Ed} (h : ∀ s, s.isSearch = false → (f s).isSearch = false)
    (hw : ∀ s, workBuf (f s) = workBuf s) : Gw Nothing (M.modify f) := fun s hs => .same (h s hs) (hw s)
theorem gw_ite {P : List Action → Prop} {c : Prop} [Decidable c] {a b : EdM α} (ha : Gw P a) (hb : Gw P b) :
    Gw P (if c then a else b) := by split <;> assumption
theorem gw_ofOption (o : Option α) : Gw Nothing (M.ofOption o : EdM α) := by
  intro s hs
  rw [wp_ofOption]
  exact ⟨fun _ _ => .refl hs, fun _ => trivial⟩
theorem gw_curBuf : Gw Nothing curBuf := by
  intro s hs
  rw [wp_curBuf]
  exact ⟨fun _ _ => .refl hs, fun _ => trivial⟩

theorem setCur_workBuf (s : Ed) (b : Buffer) : workBuf (setCur s b) = some b := by
  unfold setCur workBuf
  cases h : s.curHistoryLoc <;> simp

theorem setCur_quiet (s : Ed) (b : Buffer) : (setCur s b).isSearch = s.isSearch := by
  unfold setCur
  split <;> rfl

theorem gw_curBufMut {f : Buffer → Option (α × Buffer)} {P : List Action → Prop}
    (hf : ∀ b a b', f b = some (a, b') → ∃ es, P es ∧ b'.actions = es ++ b.actions ∧ Path es b.data b'.data) :
    Gw P (curBufMut f) := by
  intro s hs
  rw [wp_curBufMut]
  refine ⟨fun b a b' hb hf' => ⟨by rw [setCur_quiet]; exact hs, fun w hw => ?_⟩, fun _ => trivial⟩
  rw [hb] at hw; cases hw
  obtain ⟨es, h1, h2, h3⟩ := hf b a b' hf'
  exact ⟨b', es, setCur_workBuf _ _, h1, h2, h3⟩

theorem workBuf_same {s s' : Ed} (h1 : s'.curHistoryLoc = s.curHistoryLoc) (h2 : s'.histBufValid = s.histBufValid)
    (h3 : s'.histBuf = s.histBuf) (h4 : s'.history = s.history) (h5 : s'.newBuf = s.newBuf) :
    workBuf s' = workBuf s := by
  unfold workBuf
  rw [h1, h2, h3, h4, h5]

theorem gw_display (E : Env) : Gw Nothing (display E) := by
  intro s hs
  refine wp_mono (display_wp E s) (fun _ s' h => ?_) (fun _ s' h => trivial) (fun _ _ => trivial)
  obtain ⟨b', o', hb', ho', l', c, ou, t, rfl⟩ := h.ex
  rw [pre_quiet hs]
  exact .same hs (workBuf_same rfl rfl rfl rfl rfl)

end

/-- Go through the program text of an operation that edits nothing. -/
macro "gw" : tactic => `(tactic| repeat' (first
  | with_reducible exact gw_display _
  | with_reducible exact gw_curBuf
  | with_reducible exact gw_get
  | with_reducible exact gw_panic
  | with_reducible exact gw_pure _
  | with_reducible exact gw_ofOption _
  | with_reducible assumption
  | with_reducible apply gw_quiet
  | with_reducible apply gw_ite
  | ((with_reducible apply gw_modify); (intro s hs; first | exact hs | rfl); (intro s; exact workBuf_same rfl rfl rfl rfl rfl))
  | with_reducible intro _
  | split
  | dsimp only))

section
variable (E : Env)

theorem gw_left (n : Nat) : Gw Nothing (moveCursorLeft E n) := by unfold moveCursorLeft; gw
theorem gw_right (n : Nat) : Gw Nothing (moveCursorRight E n) := by unfold moveCursorRight; gw
theorem gw_to (n : Nat) : Gw Nothing (moveCursorTo E n) := by unfold moveCursorTo; gw
theorem gw_home : Gw Nothing (moveCursorToStartOfLine E) := by unfold moveCursorToStartOfLine; gw
theorem gw_end : Gw Nothing (moveCursorToEndOfLine E) := by unfold moveCursorToEndOfLine; gw
theorem gw_clear : Gw Nothing (clear E) := by unfold clear clearSearch; gw
theorem gw_insert (c : Char) : Gw Single (insertCharsAfterCursor E [c]) := by
  unfold insertCharsAfterCursor
  exact gw_quiet gw_get fun s => gw_then (gw_curBufMut (editOk_insert s.cursor c)) fun _ => by gw
theorem gw_deleteAfter : Gw Single (deleteAfterCursor E) := by
  unfold deleteAfterCursor
  exact gw_quiet gw_get fun s => gw_then (gw_curBufMut (editOk_removeNext s.cursor)) fun _ => by gw
theorem gw_deleteBefore : Gw Single (deleteBeforeCursor E) := by
  unfold deleteBeforeCursor
  refine gw_quiet gw_get fun s => ?_
  dsimp only
  split
  · exact gw_then (gw_curBufMut (editOk_remove _ _)) fun _ => by gw
  · exact gw_mono (gw_display E) fun es h => .inl h
theorem gw_deleteAllAfter : Gw Single (deleteAllAfterCursor E) := by
  unfold deleteAllAfterCursor
  exact gw_quiet gw_get fun s => gw_then (gw_curBufMut (editOk_truncate s.cursor)) fun _ => by gw
theorem gw_deleteUntil (p : Nat) : Gw Single (deleteUntil E p) := by
  unfold deleteUntil
  exact gw_quiet gw_get fun s => gw_then (gw_curBufMut (editOk_remove _ _)) fun _ => by gw
theorem gw_deleteUntilInclusive (p : Nat) : Gw Single (deleteUntilInclusive E p) := by
  unfold deleteUntilInclusive
  exact gw_quiet gw_get fun s => gw_then (gw_curBufMut (editOk_remove _ _)) fun _ => by gw
end
end Editor

namespace Vi
open Liner.Spec Liner.Editor M KM

/-- The same for the operations of the key map. -/
def KG {α : Type} (P : List Action → Prop) (m : ViM α) : Prop :=
  ∀ t, t.2.isSearch = false → Wp m t (fun _ t' => Grew P t.2 t'.2) T2 T1

section
variable {α β : Type}

theorem kg_mono {P Q : List Action → Prop} {m : ViM α} (h : KG P m) (hpq : ∀ es, P es → Q es) : KG Q m :=
  fun s hs => wp_mono (h s hs) (fun _ _ h' => h'.mono hpq) (fun _ _ h => h) (fun _ h => h)

theorem kg_bind {P Q R : List Action → Prop} {m : ViM α} {f : α → ViM β} (h1 : KG P m) (h2 : ∀ a, KG Q (f a))
    (hr : ∀ x y, P x → Q y → R (y ++ x)) : KG R (m >>= f) := by
  intro s hs
  rw [wp_bind]
  refine wp_mono (h1 s hs) (fun a s1 h => ?_) (fun _ _ h => h) (fun _ h => h)
  exact wp_mono (h2 a s1 h.quiet) (fun _ _ h' => h.trans h' hr) (fun _ _ h' => h') (fun _ h => h)

theorem kg_quiet {P : List Action → Prop} {m : ViM α} {f : α → ViM β} (h1 : KG Nothing m) (h2 : ∀ a, KG P (f a)) :
    KG P (m >>= f) := kg_bind h1 h2 (fun x y hx hy => by rw [hx, List.append_nil]; exact hy)

theorem kg_then {P : List Action → Prop} {m : ViM α} {f : α → ViM β} (h1 : KG P m) (h2 : ∀ a, KG Nothing (f a)) :
    KG P (m >>= f) := kg_bind h1 h2 (fun x y hx hy => by rw [hy]; exact hx)

theorem kg_pure (a : α) : KG Nothing (pure a : ViM α) := fun _ hs => .refl hs
theorem kg_panic {P : List Action → Prop} : KG P (M.panic : ViM α) := fun _ _ => trivial
theorem kg_getK : KG Nothing (getK : ViM Vi) := fun _ hs => .refl hs
theorem kg_modK (f : Vi → Vi) : KG Nothing (modK f : ViM Unit) := fun _ hs => .refl hs
theorem kg_popStack : KG Nothing popStack := fun _ hs => .refl hs
theorem kg_ite {P : List Action → Prop} {c : Prop} [Decidable c] {a b : ViM α} (ha : KG P a) (hb : KG P b) :
    KG P (if c then a else b) := by split <;> assumption
theorem kg_ed {P : List Action → Prop} {m : EdM α} (h : Gw P m) : KG P (ed m : ViM α) := by
  intro t ht
  rw [wp_ed]
  exact h t.2 ht
end

theorem gw_onBuf (f : Buffer → Buffer) (a : Action) (he : ∀ d, Effect a d d)
    (hf : ∀ b, (f b).data = b.data ∧ (f b).actions = a :: b.actions) :
    Gw (fun es => es = [a]) (onBuf f) := by
  refine gw_curBufMut fun b _ b' h => ?_
  cases h
  exact ⟨[a], rfl, by rw [(hf b).2]; rfl, by rw [(hf b).1]; exact .cons (.nil _) (he _)⟩

theorem gw_startGroup : Gw (fun es => es = [.startGroup]) (onBuf Buffer.startUndoGroup) :=
  gw_onBuf _ _ (fun d => .startGroup d) fun _ => ⟨rfl, rfl⟩
theorem gw_endGroup : Gw (fun es => es = [.endGroup]) (onBuf Buffer.endUndoGroup) :=
  gw_onBuf _ _ (fun d => .endGroup d) fun _ => ⟨rfl, rfl⟩

/-- Go through the program text of an operation that edits nothing. -/
macro "kg" : tactic => `(tactic| repeat' (first
  | with_reducible exact kg_getK
  | with_reducible exact kg_modK _
  | with_reducible exact kg_pure _
  | with_reducible exact kg_panic
  | with_reducible exact kg_popStack
  | with_reducible assumption
  | with_reducible apply kg_quiet
  | with_reducible apply kg_ite
  | ((with_reducible apply kg_ed); gw)
  | with_reducible intro _
  | split
  | dsimp only))

section
variable (E : Env)

theorem kg_noEol (b : Bool) : KG Nothing (setNoEol b) := by unfold setNoEol; kg
theorem kg_viMode (m : ViPromptMode) : KG Nothing (ed (setViMode m) : ViM Unit) := by
  refine kg_ed (gw_modify (fun s hs => ?_) fun s => ?_)
  · split <;> exact hs
  · split <;> exact workBuf_same rfl rfl rfl rfl rfl
theorem kg_editorMode : KG Nothing (setEditorMode E) := by
  have h1 := kg_viMode .insert
  have h2 := kg_viMode .normal
  unfold setEditorMode
  kg
theorem kg_push {m : Mode} (h1 : m ≠ .insert) (h2 : m ≠ .tilde) : KG Nothing (setMode E m) := by
  have h3 := kg_noEol
  have h4 := kg_editorMode E
  unfold setMode setModePreserveLast
  refine kg_quiet (kg_quiet (h3 _) fun _ => kg_quiet (kg_modK _) fun _ => kg_quiet h4 fun _ => ?_) fun _ => ?_
  · rw [if_neg (by simp [h1, h2])]; exact kg_pure _
  · rw [if_neg h1]; exact kg_pure _
theorem kg_open' {m : Mode} (h1 : m = .insert ∨ m = .tilde) :
    KG (fun es => es = [.startGroup]) (setModePreserveLast E m) := by
  have h3 := kg_noEol
  have h4 := kg_editorMode E
  unfold setModePreserveLast
  refine kg_quiet (h3 _) fun _ => kg_quiet (kg_modK _) fun _ => kg_quiet h4 fun _ => ?_
  rw [if_pos h1]
  exact kg_ed gw_startGroup
theorem kg_open {m : Mode} (h1 : m = .insert ∨ m = .tilde) :
    KG (fun es => es = [.startGroup]) (setMode E m) := by
  unfold setMode
  exact kg_then (kg_open' E h1) fun _ => by kg
theorem kg_abort : KG Nothing (normalModeAbort E) := by
  have h3 := kg_noEol
  have h4 := kg_editorMode E
  unfold normalModeAbort
  exact kg_quiet (kg_modK _) fun _ => kg_quiet (h3 _) fun _ => kg_quiet (kg_modK _) fun _ => h4
theorem kg_popMove (i : Bool) : KG Single (popModeAfterMovement E i) := by
  have h3 := kg_noEol
  have h4 := kg_editorMode E
  have h5 : ∀ m : Mode, KG Nothing (do
    if m = .normal then modK fun v => { v with count := 0 } else pure ()
    setEditorMode E : ViM Unit) := fun m => by kg
  unfold popModeAfterMovement
  refine kg_quiet kg_popStack fun m => kg_quiet kg_getK fun v => ?_
  dsimp only
  have rest : ∀ last : Mode, KG Single (do
      let v ← getK
      setNoEol (v.mode = .normal)
      modK fun v => { v with movementReset := v.mode ≠ .insert }
      match last with
      | .delete startPos =>
        if i then ed (Editor.deleteUntilInclusive E startPos)
        else ed (Editor.deleteUntil E startPos)
        modK fun v => { v with lastCommand := v.currentCommand, currentCommand := v.lastCommand,
                               lastInsert := v.currentInsert, lastCount := v.count,
                               count := 0, secondaryCount := 0 }
      | _ => pure ()
      if m = .normal then modK fun v => { v with count := 0 } else pure ()
      setEditorMode E : ViM Unit) := by
    intro last
    refine kg_quiet kg_getK fun v => kg_quiet (h3 _) fun _ => kg_quiet (kg_modK _) fun _ => ?_
    cases last with
    | delete p =>
      dsimp only
      exact kg_ite (kg_then (kg_ed (gw_deleteUntilInclusive E _)) fun _ => kg_quiet (kg_modK _) fun _ => h5 m)
        (kg_then (kg_ed (gw_deleteUntil E _)) fun _ => kg_quiet (kg_modK _) fun _ => h5 m)
    | _ => exact kg_mono (h5 m) fun es h => .inl h
  split
  · exact kg_quiet kg_popStack rest
  · exact kg_quiet (kg_pure _) rest

/-- Without an operator a movement edits nothing. -/
theorem popMove_free (i : Bool) {t : Vi × Ed} (hq : t.2.isSearch = false) (hf : ∀ p, Mode.delete p ∉ t.1.modeStack) :
    Wp (popModeAfterMovement E i) t (fun _ t' => Grew Nothing t.2 t'.2) T2 T1 := by
  have h3 := kg_noEol
  have h4 := kg_editorMode E
  have hh : ∀ p, t.1.modeStack.headD .normal ≠ .delete p := by
    intro p he
    cases hm : t.1.modeStack with
    | nil => rw [hm] at he; cases he
    | cons a as => rw [hm] at he; exact hf p (by rw [hm, ← he]; simp)
  have ht : ∀ p, t.1.modeStack.tail.headD .normal ≠ .delete p := by
    intro p he
    cases hm : t.1.modeStack with
    | nil => rw [hm] at he; cases he
    | cons a as =>
      cases has : as with
      | nil => rw [hm, has] at he; cases he
      | cons c cs => rw [hm, has] at he; exact hf p (by rw [hm, has, ← he]; simp)
  unfold popModeAfterMovement
  rw [wp_bind, wp_popStack, wp_bind, wp_getK]
  dsimp only
  split
  · rename_i p hp
    exact absurd hp (ht p)
  · rw [wp_bind, wp_pure]
    generalize t.1.modeStack.headD .normal = last at hh
    have key : KG Nothing (do
        let v ← getK
        setNoEol (v.mode = .normal)
        modK fun v => { v with movementReset := v.mode ≠ .insert }
        match last with
        | .delete startPos =>
          if i then ed (Editor.deleteUntilInclusive E startPos)
          else ed (Editor.deleteUntil E startPos)
          modK fun v => { v with lastCommand := v.currentCommand, currentCommand := v.lastCommand,
                                 lastInsert := v.currentInsert, lastCount := v.count,
                                 count := 0, secondaryCount := 0 }
        | _ => pure ()
        if last = .normal then modK fun v => { v with count := 0 } else pure ()
        setEditorMode E : ViM Unit) := by
      refine kg_quiet kg_getK fun v => kg_quiet (h3 _) fun _ => kg_quiet (kg_modK _) fun _ => ?_
      cases last with
      | delete p => exact absurd rfl (hh p)
      | _ => kg
    exact key ({ t.1 with modeStack := t.1.modeStack.tail }, t.2) hq

/-- One undoable unit: nothing, an edit, or a closed group of edits. -/
def Done (es : List Action) : Prop :=
  Single es ∨ ∃ xs, Plainly xs ∧ es = .endGroup :: (xs ++ [.startGroup])

/-- A group that is still open. -/
def Opened (es : List Action) : Prop := ∃ xs, Plainly xs ∧ es = xs ++ [.startGroup]

theorem _root_.Liner.Editor.Single.plainly {es : List Action} (h : Single es) : Plainly es := by
  rcases h with rfl | ⟨a, h, rfl⟩
  · intro a ha; cases ha
  · intro x hx; rw [List.mem_singleton.1 hx]; exact h

theorem _root_.Liner.Editor.Plainly.append {x y : List Action} (hx : Plainly x) (hy : Plainly y) : Plainly (y ++ x) := by
  intro a ha
  rcases List.mem_append.1 ha with ha | ha
  · exact hy a ha
  · exact hx a ha

theorem Opened.append {x y : List Action} (hx : Opened x) (hy : Plainly y) : Opened (y ++ x) := by
  obtain ⟨xs, h1, rfl⟩ := hx
  exact ⟨y ++ xs, h1.append hy, by simp⟩

theorem opened_nil : Opened [.startGroup] := ⟨[], (by intro a ha; cases ha), rfl⟩

theorem Opened.close {x : List Action} (hx : Opened x) : Done ([.endGroup] ++ x) := by
  obtain ⟨xs, h1, rfl⟩ := hx
  exact .inr ⟨xs, h1, rfl⟩

theorem kg_repeatN {m : ViM Unit} (h : KG Plainly m) : ∀ n, KG Plainly (repeatN n m)
  | 0 => kg_mono (kg_pure ()) fun es h => by rw [h]; intro a ha; cases ha
  | n + 1 => kg_bind h (fun _ => kg_repeatN h n) fun _ _ hx hy => hx.append hy

theorem gw_insertEach : ∀ cs, Gw Plainly (insertEach E cs)
  | [] => gw_mono (gw_pure ()) fun es h => by rw [h]; intro a ha; cases ha
  | c :: cs => gw_bind (gw_insert E c) (fun _ => gw_insertEach cs) fun _ _ hx hy => hx.plainly.append hy

theorem gw_tilde : Gw Plainly (tildeStep E) := by
  have h1 : ∀ cs, Gw Plainly (do deleteAfterCursor E; insertEach E cs : EdM Unit) := fun cs =>
    gw_bind (gw_deleteAfter E) (fun _ => gw_insertEach E cs) fun _ _ hx hy => hx.plainly.append hy
  unfold tildeStep
  refine gw_quiet gw_curBuf fun b => gw_quiet gw_get fun s => gw_quiet (gw_ofOption _) fun c => ?_
  exact gw_ite (h1 _) (gw_ite (h1 _) (gw_mono (gw_right E 1) fun es h => by rw [h]; intro a ha; cases ha))

theorem gw_replace (c : Char) : Gw Plainly (replaceStep E c) :=
  gw_bind (gw_deleteAfter E) (fun _ => gw_insert E c) fun _ _ hx hy => hx.plainly.append hy.plainly

theorem gw_displayUnwrap : Gw Nothing (displayUnwrap E) := by
  intro s hs
  have := gw_display E s hs
  unfold Wp at this ⊢
  unfold displayUnwrap
  cases hd : display E s with
  | ok a s' => rw [hd] at this; exact this
  | err x s' => trivial
  | panic w => trivial

theorem kg_countRight : KG Nothing moveCountRight := by unfold moveCountRight; kg
theorem kg_countLeft : KG Nothing moveCountLeft := by unfold moveCountLeft; kg

theorem gw_moveWord (kw r : Bool) (n : Nat) : Gw Nothing (moveWord E kw r n) := by
  have := gw_to E
  unfold moveWord
  refine gw_quiet gw_get fun s => ?_
  dsimp only
  exact gw_ite (gw_quiet (gw_pure _) fun b => this _) (gw_quiet gw_curBuf fun b => this _)

theorem gw_moveWordEnd (kw r : Bool) (n : Nat) : Gw Nothing (moveWordEnd E kw r n) := by
  have := gw_to E
  unfold moveWordEnd
  refine gw_quiet gw_get fun s => ?_
  dsimp only
  exact gw_ite (gw_quiet (gw_pure _) fun b => this _) (gw_quiet gw_curBuf fun b => this _)

/-- Leaving a mode ends its group. -/
theorem popMode_grew {t : Vi × Ed} {m : Mode} {base : List Mode} (hv : t.1.modeStack = m :: base)
    (hq : t.2.isSearch = false) :
    Wp (popMode E) t (fun _ t' => Grew (fun es => es = if m = .insert ∨ m = .tilde then [.endGroup] else []) t.2 t'.2) T2 T1 := by
  obtain ⟨v, s⟩ := t
  have h0 := popMode_eq (s := s) E hv
  unfold Wp
  rw [h0]
  have h3 := kg_noEol
  have h4 := kg_editorMode E
  have h5 := gw_displayUnwrap E
  have h6 : KG (fun es => es = if m = .insert ∨ m = .tilde then [.endGroup] else []) (do
      let v ← getK
      setNoEol (v.mode = .normal)
      modK fun v => { v with movementReset := v.mode ≠ .insert }
      if m = .insert ∨ m = .tilde then ed (onBuf Buffer.endUndoGroup) else pure ()
      if m = .tilde then ed (displayUnwrap E) else pure ()
      setEditorMode E : ViM Unit) := by
    have h7 : KG Nothing (do
      if m = .tilde then ed (displayUnwrap E) else pure ()
      setEditorMode E : ViM Unit) := by
      dsimp only
      exact kg_ite (kg_quiet (kg_ed h5) fun _ => h4) h4
    refine kg_quiet kg_getK fun v => kg_quiet (h3 _) fun _ => kg_quiet (kg_modK _) fun _ => ?_
    by_cases hm : m = .insert ∨ m = .tilde
    · simp only [if_pos hm]
      exact kg_then (kg_ed gw_endGroup) fun _ => h7
    · simp only [if_neg hm]
      exact h7
  exact h6 ({ v with modeStack := base }, s) hq

/-! ### The state of the key map alone -/

/-- The operation changes the state of the key map by a function. -/
def Vx {α : Type} (m : ViM α) (f : Vi → Vi) : Prop := ∀ t, Wp m t (fun _ t' => t'.1 = f t.1) T2 T1

theorem vx_bind {α β : Type} {m : ViM α} {k : α → ViM β} {f g : Vi → Vi} (h1 : Vx m f) (h2 : ∀ a, Vx (k a) g) :
    Vx (m >>= k) (fun v => g (f v)) := by
  intro t
  rw [wp_bind]
  refine wp_mono (h1 t) (fun a t1 h => ?_) (fun _ _ h => h) (fun _ h => h)
  show Wp _ _ (fun _ (t' : Vi × Ed) => t'.1 = g (f t.1)) _ _
  rw [← h]
  exact h2 a t1

theorem vx_ed {α : Type} (m : EdM α) : Vx (ed m) id := fun t => ed_fst m t
theorem vx_modK (f : Vi → Vi) : Vx (modK f) f := fun t => by rw [wp_modK]
theorem vx_pure {α : Type} (a : α) : Vx (pure a : ViM α) id := fun _ => rfl
theorem vx_editorMode : Vx (setEditorMode E) id := by
  intro t
  unfold setEditorMode
  rw [wp_bind, wp_getK]
  split
  · exact vx_bind (vx_ed _) (fun _ => vx_ed _) t
  · exact vx_bind (vx_ed _) (fun _ => vx_ed _) t
  · exact vx_pure () t

theorem vx_setPreserve (m : Mode) :
    Vx (setModePreserveLast E m) (fun v => { v with movementReset := m ≠ .insert, modeStack := m :: v.modeStack }) := by
  unfold setModePreserveLast
  refine vx_bind (g := fun v => { v with movementReset := m ≠ .insert, modeStack := m :: v.modeStack })
    (vx_ed _) fun _ => vx_bind (g := id) (vx_modK _) fun _ => vx_bind (g := id) (vx_editorMode E) fun _ => ?_
  split
  · exact vx_ed _
  · exact vx_pure _

theorem vx_set {m : Mode} (h : m ≠ .insert) :
    Vx (setMode E m) (fun v => { v with movementReset := true, modeStack := m :: v.modeStack }) := by
  have h1 := vx_setPreserve E m
  simp only [h, ne_eq, not_false_eq_true, decide_true] at h1
  unfold setMode
  refine vx_bind (g := id) h1 fun _ => ?_
  rw [if_neg h]
  exact vx_pure _

theorem vx_setInsert :
    Vx (setMode E .insert) (fun v => { v with movementReset := false, modeStack := .insert :: v.modeStack, lastCount := 0, lastCommand := [] }) := by
  have h1 := vx_setPreserve E .insert
  unfold setMode
  refine vx_bind (g := fun v => { v with lastCount := 0, lastCommand := [] }) h1 fun _ => ?_
  rw [if_pos rfl]
  exact vx_modK _

theorem vx_abort : Vx (normalModeAbort E) (fun v => { v with modeStack := [], count := 0 }) := by
  unfold normalModeAbort
  exact vx_bind (g := fun v => { v with count := 0 }) (vx_modK _) fun _ => vx_bind (g := fun v => { v with count := 0 })
    (vx_ed _) fun _ => vx_bind (g := id) (vx_modK _) fun _ => vx_editorMode E

theorem vx_popMode : Vx (popMode E) popped := by
  intro t
  unfold popMode
  rw [wp_bind, wp_popStack, wp_bind, wp_getK]
  refine wp_mono (vx_bind (f := id) (g := fun v => { v with movementReset := v.mode ≠ .insert }) (vx_ed _)
    (fun _ => vx_bind (g := id) (vx_modK _) fun _ => ?_) _) (fun _ t' h => h) (fun _ _ h => h) (fun _ h => h)
  have h1 : Vx (do
      if t.1.modeStack.headD .normal = .tilde then ed (displayUnwrap E) else pure ()
      setEditorMode E : ViM Unit) id := by
    dsimp only
    split
    · exact vx_bind (g := id) (vx_ed _) fun _ => vx_editorMode E
    · exact vx_editorMode E
  dsimp only
  split
  · exact vx_bind (g := id) (vx_ed _) fun _ => h1
  · exact h1

theorem vx_count : Vx moveCountRight id := fun t =>
  wp_mono (countRight_wp t) (fun _ t' h => by rw [h]; rfl) (fun _ _ h => h) (fun _ h => h)

/-- After the movement of a change nothing is left to do but to type. -/
theorem popMove_v (i : Bool) {t : Vi × Ed} (hs : MoveStack t.1.modeStack) (he : NoEsc t.1) :
    Wp (popModeAfterMovement E i) t (fun _ t' => t'.1.modeStack = t.1.modeStack.filter (· = .insert) ∧
      (.insert ∈ t.1.modeStack → t'.1.movementReset = false ∧ t'.1.count = 0)) T2 T1 := by
  have h1 := popModeAfterMovement_wp E i hs he
  have h2 : Wp (popModeAfterMovement E i) t (fun _ t' =>
      (.insert ∈ t.1.modeStack → t'.1.movementReset = false ∧ t'.1.count = 0)) T2 T1 := by
    by_cases hi : Mode.insert ∈ t.1.modeStack
    · obtain ⟨v, s⟩ := t
      have fin : ∀ (m : Mode) (p : Nat) (v : Vi), v.modeStack = [.insert] →
          Wp (do
            let v ← getK
            setNoEol (v.mode = .normal)
            modK fun v => { v with movementReset := v.mode ≠ .insert }
            if i then ed (Editor.deleteUntilInclusive E p)
            else ed (Editor.deleteUntil E p)
            modK fun v => { v with lastCommand := v.currentCommand, currentCommand := v.lastCommand,
                                   lastInsert := v.currentInsert, lastCount := v.count,
                                   count := 0, secondaryCount := 0 }
            if m = .normal then modK fun v => { v with count := 0 } else pure ()
            setEditorMode E : ViM Unit) (v, s)
          (fun _ t' => t'.1.movementReset = false ∧ t'.1.count = 0) T2 T1 := by
        intro m p v hv
        rw [wp_bind, wp_getK]
        have hend : Vx (do
            if m = .normal then modK fun v => { v with count := 0 } else pure ()
            setEditorMode E : ViM Unit) (fun v => if m = .normal then { v with count := 0 } else v) := by
          intro t
          by_cases hm : m = .normal
          · simp only [if_pos hm]
            exact vx_bind (g := id) (vx_modK _) (fun _ => vx_editorMode E) t
          · simp only [if_neg hm]
            exact vx_editorMode E t
        have hdel : ∀ a : EdM Unit, Vx (do
            ed a
            modK fun v => { v with lastCommand := v.currentCommand, currentCommand := v.lastCommand,
                                   lastInsert := v.currentInsert, lastCount := v.count,
                                   count := 0, secondaryCount := 0 }
            if m = .normal then modK fun v => { v with count := 0 } else pure ()
            setEditorMode E : ViM Unit) _ := fun a =>
          vx_bind (vx_ed a) fun _ => vx_bind (vx_modK _) fun _ => hend
        rw [wp_bind]
        refine wp_mono (ed_fst _ _) (fun _ t1 g1 => ?_) (fun _ _ h => h) (fun _ h => h)
        rw [wp_bind, wp_modK]
        have hgo : ∀ a : EdM Unit, Wp (do
            ed a
            modK fun v => { v with lastCommand := v.currentCommand, currentCommand := v.lastCommand,
                                   lastInsert := v.currentInsert, lastCount := v.count,
                                   count := 0, secondaryCount := 0 }
            if m = .normal then modK fun v => { v with count := 0 } else pure ()
            setEditorMode E : ViM Unit) ({ t1.1 with movementReset := t1.1.mode ≠ .insert }, t1.2)
            (fun _ t' => t'.1.movementReset = false ∧ t'.1.count = 0) T2 T1 := by
          intro a
          refine wp_mono (hdel a _) (fun _ t' h' => ?_) (fun _ _ h => h) (fun _ h => h)
          rw [h', g1]
          dsimp only [id]
          split <;> simp [mode, hv]
        refine wp_cases (fun _ => ?_) fun _ => ?_
        · exact hgo _
        · exact hgo _
      have hstk : (∃ p, v.modeStack = [.delete p, .insert]) ∨
          (∃ m p, v.modeStack = [m, .delete p, .insert] ) := by
        dsimp only at hs hi
        rcases hs with hu | ⟨m, r, hr, hu⟩ | ⟨r, hr, hu⟩
        · rcases hu with hu | ⟨p, base, hu, rfl | rfl⟩
          · rw [hu] at hi; cases hi
          · rw [hu] at hi; simp at hi
          · exact .inl ⟨p, hu⟩
        · rcases hu with rfl | ⟨p, base, rfl, rfl | rfl⟩
          · rw [hr] at hi; simp at hi
          · rw [hr] at hi; simp at hi
          · exact .inr ⟨_, p, hr⟩
        · rcases hu with rfl | ⟨p, base, rfl, rfl | rfl⟩
          · rw [hr] at hi; simp at hi
          · rw [hr] at hi; simp at hi
          · exact .inr ⟨_, p, hr⟩
      unfold popModeAfterMovement
      rw [wp_bind, wp_popStack, wp_bind, wp_getK]
      rcases hstk with ⟨p, hv⟩ | ⟨m, p, hv⟩
      · simp only [hv, mode, List.headD_cons, List.tail_cons]
        have := fin (.delete p) p { v with modeStack := [.insert] } rfl
        exact wp_mono this (fun _ _ h _ => h) (fun _ _ h => h) (fun _ h => h)
      · simp only [hv, mode, List.headD_cons, List.tail_cons]
        have := fin m p { v with modeStack := [.insert] } rfl
        exact wp_mono this (fun _ _ h _ => h) (fun _ _ h => h) (fun _ h => h)
    · exact wp_mono (wp_trivial (m := popModeAfterMovement E i) (s := t)) (fun _ _ _ h => absurd h hi)
        (fun _ _ _ => trivial) (fun _ _ => trivial)
  exact wp_mono (wp_and h1 h2) (fun _ _ h => ⟨h.1.2, h.2⟩) (fun _ _ _ => trivial) (fun _ _ => trivial)

/-! ### What a key does to the stack and to the log -/

/-- Ready for typing: the keys remembered for a repetition are all typed ones. -/
def Fresh (v : Vi) : Prop := v.movementReset = false ∧ (v.count = 0 ∨ ∀ k ∈ v.lastCommand, Typing k)

/-- One edit at most, and that only if an operator is waiting. -/
def ByOp (st : List Mode) (es : List Action) : Prop := Single es ∧ ((∀ p, Mode.delete p ∉ st) → es = [])

/-- A movement was made. -/
def Moved (st : List Mode) (s : Ed) (t' : Vi × Ed) : Prop :=
  Grew (ByOp st) s t'.2 ∧ t'.1.modeStack = st.filter (· = .insert) ∧
    (.insert ∈ st → t'.1.movementReset = false ∧ t'.1.count = 0)

/-- Nothing was done to the text. -/
def Stayed (st : List Mode) (s : Ed) (t' : Vi × Ed) : Prop :=
  Grew Nothing s t'.2 ∧
    (t'.1.modeStack = [] ∨ t'.1.modeStack = st ∨ ∃ m, m ≠ .insert ∧ t'.1.modeStack = m :: st)

/-- A command was carried out. -/
def Carried (k : Key) (st : List Mode) (s : Ed) (t' : Vi × Ed) : Prop :=
  (.insert ∉ st ∧ (st = [] → isMovementKey k = false)) ∧ Grew Done s t'.2 ∧ t'.1.modeStack = []

/-- An insertion was begun. -/
def Began (st : List Mode) (s : Ed) (t' : Vi × Ed) : Prop :=
  st = [] ∧ Grew Opened s t'.2 ∧
    ((t'.1.modeStack = [.insert] ∧ Fresh t'.1) ∨ ∃ p, t'.1.modeStack = [.delete p, .insert])

def Out (k : Key) (st : List Mode) (s : Ed) (t' : Vi × Ed) : Prop :=
  Moved st s t' ∨ Stayed st s t' ∨ Carried k st s t' ∨ Began st s t'

theorem Out.key {k k' : Key} {st : List Mode} {s : Ed} {t' : Vi × Ed} (h : Out k st s t')
    (hk : isMovementKey k' = isMovementKey k) : Out k' st s t' := by
  rcases h with h | h | ⟨⟨h1, h2⟩, h3⟩ | h
  · exact .inl h
  · exact .inr (.inl h)
  · exact .inr (.inr (.inl ⟨⟨h1, fun hs => hk.trans (h2 hs)⟩, h3⟩))
  · exact .inr (.inr (.inr h))

/-- A movement was made, or nothing. -/
def Went (st : List Mode) (s : Ed) (t' : Vi × Ed) : Prop := Moved st s t' ∨ Stayed st s t'

theorem Went.out {k : Key} {st : List Mode} {s : Ed} {t' : Vi × Ed} (h : Went st s t') : Out k st s t' :=
  h.elim .inl fun h => .inr (.inl h)

theorem pop_moved (i : Bool) {t : Vi × Ed} (hq : t.2.isSearch = false) (hs : MoveStack t.1.modeStack)
    (he : NoEsc t.1) :
    Wp (popModeAfterMovement E i) t (fun _ t' => Moved t.1.modeStack t.2 t') T2 T1 :=
  by
  have h1 : Wp (popModeAfterMovement E i) t (fun _ t' => Grew (ByOp t.1.modeStack) t.2 t'.2) T2 T1 := by
    by_cases hf : ∀ p, Mode.delete p ∉ t.1.modeStack
    · exact wp_mono (popMove_free E i hq hf) (fun _ _ h => h.mono fun es h => ⟨.inl h, fun _ => h⟩)
        (fun _ _ h => h) (fun _ h => h)
    · exact wp_mono (kg_popMove E i t hq) (fun _ _ h => h.mono fun es h => ⟨h, fun h' => absurd h' hf⟩)
        (fun _ _ h => h) (fun _ h => h)
  exact wp_mono (wp_and h1 (popMove_v E i hs he)) (fun _ _ h => ⟨h.1, h.2.1, h.2.2⟩)
    (fun _ _ _ => trivial) (fun _ _ => trivial)

theorem Moved.after {st : List Mode} {s s1 : Ed} {t' : Vi × Ed} (h1 : Grew Nothing s s1) (h : Moved st s1 t') :
    Moved st s t' :=
  ⟨h1.trans h.1 fun x y hx hy => by rw [hx, List.append_nil]; exact hy, h.2.1, h.2.2⟩

theorem move_moved (i : Bool) {m : EdM Unit} (hm : Gw Nothing m) {t : Vi × Ed} (hq : t.2.isSearch = false)
    (hs : MoveStack t.1.modeStack) (he : NoEsc t.1) :
    Wp (do ed m; popModeAfterMovement E i : ViM Unit) t (fun _ t' => Moved t.1.modeStack t.2 t') T2 T1 := by
  rw [wp_bind]
  refine wp_mono (wp_and (kg_ed hm t hq) (ed_fst m t)) (fun _ t1 h1 => ?_) (fun _ _ _ => trivial)
    (fun _ _ => trivial)
  obtain ⟨h1, h2⟩ := h1
  refine wp_mono (pop_moved E i h1.quiet (by rw [h2]; exact hs) (by rw [h2]; exact he)) (fun _ t' h' => ?_)
    (fun _ _ h => h) (fun _ h => h)
  rw [h2] at h'
  exact h'.after h1

theorem abort_stayed {t : Vi × Ed} (hq : t.2.isSearch = false) (st : List Mode) :
    Wp (normalModeAbort E) t (fun _ t' => Stayed st t.2 t') T2 T1 :=
  wp_mono (wp_and (kg_abort E t hq) (vx_abort E t)) (fun _ _ h => ⟨h.1, .inl (by rw [h.2])⟩)
    (fun _ _ _ => trivial) (fun _ _ => trivial)

theorem push_stayed {m : Mode} (h1 : m ≠ .insert) (h2 : m ≠ .tilde) {t : Vi × Ed} (hq : t.2.isSearch = false) :
    Wp (setMode E m) t (fun _ t' => Stayed t.1.modeStack t.2 t') T2 T1 :=
  wp_mono (wp_and (kg_push E h1 h2 t hq) (vx_set E h1 t)) (fun _ _ h => ⟨h.1, .inr (.inr ⟨m, h1, by rw [h.2]⟩)⟩)
    (fun _ _ _ => trivial) (fun _ _ => trivial)

theorem moveToChar_went {t : Vi × Ed} (key : Key) (arg : MoveArg) (h : VI t) (hq : t.2.isSearch = false)
    (hs : MoveStack t.1.modeStack) :
    Wp (handleKeyMoveToChar E key arg) t (fun _ t' => Went t.1.modeStack t.2 t') T2 T1 := by
  unfold handleKeyMoveToChar
  rw [wp_bind, wp_getK, wp_bind, wp_modK]
  split
  · exact wp_mono (abort_stayed E (t := ({ t.1 with count := 0 }, t.2)) hq t.1.modeStack)
      (fun _ t' h => .inr h) (fun _ _ h => h) (fun _ h => h)
  · rename_i c m hr
    have rest : ∀ v1 : Vi, NoEsc v1 → v1.modeStack = t.1.modeStack →
        Wp (do
          let s ← ed get
          let b ← ed Editor.curBuf
          if !m.inclusive ∧ b.numChars < s.cursor then M.panic
          else
            match charTarget b.data s.cursor m c t.1.moveCount with
            | some i => ed (Editor.moveCursorTo E i)
            | none => pure ()
            popModeAfterMovement E m.inclusive : ViM Unit) (v1, t.2)
          (fun _ t' => Went t.1.modeStack t.2 t') T2 T1 := by
      intro v1 h1 h2
      rw [wp_bind, wp_ed, wp_get, wp_bind]
      refine wp_mono (edCurBuf_wp (v1, t.2)) ?_ (fun _ _ h => h) (fun _ h => h)
      rintro b t1 rfl
      split
      · trivial
      · split
        · rename_i i _
          have := move_moved E m.inclusive (gw_to E i) (t := (v1, t.2)) hq (by rw [h2]; exact hs) h1
          exact wp_mono this (fun _ t' h => .inl (by rw [← h2]; exact h)) (fun _ _ h => h) (fun _ h => h)
        · have := pop_moved E m.inclusive (t := (v1, t.2)) hq (by rw [h2]; exact hs) h1
          exact wp_mono this (fun _ t' h => .inl (by rw [← h2]; exact h)) (fun _ _ h => h) (fun _ h => h)
    dsimp only
    refine wp_cases (fun ha => ?_) (fun _ => ?_)
    · rw [wp_bind, wp_modK]
      refine rest _ ⟨h.esc.last, fun hp k hk' => ?_⟩ rfl
      dsimp only at hk'
      rcases List.mem_append.1 hk' with hk' | hk'
      · exact h.esc.cur hp k hk'
      · rw [List.mem_singleton] at hk'
        subst hk'
        cases arg with
        | dir m' =>
          cases k with
          | char c' => exact plain_char c'
          | _ => simp [resolveMove] at hr
        | «repeat» => cases ha
        | reverseRepeat => cases ha
    · exact rest _ ⟨h.esc.last, h.esc.cur⟩ rfl

theorem moveToChar_out {t : Vi × Ed} (key : Key) (arg : MoveArg) (h : VI t) (hq : t.2.isSearch = false)
    (hs : MoveStack t.1.modeStack) (k : Key) :
    Wp (handleKeyMoveToChar E key arg) t (fun _ t' => Out k t.1.modeStack t.2 t') T2 T1 :=
  wp_mono (moveToChar_went E key arg h hq hs) (fun _ _ h => h.out) (fun _ _ h => h) (fun _ h => h)

theorem Went.modK {st : List Mode} {s : Ed} {t : Vi × Ed} (h : Went st s t) {v : Vi} (hv : v = { t.1 with count := 0 }) :
    Went st s (v, t.2) := by
  subst hv
  rcases h with h | h
  · exact .inl ⟨h.1, h.2.1, fun hi => ⟨(h.2.2 hi).1, rfl⟩⟩
  · exact .inr h

theorem g_went {t : Vi × Ed} (key : Key) (h : VI t) (hq : t.2.isSearch = false) (hm : t.1.mode = .g) :
    Wp (handleKeyG E key) t (fun _ t' => Went t.1.modeStack t.2 t') T2 T1 := by
  obtain ⟨r, hs, hu⟩ := h.g hm
  have hms : MoveStack t.1.modeStack := .inr (.inr ⟨r, hs, hu⟩)
  unfold handleKeyG
  rw [wp_bind, wp_getK, wp_bind, wp_modK]
  have fin : ∀ t1 : Vi × Ed, Went t.1.modeStack t.2 t1 →
      Wp (modK fun v => { v with count := 0 } : ViM Unit) t1 (fun _ t' => Went t.1.modeStack t.2 t') T2 T1 := by
    intro t1 h1
    rw [wp_modK]
    exact h1.modK rfl
  have mv : ∀ m : EdM Unit, Gw Nothing m → Plain key → Wp (do
      ed m
      popModeAfterMovement E true
      modK fun v => { v with count := 0 } : ViM Unit)
      ({ t.1 with currentCommand := t.1.currentCommand ++ [key] }, t.2) (fun _ t' => Went t.1.modeStack t.2 t') T2 T1 := by
    intro m hm hp
    have := move_moved E true hm (t := ({ t.1 with currentCommand := t.1.currentCommand ++ [key] }, t.2)) hq hms
      ⟨h.esc.last, fun hp' k hk' => by
        rcases List.mem_append.1 hk' with hk' | hk'
        · exact h.esc.cur hp' k hk'
        · rw [List.mem_singleton.1 hk']; exact hp⟩
    rw [wp_bind] at this ⊢
    refine wp_mono this (fun _ t1 h1 => ?_) (fun _ _ h => h) (fun _ h => h)
    rw [wp_bind]
    exact wp_mono h1 (fun _ t2 h2 => fin t2 (.inl h2)) (fun _ _ h => h) (fun _ h => h)
  dsimp only
  refine wp_cases (fun hk => ?_) (fun _ => wp_cases (fun hk => ?_) (fun _ => ?_))
  · exact mv _ (gw_moveWord E _ _ _) (by rw [hk]; exact plain_char _)
  · exact mv _ (gw_moveWord E _ _ _) (by rw [hk]; exact plain_char _)
  · rw [wp_bind]
    exact wp_mono (abort_stayed E (t := ({ t.1 with currentCommand := t.1.currentCommand ++ [key] }, t.2)) hq t.1.modeStack)
      (fun _ t1 h1 => fin t1 (.inr h1)) (fun _ _ h => h) (fun _ h => h)

theorem g_out {t : Vi × Ed} (key : Key) (h : VI t) (hq : t.2.isSearch = false) (hm : t.1.mode = .g) (k : Key) :
    Wp (handleKeyG E key) t (fun _ t' => Out k t.1.modeStack t.2 t') T2 T1 :=
  wp_mono (g_went E key h hq hm) (fun _ _ h => h.out) (fun _ _ h => h) (fun _ h => h)

theorem replace_out {t : Vi × Ed} (key : Key) (h : VI t) (hq : t.2.isSearch = false) (hm : t.1.mode = .replace) :
    Wp (handleKeyReplace E key) t (fun _ t' => Out key t.1.modeStack t.2 t') T2 T1 := by
  have hs := h.replace hm
  have hst := replace_wp E key h hm
  suffices hg : Wp (handleKeyReplace E key) t (fun _ t' => Grew Done t.2 t'.2) T2 T1 from
    wp_mono (wp_and hst hg) (fun _ t' h => .inr (.inr (.inl ⟨⟨by simp [hs], by simp [hs]⟩, h.2, h.1.2⟩))) (fun _ _ _ => trivial)
      (fun _ _ => trivial)
  have nd : ∀ es, Nothing es → Done es := fun es h => .inl (.inl h)
  have fin : ∀ (P : List Action → Prop) (t1 : Vi × Ed), Grew P t.2 t1.2 →
      Wp (modK fun v => { v with count := 0 } : ViM Unit) t1 (fun _ t' => Grew P t.2 t'.2) T2 T1 := by
    intro P t1 h1
    rw [wp_modK]
    exact h1
  have fin' : ∀ t1 : Vi × Ed, Grew Done t.2 t1.2 → t1.1.modeStack = [.replace] → Wp (do
      popMode E
      modK fun v => { v with count := 0 } : ViM Unit) t1 (fun _ t' => Grew Done t.2 t'.2) T2 T1 := by
    intro t1 h1 h2
    rw [wp_bind]
    refine wp_mono (popMode_grew E h2 h1.quiet) (fun _ t2 h3 => fin Done t2 ?_) (fun _ _ h => h) (fun _ h => h)
    refine h1.trans h3 fun x y hx hy => ?_
    rw [hy]; simpa using hx
  unfold handleKeyReplace
  split
  · rename_i c
    rw [wp_bind]
    refine wp_mono (countRight_wp t) ?_ (fun _ _ h => h) (fun _ h => h)
    rintro n t1 rfl
    rw [wp_bind, wp_getK]
    dsimp only
    have body : KG Done (do
        ed (onBuf Buffer.startUndoGroup)
        repeatN n (ed (replaceStep E c))
        ed (onBuf Buffer.endUndoGroup)
        ed (Editor.moveCursorLeft E 1) : ViM Unit) :=
      kg_bind (P := Opened) (Q := fun es => ∃ xs, Plainly xs ∧ es = .endGroup :: xs)
        (kg_mono (kg_ed gw_startGroup) fun es h => by rw [h]; exact opened_nil)
        (fun _ => kg_bind (Q := fun es => es = [.endGroup]) (kg_repeatN (kg_ed (gw_replace E c)) n)
          (fun _ => kg_then (kg_ed gw_endGroup) fun _ => kg_ed (gw_left E 1))
          fun x y hx hy => ⟨x, hx, by rw [hy]; rfl⟩)
        (fun x y hx hy => by
          obtain ⟨xs, h1, rfl⟩ := hy
          exact (hx.append h1).close)
    have vbody : Vx (do
        ed (onBuf Buffer.startUndoGroup)
        repeatN n (ed (replaceStep E c))
        ed (onBuf Buffer.endUndoGroup)
        ed (Editor.moveCursorLeft E 1) : ViM Unit) id := by
      have hr : ∀ n, Vx (repeatN n (ed (replaceStep E c)) : ViM Unit) id := fun n => by
        induction n with
        | zero => exact vx_pure _
        | succ n ih => exact vx_bind (g := id) (vx_ed _) fun _ => ih
      exact vx_bind (g := id) (vx_ed _) fun _ => vx_bind (g := id) (hr n) fun _ => vx_bind (g := id) (vx_ed _) fun _ => vx_ed _
    refine wp_cases (fun _ => ?_) (fun _ => ?_)
    · rw [wp_bind, wp_modK]
      have := wp_and (body ({ t1.1 with lastInsert := none, lastCommand := [.char 'r', .char c], lastCount := t1.1.count }, t1.2) hq)
        (vbody ({ t1.1 with lastInsert := none, lastCommand := [.char 'r', .char c], lastCount := t1.1.count }, t1.2))
      repeat rw [wp_bind] at this ⊢
      refine wp_mono this (fun _ t2 h2 => ?_) (fun _ _ _ => trivial) (fun _ _ => trivial)
      rw [wp_bind] at h2 ⊢
      refine wp_mono h2 (fun _ t3 h3 => ?_) (fun _ _ _ => trivial) (fun _ _ => trivial)
      rw [wp_bind] at h3 ⊢
      refine wp_mono h3 (fun _ t4 h4 => ?_) (fun _ _ _ => trivial) (fun _ _ => trivial)
      rw [wp_bind]
      refine wp_mono h4 (fun _ t5 h5 => ?_) (fun _ _ _ => trivial) (fun _ _ => trivial)
      exact fin' t5 h5.1 (by rw [h5.2]; exact hs)
    · exact fin' t1 ((Grew.refl hq).mono nd) hs
  · rw [wp_bind]
    exact wp_mono (kg_abort E t hq) (fun _ t1 h1 => fin Done t1 (h1.mono nd)) (fun _ _ h => h) (fun _ h => h)

theorem single_of {es : List Action} (h : Nothing es) : Single es := .inl h
theorem plainly_of {es : List Action} (h : Nothing es) : Plainly es := (single_of h).plainly

/-- Up to the state of the key map. -/
theorem with_v {α : Type} {m : ViM α} {P : List Action → Prop} {f : Vi → Vi} (hg : KG P m) (hv : Vx m f)
    {t : Vi × Ed} (hq : t.2.isSearch = false) {Q : α → Vi × Ed → Prop}
    (h : ∀ a s', Grew P t.2 s' → Q a (f t.1, s')) : Wp m t Q T2 T1 :=
  wp_mono (wp_and (hg t hq) (hv t)) (fun a t' h' => by
    obtain ⟨v, s'⟩ := t'
    obtain ⟨h1, h2⟩ := h'
    dsimp only at h2
    rw [h2]; exact h a s' h1) (fun _ _ _ => trivial) (fun _ _ => trivial)

/-- The keys left aside: undo, the repetition, and the walk through the history. -/
def Aside (c : Char) : Prop := c = 'u' ∨ c = '.' ∨ c = 'k' ∨ c = 'j'

theorem kg_until (f : Vi → Vi) : KG Single (do
    let n ← moveCountRight
    let s ← ed get
    ed (Editor.deleteUntil E (s.cursor + n))
    modK f : ViM Unit) :=
  kg_quiet kg_countRight fun _ => kg_quiet (kg_ed gw_get) fun _ => kg_then (kg_ed (gw_deleteUntil E _)) fun _ => kg_modK _

theorem vx_until (f : Vi → Vi) : Vx (do
    let n ← moveCountRight
    let s ← ed get
    ed (Editor.deleteUntil E (s.cursor + n))
    modK f : ViM Unit) f :=
  vx_bind (g := f) vx_count fun _ => vx_bind (g := f) (vx_ed _) fun _ => vx_bind (g := f) (vx_ed _) fun _ => vx_modK _

theorem common_stayed {t : Vi × Ed} (hq : t.2.isSearch = false) {k : Key}
    (hk : ∀ s : Vi × Ed, handleKeyCommon E k s.2 = clear E s.2 ∨ handleKeyCommon E k s.2 = moveCursorToStartOfLine E s.2 ∨
      handleKeyCommon E k s.2 = moveCursorToEndOfLine E s.2 ∨ handleKeyCommon E k s.2 = (pure () : EdM Unit) s.2) :
    Wp (ed (handleKeyCommon E k)) t (fun _ t' => Stayed t.1.modeStack t.2 t') T2 T1 := by
  rw [wp_ed]
  have : Wp (handleKeyCommon E k) t.2 (fun _ s' => Grew Nothing t.2 s') (fun _ _ => True) T1 := by
    rcases hk t with h | h | h | h
    · exact (wp_congr h).mpr (gw_clear E t.2 hq)
    · exact (wp_congr h).mpr (gw_home E t.2 hq)
    · exact (wp_congr h).mpr (gw_end E t.2 hq)
    · exact (wp_congr h).mpr (gw_pure () t.2 hq)
  exact wp_mono this (fun _ s' h => ⟨h, .inr (.inl rfl)⟩) (fun _ _ h => h) (fun _ h => h)

theorem common_char {t : Vi × Ed} (hq : t.2.isSearch = false) (c : Char) :
    Wp (ed (handleKeyCommon E (.char c))) t (fun _ t' => Stayed t.1.modeStack t.2 t') T2 T1 :=
  common_stayed E hq fun _ => by right; right; right; unfold handleKeyCommon; rw [if_neg (by simp)]

theorem normalChar_out {core : Key → ViM Unit} (c : Char) (ha : ¬ Aside c) {t : Vi × Ed} (h : VI t)
    (hq : t.2.isSearch = false)
    (hs : t.1.modeStack = [] ∨ (Under t.1.modeStack ∧ (isMovementKey (.char c) ∨ IsDigit c))) :
    Wp (normalChar core E c) t (fun _ t' => Out (.char c) t.1.modeStack t.2 t') T2 T1 := by
  have hu : Under t.1.modeStack := by
    rcases hs with hs | hs
    · exact .inl hs
    · exact hs.1
  have cmd : (isMovementKey (.char c) = false ∧ digit? c = none) → t.1.modeStack = [] := by
    rintro ⟨h1, h2⟩
    rcases hs with hs | ⟨_, hs | hs⟩
    · exact hs
    · rw [h1] at hs; cases hs
    · rw [IsDigit, h2] at hs; cases hs
  have mv : ∀ (m : EdM Unit), Gw Nothing m →
      Wp (do ed m; popModeAfterMovement E false : ViM Unit) t (fun _ t' => Out (.char c) t.1.modeStack t.2 t') T2 T1 := fun m hm =>
    wp_mono (move_moved E false hm hq (.inl hu) h.esc) (fun _ _ h => .inl h) (fun _ _ h => h) (fun _ h => h)
  have opn : KG Opened (setMode E .insert) := kg_mono (kg_open E (.inl rfl)) fun es h => by rw [h]; exact opened_nil
  have entg : ∀ f : Vi → Vi, KG Opened (do modK f; setMode E .insert : ViM Unit) := fun f =>
    kg_quiet (kg_modK _) fun _ => opn
  have find : ∀ m, m ≠ .insert → m ≠ .tilde → Wp (setMode E m) t (fun _ t' => Out (.char c) t.1.modeStack t.2 t') T2 T1 :=
    fun m h1 h2 => wp_mono (push_stayed E h1 h2 hq) (fun _ _ h => .inr (.inl h)) (fun _ _ h => h) (fun _ h => h)
  have enter : ∀ (m : EdM Unit), t.1.modeStack = [] → Gw Nothing m →
      Wp (do modK fun v => { v with lastInsert := some (.char c) }; setMode E .insert; ed m : ViM Unit) t
        (fun _ t' => Out (.char c) t.1.modeStack t.2 t') T2 T1 := by
    intro m hs hm
    refine with_v (P := Opened) (kg_quiet (kg_modK _) fun _ => kg_then opn fun _ => kg_ed hm)
      (vx_bind (vx_modK _) fun _ => vx_bind (vx_setInsert E) fun _ => vx_ed m) (by exact hq) fun _ s' hg => ?_
    exact .inr (.inr (.inr ⟨hs, hg, .inl ⟨by simp [hs], rfl, .inr (by intro k hk; cases hk)⟩⟩))
  have done : ∀ t1 : Vi × Ed, isMovementKey (.char c) = false → t.1.modeStack = [] → Grew Done t.2 t1.2 →
      t1.1.modeStack = [] → Out (.char c) t.1.modeStack t.2 t1 := fun t1 h0 h1 h2 h3 =>
    .inr (.inr (.inl ⟨⟨by simp [h1], fun _ => h0⟩, h2, h3⟩))
  have sd : ∀ es, Single es → Done es := fun es h => .inl h
  unfold normalChar
  dsimp only
  refine wp_cases (fun h0 => ?_) (fun _ => ?_)
  · subst c
    have hs := cmd (by decide)
    refine with_v (entg _) (vx_bind (vx_modK _) fun _ => vx_setInsert E) (by exact hq) fun _ s' hg => ?_
    exact .inr (.inr (.inr ⟨hs, hg, .inl ⟨by simp [hs], rfl, .inr (by intro k hk; cases hk)⟩⟩))
  refine wp_cases (fun h0 => ?_) (fun _ => ?_)
  · subst c
    exact enter _ (cmd (by decide)) (gw_right E 1)
  refine wp_cases (fun h0 => ?_) (fun _ => ?_)
  · subst c
    exact enter _ (cmd (by decide)) (gw_end E)
  refine wp_cases (fun h0 => ?_) (fun _ => ?_)
  · subst c
    exact enter _ (cmd (by decide)) (gw_home E)
  refine wp_cases (fun h0 => ?_) (fun _ => ?_)
  · subst c
    have hs := cmd (by decide)
    refine with_v (P := Opened) (kg_bind (entg _) (fun _ => kg_until E _) fun x y hx hy => hx.append hy.plainly)
      (vx_bind (vx_bind (vx_modK _) fun _ => vx_setInsert E) fun _ => vx_until E _) (by exact hq) fun _ s' hg => ?_
    exact .inr (.inr (.inr ⟨hs, hg, .inl ⟨by simp [hs], rfl, .inl rfl⟩⟩))
  refine wp_cases (fun h0 => ?_) (fun _ => ?_)
  · exact find _ (by simp) (by simp)
  refine wp_cases (fun h0 => ?_) (fun _ => ?_)
  · have hs := cmd (by rcases h0 with rfl | rfl <;> decide)
    rw [wp_bind, wp_modK]
    have del : ∀ p, Vx (do
        setMode E (.delete p)
        modK fun v => { v with secondaryCount := v.count, count := 0 } : ViM Unit) _ := fun p =>
      vx_bind (vx_set E (m := .delete p) (by simp)) fun _ => vx_modK _
    have gel : ∀ p, KG Nothing (do
        setMode E (.delete p)
        modK fun v => { v with secondaryCount := v.count, count := 0 } : ViM Unit) := fun p =>
      kg_quiet (kg_push E (by simp) (by simp)) fun _ => kg_modK _
    refine wp_cases (fun _ => ?_) (fun _ => ?_)
    · rw [wp_bind, wp_modK, wp_bind, wp_ed, wp_get]
      refine with_v (gel _) (del _) (by exact hq) fun _ s' hg => ?_
      exact .inr (.inl ⟨hg, .inr (.inr ⟨.delete _, by simp, rfl⟩)⟩)
    · rw [wp_bind, wp_modK, wp_bind]
      refine with_v opn (vx_setInsert E) (by exact hq) fun _ s1 hg1 => ?_
      rw [wp_bind, wp_ed, wp_get]
      refine with_v (gel _) (del _) hg1.quiet fun _ s' hg => ?_
      refine .inr (.inr (.inr ⟨hs, hg1.trans hg fun x y hx hy => by rw [hy]; exact hx, .inr ⟨s1.cursor, ?_⟩⟩))
      simp [hs]
  refine wp_cases (fun h0 => ?_) (fun _ => ?_)
  · subst c
    have hs := cmd (by decide)
    unfold rememberKey
    rw [wp_bind, wp_modK, wp_bind, wp_modK]
    exact with_v (kg_ed (gw_deleteAllAfter E)) (vx_ed _) (by exact hq) fun _ s' hg => done _ (by decide) hs (hg.mono sd) hs
  refine wp_cases (fun h0 => ?_) (fun _ => ?_)
  · subst c
    have hs := cmd (by decide)
    unfold rememberKey
    rw [wp_bind, wp_modK, wp_bind, wp_modK]
    refine with_v (P := Opened) (kg_bind (P := Opened) (Q := Single) (kg_mono (kg_open' E (.inl rfl)) fun es h => by rw [h]; exact opened_nil)
      (fun _ => kg_ed (gw_deleteAllAfter E)) fun x y hx hy => hx.append hy.plainly)
      (vx_bind (vx_setPreserve E .insert) fun _ => vx_ed _) (by exact hq) fun _ s' hg => ?_
    exact .inr (.inr (.inr ⟨hs, hg, .inl ⟨by simp [hs], rfl, .inl rfl⟩⟩))
  refine wp_cases (fun h0 => absurd (.inr (.inl h0)) ha) (fun _ => ?_)
  refine wp_cases (fun h0 => ?_) (fun _ => ?_)
  · rw [wp_bind]
    refine wp_mono (countLeft_wp t) ?_ (fun _ _ h => h) (fun _ h => h)
    rintro n t1 rfl
    exact mv _ (gw_left E _)
  refine wp_cases (fun h0 => ?_) (fun _ => ?_)
  · rw [wp_bind]
    refine wp_mono (countRight_wp t) ?_ (fun _ _ h => h) (fun _ h => h)
    rintro n t1 rfl
    exact mv _ (gw_right E _)
  refine wp_cases (fun h0 => absurd (.inr (.inr (.inl h0))) ha) (fun _ => ?_)
  refine wp_cases (fun h0 => absurd (.inr (.inr (.inr h0))) ha) (fun _ => ?_)
  refine wp_cases (fun h0 => find _ (by simp) (by simp)) (fun _ => ?_)
  refine wp_cases (fun h0 => find _ (by simp) (by simp)) (fun _ => ?_)
  refine wp_cases (fun h0 => find _ (by simp) (by simp)) (fun _ => ?_)
  refine wp_cases (fun h0 => find _ (by simp) (by simp)) (fun _ => ?_)
  refine wp_cases (fun h0 => moveToChar_out E _ _ h hq (.inl hu) _) (fun _ => ?_)
  refine wp_cases (fun h0 => moveToChar_out E _ _ h hq (.inl hu) _) (fun _ => ?_)
  refine wp_cases (fun h0 => ?_) (fun _ => ?_)
  · rw [wp_bind, wp_getK]; exact mv _ (gw_moveWord E _ _ _)
  refine wp_cases (fun h0 => ?_) (fun _ => ?_)
  · rw [wp_bind, wp_getK]; exact mv _ (gw_moveWord E _ _ _)
  refine wp_cases (fun h0 => ?_) (fun _ => ?_)
  · rw [wp_bind, wp_getK]; exact mv _ (gw_moveWordEnd E _ _ _)
  refine wp_cases (fun h0 => ?_) (fun _ => ?_)
  · rw [wp_bind, wp_getK]; exact mv _ (gw_moveWordEnd E _ _ _)
  refine wp_cases (fun h0 => ?_) (fun _ => ?_)
  · rw [wp_bind, wp_getK]; exact mv _ (gw_moveWordEnd E _ _ _)
  refine wp_cases (fun h0 => ?_) (fun _ => ?_)
  · rw [wp_bind, wp_getK]; exact mv _ (gw_moveWordEnd E _ _ _)
  refine wp_cases (fun h0 => find _ (by simp) (by simp)) (fun _ => ?_)
  refine wp_cases (fun h0 => mv _ (gw_home E)) (fun _ => ?_)
  refine wp_cases (fun h0 => mv _ (gw_end E)) (fun _ => ?_)
  refine wp_cases (fun h0 => ?_) (fun _ => ?_)
  · subst c
    have hs := cmd (by decide)
    unfold rememberKey
    rw [wp_bind, wp_modK, wp_bind, wp_modK]
    exact with_v (kg_until E _) (vx_until E _) (by exact hq) fun _ s' hg => done _ (by decide) hs (hg.mono sd) hs
  refine wp_cases (fun h0 => ?_) (fun _ => ?_)
  · subst c
    have hs := cmd (by decide)
    unfold rememberKey
    rw [wp_bind, wp_modK, wp_bind, wp_modK, wp_bind]
    refine with_v (kg_open E (.inr rfl)) (vx_set E (m := .tilde) (by simp)) (by exact hq) fun _ s1 hg1 => ?_
    have hr : ∀ n, Vx (repeatN n (ed (tildeStep E)) : ViM Unit) id := fun n => by
      induction n with
      | zero => exact vx_pure _
      | succ n ih => exact vx_bind (g := id) (vx_ed _) fun _ => ih
    have hb := with_v (m := (do
        let n ← moveCountRight
        repeatN n (ed (tildeStep E)) : ViM Unit)) (P := Plainly) (f := id)
      (kg_quiet kg_countRight fun n => kg_repeatN (kg_ed (gw_tilde E)) n)
      (vx_bind (g := id) vx_count fun n => hr n)
      (t := ({ t.1 with lastInsert := none, lastCommand := [.char '~'], lastCount := t.1.count, movementReset := true, modeStack := .tilde :: t.1.modeStack }, s1))
      hg1.quiet (Q := fun _ t2 => Wp (popMode E) t2 (fun _ t' => Out (.char '~') t.1.modeStack t.2 t') T2 T1) fun _ s2 hg2 => by
        refine wp_mono (wp_and (popMode_grew E (m := .tilde) (base := t.1.modeStack) rfl hg2.quiet) (vx_popMode E _))
          (fun _ t3 h3 => ?_) (fun _ _ _ => trivial) (fun _ _ => trivial)
        obtain ⟨h3, h4⟩ := h3
        refine done _ (by decide) hs ((hg1.trans hg2 (R := Opened) fun x y hx hy => ?_).trans h3 fun x y hx hy => ?_) ?_
        · rw [hx]; exact opened_nil.append hy
        · rw [hy]; simpa using hx.close
        · rw [h4]; simp [popped, hs]
    rw [wp_bind] at hb ⊢
    refine wp_mono hb (fun _ t2 h2 => ?_) (fun _ _ h => h) (fun _ h => h)
    rw [wp_bind]
    exact h2
  refine wp_cases (fun h0 => absurd (.inl h0) ha) (fun _ => ?_)
  split
  · rw [wp_bind, wp_getK]
    refine wp_cases (fun _ => mv _ (gw_home E)) fun _ => ?_
    rw [wp_modK]
    exact .inr (.inl ⟨.refl hq, .inr (.inl rfl)⟩)
  · exact wp_mono (common_char E hq c) (fun _ _ h => .inr (.inl h)) (fun _ _ h => h) (fun _ h => h)

/-- The keys left aside in normal mode. -/
def AsideKey (k : Key) : Prop := (∃ c, k = .char c ∧ Aside c) ∨ k = .up ∨ k = .down ∨ k = .ctrl 'r'

theorem common_ctrl (t : Vi × Ed) (c : Char) :
    handleKeyCommon E (.ctrl c) t.2 = clear E t.2 ∨ handleKeyCommon E (.ctrl c) t.2 = (pure () : EdM Unit) t.2 := by
  unfold handleKeyCommon
  split
  · exact .inl rfl
  · exact .inr rfl

theorem normal_out {core : Key → ViM Unit} (key : Key) (ha : ¬ AsideKey key) {t : Vi × Ed} (h : VI t)
    (hq : t.2.isSearch = false)
    (hs : t.1.modeStack = [] ∨ (Under t.1.modeStack ∧ (isMovementKey key ∨ ∃ c, key = .char c ∧ IsDigit c))) :
    Wp (handleKeyNormal core E key) t (fun _ t' => Out key t.1.modeStack t.2 t') T2 T1 := by
  have hu : Under t.1.modeStack := by
    rcases hs with hs | hs
    · exact .inl hs
    · exact hs.1
  have cmd : isMovementKey key = false → (∀ c, key ≠ .char c) → t.1.modeStack = [] := by
    intro h1 h2
    rcases hs with hs | ⟨_, hs | ⟨c, hc, _⟩⟩
    · exact hs
    · rw [h1] at hs; cases hs
    · exact absurd hc (h2 c)
  have com : (∀ s : Vi × Ed, handleKeyCommon E key s.2 = clear E s.2 ∨ handleKeyCommon E key s.2 = moveCursorToStartOfLine E s.2 ∨
      handleKeyCommon E key s.2 = moveCursorToEndOfLine E s.2 ∨ handleKeyCommon E key s.2 = (pure () : EdM Unit) s.2) →
      Wp (ed (handleKeyCommon E key)) t (fun _ t' => Out key t.1.modeStack t.2 t') T2 T1 := fun hk =>
    wp_mono (common_stayed E hq hk) (fun _ _ h => .inr (.inl h)) (fun _ _ h => h) (fun _ h => h)
  unfold handleKeyNormal
  cases key with
  | esc => 
    rw [wp_modK]
    exact .inr (.inl ⟨.refl hq, .inr (.inl rfl)⟩)
  | char c =>
    refine normalChar_out E c (fun h' => ha (.inl ⟨c, rfl, h'⟩)) h hq ?_
    rcases hs with hs | ⟨hu, hs | ⟨c', hc', hd⟩⟩
    · exact .inl hs
    · exact .inr ⟨hu, .inl hs⟩
    · cases hc'; exact .inr ⟨hu, .inr hd⟩
  | left => exact normalChar_out E 'h' (by unfold Aside; decide) h hq (.inr ⟨hu, .inl (by decide)⟩)
  | backspace => exact normalChar_out E 'h' (by unfold Aside; decide) h hq (.inr ⟨hu, .inl (by decide)⟩)
  | right => exact normalChar_out E 'l' (by unfold Aside; decide) h hq (.inr ⟨hu, .inl (by decide)⟩)
  | up => exact absurd (.inr (.inl rfl)) ha
  | down => exact absurd (.inr (.inr (.inl rfl))) ha
  | delete =>
    have hs := cmd (by decide) (by simp)
    dsimp only
    unfold rememberKey
    rw [wp_bind, wp_modK, wp_bind, wp_modK]
    exact with_v (kg_until E _) (vx_until E _) (by exact hq) fun _ s' hg =>
      .inr (.inr (.inl ⟨⟨by simp [hs], fun _ => rfl⟩, hg.mono fun _ h => .inl h, hs⟩))
  | ctrl c =>
    dsimp only
    rw [if_neg (by rintro rfl; exact ha (.inr (.inr (.inr rfl))))]
    exact com fun s => by
      rcases common_ctrl E s c with h | h
      · exact .inl h
      · exact .inr (.inr (.inr h))
  | home => exact com fun s => .inr (.inl (by unfold handleKeyCommon; rw [if_neg (by simp)]))
  | «end» => exact com fun s => .inr (.inr (.inl (by unfold handleKeyCommon; rw [if_neg (by simp)])))
  | _ => exact com fun s => .inr (.inr (.inr (by unfold handleKeyCommon; rw [if_neg (by simp)])))

theorem delete_out {core : Key → ViM Unit} (key : Key) {p : Nat} {t : Vi × Ed}
    (h : VI t) (hq : t.2.isSearch = false) (hm : t.1.mode = .delete p) :
    Wp (handleKeyDeleteOrChange core E key) t (fun _ t' => Out key t.1.modeStack t.2 t') T2 T1 := by
  obtain ⟨base, hs, hb⟩ := h.delete hm
  have hu : Under t.1.modeStack := .inr ⟨p, base, hs, hb⟩
  have hfil : t.1.modeStack.filter (· = .insert) = base := by
    rw [hs]; simpa using base_filter hb
  unfold handleKeyDeleteOrChange
  rw [wp_bind, wp_getK]
  refine wp_cases (fun hk => ?_) (fun _ => ?_)
  · rw [wp_bind, wp_modK]
    have hna : ¬ AsideKey key := by
      rintro (⟨c, rfl, hc⟩ | rfl | rfl | rfl)
      · rcases hc with rfl | rfl | rfl | rfl <;> simp [isMovementKey] at hk
      · simp [isMovementKey] at hk
      · simp [isMovementKey] at hk
      · simp [isMovementKey] at hk
    refine normal_out E key hna (h.modK rfl ⟨h.esc.last, fun hp k hk' => ?_⟩) hq (.inr ⟨hu, ?_⟩)
    · rcases List.mem_append.1 hk' with hk' | hk'
      · exact h.esc.cur hp k hk'
      · rw [List.mem_singleton.1 hk']
        constructor
        · rintro rfl; simp [isMovementKey] at hk
        · rintro rfl; simp [isMovementKey] at hk
    · rcases hk with hk | ⟨rfl, _⟩
      · exact .inl hk
      · exact .inr ⟨'0', rfl, by unfold IsDigit; decide⟩
  refine wp_cases (fun hk => ?_) (fun _ => ?_)
  · have hd : ∃ c, key = .char c ∧ IsDigit c := by
      cases key with
      | char c => exact ⟨c, rfl, hk⟩
      | _ => cases hk
    refine normal_out E key ?_ h hq (.inr ⟨hu, .inr hd⟩)
    obtain ⟨c, rfl, hd⟩ := hd
    rintro (⟨c', hc, hc'⟩ | hc | hc | hc)
    · cases hc
      rcases hc' with rfl | rfl | rfl | rfl <;> exact absurd hd (by unfold IsDigit; decide)
    · cases hc
    · cases hc
    · cases hc
  refine wp_cases (fun hk => ?_) (fun _ => ?_)
  · rw [wp_bind, wp_modK, wp_bind]
    refine with_v (kg_ed (gw_home E)) (vx_ed _) (by exact hq) fun _ s1 hg1 => ?_
    rw [wp_bind]
    refine with_v (kg_ed (gw_deleteAllAfter E)) (vx_ed _) hg1.quiet fun _ s2 hg2 => ?_
    refine wp_mono (wp_and (popMode_grew E (m := .delete p) (base := base) hs hg2.quiet) (vx_popMode E _))
      (fun _ t3 h3 => ?_) (fun _ _ _ => trivial) (fun _ _ => trivial)
    obtain ⟨h3, h4⟩ := h3
    refine .inl ⟨(hg1.trans hg2 (R := Single) fun x y hx hy => ?_).trans h3 fun x y hx hy => ?_, ?_, fun hi => ?_⟩
    · rw [hx, List.append_nil]; exact hy
    · rw [hy]; exact ⟨by simpa using hx, fun hn => absurd (by rw [hs]; simp) (hn p)⟩
    · rw [h4, hfil]; simp [popped, hs]
    · rw [h4]
      rcases hb with rfl | rfl
      · rw [hs] at hi; simp at hi
      · simp [popped, hs]
  · exact wp_mono (abort_stayed E hq t.1.modeStack) (fun _ _ h => .inr (.inl h)) (fun _ _ h => h) (fun _ h => h)

/-! ### Insert mode -/

theorem vx_reset {t : Vi × Ed} (h : t.1.movementReset = false) : resetInsert t = .ok () t := by
  unfold resetInsert
  rw [bind_ok (show getK t = .ok t.1 t from rfl)]
  simp [h]
  rfl

theorem typed_out {core : Key → ViM Unit} {key : Key} (hk : Typing key) {t : Vi × Ed} (hq : t.2.isSearch = false)
    (hr : t.1.movementReset = false) :
    Wp (handleKeyInsert core E key) t (fun _ t' => t'.1 = { t.1 with lastCommand := t.1.lastCommand ++ [key] } ∧
      Grew Single t.2 t'.2) T2 T1 := by
  have go : ∀ m : EdM Unit, Gw Single m → Wp (do
      resetInsert
      modK fun v => { v with lastCommand := v.lastCommand ++ [key] }
      ed m : ViM Unit) t (fun _ t' => t'.1 = { t.1 with lastCommand := t.1.lastCommand ++ [key] } ∧
      Grew Single t.2 t'.2) T2 T1 := by
    intro m hm
    rw [wp_congr (bind_ok (vx_reset hr)), wp_bind, wp_modK]
    exact with_v (kg_ed hm) (vx_ed _) (by exact hq) fun _ s' hg => ⟨rfl, hg⟩
  unfold handleKeyInsert
  rcases hk with ⟨c, rfl⟩ | rfl | rfl
  · rw [if_neg (by simp)]; exact go _ (gw_insert E c)
  · rw [if_neg (by simp)]
    refine go _ ?_
    unfold handleKeyCommon; rw [if_neg (by simp)]; exact gw_deleteBefore E
  · rw [if_neg (by simp)]
    refine go _ ?_
    unfold handleKeyCommon; rw [if_neg (by simp)]; exact gw_deleteAfter E

/-- Typed keys, one after the other. -/
theorem replay_out (n : Nat) : ∀ (ks : List Key), (∀ k ∈ ks, Typing k) → ∀ t : Vi × Ed, t.2.isSearch = false →
    t.1.movementReset = false → t.1.modeStack = [.insert] →
    Wp (replay (coreFuel E (n + 1)) ks) t (fun _ t' => t'.1 = { t.1 with lastCommand := t.1.lastCommand ++ ks } ∧
      Grew Plainly t.2 t'.2) T2 T1 := by
  intro ks
  induction ks with
  | nil =>
    intro _ t hq _ _
    exact ⟨by simp, (Grew.refl hq).mono fun _ h => plainly_of h⟩
  | cons k ks ih =>
    intro hk t hq hr hs
    show Wp (do coreFuel E (n + 1) k; replay (coreFuel E (n + 1)) ks : ViM Unit) t _ _ _
    rw [wp_bind]
    have h1 : Wp (coreFuel E (n + 1) k) t (fun _ t' => t'.1 = { t.1 with lastCommand := t.1.lastCommand ++ [k] } ∧
        Grew Single t.2 t'.2) T2 T1 := by
      show Wp (coreStep (coreFuel E n) E k) t _ _ _
      unfold coreStep
      rw [wp_bind, wp_getK, mode_cons hs]
      exact typed_out E (hk k (by simp)) hq hr
    refine wp_mono h1 (fun _ t1 h1 => ?_) (fun _ _ h => h) (fun _ h => h)
    obtain ⟨h1, h2⟩ := h1
    refine wp_mono (ih (fun k hk' => hk k (by simp [hk'])) t1 h2.quiet (by rw [h1]; exact hr) (by rw [h1]; exact hs))
      (fun _ t2 h3 => ?_) (fun _ _ h => h) (fun _ h => h)
    obtain ⟨h3, h4⟩ := h3
    refine ⟨by rw [h3, h1]; simp, h2.trans h4 fun x y hx hy => hx.plainly.append hy⟩

theorem repeats_out (n : Nat) (m : Nat) : ∀ t : Vi × Ed, (∀ k ∈ t.1.lastCommand, Typing k) → t.2.isSearch = false →
    t.1.movementReset = false → t.1.modeStack = [.insert] →
    Wp (insertRepeats (coreFuel E (n + 1)) m) t (fun _ t' => t'.1 = t.1 ∧ Grew Plainly t.2 t'.2) T2 T1 := by
  unfold insertRepeats
  induction m with
  | zero =>
    intro t _ hq _ _
    exact ⟨rfl, (Grew.refl hq).mono fun _ h => plainly_of h⟩
  | succ m ih =>
    intro t hk hq hr hs
    show Wp (do (do
      let v ← getK
      modK fun v => { v with lastCommand := [] }
      replay (coreFuel E (n + 1)) v.lastCommand); repeatN m _ : ViM Unit) t _ _ _
    rw [wp_bind, wp_bind, wp_getK, wp_bind, wp_modK]
    refine wp_mono (replay_out E n _ hk _ (by exact hq) (by exact hr) (by exact hs)) (fun _ t1 h1 => ?_) (fun _ _ h => h) (fun _ h => h)
    obtain ⟨h1, h2⟩ := h1
    have h1' : t1.1 = t.1 := by rw [h1]; simp
    refine wp_mono (ih t1 (by rw [h1']; exact hk) h2.quiet (by rw [h1']; exact hr) (by rw [h1']; exact hs))
      (fun _ t2 h3 => ?_) (fun _ _ h => h) (fun _ h => h)
    exact ⟨h3.1.trans h1', h2.trans h3.2 fun x y hx hy => hx.append hy⟩

/-- The end of an insertion. -/
theorem esc_out (n : Nat) {key : Key} (hk : ¬ Plain key) {t : Vi × Ed} (hq : t.2.isSearch = false)
    (hf : Fresh t.1) (hs : t.1.modeStack = [.insert]) :
    Wp (handleKeyInsert (coreFuel E (n + 1)) E key) t (fun _ t' => t'.1.modeStack = [] ∧
      Grew (fun es => ∃ xs, Plainly xs ∧ es = .endGroup :: xs) t.2 t'.2) T2 T1 := by
  have fin : ∀ t1 : Vi × Ed, Grew Plainly t.2 t1.2 → t1.1.modeStack = [.insert] → Wp (do
      ed (Editor.moveCursorLeft E 1)
      popMode E : ViM Unit) t1 (fun _ t' => t'.1.modeStack = [] ∧
        Grew (fun es => ∃ xs, Plainly xs ∧ es = .endGroup :: xs) t.2 t'.2) T2 T1 := by
    intro t1 h1 h2
    rw [wp_bind]
    refine with_v (kg_ed (gw_left E 1)) (vx_ed _) h1.quiet fun _ s2 hg2 => ?_
    refine wp_mono (wp_and (popMode_grew E (m := .insert) (base := []) h2 hg2.quiet) (vx_popMode E _))
      (fun _ t3 h3 => ?_) (fun _ _ _ => trivial) (fun _ _ => trivial)
    obtain ⟨h3, h4⟩ := h3
    refine ⟨by rw [h4]; simp [popped, h2], (h1.trans hg2 (R := Plainly) fun x y hx hy => ?_).trans h3 fun x y hx hy => ?_⟩
    · rw [hy]; exact hx
    · rw [hy]; exact ⟨x, hx, by simp⟩
  unfold handleKeyInsert
  rw [if_pos (by
    by_contra hne
    exact hk ⟨fun h => hne (.inl h), fun h => hne (.inr h)⟩)]
  rw [wp_bind, wp_getK]
  dsimp only
  refine wp_cases (fun hc => ?_) (fun _ => ?_)
  · rw [wp_bind, wp_modK, wp_bind]
    have hty : ∀ k ∈ t.1.lastCommand, Typing k := by
      rcases hf.2 with h0 | h
      · omega
      · exact h
    refine wp_mono (repeats_out E n _ ({ t.1 with lastCount := t.1.count }, t.2) hty hq hf.1 hs) (fun _ t1 h1 => ?_)
      (fun _ _ h => h) (fun _ h => h)
    rw [wp_bind, wp_modK]
    exact fin _ h1.2 (by show t1.1.modeStack = _; rw [h1.1]; exact hs)
  · exact fin t ((Grew.refl hq).mono fun _ h => plainly_of h) hs

/-! ### A whole command -/

/-- What the log has gained since the command began. -/
def Shape (st : List Mode) (es : List Action) : Prop :=
  if .insert ∈ st then Opened es else if st = [] then Done es else es = []

/-- In the middle of a command, or at the end of it. -/
structure Cmd (b0 : Buffer) (t : Vi × Ed) : Prop where
  vi : VI t
  quiet : t.2.isSearch = false
  log : ∃ b es, workBuf t.2 = some b ∧ Shape t.1.modeStack es ∧ b.actions = es ++ b0.actions ∧ Path es b0.data b.data
  fresh : t.1.modeStack = [.insert] → Fresh t.1

theorem Stack.insert_last {l : List Mode} (h : Stack l) (hi : .insert ∈ l) : l.filter (· = .insert) = [.insert] := by
  have hu : ∀ r : List Mode, Under r → .insert ∈ r → r.filter (· = .insert) = [.insert] := by
    intro r hr hi
    rcases hr with rfl | ⟨p, base, rfl, rfl | rfl⟩
    · cases hi
    · simp at hi
    · rfl
  rcases h with rfl | rfl | hr | ⟨m, r, rfl, hr⟩ | ⟨r, rfl, hr⟩
  · rfl
  · simp at hi
  · exact hu _ hr hi
  · simpa using hu r hr (by simpa using hi)
  · simpa using hu r hr (by simpa using hi)

theorem filter_nil {l : List Mode} (hi : .insert ∉ l) : l.filter (· = .insert) = [] := by
  rw [List.filter_eq_nil_iff]
  intro a ha h
  simp only [decide_eq_true_eq] at h
  exact hi (h ▸ ha)

/-- The first key of a command. -/
theorem cmd_first {b0 : Buffer} {s : Ed} {t' : Vi × Ed} (hb : workBuf s = some b0) (hv : VI t')
    {k : Key} (ho : Out k [] s t') : Cmd b0 t' := by
  rcases ho with h | h | h | h
  · obtain ⟨h1, h2, -⟩ := h
    obtain ⟨b', es, g1, g2, g3, g4⟩ := h1.log b0 hb
    refine ⟨hv, h1.quiet, ⟨b', es, g1, ?_, g3, g4⟩, fun h => by rw [h2] at h; cases h⟩
    rw [h2]; exact .inl g2.1
  · obtain ⟨h1, h2⟩ := h
    obtain ⟨b', es, g1, g2, g3, g4⟩ := h1.log b0 hb
    have hni : .insert ∉ t'.1.modeStack := by
      rcases h2 with h2 | h2 | ⟨m, hm, h2⟩ <;> rw [h2] <;> simp
      exact fun h => hm h.symm
    refine ⟨hv, h1.quiet, ⟨b', es, g1, ?_, g3, g4⟩, fun h => by rw [h] at hni; simp at hni⟩
    rw [Shape, if_neg hni]
    split
    · exact .inl (.inl g2)
    · exact g2
  · obtain ⟨-, h1, h2⟩ := h
    obtain ⟨b', es, g1, g2, g3, g4⟩ := h1.log b0 hb
    refine ⟨hv, h1.quiet, ⟨b', es, g1, ?_, g3, g4⟩, fun h => by rw [h2] at h; cases h⟩
    rw [h2]; exact g2
  · obtain ⟨-, h1, h2⟩ := h
    obtain ⟨b', es, g1, g2, g3, g4⟩ := h1.log b0 hb
    rcases h2 with ⟨h2, hf⟩ | ⟨p, h2⟩
    · refine ⟨hv, h1.quiet, ⟨b', es, g1, ?_, g3, g4⟩, fun _ => hf⟩
      rw [h2]; exact g2
    · refine ⟨hv, h1.quiet, ⟨b', es, g1, ?_, g3, g4⟩, fun h => by rw [h2] at h; cases h⟩
      rw [h2, Shape, if_pos (by simp)]; exact g2

/-- A further key, where nothing is typed. -/
theorem cmd_out {b0 : Buffer} {t t' : Vi × Ed} (h : Cmd b0 t) (hne : t.1.modeStack ≠ [])
    (hnt : t.1.modeStack ≠ [.insert]) (hv : VI t')
    {k : Key} (ho : Out k t.1.modeStack t.2 t') (htk : .insert ∈ t.1.modeStack → t'.1.modeStack ≠ []) : Cmd b0 t' := by
  obtain ⟨b, es0, k1, k2, k3, k4⟩ := h.log
  rcases ho with ho | ho | ho | ho
  · obtain ⟨h1, h2, h3⟩ := ho
    obtain ⟨b', es, g1, g2, g3, g4⟩ := h1.log b k1
    by_cases hi : .insert ∈ t.1.modeStack
    · have hst := h2.trans (h.vi.stack.insert_last hi)
      rw [Shape, if_pos hi] at k2
      refine ⟨hv, h1.quiet, ⟨b', es ++ es0, g1, ?_, by rw [g3, k3, List.append_assoc], k4.append g4⟩,
        fun _ => ⟨(h3 hi).1, .inl (h3 hi).2⟩⟩
      rw [hst]; exact k2.append g2.1.plainly
    · have hst := h2.trans (filter_nil hi)
      rw [Shape, if_neg hi, if_neg hne] at k2
      subst k2
      refine ⟨hv, h1.quiet, ⟨b', es ++ [], g1, ?_, by rw [g3, k3, List.append_assoc], k4.append g4⟩,
        fun h => by rw [hst] at h; cases h⟩
      rw [hst, List.append_nil]; exact .inl g2.1
  · obtain ⟨h1, h2⟩ := ho
    obtain ⟨b', es, g1, rfl, g3, g4⟩ := h1.log b k1
    have hiff : t'.1.modeStack ≠ [] → (.insert ∈ t'.1.modeStack ↔ .insert ∈ t.1.modeStack) := by
      intro hne'
      rcases h2 with h2 | h2 | ⟨m, hm, h2⟩
      · exact absurd h2 hne'
      · rw [h2]
      · rw [h2]; simp [Ne.symm hm]
    refine ⟨hv, h1.quiet, ⟨b', [] ++ es0, g1, ?_, by rw [g3, k3]; rfl, k4.append g4⟩, fun hin => ?_⟩
    · by_cases hi : .insert ∈ t.1.modeStack
      · rw [Shape, if_pos hi] at k2
        rw [Shape, if_pos ((hiff (htk hi)).mpr hi)]
        exact k2
      · rw [Shape, if_neg hi, if_neg hne] at k2
        subst k2
        by_cases he : t'.1.modeStack = []
        · rw [he]; exact .inl (.inl rfl)
        · rw [Shape, if_neg (fun h => hi ((hiff he).mp h)), if_neg he]; rfl
    · rcases h2 with h2 | h2 | ⟨m, hm, h2⟩
      · rw [h2] at hin; cases hin
      · exact absurd (h2.symm.trans hin) hnt
      · rw [h2] at hin; exact absurd (List.cons.inj hin).1 hm
  · obtain ⟨⟨hi, -⟩, h1, h2⟩ := ho
    obtain ⟨b', es, g1, g2, g3, g4⟩ := h1.log b k1
    rw [Shape, if_neg hi, if_neg hne] at k2
    subst k2
    refine ⟨hv, h1.quiet, ⟨b', es ++ [], g1, ?_, by rw [g3, k3, List.append_assoc], k4.append g4⟩,
      fun h => by rw [h2] at h; cases h⟩
    rw [h2, List.append_nil]; exact g2
  · exact absurd ho.1 hne

theorem coreFuel_all (n : Nat) (k : Key) : KVI (coreFuel E n k) := (coreFuel_ok E n).all k

/-- The first key of a command. -/
theorem core_first (n : Nat) {b0 : Buffer} {k : Key} (ha : ¬ AsideKey k) {t : Vi × Ed} (h : VI t) (hq : t.2.isSearch = false)
    (hs : t.1.modeStack = []) (hb : workBuf t.2 = some b0) :
    Wp (coreFuel E (n + 2) k) t (fun _ t' => Cmd b0 t') T2 T1 := by
  have h1 : Wp (coreFuel E (n + 2) k) t (fun _ t' => VI t') T2 T1 := coreFuel_all E (n + 2) k t h
  have h2 : Wp (coreFuel E (n + 2) k) t (fun _ t' => Out k t.1.modeStack t.2 t') T2 T1 :=
    (wp_congr (core_normal E hs)).mpr (normal_out E k ha h hq (.inl hs))
  rw [hs] at h2
  exact wp_mono (wp_and h1 h2) (fun _ t' h => cmd_first hb h.1 h.2) (fun _ _ _ => trivial) (fun _ _ => trivial)

/-- A further key. -/
theorem core_next (n : Nat) {b0 : Buffer} {k : Key} {t : Vi × Ed} (h : Cmd b0 t) (hn : t.1.mode ≠ .normal)
    (hk : t.1.mode = .insert → Typing k ∨ k = .esc) :
    Wp (coreFuel E (n + 2) k) t (fun _ t' =>
      (t.1.mode ≠ .insert → .insert ∈ t.1.modeStack → t'.1.mode ≠ .normal) → Cmd b0 t') T2 T1 := by
  have h1 : Wp (coreFuel E (n + 2) k) t (fun _ t' => VI t') T2 T1 := coreFuel_all E (n + 2) k t h.vi
  by_cases hi : t.1.mode = .insert
  · have hs := h.vi.insert hi
    obtain ⟨b, es0, k1, k2, k3, k4⟩ := h.log
    rw [hs, Shape, if_pos (by simp)] at k2
    have hf := h.fresh hs
    have he : coreFuel E (n + 2) k t = handleKeyInsert (coreFuel E (n + 1)) E k t := core_insert E hs
    rcases hk hi with hk | rfl
    · have h2 : Wp (coreFuel E (n + 2) k) t (fun _ t' => t'.1 = { t.1 with lastCommand := t.1.lastCommand ++ [k] } ∧
          Grew Single t.2 t'.2) T2 T1 := (wp_congr he).mpr (typed_out E hk h.quiet hf.1)
      refine wp_mono (wp_and h1 h2) (fun _ t' h' _ => ?_) (fun _ _ _ => trivial) (fun _ _ => trivial)
      obtain ⟨g0, g1, g2⟩ := h'
      obtain ⟨b', es, g3, g4, g5, g6⟩ := g2.log b k1
      have hst : t'.1.modeStack = [.insert] := by rw [g1]; exact hs
      refine ⟨g0, g2.quiet, ⟨b', es ++ es0, g3, ?_, by rw [g5, k3, List.append_assoc], k4.append g6⟩, fun _ => ?_⟩
      · rw [hst, Shape, if_pos (by simp)]; exact k2.append g4.plainly
      · rw [g1]
        refine ⟨hf.1, ?_⟩
        rcases hf.2 with hf | hf
        · exact .inl hf
        · right
          intro x hx
          rcases List.mem_append.1 hx with hx | hx
          · exact hf x hx
          · rw [List.mem_singleton.1 hx]; exact hk
    · have h2 := (wp_congr he).mpr (esc_out E n (key := .esc) (fun h => h.1 rfl) h.quiet hf hs)
      refine wp_mono (wp_and h1 h2) (fun _ t' h' _ => ?_) (fun _ _ _ => trivial) (fun _ _ => trivial)
      obtain ⟨g0, g1, g2⟩ := h'
      obtain ⟨b', es, g3, ⟨xs, g4, rfl⟩, g5, g6⟩ := g2.log b k1
      refine ⟨g0, g2.quiet, ⟨b', _, g3, ?_, by rw [g5, k3, ← List.append_assoc], k4.append g6⟩, fun h => by rw [g1] at h; cases h⟩
      rw [g1]
      exact (k2.append g4).close
  · have hne : t.1.modeStack ≠ [] := fun h => hn (mode_nil h)
    have hnt : t.1.modeStack ≠ [.insert] := fun h => hi (mode_cons h)
    suffices h2 : Wp (coreFuel E (n + 2) k) t (fun _ t' => Out k t.1.modeStack t.2 t') T2 T1 by
      refine wp_mono (wp_and h1 h2) (fun _ t' h' htk => ?_) (fun _ _ _ => trivial) (fun _ _ => trivial)
      exact cmd_out h hne hnt h'.1 h'.2 fun hin he => htk hi hin (mode_nil he)
    show Wp (coreStep (coreFuel E (n + 1)) E k) t _ _ _
    unfold coreStep
    rw [wp_bind, wp_getK]
    split
    · rename_i hm; exact absurd hm hn
    · rename_i hm; exact absurd hm hi
    · rename_i hm; exact replace_out E k h.vi h.quiet hm
    · rename_i p hm; exact delete_out E k h.vi h.quiet hm
    · rename_i m hm
      obtain ⟨r, hs, hu⟩ := h.vi.char hm
      exact moveToChar_out E k _ h.vi h.quiet (.inr (.inl ⟨m, r, hs, hu⟩)) _
    · rename_i hm; exact g_out E k h.vi h.quiet hm _
    · trivial

theorem Cmd.same {b0 : Buffer} {t t' : Vi × Ed} (h : Cmd b0 t) (h1 : t'.1 = t.1) (h2 : VI t')
    (h3 : t'.2.isSearch = t.2.isSearch) (h4 : workBuf t'.2 = workBuf t.2) : Cmd b0 t' :=
  ⟨h2, h3.trans h.quiet, by rw [h4, h1]; exact h.log, by rw [h1]; exact h.fresh⟩

/-- From the key map to the whole key. -/
theorem key_of {key : Key} {t : Vi × Ed} (hk : Seen t.2 key) {b : Buffer} (hb : t.2.curBuf? = some b)
    (comp : Text → List Text) {Q : Vi × Ed → Prop}
    (hQ : ∀ t1 t2 : Vi × Ed, Q t1 → t2.1 = t1.1 → t2.2.isSearch = t1.2.isSearch → workBuf t2.2 = workBuf t1.2 → Q t2)
    (h : Wp (handleKeyCore E key) t (fun _ t' => Q t') T2 T1) :
    Wp (keyMap.handleKey E comp key) t (fun d t' => d = false ∧ Q t') T2 T1 := by
  obtain ⟨v, s⟩ := t
  refine handleKey_seen E hk hb comp (wp_mono h (fun _ t1 h1 => ?_) (fun _ _ h => h) (fun _ h => h))
  rw [wp_ed]
  unfold skipCompletionsHint
  rw [wp_modify, wp_ed, wp_flush]
  exact ⟨fun _ => ⟨rfl, hQ _ _ h1 rfl rfl rfl⟩, fun _ => trivial⟩

/-! ### Undo -/

/-- What undo does to a text and its log. -/
def undone (x : Text × List Action) : Option (Text × List Action) :=
  (undoAll (Buffer.undoCut x.2 0 0).1 x.1).map fun d => (d, (Buffer.undoCut x.2 0 0).2)

/-- The current line with its log. -/
def Line (x : Text × List Action) (s : Ed) : Prop :=
  s.isSearch = false ∧ ∃ b, workBuf s = some b ∧ b.data = x.1 ∧ b.actions = x.2

theorem undo_undone {b b' : Buffer} {did : Bool} (h : b.undo = some (did, b')) :
    undone (b.data, b.actions) = some (b'.data, b'.actions) := by
  unfold Buffer.undo at h
  rw [Buffer.undoLoop_eq] at h
  unfold undone
  dsimp only
  cases hu : undoAll (Buffer.undoCut b.actions 0 0).1 b.data with
  | none => rw [hu] at h; simp at h
  | some d =>
    rw [hu] at h
    simp only [Option.map_some, Option.some.injEq, Prod.mk.injEq] at h
    rw [← h.2]; rfl

theorem path_nil {x y : Text} (h : Path [] x y) : x = y := by cases h; rfl

theorem undo_line {s : Ed} {x : Text × List Action} (h : Line x s) :
    Wp (undo E) s (fun _ s' => ∃ y, undone x = some y ∧ Line y s') (fun _ _ => True) T1 := by
  obtain ⟨hq, b, hb, hd, ha⟩ := h
  unfold undo
  rw [wp_bind, wp_curBufMut]
  refine ⟨fun b1 did b' hb1 hu => ?_, fun _ => trivial⟩
  rw [hb] at hb1; cases hb1
  have hq' : (setCur s b').isSearch = false := by rw [setCur_quiet]; exact hq
  have hx : undone x = some (b'.data, b'.actions) := by
    have := undo_undone hu
    rw [hd, ha] at this
    exact this
  have fin : ∀ m : EdM Unit, Gw Nothing m → Wp (do m; pure did : EdM Bool) (setCur s b')
      (fun _ s' => ∃ y, undone x = some y ∧ Line y s') (fun _ _ => True) T1 := by
    intro m hm
    rw [wp_bind]
    refine wp_mono (hm _ hq') (fun _ s1 h1 => ?_) (fun _ _ h => h) (fun _ h => h)
    obtain ⟨b2, es, g1, rfl, g3, g4⟩ := h1.log b' (setCur_workBuf s b')
    refine ⟨_, hx, h1.quiet, b2, g1, ?_, g3⟩
    exact (path_nil g4).symm
  dsimp only
  split
  · exact fin _ (gw_end E)
  · exact fin _ (gw_display E)

/-- The key `u` without a count. -/
theorem u_core {t : Vi × Ed} {x : Text × List Action} (hs : t.1.modeStack = []) (hc : t.1.count = 0) (h : Line x t.2) :
    Wp (handleKeyCore E (.char 'u')) t (fun _ t' => t'.1 = t.1 ∧ ∃ y, undone x = some y ∧ Line y t'.2) T2 T1 := by
  refine (wp_congr (core_normal E hs)).mpr ?_
  show Wp (do
    let v ← getK
    modK fun v => { v with count := 0 }
    ed (repeatWhile (Editor.undo E) v.moveCount) : ViM Unit) t _ _ _
  rw [wp_bind, wp_getK, wp_bind, wp_modK]
  have h1 : t.1.moveCount = 1 := by simp [moveCount, hc]
  have h2 : ({ t.1 with count := 0 } : Vi) = t.1 := by rw [← hc]
  rw [h1, h2, wp_ed]
  unfold repeatWhile
  rw [wp_bind]
  refine wp_mono (undo_line E h) (fun did s' h' => ?_) (fun _ _ _ => trivial) (fun _ h => h)
  unfold repeatWhile
  split
  · exact ⟨rfl, h'⟩
  · exact ⟨rfl, h'⟩

theorem Line.cur {x : Text × List Action} {s : Ed} (h : Line x s) : text? s = some x.1 := by
  obtain ⟨-, b, hb, hd, -⟩ := h
  obtain ⟨c, hc, he⟩ := curBuf_of_workBuf hb
  rw [text?, hc, ← hd, he]; rfl

/-- Repeated undo. -/
def undones : Nat → Text × List Action → Option (Text × List Action)
  | 0, x => some x
  | n + 1, x => (undone x).bind (undones n)

theorem u_press (n : Nat) : ∀ (kcs : List (Key × (Text → List Text))), kcs.map Prod.fst = List.replicate n (.char 'u') →
    ∀ (t : Vi × Ed) (x : Text × List Action), t.1.modeStack = [] → t.1.count = 0 → Line x t.2 →
    Wp (press keyMap E kcs) t (fun _ t' => t'.1 = t.1 ∧ ∃ y, undones n x = some y ∧ Line y t'.2) T2 T1 := by
  induction n with
  | zero =>
    intro kcs hk t x _ _ h
    rw [List.map_eq_nil_iff.1 hk]
    exact ⟨rfl, x, rfl, h⟩
  | succ n ih =>
    intro kcs hk t x hs hc h
    obtain ⟨⟨k, c⟩, ks, rfl, h1, h2⟩ := List.map_eq_cons_iff.1 hk
    dsimp only at h1
    subst h1
    unfold press
    rw [wp_bind]
    obtain ⟨-, b, hb, -⟩ := id h
    obtain ⟨b', hb', -⟩ := curBuf_of_workBuf hb
    refine wp_mono (key_of E (seen_char (by decide) (by decide)) hb' c
      (Q := fun t' => t'.1 = t.1 ∧ ∃ y, undone x = some y ∧ Line y t'.2) ?_ (u_core E hs hc h)) (fun _ t1 h' => ?_)
      (fun _ _ h => h) (fun _ h => h)
    · rintro t1 t2 ⟨g1, y, g2, g3, g4⟩ g5 g6 g7
      exact ⟨g5.trans g1, y, g2, g6.trans g3, by rw [g7]; exact g4⟩
    · obtain ⟨-, g1, y, g2, g3⟩ := h'
      refine wp_mono (ih ks h2 t1 y (by rw [g1]; exact hs) (by rw [g1]; exact hc) g3) (fun _ t2 h4 => ?_)
        (fun _ _ h => h) (fun _ h => h)
      obtain ⟨g4, z, g5, g6⟩ := h4
      exact ⟨g4.trans g1, z, by simp [undones, g2, g5], g6⟩

theorem seq_of {xs : List Action} (h : Plainly xs) (hne : xs ≠ []) : Seq xs := by
  induction xs with
  | nil => exact absurd rfl hne
  | cons a xs ih =>
    have h1 : Seq [a] := .edit a (h a (by simp))
    by_cases hx : xs = []
    · rw [hx]; exact h1
    · exact h1.app (ih (fun a ha => h a (by simp [ha])) hx)

/-- One undo takes a command back. -/
theorem undone_done {b0 : Buffer} {d : Text} {es : List Action} (hd : Done es) (hp : Path es b0.data d)
    (hne : d ≠ b0.data) : undone (d, es ++ b0.actions) = some (b0.data, b0.actions) := by
  have hc : Chunk es.reverse := by
    rcases hd with (rfl | ⟨a, ha, rfl⟩) | ⟨xs, hx, rfl⟩
    · cases hp; exact absurd rfl hne
    · exact .edit a ha
    · have hxs : xs ≠ [] := by
        rintro rfl
        refine hne ?_
        have := hp.undoAll
        simp [undoAll, Action.undo] at this
        exact this
      have := Chunk.group (seq_of (xs := xs.reverse) (fun a ha => hx a (by simpa using ha)) (by simpa using hxs))
      simpa using this
  unfold undone
  dsimp only
  have := Buffer.undoCut_chunk hc b0.actions
  rw [List.reverse_reverse] at this
  rw [this, hp.undoAll]
  rfl

/-! ### The beginning of a session -/

theorem gw_write (toks : List Tok) : Gw Nothing (writeTerm E toks) := by
  intro s hs
  rw [wp_writeTerm]
  exact ⟨fun _ => .same hs (workBuf_same rfl rfl rfl rfl rfl), fun _ => trivial⟩

theorem gw_start (p : Prompt) : Gw Nothing (start E p) := by
  have h1 := gw_write E
  have h2 := gw_display E
  have h3 := gw_end E
  have h4 : ∀ n m, Gw Nothing m → Gw Nothing (repeatN n m : EdM Unit) := fun n m hm => by
    induction n with
    | zero => exact gw_pure _
    | succ n ih => exact gw_quiet hm fun _ => ih
  unfold start
  refine gw_quiet (h1 _) fun _ => gw_ite gw_panic (gw_quiet (h4 _ _ (h1 _)) fun _ => gw_quiet (h1 _) fun _ => gw_quiet (h1 _) fun _ =>
    gw_quiet gw_get fun s => ?_)
  dsimp only
  exact gw_ite h2 (gw_quiet h3 fun _ => h2)

theorem kg_session (p : Prompt) : KG (fun es => es = [.startGroup]) (session keyMap E p []) := by
  unfold session
  refine kg_quiet (kg_ed (gw_start E p)) fun _ => kg_then ?_ fun _ => kg_pure _
  show KG _ (init E)
  unfold init
  exact kg_then (kg_ed gw_startGroup) fun _ => kg_editorMode E

theorem vx_session (p : Prompt) : Vx (session keyMap E p []) id := by
  unfold session
  refine vx_bind (g := id) (vx_ed _) fun _ => vx_bind (g := id) ?_ fun _ => vx_pure _
  show Vx (init E) _
  unfold init
  exact vx_bind (g := id) (vx_ed _) fun _ => vx_editorMode E
end
end Vi
end Liner
