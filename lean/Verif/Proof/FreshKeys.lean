import Verif.Proof.Fresh
/-
Every key leaves the screen up to date.
-/

namespace Liner
open Liner.Spec Liner.Editor M KM

/-- The key types no character outside `P`, and is Ctrl-L only when `L` holds. -/
def KeyInk (P : Char → Prop) (L : Prop) (k : Key) : Prop := (∀ c, k = .char c → P c) ∧ (k = .ctrl 'l' → L)

/-- Leaves the screen up to date, and keeps `I`. -/
def UpK {κ α : Type} (E : Env) (C : Ed → Prop) (I : κ → Prop) (m : KM κ α) : Prop :=
  ∀ t, I t.1 → Now E C t.2 → Wp m t (fun _ t' => I t'.1 ∧ Now E C t'.2) (fun _ _ => True) (fun _ => True)

section
variable {E : Env} {P : Char → Prop} {H : List Text → Prop} {L : Prop} {C : Ed → Prop} {κ α β : Type} {I : κ → Prop}

theorem upk_ed {m : EdM α} (h : Up E C m) : UpK E C I (KM.ed m : KM κ α) := by
  intro t hi ht
  rw [wp_ed]
  exact wp_mono (h t.2 ht) (fun _ _ h => ⟨hi, h⟩) (fun _ _ h => h) (fun _ h => h)
theorem upk_bind {m : KM κ α} {f : α → KM κ β} (h1 : UpK E C I m) (h2 : ∀ a, UpK E C I (f a)) : UpK E C I (m >>= f) := by
  intro t hi ht
  rw [wp_bind]
  exact wp_mono (h1 t hi ht) (fun a t1 h => h2 a t1 h.1 h.2) (fun _ _ h => h) (fun _ h => h)
theorem upk_getK_bind {f : κ → KM κ β} (h : ∀ v, I v → UpK E C I (f v)) : UpK E C I (KM.getK >>= f) := by
  intro t hi ht
  rw [wp_bind]
  exact h t.1 hi t hi ht
theorem upk_pure (a : α) : UpK E C I (pure a : KM κ α) := fun _ hi ht => ⟨hi, ht⟩
theorem upk_panic : UpK E C I (M.panic : KM κ α) := fun _ _ _ => trivial
theorem upk_throw (e : IoErr) : UpK E C I (M.throw e : KM κ α) := fun _ _ _ => trivial
theorem upk_ofOption (o : Option α) : UpK E C I (M.ofOption o : KM κ α) := by
  intro t hi ht
  rw [wp_ofOption]
  exact ⟨fun _ _ => ⟨hi, ht⟩, fun _ => trivial⟩
theorem upk_modK {f : κ → κ} (h : ∀ v, I v → I (f v)) : UpK E C I (KM.modK f) := fun t hi ht => ⟨h t.1 hi, ht⟩
theorem upk_ite {c : Prop} [Decidable c] {a b : KM κ α} (ha : UpK E C I a) (hb : UpK E C I b) : UpK E C I (if c then a else b) := by
  split <;> assumption
theorem upk_repeatN {m : KM κ Unit} (h : UpK E C I m) : ∀ n, UpK E C I (M.repeatN n m)
  | 0 => upk_pure ()
  | n + 1 => upk_bind h fun _ => upk_repeatN h n
theorem upk_forEach {f : β → KM κ Unit} {xs : List β} (h : ∀ x ∈ xs, UpK E C I (f x)) : UpK E C I (M.forEach xs f) := by
  induction xs with
  | nil => exact upk_pure ()
  | cons x xs ih => exact upk_bind (h x (by simp)) fun _ => ih fun y hy => h y (by simp [hy])

variable (hC : Scene E P H L C)
include hC

/-- One key, for any key map. -/
theorem now_handleKey {km : KeyMap κ} {key : Key} {comp : Text → List Text} (hkey : key ≠ .char '\t' → KeyInk P L (KeyMap.translate key))
    (hcore : key ≠ .char '\t' → UpK E C I (km.core E (KeyMap.translate key))) (hcomp : key = .char '\t' → CompOk P H comp) (hr : key = .ctrl 'r' → ∀ s, C s → C (refreshed false s))
    (hs : key = .ctrl 's' → ∀ s, C s → C (refreshed true s)) (t : κ × Ed) (hi : I t.1) (ht : Now E C t.2) :
    Wp (km.handleKey E comp key) t (fun r t' => r = false → I t'.1 ∧ Now E C t'.2) (fun _ _ => True) (fun _ => True) := by
  have tr : ∀ c, c ≠ 'h' → KeyMap.translate key = .ctrl c → key = .ctrl c := by
    intro c hc h
    unfold KeyMap.translate at h
    split at h
    · cases h
    · exact h
  have post : ∀ {m : KM κ Bool}, UpK E C I m → ∀ t : κ × Ed, I t.1 → Now E C t.2 →
      Wp m t (fun r t' => r = false → I t'.1 ∧ Now E C t'.2) (fun _ _ => True) (fun _ => True) :=
    fun h t hi ht => wp_mono (h t hi ht) (fun _ _ h _ => h) (fun _ _ h => h) (fun _ h => h)
  have hd : ∀ e, Wp (km.dispatch E comp e (KeyMap.translate key)) t (fun r t' => r = false → I t'.1 ∧ Now E C t'.2)
      (fun _ _ => True) (fun _ => True) := by
    intro e
    unfold KeyMap.dispatch
    rw [wp_bind, wp_ed, wp_get]
    split
    · rw [wp_bind]
      exact wp_mono wp_trivial (fun _ _ _ => trivial) (fun _ _ h => h) (fun _ h => h)
    split
    · rw [wp_bind]
      exact wp_mono wp_trivial (fun _ _ _ => trivial) (fun _ _ h => h) (fun _ h => h)
    split
    · rename_i htab
      have hcomp := hcomp (by
        unfold KeyMap.translate at htab
        split at htab
        · cases htab
        · exact htab)
      exact post (upk_bind (upk_ed (up_complete hC hcomp)) fun _ => upk_pure _) t hi ht
    rename_i htab
    have htab : key ≠ .char '\t' := by
      rintro rfl
      exact htab rfl
    have hkey := hkey htab
    have hcore := hcore htab
    split
    · rename_i hnl
      rw [wp_ed]
      exact wp_mono (now_newline hC (hkey.1 _ hnl) t.2 ht) (fun _ _ h hr => ⟨hi, h hr⟩) (fun _ _ h => h) (fun _ h => h)
    split
    · exact post (upk_bind (upk_ed (fin_accept hC).up) fun _ => upk_pure _) t hi ht
    split
    · rename_i h
      exact post (upk_bind (upk_ed (fin_search hC false (hr (tr _ (by decide) h))).up) fun _ => upk_pure _) t hi ht
    split
    · rename_i h
      exact post (upk_bind (upk_ed (fin_search hC true (hs (tr _ (by decide) h))).up) fun _ => upk_pure _) t hi ht
    refine post ?_ t hi ht
    have h1 : ∀ a : Bool, UpK E C I (if a = true then (do KM.ed (acceptAutosuggestion E); pure false : KM κ Bool)
        else do km.core E (KeyMap.translate key); KM.ed skipCompletionsHint; pure false) := by
      intro a
      refine upk_ite (upk_bind (upk_ed (fin_accept hC).up) fun _ => upk_pure _) ?_
      exact upk_bind hcore fun _ => upk_bind (upk_ed (up_skip hC)) fun _ => upk_pure _
    dsimp only
    split
    · exact upk_bind (upk_ed up_atEnd) h1
    · exact h1 false
  unfold KeyMap.handleKey
  rw [wp_bind, wp_ed, wp_curBuf]
  refine ⟨fun b _ => ?_, fun _ => trivial⟩
  rw [wp_bind]
  refine wp_mono (hd _) (fun r t1 h => ?_) (fun _ _ h => h) (fun _ h => h)
  rw [wp_bind, wp_ed]
  cases r with
  | true => exact wp_mono wp_trivial (fun _ _ _ => fun h => nomatch h) (fun _ _ h => h) (fun _ h => h)
  | false => exact wp_mono (up_flush hC t1.2 (h rfl).2) (fun _ _ h' _ => ⟨(h rfl).1, h'⟩) (fun _ _ h => h) (fun _ h => h)

end

/-- Several keys. -/
theorem now_goes {E : Env} {P : Char → Prop} {H : List Text → Prop} {L : Prop} {C : Ed → Prop} {κ : Type} {I : κ → Prop}
    (hC : Scene E P H L C) {km : KeyMap κ} (hcore : ∀ key, KeyInk P L key → UpK E C I (km.core E key))
    {keys : List (Key × (Text → List Text))} (hk : ∀ k ∈ keys, (k.1 ≠ .char '\t' → KeyInk P L k.1) ∧ (k.1 = .char '\t' → CompOk P H k.2))
    (hs : (∀ f s, C s → C (refreshed f s)) ∨ ∀ k ∈ keys, k.1 ≠ .ctrl 'r' ∧ k.1 ≠ .ctrl 's') {t t' : κ × Ed}
    (hg : Goes km E keys t t') (hi : I t.1) (ht : Now E C t.2) : I t'.1 ∧ Now E C t'.2 := by
  induction hg with
  | nil t => exact ⟨hi, ht⟩
  | cons h1 _ ih =>
    rename_i k comp ks t t1 t2 _
    have hk0 := hk (k, comp) (by simp)
    have hkt : k ≠ .char '\t' → KeyInk P L (KeyMap.translate k) := fun hne => by
      unfold KeyMap.translate
      split
      · exact ⟨(fun _ h => nomatch h), (fun h => nomatch h)⟩
      · exact hk0.1 hne
    have := wp_ok (now_handleKey hC hkt (fun h => hcore _ (hkt h)) hk0.2
      (fun h => hs.elim (fun hs => hs false) fun hs => absurd h (hs (k, comp) (by simp)).1)
      (fun h => hs.elim (fun hs => hs true) fun hs => absurd h (hs (k, comp) (by simp)).2) t hi ht) h1 rfl
    exact ih (fun k hk' => hk k (by simp [hk'])) (hs.imp id fun hs k hk' => hs k (by simp [hk'])) this.1 this.2

theorem actInk_any (a : Action) : ActInk (fun _ => True) a := by
  cases a <;> first | exact fun _ _ => trivial | trivial

/-- Without any condition. -/
theorem scene_any (E : Env) : Scene E (fun _ => True) (fun _ => True) True (fun _ => True) where
  inks _ _ := ⟨⟨fun _ _ => trivial, fun _ _ => actInk_any _, fun _ _ => actInk_any _⟩, ⟨fun _ _ => trivial, fun _ _ => actInk_any _, fun _ _ => actInk_any _⟩,
    fun _ _ _ _ => trivial, fun _ _ _ _ => trivial, fun _ _ _ _ _ _ => trivial⟩
  lists _ _ _ _ := trivial
  disp _ _ := wp_trivial
  put _ _ _ _ _ _ _ _ _ _ _ _ _ _ := trivial
  list _ _ _ _ := trivial
  tick _ _ _ := trivial
  mode _ _ _ _ _ := trivial
  load _ _ _ := trivial
  quiet _ _ := trivial
  top _ _ _ _ := trivial

/-! ### Emacs -/

namespace Emacs
variable {E : Env} {P : Char → Prop} {H : List Text → Prop} {L : Prop} {C : Ed → Prop} (hC : Scene E P H L C)
include hC

theorem up_moveWord (r : Bool) : Up E C (moveWord E r) := by
  unfold moveWord wordsAndPos
  refine up_bind (up_bind up_curBuf fun _ => up_bind up_get fun _ => up_pure _) fun x => ?_
  dsimp only
  split
  · exact up_pure _
  · exact up_bind (up_ofOption _) fun _ => (fin_to hC _).up

theorem up_deleteLastArg : Up E C (deleteLastArg E) := by
  unfold deleteLastArg
  refine up_bind up_curBuf fun b => ?_
  split
  · exact (fin_deleteUntil hC _).up
  · exact up_pure _

theorem upk_lastArg : UpK E C (fun _ => True) (handleLastArgFetch E) := by
  unfold handleLastArgFetch
  refine upk_bind (upk_ed up_get) fun s => upk_bind (fun t hi ht => ⟨hi, ht⟩) fun k => ?_
  refine upk_ite (upk_pure _) (upk_ite (upk_pure _) ?_)
  have h1 : ∀ i, UpK E C (fun _ => True) (do
      let s ← KM.ed get
      let b ← (ofOption s.history.buffers[i]? : KM Emacs Buffer)
      match b.lastArg with
      | some arg => KM.ed (Editor.insertCharsAfterCursor E arg)
      | none => pure ()
      modK fun k => { k with lastArgFetchIndex := some i }) := by
    intro i t hi ht
    rw [wp_bind, wp_ed, wp_get, wp_bind, wp_ofOption]
    refine ⟨fun b hb => ?_, fun _ => trivial⟩
    dsimp only at hb ⊢
    have hb' := (hC.inks _ ht.1).ent b (List.mem_of_getElem? hb)
    split
    · rename_i arg ha
      exact (upk_bind (upk_ed (fin_insert hC (lastArg_ink ha hb')).up) (fun _ => upk_modK fun _ _ => trivial) :
        UpK E C (fun _ => True) _) t hi ht
    · exact (upk_modK (fun _ _ => trivial) : UpK E C (fun _ => True) _) t hi ht
  dsimp only
  split
  · exact upk_bind (upk_ed (up_deleteLastArg hC)) fun _ => h1 _
  · exact h1 _

theorem up_ctrl {c : Char} (hl : c = 'l' → L) : Up E C (handleCtrlKey E c) := by
  unfold handleCtrlKey
  by_cases h : c = 'l'
  · rw [if_pos h]
    exact (fin_clear hC (hl h)).up
  rw [if_neg h]
  repeat' (with_reducible apply up_ite)
  · exact (fin_home hC).up
  · exact (fin_moveEnd hC).up
  · exact (fin_left hC _).up
  · exact (fin_right hC _).up
  · exact (fin_deleteAfter hC).up
  · exact (fin_moveUp hC).up
  · exact (fin_moveDown hC).up
  · exact (fin_deleteAllBefore hC).up
  · exact (fin_deleteAllAfter hC).up
  · exact (fin_deleteWord hC _).up
  · exact up_bind (fin_undo hC).up fun _ => up_pure _
  · exact up_pure _

theorem upk_core {key : Key} (hk : KeyInk P L key) : UpK E C (fun _ => True) (keyMap.core E key) := by
  show UpK E C _ (handleKeyCore E key)
  unfold handleKeyCore
  have hb : UpK E C (fun _ => True) (handleKeyBody E key) := by
    cases key <;> unfold handleKeyBody <;> dsimp only
    case char c => exact upk_ed (fin_insert hC (fun x hx => by simp only [List.mem_singleton] at hx; subst hx; exact hk.1 _ rfl)).up
    case alt c =>
      unfold handleAltKey
      repeat' (with_reducible apply upk_ite)
      · exact upk_ed (fin_histStart hC).up
      · exact upk_ed (fin_histEnd hC).up
      · exact upk_ed (fin_deleteWord hC _).up
      · exact upk_ed (up_moveWord hC _)
      · exact upk_ed (up_moveWord hC _)
      · exact upk_bind (upk_ed (fin_revert hC).up) fun _ => upk_pure _
      · exact upk_lastArg hC
      · exact upk_pure _
    case ctrl c => exact upk_ed (up_ctrl hC fun h => hk.2 (by rw [h]))
    case left => exact upk_ed (fin_left hC _).up
    case right => exact upk_ed (fin_right hC _).up
    case up => exact upk_ed (fin_moveUp hC).up
    case down => exact upk_ed (fin_moveDown hC).up
    case home => exact upk_ed (fin_home hC).up
    case «end» => exact upk_ed (fin_moveEnd hC).up
    case backspace => exact upk_ed (fin_deleteBefore hC).up
    case delete => exact upk_ed (fin_deleteAfter hC).up
    all_goals exact upk_pure _
  dsimp only
  split
  · exact hb
  · exact upk_bind (upk_modK fun _ _ => trivial) fun _ => hb

end Emacs

/-! ### Vi -/

namespace Vi

def KeysInk (P : Char → Prop) (L : Prop) (ks : List Key) : Prop := ∀ k ∈ ks, KeyInk P L k
def OptInk (P : Char → Prop) (L : Prop) (o : Option Key) : Prop := ∀ k, o = some k → KeyInk P L k

/-- The remembered keys type no character outside `P`. -/
structure ViInk (P : Char → Prop) (L : Prop) (v : Vi) : Prop where
  cmd : KeysInk P L v.lastCommand
  cur : KeysInk P L v.currentCommand
  li : OptInk P L v.lastInsert
  ci : OptInk P L v.currentInsert

section
variable {P : Char → Prop} {L : Prop}
theorem keysInk_nil : KeysInk P L [] := fun _ h => nomatch h
theorem optInk_none : OptInk P L none := fun _ h => nomatch h
theorem optInk_some {k : Key} (h : KeyInk P L k) : OptInk P L (some k) := fun _ e => by cases e; exact h
theorem keysInk_cons {k : Key} {ks : List Key} (h : KeyInk P L k) (hk : KeysInk P L ks) : KeysInk P L (k :: ks) := by
  intro x hx
  cases hx with
  | head => exact h
  | tail _ hx => exact hk x hx
theorem keysInk_snoc {k : Key} {ks : List Key} (hk : KeysInk P L ks) (h : KeyInk P L k) : KeysInk P L (ks ++ [k]) := by
  intro x hx
  rcases List.mem_append.mp hx with hx | hx
  · exact hk x hx
  · simp only [List.mem_singleton] at hx; subst hx; exact h
end

/-- The letters that the vi key map types itself. -/
structure OwnKeys (P : Char → Prop) : Prop where
  h : P 'h'
  i : P 'i'
  j : P 'j'
  k : P 'k'
  l : P 'l'
  r : P 'r'

theorem keyInk_char {P : Char → Prop} {L : Prop} {c : Char} (h : P c) : KeyInk P L (.char c) :=
  ⟨fun _ e => by cases e; exact h, fun h => nomatch h⟩

macro "vink" : tactic => `(tactic| (
  intro v hv
  refine ⟨?_, ?_, ?_, ?_⟩ <;> first
    | exact hv.cmd | exact hv.cur | exact hv.li | exact hv.ci | exact keysInk_nil | exact optInk_none
    | exact keysInk_snoc hv.cmd (by assumption) | exact keysInk_snoc hv.cur (by assumption)
    | exact optInk_some (by assumption) | exact keysInk_cons (by assumption) keysInk_nil
    | exact keysInk_cons (by assumption) (keysInk_cons (by assumption) keysInk_nil)))

/-- Go through the program text of the vi key map. -/
macro "upvi " h:ident : tactic => `(tactic| repeat' (first
  | with_reducible assumption
  | with_reducible exact Fin.up (fin_undo $h)
  | with_reducible exact Fin.up (fin_redo $h)
  | with_reducible exact Fin.up (fin_moveUp $h)
  | with_reducible exact Fin.up (fin_moveDown $h)
  | with_reducible exact Fin.up (fin_deleteBefore $h)
  | with_reducible exact Fin.up (fin_deleteAfter $h)
  | with_reducible exact Fin.up (fin_deleteAllAfter $h)
  | with_reducible exact Fin.up (fin_deleteUntil $h _)
  | with_reducible exact Fin.up (fin_deleteUntilInclusive $h _)
  | with_reducible exact Fin.up (fin_left $h _)
  | with_reducible exact Fin.up (fin_right $h _)
  | with_reducible exact Fin.up (fin_to $h _)
  | with_reducible exact Fin.up (fin_home $h)
  | with_reducible exact Fin.up (fin_moveEnd $h)
  | with_reducible exact Fin.up (fin_display $h)
  | with_reducible exact up_curBuf
  | with_reducible exact up_get
  | with_reducible exact up_panic
  | with_reducible exact up_pure _
  | with_reducible exact up_ofOption _
  | with_reducible exact upk_pure _
  | with_reducible exact upk_panic
  | with_reducible exact upk_ofOption _
  | ((with_reducible apply upk_modK); vink)
  | with_reducible apply upk_getK_bind
  | with_reducible apply upk_bind
  | with_reducible apply upk_ite
  | with_reducible apply upk_ed
  | with_reducible apply upk_repeatN
  | with_reducible apply up_bind
  | with_reducible apply up_ite
  | with_reducible apply up_repeatN
  | with_reducible intro _
  | split
  | dsimp only))

variable {E : Env} {P : Char → Prop} {H : List Text → Prop} {L : Prop} {C : Ed → Prop} (hC : Scene E P H L C)

include hC

theorem up_startGroup : Up E C (onBuf Buffer.startUndoGroup) := up_curBufMut hC inkOk_start fun b a b' h => by cases h; rfl
theorem up_endGroup : Up E C (onBuf Buffer.endUndoGroup) := up_curBufMut hC inkOk_end fun b a b' h => by cases h; rfl

theorem upk_setNoEol (b : Bool) : UpK E C (ViInk P L) (setNoEol b) := upk_ed (up_noEol hC b)

omit hC in
theorem upk_popStack : UpK E C (ViInk P L) popStack := fun _ hi ht => ⟨⟨hi.1, hi.2, hi.3, hi.4⟩, ht⟩

theorem up_displayUnwrap : Up E C (displayUnwrap E) := by
  intro s hs
  have := fin_display hC s hs.1
  unfold Wp displayUnwrap
  unfold Wp at this
  cases hd : display E s with
  | ok a s' => rw [hd] at this; exact this
  | err e s' => trivial
  | panic w => trivial

theorem upk_setEditorMode : UpK E C (ViInk P L) (setEditorMode E) := by
  have h : ∀ m, UpK E C (ViInk P L) (do KM.ed (setViMode m); KM.ed (display E)) := by
    intro m t hi ht
    rw [wp_bind, wp_ed]
    refine wp_mono (kp_setViMode hC m t.2 ht.1) (fun _ s h => ?_) (fun _ _ h => h) (fun _ h => h)
    rw [wp_ed]
    exact wp_mono (fin_display hC s h) (fun _ _ h => ⟨hi, h⟩) (fun _ _ h => h) (fun _ h => h)
  unfold setEditorMode
  refine upk_getK_bind fun v _ => ?_
  split
  · exact h _
  · exact h _
  · exact upk_pure _

theorem upk_setModePreserveLast (m : Mode) : UpK E C (ViInk P L) (setModePreserveLast E m) := by
  have h1 := upk_setNoEol hC
  have h2 := upk_setEditorMode hC
  have h3 := up_startGroup hC
  unfold setModePreserveLast
  upvi hC
  exact h1 _

theorem upk_setMode (m : Mode) : UpK E C (ViInk P L) (setMode E m) := by
  have h2 := upk_setModePreserveLast hC m
  unfold setMode; upvi hC

theorem upk_popModeAfterMovement (i : Bool) : UpK E C (ViInk P L) (popModeAfterMovement E i) := by
  have h1 := upk_setNoEol hC
  have h2 := upk_setEditorMode hC
  have h3 := upk_popStack (E := E) (C := C) (P := P) (L := L)
  unfold popModeAfterMovement
  upvi hC
  all_goals exact h1 _

theorem upk_popMode : UpK E C (ViInk P L) (popMode E) := by
  have h1 := upk_setNoEol hC
  have h2 := upk_setEditorMode hC
  have h3 := upk_popStack (E := E) (C := C) (P := P) (L := L)
  have h4 := up_displayUnwrap hC
  have h5 := up_endGroup hC
  unfold popMode
  upvi hC
  all_goals exact h1 _

theorem upk_abort : UpK E C (ViInk P L) (normalModeAbort E) := by
  have h1 := upk_setNoEol hC
  have h2 := upk_setEditorMode hC
  unfold normalModeAbort
  upvi hC
  all_goals exact h1 _

omit hC in
theorem upk_countLeft : UpK E C (ViInk P L) moveCountLeft := by 
  unfold moveCountLeft
  exact upk_getK_bind fun _ _ => upk_bind (upk_ed up_get) fun _ => upk_pure _
omit hC in
theorem upk_countRight : UpK E C (ViInk P L) moveCountRight := by 
  unfold moveCountRight
  exact upk_getK_bind fun _ _ => upk_bind (upk_ed up_get) fun _ => upk_bind (upk_ed up_curBuf) fun _ => upk_ite upk_panic (upk_pure _)
theorem up_common {key : Key} (hl : key = .ctrl 'l' → L) : Up E C (handleKeyCommon E key) := by
  unfold handleKeyCommon
  by_cases h : key = .ctrl 'l'
  · rw [if_pos h]
    exact (fin_clear hC (hl h)).up
  rw [if_neg h]
  upvi hC

theorem up_moveWord (kw r : Bool) (n : Nat) : Up E C (moveWord E kw r n) := by unfold moveWord; upvi hC
theorem up_moveWordEnd (kw r : Bool) (n : Nat) : Up E C (moveWordEnd E kw r n) := by unfold moveWordEnd; upvi hC

omit hC in
theorem up_repeatWhile {op : EdM Bool} (h : Up E C op) : ∀ n, Up E C (repeatWhile op n)
  | 0 => up_pure _
  | n + 1 => up_bind h fun _ => up_ite (up_repeatWhile h n) (up_pure _)

theorem up_tilde (hcase : ∀ c, P c → Ink P (E.cc.toUppercase c) ∧ Ink P (E.cc.toLowercase c)) : Up E C (tildeStep E) := by
  intro s hs
  unfold tildeStep
  rw [wp_bind, wp_curBuf]
  refine ⟨fun b hb => ?_, fun _ => trivial⟩
  rw [wp_bind, wp_get, wp_bind, wp_ofOption]
  refine ⟨fun c hc => ?_, fun _ => trivial⟩
  have hP : P c := curBuf_ink (hC.inks s hs.1) hb c (List.mem_of_getElem? hc)
  have hi : ∀ cs, Ink P cs → Up E C (insertEach E cs) := fun cs h => up_forEach fun x hx =>
    (fin_insert hC (fun y hy => by simp only [List.mem_singleton] at hy; subst hy; exact h _ hx)).up
  refine (?_ : Up E C _) s hs
  exact up_ite (up_bind (fin_deleteAfter hC).up fun _ => hi _ (hcase c hP).1)
    (up_ite (up_bind (fin_deleteAfter hC).up fun _ => hi _ (hcase c hP).2) (fin_right hC _).up)

theorem upk_moveToChar {key : Key} (hk : KeyInk P L key) (arg : MoveArg) : UpK E C (ViInk P L) (handleKeyMoveToChar E key arg) := by
  have h1 := upk_popModeAfterMovement hC
  have h2 := upk_abort hC
  unfold handleKeyMoveToChar; upvi hC
  all_goals exact h1 _

theorem upk_replace (ho : OwnKeys P) {key : Key} (hk : KeyInk P L key) : UpK E C (ViInk P L) (handleKeyReplace E key) := by
  have h1 := upk_countRight (E := E) (C := C) (P := P) (L := L)
  have h2 := upk_popMode hC
  have h3 := upk_abort hC
  have h5 := up_startGroup hC
  have h6 := up_endGroup hC
  have h7 := keyInk_char (L := L) ho.r
  unfold handleKeyReplace replaceStep
  cases key
  case char c =>
    have h8 : Up E C (insertCharsAfterCursor E [c]) :=
      (fin_insert hC (fun x hx => by simp only [List.mem_singleton] at hx; subst hx; exact hk.1 _ rfl)).up
    upvi hC
  all_goals upvi hC

theorem upk_g {key : Key} (hk : KeyInk P L key) : UpK E C (ViInk P L) (handleKeyG E key) := by
  have h1 := upk_popModeAfterMovement hC
  have h3 := upk_abort hC
  have h9 := up_moveWord hC
  unfold handleKeyG
  upvi hC
  all_goals first | exact h1 _ | exact h9 _ _ _

theorem upk_resetInsert (ho : OwnKeys P) : UpK E C (ViInk P L) resetInsert := by
  have h1 := up_startGroup hC
  have h2 := up_endGroup hC
  have h3 := keyInk_char (L := L) ho.i
  unfold resetInsert; upvi hC

section
variable {core : Key → ViM Unit} (hc : ∀ k, KeyInk P L k → UpK E C (ViInk P L) (core k))
include hc

omit hC in
theorem upk_replay {keys : List Key} (h : KeysInk P L keys) : UpK E C (ViInk P L) (replay core keys) :=
  upk_forEach fun k hk => hc k (h k hk)

omit hC in
theorem upk_insertRepeats (n : Nat) : UpK E C (ViInk P L) (insertRepeats core n) := by
  unfold insertRepeats
  refine upk_repeatN (upk_getK_bind fun v hv => upk_bind (upk_modK ?_) fun _ => upk_replay hc hv.cmd) n
  vink

theorem upk_insertKey (ho : OwnKeys P) {key : Key} (hk : KeyInk P L key) : UpK E C (ViInk P L) (handleKeyInsert core E key) := by
  have h1 := upk_insertRepeats hc
  have h2 := upk_resetInsert hC ho
  have h3 := upk_popMode hC
  have h4 := up_common hC hk.2
  have h5 := up_startGroup hC
  have h6 := up_endGroup hC
  unfold handleKeyInsert
  cases key
  case char c =>
    have h8 : Up E C (insertCharsAfterCursor E [c]) :=
      (fin_insert hC (fun x hx => by simp only [List.mem_singleton] at hx; subst hx; exact hk.1 _ rfl)).up
    upvi hC
    all_goals exact h1 _
  all_goals
    upvi hC
    all_goals exact h1 _

omit hC in
theorem upk_repeatLast : UpK E C (ViInk P L) (repeatLast core) := by
  unfold repeatLast
  refine upk_bind (upk_modK (by vink)) fun _ => upk_getK_bind fun v hv => ?_
  refine upk_bind (upk_modK (by vink)) fun _ => ?_
  have hr : UpK E C (ViInk P L) (do
      replay core v.lastCommand
      let v_1 ← KM.getK
      if v_1.lastInsert.isSome = true then core .esc else pure ()
      modK fun v_2 => { v_2 with lastCommand := v.lastCommand }) := by
    refine upk_bind (upk_replay hc hv.cmd) fun _ => upk_getK_bind fun w hw => ?_
    have hm : UpK E C (ViInk P L) (modK fun v_2 : Liner.Vi => { v_2 with lastCommand := v.lastCommand }) :=
      upk_modK fun u hu => ⟨hv.cmd, hu.cur, hu.li, hu.ci⟩
    dsimp only
    split
    · exact upk_bind (hc _ ⟨(fun _ h => nomatch h), (fun h => nomatch h)⟩) fun _ => hm
    · exact hm
  dsimp only
  split
  · rename_i k hk
    exact upk_bind (hc k (hv.li k hk)) fun _ => hr
  · exact hr

set_option maxHeartbeats 2000000 in
theorem upk_normalChar (hcase : ∀ c, P c → Ink P (E.cc.toUppercase c) ∧ Ink P (E.cc.toLowercase c)) {c : Char} (hk : P c) :
    UpK E C (ViInk P L) (normalChar core E c) := by
  have h0 := keyInk_char (L := L) hk
  have h1 := upk_popModeAfterMovement hC
  have h2 := upk_setMode hC
  have h3 := upk_setModePreserveLast hC
  have h4 := upk_countLeft (E := E) (C := C) (P := P) (L := L)
  have h5 := upk_countRight (E := E) (C := C) (P := P) (L := L)
  have h6 := up_common hC h0.2
  have h7 := upk_repeatLast hc
  have h8 := upk_moveToChar hC h0
  have h9 := up_moveWord hC
  have h10 := up_moveWordEnd hC
  have h11 := up_tilde hC hcase
  have h12 : ∀ n, Up E C (repeatWhile (Editor.undo E) n) := up_repeatWhile (fin_undo hC).up
  have h13 := upk_popMode hC
  unfold normalChar rememberKey
  upvi hC
  all_goals first
    | exact h1 _ | exact h2 _ | exact h3 _ | exact h6 | exact h8 _ | exact h9 _ _ _
    | exact h10 _ _ _ | exact h12 _

theorem upk_normal (hcase : ∀ c, P c → Ink P (E.cc.toUppercase c) ∧ Ink P (E.cc.toLowercase c)) (ho : OwnKeys P) {key : Key}
    (hk : KeyInk P L key) : UpK E C (ViInk P L) (handleKeyNormal core E key) := by
  have h1 := fun {c} => upk_normalChar hC hc hcase (c := c)
  have h5 := upk_countRight (E := E) (C := C) (P := P) (L := L)
  have h6 := up_common hC hk.2
  have h12 : ∀ n, Up E C (repeatWhile (Editor.redo E) n) := up_repeatWhile (fin_redo hC).up
  unfold handleKeyNormal rememberKey
  cases key
  case char c => exact h1 (hk.1 c rfl)
  case left => exact h1 ho.h
  case backspace => exact h1 ho.h
  case right => exact h1 ho.l
  case up => exact h1 ho.k
  case down => exact h1 ho.j
  all_goals
    upvi hC
    all_goals first | exact h6 | exact h12 _

theorem upk_deleteOrChange (hcase : ∀ c, P c → Ink P (E.cc.toUppercase c) ∧ Ink P (E.cc.toLowercase c)) (ho : OwnKeys P)
    {key : Key} (hk : KeyInk P L key) : UpK E C (ViInk P L) (handleKeyDeleteOrChange core E key) := by
  have h1 := upk_normal hC hc hcase ho hk
  have h2 := upk_popMode hC
  have h3 := upk_abort hC
  unfold handleKeyDeleteOrChange
  upvi hC

theorem upk_coreStep (hcase : ∀ c, P c → Ink P (E.cc.toUppercase c) ∧ Ink P (E.cc.toLowercase c)) (ho : OwnKeys P)
    {key : Key} (hk : KeyInk P L key) : UpK E C (ViInk P L) (coreStep core E key) := by
  have h1 := upk_normal hC hc hcase ho hk
  have h2 := upk_insertKey hC hc ho hk
  have h3 := upk_replace hC ho hk
  have h4 := upk_deleteOrChange hC hc hcase ho hk
  have h5 := upk_moveToChar hC hk
  have h6 := upk_g hC hk
  unfold coreStep
  upvi hC
  all_goals exact h5 _

end

theorem upk_coreFuel (hcase : ∀ c, P c → Ink P (E.cc.toUppercase c) ∧ Ink P (E.cc.toLowercase c)) (ho : OwnKeys P) :
    ∀ n key, KeyInk P L key → UpK E C (ViInk P L) (coreFuel E n key)
  | 0, _, _ => upk_panic
  | n + 1, key, hk => by
    unfold coreFuel
    exact upk_coreStep hC (upk_coreFuel hcase ho n) hcase ho hk

theorem upk_core (hcase : ∀ c, P c → Ink P (E.cc.toUppercase c) ∧ Ink P (E.cc.toLowercase c)) (ho : OwnKeys P) {key : Key}
    (hk : KeyInk P L key) : UpK E C (ViInk P L) (Vi.keyMap.core E key) := upk_coreFuel hC hcase ho _ key hk

theorem upk_init : UpK E C (ViInk P L) (Vi.keyMap.init E) := by
  have h1 := up_startGroup hC
  have h2 := upk_setEditorMode hC
  show UpK E C _ (Vi.init E)
  unfold Vi.init
  upvi hC

end Vi
end Liner
