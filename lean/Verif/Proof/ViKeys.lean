import Verif.Proof.ViMode
import Verif.Proof.Open
import Verif.Proof.Keys
import Verif.Spec.Vi
/-
The exact effect of the keys of the vi key map outside a search.
-/

set_option linter.unusedSectionVars false

namespace Liner
namespace Vi
open Liner.Spec Liner.Editor M KM

/-- The action leads to the state `v'` of the key map and the cursor between `l` and `r`, and does not
panic except possibly in a redraw. -/
abbrev Gives [Around] {α : Type} (m : ViM α) (t : Vi × Ed) (v' : Vi) (e : Bool) (l r : Text) : Prop :=
  Wp m t (fun _ t' => t'.1 = v' ∧ Open e t'.2 l r) T2 (· ≠ .op)

/-- The same, the position being given by a pair. -/
abbrev GivesP [Around] {α : Type} (m : ViM α) (t : Vi × Ed) (v' : Vi) (e : Bool) (p : Text × Text) : Prop :=
  Gives m t v' e p.1 p.2

theorem rest_rest (e : Bool) (l r : Text) : rest e (rest e l r).1 (rest e l r).2 = rest e l r := by
  by_cases h : e = true ∧ r = []
  · obtain ⟨rfl, rfl⟩ := h
    rcases List.eq_nil_or_concat l with rfl | ⟨l', c, rfl⟩ <;> simp [rest]
  · have : rest e l r = (l, r) := by simp [rest, h]
    rw [this, this]

section
variable [Around] {α β : Type} {e : Bool} {l r : Text} {v v' : Vi} {s : Ed} {t : Vi × Ed}

theorem gives_bind {m : ViM α} {f : α → ViM β} {l' r' : Text} {e' : Bool} {v'' : Vi}
    (h1 : Gives m t v' e l r) (h2 : ∀ a s', Open e s' l r → Gives (f a) (v', s') v'' e' l' r') :
    Gives (m >>= f) t v'' e' l' r' := by
  rw [Gives, wp_bind]
  refine wp_mono h1 (fun a t' h => ?_) (fun _ _ h => h) (fun _ h => h)
  obtain ⟨v1, s1⟩ := t'
  obtain ⟨rfl, h⟩ := h
  exact h2 a s1 h

theorem gives_ed {m : EdM α} (h : Yields m e s s l r) :
    GivesP (ed m) (v, s) v e (rest e l r) := by
  rw [GivesP, Gives, wp_ed]
  exact wp_mono h (fun _ _ h => ⟨rfl, h.here⟩) (fun _ _ h => h) (fun _ h => h)

theorem gives_modK {f : Vi → Vi} (h : Open e s l r) : Gives (modK f) (v, s) (f v) e l r := ⟨rfl, h⟩
theorem gives_pure (a : α) (h : Open e s l r) : Gives (pure a) (v, s) v e l r := ⟨rfl, h⟩

/-- Reading the key map. -/
theorem gives_getK {f : Vi → ViM α} {l' r' : Text} {e' : Bool} {v'' : Vi}
    (h : Gives (f v) (v, s) v'' e' l' r') : Gives (getK >>= f) (v, s) v'' e' l' r' := by
  rw [Gives, wp_bind, wp_getK]; exact h

theorem gives_get {f : Ed → ViM α} {l' r' : Text} {e' : Bool} {v'' : Vi}
    (h : Gives (f s) (v, s) v'' e' l' r') : Gives (ed M.get >>= f) (v, s) v'' e' l' r' := by
  rw [Gives, wp_bind, wp_ed, wp_get]; exact h

theorem gives_mod {f : Vi → Vi} {g : Unit → ViM α} {l' r' : Text} {e' : Bool} {v'' : Vi}
    (h : Gives (g ()) (f v, s) v'' e' l' r') : Gives (modK f >>= g) (v, s) v'' e' l' r' := by
  rw [Gives, wp_bind, wp_modK]; exact h

theorem gives_curBuf {f : Buffer → ViM α} {l' r' : Text} {e' : Bool} {v'' : Vi}
    (ho : Open e s l r) (h : ∀ b, s.curBuf? = some b → b.data = l ++ r → Gives (f b) (v, s) v'' e' l' r') :
    Gives (ed curBuf >>= f) (v, s) v'' e' l' r' := by
  obtain ⟨b, hb, hd⟩ := text?_eq.mp ho.here.1
  rw [Gives, wp_bind, wp_ed, wp_curBuf]
  refine ⟨fun b' hb' => ?_, fun hn => ?_⟩
  · exact h b' hb' (by rw [show s.curBuf? = some b' from hb'] at hb; cases hb; exact hd)
  · rw [show s.curBuf? = none from hn] at hb; cases hb

theorem gives_setNoEol (b : Bool) (h : Open e s l r) : Gives (setNoEol b) (v, s) v b l r :=
  ⟨rfl, h.quiet, rfl, around_as h.around ⟨rfl, rfl, rfl, rfl, fun _ => rfl, rfl, id, fun _ => rfl⟩, h.here⟩

/-- Changes of the undo log alone. -/
theorem gives_onBuf {f : Buffer → Buffer} (hf : ∀ b, (f b).data = b.data) (h : Open e s l r) :
    Gives (ed (onBuf f)) (v, s) v e l r := by
  rw [Gives, wp_ed]
  refine wp_edit_open h (fun b hb => ⟨(), f b, rfl, rfl, ?_⟩)
  exact h.set' ((hf b).trans hb) h.here.2

theorem open_prompt (h : Open e s l r) (p : Prompt) : Open e { s with prompt := p } l r :=
  ⟨h.quiet, h.ne, around_as h.around ⟨rfl, rfl, rfl, rfl, fun _ => rfl, rfl, id, fun _ => rfl⟩, h.here⟩

end

section
variable [Around] (E : Env) {e : Bool} {l r : Text} {v : Vi} {s : Ed}

theorem setViMode_display (m : ViPromptMode) (h : Open e s l r) :
    GivesP (do ed (setViMode m); ed (display E) : ViM Unit) (v, s) v e (rest e l r) := by
  rw [GivesP, Gives, wp_bind, wp_ed]
  unfold setViMode
  rw [wp_modify]
  have : Open e (match s.prompt.viStatus with
      | some st => { s with prompt := { s.prompt with viStatus := some { st with mode := m } } }
      | none => s) l r := by
    split
    · exact open_prompt h _
    · exact h
  exact gives_ed (display_sets E this (Side.refl _))

theorem setEditorMode_gives (hv : v.modeStack = [] ∨ v.modeStack = [.insert]) (h : Open e s l r) :
    GivesP (setEditorMode E) (v, s) v e (rest e l r) := by
  unfold setEditorMode
  refine gives_getK ?_
  rcases hv with hv | hv
  · rw [mode_nil hv]; exact setViMode_display E _ h
  · rw [mode_cons hv]; exact setViMode_display E _ h

theorem abort_gives (h : Open e s l r) :
    GivesP (normalModeAbort E) (v, s) { v with modeStack := [], count := 0 } true (rest true l r) := by
  unfold normalModeAbort
  refine gives_mod (gives_bind (gives_setNoEol true h) fun _ s1 h1 => gives_mod ?_)
  exact setEditorMode_gives E (.inl rfl) h1

theorem seen_char {c : Char} (h1 : c ≠ '\t') (h2 : c ≠ '\n') : Seen s (.char c) := by
  constructor <;> simp [h1, h2]

theorem seen_esc : Seen s .esc := by constructor <;> simp

/-- Right with a suggestion, but not at the end. -/
theorem right_core {b : Buffer} (hb : s.curBuf? = some b) (comp : Text → List Text) {e : Bool}
    (ha : s.autosuggestion.isSome = true) (hn : ¬ AtRight s) :
    keyMap.dispatch E comp e .right (v, s) = toCore keyMap E .right (v, s) := by
  rw [dispatch_right keyMap E comp (v, s) ha]
  have hf : cursorIsAtEndOfLine s = .ok false s := by
    unfold cursorIsAtEndOfLine
    rw [bind_ok (show curBuf s = .ok b s by unfold curBuf; rw [hb]), bind_ok (show M.get s = .ok s s from rfl)]
    have ht : text? s = some b.data := by rw [text?, hb]; rfl
    cases hne : s.noEol
    · rw [if_neg (by simp)]
      have : s.cursor ≠ b.numChars := fun h => hn ⟨b.data, ht, by rw [hne]; exact Nat.le_of_eq h.symm⟩
      show Out.ok (decide _) s = _
      rw [decide_eq_false this]
    · rw [if_pos rfl]
      have h0 : ¬ b.numChars ≤ s.cursor + 1 := fun h => hn ⟨b.data, ht, by rw [hne]; exact h⟩
      rw [if_neg (by omega)]
      show Out.ok (decide _) s = _
      rw [decide_eq_false (by omega)]
  rw [bind_ok (show (ed cursorIsAtEndOfLine : ViM Bool) (v, s) = .ok false (v, s) by
    unfold KM.ed M.zoom; simp only [hf]), if_neg (by simp)]

/-- What the key does is what the key map does with it. -/
theorem handleKey_seen {key : Key} (hk : Seen s key) {b : Buffer} (hb : s.curBuf? = some b)
    (comp : Text → List Text) {Q : Bool → Vi × Ed → Prop} {R : IoErr → Vi × Ed → Prop} {P : Site → Prop}
    (h : Wp (handleKeyCore E key) (v, s) (fun _ t1 =>
      Wp (ed skipCompletionsHint : ViM Unit) t1 (fun _ t2 =>
        Wp (ed (flush E) : ViM Unit) t2 (fun _ t3 => Q false t3) R P) R P) R P) :
    Wp (keyMap.handleKey E comp key) (v, s) Q R P := by
  rw [wp_congr (handleKey_eq (t := (v, s)) keyMap E comp hb key)]
  have hcore : keyMap.dispatch E comp b.isEmpty key (v, s) = toCore keyMap E key (v, s) := by
    by_cases hr : key = .right ∧ s.autosuggestion.isSome = true
    · obtain ⟨rfl, ha⟩ := hr
      exact right_core E hb comp ha (fun h => hk.right ⟨rfl, ha, h⟩)
    · exact dispatch_core keyMap E comp (v, s) hk.ctrlC (fun h => hk.ctrlD ⟨h.1, by
        rw [text?, hb]; simpa [Buffer.isEmpty] using h.2⟩) hk.tab hk.enter hk.accept hk.searchR hk.searchS hr
  rw [show KeyMap.translate key = key by simp [KeyMap.translate, hk.ctrlH], wp_bind, wp_congr hcore]
  unfold toCore
  rw [show keyMap.core E key = handleKeyCore E key from rfl]
  simp only [wp_bind, wp_pure]
  exact h

theorem open_same {s' : Ed} (h : Open e s l r) (hc : s'.curBuf? = s.curBuf?) (hu : s'.cursor = s.cursor)
    (hs : s'.isSearch = s.isSearch) (hn : s'.noEol = s.noEol) (ha : Unmoved s s') : Open e s' l r :=
  ⟨hs.trans h.quiet, hn.trans h.ne, around_as h.around ha, by rw [text?, hc]; exact h.here.1, hu.trans h.here.2⟩

/-- From the core to the whole key. -/
theorem handleKey_gives {key : Key} (hk : Seen s key) {e' : Bool} {l' r' : Text} {v' : Vi}
    (h : Open e s l r) (comp : Text → List Text)
    (hg : Gives (handleKeyCore E key) (v, s) v' e' l' r') :
    Wp (keyMap.handleKey E comp key) (v, s)
      (fun d t' => d = false ∧ t'.1 = v' ∧ Open e' t'.2 l' r') T2 (· ≠ .op) := by
  obtain ⟨b, hb, -⟩ := text?_eq.mp h.here.1
  refine handleKey_seen E hk hb comp (wp_mono hg (fun _ t1 h1 => ?_) (fun _ _ h => h) (fun _ h => h))
  rw [wp_ed]
  unfold skipCompletionsHint
  rw [wp_modify, wp_ed, wp_flush]
  exact ⟨fun _ => ⟨rfl, h1.1, open_same h1.2 rfl rfl rfl rfl ⟨rfl, rfl, rfl, rfl, fun _ => rfl, rfl, id, fun _ => rfl⟩⟩, fun _ => trivial⟩

end
end Vi
end Liner
