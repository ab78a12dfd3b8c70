import Verif.Proof.ViPast
import Verif.Proof.Dry
/-
Enter in vi, and keys that leave no list of candidates.
-/

set_option linter.unusedSectionVars false

namespace Liner
namespace Vi
open Liner.Spec Liner.Editor Liner.Props M KM

section
variable [Around] (E : Env) {e : Bool} {v : Vi} {s : Ed} {l r : Text}

theorem quiet_open (ha : Around.enters) (h : Open e s l r) : Open e (Editor.quiet s) l r :=
  ⟨rfl, h.ne, Around.quiet ha h.around, h.here⟩

theorem finishes_open (h : Open e s l r) (hh : s.showCompletionsHint = none) :
    Wp (finishLine E) s (fun done s' => (l.getLast? = some '\\' → done = false ∧
        Open e s' (rest e (l ++ ['\n']) r).1 (rest e (l ++ ['\n']) r).2) ∧
      (l.getLast? ≠ some '\\' → done = true ∧ text? s' = some (l ++ r))) (fun _ _ => True) (· ≠ .op) := by
  obtain ⟨b0, h0, h1⟩ := text?_eq.mp h.here.1
  have hc : s.cursor = l.length := h.here.2
  unfold finishLine
  rw [wp_bind, wp_get]
  rw [if_neg (by simp [hh]), wp_bind, wp_curBuf]
  refine ⟨fun b hb' => ?_, fun hn => ?_⟩
  · rw [h0] at hb'; cases hb'
    by_cases hl : l.getLast? = some '\\'
    · rw [if_pos (by rw [hc, charBefore_at h1]; exact hl), wp_bind]
      refine wp_mono (insert_sets E h (Side.refl _) ['\n']) (fun _ s' h2 => ?_) (fun _ _ _ => trivial) (fun _ h => h)
      exact ⟨fun _ => ⟨rfl, h2.here⟩, fun hn => absurd hl hn⟩
    rw [if_neg (by rw [hc, charBefore_at h1]; exact hl), wp_bind, wp_modify, wp_bind]
    refine wp_mono (displayImpl_wp E false _) (fun _ s' h2 => ?_) (fun _ _ _ => trivial) (fun w hw => ?_)
    · obtain ⟨b, hb, l', c, o, t, rfl⟩ := h2.drawn
      rw [wp_bind, wp_writeTerm]
      refine ⟨fun _ => ?_, fun _ => trivial⟩
      rw [wp_bind, wp_modify]
      exact ⟨fun h => absurd h hl, fun _ => ⟨rfl, h.here.1⟩⟩
    · rintro rfl
      have : s.curBuf? = none := hw
      rw [h0] at this; cases this
  · rw [h0] at hn; cases hn

/-- Enter: a backslash before the cursor makes the line go on. -/
theorem finish_open (ha : Around.enters) (h : Open e s l r) (hh : s.showCompletionsHint = none) :
    Wp (handleNewline E) s (fun done s' => (l.getLast? = some '\\' → done = false ∧
        Open e s' (rest e (l ++ ['\n']) r).1 (rest e (l ++ ['\n']) r).2) ∧
      (l.getLast? ≠ some '\\' → done = true ∧ text? s' = some (l ++ r))) (fun _ _ => True) (· ≠ .op) := by
  rw [newline_run E h.quiet]
  exact finishes_open E (quiet_open ha h) hh

/-- The log of the line, if Enter does not end it. -/
theorem newline_grew (h : Open e s l r) (hh : s.showCompletionsHint = none) (hl : l.getLast? = some '\\') :
    Wp (handleNewline E) s (fun _ s' => Grew Single s s') (fun _ _ => True) (fun _ => True) := by
  rw [newline_run E h.quiet]
  obtain ⟨b0, h0, h1⟩ := text?_eq.mp h.here.1
  have hc : (Editor.quiet s).cursor = l.length := h.here.2
  unfold finishLine
  rw [wp_bind, wp_get]
  rw [if_neg (by simp [Editor.quiet, hh]), wp_bind, wp_curBuf]
  refine ⟨fun b hb' => ?_, fun hn => trivial⟩
  rw [show (Editor.quiet s).curBuf? = some b0 from h0] at hb'; cases hb'
  rw [if_pos (by rw [hc, charBefore_at h1]; exact hl), wp_bind]
  exact wp_mono (gw_insert E '\n' (Editor.quiet s) rfl) (fun _ s' h2 => ⟨h2.quiet, h2.log⟩) (fun _ _ h => h) (fun _ h => h)

/-- Enter after a backslash. -/
theorem enter_goes {comp : Text → List Text} (ha : Around.enters) (h : Open e s l r) (hh : s.showCompletionsHint = none) (hl : l.getLast? = some '\\') :
    Wp (Spec.press keyMap E [(.char '\n', comp)]) (v, s) (fun _ t' => t'.1 = v ∧
      Open e t'.2 (rest e (l ++ ['\n']) r).1 (rest e (l ++ ['\n']) r).2 ∧ Grew Single s t'.2) T2 (· ≠ .op) := by
  obtain ⟨b, hb, hbd⟩ := text?_eq.mp h.here.1
  unfold Spec.press
  rw [wp_bind, wp_congr (handleKey_eq keyMap E comp (t := (v, s)) hb _), wp_bind]
  have : KeyMap.translate (.char '\n') = .char '\n' := by decide
  rw [this, wp_congr (dispatch_newline keyMap E comp (v, s)), wp_ed]
  refine wp_mono (wp_and (finish_open E ha h hh) (newline_grew E h hh hl)) (fun done s' h1 => ?_) (fun _ _ _ => trivial) (fun _ h => h.1)
  rw [wp_bind, wp_ed, wp_flush]
  have ho := (h1.1.1 hl).2
  exact ⟨fun _ => ⟨rfl, ⟨ho.quiet, ho.ne, around_as ho.around ⟨rfl, rfl, rfl, rfl, fun _ => rfl, rfl, id, fun _ => rfl⟩, ho.here⟩, h1.2.quiet, h1.2.log⟩, fun _ => trivial⟩

/-! ### The list of candidates -/

/-- The key never leaves the list. -/
theorem seen_shut {k : Key} (h : ∀ s, Seen s k) (s : Ed) : ¬ keeps s k := by
  let s0 : Ed := { initial ⟨[], none⟩ {} ⟨fun _ => none, fun _ => false⟩ (.ofText []) with autosuggestion := some (.ofText []) }
  rintro (h1 | h1 | ⟨h1, -⟩ | ⟨h1, -⟩)
  · exact (h s0).searchR h1
  · exact (h s0).searchS h1
  · exact (h s0).accept ⟨h1, rfl⟩
  · exact (h s0).right ⟨h1, rfl, _, rfl, Nat.zero_le _⟩

/-- After such keys there is no list. -/
theorem press_shut : ∀ (kcs : List (Key × (Text → List Text))) (t : Vi × Ed), kcs ≠ [] → (∀ x ∈ kcs, ∀ s, Seen s x.1) →
    Wp (Spec.press keyMap E kcs) t (fun _ t' => t'.2.showCompletionsHint = none) T2 (fun _ => True)
  | [], _, hn, _ => absurd rfl hn
  | (k, c) :: kcs, t, _, h => by
    unfold Spec.press
    rw [wp_bind]
    have hk := h (k, c) List.mem_cons_self
    refine wp_mono (key_list E c keyMap t (hk t.2).tab) (fun _ t1 h1 => ?_) (fun _ _ _ => trivial) (fun _ h => h)
    by_cases hn : kcs = []
    · subst hn
      exact h1.2 (seen_shut hk t.2)
    · exact press_shut kcs t1 hn fun x hx => h x (List.mem_cons_of_mem _ hx)

/-- Without Tab none appears. -/
theorem press_dry : ∀ (kcs : List (Key × (Text → List Text))) (t : Vi × Ed), (∀ x ∈ kcs, x.1 ≠ .char '\t') →
    t.2.showCompletionsHint = none →
    Wp (Spec.press keyMap E kcs) t (fun _ t' => t'.2.showCompletionsHint = none) T2 (fun _ => True)
  | [], _, _, hn => hn
  | (k, c) :: kcs, t, h, hn => by
    unfold Spec.press
    rw [wp_bind]
    exact wp_mono (key_dry E c keyMap t (h (k, c) List.mem_cons_self) hn) (fun _ t1 h1 =>
      press_dry kcs t1 (fun x hx => h x (List.mem_cons_of_mem _ hx)) h1) (fun _ _ _ => trivial) (fun _ h => h)

end
end Vi
end Liner
