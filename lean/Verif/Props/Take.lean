import Verif.Props.Editor
import Verif.Props.Vi
/-
What a caller can do with an editor between keys: take the line out and change the prompt: C71.
-/

namespace Liner.Props
open Liner Liner.Spec Liner.Editor Liner.Wit

/-! ### C71 -/

/-- C71: the line is handed out as it is and is empty afterwards; nothing is written. -/
theorem C71_take (s : Ed) (t : Text) (h : text? s = some t) :
    ∃ s', takeExecBuffer s = .ok t s' ∧ text? s' = some [] ∧ s'.out = s.out ∧ s'.prompt = s.prompt := by
  unfold text? Ed.curBuf? at h
  unfold takeExecBuffer
  cases hl : s.curHistoryLoc with
  | none =>
    simp only [hl, Option.map_some, Option.some.injEq] at h
    subst h
    exact ⟨_, rfl, rfl, rfl, rfl⟩
  | some i =>
    simp only [hl] at h ⊢
    by_cases hv : s.histBufValid = true
    · simp only [hv, if_true, Option.map_some, Option.some.injEq] at h ⊢
      subst h
      exact ⟨_, rfl, by simp [text?, Ed.curBuf?], rfl, rfl⟩
    · rw [if_neg hv] at h ⊢
      obtain ⟨b, hb, rfl⟩ := Option.map_eq_some_iff.1 h
      rw [hb]
      have hi : i < s.history.buffers.length := (List.getElem?_eq_some_iff.1 hb).1
      refine ⟨_, rfl, ?_, rfl, rfl⟩
      simp [text?, Ed.curBuf?, hv, hi]

theorem taken {s s' : Ed} {t : Text} (h : takeExecBuffer s = .ok t s') : text? s = some t := by
  unfold takeExecBuffer at h
  unfold text? Ed.curBuf?
  split at h
  · split at h
    · rename_i hv
      cases h
      simp [hv]
    · rename_i hv
      split at h
      · rename_i b hb
        cases h
        simp [hv, hb]
      · cases h
  · cases h
    rfl

/-- C71: taking the line a second time gives the empty line. -/
theorem C71_twice (s s' : Ed) (t : Text) (h : takeExecBuffer s = .ok t s') :
    ∃ s'', takeExecBuffer s' = .ok [] s'' := by
  obtain ⟨s1, h1, h2, -⟩ := C71_take s t (taken h)
  rw [h] at h1
  cases h1
  obtain ⟨s2, h3, -⟩ := C71_take s' [] h2
  exact ⟨s2, h3⟩

/-- C71: no other line is touched: neither the line that waits at the end of the history while an
entry is displayed, nor any stored entry other than the one displayed, and none at all when the
line displayed is not a stored entry. -/
theorem C71_others (s s' : Ed) (t : Text) (h : takeExecBuffer s = .ok t s') :
    (s.curHistoryLoc ≠ none → s'.newBuf = s.newBuf) ∧
    (∀ j, s.curHistoryLoc ≠ some j ∨ s.histBufValid = true →
      s'.history.buffers[j]? = s.history.buffers[j]?) ∧
    s'.history.buffers.length = s.history.buffers.length ∧ s'.fs = s.fs ∧
    s'.curHistoryLoc = s.curHistoryLoc ∧ s'.histBufValid = s.histBufValid ∧ s'.cursor = s.cursor := by
  unfold takeExecBuffer at h
  split at h
  · rename_i i hl
    split at h
    · cases h
      exact ⟨fun _ => rfl, fun _ _ => rfl, rfl, rfl, rfl, rfl, rfl⟩
    · rename_i hv
      split at h
      · cases h
        refine ⟨fun _ => rfl, fun j hj => ?_, by simp, rfl, rfl, rfl, rfl⟩
        rcases hj with hj | hj
        · rw [hl] at hj
          simp only [ne_eq, Option.some.injEq] at hj
          simp [List.getElem?_set_ne hj]
        · exact absurd hj hv
      · cases h
  · rename_i hl
    cases h
    exact ⟨fun h => absurd hl h, fun _ _ => rfl, rfl, rfl, rfl, rfl, rfl⟩

example : okAnd (emacs ["ls", "cd"] [.char 'x', .char 'y'])
    (fun _ t => text? t.2 == some ['x', 'y'] && okAnd (takeExecBuffer t.2) fun l s =>
      l == ['x', 'y'] && text? s == some [] && s.cursor == 2) = true := by decide +kernel

example : okAnd (emacs ["ls", "cd"] [.char 'c', .up, .char 'y'])
    (fun _ t => text? t.2 == some ['c', 'd', 'y'] && okAnd (takeExecBuffer t.2) fun l s =>
      l == ['c', 'd', 'y'] && text? s == some [] && s.newBuf.data == ['c'] &&
      s.history.buffers.map (·.data) == [['l', 's'], ['c', 'd']]) = true := by decide +kernel

/-- The cursor stays behind: inserting a character right after the line was taken panics. -/
theorem C71_cursor_violation (E : Env) : ∃ (s s' : Ed) (t : Text) (w : Site), Inside s ∧
    takeExecBuffer s = .ok t s' ∧ ¬ Inside s' ∧ insertCharsAfterCursor E ['x'] s' = .panic w := by
  refine ⟨{ fresh [] with newBuf := .ofText ['a'], cursor := 1 }, _, _, _, ⟨['a'], rfl, le_refl 1⟩, rfl, ?_, rfl⟩
  rintro ⟨t, h1, h2⟩
  cases h1
  cases h2

/-- C71: a redraw puts the cursor back into the line. -/
theorem C71_redraw (E : Env) (s s' s'' : Ed) (t : Text) (h : takeExecBuffer s = .ok t s')
    (hs : SearchOnNewLine s) (hd : display E s' = .ok () s'') : s''.cursor = 0 ∧ text? s'' = some [] := by
  obtain ⟨s1, e, h2, -⟩ := C71_take s t (taken h)
  rw [h] at e
  cases e
  have hs' : SearchOnNewLine s' := by
    intro h3
    rw [(C71_others s s' t h).2.2.2.2.1]
    refine hs ?_
    unfold takeExecBuffer at h
    split at h
    · split at h
      · cases h; exact h3
      · split at h
        · cases h; exact h3
        · cases h
    · cases h; exact h3
  obtain ⟨b0, hb0, hd0⟩ := text?_eq.mp h2
  obtain ⟨b, sug, hb, -, hdr⟩ := (wp_ok (display_wp E s') hd).ex
  have hcb := drawn_curBuf hdr
  rw [pre_curBuf hs', hb0] at hb
  cases hb
  have ht : text? s'' = some [] := text?_eq.mpr ⟨b0, by rw [hcb, pre_curBuf hs', hb0], hd0⟩
  obtain ⟨t', h5, h6⟩ := wp_ok (ends_display E s') hd
  rw [ht] at h5
  cases h5
  exact ⟨Nat.le_zero.1 h6, ht⟩

/-- C71: a new prompt is the one given, except that it goes on showing the vi mode shown before. -/
theorem C71_prompt (p : Prompt) (s : Ed) : ∃ s', setPrompt p s = .ok () s' ∧
    s'.prompt.prompt = p.prompt ∧ (s'.prompt.viStatus.isSome = p.viStatus.isSome) ∧
    (∀ st st', p.viStatus = some st → s'.prompt.viStatus = some st' →
      st'.normal = st.normal ∧ st'.insert = st.insert ∧
      st'.mode = (s.prompt.viStatus.map (·.mode)).getD st.mode) ∧
    { s' with prompt := s.prompt } = s := by
  rcases p with ⟨pp, new⟩
  rcases s with ⟨⟨q, old⟩, _⟩
  cases new with
  | none => exact ⟨_, rfl, rfl, rfl, fun _ _ h => (nomatch h), rfl⟩
  | some new =>
    cases old <;> refine ⟨_, rfl, rfl, rfl, fun st st' h h' => ?_, rfl⟩ <;> cases h <;> cases h' <;>
      exact ⟨rfl, rfl, rfl⟩

/-- C71: after any vi keys a new prompt with an indicator shows the mode the keys led to. -/
theorem C71_mode (E : Env) (p p' q : Prompt) (h : History) (fs : FS) (b : Buffer)
    (keys : List (Key × (Text → List Text))) (v : Vi) (s s' : Ed)
    (hs : session Vi.keyMap E p keys (({} : Vi), initial p' h fs b) = .ok () (v, s))
    (hw : s.prompt.viStatus ≠ none) (hq : setPrompt q s = .ok () s') (st : ViStatus)
    (hst : s'.prompt.viStatus = some st) :
    (v.mode = .normal → st.asStr = st.normal) ∧ (v.mode = .insert → st.asStr = st.insert) := by
  obtain ⟨old, ho⟩ := Option.ne_none_iff_exists'.1 hw
  obtain ⟨h1, h2, -⟩ := C58_shown E p p' h fs b keys v s hs old ho
  obtain ⟨s1, e, -, h4, h5, -⟩ := C71_prompt q s
  rw [hq] at e
  cases e
  have : ∃ st0, q.viStatus = some st0 := by
    rw [hst] at h4
    exact Option.isSome_iff_exists.1 h4.symm
  obtain ⟨st0, h0⟩ := this
  obtain ⟨-, -, h6⟩ := h5 st0 st h0 hst
  rw [ho] at h6
  simp only [Option.map_some, Option.getD_some] at h6
  refine ⟨fun hm => ?_, fun hm => ?_⟩
  · unfold ViStatus.asStr; rw [h6, h1 hm]
  · unfold ViStatus.asStr; rw [h6, h2 hm]

/-- The same keys with the prompt exchanged before them and after. -/
example : okAnd (session Vi.keyMap Tests.env { prompt := ['>'], viStatus := some {} }
      [plain (.char 'a'), plain .esc] ({}, initial { prompt := ['>'], viStatus := some {} } (hist []) Tests.noFiles {}))
    (fun _ t => okAnd (setPrompt { prompt := ['$'], viStatus := some { normal := ['N'], insert := ['I'] } } t.2)
      fun _ s => s.prompt.toText == ['N', '$']) = true := by decide +kernel

end Liner.Props
